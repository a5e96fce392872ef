/-!
# The simulation cycle

Model of `model_cycle`, `/repo/src/rt/model.c` lines 3241-3349, with the queues it uses
(`deferq_do`, `deferq_run`, 368-412; `deltaq_insert_proc`, `deltaq_insert_driver`, 849-876;
`wakeup_one`, 2806-2871; `model_set_timeout_cb`, 3572-3584).

What processes, driver updates and callbacks do is arbitrary: a function gives for each state and
job the list of calls which the job makes.  A failed assertion or a fatal error is `none`.

Simplifications: the heap is a list of which all entries with the least key are extracted in list
order; the calculation of driving and effective values (3300-3310), which only wakes processes, is
part of the jobs of the driver queue; properties, watches and transfers are treated like processes
that never delay themselves; the order of the process queue is not shuffled.
-/

namespace Verif.Sim.Cycle

/-- Events in `eventq_heap`, rt/model.c 3273-3292. -/
inductive Ev where
  | proc (p : Nat)
  | driver (d : Nat)
  | timeout (c : Nat)
  deriving DecidableEq, Repr

/-- Tasks of the queues; `global` stands for the callbacks of a global event. -/
inductive Job where
  | run (p : Nat)
  | driver (d : Nat)
  | timeout (c : Nat)
  | implicit (i : Nat)
  | global (k : Nat)
  deriving DecidableEq, Repr

/-- The parts of the cycle in which jobs are run. -/
inductive Phase where
  | start
  | drivers
  | implicits
  | procs
  | post
  deriving DecidableEq, Repr

/-- What a job does. -/
inductive Act where
  /-- `x_sched_process` -/
  | schedProc (delay : Nat)
  /-- an assignment or forcing that queues the update of a driver -/
  | schedDriver (delay d : Nat)
  | setTimeout (whn c : Nat)
  /-- `wakeup_one` on a process -/
  | wake (p : Nat)
  /-- `wakeup_one` on an implicit signal -/
  | wakeImplicit (i : Nat)
  deriving DecidableEq, Repr

/-- One executed job. -/
structure Entry where
  phase : Phase
  now : Nat
  iter : Int
  job : Job
  deriving DecidableEq, Repr

structure St where
  now : Nat
  iter : Int
  nextDelta : Bool
  canDelta : Bool
  heap : List (Nat × Ev)
  deltaProcq : List Job
  deltaDriverq : List Job
  procq : List Job
  driverq : List Job
  implicitq : List Job
  postponedq : List Job
  pending : Nat → Bool
  delayed : Nat → Bool
  ipending : Nat → Bool
  log : List Entry

def set (f : Nat → Bool) (a : Nat) (v : Bool) : Nat → Bool := fun x => if x = a then v else f x

/-- `heap_delete` with `heap_delete_proc_cb`, rt/model.c 2746-2752. -/
def deleteProc (p : Nat) : List (Nat × Ev) → List (Nat × Ev)
  | [] => []
  | x :: l => if x.2 = .proc p then l else x :: deleteProc p l

/-- `wakeup_one`, rt/model.c 2806-2871, for a process. -/
def wakeup (postponed : Nat → Bool) (p : Nat) (s : St) : St :=
  if s.pending p then s
  else
    let s := if postponed p then { s with postponedq := s.postponedq ++ [Job.run p] }
             else { s with procq := s.procq ++ [Job.run p] }
    let s := if s.delayed p then
        { s with heap := deleteProc p s.heap, delayed := set s.delayed p false }
      else s
    { s with pending := set s.pending p true }

/-- Whether an update in the next delta cycle is refused: `check_postponed` (3419-3428) for a
process, the assertions in `force_signal` (3452) and its like otherwise. -/
def blocked (postponed : Nat → Bool) (cur : Option Nat) (s : St) : Bool :=
  match cur with
  | some p => postponed p
  | none => !s.canDelta

/-- Signals change, and processes are woken, only while drivers and implicit signals are updated:
`notify_event` (2873-2895) is only called by `put_effective`, and that from jobs of these two
queues and lines 3300-3314. -/
def Phase.wakes : Phase → Bool
  | .drivers | .implicits => true
  | _ => false

/-- One action of the job of process `cur`, or of another job. -/
def doAct (postponed : Nat → Bool) (ph : Phase) (cur : Option Nat) (s : St) : Act → Option St
  | .schedProc delay =>
    match cur with
    | none => none
    | some p =>
      if delay = 0 then
        if s.pending p ∨ s.delayed p then none
        else some { s with pending := set s.pending p true, deltaProcq := s.deltaProcq ++ [.run p],
                           nextDelta := true }
      else if s.delayed p then none
      else some { s with delayed := set s.delayed p true, heap := s.heap ++ [(s.now + delay, .proc p)] }
  | .schedDriver delay d =>
    if delay = 0 then
      if blocked postponed cur s then none
      else some { s with deltaDriverq := s.deltaDriverq ++ [.driver d], nextDelta := true }
    else some { s with heap := s.heap ++ [(s.now + delay, .driver d)] }
  | .setTimeout whn c =>
    if s.now < whn then some { s with heap := s.heap ++ [(whn, .timeout c)] } else none
  | .wake p => if ph.wakes then some (wakeup postponed p s) else none
  | .wakeImplicit i =>
    if !ph.wakes then none
    else if s.ipending i then some s
    else some { s with ipending := set s.ipending i true, implicitq := s.implicitq ++ [.implicit i] }

def doActs (postponed : Nat → Bool) (ph : Phase) (cur : Option Nat) (s : St) (as : List Act) :
    Option St := as.foldlM (doAct postponed ph cur) s

/-- What the jobs do. -/
abbrev Behaviour := St → Job → List Act

/-- Which process a job runs. -/
def Job.cur : Job → Option Nat
  | .run p => some p
  | _ => none

/-- A task is called: `async_run_process` and `async_update_implicit_signal` check and clear the
pending flag (2726-2734, 2716-2724), then the job does its work. -/
def runJob (postponed : Nat → Bool) (beh : Behaviour) (ph : Phase) (s : St) (j : Job) : Option St :=
  let s' := { s with log := s.log ++ [⟨ph, s.now, s.iter, j⟩] }
  match j with
  | .run p =>
    if s.pending p then
      let s' := { s' with pending := set s.pending p false }
      doActs postponed ph j.cur s' (beh s' j)
    else none
  | .implicit i =>
    if s.ipending i then
      let s' := { s' with ipending := set s.ipending i false }
      doActs postponed ph j.cur s' (beh s' j)
    else none
  | _ => doActs postponed ph j.cur s' (beh s' j)

def runJobs (postponed : Nat → Bool) (beh : Behaviour) (ph : Phase) (s : St) (js : List Job) :
    Option St := js.foldlM (runJob postponed beh ph) s

/-- `deferq_run`, rt/model.c 393-412, on the driver queue. -/
def runDrivers (postponed : Nat → Bool) (beh : Behaviour) (s : St) : Option St := do
  let s' ← runJobs postponed beh .drivers s s.driverq
  if s'.driverq = s.driverq then some { s' with driverq := [] } else none

/-- `deferq_run` on the queue of implicit signals. -/
def runImplicits (postponed : Nat → Bool) (beh : Behaviour) (s : St) : Option St := do
  let s' ← runJobs postponed beh .implicits s s.implicitq
  if s'.implicitq = s.implicitq then some { s' with implicitq := [] } else none

/-- `deferq_run` on the process queue. -/
def runProcs (postponed : Nat → Bool) (beh : Behaviour) (s : St) : Option St := do
  let s' ← runJobs postponed beh .procs s s.procq
  if s'.procq = s.procq then some { s' with procq := [] } else none

/-- `deferq_run` on the queue of postponed processes. -/
def runPostponed (postponed : Nat → Bool) (beh : Behaviour) (s : St) : Option St := do
  let s' ← runJobs postponed beh .post s s.postponedq
  if s'.postponedq = s.postponedq then some { s' with postponedq := [] } else none

/-- One event extracted from the heap, rt/model.c 3273-3293. -/
def dispatch (s : St) : Ev → Option St
  | .proc p =>
    if s.delayed p ∧ ¬ s.pending p then
      some { s with delayed := set s.delayed p false, pending := set s.pending p true,
                    procq := s.procq ++ [Job.run p] }
    else none
  | .driver d => some { s with driverq := s.driverq ++ [.driver d] }
  | .timeout c => some { s with driverq := s.driverq ++ [.timeout c] }

def minKey : List (Nat × Ev) → Nat
  | [] => 0
  | [x] => x.1
  | x :: l => min x.1 (minKey l)

/-- rt/model.c 3245-3264: the beginning of a cycle. -/
def beginCycle (s : St) : St :=
  let s := if s.nextDelta then { s with iter := s.iter + 1 }
           else { s with now := minKey s.heap, iter := 0 }
  { s with nextDelta := false, procq := s.deltaProcq, deltaProcq := s.procq,
           driverq := s.deltaDriverq, deltaDriverq := s.driverq }

/-- rt/model.c 3270-3300: the events of this time. -/
def takeEvents (s : St) : Option St :=
  ((s.heap.filter (fun x => x.1 ≤ s.now)).map (·.2)).foldlM dispatch
    { s with heap := s.heap.filter (fun x => ¬ x.1 ≤ s.now) }

def timeEvents (delta : Bool) (s : St) : Option St := if delta then some s else takeEvents s

/-- rt/model.c 3337-3346: the end of a time step. -/
def endTimeStep (postponed : Nat → Bool) (beh : Behaviour) (s : St) : Option St := do
  let s ← runPostponed postponed beh { s with canDelta := false }
  let s ← runJob postponed beh .post s (.global 4)
  some { s with canDelta := true }

/-- rt/model.c 3265-3268. -/
def nextTimeStep (postponed : Nat → Bool) (beh : Behaviour) (s : St) : Option St :=
  if s.iter = 0 then runJob postponed beh .start s (.global 0) else some s

/-- rt/model.c 3334-3335. -/
def lastKnown (postponed : Nat → Bool) (beh : Behaviour) (s : St) : Option St :=
  if s.nextDelta then some s else runJob postponed beh .procs s (.global 3)

/-- `model_cycle`, rt/model.c 3241-3349. -/
def cycle (postponed : Nat → Bool) (beh : Behaviour) (s : St) : Option St := do
  let delta := s.nextDelta
  let s ← nextTimeStep postponed beh (beginCycle s)
  let s ← runJob postponed beh .start s (.global 1)
  let s ← timeEvents delta s
  let s ← runDrivers postponed beh s
  let s ← runImplicits postponed beh s
  let s ← runProcs postponed beh s
  let s ← runJob postponed beh .procs s (.global 2)
  let s ← lastKnown postponed beh s
  if s.nextDelta then some s else endTimeStep postponed beh s

/-- `should_stop_now`, rt/model.c 3351-3365: whether there is anything left to do. -/
def canRun (s : St) : Bool := s.nextDelta || !s.heap.isEmpty

/-- States reachable by cycles from a state as left by `model_reset`. -/
inductive Reach (postponed : Nat → Bool) (beh : Behaviour) (s0 : St) : St → Prop where
  | start : Reach postponed beh s0 s0
  | step {s s'} : Reach postponed beh s0 s → canRun s = true → cycle postponed beh s = some s' →
      Reach postponed beh s0 s'

end Verif.Sim.Cycle
