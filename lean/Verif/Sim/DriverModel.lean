/-!
# Drivers and their projected waveforms

Model of `insert_transaction`, `sched_driver`, `sched_disconnect`, `update_driver` and
`fast_update_driver`, `/repo/src/rt/model.c` lines 2563-2694 and 3006-3044, for one driver, together
with its entries in the queue of the current delta cycle (`delta_driverq`) and in the event heap
(`eventq_heap`, 849-882) and with the part of `model_cycle` (3241-3346) which runs them.

Times are the bit patterns of `uint64_t`, as natural numbers below 2^64; values are those of a type
`V` (what `cmp_values` compares).

Simplifications: the queueing of all drivers of a signal at once (`sigqueued`) is treated like the
queueing of the single driver; the time of the current transaction and the bookkeeping of activity
(`was_active`, `active_delta`) are left out; `update_driving` is recorded in a log.
-/

namespace Verif.Sim

/-- `waveform_t`, rt/structs.h 100-104, without the link. -/
structure Txn (V : Type) where
  whn : Nat
  value : V
  deriving DecidableEq, Repr

/-- Entries of `delta_driverq` for the driver: `async_update_driver` and `async_fast_driver`. -/
inductive Job where
  | upd
  | fast
  deriving DecidableEq, Repr

/-- A driver and its wake-ups. -/
structure Drv (V : Type) where
  /-- `m->now` -/
  now : Nat
  /-- `NET_F_FAST_DRIVER` -/
  isFast : Bool
  /-- `fastqueued` -/
  fastq : Bool
  /-- `waveforms.value` -/
  cur : V
  disc : Bool
  /-- `waveforms.next` -/
  pend : List (Txn V)
  delta : List Job
  queue : List Nat
  /-- calls of `update_driving` with the time and the value, `none` when disconnected -/
  log : List (Nat × Option V)
  deriving DecidableEq, Repr

/-- Unary minus on `uint64_t`. -/
def neg64 (w : Nat) : Nat := (2 ^ 64 - w) % 2 ^ 64

variable {V : Type} [DecidableEq V]

/-- `insert_transaction`, rt/model.c 2563-2602: the new list and whether an event at this time was
queued already.  `w - reject` does not go below zero since `reject` is at most the delay (3426). -/
def insertTxn (w : Txn V) (whn reject : Nat) : List (Txn V) → List (Txn V) × Bool
  | [] => ([w], false)
  | it :: rest =>
    if it.whn < whn then
      if whn - reject ≤ it.whn ∧ it.value ≠ w.value then insertTxn w whn reject rest
      else
        let r := insertTxn w whn reject rest
        (it :: r.1, r.2)
    else ([w], (it :: rest).any (fun t => t.whn == whn))

/-- `deltaq_insert_driver`, rt/model.c 865-876. -/
def wakeAfter (after : Nat) (s : Drv V) : Drv V :=
  if after = 0 then { s with delta := s.delta ++ [.upd] }
  else { s with queue := s.queue ++ [s.now + after] }

/-- The end of `sched_driver` and `sched_disconnect`, 2671-2672 and 2692-2693. -/
def insertOrWake (after reject : Nat) (w : Txn V) (pend : List (Txn V)) (s : Drv V) : Drv V :=
  let r := insertTxn w (s.now + after) reject pend
  let s := { s with pend := r.1 }
  if r.2 then s else wakeAfter after s

/-- `sched_driver`, rt/model.c 2604-2674. -/
def assign (after reject : Nat) (v : V) (s : Drv V) : Drv V :=
  if after = 0 ∧ s.isFast = true then
    if s.fastq then { s with cur := v }
    else if v = s.cur then s
    else { s with delta := s.delta ++ [.fast], fastq := true, cur := v }
  else
    let pend := if s.isFast ∧ s.fastq then [⟨s.now, s.cur⟩] else s.pend
    insertOrWake after reject ⟨s.now + after, v⟩ pend { s with isFast := false }

/-- `sched_disconnect`, rt/model.c 2676-2694; `zero` is the value with `qword = 0`. -/
def disconnect (zero : V) (after reject : Nat) (s : Drv V) : Drv V :=
  insertOrWake after reject ⟨neg64 (s.now + after), zero⟩ s.pend { s with isFast := false }

/-- `update_driver`, rt/model.c 3006-3025. -/
def updateDriver (s : Drv V) : Drv V :=
  match s.pend with
  | [] => s
  | w :: rest =>
    if w.whn = s.now then
      { s with cur := w.value, pend := rest, disc := false, log := s.log ++ [(s.now, some w.value)] }
    else if w.whn = neg64 s.now then
      { s with cur := w.value, pend := rest, disc := true, log := s.log ++ [(s.now, none)] }
    else s

/-- `fast_update_driver`, rt/model.c 3027-3044. -/
def fastUpdate (s : Drv V) : Drv V :=
  let s := if s.isFast then { s with log := s.log ++ [(s.now, some s.cur)] } else updateDriver s
  { s with fastq := false }

def runJob (s : Drv V) : Job → Drv V
  | .upd => updateDriver s
  | .fast => fastUpdate s

/-- `deferq_run(m, &m->driverq)`, rt/model.c 3298. -/
def runJobs (s : Drv V) (js : List Job) : Drv V := js.foldl runJob s

/-- The driver's part of a delta cycle, rt/model.c 3249-3250, 3263-3264, 3298. -/
def deltaCycle (s : Drv V) : Drv V := runJobs { s with delta := [] } s.delta

/-- The driver's part of a cycle which advances the time to `t`, rt/model.c 3251-3254, 3271-3298. -/
def timeCycle (t : Nat) (s : Drv V) : Drv V :=
  runJobs { s with now := t, queue := s.queue.filter (· ≠ t) }
    (s.delta ++ List.replicate (s.queue.count t) .upd)

/-- A driver with initial value `v`, rt/model.c 1705 (all nexuses start with the flag). -/
def newDriver (v : V) (fast : Bool) : Drv V :=
  { now := 0, isFast := fast, fastq := false, cur := v, disc := false, pend := [], delta := [],
    queue := [], log := [] }

/-- Times that fit `int64_t`; `TIME_HIGH` is the largest of them. -/
def timeLimit : Nat := 2 ^ 63

/-- The events in the life of a driver. -/
inductive Ev (V : Type) where
  | assign (after reject : Nat) (v : V)
  | disconnect (after reject : Nat)
  /-- a delta cycle, whatever its cause -/
  | delta
  /-- the time advances -/
  | time (t : Nat)
  deriving DecidableEq, Repr

def Ev.apply (zero : V) (e : Ev V) (s : Drv V) : Drv V :=
  match e with
  | .assign after reject v => Verif.Sim.assign after reject v s
  | .disconnect after reject => Verif.Sim.disconnect zero after reject s
  | .delta => deltaCycle s
  | .time t => timeCycle t s

/-- When an event can happen.  Assignments: the delay is not less than the rejection limit (checked
at 3426-3433) and the time does not overflow.  The time advances only when no delta cycle is due, to
the least key in the event heap, which is not beyond an event of this driver. -/
def Ev.Valid (e : Ev V) (s : Drv V) : Prop :=
  match e with
  | .assign after reject _ => reject ≤ after ∧ s.now + after < timeLimit
  | .disconnect after reject => reject ≤ after ∧ s.now + after < timeLimit
  | .delta => True
  | .time t => s.now < t ∧ t < timeLimit ∧ s.delta = [] ∧ ∀ q ∈ s.queue, t ≤ q

/-- The states which a driver can reach by events that satisfy `P`. -/
inductive Reach (zero : V) (P : Ev V → Drv V → Prop) (s0 : Drv V) : Drv V → Prop where
  | start : Reach zero P s0 s0
  | step {s e} : Reach zero P s0 s → e.Valid s → P e s → Reach zero P s0 (e.apply zero s)

end Verif.Sim
