import Verif.Thread.Count

/-!
# Work queues of `thread.c`

Model of one work queue: `workq_do`, `workq_start`, `workq_outstanding`, `workq_drain`,
`execute_task`, and of what threads do with the global queue and their own queues (`globalq_put`,
`globalq_take`, `globalq_poll`, `steal_task`), `/repo/src/thread.c` lines 861-1224, as a transition
system with any number of threads.  Thread 0 is the main thread.

Simplifications:
* Sequentially consistent memory.
* The deque of a thread is a list with atomic operations (`Verif/Thread/DequeProps` is about its
  implementation), the global queue a list with atomic `put` and `take` (`Verif/Thread/GlobalqProps`);
  its lock is only visible while the main thread holds it in `workq_start`.
* `epoch` and the counts are natural numbers; C keeps 32 bits of each.
* `workq_do` is one step: it writes only fields that belong to the thread and is never called during
  `workq_start` or later until `workq_drain` has returned (the assertion of line 973).
* Tasks of other work queues and asynchronous tasks (`Item.other`) come into the global queue at any
  time.  A task that runs can run other tasks, like `workq_drain` of another queue does: every thread
  has a stack of tasks.  The main thread may also take tasks where the code would not: there are more
  executions than in C.
-/

namespace Verif.Thread.Workq

open Verif.Thread

/-- `entryq_ptr_t`, thread.c 174-180. -/
structure Ptr where
  count : Nat
  epoch : Nat
deriving DecidableEq, Repr

/-- A task of this work queue, or another one. -/
inductive Item where
  | mine (x : Nat)
  | other
deriving DecidableEq, Repr

/-- Where `execute_task` (thread.c 906-921) is. -/
inductive Stage where
  /-- line 908 -/
  | running
  /-- the function has returned -/
  | finished
  /-- line 914 has loaded the epoch -/
  | loaded (e : Nat)
deriving DecidableEq, Repr

structure Frame where
  item : Item
  stage : Stage
deriving DecidableEq, Repr

/-- Where the main thread is. -/
inductive MPc where
  | out
  /-- thread.c 1142-1144: about to look at queue `i`; `e` and `mt` are the local variables `epoch` and
  `maxthread`. -/
  | startLoop (e mt i nserial nparallel : Nat)
  /-- thread.c 1153, 1164: about to execute the tasks `js`; `nserial` is the value afterwards, `depth`
  the number of tasks that were running before -/
  | startRun (e mt i nserial nparallel depth : Nat) (js : List Nat)
  /-- thread.c 1203-1207: between two calls of `workq_outstanding` -/
  | drain
  /-- thread.c 1187: about to load `wptr` of queue `i` -/
  | scanW (e mt i : Nat) (pending : Int)
  /-- thread.c 1191: about to load `comp` of queue `i` -/
  | scanC (e mt i : Nat) (pending : Int)
deriving DecidableEq, Repr

structure St where
  /-- `workq_t`, thread.c 193-200: `state` is START -/
  started : Bool
  epoch : Nat
  maxthread : Nat
  parallel : Bool
  /-- `entryq_t`, thread.c 184-189 -/
  wptr : Nat → Ptr
  comp : Nat → Ptr
  tasks : Nat → List Nat
  /-- `max_thread_id`, thread.c 263 -/
  maxId : Nat
  /-- the main thread holds the lock of the global queue -/
  locked : Bool
  /-- what is in the global queue -/
  global : List Item
  /-- what is in the queue of a thread, top first -/
  deq : Nat → List Item
  /-- the tasks a thread is executing, innermost first -/
  stack : Nat → List Frame
  main : MPc

inductive Label where
  | tau
  /-- a call of `workq_do` with this task -/
  | submit (x : Nat)
  /-- the function of the task is called -/
  | begin (x : Nat)
  /-- the function of the task returns -/
  | finish (x : Nat)
  /-- `workq_start` is called -/
  | start
  /-- `workq_drain` returns -/
  | drained
deriving DecidableEq, Repr

/-- The number of tasks in the queue, from `wptr` (thread.c 977-979, 913-915). -/
def Ptr.now (p : Ptr) (e : Nat) : Nat := if p.epoch = e then p.count else 0

def itemLabel : Item → Label
  | .mine x => .begin x
  | .other => .tau

def finishLabel : Item → Label
  | .mine x => .finish x
  | .other => .tau

/-- Thread `t` can go on with the innermost of its tasks: in `workq_start` the main thread does not go
on with the tasks outside. -/
def Goes (s : St) (t : Nat) : Prop :=
  match s.main with
  | .startRun _ _ _ _ _ d _ => t = 0 → d < (s.stack 0).length
  | _ => True

/-- The epoch is bumped by the first queue that has tasks (thread.c 1147-1148). -/
def bump (nserial nparallel epoch : Nat) : Nat :=
  if nserial + nparallel = 0 then epoch + 1 else epoch

inductive Step : St → Label → St → Prop where
  /-- `thread_new`, thread.c 413-443 -/
  | spawn (s) : Step s .tau { s with maxId := s.maxId + 1 }
  /-- `workq_do`, thread.c 971-996 -/
  | submit (s t x) (ht : t ≤ s.maxId) (hs : s.started = false) :
      Step s (.submit x)
        { s with tasks := upd s.tasks t
                   ((s.tasks t).take ((s.wptr t).now s.epoch) ++
                     x :: (s.tasks t).drop ((s.wptr t).now s.epoch + 1))
                 wptr := upd s.wptr t ⟨(s.wptr t).now s.epoch + 1, s.epoch⟩
                 maxthread := max s.maxthread t }
  /-- `workq_start`, thread.c 1131-1141 -/
  | start (s) (hm : s.main = .out) (hs : s.started = false) :
      Step s .start { s with started := true, main := .startLoop s.epoch s.maxthread 0 0 0 }
  /-- thread.c 1145: nothing in this epoch -/
  | startSkip (s e mt i ns np) (hm : s.main = .startLoop e mt i ns np) (hi : i ≤ mt)
      (he : (s.wptr i).epoch ≠ e) :
      Step s .tau { s with main := .startLoop e mt (i + 1) ns np }
  /-- thread.c 1152-1155 -/
  | startOne (s e mt i ns np) (hm : s.main = .startLoop e mt i ns np) (hi : i ≤ mt)
      (he : (s.wptr i).epoch = e) (h1 : i = mt ∧ ns + np = 0 ∧ (s.wptr i).count = 1) :
      Step s .tau { s with epoch := bump ns np s.epoch,
                           main := .startRun e mt i (ns + 1) np (s.stack 0).length
                                     ((s.tasks i).take 1) }
  /-- thread.c 1156-1161 -/
  | startPut (s e mt i ns np) (hm : s.main = .startLoop e mt i ns np) (hi : i ≤ mt)
      (he : (s.wptr i).epoch = e) (h1 : ¬ (i = mt ∧ ns + np = 0 ∧ (s.wptr i).count = 1))
      (hp : s.parallel = true) :
      Step s .tau { s with epoch := bump ns np s.epoch, locked := true,
                           global := s.global ++ ((s.tasks i).take (s.wptr i).count).map .mine,
                           main := .startLoop e mt (i + 1) ns (np + (s.wptr i).count) }
  /-- thread.c 1162-1166 -/
  | startSerial (s e mt i ns np) (hm : s.main = .startLoop e mt i ns np) (hi : i ≤ mt)
      (he : (s.wptr i).epoch = e) (h1 : ¬ (i = mt ∧ ns + np = 0 ∧ (s.wptr i).count = 1))
      (hp : s.parallel = false) :
      Step s .tau { s with epoch := bump ns np s.epoch,
                           main := .startRun e mt i (ns + (s.wptr i).count) np (s.stack 0).length
                                     ((s.tasks i).take (s.wptr i).count) }
  | runNext (s e mt i ns np d j js) (hm : s.main = .startRun e mt i ns np d (j :: js))
      (hd : (s.stack 0).length = d) :
      Step s (.begin j) { s with stack := upd s.stack 0 (⟨.mine j, .running⟩ :: s.stack 0),
                                 main := .startRun e mt i ns np d js }
  | runDone (s e mt i ns np d) (hm : s.main = .startRun e mt i ns np d [])
      (hd : (s.stack 0).length = d) :
      Step s .tau { s with main := .startLoop e mt (i + 1) ns np }
  /-- thread.c 1170-1173 -/
  | startEnd (s e mt i ns np) (hm : s.main = .startLoop e mt i ns np) (hi : mt < i) :
      Step s .tau { s with locked := false, main := .out }
  /-- another work queue is started, or `async_do` (thread.c 1226-1240) -/
  | put (s) (hl : s.locked = false) : Step s .tau { s with global := s.global ++ [.other] }
  /-- `globalq_take`, thread.c 883-904 -/
  | take (s t k) (ht : t ≤ s.maxId) (hl : s.locked = false) (hk : k ≤ s.global.length) :
      Step s .tau { s with deq := upd s.deq t (s.deq t ++ s.global.take k)
                           global := s.global.drop k }
  /-- `globalq_poll`, thread.c 923-934 -/
  | popBot (s t x l) (ht : t ≤ s.maxId) (hd : s.deq t = l ++ [x]) :
      Step s (itemLabel x) { s with deq := upd s.deq t l,
                                    stack := upd s.stack t (⟨x, .running⟩ :: s.stack t) }
  /-- `steal_task`, thread.c 1066-1068 -/
  | popTop (s t v x l) (ht : t ≤ s.maxId) (hv : v ≤ s.maxId) (hd : s.deq v = x :: l) :
      Step s (itemLabel x) { s with deq := upd s.deq v l,
                                    stack := upd s.stack t (⟨x, .running⟩ :: s.stack t) }
  /-- thread.c 908 -/
  | finish (s t x r) (hg : Goes s t) (hk : s.stack t = ⟨x, .running⟩ :: r) :
      Step s (finishLabel x) { s with stack := upd s.stack t (⟨x, .finished⟩ :: r) }
  /-- thread.c 920 -/
  | finishOther (s t r) (hg : Goes s t) (hk : s.stack t = ⟨.other, .finished⟩ :: r) :
      Step s .tau { s with stack := upd s.stack t r }
  /-- thread.c 914 -/
  | load (s t x r) (hg : Goes s t)
      (hk : s.stack t = ⟨.mine x, .finished⟩ :: r) :
      Step s .tau { s with stack := upd s.stack t (⟨.mine x, .loaded s.epoch⟩ :: r) }
  /-- thread.c 915-917; nobody else writes `comp` of this thread since line 913 -/
  | store (s t x e r) (hg : Goes s t) (hk : s.stack t = ⟨.mine x, .loaded e⟩ :: r) :
      Step s .tau { s with comp := upd s.comp t ⟨(s.comp t).now e + 1, e⟩,
                           stack := upd s.stack t r }
  /-- thread.c 1220-1223 -/
  | drainSerial (s) (hm : s.main = .out) (hs : s.started = true) (hp : s.parallel = false) :
      Step s .drained { s with started := false }
  /-- thread.c 1202, 1180-1183 -/
  | drain (s) (hm : s.main = .out) (hs : s.started = true) (hp : s.parallel = true) :
      Step s .tau { s with main := .scanW s.epoch s.maxId 0 0 }
  /-- thread.c 1206 -/
  | rescan (s) (hm : s.main = .drain) : Step s .tau { s with main := .scanW s.epoch s.maxId 0 0 }
  /-- thread.c 1187-1189 -/
  | scanW (s e mt i p) (hm : s.main = .scanW e mt i p) (hi : i ≤ mt) :
      Step s .tau { s with main := .scanC e mt i (p + ((s.wptr i).now (e - 1) : Nat)) }
  /-- thread.c 1191-1193 -/
  | scanC (s e mt i p) (hm : s.main = .scanC e mt i p) :
      Step s .tau { s with main := .scanW e mt (i + 1) (p - ((s.comp i).now e : Nat)) }
  /-- thread.c 1197, 1202, 1206 -/
  | scanBusy (s e mt i p) (hm : s.main = .scanW e mt i p) (hi : mt < i) (hp : 0 < p) :
      Step s .tau { s with main := .drain }
  /-- thread.c 1202, 1206, 1210 -/
  | scanZero (s e mt i p) (hm : s.main = .scanW e mt i p) (hi : mt < i) (hp : ¬ 0 < p) :
      Step s .drained { s with started := false, main := .out }

/-- `workq_new`, thread.c 940-952: zeros, and the epoch 1. -/
def init (parallel : Bool) : St :=
  { started := false, epoch := 1, maxthread := 0, parallel := parallel
    wptr := fun _ => ⟨0, 0⟩, comp := fun _ => ⟨0, 0⟩, tasks := fun _ => []
    maxId := 0, locked := false, global := [], deq := fun _ => [], stack := fun _ => []
    main := .out }

/-- What happened, latest first. -/
inductive Reach (parallel : Bool) : List Label → St → Prop where
  | init : Reach parallel [] (init parallel)
  | step {tr s l s'} (h : Reach parallel tr s) (st : Step s l s') : Reach parallel (l :: tr) s'

end Verif.Thread.Workq
