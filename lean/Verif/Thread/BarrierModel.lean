import Verif.Thread.Count

/-!
# The barrier of `thread.c`

Model of `barrier_wait`, `/repo/src/thread.c` lines 1467-1493, as a transition system of `n`
threads sharing one barrier created with `count = n`.  One step per access to shared memory,
sequentially consistent.  `passed` wraps around at 2^32
(`unsigned`).  A failed test of the
waiting loop (1490-1491) is no step.
-/

namespace Verif.Thread.Barrier

open Verif.Thread

/-- Number of values of `passed`. -/
def modulus : Nat := 2 ^ 32

/-- Where a thread is; `p` is the local variable `passed`. -/
inductive Pc where
  | idle
  /-- thread.c 1482 -/
  | read
  /-- thread.c 1484 -/
  | add (p : Nat)
  /-- thread.c 1486 -/
  | reset (p : Nat)
  /-- thread.c 1487 -/
  | bump (p : Nat)
  /-- thread.c 1490 -/
  | wait (p : Nat)
  deriving DecidableEq, Repr

/-- `barrier_t` (thread.c 245-249) and the threads. -/
structure St where
  reached : Nat
  passed : Nat
  pc : Nat → Pc

inductive Label where
  | tau
  /-- a thread calls `barrier_wait` -/
  | enter (t : Nat)
  /-- the call returns -/
  | leave (t : Nat)
  deriving DecidableEq, Repr

/-- Steps of thread `t`. -/
inductive Step (n t : Nat) : St → Label → St → Prop where
  | call (s) (h : s.pc t = .idle) : Step n t s (.enter t) { s with pc := upd s.pc t .read }
  | read (s) (h : s.pc t = .read) : Step n t s .tau { s with pc := upd s.pc t (.add s.passed) }
  | addLast (s p) (h : s.pc t = .add p) (hr : s.reached = n - 1) :
      Step n t s .tau { s with reached := s.reached + 1, pc := upd s.pc t (.reset p) }
  | addWait (s p) (h : s.pc t = .add p) (hr : s.reached ≠ n - 1) :
      Step n t s .tau { s with reached := s.reached + 1, pc := upd s.pc t (.wait p) }
  | reset (s p) (h : s.pc t = .reset p) :
      Step n t s .tau { s with reached := 0, pc := upd s.pc t (.bump p) }
  | bump (s p) (h : s.pc t = .bump p) :
      Step n t s (.leave t) { s with passed := (p + 1) % modulus, pc := upd s.pc t .idle }
  | leave (s p) (h : s.pc t = .wait p) (hp : s.passed ≠ p) :
      Step n t s (.leave t) { s with pc := upd s.pc t .idle }

/-- `barrier_new`, thread.c 1467-1472. -/
def init : St := { reached := 0, passed := 0, pc := fun _ => .idle }

inductive Run (n : Nat) : List Label → St → Prop where
  | start : Run n [] init
  | step {tr s t a s'} : Run n tr s → t < n → Step n t s a s' → Run n (tr ++ [a]) s'

end Verif.Thread.Barrier
