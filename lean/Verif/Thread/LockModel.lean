import Verif.Thread.Count

/-!
# The lock of `thread.c`

Model of `/repo/src/thread.c`, lines 653-689 and 702-788, as a transition system: any number of
threads, any number of locks, the locks distributed over parking bays in any way
(`parking_bay_for`, thread.c 653-656).  One step per access to shared memory or operation of the
platform, sequentially consistent.  A condition wait may also wake up spuriously.

Simplifications: the lock byte is its two bits (others are never set); the statistics counters
(`LOCK_EVENT`) and the thread sanitizer hooks are left out.
-/

namespace Verif.Thread.Lock

open Verif.Thread

/-- `nvc_lock_t` with `lock_bits_t`, thread.c 120-123. -/
structure Word where
  locked : Bool
  parked : Bool
  deriving DecidableEq, Repr

/-- Where a thread is.  The argument `l` is the lock (the cookie). -/
inductive Pc where
  /-- outside of `nvc_lock` and `nvc_unlock` -/
  | idle
  /-- thread.c 727 -/
  | fast (l : Nat)
  /-- thread.c 738: loop head with `state` and `spins` -/
  | spin (l : Nat) (state : Word) (spins : Nat)
  /-- thread.c 745 -/
  | mark (l : Nat)
  /-- thread.c 662 -/
  | parkLock (l : Nat)
  /-- thread.c 664 and 708 -/
  | parkCheck (l : Nat)
  /-- thread.c 665 -/
  | parkInc (l : Nat)
  /-- thread.c 666, about to wait -/
  | parkWait (l : Nat)
  /-- thread.c 666, waiting -/
  | asleep (l : Nat)
  /-- thread.c 666, woken up, needs the mutex to return -/
  | wake (l : Nat)
  /-- thread.c 667-668 -/
  | parkDec (l : Nat)
  /-- thread.c 671 -/
  | parkExit (l : Nat)
  /-- thread.c 750 -/
  | recheck (l : Nat)
  /-- thread.c 759-763 with `state` -/
  | grab (l : Nat) (state : Word)
  /-- thread.c 776 -/
  | unlFast (l : Nat)
  /-- thread.c 781 -/
  | unlAssert (l : Nat)
  /-- thread.c 679 -/
  | unpLock (l : Nat)
  /-- thread.c 681 and 715 -/
  | unpCb (l : Nat)
  /-- thread.c 718 -/
  | unpStore (l : Nat)
  /-- thread.c 683 -/
  | unpRel (l : Nat)
  /-- thread.c 688 -/
  | bcast (l : Nat)
  deriving DecidableEq, Repr

/-- The state.  `held t l` is what thread `t` knows of its own calls: `nvc_lock` on `l` has returned
and `nvc_unlock` has not been called since.  `failed`: an `assert` was violated. -/
structure St where
  word : Nat → Word
  mutex : Nat → Option Nat
  parked : Nat → Nat
  pc : Nat → Pc
  held : Nat → Nat → Bool
  failed : Bool

/-- What is visible from outside. -/
inductive Label where
  | tau
  /-- `nvc_lock(l)` returns in thread `t` -/
  | locked (t l : Nat)
  /-- thread `t` calls `nvc_unlock(l)` -/
  | unlocking (t l : Nat)
  deriving DecidableEq, Repr

/-- `LOCK_SPINS`, thread.c 54. -/
def lockSpins : Nat := 64

/-- Change of `held` for one thread and lock. -/
def setHeld (h : Nat → Nat → Bool) (t l : Nat) (v : Bool) : Nat → Nat → Bool :=
  fun t' l' => if t' = t ∧ l' = l then v else h t' l'

/-- `platform_cond_broadcast`: everyone waiting in the bay wakes up. -/
def wakeAll (bay : Nat → Nat) (b : Nat) (pc : Nat → Pc) : Nat → Pc := fun t =>
  match pc t with
  | .asleep l => if bay l = b then .wake l else .asleep l
  | p => p

/-- Steps of thread `t`, one of `n` threads. -/
inductive Step (n : Nat) (bay : Nat → Nat) (t : Nat) : St → Label → St → Prop where
  /-- call of `nvc_lock` -/
  | call (s l) (h : s.pc t = .idle) : Step n bay t s .tau { s with pc := upd s.pc t (.fast l) }
  /-- thread.c 726-728: the CAS succeeds -/
  | fastOk (s l) (h : s.pc t = .fast l) (hw : s.word l = ⟨false, false⟩) :
      Step n bay t s (.locked t l)
        { s with word := upd s.word l ⟨true, false⟩, pc := upd s.pc t .idle,
                 held := setHeld s.held t l true }
  /-- thread.c 727: the CAS fails and stores the word in `state` -/
  | fastFail (s l) (h : s.pc t = .fast l) (hw : s.word l ≠ ⟨false, false⟩) :
      Step n bay t s .tau { s with pc := upd s.pc t (.spin l (s.word l) 0) }
  /-- thread.c 738-740 -/
  | spinAgain (s l st k) (h : s.pc t = .spin l st k) (hst : st.locked = true) (hk : k < lockSpins) :
      Step n bay t s .tau { s with pc := upd s.pc t (.spin l (s.word l) (k + 1)) }
  /-- thread.c 742 with the lock seen taken -/
  | spinPark (s l st k) (h : s.pc t = .spin l st k) (hst : st.locked = true) (hk : ¬ k < lockSpins) :
      Step n bay t s .tau { s with pc := upd s.pc t (.mark l) }
  /-- thread.c 742 and 756 with the lock seen free -/
  | spinFree (s l st k) (h : s.pc t = .spin l st k) (hst : st.locked = false) :
      Step n bay t s .tau { s with pc := upd s.pc t (.grab l st) }
  /-- thread.c 745 -/
  | markOk (s l) (h : s.pc t = .mark l) (hw : s.word l = ⟨true, false⟩) :
      Step n bay t s .tau
        { s with word := upd s.word l ⟨true, true⟩, pc := upd s.pc t (.parkLock l) }
  /-- thread.c 743-745: failure is ignored -/
  | markFail (s l) (h : s.pc t = .mark l) (hw : s.word l ≠ ⟨true, false⟩) :
      Step n bay t s .tau { s with pc := upd s.pc t (.parkLock l) }
  /-- thread.c 662 -/
  | parkLock (s l) (h : s.pc t = .parkLock l) (hm : s.mutex (bay l) = none) :
      Step n bay t s .tau
        { s with mutex := upd s.mutex (bay l) (some t), pc := upd s.pc t (.parkCheck l) }
  /-- thread.c 664, `lock_park_cb` 708 -/
  | checkOk (s l) (h : s.pc t = .parkCheck l) (hw : s.word l = ⟨true, true⟩) :
      Step n bay t s .tau { s with pc := upd s.pc t (.parkInc l) }
  | checkFail (s l) (h : s.pc t = .parkCheck l) (hw : s.word l ≠ ⟨true, true⟩) :
      Step n bay t s .tau { s with pc := upd s.pc t (.parkExit l) }
  /-- thread.c 665 -/
  | parkInc (s l) (h : s.pc t = .parkInc l) :
      Step n bay t s .tau
        { s with parked := upd s.parked (bay l) (s.parked (bay l) + 1),
                 pc := upd s.pc t (.parkWait l) }
  /-- thread.c 666: the wait releases the mutex -/
  | parkWait (s l) (h : s.pc t = .parkWait l) :
      Step n bay t s .tau
        { s with mutex := upd s.mutex (bay l) none, pc := upd s.pc t (.asleep l) }
  /-- thread.c 666: spurious wake-up -/
  | spurious (s l) (h : s.pc t = .asleep l) :
      Step n bay t s .tau { s with pc := upd s.pc t (.wake l) }
  /-- thread.c 666: the wait returns with the mutex held -/
  | wake (s l) (h : s.pc t = .wake l) (hm : s.mutex (bay l) = none) :
      Step n bay t s .tau
        { s with mutex := upd s.mutex (bay l) (some t), pc := upd s.pc t (.parkDec l) }
  /-- thread.c 667-668 -/
  | parkDec (s l) (h : s.pc t = .parkDec l) :
      Step n bay t s .tau
        { s with parked := upd s.parked (bay l) (s.parked (bay l) - 1),
                 failed := s.failed || decide (s.parked (bay l) = 0),
                 pc := upd s.pc t (.parkExit l) }
  /-- thread.c 671 -/
  | parkExit (s l) (h : s.pc t = .parkExit l) :
      Step n bay t s .tau
        { s with mutex := upd s.mutex (bay l) none, pc := upd s.pc t (.recheck l) }
  /-- thread.c 750-753 -/
  | recheckTaken (s l) (h : s.pc t = .recheck l) (hw : (s.word l).locked = true) :
      Step n bay t s .tau { s with pc := upd s.pc t (.spin l (s.word l) 0) }
  /-- thread.c 750 -/
  | recheckFree (s l) (h : s.pc t = .recheck l) (hw : (s.word l).locked = false) :
      Step n bay t s .tau { s with pc := upd s.pc t (.grab l (s.word l)) }
  /-- thread.c 763 -/
  | grabOk (s l st) (h : s.pc t = .grab l st) (hw : s.word l = st) :
      Step n bay t s (.locked t l)
        { s with word := upd s.word l ⟨true, st.parked⟩, pc := upd s.pc t .idle,
                 held := setHeld s.held t l true,
                 failed := s.failed || st.locked }
  | grabFail (s l st) (h : s.pc t = .grab l st) (hw : s.word l ≠ st) :
      Step n bay t s .tau
        { s with pc := upd s.pc t (.spin l (s.word l) 0), failed := s.failed || st.locked }
  /-- call of `nvc_unlock` by a thread which has the lock -/
  | unlock (s l) (h : s.pc t = .idle) (hh : s.held t l = true) :
      Step n bay t s (.unlocking t l)
        { s with pc := upd s.pc t (.unlFast l), held := setHeld s.held t l false }
  /-- thread.c 776-777 -/
  | unlFastOk (s l) (h : s.pc t = .unlFast l) (hw : s.word l = ⟨true, false⟩) :
      Step n bay t s .tau
        { s with word := upd s.word l ⟨false, false⟩, pc := upd s.pc t .idle }
  | unlFastFail (s l) (h : s.pc t = .unlFast l) (hw : s.word l ≠ ⟨true, false⟩) :
      Step n bay t s .tau { s with pc := upd s.pc t (.unlAssert l) }
  /-- thread.c 781 -/
  | unlAssert (s l) (h : s.pc t = .unlAssert l) :
      Step n bay t s .tau
        { s with failed := s.failed || decide (s.word l ≠ ⟨true, true⟩),
                 pc := upd s.pc t (.unpLock l) }
  /-- thread.c 679 -/
  | unpLock (s l) (h : s.pc t = .unpLock l) (hm : s.mutex (bay l) = none) :
      Step n bay t s .tau
        { s with mutex := upd s.mutex (bay l) (some t), pc := upd s.pc t (.unpCb l) }
  /-- thread.c 715 -/
  | unpCb (s l) (h : s.pc t = .unpCb l) :
      Step n bay t s .tau
        { s with failed := s.failed || decide (s.word l ≠ ⟨true, true⟩),
                 pc := upd s.pc t (.unpStore l) }
  /-- thread.c 718 -/
  | unpStore (s l) (h : s.pc t = .unpStore l) :
      Step n bay t s .tau
        { s with word := upd s.word l ⟨false, decide (0 < s.parked (bay l))⟩,
                 pc := upd s.pc t (.unpRel l) }
  /-- thread.c 683 -/
  | unpRel (s l) (h : s.pc t = .unpRel l) :
      Step n bay t s .tau
        { s with mutex := upd s.mutex (bay l) none, pc := upd s.pc t (.bcast l) }
  /-- thread.c 688 -/
  | bcast (s l) (h : s.pc t = .bcast l) :
      Step n bay t s .tau { s with pc := wakeAll bay (bay l) (upd s.pc t .idle) }

/-- Everything free and nobody inside. -/
def init : St :=
  { word := fun _ => ⟨false, false⟩, mutex := fun _ => none, parked := fun _ => 0,
    pc := fun _ => .idle, held := fun _ _ => false, failed := false }

/-- Executions of `n` threads with their visible actions (latest last). -/
inductive Run (n : Nat) (bay : Nat → Nat) : List Label → St → Prop where
  | start : Run n bay [] init
  | step {tr s t a s'} : Run n bay tr s → t < n → Step n bay t s a s' → Run n bay (tr ++ [a]) s'

end Verif.Thread.Lock
