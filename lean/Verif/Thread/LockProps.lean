import Verif.Thread.LockLemmas

/-!
# Mutual exclusion and no lost wake-up (C41, C42)
-/

namespace Verif.Thread.Lock

open Verif.Thread

/-! ## Specification: what the callers see -/

/-- Who has lock `l` according to the visible actions; `none` when an action is not allowed: the lock
is given to a thread while someone has it, or is released by a thread which does not have it. -/
def grantStep (l : Nat) (o : Option (Option Nat)) (a : Label) : Option (Option Nat) :=
  match o with
  | none => none
  | some cur =>
    match a with
    | .tau => some cur
    | .locked t l' => if l' = l then (if cur = none then some (some t) else none) else some cur
    | .unlocking t l' => if l' = l then (if cur = some t then some none else none) else some cur

def granted (l : Nat) (tr : List Label) : Option (Option Nat) := tr.foldl (grantStep l) (some none)

/-! ## Proofs -/

theorem run_inv (n : Nat) (bay : Nat → Nat) (tr : List Label) (s : St) (h : Run n bay tr s) :
    Inv n bay s := by
  induction h with
  | start => exact inv_init n bay
  | step _ ht hs ih => exact inv_step n bay _ _ _ _ ih ht hs

theorem held_step (n : Nat) (bay : Nat → Nat) (s s' : St) (t : Nat) (a : Label) (ht : t < n)
    (hi : Inv n bay s) (h : Step n bay t s a s') (l : Nat) (o : Option Nat)
    (ho : ∀ t, o = some t ↔ s.held t l = true) :
    ∃ o', grantStep l (some o) a = some o' ∧ ∀ t, o' = some t ↔ s'.held t l = true := by
  have free : ∀ l', s.word l' = ⟨false, false⟩ ∨ (s.word l').locked = false →
      ∀ t, s.held t l' = false := by
    intro l' hw t'
    cases e : s.held t' l' with
    | false => rfl
    | true =>
      have := hi.locked t' l' (Or.inl e)
      rcases hw with hw | hw <;> simp [hw] at this
  have acq : ∀ l', (s.word l').locked = false →
      ∃ o', grantStep l (some o) (.locked t l') = some o' ∧
        ∀ t', o' = some t' ↔ setHeld s.held t l' true t' l = true := by
    intro l' hw
    have hf := free l' (Or.inr hw)
    by_cases c : l' = l
    · subst c
      have : o = none := by
        cases o with
        | none => rfl
        | some t'' => have := (ho t'').1 rfl; rw [hf] at this; simp at this
      subst this
      refine ⟨some t, by simp [grantStep], fun t' => ?_⟩
      simp only [setHeld, and_true]
      by_cases c : t' = t
      · subst c; simp
      · simp [c, hf, Ne.symm c]
    · refine ⟨o, by simp [grantStep, c], fun t' => ?_⟩
      rw [ho]
      simp [setHeld, Ne.symm c]
  cases h with
  | fastOk l' h hw => exact acq l' (by rw [hw])
  | grabOk l' st h hw =>
    refine acq l' ?_
    rw [hw]; exact hi.seen t l' st h
  | unlock l' h hh =>
    by_cases c : l' = l
    · subst c
      have := (ho t).2 hh
      subst this
      refine ⟨none, by simp [grantStep], fun t' => ?_⟩
      simp only [setHeld, and_true]
      by_cases c : t' = t
      · subst c; simp
      · have : ¬ s.held t' l' = true := fun e => c (by
          have := (ho t').2 e; simp at this; exact this.symm)
        simp [c, this]
    · refine ⟨o, by simp [grantStep, c], fun t' => ?_⟩
      rw [ho]
      simp [setHeld, Ne.symm c]
  | _ => exact ⟨o, rfl, ho⟩

theorem granted_held (n : Nat) (bay : Nat → Nat) (tr : List Label) (s : St) (h : Run n bay tr s)
    (l : Nat) : ∃ o, granted l tr = some o ∧ ∀ t, o = some t ↔ s.held t l = true := by
  induction h with
  | start => exact ⟨none, rfl, by simp [init]⟩
  | step hr ht hs ih =>
    obtain ⟨o, h1, h2⟩ := ih
    obtain ⟨o', h3, h4⟩ := held_step n bay _ _ _ _ ht (run_inv n bay _ _ hr) hs l o h2
    refine ⟨o', ?_, h4⟩
    unfold granted at h1 ⊢
    rw [List.foldl_append, h1]
    exact h3

/-! ## Properties -/

/-- In every execution of any number of threads with any number of locks, the calls that return
from `nvc_lock` and the calls of `nvc_unlock` alternate for each lock: a lock is never given to a
thread before the previous owner has called `nvc_unlock`. -/
theorem mutual_exclusion (n : Nat) (bay : Nat → Nat) (tr : List Label) (s : St)
    (h : Run n bay tr s) (l : Nat) : granted l tr ≠ none := by
  obtain ⟨o, h1, _⟩ := granted_held n bay tr s h l
  rw [h1]; simp

/-- In each state at most one thread has the lock. -/
theorem one_owner (n : Nat) (bay : Nat → Nat) (tr : List Label) (s : St) (h : Run n bay tr s)
    (t t' l : Nat) (h1 : s.held t l = true) (h2 : s.held t' l = true) : t = t' :=
  (run_inv n bay tr s h).excl t t' l (Or.inl h1) (Or.inl h2)

/-- No assertion of the lock code fails. -/
theorem asserts_hold (n : Nat) (bay : Nat → Nat) (tr : List Label) (s : St) (h : Run n bay tr s) :
    s.failed = false := (run_inv n bay tr s h).ok

/-- A thread sleeping for a lock: either the lock is taken with the mark set, by a thread that has
it or is about to release it, or a broadcast for this lock is on its way. -/
theorem no_lost_wakeup (n : Nat) (bay : Nat → Nat) (tr : List Label) (s : St)
    (h : Run n bay tr s) (t l : Nat) (hs : s.pc t = .asleep l) :
    (s.word l = ⟨true, true⟩ ∧ ∃ t' < n, s.held t' l = true ∨ (s.pc t').rel = some l) ∨
      ∃ t' < n, s.pc t' = .unpRel l ∨ s.pc t' = .bcast l := by
  have hi := run_inv n bay tr s h
  obtain ⟨h1, h2⟩ := hi.sleeper t l hs
  cases e : (s.word l).locked with
  | false =>
    obtain ⟨t', h3, h4⟩ := h2 e
    exact Or.inr ⟨t', h3, h4⟩
  | true =>
    left
    obtain ⟨t', h3, h4⟩ := hi.owner l e
    refine ⟨?_, t', h3, h4⟩
    cases hw : s.word l with
    | mk a b => rw [hw] at e h1; simp at e h1; rw [e, h1]

/-- Whoever frees the lock while a thread sleeps for it goes on to broadcast. -/
theorem release_broadcasts (n : Nat) (bay : Nat → Nat) (tr : List Label) (s s' : St)
    (h : Run n bay tr s) (t t0 l : Nat) (a : Label) (hstep : Step n bay t s a s')
    (hs : s.pc t0 = .asleep l) (h1 : (s.word l).locked = true) (h2 : (s'.word l).locked = false) :
    s'.pc t = .unpRel l := by
  have hi := run_inv n bay tr s h
  have hp := (hi.sleeper t0 l hs).1
  cases hstep with
  | unlFastOk l' h hw =>
    by_cases c : l = l'
    · subst c; rw [hw] at hp; simp at hp
    · simp [c, h1] at h2
  | unpStore l' h =>
    by_cases c : l = l'
    · subst c; simp
    · simp [c, h1] at h2
  | fastOk l' h hw => by_cases c : l = l' <;> simp_all
  | markOk l' h hw => by_cases c : l = l' <;> simp_all
  | grabOk l' st h hw => by_cases c : l = l' <;> simp_all
  | _ => simp_all

/-- A broadcast wakes every thread sleeping for the lock. -/
theorem broadcast_wakes (n : Nat) (bay : Nat → Nat) (s s' : St) (t t0 l : Nat) (a : Label)
    (hpc : s.pc t = .bcast l) (hstep : Step n bay t s a s') : s'.pc t0 ≠ .asleep l := by
  cases hstep with
  | bcast l' h =>
    rw [hpc] at h
    injection h with h
    subst h
    intro e
    rw [wakeAll_asleep] at e
    exact e.2 rfl
  | call l' h => rw [hpc] at h; simp at h
  | fastOk l' h => rw [hpc] at h; simp at h
  | fastFail l' h => rw [hpc] at h; simp at h
  | spinAgain l' st k h => rw [hpc] at h; simp at h
  | spinPark l' st k h => rw [hpc] at h; simp at h
  | spinFree l' st k h => rw [hpc] at h; simp at h
  | markOk l' h => rw [hpc] at h; simp at h
  | markFail l' h => rw [hpc] at h; simp at h
  | parkLock l' h => rw [hpc] at h; simp at h
  | checkOk l' h => rw [hpc] at h; simp at h
  | checkFail l' h => rw [hpc] at h; simp at h
  | parkInc l' h => rw [hpc] at h; simp at h
  | parkWait l' h => rw [hpc] at h; simp at h
  | spurious l' h => rw [hpc] at h; simp at h
  | wake l' h => rw [hpc] at h; simp at h
  | parkDec l' h => rw [hpc] at h; simp at h
  | parkExit l' h => rw [hpc] at h; simp at h
  | recheckTaken l' h => rw [hpc] at h; simp at h
  | recheckFree l' h => rw [hpc] at h; simp at h
  | grabOk l' st h => rw [hpc] at h; simp at h
  | grabFail l' st h => rw [hpc] at h; simp at h
  | unlock l' h => rw [hpc] at h; simp at h
  | unlFastOk l' h => rw [hpc] at h; simp at h
  | unlFastFail l' h => rw [hpc] at h; simp at h
  | unlAssert l' h => rw [hpc] at h; simp at h
  | unpLock l' h => rw [hpc] at h; simp at h
  | unpCb l' h => rw [hpc] at h; simp at h
  | unpStore l' h => rw [hpc] at h; simp at h
  | unpRel l' h => rw [hpc] at h; simp at h

/-- Waiting for the mutex of a bay. -/
def Pc.needs : Pc → Option Nat
  | .parkLock l | .wake l | .unpLock l => some l
  | _ => none

/-- Inside `nvc_lock` or `nvc_unlock` and not sleeping. -/
def Active (s : St) (t : Nat) : Prop := s.pc t ≠ .idle ∧ ∀ l, s.pc t ≠ .asleep l

def Enabled (n : Nat) (bay : Nat → Nat) (s : St) (t : Nat) : Prop := ∃ a s', Step n bay t s a s'

/-- Only the mutex of the bay can make an active thread wait. -/
theorem enabled_of (n : Nat) (bay : Nat → Nat) (s : St) (t : Nat) (ha : Active s t)
    (hm : ∀ l, (s.pc t).needs = some l → s.mutex (bay l) = none) : Enabled n bay s t := by
  cases e : s.pc t with
  | idle => exact absurd e ha.1
  | asleep l => exact absurd e (ha.2 l)
  | fast l =>
    by_cases hw : s.word l = ⟨false, false⟩
    · exact ⟨_, _, .fastOk s l e hw⟩
    · exact ⟨_, _, .fastFail s l e hw⟩
  | spin l st k =>
    cases hst : st.locked with
    | false => exact ⟨_, _, .spinFree s l st k e hst⟩
    | true =>
      by_cases hk : k < lockSpins
      · exact ⟨_, _, .spinAgain s l st k e hst hk⟩
      · exact ⟨_, _, .spinPark s l st k e hst hk⟩
  | mark l =>
    by_cases hw : s.word l = ⟨true, false⟩
    · exact ⟨_, _, .markOk s l e hw⟩
    · exact ⟨_, _, .markFail s l e hw⟩
  | parkLock l => exact ⟨_, _, .parkLock s l e (hm l (by rw [e]; rfl))⟩
  | parkCheck l =>
    by_cases hw : s.word l = ⟨true, true⟩
    · exact ⟨_, _, .checkOk s l e hw⟩
    · exact ⟨_, _, .checkFail s l e hw⟩
  | parkInc l => exact ⟨_, _, .parkInc s l e⟩
  | parkWait l => exact ⟨_, _, .parkWait s l e⟩
  | wake l => exact ⟨_, _, .wake s l e (hm l (by rw [e]; rfl))⟩
  | parkDec l => exact ⟨_, _, .parkDec s l e⟩
  | parkExit l => exact ⟨_, _, .parkExit s l e⟩
  | recheck l =>
    cases hw : (s.word l).locked with
    | false => exact ⟨_, _, .recheckFree s l e hw⟩
    | true => exact ⟨_, _, .recheckTaken s l e hw⟩
  | grab l st =>
    by_cases hw : s.word l = st
    · exact ⟨_, _, .grabOk s l st e hw⟩
    · exact ⟨_, _, .grabFail s l st e hw⟩
  | unlFast l =>
    by_cases hw : s.word l = ⟨true, false⟩
    · exact ⟨_, _, .unlFastOk s l e hw⟩
    · exact ⟨_, _, .unlFastFail s l e hw⟩
  | unlAssert l => exact ⟨_, _, .unlAssert s l e⟩
  | unpLock l => exact ⟨_, _, .unpLock s l e (hm l (by rw [e]; rfl))⟩
  | unpCb l => exact ⟨_, _, .unpCb s l e⟩
  | unpStore l => exact ⟨_, _, .unpStore s l e⟩
  | unpRel l => exact ⟨_, _, .unpRel s l e⟩
  | bcast l => exact ⟨_, _, .bcast s l e⟩

/-- The mutex of a bay is only held by threads that can go on. -/
theorem holder_enabled (n : Nat) (bay : Nat → Nat) (s : St) (hi : Inv n bay s) (b t : Nat)
    (h : s.mutex b = some t) : t < n ∧ Active s t ∧ Enabled n bay s t := by
  obtain ⟨l, h1, h2⟩ := (hi.mtx t b).1 h
  have ha : Active s t := by
    constructor
    · intro e; rw [e] at h1; simp [Pc.mtx] at h1
    · intro l' e; rw [e] at h1; simp [Pc.mtx] at h1
  refine ⟨?_, ha, enabled_of n bay s t ha ?_⟩
  · by_cases c : t < n
    · exact c
    · exact absurd (hi.out t (by omega)).1 ha.1
  · intro l' e
    cases hp : s.pc t <;> rw [hp] at h1 e <;> simp [Pc.mtx, Pc.needs] at h1 e

/-- No deadlock: when a thread is waiting inside the lock code, sleeping or not, either a thread has
that very lock, or some thread inside the lock code which is not sleeping can take a step. -/
theorem no_deadlock (n : Nat) (bay : Nat → Nat) (tr : List Label) (s : St) (h : Run n bay tr s)
    (t : Nat) (ht : t < n) (hb : s.pc t ≠ .idle) :
    (∃ l, s.pc t = .asleep l ∧ ∃ t' < n, s.held t' l = true) ∨
      ∃ t' < n, Active s t' ∧ Enabled n bay s t' := by
  have hi := run_inv n bay tr s h
  have act : ∀ t' < n, Active s t' → ∃ t' < n, Active s t' ∧ Enabled n bay s t' := by
    intro t' ht' ha
    by_cases hm : ∀ l, (s.pc t').needs = some l → s.mutex (bay l) = none
    · exact ⟨t', ht', ha, enabled_of n bay s t' ha hm⟩
    · have : ∃ l, (s.pc t').needs = some l ∧ s.mutex (bay l) ≠ none := by
        refine Classical.byContradiction fun hn => hm fun l hl => ?_
        exact Classical.byContradiction fun hx => hn ⟨l, hl, hx⟩
      obtain ⟨l, _, h2⟩ := this
      cases e : s.mutex (bay l) with
      | none => exact absurd e h2
      | some t'' => exact ⟨t'', holder_enabled n bay s hi _ _ e⟩
  by_cases ha : ∀ l, s.pc t ≠ .asleep l
  · exact Or.inr (act t ht ⟨hb, ha⟩)
  · have : ∃ l, s.pc t = .asleep l :=
      Classical.byContradiction fun hn => ha fun l hl => hn ⟨l, hl⟩
    obtain ⟨l, hl⟩ := this
    rcases no_lost_wakeup n bay tr s h t l hl with ⟨_, t', h1, h2 | h2⟩ | ⟨t', h1, h2⟩
    · exact Or.inl ⟨l, hl, t', h1, h2⟩
    · refine Or.inr (act t' h1 ⟨fun e => ?_, fun l' e => ?_⟩) <;> rw [e] at h2 <;>
        simp [Pc.rel] at h2
    · refine Or.inr (act t' h1 ⟨fun e => ?_, fun l' e => ?_⟩) <;> rw [e] at h2 <;> simp at h2

/-! ## Example: a schedule in which a thread falls asleep and is woken -/

/-- The step of thread `t` as a function; `call` and `unlock` start a call. -/
inductive Cmd where
  | call (l : Nat)
  | unlock (l : Nat)
  | go

def next (n : Nat) (bay : Nat → Nat) (t : Nat) (c : Cmd) (s : St) :
    Option { p : Label × St // Step n bay t s p.1 p.2 } :=
  match h : s.pc t, c with
  | .idle, .call l => some ⟨(_, _), .call s l h⟩
  | .idle, .unlock l => if hh : s.held t l = true then some ⟨(_, _), .unlock s l h hh⟩ else none
  | .fast l, .go =>
    if hw : s.word l = ⟨false, false⟩ then some ⟨(_, _), .fastOk s l h hw⟩
    else some ⟨(_, _), .fastFail s l h hw⟩
  | .spin l st k, .go =>
    if hst : st.locked = true then
      if hk : k < lockSpins then some ⟨(_, _), .spinAgain s l st k h hst hk⟩
      else some ⟨(_, _), .spinPark s l st k h hst hk⟩
    else some ⟨(_, _), .spinFree s l st k h (by simpa using hst)⟩
  | .mark l, .go =>
    if hw : s.word l = ⟨true, false⟩ then some ⟨(_, _), .markOk s l h hw⟩
    else some ⟨(_, _), .markFail s l h hw⟩
  | .parkLock l, .go =>
    if hm : s.mutex (bay l) = none then some ⟨(_, _), .parkLock s l h hm⟩ else none
  | .parkCheck l, .go =>
    if hw : s.word l = ⟨true, true⟩ then some ⟨(_, _), .checkOk s l h hw⟩
    else some ⟨(_, _), .checkFail s l h hw⟩
  | .parkInc l, .go => some ⟨(_, _), .parkInc s l h⟩
  | .parkWait l, .go => some ⟨(_, _), .parkWait s l h⟩
  | .wake l, .go => if hm : s.mutex (bay l) = none then some ⟨(_, _), .wake s l h hm⟩ else none
  | .parkDec l, .go => some ⟨(_, _), .parkDec s l h⟩
  | .parkExit l, .go => some ⟨(_, _), .parkExit s l h⟩
  | .recheck l, .go =>
    if hw : (s.word l).locked = true then some ⟨(_, _), .recheckTaken s l h hw⟩
    else some ⟨(_, _), .recheckFree s l h (by simpa using hw)⟩
  | .grab l st, .go =>
    if hw : s.word l = st then some ⟨(_, _), .grabOk s l st h hw⟩
    else some ⟨(_, _), .grabFail s l st h hw⟩
  | .unlFast l, .go =>
    if hw : s.word l = ⟨true, false⟩ then some ⟨(_, _), .unlFastOk s l h hw⟩
    else some ⟨(_, _), .unlFastFail s l h hw⟩
  | .unlAssert l, .go => some ⟨(_, _), .unlAssert s l h⟩
  | .unpLock l, .go =>
    if hm : s.mutex (bay l) = none then some ⟨(_, _), .unpLock s l h hm⟩ else none
  | .unpCb l, .go => some ⟨(_, _), .unpCb s l h⟩
  | .unpStore l, .go => some ⟨(_, _), .unpStore s l h⟩
  | .unpRel l, .go => some ⟨(_, _), .unpRel s l h⟩
  | .bcast l, .go => some ⟨(_, _), .bcast s l h⟩
  | _, _ => none

def play (n : Nat) (bay : Nat → Nat) : List (Nat × Cmd) → List Label → St →
    Option (List Label × St)
  | [], tr, s => some (tr, s)
  | (t, c) :: rest, tr, s =>
    if t < n then
      match next n bay t c s with
      | some p => play n bay rest (tr ++ [p.1.1]) p.1.2
      | none => none
    else none

theorem play_run (n : Nat) (bay : Nat → Nat) (cs : List (Nat × Cmd)) :
    ∀ tr s tr' s', Run n bay tr s → play n bay cs tr s = some (tr', s') → Run n bay tr' s' := by
  induction cs with
  | nil => intro tr s tr' s' hr h; simp [play] at h; rw [← h.1, ← h.2]; exact hr
  | cons c cs ih =>
    intro tr s tr' s' hr h
    obtain ⟨t, c⟩ := c
    unfold play at h
    split at h
    · rename_i ht
      split at h
      · rename_i p _
        exact ih _ _ _ _ (.step hr ht p.2) h
      · simp at h
    · simp at h

/-- Thread 0 takes lock 5; thread 1 tries, spins and falls asleep; thread 0 unlocks. -/
def schedule : List (Nat × Cmd) :=
  [(0, .call 5), (0, .go), (1, .call 5)] ++ List.replicate 71 (1, .go)

def sees (r : Option (List Label × St)) (p : St → Bool) : Bool :=
  match r with
  | some (_, s) => p s
  | none => false

example : sees (play 2 (fun _ => 3) schedule [] init) (fun s => s.pc 1 = .asleep 5 &&
    s.held 0 5 && s.word 5 = ⟨true, true⟩ && s.parked 3 = 1) = true := by decide +kernel

example : sees (play 2 (fun _ => 3) (schedule ++ (0, .unlock 5) :: List.replicate 6 (0, .go)) [] init)
    (fun s => s.pc 1 = .asleep 5 && s.pc 0 = .bcast 5 && s.word 5 = ⟨false, true⟩) = true := by
  decide +kernel

example : sees (play 2 (fun _ => 3) (schedule ++ (0, .unlock 5) :: List.replicate 7 (0, .go) ++
    List.replicate 5 (1, .go)) [] init)
    (fun s => s.pc 1 = .idle && s.held 1 5 && s.word 5 = ⟨true, true⟩) = true := by
  decide +kernel

end Verif.Thread.Lock
