import Verif.Thread.WorkqSteps

/-!
# Work queues execute every task exactly once (C53)

In the traces of `Reach` the latest event comes first.
-/

namespace Verif.Thread.Workq

open Verif.Thread

variable {tr : List Label} {s : St} {p : Bool}

/-! ## Specification -/

def submitted (tr : List Label) (x : Nat) : Nat := tr.count (.submit x)
def begun (tr : List Label) (x : Nat) : Nat := tr.count (.begin x)
def finished (tr : List Label) (x : Nat) : Nat := tr.count (.finish x)

/-! ## Safety -/

theorem none_left (h : Inv tr s) (hl : left s = 0) (x : Nat) :
    queued (· == .mine x) s = 0 ∧ jobCount (· == .mine x) s = 0 ∧ running (· == .mine x) s = 0 := by
  have h₁ : queued isMine s = 0 ∧ active isMine s = 0 ∧ jobCount isMine s = 0 := by
    unfold left at hl; omega
  obtain ⟨h₁, h₂, h₃⟩ := h₁
  have imp : ∀ i : Item, (i == .mine x) = true → isMine i = true := by
    intro i hi
    rw [beq_iff_eq] at hi
    rw [hi]; rfl
  refine ⟨?_, ?_, ?_⟩
  · have : queued (· == .mine x) s ≤ queued isMine s := by
      unfold queued
      have a : s.global.countP (· == .mine x) ≤ s.global.countP isMine :=
        List.countP_mono_left fun i _ => imp i
      have b : sum (fun t => (s.deq t).countP (· == .mine x)) (s.maxId + 1) ≤
          sum (fun t => (s.deq t).countP isMine) (s.maxId + 1) :=
        sum_mono fun t _ => List.countP_mono_left fun i _ => imp i
      omega
    omega
  · have : jobCount (· == .mine x) s ≤ jobCount isMine s :=
      List.countP_mono_left fun i _ => imp _
    omega
  · unfold running
    rw [sum_zero]
    intro t _
    rw [List.countP_eq_zero]
    intro f hf
    have := active_zero h h₂ t f hf
    rw [this]
    simp

theorem drained_pre (h : Inv tr s) {l : Label} {s' : St} (st : Step s l s') (hl : l = .drained) :
    s.started = true ∧ left s = 0 ∧ ∀ q, waiting q s = 0 := by
  cases st with
  | drainSerial hm hs hp =>
    have hpc := h.pc
    unfold PcOk at hpc
    rw [hm] at hpc
    exact ⟨hs, hpc hs hp, waiting_busy h (by simp [quiet, hm, hs]) (by simp [waitE, hm])⟩
  | scanZero e mt i p hm hi hp =>
    have hpc := h.pc
    unfold PcOk at hpc
    rw [hm] at hpc
    have := scan_left h hm hi
    exact ⟨hpc.1, by omega, waiting_busy h (by simp [quiet, hm, hpc.1]) (by simp [waitE, hm])⟩
  | popBot t x l ht hd => cases x <;> cases hl
  | popTop t v x l ht hv hd => cases x <;> cases hl
  | finish t x r hg hk => cases x <;> cases hl
  | _ => cases hl

/-- **C53**: when `workq_drain` returns, every task has been called as often as it was submitted, and
all calls have returned. -/
theorem drain_all (h : Reach p (.drained :: tr) s) (x : Nat) :
    begun tr x = submitted tr x ∧ finished tr x = submitted tr x := by
  cases h with
  | step h st =>
    have hi := reach_inv h
    obtain ⟨-, h₁, h₂⟩ := drained_pre hi st rfl
    obtain ⟨a, b, c⟩ := none_left hi h₁ x
    have h₃ := hi.all x
    have h₄ := hi.done x
    have := h₂ (· == .mine x)
    unfold submitted begun finished
    omega

/-- At no time has a task been called more often than it was submitted. -/
theorem never_twice (h : Reach p tr s) (x : Nat) :
    finished tr x ≤ begun tr x ∧ begun tr x ≤ submitted tr x := by
  have hi := reach_inv h
  have h₃ := hi.all x
  have h₄ := hi.done x
  unfold submitted begun finished
  omega

/-- Before `workq_start` is called, and after `workq_drain` has returned, no task is called and none
is running. -/
theorem idle_none (h : Reach p tr s) (hs : s.started = false) (x : Nat) :
    finished tr x = begun tr x ∧ ∀ l s', Step s l s' → l ≠ .begin x ∧ l ≠ .finish x := by
  have hi := reach_inv h
  have hm := main_of_idle hi hs
  have hq : quiet s = true := by simp [quiet, hm, hs]
  have hl := (hi.ifQuiet hq).1
  obtain ⟨a, b, c⟩ := none_left hi hl x
  have h₄ := hi.done x
  refine ⟨by unfold begun finished; omega, fun l s' st => ?_⟩
  have hi' := inv_step hi st
  have hl' : left s' = 0 := by
    by_cases c : s'.started = false
    · have hm' := main_of_idle hi' c
      exact (hi'.ifQuiet (by simp [quiet, hm', c])).1
    · cases st with
      | start hm hs =>
        exact (hi'.ifQuiet (by simp [quiet])).1
      | _ => simp_all
  have h₅ := hi.all x
  have h₆ := hi'.all x
  have h₇ := hi'.done x
  obtain ⟨a', b', c'⟩ := none_left hi' hl' x
  constructor
  · rintro rfl
    rw [List.count_cons_self, List.count_cons_of_ne (by simp)] at h₇
    omega
  · rintro rfl
    rw [List.count_cons_self, List.count_cons_of_ne (by simp)] at h₇
    omega

/-- The assertions of `workq_start` and `workq_outstanding` (thread.c 1129, 1179) hold. -/
theorem assertions (h : Reach p tr s) :
    (∀ e mt i ns np, s.main = .startLoop e mt i ns np → i ≤ mt → (s.wptr i).epoch = e →
      0 < (s.wptr i).count ∧ (s.wptr i).count ≤ (s.tasks i).length) ∧
    ∀ e mt i q, s.main = .scanW e mt i q → mt < i → 0 ≤ q := by
  have hi := reach_inv h
  constructor
  · intro e mt i ns np hm h₁ h₂
    have := (giveOut hi hm h₁ h₂).2.2.2.2.2.2
    have hpc := hi.pc
    unfold PcOk at hpc
    rw [hm] at hpc
    exact ⟨this, ((hi.wptr i).2.2 (by omega)).2.2⟩
  · intro e mt i q hm h₁
    have := scan_left hi hm h₁
    omega

end Verif.Thread.Workq
