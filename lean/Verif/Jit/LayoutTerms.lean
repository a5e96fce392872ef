import Verif.Jit.LayoutAgree

/-
The terms of the specification and the functions of the model.
-/

namespace Verif.Jit.Layout

theorem allKnown_iff (rs : List Rng) :
    allKnown rs = true ↔ ∀ r ∈ rs, ∃ low high, r = .known low high := by
  induction rs with
  | nil => simp [allKnown]
  | cons r rs ih =>
    cases r with
    | known low high =>
      rw [allKnown, ih]
      constructor
      · intro h r hr
        rcases List.mem_cons.mp hr with rfl | hr
        · exact ⟨low, high, rfl⟩
        · exact h r hr
      · intro h r hr
        exact h r (by simp [hr])
    | unknown =>
      rw [allKnown]
      constructor
      · intro h; cases h
      · intro h
        obtain ⟨l, h', he⟩ := h .unknown (by simp)
        cases he

theorem open_iff (t : Ty) : t.isUnconstrained = true ↔ Open t := by
  induction t using Ty.rec (motive_2 := fun fs => anyUnconstrained fs = true ↔ anyOpen fs) with
  | array nd e ih => simp [Ty.isUnconstrained, Open]
  | sub rs e ih => simpa [Ty.isUnconstrained, Open] using ih
  | record fs ih => simpa [Ty.isUnconstrained, Open] using ih
  | nil => simp [anyUnconstrained, anyOpen]
  | cons f fs ih1 ih2 => simp [anyUnconstrained, anyOpen, ih1, ih2]
  | _ => simp [Ty.isUnconstrained, Open]

theorem constant_not_open (t : Ty) : Constant t → ¬ Open t := by
  induction t using Ty.rec (motive_2 := fun fs => allConstant fs → ¬ anyOpen fs) with
  | array nd e ih => intro h; exact h.elim
  | sub rs e ih => intro h; exact ih h.2
  | record fs ih => intro h; exact ih h
  | nil => intro h; exact h
  | cons f fs ih1 ih2 =>
    rename_i h
    intro h'
    rcases h' with h' | h'
    · exact ih1 h.1 h'
    · exact ih2 h.2 h'
  | _ => intro _ h; exact h

theorem constant_iff (t : Ty) : t.constBounds = true ↔ Constant t := by
  induction t using Ty.rec (motive_2 := fun fs => allConst fs = true ↔ allConstant fs) with
  | array nd e ih => simp [Ty.constBounds, Constant]
  | sub rs e ih =>
    rw [Ty.constBounds, Bool.and_eq_true, Bool.and_eq_true, allKnown_iff, ih, Constant]
    constructor
    · rintro ⟨⟨_, h2⟩, h3⟩; exact ⟨h2, h3⟩
    · rintro ⟨h2, h3⟩
      refine ⟨⟨?_, h2⟩, h3⟩
      cases hu : e.isUnconstrained with
      | false => rfl
      | true => exact (constant_not_open e h3 ((open_iff e).mp hu)).elim
  | record fs ih =>
    rw [Ty.constBounds, Bool.and_eq_true, ih, Constant]
    constructor
    · rintro ⟨_, h⟩; exact h
    · intro h
      refine ⟨?_, h⟩
      cases hu : anyUnconstrained fs with
      | false => rfl
      | true =>
        have h1 : Ty.isUnconstrained (.record fs) = true := by rw [Ty.isUnconstrained]; exact hu
        exact (constant_not_open (.record fs) h ((open_iff _).mp h1)).elim
  | int b own =>
    rw [Ty.constBounds, allKnown_iff, Constant]
    simp
  | nil => simp [allConst, allConstant]
  | cons f fs ih1 ih2 => simp [allConst, allConstant, ih1, ih2]
  | _ => simp [Ty.constBounds, Constant]

theorem constant_false {t : Ty} (h : ¬ Constant t) : t.constBounds = false := by
  cases hc : t.constBounds with
  | false => rfl
  | true => exact (h ((constant_iff t).mp hc)).elim

theorem extraDims_loose {e : Ty} (h : ¬ Loose e) : extraDims e = 0 := by
  cases e with
  | array nd e => exact (h (fun h => h)).elim
  | sub rs e =>
    have h1 : Constant (.sub rs e) := Classical.not_not.mp h
    rw [extraDims, if_pos ((constant_iff _).mpr h1)]
  | _ => rw [extraDims] <;> intros <;> simp_all

theorem keptDims {t : Ty} {n : Nat} (h : KeptDims t n) : extraDims t = n := by
  induction h with
  | stop h => exact extraDims_loose h
  | array _ ih => rw [extraDims, ih]
  | sub h _ ih => rw [extraDims, constant_false h, if_neg (by simp), ih]

theorem countDims_unknown {rs : List Rng} : ∀ (n : Int), .unknown ∈ rs → countDims n rs = -1 := by
  induction rs with
  | nil => intro n h; simp at h
  | cons r rs ih =>
    intro n h
    rw [countDims]
    cases hl : r.length? with
    | none => rfl
    | some len =>
      dsimp only
      rcases List.mem_cons.mp h with h | h
      · rw [← h] at hl
        simp [Rng.length?] at hl
      · exact ih _ h

theorem countDims_neg {rs : List Rng} : ∀ (n : Int), n < 0 →
    (∀ r ∈ rs, ∃ low high, r = .known low high ∧ low ≤ high) → countDims n rs < 0 := by
  induction rs with
  | nil => intro n h _; exact h
  | cons r rs ih =>
    intro n h hr
    obtain ⟨low, high, rfl, hle⟩ := hr r (by simp)
    rw [countDims]
    have hl : ∃ len, Rng.length? (.known low high) = some len ∧ 0 < len := by
      simp only [Rng.length?]
      refine ⟨_, rfl, ?_⟩
      omega
    obtain ⟨len, hl, hp⟩ := hl
    rw [hl]
    dsimp only
    exact ih _ (Int.mul_neg_of_neg_of_pos h (by omega)) (fun r hr' => hr r (by simp [hr']))

theorem fitInt_neg {n m : Int} (h : fitInt n = some m) (hn : n < 0) : m < 0 := by
  unfold fitInt at h
  split at h
  · cases Option.some.inj h
    exact hn
  · cases h

theorem uncounted_neg (t : Ty) : Uncounted t → ∀ n, countSub t = some n → n < 0 := by
  induction t using Ty.rec (motive_2 := fun _ => True) with
  | sub rs e ih =>
    intro h n hn
    rw [countSub] at hn
    cases hu : e.isUnconstrained with
    | true =>
      rw [hu, if_pos rfl] at hn
      cases Option.some.inj hn
      omega
    | false =>
      rw [hu, if_neg (by simp)] at hn
      obtain ⟨k, hk, hn⟩ := bind_some hn
      rcases h with h | h | ⟨h1, h2⟩
      · rw [(open_iff e).mpr h] at hu
        cases hu
      · rw [countDims_unknown k h] at hn
        exact fitInt_neg hn (by omega)
      · exact fitInt_neg hn (countDims_neg k (ih h2 k hk) h1)
  | nil => trivial
  | cons => trivial
  | _ => intro h; exact h.elim

theorem homogeneous_eq (t : Ty) : t.isHomogeneous = t.elemRecur.isScalar := by
  induction t using Ty.rec (motive_2 := fun _ => True) with
  | array nd e ih => rw [Ty.isHomogeneous, Ty.elemRecur]; exact ih
  | sub rs e ih => rw [Ty.isHomogeneous, Ty.elemRecur]; exact ih
  | nil => trivial
  | cons => trivial
  | _ => rfl

theorem faithful_computed (t : Ty) : Faithful t → FaithfulC t := by
  induction t using Ty.rec (motive_2 := fun fs => allFaithful fs → allFaithfulC fs) with
  | array nd e ih => intro h; exact extraDims_loose h
  | sub rs e ih =>
    intro h
    rw [FaithfulC]
    rcases h with ⟨h1, h2, h3⟩ | ⟨h1, h2, h3⟩
    · rw [if_pos ((constant_iff _).mpr h1)]
      exact ⟨ih h2, h3⟩
    · rw [constant_false h1, if_neg (by simp)]
      exact ⟨extraDims_loose h2, uncounted_neg _ h3⟩
  | record fs ih => intro h; exact ih h
  | nil => trivial
  | cons f fs ih1 ih2 =>
    rename_i h
    exact ⟨ih1 h.1, h.2.1, ih2 h.2.2⟩
  | _ => intro h; exact h

theorem faithfulSignal_computed (t : Ty) : FaithfulSignal t → FaithfulSignalC t := by
  induction t using Ty.rec (motive_2 := fun fs => allFaithfulSignal fs → allFaithfulSignalC fs) with
  | array nd e ih => intro h; exact extraDims_loose h
  | sub rs e ih =>
    intro h
    rw [FaithfulSignalC]
    rcases h with ⟨h1, h2⟩ | ⟨h1, h2⟩
    · rw [if_pos ((constant_iff _).mpr h1), homogeneous_eq]
      exact h2
    · rw [constant_false h1, if_neg (by simp)]
      exact extraDims_loose h2
  | record fs ih => intro h; exact ih h
  | nil => trivial
  | cons f fs ih1 ih2 =>
    rename_i h
    exact ⟨ih1 h.1, ih2 h.2⟩
  | access => intro h; exact h
  | file => intro h; exact h
  | _ => intro _; trivial

end Verif.Jit.Layout
