import Verif.Predef.Lemmas

/-
Relational operators of arrays.
-/

namespace Verif.Predef

open Spec (Ty count)

/-! ## Ordering -/

/-- The loop from place `i` on, with operands not exhausted at the same
time. -/
theorem ord_run (leq : Bool) (l r : List Int) :
    ∀ (k i : Nat), i + k = l.length → (i < l.length ∨ i < r.length) →
      run (ordStep leq l r l.length r.length) (k + 1) (i : Int) =
        some (.ok (if leq then Spec.le (l.drop i) (r.drop i)
                   else Spec.lt (l.drop i) (r.drop i)))
  | 0, i, hk, hi => by
    have hil : i = l.length := by omega
    have hr : i < r.length := by omega
    have hl : l.drop i = [] := List.drop_of_length_le (by omega)
    have hr' : r.drop i = r[i] :: r.drop (i + 1) := List.drop_eq_getElem_cons hr
    rw [run, ordStep, if_pos (by omega), hl, hr']
    cases leq <;> simp [Spec.le, Spec.lt]
  | k + 1, i, hk, hi => by
    have hil : i < l.length := by omega
    have hl : l.drop i = l[i] :: l.drop (i + 1) := List.drop_eq_getElem_cons hil
    rw [run, ordStep, if_neg (by omega)]
    by_cases hr : i < r.length
    · have hr' : r.drop i = r[i] :: r.drop (i + 1) := List.drop_eq_getElem_cons hr
      rw [if_neg (by omega), load_nat, load_nat, List.getElem?_eq_getElem hil,
        List.getElem?_eq_getElem hr, hl, hr']
      dsimp only
      generalize l[i] = a
      generalize r[i] = b
      by_cases hab : a = b
      · subst hab
        by_cases hend : l.length = r.length ∧ i + 1 = l.length
        · obtain ⟨e1, e2⟩ := hend
          have n1 : l.drop (i + 1) = [] := List.drop_of_length_le (by omega)
          have n2 : r.drop (i + 1) = [] := List.drop_of_length_le (by omega)
          have c1 : (l.length : Int) = r.length := by omega
          have c2 : (i : Int) + 1 = r.length := by omega
          rw [n1, n2]
          cases leq <;> simp [c1, c2, Spec.le, Spec.lt]
        · have c : (decide ((l.length : Int) = r.length) &&
              decide ((i : Int) + 1 = l.length)) = false := by
            rw [Bool.and_eq_false_iff, decide_eq_false_iff_not, decide_eq_false_iff_not]
            by_cases h1 : l.length = r.length
            · right; intro h2; exact hend ⟨h1, by omega⟩
            · left; intro h2; exact h1 (by omega)
          rw [c]
          have ih := ord_run leq l r k (i + 1) (by omega) (by omega)
          simp only [decide_true, Bool.not_true, Bool.or_false, Bool.false_eq_true, if_false]
          have e : ((i : Int) + 1) = ((i + 1 : Nat) : Int) := by omega
          rw [e, ih]
          cases leq <;> simp [Spec.le, Spec.lt]
      · have hab' : (decide (a = b)) = false := decide_eq_false hab
        rw [hab']
        cases leq
        · simp [Spec.lt, hab]
        · simp [Spec.le, Spec.lt, hab]
          omega
    · have hr' : r.drop i = [] := List.drop_of_length_le (by omega)
      rw [if_pos (by omega), hl, hr']
      cases leq <;> simp [Spec.le, Spec.lt, hil]

theorem ord_yields (leq : Bool) {a b : Arr Int} (ha : a.wf) (hb : b.wf)
    (h : a.data ≠ [] ∨ b.data ≠ []) :
    OrdYields leq a b
      (.ok (if leq then Spec.le a.data b.data else Spec.lt a.data b.data)) := by
  unfold OrdYields
  rw [← ha, ← hb]
  have := ord_run leq a.data b.data a.data.length 0 (by omega)
    (h.imp (List.length_pos_iff.mpr ·) (List.length_pos_iff.mpr ·))
  exact ⟨a.data.length + 1, by simpa using this⟩

theorem ord_null (leq : Bool) {a b : Arr Int} (ha : a.wf)
    (h1 : a.data = []) : OrdYields leq a b (.ok true) := by
  unfold OrdYields
  rw [← ha, h1]
  exact ⟨1, by simp [run, ordStep]⟩

/-- "<" of two arrays, at least one of which has elements, is the order of
the LRM, and nothing is read outside of the operands. -/
theorem lt_correct {a b : Arr Int} (ha : a.wf) (hb : b.wf)
    (h : a.data ≠ [] ∨ b.data ≠ []) (r : Res Bool) :
    LtYields a b r ↔ r = .ok (Spec.lt a.data b.data) := by
  have := ord_yields false ha hb h
  exact ⟨fun hr => Yields.unique hr this, fun hr => by rw [hr]; exact this⟩

/-- Two null arrays are equal, so that "<" is false; the generated code
returns true for all of them. -/
theorem lt_null_counterexample {a b : Arr Int} (ha : a.wf)
    (h1 : a.data = []) (h2 : b.data = []) :
    LtYields a b (.ok true) ∧ Spec.lt a.data b.data = false :=
  ⟨ord_null false ha h1, by rw [h1, h2]; rfl⟩

/-- "<=" is the order of the LRM for all operands. -/
theorem le_correct {a b : Arr Int} (ha : a.wf) (hb : b.wf) (r : Res Bool) :
    LeYields a b r ↔ r = .ok (Spec.le a.data b.data) := by
  have : LeYields a b (.ok (Spec.le a.data b.data)) := by
    by_cases h : a.data ≠ [] ∨ b.data ≠ []
    · exact ord_yields true ha hb h
    · have h1 : a.data = [] := Classical.byContradiction fun hc => h (Or.inl hc)
      have h2 : b.data = [] := Classical.byContradiction fun hc => h (Or.inr hc)
      have := ord_null true (b := b) ha h1
      rw [h1, h2]
      exact this
  exact ⟨fun hr => Yields.unique hr this, fun hr => by rw [hr]; exact this⟩

/-- The order of the LRM is total. -/
theorem lt_trichotomy : ∀ l r : List Int,
    Spec.lt r l = !(Spec.lt l r || decide (l = r))
  | [], [] => by simp [Spec.lt]
  | [], _ :: _ => by simp [Spec.lt]
  | _ :: _, [] => by simp [Spec.lt]
  | a :: l, b :: r => by
    have ih := lt_trichotomy l r
    rcases Int.lt_trichotomy a b with h | h | h
    · have h1 : ¬ b < a := by omega
      have h2 : ¬ b = a := by omega
      simp [Spec.lt, h, h1, h2]
    · subst h
      simp [Spec.lt, ih]
    · have h1 : ¬ a < b := by omega
      have h2 : ¬ a = b := by omega
      simp [Spec.lt, h, h1, h2]

/-- ">" is the order of the LRM for all operands. -/
theorem gt_correct {a b : Arr Int} (ha : a.wf) (hb : b.wf) (r : Res Bool) :
    GtYields a b r ↔ r = .ok (Spec.gt a.data b.data) := by
  unfold GtYields
  have e : Res.not (.ok (Spec.le a.data b.data)) = .ok (Spec.gt a.data b.data) := by
    show Res.ok _ = _
    rw [Spec.gt, Spec.le, lt_trichotomy a.data b.data]
  constructor
  · rintro ⟨q, hq, rfl⟩
    rw [(le_correct ha hb q).mp hq, e]
  · intro h
    exact ⟨_, (le_correct ha hb _).mpr rfl, by rw [h, e]⟩

/-- ">=" is the order of the LRM unless both operands are null. -/
theorem ge_correct {a b : Arr Int} (ha : a.wf) (hb : b.wf)
    (h : a.data ≠ [] ∨ b.data ≠ []) (r : Res Bool) :
    GeYields a b r ↔ r = .ok (Spec.ge a.data b.data) := by
  unfold GeYields
  have e : Res.not (.ok (Spec.lt a.data b.data)) = .ok (Spec.ge a.data b.data) := by
    show Res.ok _ = _
    rw [Spec.ge, lt_trichotomy b.data a.data]
    have := lt_trichotomy a.data b.data
    by_cases heq : a.data = b.data
    · rw [heq] at this ⊢
      simp at this
      simp [this]
    · have : ¬ b.data = a.data := fun h => heq h.symm
      simp [heq, this]
  constructor
  · rintro ⟨q, hq, rfl⟩
    rw [(lt_correct ha hb h q).mp hq, e]
  · intro hr
    exact ⟨_, (lt_correct ha hb h _).mpr rfl, by rw [hr, e]⟩

/-- ">=" of two null arrays is false. -/
theorem ge_null_counterexample {a b : Arr Int} (ha : a.wf)
    (h1 : a.data = []) (h2 : b.data = []) :
    GeYields a b (.ok false) ∧ Spec.ge a.data b.data = true :=
  ⟨⟨.ok true, ord_null false ha h1, rfl⟩, by rw [h1, h2]; rfl⟩

/-- MINIMUM of two arrays is one that is not greater than the other, and
MAXIMUM one that is not less. -/
theorem min_max_arrays {a b : Arr Int} (ha : a.wf) (hb : b.wf) (r : Res (Arr Int)) :
    (MinMax2Yields false a b r → ∃ c, r = .ok c ∧ (c = a ∨ c = b) ∧
      Spec.le c.data a.data = true ∧ Spec.le c.data b.data = true) ∧
    (MinMax2Yields true a b r → ∃ c, r = .ok c ∧ (c = a ∨ c = b) ∧
      Spec.ge c.data a.data = true ∧ Spec.ge c.data b.data = true) := by
  have refl : ∀ l, Spec.le l l = true := fun l => by simp [Spec.le]
  have refl' : ∀ l, Spec.ge l l = true := fun l => by simp [Spec.ge]
  refine ⟨?_, ?_⟩
  · rintro ⟨q, hq, rfl⟩
    rw [if_neg (by decide)] at hq
    by_cases hn : a.data ≠ [] ∨ b.data ≠ []
    · have hq := (lt_correct ha hb hn q).mp hq
      subst hq
      cases hl : Spec.lt a.data b.data
      · refine ⟨b, rfl, Or.inr rfl, ?_, refl _⟩
        rw [Spec.le, lt_trichotomy a.data b.data, hl]
        by_cases heq : a.data = b.data
        · simp [heq]
        · have : ¬ b.data = a.data := fun h => heq h.symm
          simp [heq, this]
      · exact ⟨a, rfl, Or.inl rfl, refl _, by simp [Spec.le, hl]⟩
    · have h1 : a.data = [] := Classical.byContradiction fun hc => hn (Or.inl hc)
      have h2 : b.data = [] := Classical.byContradiction fun hc => hn (Or.inr hc)
      have := Yields.unique hq (ord_null false (b := b) ha h1)
      subst this
      exact ⟨a, rfl, Or.inl rfl, refl _, by rw [h1, h2]; rfl⟩
  · rintro ⟨q, hq, rfl⟩
    rw [if_pos rfl] at hq
    have hq := (gt_correct ha hb q).mp hq
    subst hq
    cases hl : Spec.gt a.data b.data
    · refine ⟨b, rfl, Or.inr rfl, ?_, refl' _⟩
      rw [Spec.gt] at hl
      rw [Spec.ge, lt_trichotomy b.data a.data, hl]
      by_cases heq : b.data = a.data
      · simp [heq]
      · simp [heq]
    · refine ⟨a, rfl, Or.inl rfl, refl' _, ?_⟩
      rw [Spec.gt] at hl
      simp [Spec.ge, hl]

/-! ## Equality -/

theorem eqLoop_true (body : Nat → Bool) : ∀ (n i : Nat),
    eqLoop body n i = true ↔ ∀ j : Nat, i ≤ j → j < i + n → body j = true
  | 0, i => by
    simp only [eqLoop, true_iff]
    intro j h1 h2
    omega
  | n + 1, i => by
    rw [eqLoop, Bool.and_eq_true, eqLoop_true body n (i + 1)]
    constructor
    · rintro ⟨h0, h⟩ j h1 h2
      by_cases e : j = i
      · rw [e]; exact h0
      · exact h j (by omega) (by omega)
    · intro h
      exact ⟨h i (by omega) (by omega), fun j h1 h2 => h j (by omega) (by omega)⟩

/-- Operands compared as equal have the same number of scalars. -/
theorem size_of_eqInner : ∀ (t u : Ty) (lm rm : Nat → Int) (lp rp : Nat),
    t.similar u → eqInner t u lm rm lp rp = true → t.size = u.size
  | .scalar, .scalar, _, _, _, _, _, _ => rfl
  | .scalar, .arr _ _, _, _, _, _, hs, _ => hs.elim
  | .arr _ _, .scalar, _, _, _, _, hs, _ => hs.elim
  | .arr ls e, .arr rs f, lm, rm, lp, rp, hs, h => by
    rw [eqInner, Bool.and_eq_true, decide_eq_true_iff, eqLoop_true] at h
    obtain ⟨hc, hb⟩ := h
    show count ls * e.size = count rs * f.size
    by_cases h0 : count ls = 0
    · rw [← hc, h0, Nat.zero_mul, Nat.zero_mul]
    · have := size_of_eqInner e f lm rm _ _ hs.2 (hb 0 (by omega) (by omega))
      rw [hc, this]

/-- Equal operands have the same number of scalars. -/
theorem size_of_equal : ∀ (t u : Ty) (lm rm : Nat → Int) (lp rp : Nat),
    t.similar u → Spec.equal t u lm rm lp rp → t.size = u.size
  | .scalar, .scalar, _, _, _, _, _, _ => rfl
  | .scalar, .arr _ _, _, _, _, _, hs, _ => hs.elim
  | .arr _ _, .scalar, _, _, _, _, hs, _ => hs.elim
  | .arr ls e, .arr rs f, lm, rm, lp, rp, hs, h => by
    rw [Spec.equal] at h
    obtain ⟨hc, hb⟩ := h
    show count ls * e.size = count rs * f.size
    by_cases h0 : count ls = 0
    · rcases hc with hc | ⟨_, hc⟩
      · rw [← hc, h0, Nat.zero_mul, Nat.zero_mul]
      · rw [h0, hc, Nat.zero_mul, Nat.zero_mul]
    · have := size_of_equal e f lm rm _ _ hs.2 (hb 0 (by omega))
      rcases hc with hc | ⟨hc, _⟩
      · rw [hc, this]
      · exact absurd hc h0

/-- Equal operands of any shape are compared as equal. -/
theorem eq_complete : ∀ (t u : Ty) (lm rm : Nat → Int) (lp rp : Nat),
    t.similar u → Spec.equal t u lm rm lp rp → eqInner t u lm rm lp rp = true
  | .scalar, .scalar, _, _, _, _, _, h => by
    rw [eqInner]
    · exact decide_eq_true h
    · intro _ _ _ _ h; cases h
  | .scalar, .arr _ _, _, _, _, _, hs, _ => hs.elim
  | .arr _ _, .scalar, _, _, _, _, hs, _ => hs.elim
  | .arr ls e, .arr rs f, lm, rm, lp, rp, hs, h => by
    rw [eqInner, Bool.and_eq_true, decide_eq_true_iff, eqLoop_true]
    rw [Spec.equal] at h
    obtain ⟨hc, hb⟩ := h
    refine ⟨?_, fun j _ h2 => ?_⟩
    · rcases hc with hc | ⟨h1, h2⟩
      · rw [hc]
      · omega
    · have hj := hb j (by omega)
      have hsz := size_of_equal e f lm rm _ _ hs.2 hj
      have := eq_complete e f lm rm _ _ hs.2 hj
      rw [← hsz] at this
      exact this

/-- Arrays of one dimension, of scalars or of arrays nested in any depth, are
compared as equal only if they are equal: the use of the left stride for both
sides does no harm. -/
theorem eq_sound : ∀ (t u : Ty) (lm rm : Nat → Int) (lp rp : Nat),
    t.similar u → t.oneDim → eqInner t u lm rm lp rp = true →
    Spec.equal t u lm rm lp rp
  | .scalar, .scalar, _, _, _, _, _, _, h => by
    rw [eqInner] at h
    · have h := of_decide_eq_true h
      rw [Spec.equal]
      · exact h
      · intro _ _ _ _ h; cases h
    · intro _ _ _ _ h; cases h
  | .scalar, .arr _ _, _, _, _, _, hs, _, _ => hs.elim
  | .arr _ _, .scalar, _, _, _, _, hs, _, _ => hs.elim
  | .arr ls e, .arr rs f, lm, rm, lp, rp, hs, ho, h => by
    rw [eqInner, Bool.and_eq_true, decide_eq_true_iff, eqLoop_true] at h
    rw [Spec.equal]
    obtain ⟨hc, hb⟩ := h
    refine ⟨Or.inl ?_, fun i hi => ?_⟩
    · obtain ⟨n, rfl⟩ := List.length_eq_one_iff.mp ho.1
      obtain ⟨m, rfl⟩ := List.length_eq_one_iff.mp (hs.1.symm.trans ho.1)
      simp only [count, Nat.mul_one] at hc
      rw [hc]
    · have hbi := hb i (by omega) (by omega)
      have hsz := size_of_eqInner e f lm rm _ _ hs.2 hbi
      rw [hsz] at hbi
      rw [hsz]
      exact eq_sound e f lm rm _ _ hs.2 ho.2 hbi

/-- "=" of arrays of one dimension is the equality of the LRM. -/
theorem eq_correct_partial {t u : Ty} {lm rm : Nat → Int} {lp rp : Nat}
    (hs : t.similar u) (ho : t.oneDim) :
    eqInner t u lm rm lp rp = true ↔ Spec.equal t u lm rm lp rp :=
  ⟨eq_sound t u lm rm lp rp hs ho, eq_complete t u lm rm lp rp hs⟩

/-- A matrix of 2 by 3 elements is "equal" to one of 3 by 2 elements with the
same elements in row-major order. -/
theorem eq_matrix_counterexample (m : Nat → Int) :
    eqInner (.arr [2, 3] .scalar) (.arr [3, 2] .scalar) m m 0 0 = true ∧
    ¬ Spec.equal (.arr [2, 3] .scalar) (.arr [3, 2] .scalar) m m 0 0 := by
  refine ⟨?_, ?_⟩
  · rw [eqInner, Bool.and_eq_true, eqLoop_true]
    refine ⟨by decide, fun j _ _ => ?_⟩
    rw [eqInner]
    · exact decide_eq_true rfl
    · intro _ _ _ _ h; cases h
  · intro h
    rw [Spec.equal] at h
    rcases h.1 with h | h
    · exact absurd h (by decide)
    · exact absurd h.1 (by decide)

/-! ## Examples -/

def abc : Arr Int := { left := 1, right := 3, down := false, data := [1, 2, 3] }
def abd : Arr Int := { left := 3, right := 1, down := true, data := [1, 2, 4] }
def nul : Arr Int := { left := 1, right := 0, down := false, data := [] }

example : abc.wf ∧ abd.wf ∧ nul.wf ∧ (abc.data ≠ [] ∨ abd.data ≠ []) := by
  unfold Arr.wf; decide
example : LtYields abc abd (.ok true) :=
  (lt_correct (by unfold Arr.wf; decide) (by unfold Arr.wf; decide) (by decide) _).mpr (by decide)
example : Ty.similar (.arr [2] (.arr [3] .scalar)) (.arr [2] (.arr [4] .scalar)) ∧
    Ty.oneDim (.arr [2] (.arr [3] .scalar)) := ⟨⟨rfl, rfl, trivial⟩, rfl, rfl, trivial⟩
example : eqInner (.arr [2] (.arr [3] .scalar)) (.arr [2] (.arr [3] .scalar))
    (fun i => i) (fun i => i + 10 - 10) 0 0 = true := by decide

end Verif.Predef
