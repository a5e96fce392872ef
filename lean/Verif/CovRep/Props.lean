import Verif.CovRep.Model

/-
Theorems on the numbers of the coverage report, property C103.
-/

namespace Verif.CovRep

open Spec

theorem covered_iff (i : Item) : covered i = true ↔ i.data ≥ i.atleast ∧ i.atleast > 0 := by
  unfold covered; simp; omega

/-- What is known after some items, if the limit was not reached. -/
def Exact (is : List Item) (s : St) : Prop :=
  s.total = is.length ∧ s.hit = is.countP (fun i => covered i || waived i) ∧ s.skipped = 0 ∧
  s.hits = is.filter covered ∧ s.miss = is.filter missed ∧ s.excl = is.filter waived

theorem one_exact (lim : Nat) (is : List Item) (s : St) (i : Item) (h : Exact is s)
    (hl : is.length ≤ lim) : Exact (is ++ [i]) (one lim s i).1 ∧ (one lim s i).2 = false := by
  obtain ⟨h1, h2, h3, h4, h5, h6⟩ := h
  have l4 : ¬ s.hits.length > lim := by
    have := List.length_filter_le covered is; rw [h4]; omega
  have l5 : ¬ s.miss.length > lim := by
    have := List.length_filter_le missed is; rw [h5]; omega
  have l6 : ¬ s.excl.length > lim := by
    have := List.length_filter_le waived is; rw [h6]; omega
  unfold one
  by_cases hc : i.data ≥ i.atleast ∧ i.atleast > 0
  · have c := (covered_iff i).mpr hc
    rw [if_pos hc, if_neg l4]
    have w : waived i = false := by unfold waived; rw [c]; rfl
    have m : missed i = false := by unfold missed; rw [c]; rfl
    refine ⟨⟨?_, ?_, ?_, ?_, ?_, ?_⟩, rfl⟩
    · show s.total + 1 = _; rw [h1]; simp
    · show s.hit + 1 = _; rw [h2]; simp [c]
    · exact h3
    · show s.hits ++ [i] = _; rw [h4]; simp [c]
    · show s.miss = _; rw [h5]; simp [m]
    · show s.excl = _; rw [h6]; simp [w]
  · have c : covered i = false := by
      cases hx : covered i with
      | false => rfl
      | true => exact absurd ((covered_iff i).mp hx) hc
    rw [if_neg hc]
    by_cases he : (i.excluded || i.unreachable) = true
    · have w : waived i = true := by unfold waived; rw [c, he]; rfl
      have m : missed i = false := by unfold missed; rw [c, w]; rfl
      rw [if_pos he, if_neg l6]
      refine ⟨⟨?_, ?_, ?_, ?_, ?_, ?_⟩, rfl⟩
      · show s.total + 1 = _; rw [h1]; simp
      · show s.hit + 1 = _; rw [h2]; simp [w]
      · exact h3
      · show s.hits = _; rw [h4]; simp [c]
      · show s.miss = _; rw [h5]; simp [m]
      · show s.excl ++ [i] = _; rw [h6]; simp [w]
    · have w : waived i = false := by
        unfold waived; rw [c]
        cases hx : (i.excluded || i.unreachable) with
        | false => rfl
        | true => exact absurd hx he
      have m : missed i = true := by unfold missed; rw [c, w]; rfl
      rw [if_neg he, if_neg l5]
      refine ⟨⟨?_, ?_, ?_, ?_, ?_, ?_⟩, rfl⟩
      · show s.total + 1 = _; rw [h1]; simp
      · show s.hit = _; rw [h2]; simp [c, w]
      · exact h3
      · show s.hits = _; rw [h4]; simp [c]
      · show s.miss ++ [i] = _; rw [h5]; simp [m]
      · show s.excl = _; rw [h6]; simp [w]

theorem group_exact (lim : Nat) (g is : List Item) (s : St) (h : Exact is s)
    (hl : is.length + g.length ≤ lim + 1) : Exact (is ++ g) (group lim s false g) := by
  induction g generalizing is s with
  | nil => rw [List.append_nil]; exact h
  | cons i g ih =>
    rw [List.length_cons] at hl
    obtain ⟨h1, h2⟩ := one_exact lim is s i h (by omega)
    rw [group, if_neg (by decide), h2]
    have := ih (is ++ [i]) _ h1 (by rw [List.length_append, List.length_singleton]; omega)
    rw [List.append_assoc] at this
    exact this

theorem groups_exact (lim : Nat) (gs : List (List Item)) (is : List Item) (s : St) (h : Exact is s)
    (hl : is.length + gs.flatten.length ≤ lim + 1) :
    Exact (is ++ gs.flatten) (gs.foldl (fun s g => group lim s false g) s) := by
  induction gs generalizing is s with
  | nil => simpa using h
  | cons g gs ih =>
    rw [List.flatten_cons, List.length_append] at hl
    rw [List.foldl_cons, List.flatten_cons, ← List.append_assoc]
    exact ih _ _ (group_exact lim g is s h (by omega)) (by rw [List.length_append]; omega)

/-- Below the limit the report is exact: the total is the number of items, the
hits are those covered, excluded or unreachable, and each item is in exactly
the list it belongs to, in order. -/
theorem report_exact (lim : Nat) (gs : List (List Item)) (hl : gs.flatten.length ≤ lim + 1) :
    (report lim gs).total = gs.flatten.length ∧
    (report lim gs).hit = gs.flatten.countP (fun i => covered i || waived i) ∧
    (report lim gs).skipped = 0 ∧
    (report lim gs).hits = gs.flatten.filter covered ∧
    (report lim gs).miss = gs.flatten.filter missed ∧
    (report lim gs).excl = gs.flatten.filter waived := by
  have := groups_exact lim gs [] St.empty ⟨rfl, rfl, rfl, rfl, rfl, rfl⟩ (by simpa using hl)
  rw [List.nil_append] at this
  exact this

/-- So everything is reported as covered exactly if nothing is missed. -/
theorem full_iff (lim : Nat) (gs : List (List Item)) (hl : gs.flatten.length ≤ lim + 1) :
    (report lim gs).hit = (report lim gs).total ↔ ∀ i ∈ gs.flatten, missed i = false := by
  obtain ⟨h1, h2, _⟩ := report_exact lim gs hl
  rw [h1, h2, List.countP_eq_length]
  constructor
  · intro h i hi
    have := h i hi
    unfold missed
    cases hc : covered i <;> cases hw : waived i <;> simp_all
  · intro h i hi
    have := h i hi
    unfold missed at this
    cases hc : covered i <;> cases hw : waived i <;> simp_all

example : report 5 [[⟨3, 1, false, false⟩, ⟨0, 1, true, false⟩], [⟨0, 1, false, false⟩]] =
    ⟨3, 2, 0, [⟨3, 1, false, false⟩], [⟨0, 1, false, false⟩], [⟨0, 1, true, false⟩]⟩ := by
  decide +kernel

/-- What holds with and without the limit. -/
def Sound (lim n : Nat) (s : St) : Prop :=
  s.hit ≤ s.total ∧ s.total ≤ n ∧ n ≤ s.total + s.skipped ∧
  s.hits.length + s.miss.length + s.excl.length + s.skipped = s.total ∧
  s.hits.length ≤ lim + 1 ∧ s.miss.length ≤ lim + 1 ∧ s.excl.length ≤ lim + 1

/-- As long as an item is still to be passed over, one more skipped is
counted than passed. -/
theorem one_sound (lim n : Nat) (s : St) (i : Item) (h : Sound lim n s) :
    Sound lim (n + 1) (one lim s i).1 ∧
      ((one lim s i).2 = true → Sound lim (n + 2) (one lim s i).1 ∨
        (n + 2 ≤ (one lim s i).1.total + (one lim s i).1.skipped)) := by
  obtain ⟨h1, h2, h3, h4, h5, h6, h7⟩ := h
  unfold one
  split
  · split
    · refine ⟨⟨?_, ?_, ?_, ?_, ?_, ?_, ?_⟩, fun _ => Or.inr ?_⟩ <;> simp only <;> omega
    · refine ⟨⟨?_, ?_, ?_, ?_, ?_, ?_, ?_⟩, (fun h => by cases h)⟩ <;>
        simp only [List.length_append, List.length_singleton] <;> omega
  · split
    · split
      · refine ⟨⟨?_, ?_, ?_, ?_, ?_, ?_, ?_⟩, fun _ => Or.inr ?_⟩ <;> simp only <;> omega
      · refine ⟨⟨?_, ?_, ?_, ?_, ?_, ?_, ?_⟩, (fun h => by cases h)⟩ <;>
          simp only [List.length_append, List.length_singleton] <;> omega
    · split
      · refine ⟨⟨?_, ?_, ?_, ?_, ?_, ?_, ?_⟩, fun _ => Or.inr ?_⟩ <;> simp only <;> omega
      · refine ⟨⟨?_, ?_, ?_, ?_, ?_, ?_, ?_⟩, (fun h => by cases h)⟩ <;>
          simp only [List.length_append, List.length_singleton] <;> omega

theorem group_sound (lim : Nat) (g : List Item) (n : Nat) (s : St) (pass : Bool)
    (h : Sound lim n s) (hp : pass = true → n + 1 ≤ s.total + s.skipped) :
    Sound lim (n + g.length) (group lim s pass g) := by
  induction g generalizing n s pass with
  | nil => exact h
  | cons i g ih =>
    rw [group, List.length_cons]
    have e : n + (g.length + 1) = (n + 1) + g.length := by omega
    rw [e]
    cases pass with
    | true =>
      rw [if_pos rfl]
      refine ih (n + 1) s false ?_ (fun h => by cases h)
      obtain ⟨h1, h2, h3, h4, h5⟩ := h
      exact ⟨h1, by omega, hp rfl, h4, h5⟩
    | false =>
      rw [if_neg (by decide)]
      obtain ⟨h1, h2⟩ := one_sound lim n s i h
      refine ih (n + 1) _ _ h1 fun hx => ?_
      rcases h2 hx with h3 | h3
      · exact h3.2.2.1
      · exact h3

theorem groups_sound (lim : Nat) (gs : List (List Item)) (n : Nat) (s : St) (h : Sound lim n s) :
    Sound lim (n + gs.flatten.length) (gs.foldl (fun s g => group lim s false g) s) := by
  induction gs generalizing n s with
  | nil => exact h
  | cons g gs ih =>
    rw [List.foldl_cons, List.flatten_cons, List.length_append, ← Nat.add_assoc]
    exact ih _ _ (group_sound lim g n s false h (fun h => by cases h))

/-- With any limit: no more hits than items, at most one more than the limit in
each list, every item counted is in a list or counted as skipped, and at most
one item is lost for each one skipped. -/
theorem report_sound (lim : Nat) (gs : List (List Item)) :
    (report lim gs).hit ≤ (report lim gs).total ∧
    (report lim gs).total ≤ gs.flatten.length ∧
    gs.flatten.length ≤ (report lim gs).total + (report lim gs).skipped ∧
    (report lim gs).hits.length + (report lim gs).miss.length + (report lim gs).excl.length +
      (report lim gs).skipped = (report lim gs).total ∧
    (report lim gs).hits.length ≤ lim + 1 ∧ (report lim gs).miss.length ≤ lim + 1 ∧
    (report lim gs).excl.length ≤ lim + 1 := by
  have := groups_sound lim gs 0 St.empty
    ⟨Nat.le_refl _, Nat.le_refl _, Nat.le_refl _, rfl, Nat.zero_le _, Nat.zero_le _, Nat.zero_le _⟩
  rw [Nat.zero_add] at this
  exact this

/-- Beyond the limit items are lost: of three items the last is missed, but the
report says 2 of 2. -/
theorem limit_counterexample :
    let g : List Item := [⟨1, 1, false, false⟩, ⟨1, 1, false, false⟩, ⟨0, 1, false, false⟩]
    (report 0 [g]).total = 2 ∧ (report 0 [g]).hit = 2 ∧ (report 0 [g]).skipped = 1 ∧
      (report 0 [g]).miss = [] := by decide +kernel

/-- An item with a threshold of zero is missed, however often it was reached. -/
theorem zero_threshold (i : Item) (h : i.atleast = 0) (he : i.excluded = false)
    (hu : i.unreachable = false) : missed i = true := by
  unfold missed waived covered
  simp [h, he, hu]

/-! ## The average -/

/-- The average is right exactly if all of functional coverage is hit. -/
theorem average_iff (s : Stats) :
    (average s).1 = s.stmt.1 + s.branch.1 + s.toggle.1 + s.expr.1 + s.state.1 + s.functional.1 ↔
      s.functional.1 = s.functional.2 := by
  unfold average; simp only; omega

theorem average_total (s : Stats) :
    (average s).2 = s.stmt.2 + s.branch.2 + s.toggle.2 + s.expr.2 + s.state.2 + s.functional.2 := rfl

/-- Nothing of functional coverage is hit, but the average is 100 percent. -/
theorem average_counterexample :
    average ⟨(0, 0), (0, 0), (0, 0), (0, 0), (0, 0), (0, 8)⟩ = (8, 8) := by decide

/-! ## Characters -/

/-- Text of the source never begins a tag, ends one, or begins another
character reference than the four. -/
theorem print_safe (c x : Nat) (h : x ∈ printChar c) : x ≠ 60 ∧ x ≠ 62 ∧ x ≠ 10 ∧
    (x = 38 → printChar c ≠ [c]) := by
  unfold printChar at h ⊢
  split at h
  · simp at h
    rename_i hc
    rw [if_pos hc]
    refine ⟨by omega, by omega, by omega, fun _ hx => by simp at hx⟩
  · split at h
    · simp at h
      rename_i h1 h2
      rw [if_neg h1, if_pos h2]
      refine ⟨by omega, by omega, by omega, fun _ hx => by simp at hx⟩
    · split at h
      · simp at h
        rename_i h1 h2 h3
        rw [if_neg h1, if_neg h2, if_pos h3]
        refine ⟨by omega, by omega, by omega, fun _ hx => by simp at hx⟩
      · split at h
        · simp at h
          rename_i h1 h2 h3 h4
          rw [if_neg h1, if_neg h2, if_neg h3, if_pos h4]
          refine ⟨by omega, by omega, by omega, fun _ hx => by simp at hx⟩
        · simp at h
          subst h
          rename_i h1 h2 h3 h4
          refine ⟨h2, h3, fun e => h1 (Or.inl e), fun e => absurd e h4⟩

/-- Different characters are shown differently, but for newlines and spaces. -/
theorem print_inj (c d : Nat) (h : printChar c = printChar d) (hc : c ≠ 10) (hd : d ≠ 10) : c = d := by
  unfold printChar at h
  split at h <;> split at h <;> (try split at h) <;> (try split at h) <;> (try split at h) <;>
    (try split at h) <;> (try split at h) <;> (try split at h) <;> simp_all

end Verif.CovRep
