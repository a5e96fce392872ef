import Verif.Case.Model

/-! C87: the elements of a choice. -/
namespace Verif.Case

mutual
/-- Expressions without a range association in which `others` comes last and no element is
given twice. -/
def WF : Arr → Prop
  | .str _ => True
  | .agg left up as => WFA left up as 0
  | .ref v => WF v
  | .slice b _ => WF b

def WFA (left : Int) (up : Bool) : Assocs → Nat → Prop
  | .nil, _ => True
  | .pos _ rest, p => ¬ Given left up rest (p + 1) p ∧ WFA left up rest (p + 1)
  | .concat a len rest, p => WF a ∧ (∀ d, p ≤ d → d < p + len → ¬ Given left up rest (p + len) d) ∧
      WFA left up rest (p + len)
  | .named i _ rest, p => (∀ d : Nat, offsetOf left up i = (d : Int) → ¬ Given left up rest p d) ∧
      WFA left up rest p
  | .range _ _ _ _, _ => False
  | .sliced l r a rest, p => WF a ∧ (∀ d : Nat, offsetOf left up l ≤ (d : Int) →
      (d : Int) ≤ offsetOf left up r → ¬ Given left up rest p d) ∧ WFA left up rest p
  | .others _ rest, _ => rest = .nil
end

theorem ElemA.given {left : Int} {up : Bool} {as : Assocs} : ∀ {p d x : Nat}, ElemA left up as p d x →
    Given left up as p d := by
  intro p d x h
  refine ElemA.rec (motive_1 := fun _ _ _ _ => True) (motive_2 := fun left up as p d _ _ => Given left up as p d)
    (motive_3 := fun _ _ _ => True)
    ?_ ?_ ?_ ?_ ?_ ?_ ?_ ?_ ?_ ?_ ?_ ?_ ?_ ?_ ?_ ?_ ?_ ?_ ?_ ?_ ?_ ?_ h <;> intros <;> try trivial
  · exact Or.inl rfl
  · rename_i h; exact Or.inr h
  · exact Or.inl ⟨by omega, by omega⟩
  · rename_i h; exact Or.inr h
  · rename_i h; exact Or.inl h
  · rename_i h; exact Or.inr h
  · rename_i h1 h2; exact Or.inl ⟨h1, h2⟩
  · rename_i h; exact Or.inr h
  · rename_i h1 h2 h3 h4; exact Or.inl ⟨by omega, by omega⟩
  · rename_i h; exact Or.inr h

/-- What the associations say about an element. -/
def Says (left : Int) (up : Bool) (as : Assocs) (p d x : Nat) : Prop :=
  ElemA left up as p d x ∨ (¬ Given left up as p d ∧ Others as x)

mutual
/-- **C87f.**  `get_case_choice_char` finds the element that the expression has at the place,
for expressions without ranges among the choices of an aggregate. -/
theorem char_partial : ∀ (t : Arr), WF t → ∀ d x, Elem t d x ↔ getChar t d = some x
  | .str cs, _, d, x => ⟨fun h => by cases h with | str h => exact h, fun h => .str h⟩
  | .agg left up as, h, d, x => by
    have ih := assoc_iff left up as 0 h d (Nat.zero_le _) x
    show _ ↔ getAssoc left up as 0 d = some x
    rw [← ih]
    constructor
    · intro h
      cases h with
      | agg h => exact Or.inl h
      | aggOthers h h' => exact Or.inr ⟨h, h'⟩
    · rintro (h | ⟨h, h'⟩)
      · exact .agg h
      · exact .aggOthers h h'
  | .ref v, h, d, x => by
    have ih := char_partial v h d x
    show _ ↔ getChar v d = some x
    rw [← ih]
    exact ⟨fun h => by cases h with | ref h => exact h, fun h => .ref h⟩
  | .slice b off, h, d, x => by
    have ih := char_partial b h (d + off) x
    show _ ↔ getChar b (d + off) = some x
    rw [← ih]
    exact ⟨fun h => by cases h with | slice h => exact h, fun h => .slice h⟩

theorem assoc_iff (left : Int) (up : Bool) : ∀ (as : Assocs) (p : Nat), WFA left up as p → ∀ d, p ≤ d → ∀ x,
    Says left up as p d x ↔ getAssoc left up as p d = some x
  | .nil, p, _, d, _, x => by
    constructor
    · rintro (h | ⟨_, h⟩) <;> cases h
    · intro h; cases h
  | .pos y rest, p, h, d, hp, x => by
    obtain ⟨h1, h2⟩ := h
    unfold getAssoc
    by_cases hd : p = d
    · rw [if_pos hd]
      subst hd
      constructor
      · rintro (h | ⟨h, _⟩)
        · cases h with
          | pos => rfl
          | posRest h => exact absurd h.given h1
        · exact absurd (Or.inl rfl) h
      · intro h; cases h; exact Or.inl .pos
    · rw [if_neg hd, ← assoc_iff left up rest (p + 1) h2 d (by omega) x]
      constructor
      · rintro (h | ⟨h, h'⟩)
        · cases h with
          | pos => exact absurd rfl hd
          | posRest h => exact Or.inl h
        · cases h' with
          | pos h' => exact Or.inr ⟨fun hg => h (Or.inr hg), h'⟩
      · rintro (h | ⟨h, h'⟩)
        · exact Or.inl (.posRest h)
        · refine Or.inr ⟨?_, .pos h'⟩
          rintro (hg | hg)
          · exact hd hg.symm
          · exact h hg
  | .concat a len rest, p, h, d, hp, x => by
    obtain ⟨h0, h1, h2⟩ := h
    unfold getAssoc
    by_cases hd : d < p + len
    · rw [if_pos hd, ← char_partial a h0 (d - p) x]
      constructor
      · rintro (h | ⟨h, _⟩)
        · generalize hd' : d = d' at h
          cases h with
          | concat hk he =>
            subst hd'
            rw [show p + _ - p = _ from Nat.add_sub_cancel_left ..]
            exact he
          | concatRest h => subst hd'; exact absurd h.given (h1 d hp hd)
        · exact absurd (Or.inl ⟨hp, hd⟩) h
      · intro h
        have e : d = p + (d - p) := by omega
        rw [e]
        exact Or.inl (.concat (by omega) h)
    · rw [if_neg hd, ← assoc_iff left up rest (p + len) h2 d (by omega) x]
      constructor
      · rintro (h | ⟨h, h'⟩)
        · cases h with
          | concat hk he => exact absurd hd (by omega)
          | concatRest h => exact Or.inl h
        · cases h' with
          | concat h' => exact Or.inr ⟨fun hg => h (Or.inr hg), h'⟩
      · rintro (h | ⟨h, h'⟩)
        · exact Or.inl (.concatRest h)
        · refine Or.inr ⟨?_, .concat h'⟩
          rintro (hg | hg)
          · exact hd hg.2
          · exact h hg
  | .named i y rest, p, h, d, hp, x => by
    obtain ⟨h1, h2⟩ := h
    unfold getAssoc
    by_cases hd : offsetOf left up i = (d : Int)
    · rw [if_pos hd]
      constructor
      · rintro (h | ⟨h, _⟩)
        · cases h with
          | named => rfl
          | namedRest h => exact absurd h.given (h1 d hd)
        · exact absurd (Or.inl hd) h
      · intro h; cases h; exact Or.inl (.named hd)
    · rw [if_neg hd, ← assoc_iff left up rest p h2 d hp x]
      constructor
      · rintro (h | ⟨h, h'⟩)
        · cases h with
          | named h => exact absurd h hd
          | namedRest h => exact Or.inl h
        · cases h' with
          | named h' => exact Or.inr ⟨fun hg => h (Or.inr hg), h'⟩
      · rintro (h | ⟨h, h'⟩)
        · exact Or.inl (.namedRest h)
        · refine Or.inr ⟨?_, .named h'⟩
          rintro (hg | hg)
          · exact hd hg
          · exact h hg
  | .range _ _ _ _, _, h, _, _, _ => h.elim
  | .sliced l r a rest, p, h, d, hp, x => by
    obtain ⟨h0, h1, h2⟩ := h
    unfold getAssoc
    by_cases hd : offsetOf left up l ≤ (d : Int) ∧ (d : Int) ≤ offsetOf left up r
    · rw [if_pos hd, ← char_partial a h0 _ x]
      constructor
      · rintro (h | ⟨h, _⟩)
        · cases h with
          | @sliced _ _ _ _ _ _ _ _ _ k hk hr he =>
            rw [show ((d : Int) - offsetOf left up l).toNat = k by omega]
            exact he
          | slicedRest h => exact absurd h.given (h1 d hd.1 hd.2)
        · exact absurd (Or.inl hd) h
      · intro h
        exact Or.inl (.sliced (by omega) hd.2 h)
    · rw [if_neg hd, ← assoc_iff left up rest p h2 d hp x]
      constructor
      · rintro (h | ⟨h, h'⟩)
        · cases h with
          | sliced hk hr he => exact absurd ⟨by omega, hr⟩ hd
          | slicedRest h => exact Or.inl h
        · cases h' with
          | sliced h' => exact Or.inr ⟨fun hg => h (Or.inr hg), h'⟩
      · rintro (h | ⟨h, h'⟩)
        · exact Or.inl (.slicedRest h)
        · refine Or.inr ⟨?_, .sliced h'⟩
          rintro (hg | hg)
          · exact hd hg
          · exact h hg
  | .others y rest, p, h, d, hp, x => by
    have h : rest = .nil := h
    subst h
    unfold getAssoc
    constructor
    · rintro (h | ⟨_, h⟩)
      · cases h with
        | othersRest h => cases h
      · cases h with
        | here => rfl
    · intro h; cases h
      exact Or.inr ⟨fun h => h, .here⟩
end

/-- An expression that has the elements `xs` is read as a choice with exactly those. -/
theorem chars_partial (t : Arr) (h : WF t) (xs : List Nat)
    (he : ∀ (d : Nat) x, xs[d]? = some x → Elem t d x) : chars t xs.length = xs.map some := by
  apply List.ext_getElem
  · simp [chars]
  · intro d h1 h2
    have hd : d < xs.length := by simpa [chars] using h1
    simp only [chars, List.getElem_map, List.getElem_range]
    exact (char_partial t h d _).mp (he d xs[d] (List.getElem?_eq_getElem hd))

/-- `(7 => '1', 5 => '0') & "11"` with a slice of it, and `others`. -/
def charDemo : Arr :=
  .slice (.agg 7 false (.named 7 1 (.named 5 0 (.sliced 4 3 (.str [1, 1]) (.others 2 .nil))))) 1

example : WF charDemo ∧ Elem charDemo 0 2 ∧ Elem charDemo 2 1 := by
  have hw : WF charDemo := by
    refine ⟨fun d h1 h2 => ?_, fun d h1 h2 => ?_, trivial, fun d h1 h2 h3 => ?_, rfl⟩
    · rcases h2 with h2 | ⟨h2, h3⟩ | h2
      · simp [offsetOf] at h1 h2; omega
      · simp [offsetOf] at h1 h2 h3; omega
      · exact h2
    · rcases h2 with ⟨h2, h3⟩ | h2
      · simp [offsetOf] at h1 h2 h3; omega
      · exact h2
    · exact h3
  exact ⟨hw, (char_partial _ hw _ _).mpr (by decide), (char_partial _ hw _ _).mpr (by decide)⟩

/-- **C87f'.**  A range among the choices of an aggregate is overlooked: the elements that it
stands for are said to be missing. -/
theorem char_range_counterexample : ∃ (t : Arr) (d x : Nat), Elem t d x ∧ getChar t d = none :=
  ⟨.agg 0 true (.range 0 1 3 .nil), 0, 3, .agg (.range (by decide) (by decide)), by decide⟩

/-- **C87f''.**  So a value that has a choice of its own is not encoded as the label of that
choice, for any width of the elements that the encoding can be used with: the alternative is
never executed. -/
theorem char_range_label_counterexample : ∃ (t : Arr) (xs : List Nat),
    (∀ (d : Nat) x, xs[d]? = some x → Elem t d x) ∧
    ∀ nbits, nbits ≤ 16 → (∀ x ∈ xs, x < 2 ^ nbits) →
      choiceEnc (exactMap nbits xs.length) nbits (chars t xs.length) ≠
        valueEnc (exactMap nbits xs.length) nbits xs := by
  refine ⟨.agg 0 true (.range 0 1 3 .nil), [3, 3], ?_, ?_⟩
  · intro d x h
    match d, h with
    | 0, h => cases h; exact .agg (.range (by decide) (by decide))
    | 1, h => cases h; exact .agg (.range (by decide) (by decide))
    | d + 2, h => simp at h
  · intro nbits h _
    have : ∀ n, n ≤ 16 → choiceEnc (exactMap n 2) n (chars (.agg 0 true (.range 0 1 3 .nil)) 2) ≠
        valueEnc (exactMap n 2) n [3, 3] := by decide +kernel
    exact this nbits h

end Verif.Case
