import Verif.Case.Model

/-! C87: the multi-way branch of the JIT, folding of case statements, case generate. -/
namespace Verif.Case

/-- **C87g.**  The sequence of instructions for a multi-way branch goes where the branch
goes. -/
theorem interp_case (v : Int) (deflt : Nat) (cases : List (Int × Nat)) :
    interpCase v (irgenCase deflt cases) = some (target deflt cases v) := by
  unfold irgenCase
  induction cases with
  | nil => rfl
  | cons p cs ih =>
    obtain ⟨x, b⟩ := p
    show (if v = x then some b else interpCase v _) = some (if v = x then b else target deflt cs v)
    by_cases h : v = x
    · rw [if_pos h, if_pos h]
    · rw [if_neg h, if_neg h]; exact ih

/-- If the labels are different their order makes no difference (as for the switch of
LLVM, which has none). -/
theorem target_unique (deflt : Nat) (cases : List (Int × Nat)) (hn : (cases.map Prod.fst).Nodup)
    (v : Int) (b : Nat) (h : (v, b) ∈ cases) : target deflt cases v = b := by
  induction cases with
  | nil => cases h
  | cons p cs ih =>
    obtain ⟨x, c⟩ := p
    have hn' : x ∉ cs.map Prod.fst ∧ (cs.map Prod.fst).Nodup := by simpa using hn
    unfold target
    simp only [List.mem_cons, Prod.mk.injEq] at h
    rcases h with ⟨h1, h2⟩ | h
    · rw [if_pos h1, h2]
    · have hx : ¬ v = x := by
        intro hx; subst hx
        exact hn'.1 (List.mem_map.mpr ⟨_, h, rfl⟩)
      rw [if_neg hx]
      exact ih hn'.2 h

theorem target_default (deflt : Nat) (cases : List (Int × Nat)) (v : Int) (h : ∀ b, (v, b) ∉ cases) :
    target deflt cases v = deflt := by
  induction cases with
  | nil => rfl
  | cons p cs ih =>
    obtain ⟨x, c⟩ := p
    unfold target
    have hx : ¬ v = x := by intro hx; subst hx; exact h c (by simp)
    rw [if_neg hx]
    exact ih (fun b hb => h b (by simp [hb]))

/-- **C87g'.**  A branch on a known value is the jump that the branch would have taken. -/
theorem mir_case (deflt : Nat) (cases : List (Int × Nat)) (P : Nat → Blk) (R : Run) (b : Nat) (k : Int)
    (hk : R.sel = k) (hb : P b = ⟨[], some (mirCase (some k) deflt cases)⟩) (es : List Ev) (f : Option Nat)
    (h : To P R (target deflt cases R.sel) es f) : To P R b es f := by
  have := To.jump (P := P) (R := R) (b := b) (c := target deflt cases k) (by rw [hb]; rfl) (by rw [← hk]; exact h)
  rw [hb] at this
  exact this

/-! ### Folding -/

/-- A choice of the source and what of it `simp_case` has folded. -/
def folded : Choice → SChoice
  | .one x => .one (some x)
  | .range lo hi => .range (some (lo, hi))
  | .others => .others

def NoRange (alts : List (List Choice)) : Prop := ∀ cs ∈ alts, ∀ c ∈ cs, ∀ lo hi, c ≠ .range lo hi

theorem simpMatch_spec (v : Int) (cs : List Choice) (hr : ∀ c ∈ cs, ∀ lo hi, c ≠ .range lo hi) :
    simpMatch v (cs.map folded) = true ↔ ∃ c ∈ cs, c.Covers v ∨ c = .others := by
  induction cs with
  | nil => simp [simpMatch]
  | cons c cs ih =>
    have ih := ih (fun c hc => hr c (by simp [hc]))
    cases c with
    | range lo hi => exact absurd rfl (hr _ (by simp) lo hi)
    | others =>
      show true = true ↔ _
      exact ⟨fun _ => ⟨.others, by simp, Or.inr rfl⟩, fun _ => rfl⟩
    | one x =>
      show (if v = x then true else simpMatch v (cs.map folded)) = true ↔ _
      by_cases hv : v = x
      · rw [if_pos hv]
        exact ⟨fun _ => ⟨.one x, by simp, Or.inl hv⟩, fun _ => rfl⟩
      · rw [if_neg hv, ih]
        constructor
        · rintro ⟨c, h1, h2⟩; exact ⟨c, by simp [h1], h2⟩
        · rintro ⟨c, h1, h2⟩
          simp only [List.mem_cons] at h1
          rcases h1 with h1 | h1
          · subst h1
            rcases h2 with h2 | h2
            · exact absurd h2 hv
            · cases h2
          · exact ⟨c, h1, h2⟩

theorem simpCase_spec (v : Int) (alts : List (List Choice)) (hr : NoRange alts) : ∀ i,
    (∀ k, simpCase v i (alts.map (·.map folded)) = some k →
      ∃ m cs, k = i + m ∧ alts[m]? = some cs ∧ (∃ c ∈ cs, c.Covers v ∨ c = .others) ∧
        ∀ (n : Nat) cs', n < m → alts[n]? = some cs' → ∀ c ∈ cs', ¬ c.Covers v ∧ c ≠ .others) ∧
    (simpCase v i (alts.map (·.map folded)) = none → ∀ cs ∈ alts, ∀ c ∈ cs, ¬ c.Covers v ∧ c ≠ .others) := by
  induction alts with
  | nil => intro i; exact ⟨fun k h => (by cases h), fun _ cs hm => (by cases hm)⟩
  | cons cs alts ih =>
    intro i
    have ih := ih (fun cs' hm => hr cs' (by simp [hm])) (i + 1)
    have hm := simpMatch_spec v cs (hr cs (by simp))
    show (∀ k, (if simpMatch v (cs.map folded) = true then some i else simpCase v (i + 1) _) = some k → _) ∧
      ((if simpMatch v (cs.map folded) = true then some i else simpCase v (i + 1) _) = none → _)
    by_cases h : simpMatch v (cs.map folded) = true
    · rw [if_pos h]
      refine ⟨fun k hk => ?_, fun h => by cases h⟩
      cases hk
      exact ⟨0, cs, rfl, rfl, hm.mp h, fun n _ hn => absurd hn (Nat.not_lt_zero _)⟩
    · rw [if_neg h]
      have hno : ∀ c ∈ cs, ¬ c.Covers v ∧ c ≠ .others := fun c hc =>
        ⟨fun h1 => h (hm.mpr ⟨c, hc, Or.inl h1⟩), fun h1 => h (hm.mpr ⟨c, hc, Or.inr h1⟩)⟩
      refine ⟨fun k hk => ?_, fun hk cs' hcs => ?_⟩
      · obtain ⟨m, cs', h1, h2, h3, h4⟩ := ih.1 k hk
        refine ⟨m + 1, cs', by omega, by simpa using h2, h3, fun n cs'' hn h5 => ?_⟩
        cases n with
        | zero => simp at h5; subst h5; exact hno
        | succ n => exact h4 n cs'' (by omega) (by simpa using h5)
      · simp only [List.mem_cons] at hcs
        rcases hcs with hcs | hcs
        · subst hcs; exact hno
        · exact ih.2 hk cs' hcs

/-- `others` is the last choice of a statement. -/
def OthersLast {C : Type} (oth : C) (alts : List (List C)) : Prop :=
  ∀ (i : Nat) cs, alts[i]? = some cs → oth ∈ cs → cs = [oth] ∧ i + 1 = alts.length

/-- **C87h.**  A case statement on a known value is replaced by the alternative that is
selected, if the choices are numbers and `others` only. -/
theorem simp_case_partial (v : Int) (alts : List (List Choice)) (hr : NoRange alts)
    (hl : OthersLast Choice.others alts) :
    (∀ k, simpCase v 0 (alts.map (·.map folded)) = some k → ∃ j, Selected Choice.Covers .others alts v k j) ∧
    (simpCase v 0 (alts.map (·.map folded)) = none → NoneSelected Choice.Covers .others alts v) := by
  obtain ⟨h1, h2⟩ := simpCase_spec v alts hr 0
  refine ⟨fun k hk => ?_, h2⟩
  obtain ⟨m, cs, h3, h4, ⟨c, h5, h6⟩, h7⟩ := h1 k hk
  rw [Nat.zero_add] at h3
  subst h3
  obtain ⟨j, hj⟩ := List.mem_iff_getElem?.mp h5
  refine ⟨j, cs, c, h4, hj, ?_⟩
  rcases h6 with h6 | h6
  · exact Or.inl h6
  · subst h6
    refine Or.inr ⟨rfl, fun cs' hcs c' hc' => ?_⟩
    obtain ⟨h8, h9⟩ := hl k cs h4 h5
    obtain ⟨n, hn⟩ := List.mem_iff_getElem?.mp hcs
    have hlt : n < alts.length := by
      rw [List.getElem?_eq_some_iff] at hn
      exact hn.1
    by_cases hnk : n < k
    · exact (h7 n cs' hnk hn c' hc').1
    · have : n = k := by omega
      subst this
      rw [h4] at hn
      cases hn
      rw [h8] at hc'
      simp at hc'
      subst hc'
      exact fun h => h

def foldDemo : List (List Choice) := [[.one 1, .one 4], [.one 2], [.others]]

example : NoRange foldDemo ∧ OthersLast Choice.others foldDemo ∧
    simpCase 4 0 (foldDemo.map (·.map folded)) = some 0 ∧
    simpCase 3 0 (foldDemo.map (·.map folded)) = some 2 := by
  refine ⟨?_, ?_, by decide, by decide⟩
  · intro cs hcs c hc lo hi h
    subst h
    simp [foldDemo] at hcs
    rcases hcs with rfl | rfl | rfl <;> simp at hc
  · intro i cs hi hm
    match i, hi with
    | 0, hi => cases hi; simp at hm
    | 1, hi => cases hi; simp at hm
    | 2, hi => cases hi; exact ⟨rfl, rfl⟩
    | i + 3, hi => simp [foldDemo] at hi

/-- **C87h'.**  With a range it is wrong: for
`case 5 is when 1 to 3 => ..; when others => ..` the first alternative is kept, although 5 is
not between 1 and 3.  Every legal statement with a range before the alternative that is
selected has this happen to it. -/
theorem simp_range_counterexample : ∃ (v : Int) (alts : List (List Choice)) (k : Nat),
    OthersLast Choice.others alts ∧ simpCase v 0 (alts.map (·.map folded)) = some k ∧
    Selected Choice.Covers .others alts v 1 0 ∧ k = 0 ∧ ∀ j, ¬ Selected Choice.Covers .others alts v k j := by
  refine ⟨5, [[.range 1 3], [.others]], 0, ?_, by decide, ⟨_, _, rfl, rfl, Or.inr ⟨rfl, ?_⟩⟩, rfl, ?_⟩
  · intro i cs hi hm
    match i, hi with
    | 0, hi => cases hi; simp at hm
    | 1, hi => cases hi; exact ⟨rfl, rfl⟩
    | i + 2, hi => simp at hi
  · intro cs hcs c hc
    simp at hcs
    rcases hcs with rfl | rfl <;> simp at hc <;> subst hc <;> simp [Choice.Covers]
  · intro j ⟨cs, c, h1, h2, h3⟩
    cases h1
    match j, h2 with
    | 0, h2 =>
      cases h2
      rcases h3 with h3 | ⟨h3, _⟩
      · simp [Choice.Covers] at h3
      · cases h3
    | j + 1, h2 => simp at h2

/-- **C87h''.**  The general form: whatever the value, a range stops the search. -/
theorem simp_range_counterexample_any (v lo hi : Int) (cs : List Choice) (alts : List (List Choice)) :
    simpCase v 0 (((.range lo hi :: cs) :: alts).map (·.map folded)) = some 0 := by
  show (if (if lo ≤ v ∧ v ≤ hi then true else true) = true then some 0 else _) = some 0
  by_cases h : lo ≤ v ∧ v ≤ hi
  · rw [if_pos h]; rfl
  · rw [if_neg h]; rfl

/-- What may be known of a choice: its number, or nothing as it depends on a generic. -/
inductive Refines : SChoice → Choice → Prop
  | one : Refines (.one (some x)) (.one x)
  | unknown : Refines (.one none) (.one x)
  | others : Refines .others .others

inductive Each {A B : Type} (r : A → B → Prop) : List A → List B → Prop
  | nil : Each r [] []
  | cons : r a b → Each r as bs → Each r (a :: as) (b :: bs)

/-- **C87h'''.**  If a choice of a case generate statement is not known yet the alternative
with `others` may be taken for good although the choice turns out to be the one. -/
theorem simp_unknown_counterexample : ∃ (v : Int) (salts : List (List SChoice)) (alts : List (List Choice)),
    Each (Each Refines) salts alts ∧ OthersLast Choice.others alts ∧
    simpCase v 0 salts = some 1 ∧ Selected Choice.Covers .others alts v 0 0 := by
  refine ⟨5, [[.one none], [.others]], [[.one 5], [.others]], ?_, ?_, by decide, _, _, rfl, rfl, Or.inl rfl⟩
  · exact .cons (.cons .unknown .nil) (.cons (.cons .others .nil) .nil)
  · intro i cs hi hm
    match i, hi with
    | 0, hi => cases hi; simp at hm
    | 1, hi => cases hi; exact ⟨rfl, rfl⟩
    | i + 2, hi => simp at hi

/-! ### Case generate -/

theorem thunkAlt_iff {C V : Type} (eq : C → V → Bool) (isOthers : C → Bool) (v : V) (cs : List C) :
    thunkAlt eq isOthers v cs = true ↔ ∃ c ∈ cs, isOthers c = true ∨ eq c v = true := by
  induction cs with
  | nil => simp [thunkAlt]
  | cons c cs ih =>
    unfold thunkAlt
    by_cases h1 : isOthers c = true
    · simp [h1]
    · by_cases h2 : eq c v = true
      · simp [h2]
      · simp [h1, h2, ih]

/-- **C87i.**  The function for a case generate statement yields the number of the alternative
that is selected, or -1 if there is none.  Ranges are refused. -/
theorem thunk_case {C V : Type} (eq : C → V → Bool) (oth : C) [DecidableEq C] (covers : C → V → Prop)
    (heq : ∀ c v, c ≠ oth → (eq c v = true ↔ covers c v)) (hoth : ∀ v, ¬ covers oth v)
    (v : V) (alts : List (List C)) (hl : OthersLast oth alts) :
    (∀ k, thunkCase eq (· == oth) v 0 alts = some k → ∃ j, Selected covers oth alts v k j) ∧
    (thunkCase eq (· == oth) v 0 alts = none → NoneSelected covers oth alts v) := by
  have gen : ∀ (alts : List (List C)) (i : Nat),
      (∀ k, thunkCase eq (· == oth) v i alts = some k → ∃ m cs, k = i + m ∧ alts[m]? = some cs ∧
        (∃ c ∈ cs, c = oth ∨ covers c v) ∧
        ∀ (n : Nat) cs', n < m → alts[n]? = some cs' → ∀ c ∈ cs', ¬ covers c v ∧ c ≠ oth) ∧
      (thunkCase eq (· == oth) v i alts = none → ∀ cs ∈ alts, ∀ c ∈ cs, ¬ covers c v ∧ c ≠ oth) := by
    intro alts
    induction alts with
    | nil => intro i; exact ⟨fun k h => (by cases h), fun _ cs hm => (by cases hm)⟩
    | cons cs alts ih =>
      intro i
      have ih := ih (i + 1)
      have hm := thunkAlt_iff eq (· == oth) v cs
      show (∀ k, (if thunkAlt eq (· == oth) v cs = true then some i else thunkCase eq (· == oth) v (i + 1) alts) = some k → _) ∧
        ((if thunkAlt eq (· == oth) v cs = true then some i else thunkCase eq (· == oth) v (i + 1) alts) = none → _)
      by_cases h : thunkAlt eq (· == oth) v cs = true
      · rw [if_pos h]
        refine ⟨fun k hk => ?_, fun h => by cases h⟩
        cases hk
        refine ⟨0, cs, rfl, rfl, ?_, fun n _ hn => absurd hn (Nat.not_lt_zero _)⟩
        obtain ⟨c, h1, h2⟩ := hm.mp h
        refine ⟨c, h1, ?_⟩
        by_cases hc : c = oth
        · exact Or.inl hc
        · rcases h2 with h2 | h2
          · exact absurd (eq_of_beq h2) hc
          · exact Or.inr ((heq c v hc).mp h2)
      · rw [if_neg h]
        have hno : ∀ c ∈ cs, ¬ covers c v ∧ c ≠ oth := by
          intro c hc
          have hc' : c ≠ oth := fun h1 => h (hm.mpr ⟨c, hc, Or.inl (by rw [h1]; exact beq_self_eq_true oth)⟩)
          exact ⟨fun h1 => h (hm.mpr ⟨c, hc, Or.inr ((heq c v hc').mpr h1)⟩), hc'⟩
        refine ⟨fun k hk => ?_, fun hk cs' hcs => ?_⟩
        · obtain ⟨m, cs', h1, h2, h3, h4⟩ := ih.1 k hk
          refine ⟨m + 1, cs', by omega, by simpa using h2, h3, fun n cs'' hn h5 => ?_⟩
          cases n with
          | zero => simp at h5; subst h5; exact hno
          | succ n => exact h4 n cs'' (by omega) (by simpa using h5)
        · simp only [List.mem_cons] at hcs
          rcases hcs with hcs | hcs
          · subst hcs; exact hno
          · exact ih.2 hk cs' hcs
  obtain ⟨h1, h2⟩ := gen alts 0
  refine ⟨fun k hk => ?_, h2⟩
  obtain ⟨m, cs, h3, h4, ⟨c, h5, h6⟩, h7⟩ := h1 k hk
  rw [Nat.zero_add] at h3
  subst h3
  obtain ⟨j, hj⟩ := List.mem_iff_getElem?.mp h5
  refine ⟨j, cs, c, h4, hj, ?_⟩
  rcases h6 with h6 | h6
  · subst h6
    refine Or.inr ⟨rfl, fun cs' hcs c' hc' => ?_⟩
    obtain ⟨h8, h9⟩ := hl k cs h4 h5
    obtain ⟨n, hn⟩ := List.mem_iff_getElem?.mp hcs
    have hlt : n < alts.length := by
      rw [List.getElem?_eq_some_iff] at hn
      exact hn.1
    by_cases hnk : n < k
    · exact (h7 n cs' hnk hn c' hc').1
    · have : n = k := by omega
      subst this
      rw [h4] at hn
      cases hn
      rw [h8] at hc'
      simp at hc'
      subst hc'
      exact hoth v
  · exact Or.inl h6

example : thunkCase (fun (c : AChoice) (v : List Nat) => c == .one v) (· == .others) [1, 0] 0
    [[.one [0, 0], .one [1, 1]], [.one [1, 0]], [.others]] = some 1 := by decide

end Verif.Case
