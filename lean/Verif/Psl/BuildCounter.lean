import Verif.Psl.BuildProps

/-!
# Examples and counterexamples for the construction of automata
-/

namespace Verif.Psl

/-! ## Running an automaton without epsilon edges -/

/-- The value of a guard. -/
def Guard.eval (v : Nat → Bool) : Guard → Bool
  | .null => true
  | .expr p => v p
  | .not p => !v p
  | .fls => false
  | .binop _ .and l r => l.eval v && r.eval v
  | .binop _ .or l r => l.eval v || r.eval v

theorem eval_iff (v : Nat → Bool) (g : Guard) : g.eval v = true ↔ g.True v := by
  induction g with
  | null => simp [Guard.eval, Guard.True]
  | expr p => simp [Guard.eval, Guard.True]
  | not p => simp [Guard.eval, Guard.True]
  | fls => simp [Guard.eval, Guard.True]
  | binop a op l r ihl ihr => cases op <;> simp [Guard.eval, Guard.True, ihl, ihr]

/-- Runs an automaton without epsilon edges. -/
def run (f : Fsm) : Nat → List (Nat → Bool) → Bool
  | _, [] => false
  | s, v :: ws =>
    match f.states[s]? with
    | none => false
    | some st =>
      if ws.isEmpty then st.accept && st.guard.eval v
      else st.edges.any fun e => e.guard.eval v && run f e.dest ws

/-- No state has epsilon edges. -/
def noEps (f : Fsm) : Bool := f.states.all fun st => st.edges.all fun e => !e.eps

theorem noEps_state {f : Fsm} (h : noEps f = true) {s : Nat} {st : State}
    (hs : f.states[s]? = some st) : ∀ e ∈ st.edges, e.eps = false := by
  intro e he
  unfold noEps at h
  have h1 := List.all_eq_true.mp h st (List.mem_of_getElem? hs)
  have h2 := List.all_eq_true.mp h1 e he
  simpa using h2

theorem run_iff {f : Fsm} (h : noEps f = true) (s : Nat) (ws : List (Nat → Bool)) :
    Recognises f s ws ↔ run f s ws = true := by
  induction ws generalizing s with
  | nil =>
    constructor
    · intro hr
      cases hr
    · intro hr
      simp [run] at hr
  | cons v ws ih =>
    cases hs : f.states[s]? with
    | none =>
      simp only [run, hs]
      constructor
      · intro hr
        cases hr with
        | last ha =>
          cases ha with
          | here h1 _ _ => rw [hs] at h1; cases h1
          | eps h1 _ _ => rw [hs] at h1; cases h1
        | step hm _ =>
          cases hm with
          | next h1 _ => rw [hs] at h1; cases h1
          | eps h1 _ _ => rw [hs] at h1; cases h1
      · intro hr
        cases hr
    | some st =>
      have hne := noEps_state h hs
      simp only [run, hs]
      cases ws with
      | nil =>
        simp only [List.isEmpty_nil, if_true, Bool.and_eq_true, eval_iff]
        constructor
        · intro hr
          cases hr with
          | last ha =>
            cases ha with
            | here h1 h2 h3 =>
              rw [hs] at h1
              cases h1
              exact ⟨h2, h3⟩
            | eps h1 h2 _ =>
              rw [hs] at h1
              cases h1
              obtain ⟨e, he, he', _⟩ := h2
              rw [hne e he] at he'
              cases he'
          | step _ hr' => cases hr'
        · rintro ⟨h2, h3⟩
          exact .last (.here hs h2 h3)
      | cons u ws =>
        simp only [List.isEmpty_cons, Bool.false_eq_true, if_false, List.any_eq_true,
          Bool.and_eq_true, eval_iff]
        constructor
        · intro hr
          cases hr with
          | step hm hr' =>
            cases hm with
            | next h1 h2 =>
              rw [hs] at h1
              cases h1
              obtain ⟨e, he, _, hd, hg⟩ := h2
              refine ⟨e, he, hg, ?_⟩
              rw [hd]
              exact (ih _).mp hr'
            | eps h1 h2 _ =>
              rw [hs] at h1
              cases h1
              obtain ⟨e, he, he', _⟩ := h2
              rw [hne e he] at he'
              cases he'
        · rintro ⟨e, he, hg, hr'⟩
          exact .step (.next hs ⟨e, he, hne e he, rfl, hg⟩) ((ih _).mpr hr')

/-- The automaton of a sequence without epsilon edges. -/
def sequenceFsm (same : Guard → Guard → Bool) (fuel : Nat) (p : Psl) : Option Fsm :=
  match newFsm same fuel p with
  | none => none
  | some (f, _) => simplify same f

/-- Checks that the automaton of a sequence, with both comparisons of guards, recognises a list or
does not. -/
def verdict (fuel : Nat) (p : Psl) (ws : List (Nat → Bool)) (b : Bool) : Bool :=
  match sequenceFsm sameGuard fuel p, sequenceFsm sameGuardRepaired fuel p with
  | some f, some f' => noEps f && noEps f' && run f 0 ws == b && run f' 0 ws == b
  | _, _ => false

/-- The automaton of a sequence, with both comparisons of guards, recognises a list. -/
def Yields (fuel : Nat) (p : Psl) (ws : List (Nat → Bool)) (P : Prop) : Prop :=
  ∃ f f', sequenceFsm sameGuard fuel p = some f ∧ sequenceFsm sameGuardRepaired fuel p = some f' ∧
    (Recognises f 0 ws ↔ P) ∧ (Recognises f' 0 ws ↔ P)

theorem verdict_yields {fuel : Nat} {p : Psl} {ws : List (Nat → Bool)} {b : Bool}
    (h : verdict fuel p ws b = true) : Yields fuel p ws (b = true) := by
  unfold verdict at h
  split at h
  · rename_i f f' h1 h2
    simp only [Bool.and_eq_true, beq_iff_eq] at h
    obtain ⟨⟨⟨h3, h4⟩, h5⟩, h6⟩ := h
    exact ⟨f, f', h1, h2, by rw [run_iff h3, h5], by rw [run_iff h4, h6]⟩
  · cases h

/-- A cycle in which the given expressions are true. -/
def on (ps : List Nat) : Nat → Bool := fun p => ps.contains p

/-! ## Examples -/

/-- `{a[->2]; {b : c[*1 to 3]}[+]; a[=1 to inf]}`. -/
def exSequence : Psl :=
  .sere false [.rep .goto (.exact 2) (.expr 0),
    .rep .plus .none (.sere true [.expr 1, .rep .times (.range 1 3) (.expr 2)]),
    .rep .equal (.range 1 2147483647) (.expr 0)]

example : Regular exSequence := by
  simp [exSequence, Regular, RegularAll, lowOf, highOf, Psl.asExpr]

example : Yields 0 exSequence [on [], on [0], on [0], on [1, 2], on [2], on [], on [0], on []] True := by
  simpa using verdict_yields (b := true) (show verdict 0 exSequence
    [on [], on [0], on [0], on [1, 2], on [2], on [], on [0], on []] true = true by decide +kernel)

/-! ## Counterexamples -/

/-- `{{b : a[=1 to inf]}; c}` -/
def lossSequence : Psl :=
  .sere false [.sere true [.expr 1, .rep .equal (.range 1 2147483647) (.expr 0)], .expr 2]

/-- **C66.** With the comparison of the program the automaton of a regular sequence does not recognise
everything that the sequence describes: `{{b : a[=1 to inf]}; c}` and the cycles `a ∧ b`, `a`, `c`. -/
theorem sequence_complete_counterexample :
    ∃ (p : Psl) (f : Fsm) (ws : List (Nat → Bool)), Regular p ∧
      sequenceFsm sameGuard 0 p = some f ∧ Describes p ws ∧ ¬ Recognises f 0 ws := by
  have hr : Regular lossSequence := by
    simp [lossSequence, Regular, RegularAll, lowOf, highOf, Psl.asExpr]
  obtain ⟨g, t, g', h1, h2, h3⟩ := sequence_exact 0 lossSequence hr
  have h4 : sequenceFsm sameGuardRepaired 0 lossSequence = some g' := by
    unfold sequenceFsm
    rw [h1]
    exact h2
  have hex : (match sequenceFsm sameGuardRepaired 0 lossSequence with
      | some g => noEps g && run g 0 [on [0, 1], on [0], on [2]]
      | none => false) = true := by decide +kernel
  have hex2 : (match sequenceFsm sameGuard 0 lossSequence with
      | some g => noEps g && !run g 0 [on [0, 1], on [0], on [2]]
      | none => false) = true := by decide +kernel
  rw [h4] at hex
  simp only [Bool.and_eq_true] at hex
  cases hf : sequenceFsm sameGuard 0 lossSequence with
  | none => rw [hf] at hex2; cases hex2
  | some f =>
    rw [hf] at hex2
    simp only [Bool.and_eq_true, Bool.not_eq_true'] at hex2
    refine ⟨lossSequence, f, [on [0, 1], on [0], on [2]], hr, hf, ?_, ?_⟩
    · exact (h3 _).mp ((run_iff hex.1 _ _).mpr hex.2)
    · rw [run_iff hex2.1, hex2.2]
      simp

/-- **C66.** Conjunction: `intersect_fsm` removes the epsilon edges of the unfinished automaton, and
with them the way to the conjunction.  `{a : {b && c}}` does not recognise a cycle in which `a`, `b`
and `c` are true. -/
theorem conjunction_counterexample :
    ∃ p ws, Describes p ws ∧ Yields 10 p ws False := by
  refine ⟨.sere true [.expr 0, .conj (.expr 1) (.expr 2)], [on [0, 1, 2]], ?_, ?_⟩
  · simp [Describes, Match, MatchFuse, on]
  · simpa using verdict_yields (b := false) (show verdict 10
      (.sere true [.expr 0, .conj (.expr 1) (.expr 2)]) [on [0, 1, 2]] false = true by
        decide +kernel)

/-- **C66.** A repetition that may be empty still takes a cycle: `{a[*0 to 1]; b}` does not recognise
`b`, and it recognises any cycle followed by `b`. -/
theorem optional_counterexample :
    (∃ p ws, Describes p ws ∧ Yields 0 p ws False) ∧ ∃ p ws, ¬ Describes p ws ∧ Yields 0 p ws True := by
  refine ⟨⟨.sere false [.rep .times (.range 0 1) (.expr 0), .expr 1], [on [1]], ?_, ?_⟩,
    .sere false [.rep .times (.range 0 1) (.expr 0), .expr 1], [on [], on [1]], ?_, ?_⟩
  · simp only [Describes, Match, MatchCat]
    exact ⟨0, ⟨0, by simp [lowOf], by simp, rfl⟩, 1, by simp [on], rfl⟩
  · simpa using verdict_yields (b := false) (show verdict 0
      (.sere false [.rep .times (.range 0 1) (.expr 0), .expr 1]) [on [1]] false = true by
        decide +kernel)
  · simp only [Describes, Match, MatchCat]
    rintro ⟨k, ⟨n, _, h2, h3⟩, m, ⟨rfl, h4⟩, h5⟩
    have h2 := h2 1 rfl
    match n, h2, h3 with
    | 0, _, h3 =>
      have h3 : 0 = k := h3
      subst h3
      simp at h5
    | 1, _, h3 =>
      obtain ⟨k', ⟨_, h6⟩, _⟩ := h3
      simp [on] at h6
  · simpa using verdict_yields (b := true) (show verdict 0
      (.sere false [.rep .times (.range 0 1) (.expr 0), .expr 1]) [on [], on [1]] true = true by
        decide +kernel)

/-- **C66.** `a[*]` without a number builds nothing: two cycles in which `a` is true are not
recognised. -/
theorem star_counterexample : ∃ p ws, Describes p ws ∧ Yields 0 p ws False := by
  refine ⟨.rep .times .none (.expr 0), [on [0], on [0]], ?_, ?_⟩
  · simp only [Describes, Match]
    exact ⟨2, by simp [lowOf], by simp [highOf], 1, by simp [on], 2, by simp [on], rfl⟩
  · simpa using verdict_yields (b := false) (show verdict 0
      (.rep .times .none (.expr 0)) [on [0], on [0]] false = true by decide +kernel)

/-- **C66.** `a[->]` without a number, which means `a[->1]`, builds nothing: a cycle in which `a` is
false is recognised, and waiting for `a` is not. -/
theorem goto_counterexample :
    (∃ p ws, Describes p ws ∧ Yields 0 p ws False) ∧ ∃ p ws, ¬ Describes p ws ∧ Yields 0 p ws True := by
  refine ⟨⟨.rep .goto .none (.expr 0), [on [], on [0]], ?_, ?_⟩,
    .rep .goto .none (.expr 0), [on []], ?_, ?_⟩
  · simp only [Describes, Match]
    refine ⟨0, rfl, 1, by simp [lowOf], by simp [highOf], 2, ⟨by omega, ?_, by simp [on]⟩, rfl⟩
    intro k _ hk
    have : k = 0 := by omega
    subst this
    simp [on]
  · simpa using verdict_yields (b := false) (show verdict 0
      (.rep .goto .none (.expr 0)) [on [], on [0]] false = true by decide +kernel)
  · simp only [Describes, Match]
    rintro ⟨p, hp, n, h1, h2, h3⟩
    cases hp
    have h2 := h2 1 rfl
    have h1 : 1 ≤ n := h1
    have hn : n = 1 := by omega
    subst hn
    obtain ⟨k, ⟨_, _, h4⟩, h5⟩ := h3
    have h5 : k = 1 := h5
    subst h5
    simp [on] at h4
  · simpa using verdict_yields (b := true) (show verdict 0
      (.rep .goto .none (.expr 0)) [on []] true = true by decide +kernel)

/-- **C66.** `a[*3 to 2]`, which describes nothing and is not rejected, recognises `a` twice. -/
theorem null_range_counterexample : ∃ p ws, ¬ Describes p ws ∧ Yields 0 p ws True := by
  refine ⟨.rep .times (.range 3 2) (.expr 0), [on [0], on [0]], ?_, ?_⟩
  · simp only [Describes, Match]
    rintro ⟨n, h1, h2, _⟩
    have h2 := h2 2 rfl
    have h1 : 3 ≤ n := h1
    omega
  · simpa using verdict_yields (b := true) (show verdict 0
      (.rep .times (.range 3 2) (.expr 0)) [on [0], on [0]] true = true by decide +kernel)

end Verif.Psl
