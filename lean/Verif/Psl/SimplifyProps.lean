import Verif.Psl.SimplifyLoop

/-!
# The removal of epsilon edges keeps the meaning of the automaton
-/

namespace Verif.Psl

/-- The automaton, started in state `s`, accepts the last cycle of a sequence of cycles. -/
inductive Recognises (f : Fsm) : Nat → List (Nat → Bool) → Prop
  | last {s : Nat} {v : Nat → Bool} : Accepts f v s → Recognises f s [v]
  | step {s t : Nat} {v : Nat → Bool} {w : List (Nat → Bool)} : Moves f v s t →
      Recognises f t w → Recognises f s (v :: w)

/-- **C65.** For a proper automaton and with any comparison of guards, in particular that of the
program, no assertion fails and the result has the same states and no epsilon edges.  Each state
accepts in exactly the same cycles as before, and every move was possible before. -/
theorem simplify_ok (same : Guard → Guard → Bool) (f : Fsm) (r : Nat → Nat) (h : Proper f r) :
    ∃ f', simplify same f = some f' ∧ f'.states.length = f.states.length ∧
      (∀ (s : Nat) (st : State), f'.states[s]? = some st → st.NoEps) ∧
      (∀ v s, Accepts f v s ↔ Accepts f' v s) ∧
      (∀ v s t, Moves f' v s t → Moves f v s t) ∧
      (SameSound same → ∀ v s t, Moves f v s t → Moves f' v s t) := by
  obtain ⟨f', vis', h1, _, h3, h4⟩ := simplifyLoop_ok same r f.states.length 0 f [] (by omega) h.good
    (by simp) (fun x hx => by omega)
  refine ⟨f', ?_, h3.length, ?_, h3.accepts, h3.only, h3.moves⟩
  · unfold simplify
    rw [h1]
    rfl
  · intro s st hs
    exact h4 s (List.getElem?_eq_some_iff.mp hs).1 st hs

/-- **C65.** With the repaired comparison of guards the moves are the same, and so are the sequences
that are recognised from any state. -/
theorem simplify_repaired (f : Fsm) (r : Nat → Nat) (h : Proper f r) :
    ∃ f', simplify sameGuardRepaired f = some f' ∧
      (∀ v s t, Moves f v s t ↔ Moves f' v s t) ∧
      ∀ s w, Recognises f s w ↔ Recognises f' s w := by
  obtain ⟨f', h1, _, _, h4, h5, h6⟩ := simplify_ok sameGuardRepaired f r h
  have hm : ∀ v s t, Moves f v s t ↔ Moves f' v s t :=
    fun v s t => ⟨h6 same_repaired v s t, h5 v s t⟩
  refine ⟨f', h1, hm, ?_⟩
  intro s w
  constructor
  · intro hr
    induction hr with
    | last ha => exact .last ((h4 _ _).mp ha)
    | step hmv _ ih => exact .step ((hm _ _ _).mp hmv) ih
  · intro hr
    induction hr with
    | last ha => exact .last ((h4 _ _).mpr ha)
    | step hmv _ ih => exact .step ((hm _ _ _).mpr hmv) ih

/-- **C65.** With the comparison of the program, every sequence that is recognised afterwards was
recognised before. -/
theorem simplify_sound (f : Fsm) (r : Nat → Nat) (h : Proper f r) :
    ∃ f', simplify sameGuard f = some f' ∧ ∀ s w, Recognises f' s w → Recognises f s w := by
  obtain ⟨f', h1, _, _, h4, h5, _⟩ := simplify_ok sameGuard f r h
  refine ⟨f', h1, ?_⟩
  intro s w hr
  induction hr with
  | last ha => exact .last ((h4 _ _).mpr ha)
  | step hmv _ ih => exact .step (h5 _ _ _ hmv) ih

/-! ## Examples -/

/-- `0 -(a)-> 1 -(b)-> 2`, where 2 accepts, `1 => 0` and `0 -(c)-> 3 => 1`. -/
def exFsm : Fsm :=
  ⟨[⟨[⟨true, 1, .expr 0⟩, ⟨true, 3, .expr 2⟩], .null, false⟩,
    ⟨[⟨true, 2, .expr 1⟩, ⟨false, 0, .null⟩], .null, false⟩,
    ⟨[], .null, true⟩,
    ⟨[⟨false, 1, .null⟩], .null, false⟩], 0⟩

/-- A number for each state of the example. -/
def exRank : Nat → Nat
  | 0 => 2
  | 1 => 1
  | _ => 0

theorem forall_states {f : Fsm} {P : Nat → State → Prop}
    (h : ∀ x ∈ (List.range f.states.length).zip f.states, P x.1 x.2) :
    ∀ (s : Nat) (st : State), f.states[s]? = some st → P s st := by
  intro s st hs
  obtain ⟨hlt, hg⟩ := List.getElem?_eq_some_iff.mp hs
  refine h (s, st) ?_
  rw [List.mem_iff_getElem]
  refine ⟨s, by simp [hlt], ?_⟩
  simp [hg]

instance (st : State) : Decidable st.NoEps := by unfold State.NoEps; infer_instance

/-- Checks an automaton. -/
theorem proper_of {f : Fsm} {r : Nat → Nat}
    (h1 : ∀ x ∈ (List.range f.states.length).zip f.states, ∀ e ∈ x.2.edges,
      e.dest < f.states.length)
    (h2 : ∀ x ∈ (List.range f.states.length).zip f.states, ∀ e ∈ x.2.edges, e.eps = true →
      r e.dest < r x.1)
    (h3 : ∀ x ∈ (List.range f.states.length).zip f.states,
      (∀ e ∈ x.2.edges, e.eps = true → e.guard ≠ .null) ∨
        (x.2.edges.filter (fun e => e.eps)).length ≤ 1)
    (h4 : ∀ x ∈ (List.range f.states.length).zip f.states, ¬ x.2.NoEps →
      x.2.accept = false ∧ x.2.guard = .null) : Proper f r :=
  ⟨forall_states (P := fun _ st => ∀ e ∈ st.edges, e.dest < f.states.length) h1,
    forall_states (P := fun s st => ∀ e ∈ st.edges, e.eps = true → r e.dest < r s) h2,
    forall_states (P := fun _ st => (∀ e ∈ st.edges, e.eps = true → e.guard ≠ .null) ∨
      (st.edges.filter (fun e => e.eps)).length ≤ 1) h3,
    forall_states (P := fun _ st => ¬ st.NoEps → st.accept = false ∧ st.guard = .null) h4⟩

theorem exFsm_proper : Proper exFsm exRank :=
  proper_of (by decide +kernel) (by decide +kernel) (by decide +kernel) (by decide +kernel)

example : ∃ f', simplify sameGuard exFsm = some f' ∧
    f'.states[0]? = some ⟨[⟨false, 0, .expr 0⟩, ⟨false, 1, .expr 2⟩],
      .binop 0 .and (.expr 0) (.expr 1), true⟩ := by
  refine ⟨_, rfl, ?_⟩
  decide +kernel

/-! ## Counterexamples -/

/-- `0 -(d)-> 1` and `1 => 2` under each of `a`, `b` and `c`. -/
def lossFsm : Fsm :=
  ⟨[⟨[⟨true, 1, .expr 3⟩], .null, false⟩,
    ⟨[⟨false, 2, .expr 0⟩, ⟨false, 2, .expr 1⟩, ⟨false, 2, .expr 2⟩], .null, false⟩,
    ⟨[], .null, true⟩], 0⟩

theorem lossFsm_proper : Proper lossFsm (fun s => 2 - s) :=
  proper_of (by decide +kernel) (by decide +kernel) (by decide +kernel) (by decide +kernel)

/-- **C65.** The program loses moves of a proper automaton: three edges from the destination of an
epsilon edge to the same state become two, because their new guards are compound. -/
theorem simplify_moves_counterexample :
    ¬ ∀ (f : Fsm) (r : Nat → Nat), Proper f r → ∀ f', simplify sameGuard f = some f' →
      ∀ v s t, Moves f v s t → Moves f' v s t := by
  intro h
  have hex : ∃ f', simplify sameGuard lossFsm = some f' ∧ f'.states[0]? =
      some ⟨[⟨false, 2, .binop 2 .and (.expr 3) (.expr 0)⟩,
        ⟨false, 2, .binop 0 .and (.expr 3) (.expr 1)⟩], .null, false⟩ := by
    refine ⟨_, rfl, ?_⟩
    decide +kernel
  obtain ⟨f', hf', h0⟩ := hex
  have hm : Moves lossFsm (fun p => p == 2 || p == 3) 0 2 := by
    refine .eps (t := 1) rfl ⟨⟨true, 1, .expr 3⟩, by simp, rfl, rfl, by simp [Guard.True]⟩ ?_
    exact .next rfl ⟨⟨false, 2, .expr 2⟩, by simp, rfl, rfl, by simp [Guard.True]⟩
  have := h lossFsm _ lossFsm_proper f' hf' _ _ _ hm
  cases this with
  | next k1 k2 =>
    rw [h0] at k1
    cases k1
    simp [Reaches, Guard.True] at k2
  | eps k1 k2 _ =>
    rw [h0] at k1
    cases k1
    simp [Reaches] at k2

/-- `0 -(a)-> 1` and `0 --> 2`, where 1 and 2 accept: the automaton of `a` repeated at most once. -/
def weakFsm : Fsm :=
  ⟨[⟨[⟨true, 1, .expr 0⟩, ⟨true, 2, .null⟩], .null, false⟩, ⟨[], .null, true⟩,
    ⟨[], .null, true⟩], 0⟩

/-- **C65.** If an unguarded epsilon edge is not the only one, which is checked only in debug builds,
a state that accepts in every cycle may accept only under a guard afterwards. -/
theorem simplify_accepts_counterexample :
    ∃ f f' : Fsm, simplify sameGuard f = some f' ∧ simplify sameGuardRepaired f = some f' ∧
      (∀ v, Accepts f v 0) ∧ ¬ ∀ v, Accepts f' v 0 := by
  refine ⟨weakFsm, ⟨[⟨[], .expr 0, true⟩, ⟨[], .null, true⟩, ⟨[], .null, true⟩], 0⟩,
    by decide +kernel, by decide +kernel, ?_, ?_⟩
  · intro v
    exact .eps (t := 2) rfl ⟨⟨true, 2, .null⟩, by simp, rfl, rfl, trivial⟩ (.here rfl rfl trivial)
  · intro h
    cases h (fun _ => false) with
    | here k1 _ k3 =>
      cases k1
      simp [Guard.True] at k3
    | eps k1 k2 _ =>
      cases k1
      exact reaches_nil _ _ _ k2

/-- **C65.** A cycle of epsilon edges fails an assertion. -/
theorem simplify_cycle_counterexample :
    simplify sameGuard ⟨[⟨[⟨true, 1, .expr 0⟩], .null, false⟩, ⟨[⟨true, 0, .expr 1⟩], .null, false⟩],
      0⟩ = none := by
  decide +kernel

end Verif.Psl
