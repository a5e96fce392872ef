import Verif.Psl.GuardSpec

/-!
# Guards of PSL automata mean what they say
-/

namespace Verif.Psl

/-! ## Combination -/

/-- **C47.** The conjunction of two guards is true in a cycle exactly when both are. -/
theorem and_true (fresh : Nat) (l r : Guard) (v : Nat → Bool) :
    (andGuard fresh l r).1.True v ↔ l.True v ∧ r.True v := by
  unfold andGuard makeBinop
  split
  · rename_i h
    subst h
    simp [Guard.True]
  · split
    · rename_i h
      rcases h with h | h
      · subst h
        simp [Guard.True]
      · subst h
        simp
    · simp [Guard.True]

example : (andGuard 0 (.expr 1) (.not 2)).1.True (fun p => p == 1) := by
  rw [and_true]; simp [Guard.True]

/-- **C47.** The disjunction of two guards that are both present is true in a cycle exactly when one
of them is. -/
theorem or_true (fresh : Nat) (l r : Guard) (v : Nat → Bool) (hl : l ≠ .null) (hr : r ≠ .null) :
    (orGuard fresh l r).1.True v ↔ l.True v ∨ r.True v := by
  unfold orGuard makeBinop
  rw [if_neg hl]
  split
  · rename_i h
    rcases h with h | h
    · exact absurd h hr
    · subst h
      simp
  · simp [Guard.True]

example : (orGuard 0 (.expr 1) (.not 2)).1.True (fun p => p == 1) := by
  rw [or_true _ _ _ _ (by simp) (by simp)]; simp [Guard.True]

/-- What `or_guard` does with an absent guard: the other one remains. -/
theorem or_null (fresh : Nat) (g : Guard) :
    (orGuard fresh .null g).1 = g ∧ (orGuard fresh g .null).1 = g := by
  constructor
  · simp [orGuard, makeBinop]
  · unfold orGuard makeBinop
    split
    · rename_i h
      rw [h]
    · simp

/-- **C47.** The disjunction with the absent guard, which is always true, is not always true: it is
the other guard. -/
theorem or_true_counterexample :
    ¬ ∀ (fresh : Nat) (l r : Guard) (v : Nat → Bool),
      (orGuard fresh l r).1.True v ↔ l.True v ∨ r.True v := by
  intro h
  have := (h 0 .null (.expr 0) (fun _ => false)).mpr (Or.inl trivial)
  simp [orGuard, makeBinop, Guard.True] at this

/-- **C47.** A negated guard is true in a cycle exactly when the guard is not. -/
theorem not_true (g n : Guard) (v : Nat → Bool) (h : notGuard g = some n) :
    n.True v ↔ ¬ g.True v := by
  cases g <;> simp [notGuard] at h <;> subst h <;> simp [Guard.True]

/-- **C47.** Exactly the absent guard and single expressions can be negated. -/
theorem not_defined (g : Guard) :
    (∃ n, notGuard g = some n) ↔ g = .null ∨ ∃ p, g = .expr p := by
  cases g <;> simp [notGuard]

example : notGuard (.expr 3) = some (.not 3) := rfl

theorem elseLoop_spec (es : List Edge) : ∀ (fresh : Nat) (g r : Guard) (fresh' : Nat),
    elseLoop fresh g es = some (r, fresh') →
      ∀ v, r.True v ↔ g.True v ∧ ∀ e ∈ es, ¬ e.guard.True v := by
  induction es with
  | nil =>
    intro fresh g r fresh' h v
    simp only [elseLoop, Option.some.injEq, Prod.mk.injEq] at h
    rw [h.1]
    simp
  | cons e es ih =>
    intro fresh g r fresh' h v
    unfold elseLoop at h
    cases hn : notGuard e.guard with
    | none => simp [hn] at h
    | some n =>
      simp only [hn] at h
      rw [ih _ _ _ _ h v, and_true, not_true _ _ v hn]
      simp [and_assoc]

/-- **C47.** The default guard of a state is true in a cycle exactly when no edge of the state can
be taken. -/
theorem else_true (f : Fsm) (s : Nat) (st : State) (g : Guard) (fresh : Nat)
    (hs : f.states[s]? = some st) (h : elseGuard f s = some (g, fresh)) (v : Nat → Bool) :
    g.True v ↔ ∀ e ∈ st.edges, ¬ e.guard.True v := by
  unfold elseGuard at h
  simp only [hs] at h
  rw [elseLoop_spec _ _ _ _ _ h v]
  simp [Guard.True]

theorem elseLoop_defined (es : List Edge) : ∀ (fresh : Nat) (g : Guard),
    (∃ r, elseLoop fresh g es = some r) ↔
      ∀ e ∈ es, e.guard = .null ∨ ∃ p, e.guard = .expr p := by
  induction es with
  | nil => intro fresh g; simp [elseLoop]
  | cons e es ih =>
    intro fresh g
    unfold elseLoop
    cases hn : notGuard e.guard with
    | none =>
      constructor
      · rintro ⟨r, h⟩
        simp at h
      · intro h
        obtain ⟨n, hx⟩ := (not_defined e.guard).mpr (h e (by simp))
        rw [hn] at hx
        cases hx
    | some n =>
      dsimp only
      rw [ih]
      constructor
      · intro h x hx
        rcases List.mem_cons.mp hx with hx | hx
        · subst hx
          exact (not_defined _).mp ⟨n, hn⟩
        · exact h x hx
      · intro h x hx
        exact h x (List.mem_cons_of_mem _ hx)

/-- **C47.** The default guard exists exactly if all edges have the absent guard or a single
expression; otherwise the assertion of `not_guard` fails. -/
theorem else_defined (f : Fsm) (s : Nat) (st : State) (hs : f.states[s]? = some st) :
    (∃ r, elseGuard f s = some r) ↔
      ∀ e ∈ st.edges, e.guard = .null ∨ ∃ p, e.guard = .expr p := by
  unfold elseGuard
  simp only [hs]
  exact elseLoop_defined _ _ _

/-- A state with edges for the expressions 0 and 1. -/
def twoEdges : Fsm :=
  { states := [{ edges := [{ eps := true, dest := 1, guard := .expr 0 },
      { eps := true, dest := 2, guard := .expr 1 }], guard := .null, accept := false }], fresh := 0 }

example : elseGuard twoEdges 0 = some (.binop 0 .and (.not 0) (.not 1), 1) := by decide +kernel

/-- **C47.** A default guard cannot be built for a state that already has a default edge. -/
theorem else_defined_counterexample :
    ∃ (f : Fsm) (g : Guard) (fresh : Nat), elseGuard f 0 = some (g, fresh) ∧
      elseGuard (addEdge sameGuard { f with fresh := fresh } 0 3 true g) 0 = none :=
  ⟨twoEdges, .binop 0 .and (.not 0) (.not 1), 1, by decide +kernel, by decide +kernel⟩

/-! ## Code -/

/-- **C47.** The code for a guard in which every part is present computes its truth. -/
theorem lower_true (v : Nat → Bool) (g : Guard) (h : g.Plain) :
    ∃ b, lowerGuard v g = some b ∧ (b = true ↔ g.True v) := by
  induction g with
  | null => exact h.elim
  | expr p => exact ⟨v p, rfl, Iff.rfl⟩
  | not p => exact ⟨!v p, rfl, by simp [Guard.True]⟩
  | fls => exact h.elim
  | binop a op l r ihl ihr =>
    obtain ⟨x, hx, hxt⟩ := ihl h.1
    obtain ⟨y, hy, hyt⟩ := ihr h.2
    cases op with
    | and =>
      refine ⟨x && y, by simp [lowerGuard, hx, hy], ?_⟩
      simp only [Bool.and_eq_true, Guard.True, hxt, hyt]
    | or =>
      refine ⟨x || y, by simp [lowerGuard, hx, hy], ?_⟩
      simp only [Bool.or_eq_true, Guard.True, hxt, hyt]

/-- There is code for no other guard. -/
theorem lower_defined (v : Nat → Bool) (g : Guard) :
    (∃ b, lowerGuard v g = some b) ↔ g.Plain := by
  constructor
  · induction g with
    | null => rintro ⟨b, h⟩; simp [lowerGuard] at h
    | expr p => intro _; trivial
    | not p => intro _; trivial
    | fls => rintro ⟨b, h⟩; simp [lowerGuard] at h
    | binop a op l r ihl ihr =>
      rintro ⟨b, h⟩
      unfold lowerGuard at h
      cases hl : lowerGuard v l with
      | none => simp [hl] at h
      | some x =>
        cases hr : lowerGuard v r with
        | none => simp [hl, hr] at h
        | some y => exact ⟨ihl ⟨x, hl⟩, ihr ⟨y, hr⟩⟩
  · intro h
    obtain ⟨b, hb, _⟩ := lower_true v g h
    exact ⟨b, hb⟩

/-- **C47.** A guard that is absent or has all its parts is tested as it should be. -/
theorem test_true (v : Nat → Bool) (g : Guard) (h : g = .null ∨ g.Plain) :
    ∃ b, testGuard v g = some b ∧ (b = true ↔ g.True v) := by
  unfold testGuard
  split
  · rename_i hn
    subst hn
    exact ⟨true, rfl, by simp [Guard.True]⟩
  · rename_i hn
    exact lower_true v g (h.resolve_left hn)

/-- **C47.** Combinations of guards that can be tested can be tested. -/
theorem makeBinop_plain (fresh : Nat) (op : Op) (l r : Guard) (hl : l = .null ∨ l.Plain)
    (hr : r = .null ∨ r.Plain) :
    (makeBinop fresh op l r).1 = .null ∨ (makeBinop fresh op l r).1.Plain := by
  unfold makeBinop
  split
  · exact hr
  · rename_i h1
    split
    · exact hl
    · rename_i h2
      exact Or.inr ⟨hl.resolve_left h1, hr.resolve_left (fun h => h2 (Or.inl h))⟩

/-- The negation of a single expression can be tested. -/
theorem notGuard_plain (g n : Guard) (hg : g ≠ .null) (h : notGuard g = some n) : n.Plain := by
  cases g <;> simp [notGuard] at h hg <;> subst h <;> trivial

theorem plain_ne_null (g : Guard) (h : g.Plain) : g ≠ .null := by
  rintro rfl
  exact h

theorem elseLoop_plain (es : List Edge) (hes : ∀ e ∈ es, e.guard ≠ .null) :
    ∀ (fresh : Nat) (g r : Guard) (fresh' : Nat), (g = .null ∨ g.Plain) →
    elseLoop fresh g es = some (r, fresh') → r = .null ∨ r.Plain := by
  induction es with
  | nil =>
    intro fresh g r fresh' hg h
    simp only [elseLoop, Option.some.injEq, Prod.mk.injEq] at h
    rw [← h.1]
    exact hg
  | cons e es ih =>
    intro fresh g r fresh' hg h
    unfold elseLoop at h
    cases hn : notGuard e.guard with
    | none => simp [hn] at h
    | some n =>
      simp only [hn] at h
      refine ih (fun x hx => hes x (List.mem_cons_of_mem _ hx)) _ _ _ _ ?_ h
      exact makeBinop_plain _ _ _ _ hg (Or.inr (notGuard_plain _ _ (hes e (by simp)) hn))

/-- **C47.** The default guard of a state without an unguarded edge can be tested. -/
theorem else_plain (f : Fsm) (s : Nat) (st : State) (g : Guard) (fresh : Nat)
    (hs : f.states[s]? = some st) (h : elseGuard f s = some (g, fresh))
    (hes : ∀ e ∈ st.edges, e.guard ≠ .null) : g = .null ∨ g.Plain := by
  unfold elseGuard at h
  simp only [hs] at h
  exact elseLoop_plain _ hes _ _ _ _ (Or.inl rfl) h

/-- **C47.** The default guard of a state with an unguarded edge cannot be tested: there is no code
for a guard that is always false. -/
theorem test_true_counterexample :
    ∃ (f : Fsm) (g : Guard) (fresh : Nat), elseGuard f 0 = some (g, fresh) ∧
      ∀ v, testGuard v g = none :=
  ⟨⟨[⟨[⟨false, 0, .null⟩], .null, false⟩], 0⟩, .fls, 0, by decide +kernel,
    fun v => by simp [testGuard, lowerGuard]⟩

/-! ## Comparison -/

theorem sameGuard_self (g : Guard) : sameGuard g g = true := by
  cases g <;> simp [sameGuard]

/-- What `same_guard` computes: equality, except that all compound guards are the same. -/
theorem sameGuard_eq (g1 g2 : Guard) :
    sameGuard g1 g2 = true ↔ g1 = g2 ∨
      (∃ a op l r, g1 = .binop a op l r) ∧ (∃ a op l r, g2 = .binop a op l r) := by
  cases g1 with
  | binop a op l r =>
    unfold sameGuard
    split
    · rename_i h
      simp [h]
    · rename_i h
      cases g2 <;> simp [sameGuard_self] at h ⊢
  | null => simp [sameGuard]
  | expr p => simp [sameGuard]
  | not p => simp [sameGuard]
  | fls => simp [sameGuard]

/-- **C47.** If not both guards are compound, guards considered the same are true in the same
cycles. -/
theorem same_true (g1 g2 : Guard) (h : sameGuard g1 g2 = true)
    (hb : ¬ ((∃ a op l r, g1 = .binop a op l r) ∧ (∃ a op l r, g2 = .binop a op l r)))
    (v : Nat → Bool) : g1.True v ↔ g2.True v := by
  rcases (sameGuard_eq g1 g2).mp h with h | h
  · rw [h]
  · exact absurd h hb

example : sameGuard (.expr 4) (.expr 4) = true ∧
    ¬ ∃ a op l r, Guard.expr 4 = .binop a op l r := by simp [sameGuard]

/-- **C47.** `same_guard` considers all compound guards the same, also those of which one is the
conjunction of two expressions and the other the disjunction of two others. -/
theorem same_true_counterexample : ¬ SameSound sameGuard := by
  intro h
  have := (h (.binop 0 .and (.expr 0) (.expr 1)) (.binop 1 .or (.expr 2) (.expr 3))
    (by decide +kernel) (fun p => p == 2)).mpr (Or.inl rfl)
  simp [Guard.True] at this

/-- **C47.** With the second operator read from the second guard, guards considered the same are
true in the same cycles. -/
theorem same_repaired : SameSound sameGuardRepaired := by
  intro g1
  induction g1 with
  | binop a op l r ihl ihr =>
    intro g2 h v
    unfold sameGuardRepaired at h
    split at h
    · rename_i he
      rw [he]
    · cases g2 with
      | binop a2 op2 l2 r2 =>
        dsimp only at h
        split at h
        · cases h
        · rename_i ho
          have ho' : op = op2 := by simpa using ho
          subst ho'
          rw [Bool.and_eq_true] at h
          cases op
          · simp only [Guard.True, ihl l2 h.1 v, ihr r2 h.2 v]
          · simp only [Guard.True, ihl l2 h.1 v, ihr r2 h.2 v]
      | null => cases h
      | expr p => cases h
      | not p => cases h
      | fls => cases h
  | null => intro g2 h v; simp [sameGuardRepaired] at h; rw [h]
  | expr p => intro g2 h v; simp [sameGuardRepaired] at h; rw [h]
  | not p => intro g2 h v; simp [sameGuardRepaired] at h; rw [h]
  | fls => intro g2 h v; simp [sameGuardRepaired] at h; rw [h]

/-! ## Edges -/

theorem insertEdge_mem (same : Guard → Guard → Bool) (new : Edge) (es : List Edge) :
    (∀ e ∈ es, e ∈ insertEdge same new es) ∧
    (∀ e ∈ insertEdge same new es, e ∈ es ∨ e = new) ∧
    (new ∈ insertEdge same new es ∨ ∃ e ∈ es, e.eps = new.eps ∧ e.dest = new.dest ∧
      same e.guard new.guard = true) := by
  induction es with
  | nil => simp [insertEdge]
  | cons x es ih =>
    obtain ⟨h1, h2, h3⟩ := ih
    unfold insertEdge
    have hins : (∀ e ∈ x :: es, e ∈ x :: insertEdge same new es) ∧
        (∀ e ∈ x :: insertEdge same new es, e ∈ x :: es ∨ e = new) ∧
        (new ∈ x :: insertEdge same new es ∨ ∃ e ∈ x :: es, e.eps = new.eps ∧
          e.dest = new.dest ∧ same e.guard new.guard = true) := by
      refine ⟨?_, ?_, ?_⟩
      · intro e he
        rcases List.mem_cons.mp he with he | he
        · simp [he]
        · exact List.mem_cons_of_mem _ (h1 e he)
      · intro e he
        rcases List.mem_cons.mp he with he | he
        · simp [he]
        · rcases h2 e he with h | h
          · exact Or.inl (List.mem_cons_of_mem _ h)
          · exact Or.inr h
      · rcases h3 with h | ⟨e, he, h⟩
        · exact Or.inl (List.mem_cons_of_mem _ h)
        · exact Or.inr ⟨e, List.mem_cons_of_mem _ he, h⟩
    split
    · exact hins
    · rename_i hk
      split
      · rename_i hsame
        refine ⟨fun _ h => h, fun _ h => Or.inl h, Or.inr ⟨x, by simp, ?_, ?_, hsame⟩⟩
        · exact Classical.byContradiction fun h => hk (Or.inl h)
        · exact Classical.byContradiction fun h => hk (Or.inr h)
      · exact hins

/-- **C47.** With a sound comparison, adding an edge adds exactly the cycles in which its guard is
true, no matter whether the edge is merged with another one. -/
theorem addEdge_reaches (same : Guard → Guard → Bool) (hsame : SameSound same) (f : Fsm)
    (src dest : Nat) (eps : Bool) (g : Guard) (st : State) (hs : f.states[src]? = some st) :
    ∃ st', (addEdge same f src dest eps g).states[src]? = some st' ∧
      (∀ eps' dest' v, Reaches st'.edges eps' dest' v ↔ Reaches st.edges eps' dest' v ∨
        (eps' = eps ∧ dest' = dest ∧ g.True v)) ∧
      st'.guard = st.guard ∧ st'.accept = st.accept ∧
      (∀ s, s ≠ src → (addEdge same f src dest eps g).states[s]? = f.states[s]?) := by
  have hlt := (List.getElem?_eq_some_iff.mp hs).1
  refine ⟨{ st with edges := insertEdge same { eps, dest, guard := g } st.edges }, ?_, ?_, rfl, rfl,
    ?_⟩
  · simp only [addEdge, Fsm.modify, hs]
    rw [List.getElem?_set_self hlt]
  · intro eps' dest' v
    obtain ⟨h1, h2, h3⟩ := insertEdge_mem same { eps, dest, guard := g } st.edges
    constructor
    · rintro ⟨e, he, hk, hd, ht⟩
      rcases h2 e he with h | h
      · exact Or.inl ⟨e, h, hk, hd, ht⟩
      · subst h
        exact Or.inr ⟨hk.symm, hd.symm, ht⟩
    · rintro (⟨e, he, hk, hd, ht⟩ | ⟨hk, hd, ht⟩)
      · exact ⟨e, h1 e he, hk, hd, ht⟩
      · subst hk hd
        rcases h3 with h | ⟨e, he, hk, hd, hsm⟩
        · exact ⟨_, h, rfl, rfl, ht⟩
        · exact ⟨e, h1 e he, hk, hd, (hsame _ _ hsm v).mpr ht⟩
  · intro s hne
    simp only [addEdge, Fsm.modify, hs]
    rw [List.getElem?_set_ne (fun h => hne h.symm)]

example : ∃ st, twoEdges.states[0]? = some st := ⟨_, rfl⟩

/-- **C47.** The same for the comparison of the program, if the guard is not compound. -/
theorem addEdge_simple (f : Fsm) (src dest : Nat) (eps : Bool) (g : Guard) (st : State)
    (hs : f.states[src]? = some st) (hg : ¬ ∃ a op l r, g = .binop a op l r) :
    ∃ st', (addEdge sameGuard f src dest eps g).states[src]? = some st' ∧
      ∀ eps' dest' v, Reaches st'.edges eps' dest' v ↔ Reaches st.edges eps' dest' v ∨
        (eps' = eps ∧ dest' = dest ∧ g.True v) := by
  have hlt := (List.getElem?_eq_some_iff.mp hs).1
  refine ⟨{ st with edges := insertEdge sameGuard { eps, dest, guard := g } st.edges }, ?_, ?_⟩
  · simp only [addEdge, Fsm.modify, hs]
    rw [List.getElem?_set_self hlt]
  · intro eps' dest' v
    obtain ⟨h1, h2, h3⟩ := insertEdge_mem sameGuard { eps, dest, guard := g } st.edges
    constructor
    · rintro ⟨e, he, hk, hd, ht⟩
      rcases h2 e he with h | h
      · exact Or.inl ⟨e, h, hk, hd, ht⟩
      · subst h
        exact Or.inr ⟨hk.symm, hd.symm, ht⟩
    · rintro (⟨e, he, hk, hd, ht⟩ | ⟨hk, hd, ht⟩)
      · exact ⟨e, h1 e he, hk, hd, ht⟩
      · subst hk hd
        rcases h3 with h | ⟨e, he, hk, hd, hsm⟩
        · exact ⟨_, h, rfl, rfl, ht⟩
        · refine ⟨e, h1 e he, hk, hd, (same_true _ _ hsm (fun h => hg h.2) v).mpr ht⟩

/-- **C47.** The program drops an edge whose guard is true in a cycle in which no other edge to the
same state can be taken: its guard and that of another edge are both compound. -/
theorem addEdge_counterexample :
    ∃ (f : Fsm) (g : Guard) (st st' : State) (v : Nat → Bool), f.states[0]? = some st ∧
      (addEdge sameGuard f 0 1 false g).states[0]? = some st' ∧ g.True v ∧
      ¬ Reaches st'.edges false 1 v := by
  refine ⟨⟨[⟨[⟨false, 1, .binop 0 .and (.expr 0) (.expr 1)⟩], .null, false⟩], 1⟩,
    .binop 1 .and (.expr 0) (.expr 2),
    ⟨[⟨false, 1, .binop 0 .and (.expr 0) (.expr 1)⟩], .null, false⟩,
    ⟨[⟨false, 1, .binop 0 .and (.expr 0) (.expr 1)⟩], .null, false⟩,
    fun p => p != 1, rfl, by decide +kernel, by simp [Guard.True], ?_⟩
  simp [Reaches, Guard.True]

end Verif.Psl
