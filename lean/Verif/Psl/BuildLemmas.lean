import Verif.Psl.BuildSpec
import Verif.Psl.Path
import Verif.Psl.SimplifyLemmas

/-!
# Lemmas about the construction of automata
-/

namespace Verif.Psl

/-- The edges of an automaton. -/
def HasEdge (f : Fsm) : Edges := fun x e => ∃ st, f.states[x]? = some st ∧ e ∈ st.edges

/-- What is used of the comparison of guards: for guards that are not compound it is equality. -/
structure SameOk (same : Guard → Guard → Bool) : Prop where
  refl : ∀ g, same g g = true
  exact : ∀ g g', (¬ ∃ a op l r, g' = .binop a op l r) → same g g' = true → g = g'

theorem sameGuard_ok : SameOk sameGuard where
  refl := sameGuard_self
  exact := by
    intro g g' hn h
    rcases (sameGuard_eq g g').mp h with h | h
    · exact h
    · exact absurd h.2 hn

theorem sameGuardRepaired_ok : SameOk sameGuardRepaired where
  refl := by
    intro g
    cases g <;> simp [sameGuardRepaired]
  exact := by
    intro g g' hn h
    cases g with
    | binop a op l r =>
      unfold sameGuardRepaired at h
      split at h
      · assumption
      · cases g' with
        | binop a' op' l' r' => exact absurd ⟨a', op', l', r', rfl⟩ hn
        | null => cases h
        | expr p => cases h
        | not p => cases h
        | fls => cases h
    | null => simpa [sameGuardRepaired] using h
    | expr p => simpa [sameGuardRepaired] using h
    | not p => simpa [sameGuardRepaired] using h
    | fls => simpa [sameGuardRepaired] using h

/-- What holds of an automaton under construction. -/
def Raw (f : Fsm) : Prop :=
  ∀ (x : Nat) (st : State), f.states[x]? = some st → st.accept = false ∧ st.guard = .null ∧
    st.edges.Nodup ∧ ∀ e ∈ st.edges, e.dest < f.states.length

/-! ## Adding a state -/

theorem addState_length (f : Fsm) : (addState f).1.states.length = f.states.length + 1 := by
  simp [addState]

theorem addState_get (f : Fsm) {x : Nat} (h : x < f.states.length) :
    (addState f).1.states[x]? = f.states[x]? := by
  simp only [addState]
  rw [List.getElem?_append_left h]

theorem addState_new (f : Fsm) :
    (addState f).1.states[f.states.length]? = some ⟨[], .null, false⟩ := by
  simp [addState]

theorem addState_edges (f : Fsm) (x : Nat) (e : Edge) :
    HasEdge (addState f).1 x e ↔ HasEdge f x e := by
  by_cases hx : x < f.states.length
  · unfold HasEdge
    rw [addState_get f hx]
  · constructor
    · rintro ⟨st, hst, he⟩
      by_cases hx' : x = f.states.length
      · rw [hx', addState_new] at hst
        cases hst
        cases he
      · have := (List.getElem?_eq_some_iff.mp hst).1
        rw [addState_length] at this
        omega
    · rintro ⟨st, hst, he⟩
      exact absurd (List.getElem?_eq_some_iff.mp hst).1 hx

theorem addState_raw {f : Fsm} (h : Raw f) : Raw (addState f).1 := by
  intro x st hst
  rw [addState_length]
  by_cases hx : x < f.states.length
  · rw [addState_get f hx] at hst
    obtain ⟨h1, h2, h3, h4⟩ := h x st hst
    exact ⟨h1, h2, h3, fun e he => by have := h4 e he; omega⟩
  · have := (List.getElem?_eq_some_iff.mp hst).1
    rw [addState_length] at this
    have hx' : x = f.states.length := by omega
    rw [hx', addState_new] at hst
    cases hst
    simp

/-! ## Adding an edge -/

theorem addEdge_length (same : Guard → Guard → Bool) (f : Fsm) (x y : Nat) (k : Bool) (g : Guard) :
    (addEdge same f x y k g).states.length = f.states.length := modify_length _ _ _

theorem addEdge_edges {same : Guard → Guard → Bool} (hsame : SameOk same) (f : Fsm) {x : Nat}
    (y : Nat) (k : Bool) {g : Guard} (hg : ¬ ∃ a op l r, g = .binop a op l r)
    (hx : x < f.states.length) (z : Nat) (e : Edge) :
    HasEdge (addEdge same f x y k g) z e ↔ HasEdge f z e ∨ single x ⟨k, y, g⟩ z e := by
  obtain ⟨st, hst⟩ : ∃ st, f.states[x]? = some st := ⟨_, List.getElem?_eq_getElem hx⟩
  have hself : (addEdge same f x y k g).states[x]? = _ := modify_self _ hst
  by_cases hz : z = x
  · subst hz
    obtain ⟨h1, h2, h3⟩ := insertEdge_mem same ⟨k, y, g⟩ st.edges
    constructor
    · rintro ⟨st', hst', he⟩
      rw [hself] at hst'
      cases hst'
      rcases h2 e he with h | h
      · exact Or.inl ⟨st, hst, h⟩
      · exact Or.inr ⟨rfl, h⟩
    · rintro (⟨st', hst', he⟩ | ⟨_, rfl⟩)
      · rw [hst] at hst'
        cases hst'
        exact ⟨_, hself, h1 e he⟩
      · refine ⟨_, hself, ?_⟩
        rcases h3 with h | ⟨e', he', hk, hd, hs⟩
        · exact h
        · have := hsame.exact _ _ hg hs
          have he'' : e' = ⟨k, y, g⟩ := by
            cases e'
            simp only at hk hd this
            rw [hk, hd, this]
          exact he'' ▸ h1 e' he'
  · have hne : (addEdge same f x y k g).states[z]? = f.states[z]? := modify_ne _ _ hz
    unfold HasEdge
    rw [hne]
    constructor
    · exact Or.inl
    · rintro (h | ⟨h, _⟩)
      · exact h
      · exact absurd h hz

theorem insertEdge_nodup {same : Guard → Guard → Bool} (hsame : SameOk same) (new : Edge)
    (es : List Edge) (h : es.Nodup) : (insertEdge same new es).Nodup := by
  by_cases hmem : new ∈ es
  · have : insertEdge same new es = es := by
      clear h
      induction es with
      | nil => cases hmem
      | cons x es ih =>
        unfold insertEdge
        rcases List.mem_cons.mp hmem with hx | hx
        · subst hx
          rw [if_neg (by simp), if_pos (hsame.refl _)]
        · split
          · rw [ih hx]
          · split
            · rfl
            · rw [ih hx]
    rw [this]
    exact h
  · rcases insertEdge_shape same new es with hs | hs
    · rw [hs]
      exact h
    · rw [hs, List.nodup_append]
      refine ⟨h, by simp, ?_⟩
      intro a ha b hb
      rw [List.mem_singleton.mp hb]
      rintro rfl
      exact hmem ha

theorem addEdge_raw {same : Guard → Guard → Bool} (hsame : SameOk same) {f : Fsm} (h : Raw f)
    (x : Nat) {y : Nat} (k : Bool) (g : Guard) (hy : y < f.states.length) :
    Raw (addEdge same f x y k g) := by
  intro z st hst
  rw [addEdge_length]
  by_cases hz : z = x
  · subst hz
    cases hf : f.states[z]? with
    | none =>
      have : addEdge same f z y k g = f := by simp [addEdge, Fsm.modify, hf]
      rw [this, hf] at hst
      cases hst
    | some st0 =>
      have hself : (addEdge same f z y k g).states[z]? = _ := modify_self _ hf
      rw [hself] at hst
      cases hst
      obtain ⟨h1, h2, h3, h4⟩ := h z st0 hf
      refine ⟨h1, h2, insertEdge_nodup hsame _ _ h3, ?_⟩
      intro e he
      rcases (insertEdge_mem same ⟨k, y, g⟩ st0.edges).2.1 e he with h | h
      · exact h4 e h
      · rw [h]
        exact hy
  · have hne : (addEdge same f x y k g).states[z]? = f.states[z]? := modify_ne _ _ hz
    rw [hne] at hst
    exact h z st hst

theorem null_simple : ¬ ∃ a op l r, Guard.null = .binop a op l r := by rintro ⟨_, _, _, _, h⟩; cases h

theorem expr_simple (p : Nat) : ¬ ∃ a op l r, Guard.expr p = .binop a op l r := by
  rintro ⟨_, _, _, _, h⟩; cases h

theorem not_simple (p : Nat) : ¬ ∃ a op l r, Guard.not p = .binop a op l r := by
  rintro ⟨_, _, _, _, h⟩; cases h

/-! ## Parts of an automaton -/

/-- An unguarded epsilon edge is the only epsilon edge of its source. -/
def Alone (N : Edges) : Prop :=
  ∀ x e e', N x e → N x e' → e.eps = true → e'.eps = true → e.guard = .null → e = e'

/-- Epsilon edges form no cycle. -/
def Ranked (N : Edges) : Prop :=
  ∃ (r : Nat → Nat) (B : Nat), (∀ x, r x ≤ B) ∧
    ∀ x e, N x e → e.eps = true → r e.dest < r x

/-- The states of a part: the start and the new ones. -/
def Nodes (s n0 n1 : Nat) : Nat → Prop := fun x => x = s ∨ (n0 ≤ x ∧ x < n1)

/-- What a construction adds to the automaton `f`: the edges `N`, from state `s` to state `t`. -/
structure Part (f f' : Fsm) (s t : Nat) (N : Edges) : Prop where
  raw : Raw f'
  edges : ∀ x e, HasEdge f' x e ↔ HasEdge f x e ∨ N x e
  within : Within N (Nodes s f.states.length f'.states.length)
  fresh : f.states.length ≤ t ∧ t < f'.states.length
  final : ∀ e, N t e → e.eps = false
  alone : Alone N
  ranked : Ranked N

/-- Where a construction may start. -/
structure Start (f : Fsm) (s : Nat) : Prop where
  raw : Raw f
  lt : s < f.states.length
  bare : ∀ e, ¬ HasEdge f s e

/-- The edges of the part from start to end, as a relation between cycles. -/
def Lang (w : Nat → Nat → Bool) (N : Edges) (s t : Nat) (M : Nat → Nat → Prop) : Prop :=
  ∀ i j, Path w N s i t j ↔ M i (j + 1)

/-! ## Expressions -/

theorem alone_single (x : Nat) (e : Edge) : Alone (single x e) := by
  rintro y e1 e2 ⟨_, rfl⟩ ⟨_, rfl⟩ _ _ _
  rfl

theorem buildExpr_ok {same : Guard → Guard → Bool} (hsame : SameOk same) (p : Nat) {f : Fsm} {s : Nat}
    (h : Start f s) :
    ∃ f' t, buildExpr same p f s = some (f', t) ∧
      Part f f' s t (single s ⟨true, t, .expr p⟩) ∧ t ≠ s ∧
      f'.states.length = f.states.length + 1 ∧
      f'.fresh = f.fresh ∧
      f'.states[s]? = some ⟨[⟨true, t, .expr p⟩], .null, false⟩ ∧
      ∀ w, Lang w (single s ⟨true, t, .expr p⟩) s t (fun i j => j = i + 1 ∧ w i p = true) := by
  have hlt := h.lt
  have hs' : s < (addState f).1.states.length := by rw [addState_length]; omega
  obtain ⟨st, hst⟩ : ∃ st, f.states[s]? = some st := ⟨_, List.getElem?_eq_getElem hlt⟩
  have hst' : st = ⟨[], .null, false⟩ := by
    obtain ⟨h1, h2, _, _⟩ := h.raw s st hst
    have h3 : st.edges = [] := by
      cases he : st.edges with
      | nil => rfl
      | cons e es => exact absurd ⟨st, hst, by rw [he]; simp⟩ (h.bare e)
    cases st
    simp only at h1 h2 h3
    rw [h1, h2, h3]
  refine ⟨_, f.states.length, rfl, ⟨?_, ?_, ?_, ?_, ?_, alone_single _ _, ?_⟩, by omega, ?_, ?_, ?_,
    ?_⟩
  · exact addEdge_raw hsame (addState_raw h.raw) _ _ _ (by rw [addState_length]; simp [addState])
  · intro x e
    rw [addEdge_edges hsame _ _ _ (expr_simple p) hs', addState_edges]
    exact Iff.rfl
  · rintro x e ⟨rfl, rfl⟩
    refine ⟨Or.inl rfl, Or.inr ?_⟩
    rw [addEdge_length, addState_length]
    exact ⟨Nat.le_refl _, by simp⟩
  · rw [addEdge_length, addState_length]
    omega
  · rintro e ⟨h1, _⟩
    omega
  · refine ⟨fun x => if x = s then 1 else 0, 1, fun x => by dsimp only; split <;> omega, ?_⟩
    rintro x e ⟨rfl, rfl⟩ _
    dsimp only
    rw [if_neg (by omega), if_pos rfl]
    omega
  · rw [addEdge_length, addState_length]
  · unfold addEdge Fsm.modify
    rw [addState_get f hlt, hst]
    rfl
  · have : (addEdge same (addState f).1 s (addState f).2 true (.expr p)).states[s]? = _ :=
      modify_self _ (by rw [addState_get f hlt, hst])
    rw [this, hst']
    rfl
  · intro w i j
    constructor
    · intro q
      have key : ∀ y j, Path w (single s ⟨true, f.states.length, .expr p⟩) s i y j →
          j = i ∧ (y = s ∨ w i p = true) := by
        intro y j q
        induction q with
        | refl => exact ⟨rfl, Or.inl rfl⟩
        | step _ hr hg ih =>
          obtain ⟨rfl, rfl⟩ := hr
          obtain ⟨rfl, _⟩ := ih
          exact ⟨rfl, Or.inr hg⟩
      obtain ⟨rfl, h1 | h1⟩ := key _ _ q
      · omega
      · exact ⟨rfl, h1⟩
    · rintro ⟨h1, h2⟩
      have : j = i := by omega
      subst this
      exact Path.step (e := ⟨true, f.states.length, .expr p⟩) .refl ⟨rfl, rfl⟩ h2

end Verif.Psl
