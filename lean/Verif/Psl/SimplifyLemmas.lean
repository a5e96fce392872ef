import Verif.Psl.Simplify
import Verif.Psl.SimplifySpec
import Verif.Psl.GuardProps

/-!
# Lemmas about the removal of epsilon edges
-/

namespace Verif.Psl

/-! ## Changes of a state -/

theorem modify_self {f : Fsm} {s : Nat} {st : State} (g : State → State)
    (h : f.states[s]? = some st) : (f.modify s g).states[s]? = some (g st) := by
  have hlt := (List.getElem?_eq_some_iff.mp h).1
  simp only [Fsm.modify, h]
  rw [List.getElem?_set_self hlt]

theorem modify_ne (f : Fsm) {s x : Nat} (g : State → State) (h : x ≠ s) :
    (f.modify s g).states[x]? = f.states[x]? := by
  unfold Fsm.modify
  split
  · dsimp only
    rw [List.getElem?_set_ne (fun hx => h hx.symm)]
  · rfl

theorem modify_length (f : Fsm) (s : Nat) (g : State → State) :
    (f.modify s g).states.length = f.states.length := by
  unfold Fsm.modify
  split
  · simp
  · rfl

/-! ## Edges that can be taken -/

theorem reaches_append (a b : List Edge) (k : Bool) (t : Nat) (v : Nat → Bool) :
    Reaches (a ++ b) k t v ↔ Reaches a k t v ∨ Reaches b k t v := by
  constructor
  · rintro ⟨e, he, h⟩
    rcases List.mem_append.mp he with he | he
    · exact Or.inl ⟨e, he, h⟩
    · exact Or.inr ⟨e, he, h⟩
  · rintro (⟨e, he, h⟩ | ⟨e, he, h⟩)
    · exact ⟨e, List.mem_append_left _ he, h⟩
    · exact ⟨e, List.mem_append_right _ he, h⟩

theorem reaches_nil (k : Bool) (t : Nat) (v : Nat → Bool) : ¬ Reaches [] k t v := by
  rintro ⟨e, he, _⟩
  cases he

theorem reaches_cons (x : Edge) (b : List Edge) (k : Bool) (t : Nat) (v : Nat → Bool) :
    Reaches (x :: b) k t v ↔ (x.eps = k ∧ x.dest = t ∧ x.guard.True v) ∨ Reaches b k t v := by
  constructor
  · rintro ⟨e, he, h⟩
    rcases List.mem_cons.mp he with he | he
    · subst he
      exact Or.inl h
    · exact Or.inr ⟨e, he, h⟩
  · rintro (h | ⟨e, he, h⟩)
    · exact ⟨x, by simp, h⟩
    · exact ⟨e, List.mem_cons_of_mem _ he, h⟩

theorem reaches_true_none {es : List Edge} (h : ∀ e ∈ es, e.eps = false) (t : Nat)
    (v : Nat → Bool) : ¬ Reaches es true t v := by
  rintro ⟨e, he, hk, _⟩
  rw [h e he] at hk
  cases hk

theorem insertEdge_shape (same : Guard → Guard → Bool) (new : Edge) (es : List Edge) :
    insertEdge same new es = es ∨ insertEdge same new es = es ++ [new] := by
  induction es with
  | nil => exact Or.inr rfl
  | cons x es ih =>
    unfold insertEdge
    split
    · rcases ih with h | h
      · left; rw [h]
      · right; rw [h]; rfl
    · split
      · exact Or.inl rfl
      · rcases ih with h | h
        · left; rw [h]
        · right; rw [h]; rfl

/-- Adding an edge with any comparison: a dropped edge is missed only if the comparison is wrong. -/
theorem addEdge_any (same : Guard → Guard → Bool) (f : Fsm) (src dest : Nat) (eps : Bool) (g : Guard)
    (st : State) (hs : f.states[src]? = some st) :
    ∃ st', (addEdge same f src dest eps g).states[src]? = some st' ∧
      (∀ eps' dest' v, Reaches st'.edges eps' dest' v → Reaches st.edges eps' dest' v ∨
        (eps' = eps ∧ dest' = dest ∧ g.True v)) ∧
      (SameSound same → ∀ eps' dest' v, Reaches st.edges eps' dest' v ∨
        (eps' = eps ∧ dest' = dest ∧ g.True v) → Reaches st'.edges eps' dest' v) ∧
      st'.guard = st.guard ∧ st'.accept = st.accept ∧
      (∀ s, s ≠ src → (addEdge same f src dest eps g).states[s]? = f.states[s]?) := by
  refine ⟨_, modify_self _ hs, ?_, ?_, rfl, rfl, fun s hne => modify_ne _ _ hne⟩
  · rintro eps' dest' v ⟨e, he, hk, hd, ht⟩
    rcases (insertEdge_mem same { eps, dest, guard := g } st.edges).2.1 e he with h | h
    · exact Or.inl ⟨e, h, hk, hd, ht⟩
    · subst h
      exact Or.inr ⟨hk.symm, hd.symm, ht⟩
  · intro hsame eps' dest' v h
    obtain ⟨st', h1, h2, _⟩ := addEdge_reaches same hsame f src dest eps g st hs
    have h3 : (addEdge same f src dest eps g).states[src]? = _ := modify_self _ hs
    rw [h1] at h3
    cases h3
    exact (h2 eps' dest' v).mpr h

/-! ## Adding the edges of the destination -/

theorem addAll_ok (same : Guard → Guard → Bool) (s : Nat) (g : Guard)
    (rest : List Edge) (hrest : ∀ e ∈ rest, e.eps = false) : ∀ (f : Fsm) (st : State),
    f.states[s]? = some st →
    ∃ (f' : Fsm) (st' : State) (app : List Edge), addAll same s g rest f = some f' ∧
      f'.states[s]? = some st' ∧ st'.edges = st.edges ++ app ∧
      (∀ e ∈ app, e.eps = false ∧ ∃ e2 ∈ rest, e.dest = e2.dest) ∧
      st'.guard = st.guard ∧ st'.accept = st.accept ∧
      f'.states.length = f.states.length ∧
      (∀ x, x ≠ s → f'.states[x]? = f.states[x]?) ∧
      (∀ t v, Reaches st'.edges false t v →
        Reaches st.edges false t v ∨ (g.True v ∧ Reaches rest false t v)) ∧
      (SameSound same → ∀ t v,
        Reaches st.edges false t v ∨ (g.True v ∧ Reaches rest false t v) →
          Reaches st'.edges false t v) := by
  induction rest with
  | nil =>
    intro f st hs
    refine ⟨f, st, [], rfl, hs, by simp, by simp, rfl, rfl, rfl, fun _ _ => rfl, ?_, ?_⟩
    · intro t v
      simp [reaches_nil]
    · intro _ t v
      simp [reaches_nil]
  | cons e2 rest ih =>
    intro f st hs
    have h2 := hrest e2 (by simp)
    have hr : ∀ e ∈ rest, e.eps = false := fun e he => hrest e (List.mem_cons_of_mem _ he)
    obtain ⟨st1, hst1, hreach, hreach2, hg1, ha1, hne1⟩ := addEdge_any same
      { f with fresh := (andGuard f.fresh g e2.guard).2 } s e2.dest e2.eps
      (andGuard f.fresh g e2.guard).1 st hs
    have hshape : ∃ app1 : List Edge, st1.edges = st.edges ++ app1 ∧
        ∀ e ∈ app1, e = ⟨e2.eps, e2.dest, (andGuard f.fresh g e2.guard).1⟩ := by
      have : (addEdge same { f with fresh := (andGuard f.fresh g e2.guard).2 } s e2.dest e2.eps
          (andGuard f.fresh g e2.guard).1).states[s]? = _ := modify_self _ hs
      rw [hst1] at this
      have heq := Option.some.inj this
      rw [heq]
      dsimp only
      rcases insertEdge_shape same ⟨e2.eps, e2.dest, (andGuard f.fresh g e2.guard).1⟩ st.edges
        with h | h
      · exact ⟨[], by rw [h]; simp, by simp⟩
      · exact ⟨_, h, by simp⟩
    obtain ⟨app1, happ1, hmem1⟩ := hshape
    obtain ⟨f', st', app, hf', hst', hed, hmem, hgu, hac, hlen, hne, hre, hre2⟩ := ih hr _ _ hst1
    refine ⟨f', st', app1 ++ app, ?_, hst', ?_, ?_, by rw [hgu, hg1], by rw [hac, ha1], ?_, ?_, ?_, ?_⟩
    · unfold addAll
      rw [if_neg (by simp [h2])]
      exact hf'
    · rw [hed, happ1, List.append_assoc]
    · intro e he
      rcases List.mem_append.mp he with he | he
      · rw [hmem1 e he]
        exact ⟨h2, e2, by simp, rfl⟩
      · obtain ⟨h, x, hx, hd⟩ := hmem e he
        exact ⟨h, x, List.mem_cons_of_mem _ hx, hd⟩
    · rw [hlen]
      exact modify_length _ _ _
    · intro x hx
      rw [hne x hx]
      exact hne1 x hx
    · intro t v h
      rw [reaches_cons, h2]
      rcases hre t v h with h | ⟨hg, h⟩
      · rcases hreach false t v h with h | ⟨_, hd, h⟩
        · exact Or.inl h
        · rw [and_true] at h
          exact Or.inr ⟨h.1, Or.inl ⟨rfl, hd.symm, h.2⟩⟩
      · exact Or.inr ⟨hg, Or.inr h⟩
    · intro hsame t v h
      rw [reaches_cons, h2] at h
      refine hre2 hsame t v ?_
      rcases h with h | ⟨hg, ⟨_, hd, he⟩ | h⟩
      · exact Or.inl (hreach2 hsame false t v (Or.inl h))
      · refine Or.inl (hreach2 hsame false t v (Or.inr ⟨h2.symm, hd.symm, ?_⟩))
        rw [and_true]
        exact ⟨hg, he⟩
      · exact Or.inr ⟨hg, h⟩

theorem makeBinop_ne_null (fresh : Nat) (op : Op) (l r : Guard) (h : l ≠ .null ∨ r ≠ .null) :
    (makeBinop fresh op l r).1 ≠ .null := by
  unfold makeBinop
  split
  · rename_i hl
    exact h.resolve_left (fun hx => hx hl)
  · split
    · assumption
    · exact fun hx => nomatch hx

theorem addAccept_ok (s : Nat) (st : State) (e : Edge) (d : State) (f : Fsm)
    (hs : f.states[s]? = some st)
    (hok : d.accept = true → (st.accept = false ∧ st.guard = .null) ∨
      (st.accept = true ∧ st.guard ≠ .null ∧ e.guard ≠ .null)) :
    ∃ st', (addAccept s st e d f).states[s]? = some st' ∧ st'.edges = st.edges ∧
      (addAccept s st e d f).states.length = f.states.length ∧
      (∀ x, x ≠ s → (addAccept s st e d f).states[x]? = f.states[x]?) ∧
      (∀ v, (st'.accept = true ∧ st'.guard.True v) ↔ (st.accept = true ∧ st.guard.True v) ∨
        (e.guard.True v ∧ d.accept = true ∧ d.guard.True v)) ∧
      (e.guard ≠ .null → (st'.guard = st.guard ∧ st'.accept = st.accept) ∨
        (st'.accept = true ∧ st'.guard ≠ .null)) := by
  by_cases hd : d.accept = true
  · have h0 : addAccept s st e d f =
        { f with fresh := (orGuard (andGuard f.fresh e.guard d.guard).2 st.guard
          (andGuard f.fresh e.guard d.guard).1).2 }.modify s (fun st' => { st' with
            guard := (orGuard (andGuard f.fresh e.guard d.guard).2 st.guard
              (andGuard f.fresh e.guard d.guard).1).1
            accept := true }) := by
      simp [addAccept, hd]
    rw [h0]
    refine ⟨_, modify_self _ hs, rfl, modify_length _ _ _, fun x hx => modify_ne _ _ hx, ?_, ?_⟩
    · intro v
      dsimp only
      rcases hok hd with ⟨ha, hg⟩ | ⟨ha, hg, he⟩
      · rw [hg, ha, (or_null _ _).1, and_true]
        simp [hd]
      · have hn : (andGuard f.fresh e.guard d.guard).1 ≠ .null :=
          makeBinop_ne_null _ _ _ _ (Or.inl he)
        rw [or_true _ _ _ _ hg hn, and_true, ha]
        simp [hd]
    · intro he
      refine Or.inr ⟨rfl, ?_⟩
      exact makeBinop_ne_null _ _ _ _ (Or.inr (makeBinop_ne_null _ _ _ _ (Or.inl he)))
  · have h0 : addAccept s st e d f = f := by simp [addAccept, hd]
    rw [h0]
    refine ⟨st, hs, rfl, rfl, fun _ _ => rfl, ?_, fun _ => Or.inl ⟨rfl, rfl⟩⟩
    intro v
    simp [hd]

/-! ## One epsilon edge -/

theorem expand_ok (same : Guard → Guard → Bool) (f : Fsm) (s : Nat)
    (st : State) (e : Edge) (d : State) (pre post : List Edge) (hs : f.states[s]? = some st)
    (hed : st.edges = pre ++ e :: post) (hek : e.eps = true) (hd : f.states[e.dest]? = some d) (hdn : d.NoEps)
    (hne : e.dest ≠ s)
    (hok : d.accept = true → (st.accept = false ∧ st.guard = .null) ∨
      (st.accept = true ∧ st.guard ≠ .null ∧ e.guard ≠ .null)) :
    ∃ (f' : Fsm) (st' : State) (mid app : List Edge),
      expand same f s pre.length = some (f', pre.length + mid.length) ∧
      f'.states[s]? = some st' ∧ st'.edges = pre ++ mid ++ (post ++ app) ∧
      (∀ x ∈ mid ++ app, x.eps = false ∧ ∃ e2 ∈ d.edges, x.dest = e2.dest) ∧
      f'.states.length = f.states.length ∧
      (∀ x, x ≠ s → f'.states[x]? = f.states[x]?) ∧
      (∀ t v, Reaches st'.edges false t v →
        Reaches (pre ++ post) false t v ∨ (e.guard.True v ∧ Reaches d.edges false t v)) ∧
      (SameSound same → ∀ t v,
        Reaches (pre ++ post) false t v ∨ (e.guard.True v ∧ Reaches d.edges false t v) →
          Reaches st'.edges false t v) ∧
      (∀ v, (st'.accept = true ∧ st'.guard.True v) ↔ (st.accept = true ∧ st.guard.True v) ∨
        (e.guard.True v ∧ d.accept = true ∧ d.guard.True v)) ∧
      (e.guard ≠ .null → (st'.guard = st.guard ∧ st'.accept = st.accept) ∨
        (st'.accept = true ∧ st'.guard ≠ .null)) := by
  obtain ⟨st1, hst1, hed1, hlen1, hne1, hac1, hg1⟩ := addAccept_ok s st e d f hs hok
  have hget : st.edges[pre.length]? = some e := by rw [hed]; simp
  cases hde : d.edges with
  | nil =>
    refine ⟨_, _, [], [], ?_, modify_self (State.dropEdge pre.length) hst1, ?_, by simp, ?_, ?_, ?_,
      ?_, hac1, hg1⟩
    · unfold expand
      simp only [hs, hget, hd, hde]
      rfl
    · simp only [State.dropEdge, hed1, hed]
      rw [List.eraseIdx_append_of_length_le (by omega)]
      simp
    · rw [modify_length, hlen1]
    · intro x hx
      rw [modify_ne _ _ hx, hne1 x hx]
    · intro t v
      simp only [State.dropEdge, hed1, hed]
      rw [List.eraseIdx_append_of_length_le (by omega)]
      simp [reaches_nil]
    · intro _ t v
      simp only [State.dropEdge, hed1, hed]
      rw [List.eraseIdx_append_of_length_le (by omega)]
      simp [reaches_nil]
  | cons first rest =>
    have hf : first.eps = false := hdn first (by rw [hde]; simp)
    have hr : ∀ e ∈ rest, e.eps = false := fun x hx => hdn x (by rw [hde]; simp [hx])
    obtain ⟨f2, st2, app, hf2, hst2, hed2, hmem2, hgu2, hac2, hlen2, hne2, hre2, hre3⟩ :=
      addAll_ok same s e.guard rest hr _ _ hst1
    refine ⟨_, _, [⟨first.eps, first.dest, (andGuard f2.fresh e.guard first.guard).1⟩], app, ?_,
      modify_self (f := { f2 with fresh := (andGuard f2.fresh e.guard first.guard).2 })
        (State.setEdge pre.length
          ⟨first.eps, first.dest, (andGuard f2.fresh e.guard first.guard).1⟩) hst2, ?_, ?_, ?_, ?_,
      ?_, ?_, ?_, ?_⟩
    · unfold expand
      simp only [hs, hget, hd, hde, hf2]
      rw [if_neg (by simp [hf])]
      rfl
    · simp only [State.setEdge, hed2, hed1, hed]
      rw [List.append_assoc, List.set_append_right _ _ (by omega)]
      simp
    · intro x hx
      rcases List.mem_append.mp hx with hx | hx
      · rw [List.mem_singleton.mp hx]
        exact ⟨hf, first, by simp, rfl⟩
      · obtain ⟨h1, y, hy, h2⟩ := hmem2 x hx
        exact ⟨h1, y, by simp [hy], h2⟩
    · rw [modify_length]
      dsimp only
      rw [hlen2, hlen1]
    · intro x hx
      rw [modify_ne _ _ hx]
      dsimp only
      rw [hne2 x hx, hne1 x hx]
    · intro t v h
      have h2 := hre2 t v
      rw [hed2, hed1, hed] at h2
      simp only [State.setEdge, hed2, hed1, hed] at h
      rw [List.append_assoc, List.set_append_right _ _ (by omega)] at h
      simp only [Nat.sub_self, List.cons_append, List.set_cons_zero] at h
      simp only [reaches_append, reaches_cons, and_true, hek, hf] at h2 h ⊢
      rcases h with h | ⟨_, h, hg, hfg⟩ | h | h
      · exact Or.inl (Or.inl h)
      · exact Or.inr ⟨hg, Or.inl ⟨trivial, h, hfg⟩⟩
      · exact Or.inl (Or.inr h)
      · rcases h2 (Or.inr h) with (h | h | h) | ⟨hg, h⟩
        · exact Or.inl (Or.inl h)
        · exact absurd h.1 (by simp)
        · exact Or.inl (Or.inr h)
        · exact Or.inr ⟨hg, Or.inr h⟩
    · intro hsame t v h
      have h2 := hre3 hsame t v
      rw [hed2, hed1, hed] at h2
      simp only [State.setEdge, hed2, hed1, hed]
      rw [List.append_assoc, List.set_append_right _ _ (by omega)]
      simp only [Nat.sub_self, List.cons_append, List.set_cons_zero]
      simp only [reaches_append, reaches_cons, and_true, hek, hf] at h2 h ⊢
      rcases h with (h | h) | ⟨hg, ⟨_, h, hfg⟩ | h⟩
      · exact Or.inl h
      · exact Or.inr (Or.inr (Or.inl h))
      · exact Or.inr (Or.inl ⟨trivial, h, hg, hfg⟩)
      · rcases h2 (Or.inr ⟨hg, h⟩) with (h | h | h) | h
        · exact Or.inl h
        · exact absurd h.1 (by simp)
        · exact Or.inr (Or.inr (Or.inl h))
        · exact Or.inr (Or.inr (Or.inr h))
    · intro v
      simp only [State.setEdge, hgu2, hac2]
      exact hac1 v
    · intro he
      simp only [State.setEdge, hgu2, hac2]
      exact hg1 he

end Verif.Psl
