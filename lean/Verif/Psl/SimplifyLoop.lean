import Verif.Psl.SimplifyLemmas

/-!
# The loops of the removal of epsilon edges
-/

namespace Verif.Psl

/-! ## Equivalent automata -/

/-- Two automata with the same states that accept in the same cycles; the second one has no moves
that the first one does not have, and if `P` holds it has the same moves. -/
structure Equiv (P : Prop) (f f' : Fsm) : Prop where
  length : f'.states.length = f.states.length
  accepts : ∀ v s, Accepts f v s ↔ Accepts f' v s
  only : ∀ v s t, Moves f' v s t → Moves f v s t
  moves : P → ∀ v s t, Moves f v s t → Moves f' v s t

theorem Equiv.refl (P : Prop) (f : Fsm) : Equiv P f f :=
  ⟨rfl, fun _ _ => Iff.rfl, fun _ _ _ h => h, fun _ _ _ _ h => h⟩

theorem Equiv.trans {P : Prop} {f g h : Fsm} (a : Equiv P f g) (b : Equiv P g h) : Equiv P f h :=
  ⟨b.length.trans a.length, fun v s => (a.accepts v s).trans (b.accepts v s),
    fun v s t x => a.only v s t (b.only v s t x),
    fun p v s t x => b.moves p v s t (a.moves p v s t x)⟩

/-- Replacing an epsilon edge to a state without epsilon edges changes nothing. -/
theorem equiv_of_step {P : Prop} {f f' : Fsm} {s d : Nat} {st st' dst : State} {g : Guard}
    (hs : f.states[s]? = some st) (hs' : f'.states[s]? = some st')
    (hlen : f'.states.length = f.states.length)
    (hne : ∀ x, x ≠ s → f'.states[x]? = f.states[x]?)
    (hd : f.states[d]? = some dst) (hdn : dst.NoEps) (hds : d ≠ s)
    (heps : ∀ t v, Reaches st.edges true t v ↔ Reaches st'.edges true t v ∨ (t = d ∧ g.True v))
    (honly : ∀ t v, Reaches st'.edges false t v → Reaches st.edges false t v ∨
      (g.True v ∧ Reaches dst.edges false t v))
    (hnext : P → ∀ t v, Reaches st.edges false t v ∨
      (g.True v ∧ Reaches dst.edges false t v) → Reaches st'.edges false t v)
    (hacc : ∀ v, (st'.accept = true ∧ st'.guard.True v) ↔ (st.accept = true ∧ st.guard.True v) ∨
      (g.True v ∧ dst.accept = true ∧ dst.guard.True v)) : Equiv P f f' := by
  have hd' : f'.states[d]? = some dst := by rw [hne d hds, hd]
  refine ⟨hlen, ?_, ?_, ?_⟩
  · intro v x
    constructor
    · intro h
      induction h with
      | here h1 h2 h3 =>
        rename_i y st0
        by_cases hx : y = s
        · subst hx
          rw [hs] at h1
          cases h1
          obtain ⟨ha, hg⟩ := (hacc v).mpr (Or.inl ⟨h2, h3⟩)
          exact .here hs' ha hg
        · exact .here (by rw [hne _ hx, h1]) h2 h3
      | eps h1 h2 hrec ih =>
        rename_i y t st0
        by_cases hx : y = s
        · subst hx
          rw [hs] at h1
          cases h1
          rcases (heps _ v).mp h2 with h | ⟨htd, hg⟩
          · exact .eps hs' h ih
          · subst htd
            cases ih with
            | here k1 k2 k3 =>
              rw [hd'] at k1
              cases k1
              obtain ⟨ha, hg⟩ := (hacc v).mpr (Or.inr ⟨hg, k2, k3⟩)
              exact .here hs' ha hg
            | eps k1 k2 _ =>
              rw [hd'] at k1
              cases k1
              exact absurd k2 (reaches_true_none hdn _ v)
        · exact .eps (by rw [hne _ hx, h1]) h2 ih
    · intro h
      induction h with
      | here h1 h2 h3 =>
        rename_i y st0
        by_cases hx : y = s
        · subst hx
          rw [hs'] at h1
          cases h1
          rcases (hacc v).mp ⟨h2, h3⟩ with ⟨ha, hg⟩ | ⟨hg, ha, hdg⟩
          · exact .here hs ha hg
          · exact .eps hs ((heps d v).mpr (Or.inr ⟨rfl, hg⟩)) (.here hd ha hdg)
        · exact .here (by rw [← hne _ hx, h1]) h2 h3
      | eps h1 h2 hrec ih =>
        rename_i y t st0
        by_cases hx : y = s
        · subst hx
          rw [hs'] at h1
          cases h1
          exact .eps hs ((heps _ v).mpr (Or.inl h2)) ih
        · exact .eps (by rw [← hne _ hx, h1]) h2 ih
  · intro v x u h
    induction h with
    | next h1 h2 =>
      rename_i y t st0
      by_cases hx : y = s
      · subst hx
        rw [hs'] at h1
        cases h1
        rcases honly _ v h2 with h | ⟨hg, h⟩
        · exact .next hs h
        · exact .eps hs ((heps d v).mpr (Or.inr ⟨rfl, hg⟩)) (.next hd h)
      · exact .next (by rw [← hne _ hx, h1]) h2
    | eps h1 h2 hrec ih =>
      rename_i y t u' st0
      by_cases hx : y = s
      · subst hx
        rw [hs'] at h1
        cases h1
        exact .eps hs ((heps _ v).mpr (Or.inl h2)) ih
      · exact .eps (by rw [← hne _ hx, h1]) h2 ih
  · intro hP v x u h
    induction h with
    | next h1 h2 =>
      rename_i y t st0
      by_cases hx : y = s
      · subst hx
        rw [hs] at h1
        cases h1
        exact .next hs' (hnext hP _ v (Or.inl h2))
      · exact .next (by rw [hne _ hx, h1]) h2
    | eps h1 h2 hrec ih =>
      rename_i y t u' st0
      by_cases hx : y = s
      · subst hx
        rw [hs] at h1
        cases h1
        rcases (heps _ v).mp h2 with h | ⟨htd, hg⟩
        · exact .eps hs' h ih
        · subst htd
          cases ih with
          | next k1 k2 =>
            rw [hd'] at k1
            cases k1
            exact .next hs' (hnext hP _ v (Or.inr ⟨hg, k2⟩))
          | eps k1 k2 _ =>
            rw [hd'] at k1
            cases k1
            exact absurd k2 (reaches_true_none hdn _ v)
      · exact .eps (by rw [hne _ hx, h1]) h2 ih

/-! ## The invariant -/

/-- What holds of a state at any time. -/
def Fine (st : State) : Prop :=
  st.NoEps ∨
  (st.accept = false ∧ st.guard = .null ∧
    ((∀ e ∈ st.edges, e.eps = true → e.guard ≠ .null) ∨
      (st.edges.filter (fun e => e.eps)).length ≤ 1)) ∨
  (st.accept = true ∧ st.guard ≠ .null ∧ ∀ e ∈ st.edges, e.eps = true → e.guard ≠ .null)

/-- What holds of the automaton at any time. -/
structure Good (f : Fsm) (r : Nat → Nat) : Prop where
  dest : ∀ (s : Nat) (st : State), f.states[s]? = some st → ∀ e ∈ st.edges,
    e.dest < f.states.length
  acyclic : ∀ (s : Nat) (st : State), f.states[s]? = some st → ∀ e ∈ st.edges, e.eps = true →
    r e.dest < r s
  fine : ∀ (s : Nat) (st : State), f.states[s]? = some st → Fine st

theorem Proper.good {f : Fsm} {r : Nat → Nat} (h : Proper f r) : Good f r := by
  refine ⟨h.dest, h.acyclic, ?_⟩
  intro s st hs
  by_cases hn : st.NoEps
  · exact Or.inl hn
  · obtain ⟨ha, hg⟩ := h.accept s st hs hn
    exact Or.inr (Or.inl ⟨ha, hg, h.guarded s st hs⟩)

/-- The state has no epsilon edges any more. -/
def Done (f : Fsm) (s : Nat) : Prop := ∀ st, f.states[s]? = some st → st.NoEps

theorem expand_good (same : Guard → Guard → Bool) {r : Nat → Nat} {f : Fsm}
    {s : Nat} {st : State} {e : Edge} {pre post : List Edge} (hf : Good f r)
    (hs : f.states[s]? = some st) (hed : st.edges = pre ++ e :: post) (hek : e.eps = true)
    (hpre : ∀ x ∈ pre, x.eps = false) (hdone : Done f e.dest) :
    ∃ (f' : Fsm) (st' : State) (mid app : List Edge),
      expand same f s pre.length = some (f', pre.length + mid.length) ∧
      f'.states[s]? = some st' ∧ st'.edges = pre ++ mid ++ (post ++ app) ∧
      (∀ x ∈ mid ++ app, x.eps = false) ∧
      (∀ x, x ≠ s → f'.states[x]? = f.states[x]?) ∧ Good f' r ∧ Equiv (SameSound same) f f' := by
  have hmem : e ∈ st.edges := by rw [hed]; simp
  have hlt := hf.dest s st hs e hmem
  have hrank := hf.acyclic s st hs e hmem hek
  have hne : e.dest ≠ s := by
    intro h
    rw [h] at hrank
    omega
  obtain ⟨d, hd⟩ : ∃ d, f.states[e.dest]? = some d := ⟨_, List.getElem?_eq_getElem hlt⟩
  have hdn := hdone d hd
  have hneps : ¬ st.NoEps := fun h => by
    rw [h e hmem] at hek
    cases hek
  have hok : d.accept = true → (st.accept = false ∧ st.guard = .null) ∨
      (st.accept = true ∧ st.guard ≠ .null ∧ e.guard ≠ .null) := by
    intro _
    rcases hf.fine s st hs with h | ⟨h1, h2, _⟩ | ⟨h1, h2, h3⟩
    · exact absurd h hneps
    · exact Or.inl ⟨h1, h2⟩
    · exact Or.inr ⟨h1, h2, h3 e hmem hek⟩
  obtain ⟨f', st', mid, app, hex, hst', hed', hmem', hlen, hothers, honly, hnext, hacc, hgu⟩ :=
    expand_ok same f s st e d pre post hs hed hek hd hdn hne hok
  have hma : ∀ x ∈ mid ++ app, x.eps = false := fun x hx => (hmem' x hx).1
  have hsub : ∀ x ∈ st'.edges, x ∈ st.edges ∨ x ∈ mid ++ app := by
    intro x hx
    rw [hed'] at hx
    rw [hed]
    simp only [List.mem_append, List.mem_cons] at hx ⊢
    rcases hx with (h | h) | h | h
    · exact Or.inl (Or.inl h)
    · exact Or.inr (Or.inl h)
    · exact Or.inl (Or.inr (Or.inr h))
    · exact Or.inr (Or.inr h)
  have heps' : ∀ x ∈ st'.edges, x.eps = true → x ∈ post := by
    intro x hx hk
    rw [hed'] at hx
    simp only [List.mem_append] at hx
    rcases hx with (h | h) | h | h
    · rw [hpre x h] at hk; cases hk
    · rw [hma x (by simp [h])] at hk; cases hk
    · exact h
    · rw [hma x (by simp [h])] at hk; cases hk
  refine ⟨f', st', mid, app, hex, hst', hed', hma, hothers, ⟨?_, ?_, ?_⟩, ?_⟩
  · intro x stx hx y hy
    rw [hlen]
    by_cases hxs : x = s
    · subst hxs
      rw [hst'] at hx
      cases hx
      rcases hsub y hy with h | h
      · exact hf.dest _ _ hs y h
      · obtain ⟨_, e2, he2, hde⟩ := hmem' y h
        rw [hde]
        exact hf.dest _ _ hd e2 he2
    · rw [hothers x hxs] at hx
      exact hf.dest _ _ hx y hy
  · intro x stx hx y hy hk
    by_cases hxs : x = s
    · subst hxs
      rw [hst'] at hx
      cases hx
      rcases hsub y hy with h | h
      · exact hf.acyclic _ _ hs y h hk
      · rw [hma y h] at hk
        cases hk
    · rw [hothers x hxs] at hx
      exact hf.acyclic _ _ hx y hy hk
  · intro x stx hx
    by_cases hxs : x = s
    · subst hxs
      rw [hst'] at hx
      cases hx
      by_cases hpost : ∀ x ∈ post, x.eps = false
      · left
        intro y hy
        cases hk : y.eps with
        | false => rfl
        | true =>
          have := hpost y (heps' y hy hk)
          rw [hk] at this
          cases this
      · have hguard : ∀ y ∈ st.edges, y.eps = true → y.guard ≠ .null := by
          rcases hf.fine x st hs with h | ⟨_, _, h | h⟩ | ⟨_, _, h⟩
          · exact absurd h hneps
          · exact h
          · exfalso
            apply hpost
            intro y hy
            cases hk : y.eps with
            | false => rfl
            | true =>
              rw [hed, List.filter_append, List.filter_cons, if_pos hek] at h
              have : y ∈ post.filter (fun e => e.eps) := List.mem_filter.mpr ⟨hy, hk⟩
              have := List.length_pos_of_mem this
              simp only [List.length_append, List.length_cons] at h
              omega
          · exact h
        have hguard' : ∀ y ∈ st'.edges, y.eps = true → y.guard ≠ .null := by
          intro y hy hk
          refine hguard y ?_ hk
          rw [hed]
          simp [heps' y hy hk]
        rcases hgu (hguard e hmem hek) with ⟨hg, ha⟩ | ⟨ha, hg⟩
        · rcases hf.fine x st hs with h | ⟨h1, h2, _⟩ | ⟨h1, h2, _⟩
          · exact absurd h hneps
          · exact Or.inr (Or.inl ⟨ha.trans h1, hg.trans h2, Or.inl hguard'⟩)
          · exact Or.inr (Or.inr ⟨ha.trans h1, hg ▸ h2, hguard'⟩)
        · exact Or.inr (Or.inr ⟨ha, hg, hguard'⟩)
    · rw [hothers x hxs] at hx
      exact hf.fine _ _ hx
  · refine equiv_of_step (g := e.guard) hs hst' hlen hothers hd hdn hne ?_ ?_ ?_ hacc
    · intro t v
      rw [hed, hed']
      simp only [reaches_append, reaches_cons, hek]
      have h1 : ¬ Reaches mid true t v := reaches_true_none (fun x hx => hma x (by simp [hx])) t v
      have h2 : ¬ Reaches app true t v := reaches_true_none (fun x hx => hma x (by simp [hx])) t v
      constructor
      · rintro (h | ⟨_, h, hg⟩ | h)
        · exact Or.inl (Or.inl (Or.inl h))
        · exact Or.inr ⟨h.symm, hg⟩
        · exact Or.inl (Or.inr (Or.inl h))
      · rintro (((h | h) | h | h) | ⟨h, hg⟩)
        · exact Or.inl h
        · exact absurd h h1
        · exact Or.inr (Or.inr h)
        · exact absurd h h2
        · exact Or.inr (Or.inl ⟨trivial, h.symm, hg⟩)
    · intro t v h
      have := honly t v h
      rw [hed]
      simp only [reaches_append, reaches_cons, hek] at this ⊢
      simpa using this
    · intro hP t v h
      refine hnext hP t v ?_
      rw [hed] at h
      simp only [reaches_append, reaches_cons, hek] at h ⊢
      simpa using h

/-! ## The recursion -/

/-- The number of states that are not marked. -/
def unmarked (n : Nat) (vis : List Nat) : Nat := ((List.range n).filter (fun x => x ∉ vis)).length

theorem unmarked_mono (n : Nat) {vis vis' : List Nat} (h : ∀ x ∈ vis, x ∈ vis') :
    unmarked n vis' ≤ unmarked n vis := by
  unfold unmarked
  have : (List.range n).filter (fun x => x ∉ vis') =
      ((List.range n).filter (fun x => x ∉ vis)).filter (fun x => x ∉ vis') := by
    rw [List.filter_filter]
    apply List.filter_congr
    intro x _
    by_cases hx : x ∈ vis'
    · simp [hx]
    · have hv : x ∉ vis := fun hv => hx (h x hv)
      simp [hx, hv]
  rw [this]
  exact List.length_filter_le _ _

theorem unmarked_cons {n s : Nat} {vis : List Nat} (hs : s < n) (hv : s ∉ vis) :
    unmarked n (s :: vis) < unmarked n vis := by
  unfold unmarked
  have : (List.range n).filter (fun x => x ∉ s :: vis) =
      ((List.range n).filter (fun x => x ∉ vis)).filter (fun x => x ≠ s) := by
    rw [List.filter_filter]
    apply List.filter_congr
    intro x _
    simp [and_comm]
  rw [this]
  have hmem : s ∈ (List.range n).filter (fun x => x ∉ vis) := by simp [hs, hv]
  have := List.length_filter_lt_length_iff_exists.mpr
    (⟨s, hmem, by simp⟩ : ∃ x ∈ (List.range n).filter (fun x => x ∉ vis), ¬ (decide (x ≠ s)) = true)
  exact this

/-- What a call for state `s` gives. -/
def CallOk (same : Guard → Guard → Bool) (r : Nat → Nat) (call : Fsm → List Nat → Nat → Option (Fsm × List Nat)) (bound : Nat) :
    Prop :=
  ∀ (f : Fsm) (vis : List Nat) (s : Nat), s < f.states.length → s ∉ vis → Good f r →
    (∀ x ∈ vis, Done f x ∨ r s < r x) → unmarked f.states.length vis ≤ bound →
    ∃ f' vis', call f vis s = some (f', vis') ∧ Good f' r ∧ Equiv (SameSound same) f f' ∧
      (∀ x ∈ vis, f'.states[x]? = f.states[x]?) ∧ (∀ x ∈ vis, x ∈ vis') ∧ s ∈ vis' ∧
      (∀ x ∈ vis', x ∈ vis ∨ Done f' x)

theorem edgeLoop_ok (same : Guard → Guard → Bool) {r : Nat → Nat}
    {call : Fsm → List Nat → Nat → Option (Fsm × List Nat)} {bound : Nat}
    (hcall : CallOk same r call bound) (s : Nat) (n : Nat) :
    ∀ (i : Nat) (f : Fsm) (vis : List Nat) (st : State), Good f r → f.states[s]? = some st →
    s ∈ vis → (∀ x ∈ vis, x = s ∨ Done f x ∨ r s < r x) →
    unmarked f.states.length vis ≤ bound → i + n ≤ st.edges.length →
    (∀ e ∈ st.edges.take i, e.eps = false) → (∀ e ∈ st.edges.drop (i + n), e.eps = false) →
    ∃ f' vis', edgeLoop same call s n i f vis = some (f', vis') ∧ Good f' r ∧ Equiv (SameSound same) f f' ∧
      (∀ x ∈ vis, x ≠ s → f'.states[x]? = f.states[x]?) ∧ (∀ x ∈ vis, x ∈ vis') ∧ Done f' s ∧
      (∀ x ∈ vis', x ∈ vis ∨ Done f' x) := by
  induction n with
  | zero =>
    intro i f vis st hf hs hsv hvis hb hi htake hdrop
    refine ⟨f, vis, rfl, hf, Equiv.refl _ f, fun _ _ _ => rfl, fun _ h => h, ?_, fun _ h => Or.inl h⟩
    intro st0 h0 e he
    rw [hs] at h0
    cases h0
    rw [← List.take_append_drop i st.edges] at he
    rcases List.mem_append.mp he with h | h
    · exact htake e h
    · exact hdrop e h
  | succ n ih =>
    intro i f vis st hf hs hsv hvis hb hi htake hdrop
    have hilt : i < st.edges.length := by omega
    have hget : st.edges[i]? = some st.edges[i] := List.getElem?_eq_getElem hilt
    have hsplit : st.edges = st.edges.take i ++ st.edges[i] :: st.edges.drop (i + 1) := by
      rw [← List.drop_eq_getElem_cons hilt, List.take_append_drop]
    have hpl : (st.edges.take i).length = i := by simp; omega
    unfold edgeLoop
    simp only [hs, hget]
    cases hk : (st.edges[i]).eps with
    | false =>
      simp only [Bool.false_eq_true, if_false]
      refine ih (i + 1) f vis st hf hs hsv hvis hb (by omega) ?_ ?_
      · intro e he
        rw [List.take_succ_eq_append_getElem hilt] at he
        rcases List.mem_append.mp he with h | h
        · exact htake e h
        · rw [List.mem_singleton.mp h]
          exact hk
      · intro e he
        refine hdrop e ?_
        rw [show i + (n + 1) = i + 1 + n by omega]
        exact he
    | true =>
      simp only [if_true]
      generalize hedef : st.edges[i] = e at hk hsplit hget
      have hemem : e ∈ st.edges := by rw [hsplit]; simp
      have hrank := hf.acyclic s st hs e hemem hk
      have hdlt := hf.dest s st hs e hemem
      -- the call
      obtain ⟨f1, vis1, hc, hf1, heq1, hfr1, hsub1, hdv, hnew1⟩ : ∃ f1 vis1,
          (if e.dest ∈ vis then some (f, vis) else call f vis e.dest) = some (f1, vis1) ∧
          Good f1 r ∧ Equiv (SameSound same) f f1 ∧ (∀ x ∈ vis, f1.states[x]? = f.states[x]?) ∧
          (∀ x ∈ vis, x ∈ vis1) ∧ Done f1 e.dest ∧ (∀ x ∈ vis1, x ∈ vis ∨ Done f1 x) := by
        by_cases hv : e.dest ∈ vis
        · refine ⟨f, vis, by rw [if_pos hv], hf, Equiv.refl _ f, fun _ _ => rfl, fun _ h => h, ?_,
            fun _ h => Or.inl h⟩
          rcases hvis _ hv with h | h | h
          · rw [h] at hrank
            omega
          · exact h
          · omega
        · rw [if_neg hv]
          obtain ⟨f1, vis1, h1, h2, h3, h4, h5, h6, h7⟩ := hcall f vis e.dest hdlt hv hf (by
            intro x hx
            rcases hvis x hx with h | h | h
            · right
              rw [h]
              exact hrank
            · exact Or.inl h
            · exact Or.inr (by omega)) hb
          refine ⟨f1, vis1, h1, h2, h3, h4, h5, ?_, h7⟩
          rcases h7 _ h6 with h | h
          · exact absurd h hv
          · exact h
      rw [hc]
      dsimp only
      have hs1 : f1.states[s]? = some st := by rw [hfr1 s hsv, hs]
      obtain ⟨f2, st2, mid, app, hex, hst2, hed2, hma, hoth, hf2, heq2⟩ :=
        expand_good same hf1 hs1 hsplit hk htake hdv
      rw [hpl] at hex
      rw [hex]
      dsimp only
      have hdone_keep : ∀ x, x ≠ s → Done f1 x → Done f2 x := by
        intro x hx h st0 h0
        rw [hoth x hx] at h0
        exact h st0 h0
      have hpl2 : (st.edges.take i ++ mid).length = i + mid.length := by
        rw [List.length_append, hpl]
      obtain ⟨f3, vis3, h1, h2, h3, h4, h5, h6, h7⟩ := ih (i + mid.length) f2 vis1 st2 hf2 hst2
        (hsub1 s hsv) (by
          intro x hx
          by_cases hxs : x = s
          · exact Or.inl hxs
          · right
            rcases hnew1 x hx with h | h
            · rcases hvis x h with h' | h' | h'
              · exact absurd h' hxs
              · left
                refine hdone_keep x hxs ?_
                intro st0 h0
                rw [hfr1 x h] at h0
                exact h' st0 h0
              · exact Or.inr h'
            · exact Or.inl (hdone_keep x hxs h))
        (by
          rw [heq2.length, heq1.length]
          exact Nat.le_trans (unmarked_mono _ hsub1) hb)
        (by
          rw [hed2]
          simp only [List.length_append, hpl, List.length_drop]
          omega)
        (by
          rw [hed2, List.take_left' hpl2]
          intro x hx
          rcases List.mem_append.mp hx with h | h
          · exact htake x h
          · exact hma x (by simp [h]))
        (by
          rw [hed2, ← hpl2, List.drop_append, List.drop_eq_nil_of_le (by omega), List.nil_append]
          rw [Nat.add_sub_cancel_left, List.drop_append]
          intro x hx
          rcases List.mem_append.mp hx with h | h
          · refine hdrop x ?_
            rw [List.drop_drop] at h
            rw [show i + (n + 1) = i + 1 + n by omega]
            exact h
          · exact hma x (by simp [List.mem_of_mem_drop h]))
      refine ⟨f3, vis3, h1, h2, heq1.trans (heq2.trans h3), ?_, ?_, h6, ?_⟩
      · intro x hx hxs
        rw [h4 x (hsub1 x hx) hxs, hoth x hxs, hfr1 x hx]
      · intro x hx
        exact h5 x (hsub1 x hx)
      · intro x hx
        rcases h7 x hx with h | h
        · by_cases hxs : x = s
          · left; rw [hxs]; exact hsv
          · rcases hnew1 x h with h' | h'
            · exact Or.inl h'
            · right
              intro st0 h0
              rw [h4 x h hxs] at h0
              exact hdone_keep x hxs h' st0 h0
        · exact Or.inr h

theorem simplifyDfs_ok (same : Guard → Guard → Bool) (r : Nat → Nat)
    (fuel : Nat) : CallOk same r (simplifyDfs same fuel) fuel := by
  induction fuel with
  | zero =>
    intro f vis s hs hv _ _ hb
    have := unmarked_cons hs hv
    omega
  | succ fuel ih =>
    intro f vis s hs hv hf hvis hb
    have hget : f.states[s]? = some f.states[s] := List.getElem?_eq_getElem hs
    obtain ⟨f', vis', h1, h2, h3, h4, h5, h6, h7⟩ := edgeLoop_ok same ih s
      (f.states[s]).edges.length 0 f (s :: vis) f.states[s] hf hget (by simp) (by
        intro x hx
        rcases List.mem_cons.mp hx with h | h
        · exact Or.inl h
        · exact Or.inr (hvis x h)) (by
        have := unmarked_cons hs hv
        omega) (by omega) (by simp) (by simp)
    refine ⟨f', vis', ?_, h2, h3, ?_, fun x hx => h5 x (by simp [hx]), h5 s (by simp), ?_⟩
    · unfold simplifyDfs
      simp only [hget]
      exact h1
    · intro x hx
      refine h4 x (by simp [hx]) ?_
      rintro rfl
      exact hv hx
    · intro x hx
      rcases h7 x hx with h | h
      · rcases List.mem_cons.mp h with h | h
        · right; rw [h]; exact h6
        · exact Or.inl h
      · exact Or.inr h

theorem simplifyLoop_ok (same : Guard → Guard → Bool) (r : Nat → Nat)
    (n : Nat) : ∀ (s : Nat) (f : Fsm) (vis : List Nat), s + n = f.states.length → Good f r →
    (∀ x ∈ vis, Done f x) → (∀ x, x < s → x ∈ vis) →
    ∃ f' vis', simplifyLoop same n s f vis = some (f', vis') ∧ Good f' r ∧ Equiv (SameSound same) f f' ∧
      ∀ x, x < f'.states.length → Done f' x := by
  induction n with
  | zero =>
    intro s f vis hn hf hvis hlt
    refine ⟨f, vis, rfl, hf, Equiv.refl _ f, ?_⟩
    intro x hx
    exact hvis x (hlt x (by omega))
  | succ n ih =>
    intro s f vis hn hf hvis hlt
    obtain ⟨f1, vis1, hc, hf1, heq1, hd1, hlt1⟩ : ∃ f1 vis1,
        (if s ∈ vis then some (f, vis) else simplifyDfs same f.states.length f vis s) =
          some (f1, vis1) ∧ Good f1 r ∧ Equiv (SameSound same) f f1 ∧ (∀ x ∈ vis1, Done f1 x) ∧
        (∀ x, x < s + 1 → x ∈ vis1) := by
      by_cases hv : s ∈ vis
      · refine ⟨f, vis, by rw [if_pos hv], hf, Equiv.refl _ f, hvis, ?_⟩
        intro x hx
        rcases Nat.lt_succ_iff_lt_or_eq.mp hx with h | h
        · exact hlt x h
        · rw [h]; exact hv
      · rw [if_neg hv]
        obtain ⟨f1, vis1, h1, h2, h3, h4, h5, h6, h7⟩ := simplifyDfs_ok same r f.states.length f vis
          s (by omega) hv hf (fun x hx => Or.inl (hvis x hx)) (by
            unfold unmarked
            exact Nat.le_trans (List.length_filter_le _ _) (by simp))
        refine ⟨f1, vis1, h1, h2, h3, ?_, ?_⟩
        · intro x hx
          rcases h7 x hx with h | h
          · intro st0 h0
            rw [h4 x h] at h0
            exact hvis x h st0 h0
          · exact h
        · intro x hx
          rcases Nat.lt_succ_iff_lt_or_eq.mp hx with h | h
          · exact h5 x (hlt x h)
          · rw [h]; exact h6
    unfold simplifyLoop
    rw [hc]
    dsimp only
    obtain ⟨f', vis', h1, h2, h3, h4⟩ := ih (s + 1) f1 vis1 (by rw [heq1.length]; omega) hf1 hd1 hlt1
    exact ⟨f', vis', h1, h2, heq1.trans h3, h4⟩

end Verif.Psl
