import Verif.Psl.BuildLemmas

/-!
# Putting parts of automata together
-/

namespace Verif.Psl

theorem Start.fresh {f : Fsm} {s : Nat} (h : Start f s) {x : Nat} {e : Edge} (hx : HasEdge f x e) :
    x < f.states.length ∧ e.dest < f.states.length := by
  obtain ⟨st, hst, he⟩ := hx
  exact ⟨(List.getElem?_eq_some_iff.mp hst).1, (h.raw x st hst).2.2.2 e he⟩

theorem hasEdge_lt {f : Fsm} {x : Nat} {e : Edge} (hx : HasEdge f x e) : x < f.states.length := by
  obtain ⟨st, hst, _⟩ := hx
  exact (List.getElem?_eq_some_iff.mp hst).1

theorem ranked_join {R1 R2 : Edges} {V1 V2 : Nat → Prop} (h1 : Within R1 V1) (h2 : Within R2 V2)
    {m : Nat} (hdisj : ∀ x, V1 x → V2 x → x = m) (hbare : ∀ e, ¬ R1 m e) (r1 : Ranked R1)
    (r2 : Ranked R2) : Ranked (both R1 R2) := by
  classical
  obtain ⟨f1, B1, hB1, hf1⟩ := r1
  obtain ⟨f2, B2, hB2, hf2⟩ := r2
  refine ⟨fun x => if V2 x then f2 x else f1 x + (B2 + 1), B1 + B2 + 1, ?_, ?_⟩
  · intro x
    have := hB1 x
    have := hB2 x
    dsimp only
    split <;> omega
  · intro x e hr heps
    dsimp only
    rcases hr with hr | hr
    · have hx : ¬ V2 x := by
        intro hv
        have := hdisj x (h1 _ _ hr).1 hv
        subst this
        exact hbare e hr
      rw [if_neg hx]
      have := hf1 x e hr heps
      have := hB2 e.dest
      split <;> omega
    · rw [if_pos (h2 _ _ hr).1, if_pos (h2 _ _ hr).2]
      exact hf2 x e hr heps

theorem alone_join {R1 R2 : Edges} {V1 V2 : Nat → Prop} (h1 : Within R1 V1) (h2 : Within R2 V2)
    {m : Nat} (hdisj : ∀ x, V1 x → V2 x → x = m) (hbare : ∀ e, ¬ R1 m e) (a1 : Alone R1)
    (a2 : Alone R2) : Alone (both R1 R2) := by
  have hno : ∀ x e e', R1 x e → ¬ R2 x e' := by
    intro x e e' hr hr'
    have := hdisj x (h1 _ _ hr).1 (h2 _ _ hr').1
    subst this
    exact hbare e hr
  intro x e e' hr hr'
  rcases hr with hr | hr <;> rcases hr' with hr' | hr'
  · exact a1 x e e' hr hr'
  · exact absurd hr' (hno x e e' hr)
  · exact absurd hr (hno x e' e hr')
  · exact a2 x e e' hr hr'

/-- What a construction adds before the last part: the edges `R` from `s` to `m`, where the last part
starts, and edges from the states `T` to the state `k`. -/
structure Pre (f f' : Fsm) (s m : Nat) (R : Edges) (T : Nat → Prop) (k : Nat) : Prop where
  raw : Raw f'
  edges : ∀ x e, HasEdge f' x e ↔ HasEdge f x e ∨ R x e ∨ (T x ∧ e = ⟨true, k, .null⟩)
  within : Within R (Nodes s f.states.length f'.states.length)
  mid : Nodes s f.states.length f'.states.length m
  le : f.states.length ≤ f'.states.length
  bare : ∀ e, ¬ R m e
  marks : ∀ x, T x → f.states.length ≤ x ∧ x < f'.states.length ∧ x ≠ m
  markFinal : ∀ x e, T x → R x e → e.eps = false
  alone : Alone R
  ranked : Ranked R

theorem Pre.start {f f' : Fsm} {s m : Nat} {R : Edges} {T : Nat → Prop} {k : Nat}
    (h : Pre f f' s m R T k) (hs : Start f s) : Start f' m where
  raw := h.raw
  lt := by
    have := hs.lt
    have := h.le
    rcases h.mid with h | h
    · rw [h]
      omega
    · exact h.2
  bare := by
    intro e he
    rcases (h.edges m e).mp he with h1 | h1 | h1
    · rcases h.mid with h | h
      · exact hs.bare e (h ▸ h1)
      · have := hasEdge_lt h1
        omega
    · exact h.bare e h1
    · exact (h.marks m h1.1).2.2 rfl

theorem Pre.nil {f : Fsm} {s : Nat} (hs : Start f s) (k : Nat) :
    Pre f f s s (fun _ _ => False) (fun _ => False) k where
  raw := hs.raw
  edges := by
    intro x e
    constructor
    · exact Or.inl
    · rintro (h | h | h)
      · exact h
      · exact h.elim
      · exact h.1.elim
  within := fun _ _ h => h.elim
  mid := Or.inl rfl
  le := Nat.le_refl _
  bare := fun _ h => h
  marks := fun _ h => h.elim
  markFinal := fun _ _ h => h.elim
  alone := fun _ _ _ h => h.elim
  ranked := ⟨fun _ => 0, 0, fun _ => Nat.le_refl _, fun _ _ h => h.elim⟩

/-- The nodes of two parts, the second one of which starts in a node of the first one. -/
theorem nodes_disj {s m n0 n1 n2 : Nat} (hs : s < n0) (h01 : n0 ≤ n1) (x : Nat)
    (h1 : Nodes s n0 n1 x) (h2 : Nodes m n1 n2 x) : x = m := by
  unfold Nodes at h1 h2
  omega

theorem nodes_sub {s m n0 n1 n2 : Nat} (hm : Nodes s n0 n1 m) (h01 : n0 ≤ n1) (h12 : n1 ≤ n2)
    (x : Nat) (h : Nodes m n1 n2 x) : Nodes s n0 n2 x := by
  unfold Nodes at *
  omega

theorem nodes_mono {s n0 n1 n2 : Nat} (h12 : n1 ≤ n2) (x : Nat) (h : Nodes s n0 n1 x) :
    Nodes s n0 n2 x := by
  unfold Nodes at *
  omega

theorem Pre.comp {f f1 f2 : Fsm} {s m n : Nat} {R1 R2 : Edges} {T1 T2 : Nat → Prop} {k : Nat}
    (hs : s < f.states.length) (h1 : Pre f f1 s m R1 T1 k) (h2 : Pre f1 f2 m n R2 T2 k) :
    Pre f f2 s n (both R1 R2) (fun x => T1 x ∨ T2 x) k := by
  have hle1 := h1.le
  have hle2 := h2.le
  have hdisj := fun x => nodes_disj (n2 := f2.states.length) (m := m) hs hle1 x
  refine ⟨h2.raw, ?_, ?_, nodes_sub h1.mid hle1 hle2 _ h2.mid, by omega, ?_, ?_, ?_,
    alone_join h1.within h2.within hdisj h1.bare h1.alone h2.alone,
    ranked_join h1.within h2.within hdisj h1.bare h1.ranked h2.ranked⟩
  · intro x e
    rw [h2.edges, h1.edges]
    unfold both
    constructor
    · rintro ((h | h | ⟨h, h'⟩) | h | ⟨h, h'⟩)
      · exact Or.inl h
      · exact Or.inr (Or.inl (Or.inl h))
      · exact Or.inr (Or.inr ⟨Or.inl h, h'⟩)
      · exact Or.inr (Or.inl (Or.inr h))
      · exact Or.inr (Or.inr ⟨Or.inr h, h'⟩)
    · rintro (h | (h | h) | ⟨h | h, h'⟩)
      · exact Or.inl (Or.inl h)
      · exact Or.inl (Or.inr (Or.inl h))
      · exact Or.inr (Or.inl h)
      · exact Or.inl (Or.inr (Or.inr ⟨h, h'⟩))
      · exact Or.inr (Or.inr ⟨h, h'⟩)
  · rintro x e (h | h)
    · exact ⟨nodes_mono hle2 _ (h1.within _ _ h).1, nodes_mono hle2 _ (h1.within _ _ h).2⟩
    · exact ⟨nodes_sub h1.mid hle1 hle2 _ (h2.within _ _ h).1,
        nodes_sub h1.mid hle1 hle2 _ (h2.within _ _ h).2⟩
  · rintro e (h | h)
    · have := hdisj n (h1.within _ _ h).1 h2.mid
      subst this
      exact h1.bare e h
    · exact h2.bare e h
  · rintro x (h | h)
    · obtain ⟨a, b, c⟩ := h1.marks x h
      refine ⟨a, by omega, ?_⟩
      rintro rfl
      exact c (hdisj x (Or.inr ⟨a, b⟩) h2.mid)
    · obtain ⟨a, b, c⟩ := h2.marks x h
      exact ⟨by omega, b, c⟩
  · rintro x e (h | h) (hr | hr)
    · exact h1.markFinal x e h hr
    · obtain ⟨a, b, c⟩ := h1.marks x h
      exact absurd (hdisj x (Or.inr ⟨a, b⟩) (h2.within _ _ hr).1) c
    · obtain ⟨a, b, c⟩ := h2.marks x h
      have := (h1.within _ _ hr).1
      have hx := hdisj x this (Or.inr ⟨a, b⟩)
      subst hx
      exact absurd hr (h1.bare e)
    · exact h2.markFinal x e h hr

/-- A part, an edge to a new state and perhaps an edge to the state `k`. -/
theorem Part.bridge {same : Guard → Guard → Bool} (hsame : SameOk same) {f f1 : Fsm} {s t : Nat}
    {N : Edges} (hs : Start f s) (h : Part f f1 s t N) (fusion mark : Bool) {k : Nat}
    (hk : mark = true → k < f.states.length) {f2 : Fsm}
    (hf2 : f2 = if mark then addEdge same f1 t k true .null else f1)
    (hfm : fusion = true → mark = false) :
    Pre f (addEdge same (addState f2).1 t (addState f2).2 fusion .null) s f1.states.length
      (both N (single t ⟨fusion, f1.states.length, .null⟩)) (fun x => mark = true ∧ x = t) k := by
  obtain ⟨ht0, ht1⟩ := h.fresh
  have hlt := hs.lt
  have hlen : f2.states.length = f1.states.length := by
    rw [hf2]
    split
    · rw [addEdge_length]
    · rfl
  have hraw2 : Raw f2 := by
    rw [hf2]
    split
    · rename_i hm
      exact addEdge_raw hsame h.raw _ _ _ (by have := hk hm; omega)
    · exact h.raw
  have hedge2 : ∀ x e, HasEdge f2 x e ↔ HasEdge f1 x e ∨
      ((mark = true ∧ x = t) ∧ e = ⟨true, k, .null⟩) := by
    intro x e
    rw [hf2]
    cases mark with
    | true =>
      rw [if_pos rfl, addEdge_edges hsame _ _ _ null_simple ht1]
      unfold single
      simp
    | false => simp
  have hs2 : (addState f2).2 = f1.states.length := by rw [← hlen]; rfl
  have hl3 : (addState f2).1.states.length = f1.states.length + 1 := by
    rw [addState_length, hlen]
  have hnew : ∀ e, ¬ N f1.states.length e := by
    intro e he
    have := (h.within _ _ he).1
    unfold Nodes at this
    omega
  refine ⟨?_, ?_, ?_, ?_, ?_, ?_, ?_, ?_, ?_, ?_⟩
  · rw [hs2]
    exact addEdge_raw hsame (addState_raw hraw2) _ _ _ (by omega)
  · intro x e
    rw [hs2, addEdge_edges hsame _ _ _ null_simple (by omega), addState_edges, hedge2, h.edges]
    unfold both
    constructor
    · rintro (((h | h) | h) | h)
      · exact Or.inl h
      · exact Or.inr (Or.inl (Or.inl h))
      · exact Or.inr (Or.inr h)
      · exact Or.inr (Or.inl (Or.inr h))
    · rintro (h | (h | h) | h)
      · exact Or.inl (Or.inl (Or.inl h))
      · exact Or.inl (Or.inl (Or.inr h))
      · exact Or.inr h
      · exact Or.inl (Or.inr h)
  · rw [addEdge_length, hl3]
    rintro x e (hr | ⟨rfl, rfl⟩)
    · exact ⟨nodes_mono (by omega) _ (h.within _ _ hr).1, nodes_mono (by omega) _ (h.within _ _ hr).2⟩
    · exact ⟨Or.inr ⟨ht0, by omega⟩, Or.inr ⟨by dsimp only; omega, by dsimp only; omega⟩⟩
  · rw [addEdge_length, hl3]
    exact Or.inr ⟨by omega, by omega⟩
  · rw [addEdge_length, hl3]
    omega
  · rintro e (hr | ⟨hr, _⟩)
    · exact hnew e hr
    · omega
  · rintro x ⟨_, rfl⟩
    rw [addEdge_length, hl3]
    exact ⟨ht0, by omega, by omega⟩
  · rintro x e ⟨hm, rfl⟩ (hr | ⟨_, rfl⟩)
    · exact h.final e hr
    · cases fusion with
      | true => rw [hfm rfl] at hm; cases hm
      | false => rfl
  · rintro x e e' (hr | ⟨rfl, rfl⟩) (hr' | ⟨hx, rfl⟩) he he' hg
    · exact h.alone x e e' hr hr' he he' hg
    · rw [hx] at hr
      rw [h.final e hr] at he
      cases he
    · rw [h.final e' hr'] at he'
      cases he'
    · rfl
  · obtain ⟨r, B, hB, hr⟩ := h.ranked
    refine ⟨fun x => if x = f1.states.length then 0 else r x + 1, B + 1, ?_, ?_⟩
    · intro x
      have := hB x
      dsimp only
      split <;> omega
    · rintro x e (hn | ⟨rfl, rfl⟩) he
      · dsimp only
        have h1 := (h.within _ _ hn).1
        have h2 := (h.within _ _ hn).2
        unfold Nodes at h1 h2
        rw [if_neg (by omega), if_neg (by omega)]
        have := hr x e hn he
        omega
      · dsimp only
        rw [if_pos rfl, if_neg (by omega)]
        omega

theorem Pre.join {f f1 f2 : Fsm} {s m t : Nat} {R N : Edges} {T : Nat → Prop} {k : Nat}
    (hs : s < f.states.length) (h1 : Pre f f1 s m R T k) (hT : ∀ x, ¬ T x)
    (h2 : Part f1 f2 m t N) : Part f f2 s t (both R N) := by
  have hle1 := h1.le
  obtain ⟨ht0, ht1⟩ := h2.fresh
  have hdisj := fun x => nodes_disj (n2 := f2.states.length) (m := m) hs hle1 x
  refine ⟨h2.raw, ?_, ?_, ⟨by omega, by omega⟩, ?_,
    alone_join h1.within h2.within hdisj h1.bare h1.alone h2.alone,
    ranked_join h1.within h2.within hdisj h1.bare h1.ranked h2.ranked⟩
  · intro x e
    rw [h2.edges, h1.edges]
    unfold both
    constructor
    · rintro ((h | h | ⟨h, _⟩) | h)
      · exact Or.inl h
      · exact Or.inr (Or.inl h)
      · exact absurd h (hT x)
      · exact Or.inr (Or.inr h)
    · rintro (h | h | h)
      · exact Or.inl (Or.inl h)
      · exact Or.inl (Or.inr (Or.inl h))
      · exact Or.inr h
  · rintro x e (h | h)
    · exact ⟨nodes_mono (by omega) _ (h1.within _ _ h).1, nodes_mono (by omega) _ (h1.within _ _ h).2⟩
    · exact ⟨nodes_sub h1.mid hle1 (by omega) _ (h2.within _ _ h).1,
        nodes_sub h1.mid hle1 (by omega) _ (h2.within _ _ h).2⟩
  · rintro e (h | h)
    · have := (h1.within _ _ h).1
      unfold Nodes at this
      omega
    · exact h2.final e h

/-- An edge from the end of a part to one of its states, to the next cycle. -/
theorem Part.back {same : Guard → Guard → Bool} (hsame : SameOk same) {f f1 : Fsm} {s t : Nat}
    {N : Edges} (hs : s < f.states.length) (h : Part f f1 s t N) {m : Nat}
    (hm : Nodes s f.states.length f1.states.length m) :
    Part f (addEdge same f1 t m false .null) s t (both N (single t ⟨false, m, .null⟩)) := by
  obtain ⟨ht0, ht1⟩ := h.fresh
  refine ⟨addEdge_raw hsame h.raw _ _ _ ?_, ?_, ?_, ?_, ?_, ?_, ?_⟩
  · unfold Nodes at hm
    omega
  · intro x e
    rw [addEdge_edges hsame _ _ _ null_simple ht1, h.edges]
    unfold both
    exact or_assoc
  · rw [addEdge_length]
    rintro x e (hr | ⟨rfl, rfl⟩)
    · exact h.within x e hr
    · exact ⟨Or.inr ⟨ht0, ht1⟩, hm⟩
  · rw [addEdge_length]
    exact ⟨ht0, ht1⟩
  · rintro e (hr | ⟨_, rfl⟩)
    · exact h.final e hr
    · rfl
  · rintro x e e' (hr | ⟨rfl, rfl⟩) (hr' | ⟨_, rfl⟩) he he' hg
    · exact h.alone x e e' hr hr' he he' hg
    · cases he'
    · cases he
    · rfl
  · obtain ⟨r, B, hB, hr⟩ := h.ranked
    refine ⟨r, B, hB, ?_⟩
    rintro x e (hn | ⟨rfl, rfl⟩) he
    · exact hr x e hn he
    · cases he

/-- Edges by way of the state `k` to the end. -/
theorem Pre.skip {same : Guard → Guard → Bool} (hsame : SameOk same) {f f1 f2 : Fsm} {s m t : Nat}
    {R N : Edges} {T : Nat → Prop} (hs : s < f.states.length)
    (h1 : Pre (addState f).1 f1 s m R T f.states.length) (h2 : Part f1 f2 m t N) :
    Part f (addEdge same f2 f.states.length t true .null) s t
      (both (both R N) (both (fun x e => T x ∧ e = ⟨true, f.states.length, .null⟩)
        (single f.states.length ⟨true, t, .null⟩))) := by
  have hle1 := h1.le
  have hl0 := addState_length f
  obtain ⟨ht0, ht1⟩ := h2.fresh
  have hs' : s < (addState f).1.states.length := by omega
  have hdisj := fun x => nodes_disj (n2 := f2.states.length) (m := m) hs' hle1 x
  have hkV1 : ¬ Nodes s (addState f).1.states.length f1.states.length f.states.length := by
    unfold Nodes
    omega
  have hkV2 : ¬ Nodes m f1.states.length f2.states.length f.states.length := by
    have := h1.mid
    unfold Nodes at *
    omega
  have hTV : ∀ x, T x → Nodes s (addState f).1.states.length f1.states.length x ∧
      ¬ Nodes m f1.states.length f2.states.length x := by
    intro x hx
    obtain ⟨a, b, c⟩ := h1.marks x hx
    exact ⟨Or.inr ⟨a, b⟩, fun hv => c (hdisj x (Or.inr ⟨a, b⟩) hv)⟩
  have hRk : ∀ x e, R x e → x ≠ f.states.length ∧ e.dest ≠ f.states.length := by
    intro x e hr
    exact ⟨fun h => hkV1 (h ▸ (h1.within _ _ hr).1), fun h => hkV1 (h ▸ (h1.within _ _ hr).2)⟩
  have hNk : ∀ x e, N x e → x ≠ f.states.length ∧ e.dest ≠ f.states.length := by
    intro x e hr
    exact ⟨fun h => hkV2 (h ▸ (h2.within _ _ hr).1), fun h => hkV2 (h ▸ (h2.within _ _ hr).2)⟩
  have hTk : ∀ x, T x → x ≠ f.states.length := fun x hx h => hkV1 (h ▸ (hTV x hx).1)
  refine ⟨addEdge_raw hsame h2.raw _ _ _ ht1, ?_, ?_, ?_, ?_, ?_, ?_⟩
  · intro x e
    rw [addEdge_edges hsame _ _ _ null_simple (by omega), h2.edges, h1.edges, addState_edges]
    unfold both
    constructor
    · rintro (((h | h | h) | h) | h)
      · exact Or.inl h
      · exact Or.inr (Or.inl (Or.inl h))
      · exact Or.inr (Or.inr (Or.inl h))
      · exact Or.inr (Or.inl (Or.inr h))
      · exact Or.inr (Or.inr (Or.inr h))
    · rintro (h | (h | h) | h | h)
      · exact Or.inl (Or.inl (Or.inl h))
      · exact Or.inl (Or.inl (Or.inr (Or.inl h)))
      · exact Or.inl (Or.inr h)
      · exact Or.inl (Or.inl (Or.inr (Or.inr h)))
      · exact Or.inr h
  · rw [addEdge_length]
    have hsub1 : ∀ x, Nodes s (addState f).1.states.length f1.states.length x →
        Nodes s f.states.length f2.states.length x := by
      intro x hx
      unfold Nodes at *
      omega
    have hsub2 : ∀ x, Nodes m f1.states.length f2.states.length x →
        Nodes s f.states.length f2.states.length x := by
      intro x hx
      have := h1.mid
      unfold Nodes at *
      omega
    rintro x e ((h | h) | ⟨h, rfl⟩ | ⟨rfl, rfl⟩)
    · exact ⟨hsub1 _ (h1.within _ _ h).1, hsub1 _ (h1.within _ _ h).2⟩
    · exact ⟨hsub2 _ (h2.within _ _ h).1, hsub2 _ (h2.within _ _ h).2⟩
    · exact ⟨hsub1 _ (hTV x h).1, Or.inr ⟨Nat.le_refl _, by dsimp only; omega⟩⟩
    · exact ⟨Or.inr ⟨Nat.le_refl _, by omega⟩, hsub2 _ (Or.inr ⟨ht0, ht1⟩)⟩
  · rw [addEdge_length]
    omega
  · rintro e ((h | h) | ⟨h, rfl⟩ | ⟨h, rfl⟩)
    · have := (h1.within _ _ h).1
      unfold Nodes at this
      omega
    · exact h2.final e h
    · obtain ⟨_, _, _⟩ := h1.marks _ h
      omega
    · omega
  · have ha := alone_join h1.within h2.within hdisj h1.bare h1.alone h2.alone
    have hno : ∀ x e, T x → both R N x e → e.eps = false := by
      rintro x e hx (h | h)
      · exact h1.markFinal x e hx h
      · exact absurd (h2.within _ _ h).1 (hTV x hx).2
    have hnk : ∀ x e, both R N x e → x ≠ f.states.length := by
      rintro x e (h | h)
      · exact (hRk _ _ h).1
      · exact (hNk _ _ h).1
    rintro x e e' (h | ⟨h, rfl⟩ | ⟨h, rfl⟩) (h' | ⟨h', rfl⟩ | ⟨h', rfl⟩) he he' hg
    · exact ha x e e' h h' he he' hg
    · rw [hno x e h' h] at he; cases he
    · exact absurd h' (hnk _ _ h)
    · rw [hno x e' h h'] at he'; cases he'
    · rfl
    · exact absurd h' (hTk _ h)
    · exact absurd h (hnk _ _ h')
    · exact absurd h (hTk _ h')
    · rfl
  · obtain ⟨f1', B1, hB1, hf1⟩ := h1.ranked
    obtain ⟨f2', B2, hB2, hf2⟩ := h2.ranked
    classical
    refine ⟨fun x => if Nodes m f1.states.length f2.states.length x then f2' x
      else if x = f.states.length then B2 + 1 else f1' x + (B2 + 2), B1 + B2 + 2, ?_, ?_⟩
    · intro x
      have := hB1 x
      have := hB2 x
      dsimp only
      split
      · omega
      · split <;> omega
    · rintro x e ((h | h) | ⟨h, rfl⟩ | ⟨rfl, rfl⟩) he
      · dsimp only
        have hx : ¬ Nodes m f1.states.length f2.states.length x := by
          intro hv
          have := hdisj x (h1.within _ _ h).1 hv
          subst this
          exact h1.bare e h
        rw [if_neg hx, if_neg (hRk _ _ h).1, if_neg (c := e.dest = f.states.length) (hRk _ _ h).2]
        have := hf1 x e h he
        have := hB2 e.dest
        split <;> omega
      · dsimp only
        rw [if_pos (h2.within _ _ h).1, if_pos (h2.within _ _ h).2]
        exact hf2 x e h he
      · dsimp only
        rw [if_neg hkV2, if_pos rfl, if_neg (hTV x h).2, if_neg (hTk x h)]
        omega
      · dsimp only
        have htV : Nodes m f1.states.length f2.states.length t := Or.inr ⟨ht0, ht1⟩
        rw [if_pos htV, if_neg hkV2, if_pos rfl]
        have := hB2 t
        omega

end Verif.Psl
