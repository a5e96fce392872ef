import Verif.Psl.BuildRepeat

/-!
# Repetitions that are not consecutive
-/

namespace Verif.Psl

variable {same : Guard → Guard → Bool}

theorem builds_lasts {b : Builder} {L : (Nat → Nat → Bool) → Nat → Nat → Prop} (h : Builds b L) :
    Lasts b L L := by
  intro f s hs
  obtain ⟨f', t, N, hb, hP, hL⟩ := h f s hs
  refine ⟨f', t, N, hb, hP, hL, ?_⟩
  intro w i j
  constructor
  · intro h
    exact ⟨j, h, .refl⟩
  · rintro ⟨c, h1, h2⟩
    exact (hL w i j).mp (Path.trans ((hL w i c).mpr h1) h2)

/-- The edges of one copy of `p[->1]`. -/
def gotoEdges (p s t u : Nat) : Edges :=
  both (single s ⟨true, t, .expr p⟩) (both (single s ⟨true, u, .not p⟩) (single u ⟨false, s, .null⟩))

theorem gotoEdges_lang {p s t u : Nat} (hst : s ≠ t) (hsu : s ≠ u) (htu : t ≠ u)
    (w : Nat → Nat → Bool) : Lang w (gotoEdges p s t u) s t (Goto w p) := by
  intro i j
  constructor
  · intro q
    have key : ∀ y j, Path w (gotoEdges p s t u) s i y j →
        i ≤ j ∧ (y = s → ∀ k, i ≤ k → k < j → w k p = false) ∧
        (y = u → ∀ k, i ≤ k → k ≤ j → w k p = false) ∧ (y = t → Goto w p i (j + 1)) := by
      intro y j q
      induction q with
      | refl =>
        refine ⟨Nat.le_refl _, fun _ k _ _ => by omega, fun h => absurd h hsu, fun h => absurd h hst⟩
      | step _ hr hg ih =>
        rename_i x j e q
        obtain ⟨h1, h2, h3, h4⟩ := ih
        rcases hr with ⟨rfl, rfl⟩ | ⟨rfl, rfl⟩ | ⟨rfl, rfl⟩
        · refine ⟨h1, fun h => absurd h.symm hst, fun h => absurd h htu, fun _ => ?_⟩
          refine ⟨by simp [cost]; omega, ?_, hg⟩
          intro k hk1 hk2
          exact h2 rfl k hk1 (by simp [cost] at hk2; omega)
        · refine ⟨h1, fun h => absurd h.symm hsu, fun _ k hk1 hk2 => ?_, fun h => absurd h.symm htu⟩
          rcases Nat.lt_or_ge k j with h | h
          · exact h2 rfl k hk1 h
          · have : k = j := by simp [cost] at hk2; omega
            subst this
            exact hg
        · refine ⟨by simp [cost]; omega, fun _ k hk1 hk2 => ?_, fun h => absurd h hsu,
            fun h => absurd h hst⟩
          exact h3 rfl k hk1 (by simp [cost] at hk2; omega)
    exact (key _ _ q).2.2.2 rfl
  · rintro ⟨h1, h2, h3⟩
    have hwait : ∀ n, i + n ≤ j → Path w (gotoEdges p s t u) s i s (i + n) := by
      intro n
      induction n with
      | zero => intro _; exact .refl
      | succ n ih =>
        intro hn
        have p1 := ih (by omega)
        have p2 := Path.step (e := ⟨true, u, .not p⟩) p1 (Or.inr (Or.inl ⟨rfl, rfl⟩))
          (h2 (i + n) (by omega) (by omega))
        exact Path.step (e := ⟨false, s, .null⟩) p2 (Or.inr (Or.inr ⟨rfl, rfl⟩)) trivial
    have p1 := hwait (j - i) (by omega)
    rw [Nat.add_sub_cancel' (by omega)] at p1
    exact Path.step (e := ⟨true, t, .expr p⟩) p1 (Or.inl ⟨rfl, rfl⟩) h3

theorem goto_ok (hsame : SameOk same) (p : Nat) {f : Fsm} {s : Nat} (hs : Start f s) :
    ∃ f' t u, copy same (buildExpr same p) true f s = some (f', t) ∧
      Part f f' s t (gotoEdges p s t u) ∧ s ≠ t ∧ s ≠ u ∧ t ≠ u := by
  obtain ⟨f1, t, hb, hP, hts, hlen, hfr, hst, _⟩ := buildExpr_ok hsame p hs
  have hslt := hs.lt
  obtain ⟨ht0, ht1⟩ := hP.fresh
  have hl1 := addState_length f1
  have hels : elseGuard (addState f1).1 s = some (.not p, f1.fresh) := by
    unfold elseGuard
    rw [addState_get f1 (by omega), hst]
    rfl
  refine ⟨addEdge same (addEdge same { (addState f1).1 with fresh := f1.fresh } s (addState f1).2
    true (.not p)) (addState f1).2 s false .null, t, f1.states.length, ?_, ?_, by omega, by omega,
    by omega⟩
  · unfold copy
    rw [hb]
    dsimp only
    rw [if_pos rfl]
    unfold addWait
    rw [hels]
  · have h2 : (addState f1).2 = f1.states.length := rfl
    rw [h2]
    have hrawA : Raw { (addState f1).1 with fresh := f1.fresh } := addState_raw hP.raw
    have hedA : ∀ x e, HasEdge { (addState f1).1 with fresh := f1.fresh } x e ↔ HasEdge f1 x e :=
      addState_edges f1
    have hlA : ({ (addState f1).1 with fresh := f1.fresh } : Fsm).states.length =
      f1.states.length + 1 := hl1
    generalize ({ (addState f1).1 with fresh := f1.fresh } : Fsm) = fA at hrawA hedA hlA ⊢
    have hlB := addEdge_length same fA s f1.states.length true (.not p)
    refine ⟨?_, ?_, ?_, ?_, ?_, ?_, ?_⟩
    · exact addEdge_raw hsame (addEdge_raw hsame hrawA _ _ _ (by omega)) _ _ _ (by omega)
    · intro x e
      rw [addEdge_edges hsame _ _ _ null_simple (by omega),
        addEdge_edges hsame _ _ _ (not_simple p) (by omega), hedA, hP.edges]
      unfold gotoEdges both
      rw [or_assoc, or_assoc]
    · rw [addEdge_length, addEdge_length, hlA]
      unfold Nodes
      rintro x e (⟨rfl, rfl⟩ | ⟨rfl, rfl⟩ | ⟨rfl, rfl⟩)
      · exact ⟨Or.inl rfl, Or.inr ⟨ht0, by dsimp only; omega⟩⟩
      · exact ⟨Or.inl rfl, Or.inr ⟨by dsimp only; omega, by dsimp only; omega⟩⟩
      · exact ⟨Or.inr ⟨by omega, by omega⟩, Or.inl rfl⟩
    · rw [addEdge_length, addEdge_length, hlA]
      omega
    · rintro e (⟨h, rfl⟩ | ⟨h, rfl⟩ | ⟨_, rfl⟩)
      · exact absurd h hts
      · exact absurd h hts
      · rfl
    · rintro x e e' (⟨_, rfl⟩ | ⟨_, rfl⟩ | ⟨_, rfl⟩) _ he _ hg
      · cases hg
      · cases hg
      · cases he
    · refine ⟨fun x => if x = s then 1 else 0, 1, fun x => by dsimp only; split <;> omega, ?_⟩
      rintro x e (⟨rfl, rfl⟩ | ⟨rfl, rfl⟩ | ⟨_, rfl⟩) he
      · dsimp only
        rw [if_neg (by omega), if_pos rfl]
        omega
      · dsimp only
        rw [if_neg (by omega), if_pos rfl]
        omega
      · cases he

theorem goto_builds (hsame : SameOk same) (p : Nat) :
    Builds (copy same (buildExpr same p) true) (fun w => Goto w p) := by
  intro f s hs
  obtain ⟨f', t, u, hb, hP, h1, h2, h3⟩ := goto_ok hsame p hs
  exact ⟨f', t, _, hb, hP, fun w => gotoEdges_lang h1 h2 h3 w⟩

/-! ## Cycles after the last one -/

/-- The edges that `[=]` adds after the last copy. -/
def trailEdges (p t a d u : Nat) : Edges :=
  both (single t ⟨false, a, .null⟩) (both (single a ⟨true, d, .expr p⟩)
    (both (single a ⟨true, u, .not p⟩) (both (single u ⟨false, a, .null⟩)
      (single u ⟨true, t, .null⟩))))

theorem trailEdges_lang {p t a d u : Nat} (hta : t ≠ a) (htd : t ≠ d) (htu : t ≠ u) (had : a ≠ d)
    (hau : a ≠ u) (hdu : d ≠ u) (w : Nat → Nat → Bool) (i j : Nat) :
    Path w (trailEdges p t a d u) t i t j ↔ Quiet w p (i + 1) (j + 1) := by
  constructor
  · intro q
    have key : ∀ y j, Path w (trailEdges p t a d u) t i y j →
        i ≤ j ∧ (y = t → ∀ k, i < k → k ≤ j → w k p = false) ∧
        (y = a → ∀ k, i < k → k < j → w k p = false) ∧
        (y = u → ∀ k, i < k → k ≤ j → w k p = false) := by
      intro y j q
      induction q with
      | refl =>
        exact ⟨Nat.le_refl _, fun _ k _ _ => by omega, fun h => absurd h hta,
          fun h => absurd h htu⟩
      | step _ hr hg ih =>
        rename_i x j e q
        obtain ⟨h1, h2, h3, h4⟩ := ih
        rcases hr with ⟨rfl, rfl⟩ | ⟨rfl, rfl⟩ | ⟨rfl, rfl⟩ | ⟨rfl, rfl⟩ | ⟨rfl, rfl⟩
        · refine ⟨by simp [cost]; omega, fun h => absurd h.symm hta, fun _ k hk1 hk2 => ?_,
            fun h => absurd h hau⟩
          exact h2 rfl k hk1 (by simp [cost] at hk2; omega)
        · exact ⟨by simp [cost]; omega, fun h => absurd h.symm htd, fun h => absurd h.symm had,
            fun h => absurd h hdu⟩
        · refine ⟨h1, fun h => absurd h.symm htu, fun h => absurd h.symm hau, fun _ k hk1 hk2 => ?_⟩
          rcases Nat.lt_or_ge k j with h | h
          · exact h3 rfl k hk1 h
          · have : k = j := by simp [cost] at hk2; omega
            subst this
            exact hg
        · refine ⟨by simp [cost]; omega, fun h => absurd h.symm hta, fun _ k hk1 hk2 => ?_,
            fun h => absurd h hau⟩
          exact h4 rfl k hk1 (by simp [cost] at hk2; omega)
        · refine ⟨h1, fun _ k hk1 hk2 => ?_, fun h => absurd h hta, fun h => absurd h htu⟩
          exact h4 rfl k hk1 (by simpa [cost] using hk2)
    obtain ⟨h1, h2, _⟩ := key _ _ q
    exact ⟨by omega, fun k hk1 hk2 => h2 rfl k (by omega) (by omega)⟩
  · rintro ⟨h1, h2⟩
    have hgo : ∀ n, i + 1 + n ≤ j →
        Path w (trailEdges p t a d u) t i u (i + 1 + n) := by
      intro n
      induction n with
      | zero =>
        intro hn
        have p1 := Path.step (w := w) (R := trailEdges p t a d u) (s := t) (i := i)
          (e := ⟨false, a, .null⟩) .refl (Or.inl ⟨rfl, rfl⟩) trivial
        exact Path.step (e := ⟨true, u, .not p⟩) p1 (Or.inr (Or.inr (Or.inl ⟨rfl, rfl⟩)))
          (h2 (i + 1) (by omega) (by omega))
      | succ n ih =>
        intro hn
        have p1 := ih (by omega)
        have p2 := Path.step (e := ⟨false, a, .null⟩) p1
          (Or.inr (Or.inr (Or.inr (Or.inl ⟨rfl, rfl⟩)))) trivial
        exact Path.step (e := ⟨true, u, .not p⟩) p2 (Or.inr (Or.inr (Or.inl ⟨rfl, rfl⟩)))
          (h2 (i + 1 + n + 1) (by omega) (by omega))
    by_cases hij : i = j
    · subst hij
      exact .refl
    · have p1 := hgo (j - (i + 1)) (by omega)
      rw [Nat.add_sub_cancel' (by omega)] at p1
      exact Path.step (e := ⟨true, t, .null⟩) p1 (Or.inr (Or.inr (Or.inr (Or.inr ⟨rfl, rfl⟩))))
        trivial

theorem addTrail_ok (hsame : SameOk same) (p : Nat) {f f1 : Fsm} {s t : Nat} {N : Edges}
    (hs : Start f s) (h : Part f f1 s t N) (hbare : ∀ e, ¬ N t e) :
    ∃ f', addTrail same p f1 t = some f' ∧
      Part f f' s t (both N (trailEdges p t f1.states.length (f1.states.length + 1)
        (f1.states.length + 2))) := by
  have hslt := hs.lt
  obtain ⟨ht0, ht1⟩ := h.fresh
  obtain ⟨n, hn⟩ : ∃ n, n = f1.states.length := ⟨_, rfl⟩
  obtain ⟨f3, hf3⟩ : ∃ f3, f3 = (addState (addState (addState f1).1).1).1 := ⟨_, rfl⟩
  have hl3 : f3.states.length = n + 3 := by
    rw [hf3, addState_length, addState_length, addState_length, hn]
  have hraw3 : Raw f3 := by
    rw [hf3]
    exact addState_raw (addState_raw (addState_raw h.raw))
  have hed3 : ∀ x e, HasEdge f3 x e ↔ HasEdge f1 x e := by
    intro x e
    rw [hf3, addState_edges, addState_edges, addState_edges]
  have hget3 : f3.states[n]? = some ⟨[], .null, false⟩ := by
    rw [hf3, addState_get _ (by rw [addState_length, addState_length, hn]; omega),
      addState_get _ (by rw [addState_length, hn]; omega), hn, addState_new]
  obtain ⟨f4, hf4⟩ : ∃ f4, f4 =
      addEdge same (addEdge same f3 t n false .null) n (n + 1) true (.expr p) := ⟨_, rfl⟩
  have hl4 : f4.states.length = n + 3 := by
    rw [hf4, addEdge_length, addEdge_length, hl3]
  have hraw4 : Raw f4 := by
    rw [hf4]
    exact addEdge_raw hsame (addEdge_raw hsame hraw3 _ _ _ (by omega)) _ _ _
      (by rw [addEdge_length]; omega)
  have hed4 : ∀ x e, HasEdge f4 x e ↔ (HasEdge f1 x e ∨ single t ⟨false, n, .null⟩ x e) ∨
      single n ⟨true, n + 1, .expr p⟩ x e := by
    intro x e
    rw [hf4, addEdge_edges hsame _ _ _ (expr_simple p) (by rw [addEdge_length]; omega),
      addEdge_edges hsame _ _ _ null_simple (by omega), hed3]
  have hels : elseGuard f4 n = some (.not p, f4.fresh) := by
    have hg : (addEdge same f3 t n false .null).states[n]? = some ⟨[], .null, false⟩ := by
      rw [← hget3]
      exact modify_ne _ _ (by omega)
    have hg4 : f4.states[n]? = some ⟨[⟨true, n + 1, .expr p⟩], .null, false⟩ := by
      rw [hf4]
      exact modify_self _ hg
    unfold elseGuard
    rw [hg4]
    rfl
  have hraw5 : Raw { f4 with fresh := f4.fresh } := hraw4
  refine ⟨addEdge same (addEdge same (addEdge same f4 n (n + 2) true (.not p))
      (n + 2) n false .null) (n + 2) t true .null, ?_, ?_⟩
  · unfold addTrail
    dsimp only
    rw [← hn, ← hf3, ← hf4, hels]
  · rw [← hn]
    have hW2 : Within (trailEdges p t n (n + 1) (n + 2)) (Nodes t n (n + 3)) := by
      unfold Nodes
      rintro x e (⟨rfl, rfl⟩ | ⟨rfl, rfl⟩ | ⟨rfl, rfl⟩ | ⟨rfl, rfl⟩ | ⟨rfl, rfl⟩) <;>
        dsimp only <;> constructor <;> omega
    have hdisj := fun x => nodes_disj (n2 := n + 3) (m := t) hslt
      (show f.states.length ≤ n by omega) x
    have hW1 : Within N (Nodes s f.states.length n) := by
      rw [hn]
      exact h.within
    have hlen : (addEdge same (addEdge same (addEdge same f4 n (n + 2) true (.not p))
        (n + 2) n false .null) (n + 2) t true .null).states.length = n + 3 := by
      rw [addEdge_length, addEdge_length, addEdge_length, hl4]
    refine ⟨?_, ?_, ?_, ?_, ?_, ?_, ?_⟩
    · refine addEdge_raw hsame (addEdge_raw hsame (addEdge_raw hsame hraw4 _ _ _ (by omega)) _ _ _
        ?_) _ _ _ ?_
      · rw [addEdge_length]; omega
      · rw [addEdge_length, addEdge_length]; omega
    · intro x e
      rw [addEdge_edges hsame _ _ _ null_simple (by rw [addEdge_length, addEdge_length]; omega),
        addEdge_edges hsame _ _ _ null_simple (by rw [addEdge_length]; omega),
        addEdge_edges hsame _ _ _ (not_simple p) (by omega), hed4, h.edges]
      unfold trailEdges both
      simp only [or_assoc]
    · rw [hlen]
      rintro x e (hr | hr)
      · exact ⟨nodes_mono (by omega) _ (hW1 _ _ hr).1, nodes_mono (by omega) _ (hW1 _ _ hr).2⟩
      · have hm : Nodes s f.states.length n t := Or.inr ⟨ht0, by omega⟩
        exact ⟨nodes_sub hm (by omega) (by omega) _ (hW2 _ _ hr).1,
          nodes_sub hm (by omega) (by omega) _ (hW2 _ _ hr).2⟩
    · rw [hlen]
      omega
    · rintro e (hr | ⟨_, rfl⟩ | ⟨h, rfl⟩ | ⟨h, rfl⟩ | ⟨_, rfl⟩ | ⟨h, rfl⟩)
      · exact absurd hr (hbare e)
      · rfl
      · omega
      · omega
      · rfl
      · omega
    · refine alone_join hW1 hW2 hdisj hbare h.alone ?_
      rintro x e e' (⟨_, rfl⟩ | ⟨_, rfl⟩ | ⟨_, rfl⟩ | ⟨_, rfl⟩ | ⟨h1, rfl⟩) h2 he he' hg
      · cases he
      · cases hg
      · cases hg
      · cases he
      · rcases h2 with ⟨h2, rfl⟩ | ⟨h2, rfl⟩ | ⟨h2, rfl⟩ | ⟨h2, rfl⟩ | ⟨h2, rfl⟩
        · cases he'
        · omega
        · omega
        · cases he'
        · rfl
    · refine ranked_join hW1 hW2 hdisj hbare h.ranked ?_
      refine ⟨fun x => if x = n then 2 else if x = n + 2 then 1 else 0, 2, ?_, ?_⟩
      · intro x
        dsimp only
        split
        · omega
        · split <;> omega
      · rintro x e (⟨_, rfl⟩ | ⟨rfl, rfl⟩ | ⟨rfl, rfl⟩ | ⟨_, rfl⟩ | ⟨rfl, rfl⟩) he
        · cases he
        · dsimp only
          rw [if_neg (by omega), if_neg (by omega), if_pos rfl]
          omega
        · dsimp only
          rw [if_neg (by omega), if_pos rfl, if_pos rfl]
          omega
        · cases he
        · dsimp only
          rw [if_neg (by omega), if_neg (by omega), if_neg (by omega), if_pos rfl]
          omega

/-- The last copy of `[=]`. -/
theorem equal_lasts (hsame : SameOk same) (p : Nat) :
    Lasts (lastCopy same (copy same (buildExpr same p) true) (some p) true) (fun w => Goto w p)
      (fun w i j => ∃ m, Goto w p i m ∧ Quiet w p m j) := by
  intro f s hs
  obtain ⟨f2, t, u, hb, hP, h1, h2, h3⟩ := goto_ok hsame p hs
  have hslt := hs.lt
  obtain ⟨ht0, ht1⟩ := hP.fresh
  have hbare : ∀ e, ¬ gotoEdges p s t u t e := by
    rintro e (⟨h, _⟩ | ⟨h, _⟩ | ⟨h, _⟩)
    · exact h1 h.symm
    · exact h1 h.symm
    · exact h3 h
  obtain ⟨f', he, hP'⟩ := addTrail_ok hsame p hs hP hbare
  have hW2 : Within (trailEdges p t f2.states.length (f2.states.length + 1) (f2.states.length + 2))
      (Nodes t f2.states.length (f2.states.length + 3)) := by
    unfold Nodes
    rintro x e (⟨rfl, rfl⟩ | ⟨rfl, rfl⟩ | ⟨rfl, rfl⟩ | ⟨rfl, rfl⟩ | ⟨rfl, rfl⟩) <;>
      dsimp only <;> constructor <;> omega
  have hdisj := fun x => nodes_disj (n2 := f2.states.length + 3) (m := t) hslt
    (show f.states.length ≤ f2.states.length by omega) x
  have htrail := fun w => trailEdges_lang (p := p) (t := t) (a := f2.states.length)
    (d := f2.states.length + 1) (u := f2.states.length + 2) (by omega) (by omega) (by omega)
    (by omega) (by omega) (by omega) w
  have hfrom : ∀ w c j, Path w (both (gotoEdges p s t u) (trailEdges p t f2.states.length
      (f2.states.length + 1) (f2.states.length + 2))) t c t j ↔ Quiet w p (c + 1) (j + 1) := by
    intro w c j
    rw [path_join hP.within hW2 hdisj hbare (Or.inr ⟨ht0, ht1⟩) (Or.inl rfl) (Or.inl rfl)]
    constructor
    · rintro ⟨c', q1, q2⟩
      have hc : c' = c := by
        have key : ∀ y c', Path w (gotoEdges p s t u) t c y c' → y = t ∧ c' = c := by
          intro y c' q
          induction q with
          | refl => exact ⟨rfl, rfl⟩
          | step _ hr _ ih => exact absurd (ih.1 ▸ hr) (hbare _)
        exact (key _ _ q1).2
      subst hc
      exact (htrail w c' j).mp q2
    · intro h
      exact ⟨c, .refl, (htrail w c j).mpr h⟩
  have hlang : ∀ w i j, (∃ m, Goto w p i m ∧ Quiet w p m (j + 1)) ↔
      ∃ c, Goto w p i (c + 1) ∧ Quiet w p (c + 1) (j + 1) := by
    intro w i j
    constructor
    · rintro ⟨m, q1, q2⟩
      have := q1.1
      obtain ⟨m, rfl⟩ : ∃ c, m = c + 1 := ⟨m - 1, by omega⟩
      exact ⟨m, q1, q2⟩
    · rintro ⟨c, q1, q2⟩
      exact ⟨c + 1, q1, q2⟩
  refine ⟨f', t, _, ?_, hP', ?_, ?_⟩
  · unfold lastCopy
    rw [hb]
    dsimp only
    rw [if_pos rfl, he]
  · intro w i j
    rw [path_join hP.within hW2 hdisj hbare (Or.inl rfl) (Or.inl rfl) (Or.inl rfl)]
    refine Iff.trans ?_ (hlang w i j).symm
    constructor
    · rintro ⟨c, q1, q2⟩
      exact ⟨c, (gotoEdges_lang h1 h2 h3 w i c).mp q1, (htrail w c j).mp q2⟩
    · rintro ⟨c, q1, q2⟩
      exact ⟨c, (gotoEdges_lang h1 h2 h3 w i c).mpr q1, (htrail w c j).mpr q2⟩
  · intro w i j
    refine (hlang w i j).trans ?_
    constructor
    · rintro ⟨c, q1, q2⟩
      exact ⟨c, q1, (hfrom w c j).mpr q2⟩
    · rintro ⟨c, q1, q2⟩
      exact ⟨c, q1, (hfrom w c j).mp q2⟩

end Verif.Psl
