import Verif.Psl.BuildWait

/-!
# All sequences
-/

namespace Verif.Psl

variable {same : Guard → Guard → Bool}

theorem pow_lt {M : Nat → Nat → Prop} (h : ∀ i j, M i j → i < j) (n i j : Nat)
    (hp : Pow M n i j) : i + n ≤ j := by
  induction n generalizing i with
  | zero =>
    have hp : i = j := hp
    omega
  | succ n ih =>
    obtain ⟨k, h1, h2⟩ := hp
    have := h _ _ h1
    have := ih k h2
    omega

theorem repeated_lt {M : Nat → Nat → Prop} (h : ∀ i j, M i j → i < j) {low : Nat} (hl : 1 ≤ low)
    (high : Option Nat) (i j : Nat) (hp : Repeated M low high i j) : i < j := by
  obtain ⟨n, h1, _, h2⟩ := hp
  have := pow_lt h n i j h2
  omega

mutual

/-- A regular sequence describes at least one cycle. -/
theorem match_lt (w : Nat → Nat → Bool) : ∀ (p : Psl), Regular p → ∀ i j, Match w p i j → i < j
  | .expr _, _, i, j, h => by
    rw [Match] at h
    omega
  | .sere false ops, hr, i, j, h => by
    rw [Regular] at hr
    rw [Match] at h
    exact matchCat_lt w ops hr.2 hr.1 i j h
  | .sere true ops, hr, i, j, h => by
    rw [Regular] at hr
    rw [Match] at h
    exact matchFuse_lt w ops hr.2 hr.1 i j h
  | .conj _ _, hr, _, _, _ => by
    rw [Regular] at hr
    exact hr.elim
  | .rep kind count value, hr, i, j, h => by
    rw [Regular] at hr
    obtain ⟨h1, _, _, h4, _⟩ := hr
    cases kind with
    | plus =>
      rw [Match] at h
      exact repeated_lt (match_lt w value h4) h1 _ _ _ h
    | times =>
      rw [Match] at h
      exact repeated_lt (match_lt w value h4) h1 _ _ _ h
    | goto =>
      rw [Match] at h
      obtain ⟨p, _, h⟩ := h
      exact repeated_lt (fun _ _ h => h.1) h1 _ _ _ h
    | equal =>
      rw [Match] at h
      obtain ⟨p, _, m, h, hq⟩ := h
      have := repeated_lt (fun _ _ h => h.1) h1 _ _ _ h
      have := hq.1
      omega
  | .next _ _, hr, _, _, _ => by
    rw [Regular] at hr
    exact hr.elim
  | .suffix _ _ _, hr, _, _, _ => by
    rw [Regular] at hr
    exact hr.elim

theorem matchCat_lt (w : Nat → Nat → Bool) : ∀ (ps : List Psl), RegularAll ps → ps ≠ [] →
    ∀ i j, MatchCat w ps i j → i < j
  | [], _, h, _, _, _ => absurd rfl h
  | [p], hr, _, i, j, h => by
    rw [RegularAll] at hr
    rw [MatchCat] at h
    obtain ⟨k, h1, h2⟩ := h
    rw [MatchCat] at h2
    have := match_lt w p hr.1 i k h1
    omega
  | p :: q :: ps, hr, _, i, j, h => by
    rw [RegularAll] at hr
    rw [MatchCat] at h
    obtain ⟨k, h1, h2⟩ := h
    have := match_lt w p hr.1 i k h1
    have := matchCat_lt w (q :: ps) hr.2 (by simp) k j h2
    omega

theorem matchFuse_lt (w : Nat → Nat → Bool) : ∀ (ps : List Psl), RegularAll ps → ps ≠ [] →
    ∀ i j, MatchFuse w ps i j → i < j
  | [], _, h, _, _, _ => absurd rfl h
  | [p], hr, _, i, j, h => by
    rw [RegularAll] at hr
    rw [MatchFuse] at h
    exact match_lt w p hr.1 i j h
  | p :: q :: ps, hr, _, i, j, h => by
    rw [MatchFuse] at h
    · obtain ⟨k, _, h1, h2, _⟩ := h
      omega
    · simp

end

theorem builds_congr {b : Builder} {L M : (Nat → Nat → Bool) → Nat → Nat → Prop}
    (h : ∀ w i j, L w i j ↔ M w i j) (hb : Builds b L) : Builds b M := by
  intro f s hs
  obtain ⟨f', t, N, h1, h2, h3⟩ := hb f s hs
  exact ⟨f', t, N, h1, h2, fun w i j => (h3 w i j).trans (h w i (j + 1))⟩

/-- Copies and a last one of the same kind. -/
theorem repLang_same {L : (Nat → Nat → Bool) → Nat → Nat → Prop} {low : Nat} (hl : 1 ≤ low)
    (high : Option Nat) (w : Nat → Nat → Bool) (i j : Nat) :
    RepLang L L low high w i j ↔ Repeated (L w) low high i j := by
  constructor
  · rintro ⟨n, c, h1, h2, h3, h4⟩
    exact ⟨n + 1, h1, h2, (pow_back n i j).mpr ⟨c, h3, h4⟩⟩
  · rintro ⟨n, h1, h2, h3⟩
    obtain ⟨n, rfl⟩ : ∃ n', n = n' + 1 := ⟨n - 1, by omega⟩
    obtain ⟨c, h4, h5⟩ := (pow_back n i j).mp h3
    exact ⟨n, c, h1, h2, h4, h5⟩

theorem repLang_equal {p low : Nat} (hl : 1 ≤ low) (high : Option Nat) (w : Nat → Nat → Bool)
    (i j : Nat) :
    RepLang (fun w => Goto w p) (fun w i j => ∃ m, Goto w p i m ∧ Quiet w p m j) low high w i j ↔
      ∃ m, Repeated (Goto w p) low high i m ∧ Quiet w p m j := by
  constructor
  · rintro ⟨n, c, h1, h2, h3, m, h4, h5⟩
    exact ⟨m, ⟨n + 1, h1, h2, (pow_back n i m).mpr ⟨c, h3, h4⟩⟩, h5⟩
  · rintro ⟨m, ⟨n, h1, h2, h3⟩, h5⟩
    obtain ⟨n, rfl⟩ : ∃ n', n = n' + 1 := ⟨n - 1, by omega⟩
    obtain ⟨c, h6, h7⟩ := (pow_back n i m).mp h3
    exact ⟨n, c, h1, h2, h6, m, h7, h5⟩

/-- Waiting after cycles in which the expression is false. -/
theorem quiet_goto {w : Nat → Nat → Bool} {p i k j : Nat} (h1 : Quiet w p i k)
    (h2 : Goto w p k j) : Goto w p i j := by
  obtain ⟨a1, a2⟩ := h1
  obtain ⟨b1, b2, b3⟩ := h2
  refine ⟨by omega, ?_, b3⟩
  intro m hm1 hm2
  rcases Nat.lt_or_ge m k with h | h
  · exact a2 m hm1 h
  · exact b2 m h hm2

theorem bounds_of {kind : RepKind} {count : Count}
    (hl : ∀ h, highOf kind count = some h → lowOf kind count ≤ h)
    (hn : ∀ n, count = .exact n → n < 2147483647) (hg : kind = .goto → count ≠ .none) :
    (repeatBounds kind count).low = lowOf kind count ∧
    (if (repeatBounds kind count).infinite then none else some (repeatBounds kind count).high) =
      highOf kind count ∧
    (repeatBounds kind count).low ≤ (repeatBounds kind count).high ∧
    ((repeatBounds kind count).infinite = true →
      (repeatBounds kind count).high = (repeatBounds kind count).low) := by
  have hlt : ∀ n, count = .exact n → ¬ n = 2147483647 := fun n h => by have := hn n h; omega
  cases count with
  | none =>
    cases kind <;> simp_all [repeatBounds, countRange, lowOf, highOf]
  | exact n =>
    have := hlt n rfl
    cases kind <;> simp_all [repeatBounds, countRange, lowOf, highOf]
  | range l h =>
    by_cases hh : h = 2147483647
    · cases kind <;> simp_all [repeatBounds, countRange, lowOf, highOf]
    · cases kind <;> simp_all [repeatBounds, countRange, lowOf, highOf]

theorem copy_plain (same : Guard → Guard → Bool) (b : Builder) : copy same b false = b := by
  funext f s
  unfold copy
  cases b f s with
  | none => rfl
  | some r => rfl

theorem lastCopy_plain (same : Guard → Guard → Bool) (b : Builder) (v : Option Nat) :
    lastCopy same b v false = b := by
  funext f s
  unfold lastCopy
  cases b f s with
  | none => rfl
  | some r => rfl

theorem expr_builds (hsame : SameOk same) (p : Nat) :
    Builds (buildExpr same p) (fun w i j => j = i + 1 ∧ w i p = true) := by
  intro f s hs
  obtain ⟨f', t, hb, hP, _, _, _, _, hL⟩ := buildExpr_ok hsame p hs
  exact ⟨f', t, _, hb, hP, hL⟩

theorem asExpr_eq {v : Psl} {p : Nat} (h : v.asExpr = some p) : v = .expr p := by
  cases v with
  | expr q => cases h; rfl
  | sere _ _ => cases h
  | conj _ _ => cases h
  | rep _ _ _ => cases h
  | next _ _ => cases h
  | suffix _ _ _ => cases h

theorem rep_builds (hsame : SameOk same) (fuel : Nat) (kind : RepKind) (count : Count) (value : Psl)
    (hr : Regular (.rep kind count value))
    (ih : Builds (build same fuel value) (fun w => Match w value)) :
    Builds (build same fuel (.rep kind count value)) (fun w => Match w (.rep kind count value)) := by
  have hr' := hr
  rw [Regular] at hr
  obtain ⟨h1, h2, h3, h4, h5⟩ := hr
  have hg : kind = .goto → count ≠ .none := by
    rintro rfl
    rcases h5 with h | h | ⟨⟨_, h⟩ | h, _⟩
    · cases h
    · cases h
    · exact h
    · cases h
  obtain ⟨b1, b2, b3, b4⟩ := bounds_of h2 h3 hg
  have hlow : 1 ≤ (repeatBounds kind count).low := by omega
  have hbu : build same fuel (.rep kind count value) =
      buildRepeat same (build same fuel value) value.asExpr (repeatBounds kind count) := by
    rw [build]
  rw [hbu]
  -- consecutive repetition
  have hplain : (repeatBounds kind count).noncon = false → (∀ w i j, Match w (.rep kind count value) i j
      ↔ Repeated (Match w value) (lowOf kind count) (highOf kind count) i j) →
      Builds (buildRepeat same (build same fuel value) value.asExpr (repeatBounds kind count))
        (fun w => Match w (.rep kind count value)) := by
    intro hnc hm
    have hcp : Builds (copy same (build same fuel value) (repeatBounds kind count).noncon)
        (fun w => Match w value) := by
      rw [hnc, copy_plain]
      exact ih
    refine builds_congr ?_ (buildRepeat_ok hsame hcp (M := fun w => Match w value) ?_
      (fun w i j => match_lt w value h4 i j) (fun _ _ _ h => h)
      (fun w i k j h h' => ⟨k, h, h'⟩) hlow b3 b4)
    · intro w i j
      rw [repLang_same hlow, b1, b2]
      exact (hm w i j).symm
    · have : ((repeatBounds kind count).noncon && !(repeatBounds kind count).gotoRep) = false := by
        rw [hnc]; rfl
      rw [this, lastCopy_plain]
      exact builds_lasts hcp
  rcases h5 with rfl | rfl | ⟨⟨rfl, _⟩ | rfl, p, hp⟩
  · exact hplain rfl (fun w i j => by rw [Match])
  · exact hplain rfl (fun w i j => by rw [Match])
  · have hv := asExpr_eq hp
    subst hv
    have hcp : Builds (copy same (build same fuel (.expr p)) (repeatBounds .goto count).noncon)
        (fun w => Goto w p) := by
      have : (repeatBounds .goto count).noncon = true := rfl
      rw [this]
      rw [build]
      exact goto_builds hsame p
    refine builds_congr ?_ (buildRepeat_ok hsame hcp (M := fun w => Goto w p) ?_
      (fun _ _ _ h => h.1) (fun _ _ _ h => h) (fun w i k j h h' => ⟨k, h, h'⟩) hlow b3 b4)
    · intro w i j
      rw [repLang_same hlow, b1, b2, Match]
      constructor
      · intro h
        exact ⟨p, rfl, h⟩
      · rintro ⟨q, hq, h⟩
        cases hq
        exact h
    · have : ((repeatBounds .goto count).noncon && !(repeatBounds .goto count).gotoRep) = false := rfl
      rw [this, lastCopy_plain]
      exact builds_lasts hcp
  · have hv := asExpr_eq hp
    subst hv
    have hnc : (repeatBounds .equal count).noncon = true := rfl
    have hcp : Builds (copy same (build same fuel (.expr p)) (repeatBounds .equal count).noncon)
        (fun w => Goto w p) := by
      rw [hnc]
      rw [build]
      exact goto_builds hsame p
    refine builds_congr ?_ (buildRepeat_ok hsame hcp
      (M := fun w i j => ∃ m, Goto w p i m ∧ Quiet w p m j) ?_
      (fun _ _ _ h => h.1) (fun _ _ j h => ⟨j, h, Nat.le_refl _, fun k _ _ => by omega⟩)
      ?_ hlow b3 b4)
    · intro w i j
      rw [repLang_equal hlow, b1, b2, Match]
      constructor
      · intro h
        exact ⟨p, rfl, h⟩
      · rintro ⟨q, hq, h⟩
        cases hq
        exact h
    · have : ((repeatBounds .equal count).noncon && !(repeatBounds .equal count).gotoRep) = true := rfl
      rw [this, hnc]
      rw [build]
      exact equal_lasts hsame p
    · rintro w i k j ⟨m, g1, q1⟩ ⟨m', g2, q2⟩
      exact ⟨m, g1, m', quiet_goto q1 g2, q2⟩

/-- A part and the rest of the operands. -/
theorem ops_builds (hsame : SameOk same) (fuel : Nat) (fusion : Bool) {p q : Psl} {ps : List Psl}
    {L M : (Nat → Nat → Bool) → Nat → Nat → Prop} (h1 : Builds (build same fuel p) L)
    (h2 : Builds (buildOps same fuel fusion (q :: ps)) M) :
    Builds (buildOps same fuel fusion (p :: q :: ps))
      (fun w i j => ∃ m, L w i (m + 1) ∧ M w (m + cost fusion) j) := by
  intro f s hs
  obtain ⟨f1, t, N, hb, hP, hL⟩ := h1 f s hs
  have hslt := hs.lt
  obtain ⟨ht0, ht1⟩ := hP.fresh
  have hB := hP.bridge hsame hs fusion false (k := 0) (by simp) (f2 := f1) rfl (by simp)
  obtain ⟨f', t', N', hb', hP', hL'⟩ := h2 _ _ (hB.start hs)
  refine ⟨f', t', _, ?_, hB.join hslt (by simp) hP', ?_⟩
  · rw [buildOps]
    dsimp only
    rw [hb]
    dsimp only
    have : t ≠ s := by omega
    rw [bridge, if_pos this]
    exact hb'
  · intro w i j
    have hdisj := fun x => nodes_disj (n2 := f'.states.length) (m := f1.states.length) hslt hB.le x
    rw [path_join hB.within hP'.within hdisj hB.bare (Or.inl rfl) (Or.inl rfl) (Or.inr hP'.fresh)]
    have hWt : Nodes s f.states.length f1.states.length t := Or.inr ⟨ht0, ht1⟩
    have hWn : ¬ Nodes s f.states.length f1.states.length f1.states.length := by
      unfold Nodes
      omega
    constructor
    · rintro ⟨c, q1, q2⟩
      obtain ⟨m, rfl, q3⟩ := (path_bridge hP.within (Or.inl rfl) hWt hWn fusion i c).mp q1
      exact ⟨m, (hL w i m).mp q3, (hL' w _ j).mp q2⟩
    · rintro ⟨m, q1, q2⟩
      exact ⟨m + cost fusion, (path_bridge hP.within (Or.inl rfl) hWt hWn fusion i _).mpr
        ⟨m, rfl, (hL w i m).mpr q1⟩, (hL' w _ j).mpr q2⟩

mutual

/-- `build_node` adds a part whose paths are the stretches that the sequence describes. -/
theorem build_builds (hsame : SameOk same) (fuel : Nat) : ∀ (p : Psl), Regular p →
    Builds (build same fuel p) (fun w => Match w p)
  | .expr p, _ => by
    rw [build]
    exact builds_congr (fun w i j => by rw [Match]) (expr_builds hsame p)
  | .sere false ops, hr => by
    rw [Regular] at hr
    rw [build]
    exact builds_congr (fun w i j => by rw [Match]) (buildCat_builds hsame fuel ops hr.2 hr.1)
  | .sere true ops, hr => by
    rw [Regular] at hr
    rw [build]
    exact builds_congr (fun w i j => by rw [Match]) (buildFuse_builds hsame fuel ops hr.2 hr.1)
  | .conj _ _, hr => by
    rw [Regular] at hr
    exact hr.elim
  | .rep kind count value, hr => by
    refine rep_builds hsame fuel kind count value hr ?_
    rw [Regular] at hr
    exact build_builds hsame fuel value hr.2.2.2.1
  | .next _ _, hr => by
    rw [Regular] at hr
    exact hr.elim
  | .suffix _ _ _, hr => by
    rw [Regular] at hr
    exact hr.elim

theorem buildCat_builds (hsame : SameOk same) (fuel : Nat) : ∀ (ps : List Psl), RegularAll ps →
    ps ≠ [] → Builds (buildOps same fuel false ps) (fun w => MatchCat w ps)
  | [], _, h => absurd rfl h
  | [p], hr, _ => by
    rw [RegularAll] at hr
    have h1 := build_builds hsame fuel p hr.1
    intro f s hs
    obtain ⟨f', t, N, hb, hP, hL⟩ := h1 f s hs
    refine ⟨f', t, N, ?_, hP, ?_⟩
    · rw [buildOps]
      dsimp only
      rw [hb]
    · intro w i j
      rw [hL w i j]
      simp only [MatchCat]
      constructor
      · intro h
        exact ⟨_, h, rfl⟩
      · rintro ⟨k, h, rfl⟩
        exact h
  | p :: q :: ps, hr, _ => by
    rw [RegularAll] at hr
    have h1 := build_builds hsame fuel p hr.1
    have h2 := buildCat_builds hsame fuel (q :: ps) hr.2 (by simp)
    refine builds_congr ?_ (ops_builds hsame fuel false h1 h2)
    intro w i j
    rw [MatchCat]
    constructor
    · rintro ⟨m, q1, q2⟩
      exact ⟨m + 1, q1, q2⟩
    · rintro ⟨k, q1, q2⟩
      have := match_lt w p hr.1 i k q1
      obtain ⟨k, rfl⟩ : ∃ k', k = k' + 1 := ⟨k - 1, by omega⟩
      exact ⟨k, q1, q2⟩

theorem buildFuse_builds (hsame : SameOk same) (fuel : Nat) : ∀ (ps : List Psl), RegularAll ps →
    ps ≠ [] → Builds (buildOps same fuel true ps) (fun w => MatchFuse w ps)
  | [], _, h => absurd rfl h
  | [p], hr, _ => by
    rw [RegularAll] at hr
    have h1 := build_builds hsame fuel p hr.1
    intro f s hs
    obtain ⟨f', t, N, hb, hP, hL⟩ := h1 f s hs
    refine ⟨f', t, N, ?_, hP, ?_⟩
    · rw [buildOps]
      dsimp only
      rw [hb]
    · intro w i j
      rw [hL w i j]
      simp only [MatchFuse]
  | p :: q :: ps, hr, _ => by
    rw [RegularAll] at hr
    have h1 := build_builds hsame fuel p hr.1
    have h2 := buildFuse_builds hsame fuel (q :: ps) hr.2 (by simp)
    refine builds_congr ?_ (ops_builds hsame fuel true h1 h2)
    intro w i j
    rw [MatchFuse]
    · constructor
      · rintro ⟨m, q1, q2⟩
        have := match_lt w p hr.1 i _ q1
        have := matchFuse_lt w (q :: ps) hr.2 (by simp) _ j q2
        exact ⟨m, q1, by omega, by simp [cost] at this; omega, q2⟩
      · rintro ⟨k, q1, _, _, q2⟩
        exact ⟨k, q1, q2⟩
    · simp

end

end Verif.Psl
