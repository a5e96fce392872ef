import Verif.Psl.BuildParts

/-!
# Repetition
-/

namespace Verif.Psl

variable {same : Guard → Guard → Bool} {w : Nat → Nat → Bool}

theorem pow_back {M : Nat → Nat → Prop} (n i j : Nat) :
    Pow M (n + 1) i j ↔ ∃ k, Pow M n i k ∧ M k j := by
  induction n generalizing i with
  | zero =>
    constructor
    · rintro ⟨k, h, rfl⟩
      exact ⟨i, rfl, h⟩
    · rintro ⟨k, rfl, h⟩
      exact ⟨j, h, rfl⟩
  | succ n ih =>
    constructor
    · rintro ⟨k, h, h'⟩
      obtain ⟨m, h1, h2⟩ := (ih k).mp h'
      exact ⟨m, ⟨k, h, h1⟩, h2⟩
    · rintro ⟨m, ⟨k, h, h1⟩, h2⟩
      exact ⟨k, h, (ih k).mpr ⟨m, h1, h2⟩⟩

/-- One copy in the loop of `build_repeat`: the operand, for `[->]` and `[=]` with waiting. -/
def copy (same : Guard → Guard → Bool) (build : Builder) (noncon : Bool) : Builder := fun f s =>
  match build f s with
  | none => none
  | some (f1, t) =>
    match (if noncon then addWait same f1 s else some f1) with
    | none => none
    | some f2 => some (f2, t)

/-- A construction adds a part with the language `L`. -/
def Builds (b : Builder) (L : (Nat → Nat → Bool) → Nat → Nat → Prop) : Prop :=
  ∀ (f : Fsm) (s : Nat), Start f s → ∃ f' t N, b f s = some (f', t) ∧ Part f f' s t N ∧
    ∀ w, Lang w N s t (L w)

/-- All but the last copy. -/
def prefixLoop (same : Guard → Guard → Bool) (cp : Builder) (low : Nat) (skip : Option Nat) :
    Nat → Nat → Builder
  | 0, _ => fun f s => some (f, s)
  | n + 1, i => fun f s =>
    match cp f s with
    | none => none
    | some (f2, t) =>
      match (if i + 1 ≥ low then skip.map (fun k => addEdge same f2 t k true .null)
        else some f2) with
      | none => none
      | some f3 =>
        prefixLoop same cp low skip n (i + 1)
          (addEdge same (addState f3).1 t (addState f3).2 false .null) (addState f3).2

/-- The last copy. -/
def lastCopy (same : Guard → Guard → Bool) (cp : Builder) (value : Option Nat) (trail : Bool) :
    Builder := fun f s =>
  match cp f s with
  | none => none
  | some (f2, t) =>
    if trail then
      match value with
      | none => none
      | some p =>
        match addTrail same p f2 t with
        | none => none
        | some f3 => some (f3, t)
    else some (f2, t)

/-- The loop is a prefix and the last copy. -/
theorem repLoop_split (same : Guard → Guard → Bool) (build : Builder) (value : Option Nat)
    (b : Bounds) (skip : Option Nat) (n i : Nat) (f : Fsm) (s lbo : Nat) :
    repLoop same build value b skip (n + 1) i f s lbo =
      match prefixLoop same (copy same build b.noncon) b.low skip n i f s with
      | none => none
      | some (fp, m) =>
        match lastCopy same (copy same build b.noncon) value (b.noncon && !b.gotoRep) fp m with
        | none => none
        | some (f', t) => some (f', t, m) := by
  induction n generalizing i f s lbo with
  | zero =>
    rw [repLoop]
    simp only [prefixLoop, lastCopy, copy]
    cases build f s with
    | none => rfl
    | some r =>
      obtain ⟨f1, t⟩ := r
      dsimp only
      cases (if b.noncon then addWait same f1 s else some f1) with
      | none => rfl
      | some f2 =>
        dsimp only
        rw [if_neg (by simp)]
        cases (b.noncon && !b.gotoRep) with
        | false => rfl
        | true =>
          simp only [if_true]
          cases value with
          | none => rfl
          | some p =>
            dsimp only
            cases addTrail same p f2 t with
            | none => rfl
            | some f3 => rfl
  | succ n ih =>
    rw [repLoop]
    simp only [prefixLoop]
    conv => rhs; simp only [copy]
    cases build f s with
    | none => rfl
    | some r =>
      obtain ⟨f1, t⟩ := r
      dsimp only
      cases (if b.noncon then addWait same f1 s else some f1) with
      | none => rfl
      | some f2 =>
        dsimp only
        rw [if_pos (by simp)]
        cases (if i + 1 ≥ b.low then Option.map (fun k => addEdge same f2 t k true .null) skip
            else some f2) with
        | none => rfl
        | some f3 =>
          dsimp only
          exact ih _ _ _ _

/-- What all but the last copy add. -/
theorem prefixLoop_ok (hsame : SameOk same) {cp : Builder}
    {L : (Nat → Nat → Bool) → Nat → Nat → Prop} (hcp : Builds cp L)
    (hlt : ∀ w i j, L w i j → i < j) (low : Nat) (skip : Option Nat) (k : Nat)
    (hskip : ∀ k', skip = some k' → k' = k) (n : Nat) :
    ∀ (i : Nat) (f : Fsm) (s : Nat), Start f s → (skip.isSome → k < f.states.length) →
    (skip = none → i + n < low) →
    ∃ fp m R T, prefixLoop same cp low skip n i f s = some (fp, m) ∧ Pre f fp s m R T k ∧
      (skip = none → ∀ x, ¬ T x) ∧
      (∀ w a j, Path w R s a m j ↔ Pow (L w) n a j) ∧
      ∀ w a j, (∃ x, T x ∧ Path w R s a x j) ↔
        ∃ c, 1 ≤ c ∧ c ≤ n ∧ low ≤ i + c ∧ skip.isSome ∧ Pow (L w) c a (j + 1) := by
  induction n with
  | zero =>
    intro i f s hs _ _
    refine ⟨f, s, _, _, rfl, Pre.nil hs k, fun _ _ h => h, ?_, ?_⟩
    · intro w a j
      constructor
      · intro p
        cases p with
        | refl => rfl
        | step _ hr _ => exact hr.elim
      · intro h
        have : a = j := h
        subst this
        exact .refl
    · intro w a j
      constructor
      · rintro ⟨_, h, _⟩
        exact h.elim
      · rintro ⟨c, _, _, _⟩
        omega
  | succ n ih =>
    intro i f s hs hk hn
    obtain ⟨f2, t, N, hb, hP, hL⟩ := hcp f s hs
    obtain ⟨ht0, ht1⟩ := hP.fresh
    have hslt := hs.lt
    obtain ⟨mark, hmark⟩ : ∃ b : Bool, b = decide (i + 1 ≥ low) := ⟨_, rfl⟩
    have hmk : mark = true → skip.isSome := by
      intro hm
      cases hsk : skip with
      | some _ => rfl
      | none =>
        have := hn hsk
        rw [hmark, decide_eq_true_eq] at hm
        omega
    obtain ⟨f3, hf3⟩ : ∃ f3, f3 = if mark then addEdge same f2 t k true .null else f2 := ⟨_, rfl⟩
    have hif : (if i + 1 ≥ low then Option.map (fun k => addEdge same f2 t k true .null) skip
        else some f2) = some f3 := by
      rw [hf3]
      by_cases hc : i + 1 ≥ low
      · rw [if_pos hc]
        have hm : mark = true := by rw [hmark]; exact decide_eq_true hc
        cases hsk : skip with
        | none => have := hmk hm; rw [hsk] at this; cases this
        | some k' => rw [hm, hskip k' hsk]; rfl
      · rw [if_neg hc]
        have hm : mark = false := by rw [hmark]; exact decide_eq_false hc
        rw [hm]
        rfl
    have hB := hP.bridge hsame hs false mark (k := k) (fun hm => hk (hmk hm)) hf3 (by simp)
    have hlen3 : f3.states.length = f2.states.length := by
      rw [hf3]
      split
      · rw [addEdge_length]
      · rfl
    have hnew : (addState f3).2 = f2.states.length := by
      rw [← hlen3]
      rfl
    have hs2 := hB.start hs
    obtain ⟨fp, m, R, T, he, hPre, hT, hR, hTL⟩ := ih (i + 1) _ _ hs2
      (fun h => by have := hk h; have := hB.le; omega) (fun h => by have := hn h; omega)
    have hcomp := hB.comp hslt hPre
    have hdisj := fun x => nodes_disj (n2 := fp.states.length) (m := f2.states.length) hslt hB.le x
    have hVs : Nodes s f.states.length
      (addEdge same (addState f3).1 t (addState f3).2 false .null).states.length s := Or.inl rfl
    have hW : Within N (Nodes s f.states.length f2.states.length) := hP.within
    have hWt : Nodes s f.states.length f2.states.length t := Or.inr ⟨ht0, ht1⟩
    have hWn : ¬ Nodes s f.states.length f2.states.length f2.states.length := by
      unfold Nodes
      omega
    have hbr : ∀ w a j, Path w (both N (single t ⟨false, f2.states.length, .null⟩)) s a
        f2.states.length j ↔ L w a j := by
      intro w a j
      rw [path_bridge hW (Or.inl rfl) hWt hWn]
      constructor
      · rintro ⟨m', rfl, q⟩
        exact (hL w a m').mp q
      · intro h
        have := hlt _ _ _ h
        refine ⟨j - 1, by simp only [cost, Bool.false_eq_true, if_false]; omega, ?_⟩
        rw [hL w a, Nat.sub_add_cancel (by omega)]
        exact h
    refine ⟨fp, m, _, _, ?_, hcomp, ?_, ?_, ?_⟩
    · simp only [prefixLoop, hb, hif]
      rw [← hnew] at he
      exact he
    · rintro hn' x (⟨hm, _⟩ | h)
      · have := hmk hm
        rw [hn'] at this
        cases this
      · exact hT hn' x h
    · intro w a j
      rw [path_join hB.within hPre.within hdisj hB.bare hVs (Or.inl rfl) hPre.mid]
      constructor
      · rintro ⟨c, q1, q2⟩
        exact ⟨c, (hbr w a c).mp q1, (hR w c j).mp q2⟩
      · rintro ⟨c, q1, q2⟩
        exact ⟨c, (hbr w a c).mpr q1, (hR w c j).mpr q2⟩
    · intro w a j
      constructor
      · rintro ⟨x, ⟨hm, rfl⟩ | hx, q⟩
        · have hxV : ¬ Nodes f2.states.length
              (addEdge same (addState f3).1 x (addState f3).2 false .null).states.length
              fp.states.length x := by
            intro hv
            have := hdisj x (nodes_mono (by
              rw [addEdge_length, addState_length, hlen3]
              omega) _ hWt) hv
            omega
          rw [path_join_first hB.within hPre.within hdisj hB.bare hVs hxV,
            path_bridge_first hW (Or.inl rfl) hWt hWn hWt] at q
          refine ⟨1, Nat.le_refl _, by omega, ?_, hmk hm, j + 1, (hL w a j).mp q, rfl⟩
          rw [hmark, decide_eq_true_eq] at hm
          omega
        · obtain ⟨x1, x2, x3⟩ := hPre.marks x hx
          rw [path_join hB.within hPre.within hdisj hB.bare hVs (Or.inl rfl) (Or.inr ⟨x1, x2⟩)] at q
          obtain ⟨c, q1, q2⟩ := q
          obtain ⟨d, d1, d2, d3, d4, d5⟩ := (hTL w c j).mp ⟨x, hx, q2⟩
          exact ⟨d + 1, by omega, by omega, by omega, d4, c, (hbr w a c).mp q1, d5⟩
      · rintro ⟨c, c1, c2, c3, c4, c5⟩
        obtain ⟨c, rfl⟩ : ∃ c', c = c' + 1 := ⟨c - 1, by omega⟩
        obtain ⟨d, d1, d2⟩ := c5
        by_cases hc : c = 0
        · subst hc
          have d2 : d = j + 1 := d2
          subst d2
          refine ⟨t, Or.inl ⟨?_, rfl⟩, ?_⟩
          · rw [hmark]
            exact decide_eq_true (by omega)
          · exact Path.mono (fun _ _ h => Or.inl (Or.inl h)) ((hL w a j).mpr d1)
        · obtain ⟨x, hx, q⟩ := (hTL w d j).mpr ⟨c, by omega, by omega, by omega, c4, d2⟩
          refine ⟨x, Or.inr hx, ?_⟩
          exact Path.trans (Path.mono (fun _ _ h => Or.inl h) ((hbr w a d).mpr d1))
            (Path.mono (fun _ _ h => Or.inr h) q)

/-- What the last copy adds: its language is that of a copy and then the paths from the end to the
end. -/
def Lasts (b : Builder) (L M : (Nat → Nat → Bool) → Nat → Nat → Prop) : Prop :=
  ∀ (f : Fsm) (s : Nat), Start f s → ∃ f' t N, b f s = some (f', t) ∧ Part f f' s t N ∧
    (∀ w, Lang w N s t (M w)) ∧
    ∀ w i j, M w i (j + 1) ↔ ∃ c, L w i (c + 1) ∧ Path w N t c t j

theorem plus_pow {L M : Nat → Nat → Prop} (hsub : ∀ i j, L i j → M i j)
    (habs : ∀ i k j, M i k → M k j → ∃ c, L i c ∧ M c j) (hlt : ∀ i j, L i j → i < j) (i j : Nat) :
    Plus (fun a b => M a (b + 1)) i j ↔ ∃ n c, Pow L n i c ∧ M c (j + 1) := by
  constructor
  · intro h
    induction h with
    | once h => exact ⟨0, i, rfl, h⟩
    | more _ h ih =>
      rename_i k j _
      obtain ⟨n, c, h1, h2⟩ := ih
      obtain ⟨d, h3, h4⟩ := habs _ _ _ h2 h
      exact ⟨n + 1, d, (pow_back n i d).mpr ⟨c, h1, h3⟩, h4⟩
  · rintro ⟨n, c, h1, h2⟩
    induction n generalizing c j with
    | zero =>
      have h1 : i = c := h1
      subst h1
      exact .once h2
    | succ n ih =>
      obtain ⟨b, h3, h4⟩ := (pow_back n i c).mp h1
      have hbc := hlt _ _ h4
      obtain ⟨c, rfl⟩ : ∃ c', c = c' + 1 := ⟨c - 1, by omega⟩
      exact .more (ih c b h3 (hsub _ _ h4)) h2

/-- The language of a repetition: copies and then the last one. -/
def RepLang (L M : (Nat → Nat → Bool) → Nat → Nat → Prop) (low : Nat) (high : Option Nat)
    (w : Nat → Nat → Bool) (i j : Nat) : Prop :=
  ∃ n c, low ≤ n + 1 ∧ (∀ h, high = some h → n + 1 ≤ h) ∧ Pow (L w) n i c ∧ M w c j

theorem buildRepeat_ok (hsame : SameOk same) {build : Builder} {value : Option Nat} {b : Bounds}
    {L M : (Nat → Nat → Bool) → Nat → Nat → Prop} (hcp : Builds (copy same build b.noncon) L)
    (hlast : Lasts (lastCopy same (copy same build b.noncon) value (b.noncon && !b.gotoRep)) L M)
    (hlt : ∀ w i j, L w i j → i < j) (hsub : ∀ w i j, L w i j → M w i j)
    (habs : ∀ w i k j, M w i k → M w k j → ∃ c, L w i c ∧ M w c j)
    (hlow : 1 ≤ b.low) (hhigh : b.low ≤ b.high) (hinf : b.infinite = true → b.high = b.low) :
    Builds (buildRepeat same build value b)
      (RepLang L M b.low (if b.infinite then none else some b.high)) := by
  intro f s hs
  obtain ⟨n, hn⟩ : ∃ n, b.high = n + 1 := ⟨b.high - 1, by omega⟩
  have hslt := hs.lt
  have hl0 := addState_length f
  by_cases hskip : b.high > b.low
  · -- several numbers of repetitions
    have hni : b.infinite = false := by
      cases hb : b.infinite with
      | false => rfl
      | true => have := hinf hb; omega
    have hs0 : Start (addState f).1 s := by
      refine ⟨addState_raw hs.raw, by omega, ?_⟩
      intro e he
      exact hs.bare e ((addState_edges f s e).mp he)
    obtain ⟨fp, m, R, T, he, hPre, _, hR, hTL⟩ := prefixLoop_ok hsame hcp hlt b.low
      (some f.states.length) f.states.length (by simp) n 0 _ s hs0 (by intro _; omega) (by simp)
    obtain ⟨f', t, N, hl, hP, hL, hM⟩ := hlast fp m (hPre.start hs0)
    obtain ⟨ht0, ht1⟩ := hP.fresh
    have hle := hPre.le
    refine ⟨_, t, _, ?_, hPre.skip hsame hslt hP, ?_⟩
    · unfold buildRepeat
      simp only [if_pos hskip]
      rw [hn, repLoop_split, he]
      dsimp only
      rw [hl]
      dsimp only
      rw [Option.map_some, repEnd]
      have : s ≠ t := by omega
      have : b.low ≠ 0 := by omega
      simp [*]
    · intro w i j
      have hdisj := fun x => nodes_disj (n2 := f'.states.length) (m := m) (hs0.lt) hle x
      have hmid := hPre.mid
      rw [path_skip hPre.within hP.within hdisj hPre.bare (Or.inl rfl) (Or.inl rfl)
        (Or.inr ⟨ht0, ht1⟩)
        (fun x hx => ⟨Or.inr ⟨(hPre.marks x hx).1, (hPre.marks x hx).2.1⟩,
          fun hv => (hPre.marks x hx).2.2
            (hdisj x (Or.inr ⟨(hPre.marks x hx).1, (hPre.marks x hx).2.1⟩) hv)⟩)
        (by unfold Nodes; omega) (by unfold Nodes at *; omega)]
      rw [hni]
      constructor
      · rintro (⟨c, q1, q2⟩ | ⟨x, c, hx, q1, q2⟩)
        · exact ⟨n, c, by omega, by intro h hh; cases hh; omega, (hR w i c).mp q1, (hL w c j).mp q2⟩
        · obtain ⟨d, d1, d2, d3, _, d5⟩ := (hTL w i c).mp ⟨x, hx, q1⟩
          obtain ⟨d, rfl⟩ : ∃ d', d = d' + 1 := ⟨d - 1, by omega⟩
          obtain ⟨k, k1, k2⟩ := (pow_back d i (c + 1)).mp d5
          exact ⟨d, k, by omega, by intro h hh; cases hh; omega, k1, (hM w k j).mpr ⟨c, k2, q2⟩⟩
      · rintro ⟨d, c, d1, d2, d3, d4⟩
        have d2 := d2 _ rfl
        by_cases hd : d = n
        · subst hd
          exact Or.inl ⟨c, (hR w i c).mpr d3, (hL w c j).mpr d4⟩
        · obtain ⟨k, k1, k2⟩ := (hM w c j).mp d4
          obtain ⟨x, hx, q⟩ := (hTL w i k).mpr
            ⟨d + 1, by omega, by omega, by omega, rfl, (pow_back d i (k + 1)).mpr ⟨c, d3, k1⟩⟩
          exact Or.inr ⟨x, k, hx, q, k2⟩
  · have heq : b.high = b.low := by omega
    obtain ⟨fp, m, R, T, he, hPre, hT, hR, _⟩ := prefixLoop_ok hsame hcp hlt b.low
      none 0 (by simp) n 0 f s hs (by simp) (by intro _; omega)
    obtain ⟨f', t, N, hl, hP, hL, hM⟩ := hlast fp m (hPre.start hs)
    obtain ⟨ht0, ht1⟩ := hP.fresh
    have hle := hPre.le
    have hst : s ≠ t := by omega
    have hl1 : b.low ≠ 0 := by omega
    have hrep : buildRepeat same build value b f s =
        some (if b.infinite then addEdge same f' t m false .null else f', t) := by
      unfold buildRepeat
      simp only [if_neg hskip]
      rw [hn, repLoop_split, he]
      dsimp only
      rw [hl]
      dsimp only
      rw [Option.map_some, repEnd]
      simp [hst, hl1]
    cases hb : b.infinite with
    | false =>
      rw [hb] at hrep
      refine ⟨_, t, _, hrep, hPre.join hslt (hT rfl) hP, ?_⟩
      intro w i j
      have hdisj := fun x => nodes_disj (n2 := f'.states.length) (m := m) hslt hle x
      rw [path_join hPre.within hP.within hdisj hPre.bare (Or.inl rfl) (Or.inl rfl)
        (Or.inr ⟨ht0, ht1⟩)]
      constructor
      · rintro ⟨c, q1, q2⟩
        exact ⟨n, c, by omega, by intro h hh; cases hh; omega, (hR w i c).mp q1, (hL w c j).mp q2⟩
      · rintro ⟨d, c, d1, d2, d3, d4⟩
        have d2 := d2 _ rfl
        have hd : d = n := by omega
        subst hd
        exact ⟨c, (hR w i c).mpr d3, (hL w c j).mpr d4⟩
    | true =>
      rw [hb] at hrep
      have hPb := hP.back hsame (hPre.start hs).lt (m := m) (Or.inl rfl)
      refine ⟨_, t, _, hrep, hPre.join hslt (hT rfl) hPb, ?_⟩
      intro w i j
      have hdisj := fun x =>
        nodes_disj (n2 := (addEdge same f' t m false .null).states.length) (m := m) hslt hle x
      have hfr := hPb.fresh
      rw [path_join hPre.within hPb.within hdisj hPre.bare (Or.inl rfl) (Or.inl rfl) (Or.inr hfr)]
      have hloop : ∀ c, Path w (both N (single t ⟨false, m, .null⟩)) m c t j ↔
          ∃ d k, Pow (L w) d c k ∧ M w k (j + 1) := by
        intro c
        rw [path_loop, ← plus_pow (hsub w) (habs w) (hlt w)]
        have : (fun i j => Path w N m i t j) = fun a b => M w a (b + 1) := by
          funext a b
          exact propext (hL w a b)
        rw [this]
      have hadd : ∀ (p q a : Nat) (z : Nat), Pow (L w) (p + q) a z ↔
          ∃ k, Pow (L w) p a k ∧ Pow (L w) q k z := by
        intro p q
        induction p with
        | zero =>
          intro a z
          rw [Nat.zero_add]
          constructor
          · intro h; exact ⟨a, rfl, h⟩
          · rintro ⟨k, rfl, h⟩; exact h
        | succ p ih =>
          intro a z
          rw [Nat.succ_add]
          constructor
          · rintro ⟨k, h1, h2⟩
            obtain ⟨k', h3, h4⟩ := (ih k z).mp h2
            exact ⟨k', ⟨k, h1, h3⟩, h4⟩
          · rintro ⟨k', ⟨k, h1, h3⟩, h4⟩
            exact ⟨k, h1, (ih k z).mpr ⟨k', h3, h4⟩⟩
      constructor
      · rintro ⟨c, q1, q2⟩
        obtain ⟨d, k, h1, h2⟩ := (hloop c).mp q2
        exact ⟨n + d, k, by omega, by simp, (hadd n d i k).mpr ⟨c, (hR w i c).mp q1, h1⟩, h2⟩
      · rintro ⟨d, k, d1, _, d3, d4⟩
        obtain ⟨e, rfl⟩ : ∃ e, d = n + e := ⟨d - n, by omega⟩
        obtain ⟨c, h1, h2⟩ := (hadd n e i k).mp d3
        exact ⟨c, (hR w i c).mpr h1, (hloop c).mpr ⟨e, k, h2, d4⟩⟩

end Verif.Psl
