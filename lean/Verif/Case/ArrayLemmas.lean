import Verif.Case.ScalarLemmas

/-! The loop of `lower_case_array`. -/
namespace Verif.Case

theorem replaceBlock_none (e : Int) (b : Nat) (cs : List (Int × Nat)) (h : (replaceBlock e b cs).1 = none) :
    ∀ c, (e, c) ∉ cs := by
  induction cs with
  | nil => intro c hm; cases hm
  | cons p cs ih =>
    obtain ⟨x, y⟩ := p
    unfold replaceBlock at h
    by_cases hx : x = e
    · rw [if_pos hx] at h; cases h
    · rw [if_neg hx] at h
      intro c hm
      simp only [List.mem_cons, Prod.mk.injEq] at hm
      rcases hm with ⟨h1, _⟩ | hm
      · exact hx h1.symm
      · exact ih h c hm

theorem replaceBlock_keys (e : Int) (b : Nat) (cs : List (Int × Nat)) :
    (replaceBlock e b cs).2.map Prod.fst = cs.map Prod.fst := by
  induction cs with
  | nil => rfl
  | cons p cs ih =>
    obtain ⟨x, y⟩ := p
    unfold replaceBlock
    by_cases hx : x = e
    · rw [if_pos hx]; rfl
    · rw [if_neg hx]
      show x :: _ = x :: _
      rw [ih]

theorem replaceBlock_some (e : Int) (b c : Nat) (cs : List (Int × Nat))
    (h : (replaceBlock e b cs).1 = some c) (hn : (cs.map Prod.fst).Nodup) :
    (e, c) ∈ cs ∧ (e, b) ∈ (replaceBlock e b cs).2 ∧
    ∀ x y, (x, y) ∈ (replaceBlock e b cs).2 → (x = e ∧ y = b) ∨ ((x, y) ∈ cs ∧ x ≠ e) := by
  induction cs with
  | nil => cases h
  | cons p cs ih =>
    obtain ⟨x', y'⟩ := p
    have hn' : x' ∉ cs.map Prod.fst ∧ (cs.map Prod.fst).Nodup := by simpa using hn
    unfold replaceBlock at h ⊢
    by_cases hx : x' = e
    · rw [if_pos hx] at h ⊢
      have h : some y' = some c := h
      cases h
      subst hx
      refine ⟨by simp, by simp, fun x y hm => ?_⟩
      simp only [List.mem_cons, Prod.mk.injEq] at hm
      rcases hm with ⟨h1, h2⟩ | hm
      · exact Or.inl ⟨h1, h2⟩
      · refine Or.inr ⟨by simp [hm], fun h1 => ?_⟩
        subst h1
        exact hn'.1 (List.mem_map.mpr ⟨_, hm, rfl⟩)
    · rw [if_neg hx] at h ⊢
      obtain ⟨h1, h2, h3⟩ := ih h hn'.2
      refine ⟨by simp [h1], by simp [h2], fun x y hm => ?_⟩
      simp only [List.mem_cons, Prod.mk.injEq] at hm
      rcases hm with ⟨h4, h5⟩ | hm
      · subst h4; subst h5
        exact Or.inr ⟨by simp, hx⟩
      · rcases h3 x y hm with h4 | ⟨h4, h5⟩
        · exact Or.inl h4
        · exact Or.inr ⟨by simp [h4], h5⟩

/-- What the branch for the label `e` does to the value `v`: it executes the alternative of a
choice with the value, or falls through if there is none among those with the label. -/
def Chain (E : AEnv) (exit fall : Nat) (v : List Nat) (R : Run) (P : Nat → Blk)
    (dn : List (Nat × Nat × Src)) (e : Int) (b : Nat) : Prop :=
  (∃ i j cs es, (i, j, .one v cs) ∈ dn ∧ choiceEnc E.exact E.nbits cs = e ∧
    To P R b es (finOf E.toEnv exit i) ∧ (es = evsOf E.toEnv i j ∨ es = [.run i])) ∨
  ((∀ i j xs cs, (i, j, .one xs cs) ∈ dn → choiceEnc E.exact E.nbits cs = e → v ≠ xs) ∧
    To P R b [] (some fall))

/-- The state after the choices `dn`; `base` are the blocks that were there before, `n0` their
number. -/
structure AInv (E : AEnv) (exit fall n0 : Nat) (base : Nat → Blk) (v : List Nat) (R : Run)
    (dn : List (Nat × Nat × Src)) (l : Loop) (s : St) : Prop where
  good : Good s
  next : n0 ≤ s.next
  frame : ∀ c, c < n0 → s.blk c = base c
  labelsAll : ∀ i j xs cs, (i, j, .one xs cs) ∈ dn → ∃ b, (choiceEnc E.exact E.nbits cs, b) ∈ l.cases
  nodup : E.exact = false → (l.cases.map Prod.fst).Nodup
  keys : E.exact = true → l.cases.map Prod.fst =
    dn.filterMap (fun p => match p.2.2 with | .one _ cs => some (choiceEnc E.exact E.nbits cs) | .others => none)
  exactTo : E.exact = true → ∀ e b, (e, b) ∈ l.cases → ∃ i j xs cs, (i, j, .one xs cs) ∈ dn ∧
    choiceEnc E.exact E.nbits cs = e ∧ To s.blk R b (evsOf E.toEnv i j) (finOf E.toEnv exit i)
  hashTo : E.exact = false → ∀ e b, (e, b) ∈ l.cases → Chain E exit fall v R s.blk dn e b
  defMem : ∀ b, l.deflt = some b → ∃ i j, (i, j, .others) ∈ dn ∧
    To s.blk R b (evsOf E.toEnv i j) (finOf E.toEnv exit i)
  defAll : ∀ i j, (i, j, Src.others) ∈ dn → l.deflt ≠ none

theorem Chain.mono {E : AEnv} {exit fall : Nat} {v : List Nat} {R : Run} {P P' : Nat → Blk}
    {dn : List (Nat × Nat × Src)} {e : Int} {b : Nat} (he : Ext P P')
    (h : Chain E exit fall v R P dn e b) : Chain E exit fall v R P' dn e b := by
  rcases h with ⟨i, j, cs, es, h1, h2, h3, h4⟩ | ⟨h1, h2⟩
  · exact Or.inl ⟨i, j, cs, es, h1, h2, h3.mono he, h4⟩
  · exact Or.inr ⟨h1, h2.mono he⟩

/-- A choice with another label, or `others`, makes no difference to a chain. -/
theorem Chain.snoc {E : AEnv} {exit fall : Nat} {v : List Nat} {R : Run} {P : Nat → Blk}
    {dn : List (Nat × Nat × Src)} {e : Int} {b i0 j0 : Nat} {c : Src}
    (hc : ∀ xs cs, c = .one xs cs → choiceEnc E.exact E.nbits cs ≠ e)
    (h : Chain E exit fall v R P dn e b) : Chain E exit fall v R P (dn ++ [(i0, j0, c)]) e b := by
  rcases h with ⟨i, j, cs, es, h1, h2, h3, h4⟩ | ⟨h1, h2⟩
  · exact Or.inl ⟨i, j, cs, es, by simp [h1], h2, h3, h4⟩
  · refine Or.inr ⟨fun i j xs cs hm he => ?_, h2⟩
    simp only [List.mem_append, List.mem_singleton, Prod.mk.injEq] at hm
    rcases hm with hm | ⟨_, _, hm⟩
    · exact h1 i j xs cs hm he
    · exact absurd he (hc xs cs hm.symm)

/-- The blocks after `others`, and after a choice with the exact encoding. -/
theorem step_plain (E : Env) (i j exit x : Nat) (s : St) (g : Good s) :
    let s' := lowerBody E i exit (select (ifCover E i j s.next (select (emitBlock s).2 x)) s.next)
    Good s' ∧ s'.next = s.next + 1 ∧
    (∀ b, s'.blk b = if b = s.next then bodyBlk E i exit ⟨covEvs E i j, none⟩ else s.blk b) := by
  intro s'
  have hf : s.blk s.next = {} := g.fresh _ (Nat.le_refl _)
  have hb0 : ∀ b, (ifCover E i j s.next (select (emitBlock s).2 x)).blk b =
      if b = s.next then ⟨covEvs E i j, none⟩ else s.blk b := by
    intro b
    rw [ifCover_blk]
    show (if b = s.next then ({ s.blk s.next with evs := (s.blk s.next).evs ++ _ } : Blk) else s.blk b) = _
    rw [hf]; rfl
  have g1 : Good (ifCover E i j s.next (select (emitBlock s).2 x)) :=
    ifCover_good E i j s.next _ (select_good (emitBlock_good g) _) (Nat.lt_succ_self _)
      (by show (s.blk s.next).term = none; rw [hf])
  have hn : (ifCover E i j s.next (select (emitBlock s).2 x)).next = s.next + 1 := by
    rw [ifCover_next]; rfl
  refine ⟨lowerBody_good E i exit _ (select_good g1 _) ?_ ?_, hn, fun b => ?_⟩
  · show s.next < (ifCover E i j s.next (select (emitBlock s).2 x)).next
    rw [hn]; omega
  · show ((ifCover E i j s.next (select (emitBlock s).2 x)).blk s.next).term = none
    rw [hb0, if_pos rfl]
  · show (lowerBody E i exit (select _ s.next)).blk b = _
    rw [lowerBody_blk]
    show (if b = s.next then bodyBlk E i exit ((ifCover E i j s.next (select (emitBlock s).2 x)).blk s.next)
      else (ifCover E i j s.next (select (emitBlock s).2 x)).blk b) = _
    rw [hb0, hb0, if_pos rfl]
    by_cases h : b = s.next
    · rw [if_pos h, if_pos h]
    · rw [if_neg h, if_neg h, if_neg h]

theorem step_plain_ext (E : Env) (i j exit x : Nat) (s : St) (g : Good s) :
    Ext s.blk (lowerBody E i exit (select (ifCover E i j s.next (select (emitBlock s).2 x)) s.next)).blk := by
  obtain ⟨_, _, hb⟩ := step_plain E i j exit x s g
  refine ext_of_frame g (fun c hc => ?_)
  rw [hb, if_neg (by omega)]

theorem step_plain_to (E : Env) (i j exit x : Nat) (s : St) (g : Good s) (R : Run) :
    To (lowerBody E i exit (select (ifCover E i j s.next (select (emitBlock s).2 x)) s.next)).blk R
      s.next (evsOf E i j) (finOf E exit i) := by
  obtain ⟨_, _, hb⟩ := step_plain E i j exit x s g
  have h := hb s.next
  rw [if_pos rfl] at h
  exact bodyBlk_to h

theorem AInv.others {E : AEnv} {exit fall n0 i j : Nat} {base : Nat → Blk} {v : List Nat} {R : Run}
    {dn : List (Nat × Nat × Src)} {l : Loop} {s : St} (a : AInv E exit fall n0 base v R dn l s)
    (start : Nat) :
    AInv E exit fall n0 base v R (dn ++ [(i, j, .others)])
      (arrayStep E start exit fall i j l s .others).1 (arrayStep E start exit fall i j l s .others).2 := by
  obtain ⟨h1, h2, h3⟩ := step_plain E.toEnv i j exit s.cur s a.good
  have hext := step_plain_ext E.toEnv i j exit s.cur s a.good
  have hto := step_plain_to E.toEnv i j exit s.cur s a.good R
  have hs : (arrayStep E start exit fall i j l s .others).2 =
      lowerBody E.toEnv i exit (select (ifCover E.toEnv i j s.next (select (emitBlock s).2 s.cur)) s.next) := rfl
  rw [hs]
  have hl : (arrayStep E start exit fall i j l s .others).1 = { l with deflt := some s.next } := rfl
  rw [hl]
  generalize lowerBody E.toEnv i exit (select (ifCover E.toEnv i j s.next (select (emitBlock s).2 s.cur)) s.next) = s' at *
  have hn := a.next
  refine ⟨h1, by rw [h2]; omega, fun c hc => ?_, ?_, a.nodup, ?_, ?_, ?_, ?_, ?_⟩
  · rw [h3, if_neg (by omega)]; exact a.frame c hc
  · intro i' j' xs cs hm
    simp only [List.mem_append, List.mem_singleton, Prod.mk.injEq, reduceCtorEq, and_false, or_false] at hm
    exact a.labelsAll i' j' xs cs hm
  · intro he
    rw [List.filterMap_append]
    simpa using a.keys he
  · intro he e b hm
    obtain ⟨i', j', xs, cs, h4, h5, h6⟩ := a.exactTo he e b hm
    exact ⟨i', j', xs, cs, by simp [h4], h5, h6.mono hext⟩
  · intro he e b hm
    exact ((a.hashTo he e b hm).mono hext).snoc (fun xs cs h => by cases h)
  · intro b hb
    have hb : some s.next = some b := hb
    cases hb
    exact ⟨i, j, by simp, hto⟩
  · intro i' j' _ h
    cases h

theorem AInv.exact {E : AEnv} {exit fall n0 i j : Nat} {base : Nat → Blk} {v : List Nat} {R : Run}
    {dn : List (Nat × Nat × Src)} {l : Loop} {s : St} (a : AInv E exit fall n0 base v R dn l s)
    (start : Nat) (xs : List Nat) (cs : List (Option Nat)) (hex : E.exact = true) :
    AInv E exit fall n0 base v R (dn ++ [(i, j, .one xs cs)])
      (arrayStep E start exit fall i j l s (.one xs cs)).1
      (arrayStep E start exit fall i j l s (.one xs cs)).2 := by
  obtain ⟨h1, h2, h3⟩ := step_plain E.toEnv i j exit start s a.good
  have hext := step_plain_ext E.toEnv i j exit start s a.good
  have hto := step_plain_to E.toEnv i j exit start s a.good R
  have hs : arrayStep E start exit fall i j l s (.one xs cs) =
      ({ l with cases := l.cases ++ [(choiceEnc E.exact E.nbits cs, s.next)] },
       lowerBody E.toEnv i exit (select (ifCover E.toEnv i j s.next (select (emitBlock s).2 start)) s.next)) := by
    simp only [arrayStep, if_pos hex]
    rfl
  rw [hs]
  show AInv E exit fall n0 base v R (dn ++ [(i, j, .one xs cs)])
    { l with cases := l.cases ++ [(choiceEnc E.exact E.nbits cs, s.next)] } (lowerBody E.toEnv i exit _)
  generalize lowerBody E.toEnv i exit (select (ifCover E.toEnv i j s.next (select (emitBlock s).2 start)) s.next) = s' at *
  have hn := a.next
  refine ⟨h1, by rw [h2]; omega, fun c hc => ?_, ?_, ?_, ?_, ?_, ?_, ?_, ?_⟩
  · rw [h3, if_neg (by omega)]; exact a.frame c hc
  · intro i' j' xs' cs' hm
    simp only [List.mem_append, List.mem_singleton, Prod.mk.injEq, Src.one.injEq] at hm
    rcases hm with hm | ⟨_, _, _, hm⟩
    · obtain ⟨b, hb⟩ := a.labelsAll i' j' xs' cs' hm
      exact ⟨b, by simp [hb]⟩
    · subst hm
      exact ⟨s.next, by simp⟩
  · intro he; rw [hex] at he; cases he
  · intro he
    rw [List.filterMap_append, List.map_append, a.keys he]
    rfl
  · intro he e b hm
    simp only [List.mem_append, List.mem_singleton, Prod.mk.injEq] at hm
    rcases hm with hm | ⟨hm1, hm2⟩
    · obtain ⟨i', j', xs', cs', h4, h5, h6⟩ := a.exactTo he e b hm
      exact ⟨i', j', xs', cs', by simp [h4], h5, h6.mono hext⟩
    · subst hm2
      exact ⟨i, j, xs, cs, by simp, hm1.symm, hto⟩
  · intro he; rw [hex] at he; cases he
  · intro b hb
    obtain ⟨i', j', h4, h5⟩ := a.defMem b hb
    exact ⟨i', j', by simp [h4], h5.mono hext⟩
  · intro i' j' hm
    simp only [List.mem_append, List.mem_singleton, Prod.mk.injEq, reduceCtorEq, and_false, or_false] at hm
    exact a.defAll i' j' hm

/-- The blocks after a choice that is compared: with or without a counter. -/
theorem step_hash (E : Env) (cov : Bool) (i j exit x chain : Nat) (xs : List Nat) (s : St) (g : Good s) :
    let s1 := emitTerm (emitBlock (select (emitBlock s).2 s.next)).2 (.cond (.equal xs) (s.next + 1) chain)
    let s2 := if cov then ifCover E i j (s.next + 1) (select s1 x) else s1
    let s' := lowerBody E i exit (select s2 (s.next + 1))
    Good s' ∧ s'.next = s.next + 2 ∧
    (∀ b, s'.blk b = if b = s.next + 1 then bodyBlk E i exit ⟨if cov then covEvs E i j else [], none⟩
      else if b = s.next then ⟨[], some (.cond (.equal xs) (s.next + 1) chain)⟩ else s.blk b) := by
  intro s1 s2 s'
  have hf : s.blk s.next = {} := g.fresh _ (Nat.le_refl _)
  have hf' : s.blk (s.next + 1) = {} := g.fresh _ (Nat.le_succ _)
  have hb1 : ∀ b, s1.blk b = if b = s.next then ⟨[], some (.cond (.equal xs) (s.next + 1) chain)⟩ else s.blk b := by
    intro b
    show (emitTerm _ _).blk b = _
    rw [emitTerm_blk]
    show (if b = s.next then ({ s.blk s.next with term := _ } : Blk) else s.blk b) = _
    rw [hf]
  have g1 : Good s1 := emitTerm_good _ _ (emitBlock_good (select_good (emitBlock_good g) _))
    (by show s.next < s.next + 1 + 1; omega) (by show (s.blk s.next).term = none; rw [hf])
  have hn1 : s1.next = s.next + 2 := rfl
  have ht1 : (s1.blk (s.next + 1)).term = none := by rw [hb1, if_neg (by omega), hf']
  obtain ⟨g2, hn2, hb2⟩ : Good s2 ∧ s2.next = s.next + 2 ∧ ∀ b, s2.blk b =
      if b = s.next + 1 then ⟨if cov then covEvs E i j else [], none⟩ else s1.blk b := by
    show Good (if cov then _ else _) ∧ (if cov then _ else _ : St).next = _ ∧ ∀ b, (if cov then _ else _ : St).blk b = _
    cases cov with
    | true =>
      refine ⟨ifCover_good E i j _ _ (select_good g1 _) (by show s.next + 1 < s1.next; omega) ht1,
        (ifCover_next ..).trans hn1, fun b => ?_⟩
      rw [if_pos rfl, ifCover_blk]
      show (if b = s.next + 1 then ({ s1.blk (s.next + 1) with evs := (s1.blk (s.next + 1)).evs ++ _ } : Blk) else s1.blk b) = _
      have h1 : s1.blk (s.next + 1) = {} := by rw [hb1 (s.next + 1), if_neg (by omega), hf']
      rw [h1]
      rfl
    | false =>
      refine ⟨g1, hn1, fun b => ?_⟩
      simp only [Bool.false_eq_true, if_false]
      by_cases h : b = s.next + 1
      · subst h
        rw [if_pos rfl, hb1, if_neg (by omega), hf']
      · rw [if_neg h]
  have ht2 : (s2.blk (s.next + 1)).term = none := by rw [hb2, if_pos rfl]
  refine ⟨lowerBody_good E i exit _ (select_good g2 _) (by show s.next + 1 < s2.next; omega) ht2, hn2, fun b => ?_⟩
  show (lowerBody E i exit (select s2 (s.next + 1))).blk b = _
  rw [lowerBody_blk]
  show (if b = s.next + 1 then bodyBlk E i exit (s2.blk (s.next + 1)) else s2.blk b) = _
  rw [hb2, hb2, if_pos rfl, hb1]
  by_cases h : b = s.next + 1
  · rw [if_pos h, if_pos h]
  · rw [if_neg h, if_neg h, if_neg h]

/-- The invariant after a choice that is compared, whatever has become of the list of cases. -/
theorem AInv.hashStep {E : AEnv} {exit fall n0 i j : Nat} {base : Nat → Blk} {v : List Nat} {R : Run}
    {dn : List (Nat × Nat × Src)} {l : Loop} {s s' : St} (a : AInv E exit fall n0 base v R dn l s)
    (hR : ∀ xs, R.test (.equal xs) = decide (v = xs))
    (xs : List Nat) (cs : List (Option Nat)) (hex : E.exact = false) (ev : List Ev) (chain : Nat)
    (cases' : List (Int × Nat)) (g' : Good s') (hn : s'.next = s.next + 2)
    (hb : ∀ b, s'.blk b = if b = s.next + 1 then bodyBlk E.toEnv i exit ⟨ev, none⟩
      else if b = s.next then ⟨[], some (.cond (.equal xs) (s.next + 1) chain)⟩ else s.blk b)
    (hev : ev = covEvs E.toEnv i j ∨ ev = [])
    (hchain : ((chain = fall ∧ ∀ b, (choiceEnc E.exact E.nbits cs, b) ∉ l.cases) ∨
      (choiceEnc E.exact E.nbits cs, chain) ∈ l.cases))
    (hnew : (choiceEnc E.exact E.nbits cs, s.next) ∈ cases')
    (hkeys : ∀ x b, (x, b) ∈ l.cases → ∃ b', (x, b') ∈ cases')
    (hcases : ∀ x b, (x, b) ∈ cases' → (x = choiceEnc E.exact E.nbits cs ∧ b = s.next) ∨
      ((x, b) ∈ l.cases ∧ x ≠ choiceEnc E.exact E.nbits cs))
    (hnd : (cases'.map Prod.fst).Nodup) :
    AInv E exit fall n0 base v R (dn ++ [(i, j, .one xs cs)]) { l with cases := cases' } s' := by
  have hn0 := a.next
  have hext : Ext s.blk s'.blk := ext_of_frame a.good (fun c hc => by
    rw [hb, if_neg (by omega), if_neg (by omega)])
  have hhit : s'.blk (s.next + 1) = bodyBlk E.toEnv i exit ⟨ev, none⟩ := by rw [hb, if_pos rfl]
  have hent : s'.blk s.next = ⟨[], some (.cond (.equal xs) (s.next + 1) chain)⟩ := by
    rw [hb, if_neg (by omega), if_pos rfl]
  have hgo : ∀ es f, To s'.blk R (if R.test (.equal xs) then s.next + 1 else chain) es f →
      To s'.blk R s.next es f := by
    intro es f h
    have := To.cond (P := s'.blk) (R := R) (b := s.next) (by rw [hent]) h
    rw [hent] at this
    exact this
  refine ⟨g', by rw [hn]; omega, fun c hc => ?_, ?_, fun _ => hnd, ?_, ?_, ?_, ?_, ?_⟩
  · rw [hb, if_neg (by omega), if_neg (by omega)]; exact a.frame c hc
  · intro i' j' xs' cs' hm
    simp only [List.mem_append, List.mem_singleton, Prod.mk.injEq, Src.one.injEq] at hm
    rcases hm with hm | ⟨_, _, _, hm⟩
    · obtain ⟨b, hb⟩ := a.labelsAll i' j' xs' cs' hm
      exact hkeys _ b hb
    · subst hm
      exact ⟨s.next, hnew⟩
  · intro he; rw [hex] at he; cases he
  · intro he; rw [hex] at he; cases he
  · intro _ e b hm
    rcases hcases e b hm with ⟨h1, h2⟩ | ⟨h1, h2⟩
    · subst h1; subst h2
      by_cases hv : v = xs
      · subst hv
        have ht : R.test (.equal v) = true := by rw [hR]; exact decide_eq_true rfl
        refine Or.inl ⟨i, j, cs, ev ++ [.run i], by simp, rfl, hgo _ _ (by rw [if_pos ht]; exact bodyBlk_to hhit), ?_⟩
        rcases hev with h | h
        · exact Or.inl (by rw [h]; rfl)
        · exact Or.inr (by rw [h]; rfl)
      · have ht : ¬ R.test (.equal xs) = true := by
          rw [hR, decide_eq_true_iff]; exact hv
        rcases hchain with ⟨h1, h2⟩ | h1
        · refine Or.inr ⟨fun i' j' xs' cs' hm he => ?_, hgo _ _ (by rw [if_neg ht, h1]; exact .here _)⟩
          simp only [List.mem_append, List.mem_singleton, Prod.mk.injEq, Src.one.injEq] at hm
          rcases hm with hm | ⟨_, _, hm, _⟩
          · obtain ⟨b, hb⟩ := a.labelsAll i' j' xs' cs' hm
            rw [he] at hb
            exact absurd hb (h2 b)
          · rw [hm]; exact hv
        · have hc := (a.hashTo hex _ _ h1).mono hext
          rcases hc with ⟨i', j', cs', es, h3, h4, h5, h6⟩ | ⟨h3, h4⟩
          · exact Or.inl ⟨i', j', cs', es, by simp [h3], h4, hgo _ _ (by rw [if_neg ht]; exact h5), h6⟩
          · refine Or.inr ⟨fun i' j' xs' cs' hm he => ?_, hgo _ _ (by rw [if_neg ht]; exact h4)⟩
            simp only [List.mem_append, List.mem_singleton, Prod.mk.injEq, Src.one.injEq] at hm
            rcases hm with hm | ⟨_, _, hm, _⟩
            · exact h3 i' j' xs' cs' hm he
            · rw [hm]; exact hv
    · exact ((a.hashTo hex e b h1).mono hext).snoc (fun xs' cs' h => by cases h; exact fun h3 => h2 h3.symm)
  · intro b hb
    obtain ⟨i', j', h4, h5⟩ := a.defMem b hb
    exact ⟨i', j', by simp [h4], h5.mono hext⟩
  · intro i' j' hm
    simp only [List.mem_append, List.mem_singleton, Prod.mk.injEq, reduceCtorEq, and_false, or_false] at hm
    exact a.defAll i' j' hm

theorem AInv.hash {E : AEnv} {exit fall n0 i j : Nat} {base : Nat → Blk} {v : List Nat} {R : Run}
    {dn : List (Nat × Nat × Src)} {l : Loop} {s : St} (a : AInv E exit fall n0 base v R dn l s)
    (hR : ∀ xs, R.test (.equal xs) = decide (v = xs))
    (start : Nat) (xs : List Nat) (cs : List (Option Nat)) (hex : E.exact = false) :
    AInv E exit fall n0 base v R (dn ++ [(i, j, .one xs cs)])
      (arrayStep E start exit fall i j l s (.one xs cs)).1
      (arrayStep E start exit fall i j l s (.one xs cs)).2 := by
  have hne : ¬ E.exact = true := by rw [hex]; simp
  cases hr : (replaceBlock (choiceEnc E.exact E.nbits cs) s.next l.cases).1 with
  | none =>
    have hno := replaceBlock_none _ _ _ hr
    have hs : arrayStep E start exit fall i j l s (.one xs cs) =
        ({ l with cases := l.cases ++ [(choiceEnc E.exact E.nbits cs, s.next)] },
         lowerBody E.toEnv i exit (select (ifCover E.toEnv i j (s.next + 1) (select
          (emitTerm (emitBlock (select (emitBlock s).2 s.next)).2 (.cond (.equal xs) (s.next + 1) fall)) start)) (s.next + 1))) := by
      simp only [arrayStep, if_neg hne]
      simp only [emitBlock, hr]
      rfl
    rw [hs]
    obtain ⟨h1, h2, h3⟩ := step_hash E.toEnv true i j exit start fall xs s a.good
    refine a.hashStep hR xs cs hex (covEvs E.toEnv i j) fall _ h1 h2 h3 (Or.inl rfl) (Or.inl ⟨rfl, hno⟩) (by simp)
      (fun x b hm => ⟨b, by simp [hm]⟩) (fun x b hm => ?_) ?_
    · simp only [List.mem_append, List.mem_singleton, Prod.mk.injEq] at hm
      rcases hm with hm | hm
      · refine Or.inr ⟨hm, fun h => ?_⟩
        subst h; exact hno b hm
      · exact Or.inl hm
    · rw [List.map_append, List.nodup_append]
      refine ⟨a.nodup hex, by simp, ?_⟩
      intro x hx y hy hxy
      simp only [List.map_cons, List.map_nil, List.mem_singleton] at hy
      subst hxy
      obtain ⟨p, hp1, hp2⟩ := List.mem_map.mp hx
      obtain ⟨p1, p2⟩ := p
      have hp2 : p1 = x := hp2
      subst hp2
      subst hy
      exact hno p2 hp1
  | some c =>
    obtain ⟨hm1, hm2, hm3⟩ := replaceBlock_some _ _ c _ hr (a.nodup hex)
    have hs : arrayStep E start exit fall i j l s (.one xs cs) =
        ({ l with cases := (replaceBlock (choiceEnc E.exact E.nbits cs) s.next l.cases).2 },
         lowerBody E.toEnv i exit (select
          (emitTerm (emitBlock (select (emitBlock s).2 s.next)).2 (.cond (.equal xs) (s.next + 1) c)) (s.next + 1))) := by
      simp only [arrayStep, if_neg hne]
      simp only [emitBlock, hr]
      rfl
    rw [hs]
    obtain ⟨h1, h2, h3⟩ := step_hash E.toEnv false i j exit start c xs s a.good
    refine a.hashStep hR xs cs hex [] c _ h1 h2 h3 (Or.inr rfl) (Or.inr hm1) hm2
      (fun x b hm => ?_) hm3 (by rw [replaceBlock_keys]; exact a.nodup hex)
    have : x ∈ (replaceBlock (choiceEnc E.exact E.nbits cs) s.next l.cases).2.map Prod.fst := by
      rw [replaceBlock_keys]
      exact List.mem_map.mpr ⟨_, hm, rfl⟩
    obtain ⟨⟨p1, p2⟩, hp1, hp2⟩ := List.mem_map.mp this
    have hp2 : p1 = x := hp2
    subst hp2
    exact ⟨p2, hp1⟩

/-- All choices, with their numbers. -/
def flatAlt (i : Nat) : Nat → List Src → List (Nat × Nat × Src)
  | _, [] => []
  | j, c :: cs => (i, j, c) :: flatAlt i (j + 1) cs

def flatAlts : Nat → List (List Src) → List (Nat × Nat × Src)
  | _, [] => []
  | i, cs :: alts => flatAlt i 0 cs ++ flatAlts (i + 1) alts

theorem arrayAlt_inv {E : AEnv} {exit fall n0 i : Nat} {base : Nat → Blk} {v : List Nat} {R : Run}
    (hR : ∀ xs, R.test (.equal xs) = decide (v = xs)) (start : Nat) (cs : List Src) :
    ∀ (j : Nat) (dn : List (Nat × Nat × Src)) (l : Loop) (s : St), AInv E exit fall n0 base v R dn l s →
      AInv E exit fall n0 base v R (dn ++ flatAlt i j cs)
        (arrayAlt E start exit fall i j cs l s).1 (arrayAlt E start exit fall i j cs l s).2 := by
  induction cs with
  | nil => intro j dn l s a; simpa [flatAlt, arrayAlt] using a
  | cons c cs ih =>
    intro j dn l s a
    have h : AInv E exit fall n0 base v R (dn ++ [(i, j, c)])
        (arrayStep E start exit fall i j l s c).1 (arrayStep E start exit fall i j l s c).2 := by
      cases c with
      | others => exact a.others start
      | one xs cs' =>
        cases hex : E.exact with
        | true => exact a.exact start xs cs' hex
        | false => exact a.hash hR start xs cs' hex
    have := ih (j + 1) _ _ _ h
    rw [List.append_assoc] at this
    exact this

theorem arrayAlts_inv {E : AEnv} {exit fall n0 : Nat} {base : Nat → Blk} {v : List Nat} {R : Run}
    (hR : ∀ xs, R.test (.equal xs) = decide (v = xs)) (start : Nat) (alts : List (List Src)) :
    ∀ (i : Nat) (dn : List (Nat × Nat × Src)) (l : Loop) (s : St), AInv E exit fall n0 base v R dn l s →
      AInv E exit fall n0 base v R (dn ++ flatAlts i alts)
        (arrayAlts E start exit fall i alts l s).1 (arrayAlts E start exit fall i alts l s).2 := by
  induction alts with
  | nil => intro i dn l s a; simpa [flatAlts, arrayAlts] using a
  | cons cs alts ih =>
    intro i dn l s a
    have := ih (i + 1) _ _ _ (arrayAlt_inv (i := i) hR start cs 0 dn l s a)
    rw [List.append_assoc] at this
    exact this

theorem mem_flatAlt (i : Nat) (cs : List Src) : ∀ (j i' j' : Nat) (c : Src),
    (i', j', c) ∈ flatAlt i j cs ↔ i' = i ∧ ∃ m, j' = j + m ∧ cs[m]? = some c := by
  induction cs with
  | nil => intro j i' j' c; simp [flatAlt]
  | cons c0 cs ih =>
    intro j i' j' c
    simp only [flatAlt, List.mem_cons, Prod.mk.injEq, ih]
    constructor
    · rintro (⟨h1, h2, h3⟩ | ⟨h1, m, h2, h3⟩)
      · exact ⟨h1, 0, h2, by simp [h3]⟩
      · exact ⟨h1, m + 1, by omega, by simpa using h3⟩
    · rintro ⟨h1, m, h2, h3⟩
      cases m with
      | zero => simp at h3; exact Or.inl ⟨h1, h2, h3.symm⟩
      | succ m => exact Or.inr ⟨h1, m, by omega, by simpa using h3⟩

theorem mem_flatAlts (alts : List (List Src)) : ∀ (i i' j' : Nat) (c : Src),
    (i', j', c) ∈ flatAlts i alts ↔ ∃ m cs, i' = i + m ∧ alts[m]? = some cs ∧ cs[j']? = some c := by
  induction alts with
  | nil => intro i i' j' c; simp [flatAlts]
  | cons cs0 alts ih =>
    intro i i' j' c
    simp only [flatAlts, List.mem_append, mem_flatAlt, ih]
    constructor
    · rintro (⟨h1, m, h2, h3⟩ | ⟨m, cs, h1, h2, h3⟩)
      · rw [Nat.zero_add] at h2
        subst h2
        exact ⟨0, cs0, h1, rfl, h3⟩
      · exact ⟨m + 1, cs, by omega, by simpa using h2, h3⟩
    · rintro ⟨m, cs, h1, h2, h3⟩
      cases m with
      | zero => simp at h2; subst h2; exact Or.inl ⟨h1, j', by omega, h3⟩
      | succ m => exact Or.inr ⟨m, cs, by omega, by simpa using h2, h3⟩

end Verif.Case
