import Verif.Case.Lemmas

/-! The two loops of `lower_case_scalar`. -/
namespace Verif.Case

/-! ### The loop over the ranges -/

/-- The first range of an alternative, from choice `j`, that has the value in it. -/
def rangeAlt (v : Int) : Nat → List Choice → Option Nat
  | _, [] => none
  | j, .range lo hi :: cs => if lo ≤ v ∧ v ≤ hi then some j else rangeAlt v (j + 1) cs
  | j, _ :: cs => rangeAlt v (j + 1) cs

def rangeAlts (v : Int) : Nat → List (List Choice) → Option (Nat × Nat)
  | _, [] => none
  | i, cs :: alts =>
    match rangeAlt v 0 cs with
    | some j => some (i, j)
    | none => rangeAlts v (i + 1) alts

/-- The state in the loop over the ranges. -/
structure RPre (exit : Nat) (s : St) : Prop where
  good : Good s
  cur : s.cur < s.next
  empty : s.blk s.cur = {}
  exitLt : exit < s.next
  exitNe : exit ≠ s.cur

/-- Where the blocks lead to if `out` is the choice that has been found. -/
def Leads (E : Env) (exit : Nat) (P : Nat → Blk) (R : Run) (b cur : Nat) :
    Option (Nat × Nat) → Prop
  | none => To P R b [] (some cur)
  | some (i, j) => To P R b (evsOf E i j) (finOf E exit i)

structure RPost (E : Env) (exit : Nat) (v : Int) (s s' : St) (out : Option (Nat × Nat)) : Prop where
  pre : RPre exit s'
  ext : Ext s.blk s'.blk
  next : s.next ≤ s'.next
  frame : ∀ b, b < s.next → b ≠ s.cur → s'.blk b = s.blk b
  leads : Leads E exit s'.blk (scalarRun v) s.cur s'.cur out

theorem RPost.refl (E : Env) (exit : Nat) (v : Int) (s : St) (p : RPre exit s) :
    RPost E exit v s s none :=
  ⟨p, Ext.refl _, Nat.le_refl _, fun _ _ _ => rfl, .here _⟩

/-- One range after another. -/
theorem RPost.trans {E : Env} {exit : Nat} {v : Int} {s s' s'' : St}
    {out out' : Option (Nat × Nat)} (h : RPost E exit v s s' out) (h' : RPost E exit v s' s'' out')
    (hcur : s'.cur = s.cur ∨ s.next ≤ s'.cur) : RPost E exit v s s'' (out.or out') := by
  refine ⟨h'.pre, h.ext.trans h'.ext, Nat.le_trans h.next h'.next, fun b hb hne => ?_, ?_⟩
  · rw [h'.frame b (Nat.lt_of_lt_of_le hb h.next) (by rcases hcur with e | e <;> omega),
      h.frame b hb hne]
  · cases out with
    | some p => exact To.mono h'.ext h.leads
    | none =>
      have h1 : To s'.blk (scalarRun v) s.cur [] (some s'.cur) := h.leads
      have h2 := h1.mono h'.ext
      cases out' with
      | none => exact h2.trans h'.leads
      | some p =>
        have := h2.trans (h'.leads : To _ _ _ _ _)
        rw [List.nil_append] at this
        exact this

theorem lowerRange_post (E : Env) (exit i j : Nat) (lo hi v : Int) (s : St) (p : RPre exit s) :
    RPost E exit v s (lowerRange E exit i j lo hi s)
      (if lo ≤ v ∧ v ≤ hi then some (i, j) else none) ∧
    s.next ≤ (lowerRange E exit i j lo hi s).cur := by
  have hnc : s.cur < s.next := p.cur
  have hex := p.exitLt
  -- the blocks at the end
  have hb : ∀ b, (lowerRange E exit i j lo hi s).blk b =
      if b = s.next + 1 then bodyBlk E i exit ⟨covEvs E i j, none⟩
      else if b = s.cur then ⟨[], some (.cond (.within lo hi) (s.next + 1) s.next)⟩
      else s.blk b := by
    intro b
    have hf : s.blk (s.next + 1) = {} := p.good.fresh _ (by omega)
    show (lowerBody E i exit (select (ifCover E i j (s.next + 1) (emitTerm _ _)) (s.next + 1))).blk b = _
    rw [lowerBody_blk]
    show (if b = s.next + 1 then bodyBlk E i exit ((ifCover E i j (s.next + 1) (emitTerm _ _)).blk (s.next + 1))
      else (ifCover E i j (s.next + 1) (emitTerm _ _)).blk b) = _
    rw [ifCover_blk, ifCover_blk, if_pos rfl, emitTerm_blk, emitTerm_blk]
    show (if b = s.next + 1 then bodyBlk E i exit _ else if b = s.next + 1 then _ else
      if b = s.cur then _ else s.blk b) = _
    by_cases h1 : b = s.next + 1
    · rw [if_pos h1, if_pos h1]
      congr 1
      show ({ (if s.next + 1 = s.cur then _ else s.blk (s.next + 1)) with evs := _ } : Blk) = _
      rw [if_neg (by omega), hf]
      show (⟨[] ++ _, none⟩ : Blk) = _
      rfl
    · rw [if_neg h1, if_neg h1, if_neg h1]
      by_cases h2 : b = s.cur
      · rw [if_pos h2, if_pos h2]
        show ({ s.blk s.cur with term := _ } : Blk) = _
        rw [p.empty]
      · rw [if_neg h2, if_neg h2]
  have hcur : (lowerRange E exit i j lo hi s).cur = s.next := rfl
  have hnext : (lowerRange E exit i j lo hi s).next = s.next + 2 := by
    show (ifCover E i j _ _).next = _
    rw [ifCover_next]
    rfl
  have hgood : Good (lowerRange E exit i j lo hi s) := by
    have g1 : Good (emitTerm (emitBlock (emitBlock s).2).2 (.cond (.within lo hi) (s.next + 1) s.next)) := by
      apply emitTerm_good _ _ (emitBlock_good (emitBlock_good p.good))
      · show s.cur < s.next + 1 + 1
        omega
      · show (s.blk s.cur).term = none
        rw [p.empty]
    have hf : s.blk (s.next + 1) = {} := p.good.fresh _ (by omega)
    have ht : ((emitTerm (emitBlock (emitBlock s).2).2 (.cond (.within lo hi) (s.next + 1) s.next)).blk (s.next + 1)).term = none := by
      rw [emitTerm_blk, if_neg (by show ¬ (s.next + 1 = s.cur); omega)]
      show (s.blk (s.next + 1)).term = none
      rw [hf]
    have g2 := ifCover_good E i j (s.next + 1) _ g1 (by show s.next + 1 < s.next + 1 + 1; omega) ht
    refine select_good (lowerBody_good E i exit _ (select_good g2 (s.next + 1)) ?_ ?_) s.next
    · show s.next + 1 < (ifCover E i j _ _).next
      rw [ifCover_next]
      show s.next + 1 < s.next + 1 + 1
      omega
    · show ((ifCover E i j (s.next + 1) _).blk (s.next + 1)).term = none
      rw [ifCover_blk, if_pos rfl]
      exact ht
  refine ⟨⟨⟨hgood, ?_, ?_, ?_, ?_⟩, ?_, ?_, ?_, ?_⟩, ?_⟩
  · rw [hcur, hnext]; omega
  · rw [hcur, hb, if_neg (by omega), if_neg (by omega)]
    exact p.good.fresh _ (Nat.le_refl _)
  · rw [hnext]; omega
  · rw [hcur]; omega
  · intro b hbt
    have h1 : b ≠ s.next + 1 := by
      intro h; subst h; exact hbt (by rw [p.good.fresh _ (by omega)])
    have h2 : b ≠ s.cur := by
      intro h; subst h; exact hbt (by rw [p.empty])
    rw [hb, if_neg h1, if_neg h2]
  · rw [hnext]; omega
  · intro b hlt hne
    rw [hb, if_neg (by omega), if_neg hne]
  · have hc : (lowerRange E exit i j lo hi s).blk s.cur =
        ⟨[], some (.cond (.within lo hi) (s.next + 1) s.next)⟩ := by
      rw [hb, if_neg (by omega), if_pos rfl]
    have hh : (lowerRange E exit i j lo hi s).blk (s.next + 1) =
        bodyBlk E i exit ⟨covEvs E i j, none⟩ := by
      rw [hb, if_pos rfl]
    by_cases hv : lo ≤ v ∧ v ≤ hi
    · rw [if_pos hv]
      have ht : (scalarRun v).test (.within lo hi) = true := decide_eq_true hv
      have := To.cond (P := (lowerRange E exit i j lo hi s).blk) (R := scalarRun v) (b := s.cur)
        (by rw [hc]) (by rw [if_pos ht]; exact bodyBlk_to hh)
      rw [hc] at this
      exact this
    · rw [if_neg hv]
      have ht : ¬ (scalarRun v).test (.within lo hi) = true := by
        show ¬ decide _ = true
        rw [decide_eq_true_iff]; exact hv
      have := To.cond (P := (lowerRange E exit i j lo hi s).blk) (R := scalarRun v) (b := s.cur)
        (by rw [hc]) (by rw [if_neg ht]; exact .here _)
      rw [hc] at this
      exact this
  · rw [hcur]; omega

theorem rangesAlt_post (E : Env) (exit i : Nat) (v : Int) (cs : List Choice) :
    ∀ (j : Nat) (s : St), RPre exit s →
      RPost E exit v s (rangesAlt E exit i j cs s) ((rangeAlt v j cs).map (fun j => (i, j))) ∧
      ((rangesAlt E exit i j cs s).cur = s.cur ∨ s.next ≤ (rangesAlt E exit i j cs s).cur) := by
  induction cs with
  | nil => intro j s p; exact ⟨RPost.refl _ _ _ _ p, Or.inl rfl⟩
  | cons c cs ih =>
    intro j s p
    cases c with
    | one x => exact ih (j + 1) s p
    | others => exact ih (j + 1) s p
    | range lo hi =>
      obtain ⟨h1, h2⟩ := lowerRange_post E exit i j lo hi v s p
      obtain ⟨h3, h4⟩ := ih (j + 1) _ h1.pre
      have hn := h1.next
      refine ⟨?_, ?_⟩
      · have := h1.trans h3 (Or.inr h2)
        unfold rangesAlt rangeAlt
        by_cases hv : lo ≤ v ∧ v ≤ hi
        · rw [if_pos hv] at this ⊢; exact this
        · rw [if_neg hv] at this ⊢; exact this
      · right
        show s.next ≤ (rangesAlt E exit i (j + 1) cs (lowerRange E exit i j lo hi s)).cur
        rcases h4 with h4 | h4 <;> omega

theorem rangesAlts_post (E : Env) (exit : Nat) (v : Int) (alts : List (List Choice)) :
    ∀ (i : Nat) (s : St), RPre exit s →
      RPost E exit v s (rangesAlts E exit i alts s) (rangeAlts v i alts) := by
  induction alts with
  | nil => intro i s p; exact RPost.refl _ _ _ _ p
  | cons cs alts ih =>
    intro i s p
    obtain ⟨h1, h2⟩ := rangesAlt_post E exit i v cs 0 s p
    have := h1.trans (ih (i + 1) _ h1.pre) h2
    unfold rangesAlts rangeAlts
    cases h : rangeAlt v 0 cs with
    | none => rw [h] at this; exact this
    | some j => rw [h] at this; exact this

/-! ### The loop over the other choices -/

/-- The block `b` is the entry for choice `j` of an alternative whose statements will be put
into block `h`. -/
def Entry (E : Env) (P : Nat → Blk) (h i j b : Nat) : Prop :=
  (b = h ∧ P h = ⟨covEvs E i j, none⟩) ∨
  (b ≠ h ∧ P b = ⟨covEvs E i j, some (.jump h)⟩ ∧ P h = {})

/-- `hit_bb` before a choice. -/
def HitOk (s : St) (l : Loop) : Prop := ∀ h, l.hit = some h → h < s.next ∧ s.blk h = {}

/-- What a choice that is not a range does. -/
structure CPost (E : Env) (i j : Nat) (multi : Bool) (l : Loop) (s : St) (h b : Nat) (s' : St) :
    Prop where
  good : Good s'
  next : s.next ≤ s'.next
  frame : ∀ c, c < s.next → s'.blk c = s.blk c
  hit : l.hit = some h ∨ (l.hit = none ∧ s.next ≤ h)
  hlt : h < s'.next
  entry : Entry E s'.blk h i j b
  hempty : (E.cover = false ∨ multi = true) → s'.blk h = {}

/-- The common part: make the blocks, count the choice, go on to the statements. -/
def hitPart (E : Env) (start i j : Nat) (multi : Bool) (l : Loop) (s : St) : Nat × Nat × St :=
  let (h, c, s) := hitBlocks E multi l s
  (h, c, joinHit h c (ifCover E i j c (select s start)))

theorem hitPart_post (E : Env) (start i j : Nat) (multi : Bool) (l : Loop) (s : St) (g : Good s)
    (ho : HitOk s l) (hm : E.cover = false ∨ multi = true ∨ l.hit = none) :
    CPost E i j multi l s (hitPart E start i j multi l s).1 (hitPart E start i j multi l s).2.1
      (hitPart E start i j multi l s).2.2 := by
  -- the block of the statements
  obtain ⟨h, s1, he, hh, hlt, hemp, g1, hn1, hf1⟩ :
      ∃ h s1, hitOf l s = (h, s1) ∧
        (l.hit = some h ∨ (l.hit = none ∧ s.next ≤ h)) ∧ h < s1.next ∧ s1.blk h = {} ∧ Good s1 ∧
        s.next ≤ s1.next ∧ s1.blk = s.blk := by
    unfold hitOf
    cases hl : l.hit with
    | some h => exact ⟨h, s, rfl, Or.inl rfl, (ho h hl).1, (ho h hl).2, g, Nat.le_refl _, rfl⟩
    | none =>
      exact ⟨s.next, (emitBlock s).2, rfl, Or.inr ⟨rfl, Nat.le_refl _⟩, Nat.lt_succ_self _,
        g.fresh _ (Nat.le_refl _), emitBlock_good g, Nat.le_succ _, rfl⟩
  by_cases hc : (E.cover && multi) = true
  · -- a block of its own for the counter
    have hcov : E.cover = true := by revert hc; cases E.cover <;> simp
    have e : hitPart E start i j multi l s = (h, s1.next,
        joinHit h s1.next (ifCover E i j s1.next (select (emitBlock s1).2 start))) := by
      simp only [hitPart, hitBlocks, he, if_pos hc]
      rfl
    have hne : s1.next ≠ h := by omega
    have hfr : s1.blk s1.next = {} := g1.fresh _ (Nat.le_refl _)
    have hb : ∀ b, (joinHit h s1.next (ifCover E i j s1.next (select (emitBlock s1).2 start))).blk b =
        if b = s1.next then ⟨covEvs E i j, some (.jump h)⟩ else s1.blk b := by
      intro b
      simp only [joinHit, if_neg hne]
      rw [emitTerm_blk]
      show (if b = s1.next then ({ (ifCover E i j s1.next (select (emitBlock s1).2 start)).blk s1.next with term := _ } : Blk)
        else (ifCover E i j s1.next (select (emitBlock s1).2 start)).blk b) = _
      rw [ifCover_blk, ifCover_blk, if_pos rfl]
      show (if b = s1.next then ({ ({ s1.blk s1.next with evs := (s1.blk s1.next).evs ++ _ } : Blk) with term := _ } : Blk)
        else if b = s1.next then _ else s1.blk b) = _
      rw [hfr]
      by_cases h1 : b = s1.next
      · rw [if_pos h1, if_pos h1]; rfl
      · rw [if_neg h1, if_neg h1, if_neg h1]
    have hnx : (joinHit h s1.next (ifCover E i j s1.next (select (emitBlock s1).2 start))).next = s1.next + 1 := by
      simp only [joinHit, if_neg hne]
      show (ifCover E i j s1.next (select (emitBlock s1).2 start)).next = _
      rw [ifCover_next]
      rfl
    have gd : Good (joinHit h s1.next (ifCover E i j s1.next (select (emitBlock s1).2 start))) := by
      simp only [joinHit, if_neg hne]
      have g2 := ifCover_good E i j s1.next (select (emitBlock s1).2 start)
        (select_good (emitBlock_good g1) _) (Nat.lt_succ_self _)
        (by show (s1.blk s1.next).term = none; rw [hfr])
      apply emitTerm_good _ _ (select_good g2 _)
      · show s1.next < (ifCover E i j s1.next (select (emitBlock s1).2 start)).next
        rw [ifCover_next]
        exact Nat.lt_succ_self _
      · show ((ifCover E i j s1.next (select (emitBlock s1).2 start)).blk s1.next).term = none
        rw [ifCover_blk, if_pos rfl]
        show (s1.blk s1.next).term = none
        rw [hfr]
    rw [e]
    refine ⟨gd, by rw [hnx]; omega, fun c hc => ?_, hh, by rw [hnx]; omega, Or.inr ⟨hne, ?_, ?_⟩, fun _ => ?_⟩
    · rw [hb, if_neg (by omega), hf1]
    · rw [hb, if_pos rfl]
    · rw [hb, if_neg (by omega), hemp]
    · rw [hb, if_neg (by omega), hemp]
  · have e : hitPart E start i j multi l s = (h, h, ifCover E i j h (select s1 start)) := by
      simp only [hitPart, hitBlocks, he, if_neg hc, joinHit]
      rfl
    have hb : ∀ b, (ifCover E i j h (select s1 start)).blk b =
        if b = h then ⟨covEvs E i j, none⟩ else s1.blk b := by
      intro b
      rw [ifCover_blk]
      show (if b = h then ({ s1.blk h with evs := (s1.blk h).evs ++ _ } : Blk) else s1.blk b) = _
      rw [hemp]
      rfl
    have hnx : (ifCover E i j h (select s1 start)).next = s1.next := by
      rw [ifCover_next]; rfl
    rw [e]
    refine ⟨ifCover_good E i j h _ (select_good g1 _) hlt (by show (s1.blk h).term = none; rw [hemp]),
      by rw [hnx]; omega, fun c hcl => ?_, hh, by rw [hnx]; omega, Or.inl ⟨rfl, by rw [hb, if_pos rfl]⟩, ?_⟩
    · rw [hb]
      by_cases h1 : c = h
      · subst h1
        rw [if_pos rfl]
        rcases hh with hh | ⟨_, hh⟩
        · -- an earlier choice of the same alternative: nothing is counted
          have : E.cover = false := by
            rcases hm with h2 | h2 | h2
            · exact h2
            · revert hc; rw [h2]; cases E.cover <;> simp
            · rw [hh] at h2; cases h2
          have h3 := (ho c hh).2
          rw [h3]
          simp [covEvs, this]
        · omega
      · rw [if_neg h1, hf1]
    · intro h2
      have : E.cover = false := by
        rcases h2 with h2 | h2
        · exact h2
        · revert hc; rw [h2]; cases E.cover <;> simp
      rw [hb, if_pos rfl]
      simp [covEvs, this]

theorem Entry.lt {E : Env} {s : St} {h i j b : Nat} (g : Good s) (hl : h < s.next)
    (e : Entry E s.blk h i j b) : b < s.next := by
  rcases e with ⟨e, _⟩ | ⟨_, e, _⟩
  · omega
  · rcases Nat.lt_or_ge b s.next with h1 | h1
    · exact h1
    · rw [g.fresh b h1] at e
      have := congrArg Blk.term e
      cases this

theorem Entry.frame {E : Env} {P P' : Nat → Blk} {h i j b : Nat} (e : Entry E P h i j b)
    (hh : P' h = P h) (hb : P' b = P b) : Entry E P' h i j b := by
  rcases e with ⟨e1, e2⟩ | ⟨e1, e2, e3⟩
  · exact Or.inl ⟨e1, by rw [hh, e2]⟩
  · exact Or.inr ⟨e1, by rw [hb, e2], by rw [hh, e3]⟩

/-- What the choices of an alternative, from choice `j`, do. -/
structure APost (E : Env) (i j : Nat) (cs : List Choice) (l : Loop) (s : St) (l' : Loop) (s' : St) :
    Prop where
  good : Good s'
  next : s.next ≤ s'.next
  frame : ∀ c, c < s.next → s'.blk c = s.blk c
  hitKeep : ∀ h, l.hit = some h → l'.hit = some h
  hitNew : ∀ h, l'.hit = some h →
    h < s'.next ∧ (s'.blk h).term = none ∧ (l.hit = some h ∨ (l.hit = none ∧ s.next ≤ h))
  casesMem : ∀ x b, (x, b) ∈ l'.cases → (x, b) ∈ l.cases ∨
    ∃ (h k : Nat), l'.hit = some h ∧ cs[k]? = some (.one x) ∧ Entry E s'.blk h i (j + k) b
  casesOld : ∀ p, p ∈ l.cases → p ∈ l'.cases
  casesAll : ∀ (k : Nat) x, cs[k]? = some (.one x) → ∃ b, (x, b) ∈ l'.cases
  defMem : ∀ b, l'.deflt = some b → l.deflt = some b ∨
    ∃ (h k : Nat), l'.hit = some h ∧ cs[k]? = some .others ∧ Entry E s'.blk h i (j + k) b
  defOld : l.deflt ≠ none → l'.deflt ≠ none
  defAll : ∀ k : Nat, cs[k]? = some .others → l'.deflt ≠ none

theorem APost.nil {E : Env} {i j : Nat} {l : Loop} {s : St} (g : Good s)
    (ho : ∀ h, l.hit = some h → h < s.next ∧ (s.blk h).term = none) :
    APost E i j [] l s l s where
  good := g
  next := Nat.le_refl _
  frame := fun _ _ => rfl
  hitKeep := fun _ h => h
  hitNew := fun h hh => ⟨(ho h hh).1, (ho h hh).2, Or.inl hh⟩
  casesMem := fun _ _ h => Or.inl h
  casesOld := fun _ h => h
  casesAll := fun k x h => by simp at h
  defMem := fun _ h => Or.inl h
  defOld := fun h => h
  defAll := fun k h => by simp at h

/-- A range is passed over. -/
theorem APost.range {E : Env} {i j : Nat} {lo hi : Int} {cs : List Choice} {l l' : Loop} {s s' : St}
    (h : APost E i (j + 1) cs l s l' s') : APost E i j (.range lo hi :: cs) l s l' s' where
  good := h.good
  next := h.next
  frame := h.frame
  hitKeep := h.hitKeep
  hitNew := h.hitNew
  casesMem := fun x b hm => by
    rcases h.casesMem x b hm with h1 | ⟨h', k, h1, h2, h3⟩
    · exact Or.inl h1
    · exact Or.inr ⟨h', k + 1, h1, by simpa using h2, by rw [Nat.add_assoc, Nat.add_comm 1 k] at h3; exact h3⟩
  casesOld := h.casesOld
  casesAll := fun k x hk => by
    cases k with
    | zero => simp at hk
    | succ k => exact h.casesAll k x (by simpa using hk)
  defMem := fun b hm => by
    rcases h.defMem b hm with h1 | ⟨h', k, h1, h2, h3⟩
    · exact Or.inl h1
    · exact Or.inr ⟨h', k + 1, h1, by simpa using h2, by rw [Nat.add_assoc, Nat.add_comm 1 k] at h3; exact h3⟩
  defOld := h.defOld
  defAll := fun k hk => by
    cases k with
    | zero => simp at hk
    | succ k => exact h.defAll k (by simpa using hk)

theorem APost.one {E : Env} {i j : Nat} {multi : Bool} {x : Int} {cs : List Choice} {l l' : Loop}
    {s s1 s' : St} {hb b : Nat} (c : CPost E i j multi l s hb b s1)
    (h : APost E i (j + 1) cs { l with hit := some hb, cases := l.cases ++ [(x, b)] } s1 l' s') :
    APost E i j (.one x :: cs) l s l' s' := by
  have hent : Entry E s'.blk hb i j b := c.entry.frame (h.frame _ c.hlt) (h.frame _ (c.entry.lt c.good c.hlt))
  have hhit : l'.hit = some hb := h.hitKeep hb rfl
  refine ⟨h.good, Nat.le_trans c.next h.next, fun d hd => ?_, fun h0 hh => ?_, fun h0 hh => ?_, ?_, ?_, ?_, ?_, ?_, ?_⟩
  · rw [h.frame d (Nat.lt_of_lt_of_le hd c.next), c.frame d hd]
  · rcases c.hit with h1 | ⟨h1, _⟩
    · rw [h1] at hh; cases hh; exact hhit
    · rw [h1] at hh; cases hh
  · rw [hhit] at hh
    cases hh
    obtain ⟨h1, h2, _⟩ := h.hitNew hb hhit
    exact ⟨h1, h2, c.hit⟩
  · intro y d hm
    rcases h.casesMem y d hm with h1 | ⟨h0, k, h1, h2, h3⟩
    · simp only [List.mem_append, List.mem_singleton, Prod.mk.injEq] at h1
      rcases h1 with h1 | ⟨h1, h2⟩
      · exact Or.inl h1
      · subst h1; subst h2
        exact Or.inr ⟨hb, 0, hhit, rfl, hent⟩
    · exact Or.inr ⟨h0, k + 1, h1, by simpa using h2, by rw [Nat.add_assoc, Nat.add_comm 1 k] at h3; exact h3⟩
  · intro p hp
    exact h.casesOld p (by simp [hp])
  · intro k y hk
    cases k with
    | zero =>
      simp at hk; subst hk
      exact ⟨b, h.casesOld _ (by simp)⟩
    | succ k => exact h.casesAll k y (by simpa using hk)
  · intro d hm
    rcases h.defMem d hm with h1 | ⟨h0, k, h1, h2, h3⟩
    · exact Or.inl h1
    · exact Or.inr ⟨h0, k + 1, h1, by simpa using h2, by rw [Nat.add_assoc, Nat.add_comm 1 k] at h3; exact h3⟩
  · exact h.defOld
  · intro k hk
    cases k with
    | zero => simp at hk
    | succ k => exact h.defAll k (by simpa using hk)

theorem APost.others {E : Env} {i j : Nat} {multi : Bool} {cs : List Choice} {l l' : Loop}
    {s s1 s' : St} {hb b : Nat} (c : CPost E i j multi l s hb b s1)
    (h : APost E i (j + 1) cs { l with hit := some hb, deflt := some b } s1 l' s') :
    APost E i j (.others :: cs) l s l' s' := by
  have hent : Entry E s'.blk hb i j b := c.entry.frame (h.frame _ c.hlt) (h.frame _ (c.entry.lt c.good c.hlt))
  have hhit : l'.hit = some hb := h.hitKeep hb rfl
  refine ⟨h.good, Nat.le_trans c.next h.next, fun d hd => ?_, fun h0 hh => ?_, fun h0 hh => ?_, ?_, ?_, ?_, ?_, ?_, ?_⟩
  · rw [h.frame d (Nat.lt_of_lt_of_le hd c.next), c.frame d hd]
  · rcases c.hit with h1 | ⟨h1, _⟩
    · rw [h1] at hh; cases hh; exact hhit
    · rw [h1] at hh; cases hh
  · rw [hhit] at hh
    cases hh
    obtain ⟨h1, h2, _⟩ := h.hitNew hb hhit
    exact ⟨h1, h2, c.hit⟩
  · intro y d hm
    rcases h.casesMem y d hm with h1 | ⟨h0, k, h1, h2, h3⟩
    · exact Or.inl h1
    · exact Or.inr ⟨h0, k + 1, h1, by simpa using h2, by rw [Nat.add_assoc, Nat.add_comm 1 k] at h3; exact h3⟩
  · intro p hp
    exact h.casesOld p hp
  · intro k y hk
    cases k with
    | zero => simp at hk
    | succ k => exact h.casesAll k y (by simpa using hk)
  · intro d hm
    rcases h.defMem d hm with h1 | ⟨h0, k, h1, h2, h3⟩
    · have h1 : some b = some d := h1
      cases h1
      exact Or.inr ⟨hb, 0, hhit, rfl, hent⟩
    · exact Or.inr ⟨h0, k + 1, h1, by simpa using h2, by rw [Nat.add_assoc, Nat.add_comm 1 k] at h3; exact h3⟩
  · intro _
    exact h.defOld (by simp)
  · intro k hk
    exact h.defOld (by simp)

theorem choicesAlt_post (E : Env) (start i : Nat) (multi : Bool) (cs : List Choice) :
    ∀ (j : Nat) (l : Loop) (s : St), Good s → HitOk s l →
      (E.cover = false ∨ multi = true ∨ (cs.length ≤ 1 ∧ l.hit = none)) →
      APost E i j cs l s (choicesAlt E start i multi j cs l s).1 (choicesAlt E start i multi j cs l s).2 := by
  induction cs with
  | nil =>
    intro j l s g ho _
    exact APost.nil g (fun h hh => ⟨(ho h hh).1, by rw [(ho h hh).2]⟩)
  | cons c cs ih =>
    intro j l s g ho hm
    have hm' : E.cover = false ∨ multi = true ∨ l.hit = none := by
      rcases hm with h | h | ⟨_, h⟩
      · exact Or.inl h
      · exact Or.inr (Or.inl h)
      · exact Or.inr (Or.inr h)
    -- the rest, after a choice that is not a range
    have rest : ∀ (l1 : Loop) (s1 : St) (h b : Nat), l1.hit = some h → CPost E i j multi l s h b s1 →
        APost E i (j + 1) cs l1 s1 (choicesAlt E start i multi (j + 1) cs l1 s1).1
          (choicesAlt E start i multi (j + 1) cs l1 s1).2 := by
      intro l1 s1 h b hl1 c
      by_cases h2 : E.cover = false ∨ multi = true
      · refine ih (j + 1) l1 s1 c.good (fun h0 hh => ?_) ?_
        · rw [hl1] at hh; cases hh
          exact ⟨c.hlt, c.hempty h2⟩
        · rcases h2 with h2 | h2
          · exact Or.inl h2
          · exact Or.inr (Or.inl h2)
      · have : cs = [] := by
          rcases hm with h3 | h3 | ⟨h3, _⟩
          · exact absurd (Or.inl h3) h2
          · exact absurd (Or.inr h3) h2
          · exact List.length_eq_zero_iff.mp (by simp only [List.length_cons] at h3; omega)
        subst this
        refine APost.nil c.good (fun h0 hh => ?_)
        rw [hl1] at hh; cases hh
        refine ⟨c.hlt, ?_⟩
        rcases c.entry with ⟨_, e⟩ | ⟨_, _, e⟩ <;> rw [e]
    cases c with
    | range lo hi =>
      refine APost.range (ih (j + 1) l s g ho ?_)
      rcases hm with h | h | ⟨h, h'⟩
      · exact Or.inl h
      · exact Or.inr (Or.inl h)
      · exact Or.inr (Or.inr ⟨by simp at h ⊢; simp [h], h'⟩)
    | one x =>
      have c := hitPart_post E start i j multi l s g ho hm'
      exact APost.one c (rest _ _ _ _ rfl c)
    | others =>
      have c := hitPart_post E (hitBlocks E multi l s).2.2.cur i j multi l s g ho hm'
      exact APost.others c (rest _ _ _ _ rfl c)

/-- The entry of a choice, when the statements are in their block. -/
theorem Entry.to {E : Env} {P P' : Nat → Blk} {h i j b exit : Nat} (e : Entry E P h i j b)
    (hh : P' h = bodyBlk E i exit (P h)) (hb : b ≠ h → P' b = P b) (R : Run) :
    To P' R b (evsOf E i j) (finOf E exit i) := by
  have hto := bodyBlk_to (R := R) hh
  rcases e with ⟨e1, e2⟩ | ⟨e1, e2, e3⟩
  · subst e1
    rw [e2] at hto
    exact hto
  · rw [e3] at hto
    have := To.jump (P := P') (R := R) (b := b) (c := h) (by rw [hb e1, e2]) hto
    rw [hb e1, e2] at this
    exact this

/-- Finished blocks stay if all blocks that have been made stay. -/
theorem ext_of_frame {s s' : St} (g : Good s) (h : ∀ c, c < s.next → s'.blk c = s.blk c) :
    Ext s.blk s'.blk := by
  intro b hb
  rcases Nat.lt_or_ge b s.next with h1 | h1
  · exact h b h1
  · exact absurd (by rw [g.fresh b h1]) hb

/-- What the alternatives from number `i0` on do. -/
structure OPost (E : Env) (exit i0 : Nat) (alts : List (List Choice)) (l : Loop) (s : St)
    (l' : Loop) (s' : St) : Prop where
  good : Good s'
  next : s.next ≤ s'.next
  frame : ∀ c, c < s.next → s'.blk c = s.blk c
  casesMem : ∀ x b, (x, b) ∈ l'.cases → (x, b) ∈ l.cases ∨
    ∃ (k j : Nat) (cs : List Choice), alts[k]? = some cs ∧ cs[j]? = some (.one x) ∧
      ∀ R, To s'.blk R b (evsOf E (i0 + k) j) (finOf E exit (i0 + k))
  casesOld : ∀ p, p ∈ l.cases → p ∈ l'.cases
  casesAll : ∀ (k j : Nat) (cs : List Choice) x, alts[k]? = some cs → cs[j]? = some (.one x) →
    ∃ b, (x, b) ∈ l'.cases
  defMem : ∀ b, l'.deflt = some b → l.deflt = some b ∨
    ∃ (k j : Nat) (cs : List Choice), alts[k]? = some cs ∧ cs[j]? = some .others ∧
      ∀ R, To s'.blk R b (evsOf E (i0 + k) j) (finOf E exit (i0 + k))
  defOld : l.deflt ≠ none → l'.deflt ≠ none
  defAll : ∀ (k j : Nat) (cs : List Choice), alts[k]? = some cs → cs[j]? = some .others →
    l'.deflt ≠ none

theorem choicesAlts_post (E : Env) (start exit : Nat) (alts : List (List Choice)) :
    ∀ (i : Nat) (l : Loop) (s : St), Good s →
      OPost E exit i alts l s (choicesAlts E start exit i alts l s).1
        (choicesAlts E start exit i alts l s).2 := by
  induction alts with
  | nil =>
    intro i l s g
    exact ⟨g, Nat.le_refl _, fun _ _ => rfl, fun _ _ h => Or.inl h, fun _ h => h,
      fun k j cs x h => by simp at h, fun _ h => Or.inl h, fun h => h, fun k j cs h => by simp at h⟩
  | cons cs alts ih =>
    intro i l s g
    have a := choicesAlt_post E start i (decide (cs.length > 1)) cs 0 { l with hit := none } s g
      (fun h hh => by cases hh)
      (by
        by_cases h : cs.length > 1
        · exact Or.inr (Or.inl (decide_eq_true h))
        · exact Or.inr (Or.inr ⟨by omega, rfl⟩))
    generalize hr : choicesAlt E start i (decide (cs.length > 1)) 0 cs { l with hit := none } s = r at a
    obtain ⟨l1, s1⟩ := r
    -- the statements
    obtain ⟨g2, hn2, hf2, hto⟩ : Good (bodyAlt E exit i l1.hit s1) ∧
        (bodyAlt E exit i l1.hit s1).next = s1.next ∧
        (∀ c, c < s.next → (bodyAlt E exit i l1.hit s1).blk c = s.blk c) ∧
        (∀ h j b, l1.hit = some h → Entry E s1.blk h i j b →
          ∀ R, To (bodyAlt E exit i l1.hit s1).blk R b (evsOf E i j) (finOf E exit i)) := by
      unfold bodyAlt
      cases hh : l1.hit with
      | none => exact ⟨a.good, rfl, a.frame, fun h j b h1 => by cases h1⟩
      | some h =>
        obtain ⟨h1, h2, h3⟩ := a.hitNew h hh
        refine ⟨lowerBody_good E i exit _ (select_good a.good h) h1 h2, rfl, fun c hc => ?_, fun h0 j b hs e R => ?_⟩
        · show (lowerBody E i exit (select s1 h)).blk c = _
          rw [lowerBody_blk]
          rcases h3 with h3 | ⟨_, h3⟩
          · cases h3
          · rw [if_neg (by show ¬ (c = h); omega)]
            exact a.frame c hc
        · cases hs
          refine e.to (P' := (lowerBody E i exit (select s1 h)).blk) ?_ (fun hne => ?_) R
          · rw [lowerBody_blk]; exact if_pos rfl
          · rw [lowerBody_blk]; exact if_neg hne
    have o := ih (i + 1) l1 (bodyAlt E exit i l1.hit s1) g2
    have hun : choicesAlts E start exit i (cs :: alts) l s =
        choicesAlts E start exit (i + 1) alts l1 (bodyAlt E exit i l1.hit s1) := by
      conv => lhs; unfold choicesAlts
      rw [hr]
    rw [hun]
    have hext := ext_of_frame g2 o.frame
    have hsn : s.next ≤ (bodyAlt E exit i l1.hit s1).next := by rw [hn2]; exact a.next
    have shift : ∀ k, i + 1 + k = i + (k + 1) := by intro k; omega
    refine ⟨o.good, Nat.le_trans hsn o.next, fun c hc => ?_, ?_, ?_, ?_, ?_, ?_, ?_⟩
    · rw [o.frame c (Nat.lt_of_lt_of_le hc hsn), hf2 c hc]
    · intro x b hm
      rcases o.casesMem x b hm with h1 | ⟨k, j, cs', h1, h2, h3⟩
      · rcases a.casesMem x b h1 with h1 | ⟨h0, k, h1, h2, h3⟩
        · exact Or.inl h1
        · rw [Nat.zero_add] at h3
          exact Or.inr ⟨0, k, cs, rfl, h2, fun R => (hto h0 k b h1 h3 R).mono hext⟩
      · rw [shift] at h3
        exact Or.inr ⟨k + 1, j, cs', by simpa using h1, h2, h3⟩
    · intro p hp
      exact o.casesOld p (a.casesOld p hp)
    · intro k j cs' x h1 h2
      cases k with
      | zero =>
        simp at h1; subst h1
        obtain ⟨b, hb⟩ := a.casesAll j x h2
        exact ⟨b, o.casesOld _ hb⟩
      | succ k => exact o.casesAll k j cs' x (by simpa using h1) h2
    · intro b hm
      rcases o.defMem b hm with h1 | ⟨k, j, cs', h1, h2, h3⟩
      · rcases a.defMem b h1 with h1 | ⟨h0, k, h1, h2, h3⟩
        · exact Or.inl h1
        · rw [Nat.zero_add] at h3
          exact Or.inr ⟨0, k, cs, rfl, h2, fun R => (hto h0 k b h1 h3 R).mono hext⟩
      · rw [shift] at h3
        exact Or.inr ⟨k + 1, j, cs', by simpa using h1, h2, h3⟩
    · intro h
      exact o.defOld (a.defOld h)
    · intro k j cs' h1 h2
      cases k with
      | zero =>
        simp at h1; subst h1
        exact o.defOld (a.defAll j h2)
      | succ k => exact o.defAll k j cs' (by simpa using h1) h2

end Verif.Case
