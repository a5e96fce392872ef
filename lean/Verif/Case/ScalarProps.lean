import Verif.Case.ScalarLemmas

/-! C87: a case statement over a scalar executes the alternative for the value. -/
namespace Verif.Case

theorem rangeAlt_some (v : Int) (cs : List Choice) : ∀ j k, rangeAlt v j cs = some k →
    ∃ (m : Nat) (lo hi : Int), k = j + m ∧ cs[m]? = some (.range lo hi) ∧ lo ≤ v ∧ v ≤ hi := by
  induction cs with
  | nil => intro j k h; cases h
  | cons c cs ih =>
    intro j k h
    have step : rangeAlt v (j + 1) cs = some k →
        ∃ (m : Nat) (lo hi : Int), k = j + m ∧ (c :: cs)[m]? = some (.range lo hi) ∧ lo ≤ v ∧ v ≤ hi := by
      intro h
      obtain ⟨m, lo, hi, h1, h2, h3⟩ := ih (j + 1) k h
      exact ⟨m + 1, lo, hi, by omega, by simpa using h2, h3⟩
    cases c with
    | one x => exact step h
    | others => exact step h
    | range lo hi =>
      unfold rangeAlt at h
      by_cases hv : lo ≤ v ∧ v ≤ hi
      · rw [if_pos hv] at h
        cases h
        exact ⟨0, lo, hi, rfl, rfl, hv⟩
      · rw [if_neg hv] at h
        exact step h

theorem rangeAlt_none (v : Int) (cs : List Choice) : ∀ j, rangeAlt v j cs = none →
    ∀ lo hi, .range lo hi ∈ cs → ¬ (lo ≤ v ∧ v ≤ hi) := by
  induction cs with
  | nil => intro j h lo hi hm; cases hm
  | cons c cs ih =>
    intro j h lo hi hm
    cases c with
    | one x => exact ih (j + 1) h lo hi (by simpa using hm)
    | others => exact ih (j + 1) h lo hi (by simpa using hm)
    | range lo' hi' =>
      unfold rangeAlt at h
      by_cases hv : lo' ≤ v ∧ v ≤ hi'
      · rw [if_pos hv] at h; cases h
      · rw [if_neg hv] at h
        simp only [List.mem_cons, Choice.range.injEq] at hm
        rcases hm with ⟨h1, h2⟩ | hm
        · rw [h1, h2]; exact hv
        · exact ih (j + 1) h lo hi hm

theorem rangeAlts_some (v : Int) (alts : List (List Choice)) : ∀ i i' j', rangeAlts v i alts = some (i', j') →
    ∃ (m : Nat) (cs : List Choice) (lo hi : Int), i' = i + m ∧ alts[m]? = some cs ∧
      cs[j']? = some (.range lo hi) ∧ lo ≤ v ∧ v ≤ hi := by
  induction alts with
  | nil => intro i i' j' h; cases h
  | cons cs alts ih =>
    intro i i' j' h
    unfold rangeAlts at h
    cases hr : rangeAlt v 0 cs with
    | some j =>
      rw [hr] at h
      cases h
      obtain ⟨m, lo, hi, h1, h2, h3⟩ := rangeAlt_some v cs 0 j' hr
      rw [Nat.zero_add] at h1
      subst h1
      exact ⟨0, cs, lo, hi, rfl, rfl, h2, h3⟩
    | none =>
      rw [hr] at h
      obtain ⟨m, cs', lo, hi, h1, h2, h3⟩ := ih (i + 1) i' j' h
      exact ⟨m + 1, cs', lo, hi, by omega, by simpa using h2, h3⟩

theorem rangeAlts_none (v : Int) (alts : List (List Choice)) : ∀ i, rangeAlts v i alts = none →
    ∀ cs ∈ alts, ∀ lo hi, .range lo hi ∈ cs → ¬ (lo ≤ v ∧ v ≤ hi) := by
  induction alts with
  | nil => intro i h cs hm; cases hm
  | cons cs alts ih =>
    intro i h cs' hm
    unfold rangeAlts at h
    cases hr : rangeAlt v 0 cs with
    | some j => rw [hr] at h; cases h
    | none =>
      rw [hr] at h
      simp only [List.mem_cons] at hm
      rcases hm with hm | hm
      · subst hm; exact rangeAlt_none v cs' 0 hr
      · exact ih (i + 1) h cs' hm

/-- **C87a.**  The code for a case statement over a scalar executes, for each value, the
alternative that the standard selects, once, and counts the choice that stands for the value if
coverage is collected.  If there is no choice for the value nothing is executed.  Then control
is at the block where the code goes on, unless the statements left. -/
theorem scalar_case (E : Env) (known : Option Int) (alts : List (List Choice)) (s : St) (v : Int)
    (g : Good s) (hcur : s.cur < s.next) (hempty : s.blk s.cur = {})
    (hk : ∀ k, known = some k → v = k) (hd : Disjoint Choice.Covers .others alts) :
    let r := lowerScalar E known alts s
    Good r.2 ∧ r.2.cur = r.1 ∧ r.2.blk r.1 = {} ∧
    (∀ i j, Selected Choice.Covers .others alts v i j →
      To r.2.blk (scalarRun v) s.cur ((if E.cover then [.cover i j] else []) ++ [.run i])
        (if E.falls i then some r.1 else none)) ∧
    (NoneSelected Choice.Covers .others alts v →
      To r.2.blk (scalarRun v) s.cur [] (some r.1)) := by
  intro r
  have hex : (emitBlock s).1 = s.next := rfl
  have p0 : RPre s.next (emitBlock s).2 :=
    ⟨emitBlock_good g, by show s.cur < s.next + 1; omega, hempty, Nat.lt_succ_self _,
      by show s.next ≠ s.cur; omega⟩
  have a := rangesAlts_post E s.next v alts 0 _ p0
  generalize hs1 : rangesAlts E s.next 0 alts (emitBlock s).2 = s1 at a
  have o := choicesAlts_post E s1.cur s.next alts 0 {} s1 a.pre.good
  generalize hr : choicesAlts E s1.cur s.next 0 alts {} s1 = q at o
  obtain ⟨l, s2⟩ := q
  have hlt1 : s1.cur < s2.next := Nat.lt_of_lt_of_le a.pre.cur o.next
  have hstart : (select s2 s1.cur).blk (select s2 s1.cur).cur = {} := by
    show s2.blk s1.cur = {}
    rw [o.frame _ a.pre.cur]; exact a.pre.empty
  have hrdef : r = (s.next, select (emitCase known (l.deflt.getD s.next) l.cases (select s2 s1.cur)) s.next) := by
    show lowerScalar E known alts s = _
    unfold lowerScalar
    simp only [hex, hs1, hr]
  rw [hrdef]
  have hto := emitCase_to (scalarRun v) known (fun k h => hk k h) (l.deflt.getD s.next) l.cases
    (select s2 s1.cur) hstart
  have hgood := emitCase_good known (l.deflt.getD s.next) l.cases (select s2 s1.cur)
    (select_good o.good _) hlt1 (by rw [hstart])
  have hblk := emitCase_blk known (l.deflt.getD s.next) l.cases (select s2 s1.cur)
  generalize hs3 : emitCase known (l.deflt.getD s.next) l.cases (select s2 s1.cur) = s3 at hto hgood hblk
  have hext2 : Ext s2.blk s3.blk := by
    intro b hb
    refine hblk b ?_
    intro h
    have h : b = s1.cur := h
    subst h
    exact hb (by have : s2.blk s1.cur = {} := hstart; rw [this])
  have hext1 : Ext s1.blk s3.blk := (ext_of_frame a.pre.good o.frame).trans hext2
  -- from the start to where the ranges end
  have hl := a.leads
  have hto : To s3.blk (scalarRun v) s1.cur [] (some (target (l.deflt.getD s.next) l.cases v)) := hto
  have hstartTo : rangeAlts v 0 alts = none →
      To s3.blk (scalarRun v) s.cur [] (some (target (l.deflt.getD s.next) l.cases v)) := by
    intro h
    rw [h] at hl
    have h1 : To s1.blk (scalarRun v) s.cur [] (some s1.cur) := hl
    exact (h1.mono hext1).trans hto
  refine ⟨select_good hgood _, rfl, ?_, ?_, ?_⟩
  · show s3.blk s.next = {}
    have h1 : s.next < s1.next := a.pre.exitLt
    rw [hblk s.next a.pre.exitNe]
    show s2.blk s.next = {}
    rw [o.frame _ h1, a.frame _ (Nat.lt_succ_self _) (by show s.next ≠ s.cur; omega)]
    exact g.fresh _ (Nat.le_refl _)
  · intro i j ⟨cs, c, hi, hj, hsel⟩
    show To s3.blk (scalarRun v) s.cur (evsOf E i j) (finOf E s.next i)
    rcases hsel with hcv | ⟨hoth, hnone⟩
    · cases hra : rangeAlts v 0 alts with
      | some p =>
        obtain ⟨i', j'⟩ := p
        obtain ⟨m, cs', lo, hi', h1, h2, h3, h4⟩ := rangeAlts_some v alts 0 i' j' hra
        rw [Nat.zero_add] at h1
        subst h1
        obtain ⟨h5, h6⟩ := hd i j i' j' cs cs' c _ hi hj h2 h3 (Or.inl ⟨v, hcv, h4⟩)
        subst h5; subst h6
        rw [hra] at hl
        exact To.mono hext1 hl
      | none =>
        have hcs := List.mem_of_getElem? hi
        have hc := List.mem_of_getElem? hj
        have hone : c = .one v := by
          cases c with
          | one x => have hcv : v = x := hcv; rw [hcv]
          | range lo hi' => exact absurd hcv (rangeAlts_none v alts 0 hra cs hcs lo hi' hc)
          | others => exact hcv.elim
        subst hone
        obtain ⟨b, hb⟩ := o.casesAll i j cs v hi hj
        rcases target_mem (l.deflt.getD s.next) l.cases v with hm | ⟨hm, _⟩
        · rcases o.casesMem _ _ hm with h1 | ⟨k, j', cs', h1, h2, h3⟩
          · cases h1
          · obtain ⟨h5, h6⟩ := hd i j k j' cs cs' _ _ hi hj h1 h2 (Or.inl ⟨v, rfl, rfl⟩)
            subst h5; subst h6
            have h4 := (hstartTo hra).trans ((h3 (scalarRun v)).mono hext2)
            rw [Nat.zero_add, List.nil_append] at h4
            exact h4
        · exact absurd hb (hm b)
    · subst hoth
      have hra : rangeAlts v 0 alts = none := by
        cases hra : rangeAlts v 0 alts with
        | none => rfl
        | some p =>
          obtain ⟨i', j'⟩ := p
          obtain ⟨m, cs', lo, hi', h1, h2, h3, h4⟩ := rangeAlts_some v alts 0 i' j' hra
          exact absurd h4 (hnone cs' (List.mem_of_getElem? h2) _ (List.mem_of_getElem? h3))
      rcases target_mem (l.deflt.getD s.next) l.cases v with hm | ⟨_, ht⟩
      · rcases o.casesMem _ _ hm with h1 | ⟨k, j', cs', h1, h2, h3⟩
        · cases h1
        · exact absurd rfl (hnone cs' (List.mem_of_getElem? h1) _ (List.mem_of_getElem? h2))
      · have hst := hstartTo hra
        rw [ht] at hst
        have hne := o.defAll i j cs hi hj
        cases hdf : l.deflt with
        | none => exact absurd hdf hne
        | some b =>
          rw [hdf] at hst
          rcases o.defMem b hdf with h1 | ⟨k, j', cs', h1, h2, h3⟩
          · cases h1
          · obtain ⟨h5, h6⟩ := hd i j k j' cs cs' _ _ hi hj h1 h2 (Or.inr ⟨rfl, rfl⟩)
            subst h5; subst h6
            have h4 := hst.trans ((h3 (scalarRun v)).mono hext2)
            rw [Nat.zero_add, List.nil_append] at h4
            exact h4
  · intro hn
    show To s3.blk (scalarRun v) s.cur [] (some s.next)
    have hra : rangeAlts v 0 alts = none := by
      cases hra : rangeAlts v 0 alts with
      | none => rfl
      | some p =>
        obtain ⟨i', j'⟩ := p
        obtain ⟨m, cs', lo, hi', h1, h2, h3, h4⟩ := rangeAlts_some v alts 0 i' j' hra
        exact absurd h4 (hn cs' (List.mem_of_getElem? h2) _ (List.mem_of_getElem? h3)).1
    have hst := hstartTo hra
    rcases target_mem (l.deflt.getD s.next) l.cases v with hm | ⟨_, ht⟩
    · rcases o.casesMem _ _ hm with h1 | ⟨k, j', cs', h1, h2, h3⟩
      · cases h1
      · exact absurd rfl (hn cs' (List.mem_of_getElem? h1) _ (List.mem_of_getElem? h2)).1
    · rw [ht] at hst
      cases hdf : l.deflt with
      | none => rw [hdf] at hst; exact hst
      | some b =>
        rcases o.defMem b hdf with h1 | ⟨k, j', cs', h1, h2, h3⟩
        · cases h1
        · exact absurd rfl (hn cs' (List.mem_of_getElem? h1) _ (List.mem_of_getElem? h2)).2

/-- **C87a'.**  And nothing else is ever executed: every execution that comes to an end is that
one. -/
theorem scalar_case_only (E : Env) (known : Option Int) (alts : List (List Choice)) (s : St) (v : Int)
    (g : Good s) (hcur : s.cur < s.next) (hempty : s.blk s.cur = {})
    (hk : ∀ k, known = some k → v = k) (hd : Disjoint Choice.Covers .others alts)
    (i j : Nat) (hs : Selected Choice.Covers .others alts v i j) (es : List Ev) (f : Option Nat)
    (ht : To (lowerScalar E known alts s).2.blk (scalarRun v) s.cur es f)
    (hend : AtEnd (lowerScalar E known alts s).2.blk f) :
    es = (if E.cover then [.cover i j] else []) ++ [.run i] ∧
    f = if E.falls i then some (lowerScalar E known alts s).1 else none := by
  obtain ⟨_, _, h1, h2, _⟩ := scalar_case E known alts s v g hcur hempty hk hd
  refine ht.det (h2 i j hs) hend ?_
  by_cases hf : E.falls i = true
  · rw [if_pos hf]
    show ((lowerScalar E known alts s).2.blk (lowerScalar E known alts s).1).term = none
    rw [h1]
  · rw [if_neg hf]; exact trivial

/-- A statement with ranges, several choices in an alternative and `others`. -/
def demoAlts : List (List Choice) := [[.one 1, .range 5 9], [.range 20 10], [.one 2, .one 3], [.others]]

theorem demo_disjoint : Disjoint Choice.Covers .others demoAlts := by
  intro i j i' j' cs cs' c c' hi hj hi' hj' h
  have key : ∀ (i j : Nat) (cs : List Choice) (c : Choice), demoAlts[i]? = some cs → cs[j]? = some c →
      (i = 0 ∧ j = 0 ∧ c = .one 1) ∨ (i = 0 ∧ j = 1 ∧ c = .range 5 9) ∨ (i = 1 ∧ j = 0 ∧ c = .range 20 10) ∨
      (i = 2 ∧ j = 0 ∧ c = .one 2) ∨ (i = 2 ∧ j = 1 ∧ c = .one 3) ∨ (i = 3 ∧ j = 0 ∧ c = .others) := by
    intro i j cs c hi hj
    match i, hi with
    | 0, hi => cases hi; match j, hj with
      | 0, hj => cases hj; simp
      | 1, hj => cases hj; simp
      | j + 2, hj => simp at hj
    | 1, hi => cases hi; match j, hj with
      | 0, hj => cases hj; simp
      | j + 1, hj => simp at hj
    | 2, hi => cases hi; match j, hj with
      | 0, hj => cases hj; simp
      | 1, hj => cases hj; simp
      | j + 2, hj => simp at hj
    | 3, hi => cases hi; match j, hj with
      | 0, hj => cases hj; simp
      | j + 1, hj => simp at hj
    | i + 4, hi => simp [demoAlts] at hi
  have k1 := key i j cs c hi hj
  have k2 := key i' j' cs' c' hi' hj'
  rcases k1 with ⟨a1, a2, rfl⟩ | ⟨a1, a2, rfl⟩ | ⟨a1, a2, rfl⟩ | ⟨a1, a2, rfl⟩ | ⟨a1, a2, rfl⟩ | ⟨a1, a2, rfl⟩ <;>
  rcases k2 with ⟨b1, b2, rfl⟩ | ⟨b1, b2, rfl⟩ | ⟨b1, b2, rfl⟩ | ⟨b1, b2, rfl⟩ | ⟨b1, b2, rfl⟩ | ⟨b1, b2, rfl⟩ <;>
  first
  | exact ⟨by omega, by omega⟩
  | (exfalso; rcases h with ⟨v, h1, h2⟩ | ⟨h1, h2⟩
     · simp only [Choice.Covers] at h1 h2 <;> omega
     · first | (injection h1; done) | (injection h2; done))

def demoStart : St := { next := 1 }

example : Good demoStart ∧ demoStart.cur < demoStart.next ∧ demoStart.blk demoStart.cur = {} ∧
    Disjoint Choice.Covers .others demoAlts ∧ Selected Choice.Covers .others demoAlts 7 0 1 :=
  ⟨⟨fun _ _ => rfl, rfl⟩, by decide, rfl, demo_disjoint, _, _, rfl, rfl, Or.inl ⟨by decide, by decide⟩⟩

end Verif.Case
