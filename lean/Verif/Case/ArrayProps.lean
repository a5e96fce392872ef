import Verif.Case.ArrayLemmas
import Verif.Case.ScalarProps
import Verif.Case.EncProps

/-! C87: a case statement over an array of characters executes the alternative for the value. -/
namespace Verif.Case

/-- A choice as the compiler reads it: all elements were found. -/
def srcOf : AChoice → Src
  | .one xs => .one xs (xs.map some)
  | .others => .others

theorem flat_src (alts : List (List AChoice)) (i j : Nat) (c : Src) :
    (i, j, c) ∈ flatAlts 0 (alts.map (·.map srcOf)) ↔
      ∃ cs a, alts[i]? = some cs ∧ cs[j]? = some a ∧ srcOf a = c := by
  rw [mem_flatAlts]
  constructor
  · rintro ⟨m, cs, h1, h2, h3⟩
    rw [Nat.zero_add] at h1
    subst h1
    rw [List.getElem?_map, Option.map_eq_some_iff] at h2
    obtain ⟨as, h4, h5⟩ := h2
    subst h5
    rw [List.getElem?_map, Option.map_eq_some_iff] at h3
    obtain ⟨a, h6, h7⟩ := h3
    exact ⟨as, a, h4, h6, h7⟩
  · rintro ⟨cs, a, h1, h2, h3⟩
    refine ⟨i, cs.map srcOf, by omega, ?_, ?_⟩
    · rw [List.getElem?_map, h1]; rfl
    · rw [List.getElem?_map, h2, ← h3]; rfl

theorem srcOf_one {a : AChoice} {xs : List Nat} {cs : List (Option Nat)} (h : srcOf a = .one xs cs) :
    a = .one xs ∧ cs = xs.map some := by
  cases a with
  | one ys =>
    have h : Src.one ys (ys.map some) = .one xs cs := h
    cases h
    exact ⟨rfl, rfl⟩
  | others => cases h

theorem srcOf_others {a : AChoice} (h : srcOf a = .others) : a = .others := by
  cases a with
  | one ys => cases h
  | others => rfl

/-- The choices have the length of the value, and their elements belong to the element type. -/
def Sized (E : AEnv) (alts : List (List AChoice)) (v : List Nat) : Prop :=
  Fits E.exact E.nbits v ∧ ∀ cs ∈ alts, ∀ xs, .one xs ∈ cs → xs.length = v.length ∧ Fits E.exact E.nbits xs

/-- **C87d.**  The code for a case statement over an array of characters executes, for each
value, the alternative that the standard selects, once, even if values have the same hash.  The
choice is counted if coverage is collected, except that with the hash the counter may be
missing.  If there is no choice for the value nothing is executed. -/
theorem array_case (E : AEnv) (known : Option Int) (alts : List (List AChoice)) (s : St) (v : List Nat)
    (g : Good s) (hcur : s.cur < s.next) (hempty : s.blk s.cur = {})
    (hk : ∀ k, known = some k → valueEnc E.exact E.nbits v = k)
    (hsz : Sized E alts v) (hd : Disjoint AChoice.Covers .others alts) :
    let r := lowerArray E known (alts.map (·.map srcOf)) s
    Good r.2 ∧ r.2.cur = r.1 ∧ r.2.blk r.1 = {} ∧
    (∀ i j, Selected AChoice.Covers .others alts v i j → ∃ es,
      To r.2.blk (arrayRun E v) s.cur es (if E.falls i then some r.1 else none) ∧
      (es = (if E.cover then [.cover i j] else []) ++ [.run i] ∨ (E.exact = false ∧ es = [.run i]))) ∧
    (NoneSelected AChoice.Covers .others alts v →
      To r.2.blk (arrayRun E v) s.cur [] (some r.1)) := by
  intro r
  obtain ⟨hfv, hfc⟩ := hsz
  have hR : ∀ xs, (arrayRun E v).test (.equal xs) = decide (v = xs) := fun _ => rfl
  have a0 : AInv E s.next (s.next + 1) (s.next + 2) s.blk v (arrayRun E v) []
      {} (emitBlock (emitBlock s).2).2 :=
    ⟨emitBlock_good (emitBlock_good g), Nat.le_refl _, fun _ _ => rfl, by simp, fun _ => by simp,
      fun _ => rfl, by simp, by simp, (fun _ hb => nomatch hb), by simp⟩
  have a := arrayAlts_inv hR s.cur (alts.map (·.map srcOf)) 0 [] {} _ a0
  rw [List.nil_append] at a
  have hrdef : r = (s.next, select (emitCase known
      ((arrayAlts E s.cur s.next (s.next + 1) 0 (alts.map (·.map srcOf)) {} (emitBlock (emitBlock s).2).2).1.deflt.getD s.next)
      (arrayAlts E s.cur s.next (s.next + 1) 0 (alts.map (·.map srcOf)) {} (emitBlock (emitBlock s).2).2).1.cases
      (select (fallThrough E.exact (s.next + 1)
        ((arrayAlts E s.cur s.next (s.next + 1) 0 (alts.map (·.map srcOf)) {} (emitBlock (emitBlock s).2).2).1.deflt.getD s.next)
        (arrayAlts E s.cur s.next (s.next + 1) 0 (alts.map (·.map srcOf)) {} (emitBlock (emitBlock s).2).2).2) s.cur)) s.next) := rfl
  rw [hrdef]
  clear hrdef r
  generalize arrayAlts E s.cur s.next (s.next + 1) 0 (alts.map (·.map srcOf)) {} (emitBlock (emitBlock s).2).2 = q at a ⊢
  obtain ⟨l, s2⟩ := q
  have a : AInv E s.next (s.next + 1) (s.next + 2) s.blk v (arrayRun E v) (flatAlts 0 (alts.map (·.map srcOf))) l s2 := a
  dsimp only
  generalize hdfl : l.deflt.getD s.next = d
  have hn2 := a.next
  have hfe : s2.blk (s.next + 1) = {} := by rw [a.frame _ (by omega)]; exact g.fresh _ (by omega)
  have hee : s2.blk s.next = {} := by rw [a.frame _ (by omega)]; exact g.fresh _ (by omega)
  have hce : s2.blk s.cur = {} := by rw [a.frame _ (by omega)]; exact hempty
  -- the block for falling through
  have hfblk : ∀ b, (fallThrough E.exact (s.next + 1) d s2).blk b =
      if b = s.next + 1 ∧ E.exact = false then ⟨[], some (.jump d)⟩ else s2.blk b := by
    intro b
    unfold fallThrough
    cases E.exact with
    | true => simp
    | false =>
      simp only [Bool.false_eq_true, if_false, and_true]
      rw [emitTerm_blk]
      show (if b = s.next + 1 then ({ s2.blk (s.next + 1) with term := _ } : Blk) else s2.blk b) = _
      rw [hfe]
  have hfg : Good (fallThrough E.exact (s.next + 1) d s2) ∧
      (fallThrough E.exact (s.next + 1) d s2).next = s2.next := by
    unfold fallThrough
    cases E.exact with
    | true => exact ⟨a.good, rfl⟩
    | false =>
      refine ⟨emitTerm_good _ _ (select_good a.good _) (by show s.next + 1 < s2.next; omega) ?_, rfl⟩
      show (s2.blk (s.next + 1)).term = none
      rw [hfe]
  generalize fallThrough E.exact (s.next + 1) d s2 = s3 at hfblk hfg ⊢
  have hce3 : s3.blk s.cur = {} := by rw [hfblk, if_neg (by omega)]; exact hce
  have hext2 : Ext s2.blk s3.blk := by
    intro b hb
    rw [hfblk]
    by_cases h : b = s.next + 1
    · subst h; rw [hfe] at hb; exact absurd rfl hb
    · rw [if_neg (fun h' => h h'.1)]
  have hto := emitCase_to (arrayRun E v) known (fun k h => hk k h) d l.cases (select s3 s.cur) hce3
  have hgood := emitCase_good known d l.cases (select s3 s.cur) (select_good hfg.1 _)
    (by show s.cur < s3.next; omega) (by show (s3.blk s.cur).term = none; rw [hce3])
  have hblk := emitCase_blk known d l.cases (select s3 s.cur)
  generalize emitCase known d l.cases (select s3 s.cur) = s4 at hto hgood hblk ⊢
  have hext3 : Ext s3.blk s4.blk := by
    intro b hb
    refine hblk b ?_
    intro h
    have h : b = s.cur := h
    subst h
    exact hb (by rw [hce3])
  have hext : Ext s2.blk s4.blk := hext2.trans hext3
  have hto : To s4.blk (arrayRun E v) s.cur [] (some (target d l.cases (valueEnc E.exact E.nbits v))) := hto
  have hfall : E.exact = false → To s4.blk (arrayRun E v) (s.next + 1) [] (some d) := by
    intro he
    have hb : s4.blk (s.next + 1) = ⟨[], some (.jump d)⟩ := by
      rw [hblk _ (by show s.next + 1 ≠ s.cur; omega)]
      show s3.blk (s.next + 1) = _
      rw [hfblk, if_pos ⟨rfl, he⟩]
    have := To.jump (P := s4.blk) (R := arrayRun E v) (b := s.next + 1) (by rw [hb]) (.here d)
    rw [hb] at this
    exact this
  -- a choice with a value
  have hmem : ∀ i j xs cs, (i, j, .one xs cs) ∈ flatAlts 0 (alts.map (·.map srcOf)) →
      ∃ as, alts[i]? = some as ∧ as[j]? = some (.one xs) ∧
        choiceEnc E.exact E.nbits cs = valueEnc E.exact E.nbits xs ∧ xs.length = v.length ∧
        Fits E.exact E.nbits xs := by
    intro i j xs cs hm
    obtain ⟨as, c, h1, h2, h3⟩ := (flat_src alts i j _).mp hm
    obtain ⟨h4, h5⟩ := srcOf_one h3
    subst h4; subst h5
    obtain ⟨h6, h7⟩ := hfc as (List.mem_of_getElem? h1) xs (List.mem_of_getElem? h2)
    exact ⟨as, h1, h2, enc_agree _ _ _ h7, h6, h7⟩
  -- without a choice for the value control is at the default block
  have hnoneTo : (∀ cs' ∈ alts, ∀ c' ∈ cs', ¬ AChoice.Covers c' v) →
      To s4.blk (arrayRun E v) s.cur [] (some d) := by
    intro hnone
    rcases target_mem d l.cases (valueEnc E.exact E.nbits v) with hm | ⟨_, ht⟩
    · cases he : E.exact with
      | true =>
        obtain ⟨i, j, xs, cs, h1, h2, _⟩ := a.exactTo he _ _ hm
        obtain ⟨as, h4, h5, h6, h7, h8⟩ := hmem i j xs cs h1
        have hx : xs = v := by
          rw [h2] at h6
          rw [he] at h6 h8 hfv
          exact (exact_injective _ _ _ h7 h8 hfv h6.symm)
        exact absurd hx.symm (hnone as (List.mem_of_getElem? h4) _ (List.mem_of_getElem? h5))
      | false =>
        rcases a.hashTo he _ _ hm with ⟨i, j, cs, es, h1, _⟩ | ⟨_, h2⟩
        · obtain ⟨as, h4, h5, _⟩ := hmem i j v cs h1
          exact absurd rfl (hnone as (List.mem_of_getElem? h4) _ (List.mem_of_getElem? h5))
        · exact hto.trans ((h2.mono hext).trans (hfall he))
    · rw [ht] at hto
      exact hto
  refine ⟨select_good hgood _, rfl, ?_, ?_, ?_⟩
  · show s4.blk s.next = {}
    rw [hblk _ (by show s.next ≠ s.cur; omega)]
    show s3.blk s.next = {}
    rw [hfblk, if_neg (by omega)]
    exact hee
  · intro i j ⟨cs, c, hi, hj, hsel⟩
    show ∃ es, To s4.blk (arrayRun E v) s.cur es (finOf E.toEnv s.next i) ∧
      (es = evsOf E.toEnv i j ∨ (E.exact = false ∧ es = [.run i]))
    rcases hsel with hcv | ⟨hoth, hnone⟩
    · have hone : c = .one v := by
        cases c with
        | one x => have hcv : v = x := hcv; rw [hcv]
        | others => exact hcv.elim
      subst hone
      have hfl : (i, j, Src.one v (v.map some)) ∈ flatAlts 0 (alts.map (·.map srcOf)) :=
        (flat_src alts i j _).mpr ⟨cs, _, hi, hj, rfl⟩
      obtain ⟨b, hb⟩ := a.labelsAll _ _ _ _ hfl
      rw [enc_agree _ _ _ hfv] at hb
      rcases target_mem d l.cases (valueEnc E.exact E.nbits v) with hm | ⟨hm, _⟩
      · cases he : E.exact with
        | true =>
          obtain ⟨i', j', xs, cs', h1, h2, h3⟩ := a.exactTo he _ _ hm
          obtain ⟨as, h4, h5, h6, h7, h8⟩ := hmem i' j' xs cs' h1
          have hx : xs = v := by
            rw [h2] at h6
            rw [he] at h6 h8 hfv
            exact (exact_injective _ _ _ h7 h8 hfv h6.symm)
          subst hx
          obtain ⟨h9, h10⟩ := hd i j i' j' cs as _ _ hi hj h4 h5 (Or.inl ⟨xs, rfl, rfl⟩)
          subst h9; subst h10
          exact ⟨_, hto.trans (h3.mono hext), Or.inl rfl⟩
        | false =>
          rcases a.hashTo he _ _ hm with ⟨i', j', cs', es, h1, h2, h3, h4⟩ | ⟨h1, _⟩
          · obtain ⟨as, h5, h6, _⟩ := hmem i' j' v cs' h1
            obtain ⟨h9, h10⟩ := hd i j i' j' cs as _ _ hi hj h5 h6 (Or.inl ⟨v, rfl, rfl⟩)
            subst h9; subst h10
            exact ⟨_, hto.trans (h3.mono hext), h4.imp_right (fun h => ⟨rfl, h⟩)⟩
          · exact absurd rfl (h1 i j v _ hfl (enc_agree _ _ _ hfv))
      · exact absurd hb (hm b)
    · subst hoth
      have hfl : (i, j, Src.others) ∈ flatAlts 0 (alts.map (·.map srcOf)) :=
        (flat_src alts i j _).mpr ⟨cs, _, hi, hj, rfl⟩
      have hne := a.defAll i j hfl
      cases hdf : l.deflt with
      | none => exact absurd hdf hne
      | some b =>
        rw [hdf] at hdfl
        have hdfl : b = d := hdfl
        subst hdfl
        obtain ⟨i', j', h1, h2⟩ := a.defMem b hdf
        obtain ⟨as, c, h3, h4, h5⟩ := (flat_src alts i' j' _).mp h1
        have h5 := srcOf_others h5
        subst h5
        obtain ⟨h9, h10⟩ := hd i j i' j' cs as _ _ hi hj h3 h4 (Or.inr ⟨rfl, rfl⟩)
        subst h9; subst h10
        exact ⟨_, (hnoneTo hnone).trans (h2.mono hext), Or.inl rfl⟩
  · intro hn
    show To s4.blk (arrayRun E v) s.cur [] (some s.next)
    have h := hnoneTo (fun cs hcs c hc => (hn cs hcs c hc).1)
    cases hdf : l.deflt with
    | none =>
      rw [hdf] at hdfl
      have hdfl : s.next = d := hdfl
      rw [hdfl]; exact h
    | some b =>
      obtain ⟨i', j', h1, h2⟩ := a.defMem b hdf
      obtain ⟨as, c, h3, h4, h5⟩ := (flat_src alts i' j' _).mp h1
      exact absurd (srcOf_others h5) (hn as (List.mem_of_getElem? h3) c (List.mem_of_getElem? h4)).2

/-- **C87d'.**  And nothing else is ever executed. -/
theorem array_case_only (E : AEnv) (known : Option Int) (alts : List (List AChoice)) (s : St) (v : List Nat)
    (g : Good s) (hcur : s.cur < s.next) (hempty : s.blk s.cur = {})
    (hk : ∀ k, known = some k → valueEnc E.exact E.nbits v = k)
    (hsz : Sized E alts v) (hd : Disjoint AChoice.Covers .others alts)
    (i j : Nat) (hs : Selected AChoice.Covers .others alts v i j) (es : List Ev) (f : Option Nat)
    (ht : To (lowerArray E known (alts.map (·.map srcOf)) s).2.blk (arrayRun E v) s.cur es f)
    (hend : AtEnd (lowerArray E known (alts.map (·.map srcOf)) s).2.blk f) :
    (es = (if E.cover then [.cover i j] else []) ++ [.run i] ∨ (E.exact = false ∧ es = [.run i])) ∧
    f = if E.falls i then some (lowerArray E known (alts.map (·.map srcOf)) s).1 else none := by
  obtain ⟨_, _, h1, h2, _⟩ := array_case E known alts s v g hcur hempty hk hsz hd
  obtain ⟨es', h3, h4⟩ := h2 i j hs
  have he' : AtEnd (lowerArray E known (alts.map (·.map srcOf)) s).2.blk
      (if E.falls i then some (lowerArray E known (alts.map (·.map srcOf)) s).1 else none) := by
    by_cases hf : E.falls i = true
    · rw [if_pos hf]
      show ((lowerArray E known (alts.map (·.map srcOf)) s).2.blk (lowerArray E known (alts.map (·.map srcOf)) s).1).term = none
      rw [h1]
    · rw [if_neg hf]; exact trivial
  obtain ⟨h5, h6⟩ := ht.det h3 hend he'
  rw [h5]
  exact ⟨h4, h6⟩

theorem nodup_of_inj {α β : Type} (f : α → Option β) (l : List α)
    (h : ∀ (m n : Nat) x y b, l[m]? = some x → l[n]? = some y → f x = some b → f y = some b → m = n) :
    (l.filterMap f).Nodup := by
  induction l with
  | nil => simp
  | cons x l ih =>
    have ih := ih (fun m n x y b h1 h2 h3 h4 => by
      have := h (m + 1) (n + 1) x y b (by simpa using h1) (by simpa using h2) h3 h4
      omega)
    cases hx : f x with
    | none => rw [List.filterMap_cons_none hx]; exact ih
    | some b =>
      rw [List.filterMap_cons_some hx, List.nodup_cons]
      refine ⟨fun hm => ?_, ih⟩
      obtain ⟨y, h1, h2⟩ := List.mem_filterMap.mp hm
      obtain ⟨n, hn⟩ := List.mem_iff_getElem?.mp h1
      have := h 0 (n + 1) x y b (by simp) (by simpa using hn) hx h2
      omega

/-- The place of a choice in the list of all choices says which one it is. -/
theorem flatAlt_ge (i : Nat) (cs : List Src) : ∀ (j m : Nat) p, (flatAlt i j cs)[m]? = some p → p.1 = i ∧ p.2.1 = j + m := by
  induction cs with
  | nil => intro j m p h; simp [flatAlt] at h
  | cons c cs ih =>
    intro j m p h
    cases m with
    | zero => simp [flatAlt] at h; subst h; simp
    | succ m =>
      have := ih (j + 1) m p (by simpa [flatAlt] using h)
      exact ⟨this.1, by omega⟩

theorem flatAlts_inj (alts : List (List Src)) : ∀ (i m n : Nat) p q,
    (flatAlts i alts)[m]? = some p → (flatAlts i alts)[n]? = some q → p.1 = q.1 → p.2.1 = q.2.1 → m = n := by
  induction alts with
  | nil => intro i m n p q h; simp [flatAlts] at h
  | cons cs alts ih =>
    intro i m n p q hp hq h1 h2
    have hge : ∀ (k : Nat) (r : Nat × Nat × Src), (flatAlts (i + 1) alts)[k]? = some r → i + 1 ≤ r.1 := by
      intro k r hr
      obtain ⟨r1, r2, r3⟩ := r
      obtain ⟨m', _, h, _⟩ := (mem_flatAlts alts (i + 1) r1 r2 r3).mp (List.mem_of_getElem? hr)
      show i + 1 ≤ r1
      omega
    simp only [flatAlts] at hp hq
    by_cases hm : m < (flatAlt i 0 cs).length
    · rw [List.getElem?_append_left hm] at hp
      obtain ⟨a1, a2⟩ := flatAlt_ge i cs 0 m p hp
      by_cases hn : n < (flatAlt i 0 cs).length
      · rw [List.getElem?_append_left hn] at hq
        obtain ⟨b1, b2⟩ := flatAlt_ge i cs 0 n q hq
        omega
      · rw [List.getElem?_append_right (by omega)] at hq
        have := hge _ _ hq
        omega
    · rw [List.getElem?_append_right (by omega)] at hp
      by_cases hn : n < (flatAlt i 0 cs).length
      · rw [List.getElem?_append_left hn] at hq
        obtain ⟨b1, b2⟩ := flatAlt_ge i cs 0 n q hq
        have := hge _ _ hp
        omega
      · rw [List.getElem?_append_right (by omega)] at hq
        have := ih (i + 1) _ _ p q hp hq h1 h2
        omega

/-- **C87e.**  The labels of the branch are all different, as LLVM requires it of a switch. -/
theorem array_labels (E : AEnv) (alts : List (List AChoice)) (s : St) (v : List Nat)
    (g : Good s) (hsz : Sized E alts v) (hd : Disjoint AChoice.Covers .others alts) :
    ((arrayAlts E s.cur s.next (s.next + 1) 0 (alts.map (·.map srcOf)) {}
      (emitBlock (emitBlock s).2).2).1.cases.map Prod.fst).Nodup := by
  have hR : ∀ xs, (arrayRun E v).test (.equal xs) = decide (v = xs) := fun _ => rfl
  have a0 : AInv E s.next (s.next + 1) (s.next + 2) s.blk v (arrayRun E v) []
      {} (emitBlock (emitBlock s).2).2 :=
    ⟨emitBlock_good (emitBlock_good g), Nat.le_refl _, fun _ _ => rfl, by simp, fun _ => by simp,
      fun _ => rfl, by simp, by simp, (fun _ hb => nomatch hb), by simp⟩
  have a := arrayAlts_inv hR s.cur (alts.map (·.map srcOf)) 0 [] {} _ a0
  rw [List.nil_append] at a
  cases he : E.exact with
  | false => exact a.nodup he
  | true =>
    rw [a.keys he]
    refine nodup_of_inj _ _ ?_
    intro m n p q b hm hn hp hq
    obtain ⟨i, j, c⟩ := p
    obtain ⟨i', j', c'⟩ := q
    obtain ⟨cs, x, h1, h2, h3⟩ := (flat_src alts i j c).mp (List.mem_of_getElem? hm)
    obtain ⟨cs', x', h1', h2', h3'⟩ := (flat_src alts i' j' c').mp (List.mem_of_getElem? hn)
    cases x with
    | others => subst h3; cases hp
    | one xs =>
      cases x' with
      | others => subst h3'; cases hq
      | one xs' =>
        subst h3; subst h3'
        have hp : some (choiceEnc E.exact E.nbits (xs.map some)) = some b := hp
        have hq : some (choiceEnc E.exact E.nbits (xs'.map some)) = some b := hq
        obtain ⟨l1, f1⟩ := hsz.2 cs (List.mem_of_getElem? h1) xs (List.mem_of_getElem? h2)
        obtain ⟨l2, f2⟩ := hsz.2 cs' (List.mem_of_getElem? h1') xs' (List.mem_of_getElem? h2')
        rw [enc_agree _ _ _ f1] at hp
        rw [enc_agree _ _ _ f2] at hq
        have h4 := hp.trans hq.symm
        rw [he] at h4 f1 f2
        have h5 := exact_injective _ _ _ (l1.trans l2.symm) f1 f2 (Option.some.inj h4)
        subst h5
        obtain ⟨h6, h7⟩ := hd i j i' j' cs cs' _ _ h1 h2 h1' h2' (Or.inl ⟨xs, rfl, rfl⟩)
        exact flatAlts_inj _ 0 m n _ _ hm hn h6 h7

/-- Two strings of nine characters with the same hash, and `others`. -/
def arrDemo : List (List AChoice) :=
  [[.one [0, 0, 0, 0, 0, 0, 0, 0, 45]], [.one [0, 0, 0, 0, 0, 0, 0, 1, 0]], [.others]]

def arrEnv : AEnv := { cover := true, falls := fun _ => true, exact := exactMap 8 9, nbits := 8 }

theorem arrDemo_disjoint : Disjoint AChoice.Covers .others arrDemo := by
  intro i j i' j' cs cs' c c' hi hj hi' hj' h
  have key : ∀ (i j : Nat) (cs : List AChoice) (c : AChoice), arrDemo[i]? = some cs → cs[j]? = some c →
      (i = 0 ∧ j = 0 ∧ c = .one [0, 0, 0, 0, 0, 0, 0, 0, 45]) ∨
      (i = 1 ∧ j = 0 ∧ c = .one [0, 0, 0, 0, 0, 0, 0, 1, 0]) ∨ (i = 2 ∧ j = 0 ∧ c = .others) := by
    intro i j cs c hi hj
    match i, hi with
    | 0, hi => cases hi; match j, hj with
      | 0, hj => cases hj; simp
      | j + 1, hj => simp at hj
    | 1, hi => cases hi; match j, hj with
      | 0, hj => cases hj; simp
      | j + 1, hj => simp at hj
    | 2, hi => cases hi; match j, hj with
      | 0, hj => cases hj; simp
      | j + 1, hj => simp at hj
    | i + 3, hi => simp [arrDemo] at hi
  rcases key i j cs c hi hj with ⟨a1, a2, rfl⟩ | ⟨a1, a2, rfl⟩ | ⟨a1, a2, rfl⟩ <;>
  rcases key i' j' cs' c' hi' hj' with ⟨b1, b2, rfl⟩ | ⟨b1, b2, rfl⟩ | ⟨b1, b2, rfl⟩ <;>
  first
  | exact ⟨by omega, by omega⟩
  | (exfalso; rcases h with ⟨v, h1, h2⟩ | ⟨h1, h2⟩
     · simp only [AChoice.Covers] at h1 h2 <;> (subst h1; simp at h2)
     · first | (injection h1; done) | (injection h2; done))

theorem arrDemo_sized : Sized arrEnv arrDemo [0, 0, 0, 0, 0, 0, 0, 1, 0] := by
  refine ⟨fun h => absurd h (by decide), fun cs hcs xs hm => ⟨?_, fun h => absurd h (by decide)⟩⟩
  simp only [arrDemo, List.mem_cons, List.not_mem_nil, or_false] at hcs
  rcases hcs with rfl | rfl | rfl <;> simp at hm <;> rw [hm] <;> rfl

example : Good demoStart ∧ demoStart.cur < demoStart.next ∧ demoStart.blk demoStart.cur = {} ∧
    Disjoint AChoice.Covers .others arrDemo ∧ Sized arrEnv arrDemo [0, 0, 0, 0, 0, 0, 0, 1, 0] ∧
    Selected AChoice.Covers .others arrDemo [0, 0, 0, 0, 0, 0, 0, 1, 0] 1 0 :=
  ⟨⟨fun _ _ => rfl, rfl⟩, by decide, rfl, arrDemo_disjoint, arrDemo_sized, _, _, rfl, rfl, Or.inl rfl⟩

/-- **C87d''.**  The counter can be missing indeed: with coverage, the value of a choice whose
hash is that of an earlier one has its alternative executed but not counted. -/
theorem array_cover_counterexample : ∃ (E : AEnv) (alts : List (List AChoice)) (s : St) (v : List Nat) (i j : Nat),
    Good s ∧ E.cover = true ∧ Sized E alts v ∧ Disjoint AChoice.Covers .others alts ∧
    Selected AChoice.Covers .others alts v i j ∧
    To (lowerArray E none (alts.map (·.map srcOf)) s).2.blk (arrayRun E v) s.cur [.run i]
      (some (lowerArray E none (alts.map (·.map srcOf)) s).1) := by
  refine ⟨arrEnv, arrDemo, demoStart, [0, 0, 0, 0, 0, 0, 0, 1, 0], 1, 0, ⟨fun _ _ => rfl, rfl⟩, rfl,
    arrDemo_sized, arrDemo_disjoint, ⟨_, _, rfl, rfl, Or.inl rfl⟩, ?_⟩
  refine To.switch (d := 7) (cs := [(45, 5)]) (by decide +kernel) ?_
  show To _ _ 5 _ _
  refine To.cond (t := .equal [0, 0, 0, 0, 0, 0, 0, 1, 0]) (x := 6) (y := 3) (by decide +kernel) ?_
  show To _ _ 6 _ _
  exact To.jump (c := 1) (by decide +kernel) (.here 1)

end Verif.Case
