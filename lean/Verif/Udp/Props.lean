import Verif.Udp.Model

/-!
# C80: a user-defined primitive follows its table
-/

namespace Verif.Udp

/-! ## What the theorems ask for -/

/-- Level symbols other than `b`. -/
def Lvl.good : Lvl → Bool
  | .b _ => false
  | _ => true

def Sym.good : Sym → Bool
  | .lvl l => l.good
  | .star => true
  | .letter _ _ => false
  | .edge a b => a.good && b.good

/-- The row constrains something. -/
def Row.constrains (r : Row) : Bool := !(r.ins.all (· == .lvl .any) && r.st == .any)

structure Row.Good (n : Nat) (r : Row) : Prop where
  len : r.ins.length = n
  ins : ∀ s ∈ r.ins, s.good = true
  st : r.st.good = true
  some : r.constrains = true

/-- No `z`, and an event exactly when the value has changed. -/
structure Input.Ok (i : Input) : Prop where
  last : i.last ≠ .z
  cur : i.cur ≠ .z
  event : i.event = (i.last != i.cur)

theorem norm_of {l : Logic} (h : l ≠ .z) : l.norm = l := by cases l <;> simp_all [Logic.norm]

/-! ## Conditions -/

def evalO (ins : List Input) (cur : Logic) : Option Cond → Bool
  | none => true
  | some c => c.eval ins cur

theorem evalO_both (ins : List Input) (cur : Logic) (a b : Option Cond) :
    evalO ins cur (both a b) = (evalO ins cur a && evalO ins cur b) := by
  cases a <;> cases b <;> simp [both, evalO, Cond.eval]

theorem both_none (a b : Option Cond) : both a b = none ↔ a = none ∧ b = none := by
  cases a <;> cases b <;> simp [both]

/-- The value of a level symbol in `level_map`. -/
theorem levelMap_char {l : Lvl} (hg : l.good = true) (h : l ≠ .any) : ∃ v, levelMap l.char = some v ∧
    (l.char = '0' ∨ l.char = '1' ∨ l.char = 'x' ∨ l.char = 'X') ∧ ∀ w, l.has w = (w == v) := by
  cases l with
  | zero => exact ⟨.zero, rfl, .inl rfl, fun _ => rfl⟩
  | one => exact ⟨.one, rfl, .inr (.inl rfl), fun _ => rfl⟩
  | x u => cases u
           · exact ⟨.x, rfl, .inr (.inr (.inl rfl)), fun _ => rfl⟩
           · exact ⟨.x, rfl, .inr (.inr (.inr rfl)), fun _ => rfl⟩
  | any => exact absurd rfl h
  | b u => simp [Lvl.good] at hg

theorem char_any {l : Lvl} (h : l ≠ .any) : l.char ≠ '?' := by
  cases l with
  | zero => decide
  | one => decide
  | x u => cases u <;> decide
  | any => exact absurd rfl h
  | b u => cases u <;> decide

theorem edgePart_text (mk : Logic → Cond) {l : Lvl} (hg : l.good = true) (acc : Cond)
    (ins : List Input) (cur v : Logic) (hmk : ∀ w, (mk w).eval ins cur = (v == w)) :
    ∃ c, edgePart mk l.char acc = .ok c ∧ c.eval ins cur = (acc.eval ins cur && l.has v) := by
  unfold edgePart
  by_cases ha : l = .any
  · subst ha
    exact ⟨acc, rfl, by simp [Lvl.has]⟩
  · rw [if_neg (char_any ha)]
    obtain ⟨w, h1, _, h2⟩ := levelMap_char hg ha
    rw [h1]
    exact ⟨_, rfl, by simp [Cond.eval, hmk, h2]⟩

theorem inCond_text (j : Nat) {s : Sym} (hg : s.good = true) (rest : List Char) (ins : List Input)
    (cur : Logic) {i : Input} (hi : ins[j]? = some i) (ok : i.Ok) :
    ∃ c, inCond j (s.text ++ rest) = .ok (c, rest) ∧ evalO ins cur c = s.has i ∧
      (c = none ↔ s = .lvl .any) := by
  have n1 := norm_of ok.last
  have n2 := norm_of ok.cur
  cases s with
  | lvl l =>
    by_cases ha : l = .any
    · subst ha
      exact ⟨none, rfl, rfl, by simp⟩
    · obtain ⟨v, h1, h2, h3⟩ := levelMap_char hg ha
      refine ⟨some (.cur j v), ?_, ?_, by simp [ha]⟩
      · simp only [Sym.text, List.singleton_append, inCond]
        rw [if_pos h2, h1]
      · simp [evalO, Cond.eval, hi, Sym.has, n2, h3]
  | star =>
    refine ⟨some (.event j), rfl, ?_, by simp⟩
    simp [evalO, Cond.eval, hi, Sym.has, n1, n2, ok.event]
  | letter e u => simp [Sym.good] at hg
  | edge a b =>
    simp only [Sym.good, Bool.and_eq_true] at hg
    obtain ⟨c1, h1, h2⟩ := edgePart_text (.last j) hg.1 (.event j) ins cur i.last
      (by intro w; simp [Cond.eval, hi])
    obtain ⟨c2, h3, h4⟩ := edgePart_text (.cur j) hg.2 c1 ins cur i.cur
      (by intro w; simp [Cond.eval, hi])
    refine ⟨some c2, ?_, ?_, by simp⟩
    · have e : (Sym.edge a b).text ++ rest = '(' :: a.char :: b.char :: ')' :: rest := rfl
      rw [e]
      have : inCond j ('(' :: a.char :: b.char :: ')' :: rest) =
        (edgePart (.last j) a.char (.event j)).bind fun c1 =>
          (edgePart (.cur j) b.char c1).bind fun c2 => .ok (some c2, rest) := rfl
      rw [this, h1]
      show (edgePart (.cur j) b.char c1).bind _ = _
      rw [h3]
      rfl
    · simp only [evalO, h4, h2, Sym.has, n1, n2, Cond.eval, hi, ok.event]

theorem insMatch_nil : insMatch [] [] = true := rfl

theorem insCond_text (ins : List Input) (cur : Logic) (ok : ∀ i ∈ ins, i.Ok) (syms : List Sym)
    (hg : ∀ s ∈ syms, s.good = true) (j : Nat) (hl : ins.length = j + syms.length)
    (rest : List Char) (acc : Option Cond) :
    ∃ c, insCond syms.length j (insText syms ++ rest) acc = .ok (c, rest) ∧
      evalO ins cur c = (evalO ins cur acc && insMatch syms (ins.drop j)) ∧
      (c = none ↔ acc = none ∧ ∀ s ∈ syms, s = .lvl .any) := by
  induction syms generalizing j acc with
  | nil =>
    refine ⟨acc, rfl, ?_, by simp⟩
    rw [List.drop_of_length_le (by simp at hl; omega)]
    simp [insMatch]
  | cons s syms ih =>
    have hj : j < ins.length := by simp at hl; omega
    have hi : ins[j]? = some ins[j] := List.getElem?_eq_getElem hj
    obtain ⟨c1, h1, h2, h3⟩ := inCond_text j (hg s (by simp)) (insText syms ++ rest) ins cur hi
      (ok _ (List.getElem_mem hj))
    obtain ⟨c2, h4, h5, h6⟩ := ih (fun s hs => hg s (by simp [hs])) (j + 1)
      (by simp at hl; omega) (both acc c1)
    refine ⟨c2, ?_, ?_, ?_⟩
    · simp only [List.length_cons, insCond, insText, List.append_assoc, h1]
      exact h4
    · rw [h5, evalO_both, h2, List.drop_eq_getElem_cons hj]
      simp [insMatch, Bool.and_assoc]
    · rw [h6, both_none, h3]
      simp [and_assoc]

theorem rowCond_text {n : Nat} {r : Row} (hr : r.Good n) (seq : Bool) (hs : seq = false → r.st = .any)
    (ins : List Input) (cur : Logic) (ok : ∀ i ∈ ins, i.Ok) (hc : cur ≠ .z) (hl : ins.length = n) :
    ∃ c, rowCond seq n (r.text seq) = .ok (some c, [r.out.char]) ∧
      c.eval ins cur = r.matches ins cur := by
  obtain ⟨c1, h1, h2, h3⟩ := insCond_text ins cur ok r.ins hr.ins 0 (by rw [hl, hr.len]; simp)
    (':' :: (if seq then r.st.char :: ':' :: [r.out.char] else [r.out.char])) none
  rw [hr.len] at h1
  rw [show evalO ins cur none = true from rfl, Bool.true_and, List.drop_zero] at h2
  have hsome : ¬ ((∀ s ∈ r.ins, s = .lvl .any) ∧ r.st = .any) := by
    intro ⟨ha, hb⟩
    have := hr.some
    simp only [Row.constrains, hb] at this
    have h' : r.ins.all (· == .lvl .any) = true := by
      rw [List.all_eq_true]; intro s hs; simp [ha s hs]
    rw [h'] at this
    simp at this
  unfold rowCond Row.text
  rw [h1]
  simp only [Res.bind]
  cases seq with
  | false =>
    have hst := hs rfl
    cases c1 with
    | none => exact absurd ⟨(h3.1 rfl).2, hst⟩ hsome
    | some c =>
      refine ⟨c, rfl, ?_⟩
      simpa [evalO, Row.matches, hst, Lvl.has] using h2
  | true =>
    simp only [if_true, stCond]
    by_cases ha : r.st = .any
    · cases c1 with
      | none => exact absurd ⟨(h3.1 rfl).2, ha⟩ hsome
      | some c =>
        refine ⟨c, ?_, ?_⟩
        · rw [ha]; rfl
        · simpa [evalO, Row.matches, ha, Lvl.has] using h2
    · obtain ⟨v, g1, g2, g3⟩ := levelMap_char hr.st ha
      rw [if_pos g2, g1]
      simp only [Res.bind, if_true]
      have key : evalO ins cur (both c1 (some (.out v))) = r.matches ins cur := by
        rw [evalO_both, h2]
        simp [evalO, Cond.eval, Row.matches, g3, norm_of hc]
      cases hb : both c1 (some (.out v)) with
      | none => rw [both_none] at hb; simp at hb
      | some c =>
        rw [hb] at key
        exact ⟨c, rfl, key⟩

/-! ## Tables -/

/-- The first row that matches decides. -/
def firstOut (seq : Bool) (ins : List Input) (cur : Logic) : List Row → Logic
  | [] => if seq then cur else .x
  | r :: l => if r.matches ins cur then r.out.apply cur else firstOut seq ins cur l

theorem outAct_char (o : Out) : ∃ a, outAct [o.char] = .ok a ∧
    ∀ cur, (match a with | .drive v => some v | .keep => some cur) = some (o.apply cur) := by
  cases o with
  | zero => exact ⟨.drive .zero, rfl, fun _ => rfl⟩
  | one => exact ⟨.drive .one, rfl, fun _ => rfl⟩
  | x u => cases u <;> exact ⟨.drive .x, rfl, fun _ => rfl⟩
  | same => exact ⟨.keep, rfl, fun _ => rfl⟩

theorem compile_text {n : Nat} (rows : List Row) (hr : ∀ r ∈ rows, r.Good n) (seq : Bool)
    (hs : seq = false → ∀ r ∈ rows, r.st = .any)
    (ins : List Input) (cur : Logic) (ok : ∀ i ∈ ins, i.Ok) (hc : cur ≠ .z) (hl : ins.length = n) :
    ∃ p, compile seq n (rows.map (Row.text seq)) = .ok p ∧
      p.run seq ins cur = some (firstOut seq ins cur rows) := by
  suffices h : ∃ p, compile seq n (rows.map (Row.text seq)) = .ok p ∧ p.broken = false ∧
      runRows seq false ins cur p.rows = some (firstOut seq ins cur rows) by
    obtain ⟨p, h1, h2, h3⟩ := h
    exact ⟨p, h1, by rw [Prog.run, h2]; exact h3⟩
  induction rows with
  | nil => exact ⟨⟨[], false⟩, rfl, rfl, by cases seq <;> rfl⟩
  | cons r rows ih =>
    obtain ⟨c, h1, h2⟩ := rowCond_text (hr r (by simp)) seq (fun h => hs h r (by simp)) ins cur ok hc hl
    obtain ⟨a, h3, h4⟩ := outAct_char r.out
    obtain ⟨p, h5, h6, h7⟩ := ih (fun r' h => hr r' (by simp [h]))
      (fun h r' h' => hs h r' (by simp [h']))
    refine ⟨{ p with rows := (c, a) :: p.rows }, ?_, h6, ?_⟩
    · simp only [List.map_cons, compile, h1, Res.bind, h3, h5]
    · simp only [runRows, firstOut, h2, h7]
      split
      · exact h4 cur
      · rfl

/-- Rows without state: levels only and a value. -/
structure Row.Comb (r : Row) : Prop where
  level : r.level = true
  st : r.st = .any
  out : r.out ≠ .same

theorem firstOut_comb {rows : List Row} (h : ∀ r ∈ rows, r.level = true) (ins : List Input)
    (cur : Logic) : Next rows ins cur (firstOut false ins cur rows) := by
  induction rows with
  | nil => right; right; exact ⟨by simp, rfl⟩
  | cons r rows ih =>
    unfold firstOut
    by_cases hm : r.matches ins cur = true
    · rw [if_pos hm]
      left; exact ⟨r, by simp, h r (by simp), hm, rfl⟩
    · rw [if_neg hm]
      rcases ih (fun r hr => h r (by simp [hr])) with ⟨r', h1, h2⟩ | ⟨h1, r', h2, h3⟩ | ⟨h1, h2⟩
      · left; exact ⟨r', by simp [h1], h2⟩
      · exfalso
        have := h1 r' h2 (h r' (by simp [h2]))
        rw [this] at h3
        simp at h3
      · right; right
        refine ⟨?_, h2⟩
        intro r'' hr
        rcases List.mem_cons.1 hr with rfl | hr
        · simpa using hm
        · exact h1 r'' hr

/-- A combinational primitive without `b` and without a row of question marks only: the process
gives the value that the table gives, for all values 0, 1 and x of the inputs. -/
theorem comb_partial {n : Nat} (rows : List Row) (hr : ∀ r ∈ rows, r.Good n) (hk : ∀ r ∈ rows, r.Comb)
    (ins : List Input) (cur : Logic) (ok : ∀ i ∈ ins, i.Ok) (hc : cur ≠ .z) (hl : ins.length = n) :
    ∃ p v, compile false n (rows.map (Row.text false)) = .ok p ∧
      p.run false ins cur = some v ∧ Next rows ins cur v := by
  obtain ⟨p, h1, h2⟩ := compile_text rows hr false (fun _ r h => (hk r h).st) ins cur ok hc hl
  exact ⟨p, _, h1, h2, firstOut_comb (fun r h => (hk r h).level) ins cur⟩

/-- Level-sensitive rows come before the others. -/
def LevelFirst (rows : List Row) : Prop := rows.Pairwise fun a b => b.level = true → a.level = true

theorem firstOut_seq {rows : List Row} (h : LevelFirst rows) (ins : List Input) (cur : Logic)
    (hm : ∃ r ∈ rows, r.matches ins cur = true) : Next rows ins cur (firstOut true ins cur rows) := by
  induction rows with
  | nil => simp at hm
  | cons r rows ih =>
    obtain ⟨h1, h2⟩ := List.pairwise_cons.1 h
    unfold firstOut
    by_cases hr : r.matches ins cur = true
    · rw [if_pos hr]
      by_cases hlv : r.level = true
      · left; exact ⟨r, by simp, hlv, hr, rfl⟩
      · right; left
        refine ⟨?_, r, by simp, hr, rfl⟩
        intro r' hr' hl'
        rcases List.mem_cons.1 hr' with rfl | hr'
        · exact absurd hl' hlv
        · exact absurd (h1 r' hr' hl') hlv
    · rw [if_neg hr]
      have hm' : ∃ r ∈ rows, r.matches ins cur = true := by
        obtain ⟨r', h3, h4⟩ := hm
        rcases List.mem_cons.1 h3 with rfl | h3
        · exact absurd h4 hr
        · exact ⟨r', h3, h4⟩
      rcases ih h2 hm' with ⟨r', g1, g2⟩ | ⟨g1, r', g2, g3⟩ | ⟨g1, g2⟩
      · left; exact ⟨r', by simp [g1], g2⟩
      · right; left
        refine ⟨?_, r', by simp [g2], g3⟩
        intro r'' hr''
        rcases List.mem_cons.1 hr'' with rfl | hr''
        · intro _; simpa using hr
        · exact g1 r'' hr''
      · obtain ⟨r', h3, h4⟩ := hm'
        rw [g1 r' h3] at h4
        simp at h4

/-- A sequential primitive without `b` and without edges by letters, whose level-sensitive rows come
first: when a row matches, the process gives the value that the table gives. -/
theorem seq_partial {n : Nat} (rows : List Row) (hr : ∀ r ∈ rows, r.Good n) (hf : LevelFirst rows)
    (ins : List Input) (cur : Logic) (ok : ∀ i ∈ ins, i.Ok) (hc : cur ≠ .z) (hl : ins.length = n)
    (hm : ∃ r ∈ rows, r.matches ins cur = true) :
    ∃ p v, compile true n (rows.map (Row.text true)) = .ok p ∧
      p.run true ins cur = some v ∧ Next rows ins cur v := by
  obtain ⟨p, h1, h2⟩ := compile_text rows hr true (by simp) ins cur ok hc hl
  exact ⟨p, _, h1, h2, firstOut_seq hf ins cur hm⟩

/-! ## Examples -/

private def inp (a b : Logic) : Input := ⟨a, b, a != b⟩

/-- A multiplexer. -/
example : ∃ p, compile false 3 (["0?0:0", "1?0:1", "?01:0", "?11:1", "00x:0", "11x:1"].map (·.toList)) =
    .ok p ∧ p.run false [inp .one .one, inp .x .x, inp .one .zero] .x = some .one ∧
    p.run false [inp .one .one, inp .zero .zero, inp .one .x] .x = some .x := by
  refine ⟨_, rfl, ?_, ?_⟩ <;> decide +kernel

/-- A flip-flop with reset. -/
private def dff : List Row := [
  ⟨[.lvl .one, .lvl .any, .lvl .any], .any, .zero⟩,
  ⟨[.lvl .zero, .edge .zero .one, .lvl .zero], .any, .zero⟩,
  ⟨[.lvl .zero, .edge .zero .one, .lvl .one], .any, .one⟩,
  ⟨[.lvl .zero, .edge .any .zero, .lvl .any], .any, .same⟩,
  ⟨[.lvl .zero, .lvl .any, .star], .any, .same⟩]

example : (∀ r ∈ dff, r.Good 3) ∧ LevelFirst dff ∧
    (∃ r ∈ dff, r.matches [inp .zero .zero, inp .zero .one, inp .one .one] .zero = true) ∧
    ∃ p, compile true 3 (dff.map (Row.text true)) = .ok p ∧
      p.run true [inp .zero .zero, inp .zero .one, inp .one .one] .zero = some .one ∧
      p.run true [inp .zero .zero, inp .one .zero, inp .zero .zero] .one = some .one ∧
      p.run true [inp .zero .one, inp .one .zero, inp .one .one] .one = some .zero := by
  refine ⟨?_, by unfold LevelFirst; decide, by decide, _, rfl, ?_, ?_, ?_⟩
  · intro r hr
    simp only [dff, List.mem_cons, List.not_mem_nil, or_false] at hr
    rcases hr with rfl | rfl | rfl | rfl | rfl <;>
      exact ⟨rfl, by decide, rfl, rfl⟩
  all_goals decide +kernel

/-! ## Where the process differs from the table -/

theorem not_next {rows ins cur v} (h1 : ∀ r ∈ rows, r.matches ins cur = true → v ≠ r.out.apply cur)
    (h2 : (∃ r ∈ rows, r.matches ins cur = true) ∨ v ≠ .x) : ¬ Next rows ins cur v := by
  rintro (⟨r, a, _, b, c⟩ | ⟨_, r, a, b, c⟩ | ⟨a, b⟩)
  · exact h1 r a b c
  · exact h1 r a b c
  · rcases h2 with ⟨r, hr, hm⟩ | h2
    · rw [a r hr] at hm; simp at hm
    · exact h2 b

/-- The symbol `b` never matches: the condition asks for 0 and 1 at once (line 238 builds `and`). -/
theorem b_counterexample : ∃ (rows : List Row) (p : Prog), compile false 1 (rows.map (Row.text false)) = .ok p ∧
    ∃ ins v, (∀ i ∈ ins, i.Ok) ∧ p.run false ins .x = some v ∧ ¬ Next rows ins .x v := by
  refine ⟨[⟨[.lvl (.b false)], .any, .one⟩], _, rfl, [inp .zero .zero], .x, ?_, by decide +kernel, ?_⟩
  · intro i hi; simp at hi; subst hi; exact ⟨by decide, by decide, rfl⟩
  · exact not_next (by decide) (.inl (by decide))

/-- `b` in an edge reads an element of `level_map` that was never set. -/
theorem b_edge_counterexample :
    compile true 1 ([Row.mk [.edge (.b false) .one] .any .one].map (Row.text true)) = .undef := by
  decide +kernel

/-- A row of question marks leads to a block without code. -/
theorem any_counterexample : ∃ (rows : List Row) (p : Prog), compile false 1 (rows.map (Row.text false)) = .ok p ∧
    ∃ ins, (∀ i ∈ ins, i.Ok) ∧ p.run false ins .x = none := by
  refine ⟨[⟨[.lvl .any], .any, .one⟩], _, rfl, [inp .zero .zero], ?_, by decide +kernel⟩
  intro i hi; simp at hi; subst hi; exact ⟨by decide, by decide, rfl⟩

/-- An input with the value `z` does not match `x`. -/
theorem z_counterexample : ∃ (rows : List Row) (p : Prog), compile false 1 (rows.map (Row.text false)) = .ok p ∧
    (∀ r ∈ rows, r.Good 1) ∧
    ∃ ins v, p.run false ins .x = some v ∧ ¬ Next rows ins .x v := by
  refine ⟨[⟨[.lvl (.x false)], .any, .one⟩], _, rfl, ?_, [inp .z .z], .x, by decide +kernel, ?_⟩
  · intro r hr; simp at hr; subst hr; exact ⟨rfl, by decide, rfl, rfl⟩
  · exact not_next (by decide) (.inl (by decide))

/-- A sequential primitive keeps its output when no row matches, instead of going to `x`. -/
theorem hold_counterexample : ∃ (rows : List Row) (p : Prog), compile true 1 (rows.map (Row.text true)) = .ok p ∧
    (∀ r ∈ rows, r.Good 1) ∧ LevelFirst rows ∧
    ∃ ins v, (∀ i ∈ ins, i.Ok) ∧ p.run true ins .one = some v ∧ ¬ Next rows ins .one v := by
  refine ⟨[⟨[.edge .zero .one], .any, .one⟩], _, rfl, ?_, by simp [LevelFirst], [inp .one .zero], .one,
    ?_, by decide +kernel, ?_⟩
  · intro r hr; simp at hr; subst hr; exact ⟨rfl, by decide, rfl, rfl⟩
  · intro i hi; simp at hi; subst hi; exact ⟨by decide, by decide, rfl⟩
  · exact not_next (by decide) (.inr (by decide))

/-- An edge-sensitive row before a level-sensitive one wins. -/
theorem order_counterexample : ∃ (rows : List Row) (p : Prog), compile true 2 (rows.map (Row.text true)) = .ok p ∧
    (∀ r ∈ rows, r.Good 2) ∧
    ∃ ins v, (∀ i ∈ ins, i.Ok) ∧ p.run true ins .zero = some v ∧ ¬ Next rows ins .zero v := by
  refine ⟨[⟨[.edge .zero .one, .lvl .any], .any, .one⟩, ⟨[.lvl .any, .lvl .one], .any, .zero⟩], _, rfl,
    ?_, [inp .zero .one, inp .one .one], .one, ?_, by decide +kernel, ?_⟩
  · intro r hr
    simp only [List.mem_cons, List.not_mem_nil, or_false] at hr
    rcases hr with rfl | rfl <;> exact ⟨rfl, by decide, rfl, rfl⟩
  · intro i hi
    simp only [List.mem_cons, List.not_mem_nil, or_false] at hi
    rcases hi with rfl | rfl <;> exact ⟨by decide, by decide, rfl⟩
  · rintro (⟨r, a, b, c, d⟩ | ⟨a, _⟩ | ⟨_, b⟩)
    · simp only [List.mem_cons, List.not_mem_nil, or_false] at a
      rcases a with rfl | rfl
      · simp [Row.level, Sym.isLevel] at b
      · simp [Out.apply] at d
    · have := a ⟨[.lvl .any, .lvl .one], .any, .zero⟩ (by simp) rfl
      revert this; decide
    · simp at b

/-- Rows with `B` or with an edge by a letter are refused with a message. -/
theorem refused (n : Nat) (pre : List Sym) (s : Sym) (suf : List Sym) (hg : ∀ s ∈ pre, s.good = true)
    (hs : s = .lvl (.b true) ∨ ∃ e u, s = .letter e u) (st : Lvl) (o : Out) (seq : Bool)
    (hl : n = pre.length + 1 + suf.length) :
    rowCond seq n (Row.text seq ⟨pre ++ s :: suf, st, o⟩) = .cannot := by
  have key : ∀ (pre : List Sym) (j : Nat) (acc : Option Cond) (rest : List Char),
      (∀ s ∈ pre, s.good = true) →
      insCond (pre.length + 1 + suf.length) j (insText (pre ++ s :: suf) ++ rest) acc = .cannot := by
    intro pre
    induction pre with
    | nil =>
      intro j acc rest _
      have e : ([] : List Sym).length + 1 + suf.length = suf.length + 1 := by simp; omega
      rw [e]
      simp only [insCond, List.nil_append, insText]
      have : inCond j (s.text ++ insText suf ++ rest) = .cannot := by
        rcases hs with rfl | ⟨e, u, rfl⟩
        · rfl
        · cases e <;> cases u <;> rfl
      rw [this]; rfl
    | cons p pre ih =>
      intro j acc rest hg
      have e : (p :: pre).length + 1 + suf.length = (pre.length + 1 + suf.length) + 1 := by simp; omega
      rw [e]
      simp only [insCond, List.cons_append, insText, List.append_assoc]
      obtain ⟨c, h1, _⟩ := inCond_text j (hg p (by simp)) (insText (pre ++ s :: suf) ++ rest)
        (List.replicate (j + 1) ⟨.x, .x, false⟩) .x (i := ⟨.x, .x, false⟩) (by simp)
        ⟨by decide, by decide, rfl⟩
      rw [h1]
      exact ih (j + 1) _ rest fun s h => hg s (by simp [h])
  unfold rowCond Row.text
  rw [hl, key pre 0 none _ hg]
  rfl

end Verif.Udp
