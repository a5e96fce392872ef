import Verif.Lex.NumModel
import Verif.Lex.NumSpec

namespace Verif.Lex

theorem digitValue_table : ∀ v : Fin 16, ∀ c ∈ ["0123456789abcdef".toList[v.val]?, "0123456789ABCDEF".toList[v.val]?],
    ∀ x, c = some x → digit36 x = some v.val ∧ x ≠ '_' ∧ x ≠ '+' ∧ x ≠ '-' ∧ x ≠ '#' ∧ x ≠ ':' ∧ x ≠ 'x' ∧ x ≠ 'X' ∧
      (v.val < 10 → x ≠ 'e' ∧ x ≠ 'E') := by
  intro v c hc x hx
  have : ∀ v : Fin 16, ∀ c ∈ ["0123456789abcdef".toList[v.val]?, "0123456789ABCDEF".toList[v.val]?],
    c.all (fun x => digit36 x = some v.val ∧ x ≠ '_' ∧ x ≠ '+' ∧ x ≠ '-' ∧ x ≠ '#' ∧ x ≠ ':' ∧ x ≠ 'x' ∧ x ≠ 'X' ∧
      (v.val < 10 → x ≠ 'e' ∧ x ≠ 'E')) = true := by decide +kernel
  have h := this v c hc
  subst hx
  exact of_decide_eq_true h

theorem digitValue_lt {c : Char} {v : Nat} (h : DigitValue c v) : v < 16 := by
  rcases h with h | h
  · exact (List.getElem?_eq_some_iff.mp h).1
  · exact (List.getElem?_eq_some_iff.mp h).1

theorem digitValue_facts {c : Char} {v : Nat} (h : DigitValue c v) :
    digit36 c = some v ∧ c ≠ '_' ∧ c ≠ '+' ∧ c ≠ '-' ∧ c ≠ '#' ∧ c ≠ ':' ∧ c ≠ 'x' ∧ c ≠ 'X' ∧
      (v < 10 → c ≠ 'e' ∧ c ≠ 'E') := by
  have hv := digitValue_lt h
  rcases h with h | h
  · exact digitValue_table ⟨v, hv⟩ _ (by simp) c h
  · exact digitValue_table ⟨v, hv⟩ _ (by simp) c h

theorem digitValue_fun {c : Char} {v w : Nat} (h : DigitValue c v) (k : DigitValue c w) : v = w :=
  Option.some.inj ((digitValue_facts h).1.symm.trans (digitValue_facts k).1)

theorem inBase_of {base : Nat} {c : Char} {v : Nat} (h : DigitValue c v) : inBase base c = decide (v < base) := by
  unfold inBase
  rw [(digitValue_facts h).1]; rfl

/-! ### Removing underscores -/

/-- The text of a numeral without underscores. -/
def bare (cs : List Char) : List Char := cs.filter (· ≠ '_')

theorem strip_fst (cs : List Char) : (strip cs).1 = bare cs := by
  unfold bare
  induction cs with
  | nil => rfl
  | cons c rest ih =>
    rw [strip]
    split
    · next h => rw [List.filter_cons_of_pos (by simpa using h), ih]
    · next h =>
      rw [List.filter_cons_of_neg (by simpa using h)]
      split <;> exact ih

/-- The characters of the list do not end with an underscore. -/
def EndsWell (cs : List Char) : Prop := ∃ l c, cs = l ++ [c] ∧ c ≠ '_'

theorem strip_append (cs rest : List Char) (h : EndsWell cs) :
    (strip (cs ++ rest)).2 = ((strip cs).2 || (strip rest).2) := by
  obtain ⟨l, c, rfl, hc⟩ := h
  induction l with
  | nil => simp [strip, hc]
  | cons a l ih =>
    rw [List.cons_append, List.cons_append, strip, strip]
    have e1 : ¬ (l ++ [c] ++ rest = []) := by simp
    have e2 : ¬ (l ++ [c] = []) := by simp
    have e3 : (l ++ [c] ++ rest).head? = (l ++ [c]).head? := by cases l <;> rfl
    simp only [e1, e2, e3, false_or]
    split
    · exact ih
    · split
      · rfl
      · exact ih

theorem numeral_ends {base : Nat} {cs : List Char} {v : Nat} (h : Numeral base cs v) : EndsWell cs := by
  cases h with
  | one hd _ => exact ⟨[], _, rfl, (digitValue_facts hd).2.1⟩
  | more _ hd _ => exact ⟨_, _, rfl, (digitValue_facts hd).2.1⟩
  | under _ hd _ => exact ⟨_, _, (List.append_assoc _ ['_'] [_]).symm, (digitValue_facts hd).2.1⟩

theorem numeral_strip {base : Nat} {cs : List Char} {v : Nat} (h : Numeral base cs v) : (strip cs).2 = false := by
  induction h with
  | one hd _ => simp [strip, (digitValue_facts hd).2.1]
  | more hn hd _ ih => rw [strip_append _ _ (numeral_ends hn), ih]; simp [strip, (digitValue_facts hd).2.1]
  | under hn hd _ ih => rw [strip_append _ _ (numeral_ends hn), ih]; simp [strip, (digitValue_facts hd).2.1]

theorem bare_append (a b : List Char) : bare (a ++ b) = bare a ++ bare b := by
  unfold bare; exact List.filter_append ..

theorem bare_cons {c : Char} (h : c ≠ '_') (b : List Char) : bare (c :: b) = c :: bare b := by
  unfold bare; exact List.filter_cons_of_pos (by simpa using h)

/-- What is left of a numeral: digits that stand for the number. -/
theorem numeral_bare {base : Nat} {cs : List Char} {v : Nat} (h : Numeral base cs v) :
    bare cs ≠ [] ∧ (∀ c ∈ bare cs, ∃ d, DigitValue c d ∧ d < base) ∧ number base (bare cs) = v := by
  have hs : ∀ (c : Char) (d : Nat), DigitValue c d → bare [c] = [c] := fun c d hd => by
    rw [bare_cons (digitValue_facts hd).2.1]; rfl
  have hs' : ∀ (c : Char) (d : Nat), DigitValue c d → bare ['_', c] = [c] := fun c d hd => by
    unfold bare
    rw [List.filter_cons_of_neg (by simp)]
    exact hs c d hd
  have step : ∀ (cs : List Char) (c : Char) (v d : Nat), (bare cs ≠ [] ∧ (∀ c ∈ bare cs, ∃ d, DigitValue c d ∧ d < base) ∧
      number base (bare cs) = v) → DigitValue c d → d < base →
      (bare cs ++ [c] ≠ [] ∧ (∀ x ∈ bare cs ++ [c], ∃ d, DigitValue x d ∧ d < base) ∧
      number base (bare cs ++ [c]) = v * base + d) := by
    rintro cs c v d ⟨_, h2, h3⟩ hd hlt
    refine ⟨by simp, fun x hx => ?_, ?_⟩
    · rcases List.mem_append.mp hx with hx | hx
      · exact h2 x hx
      · cases List.mem_singleton.mp hx; exact ⟨d, hd, hlt⟩
    · rw [number, List.foldl_append]
      rw [number] at h3
      rw [h3]
      simp [(digitValue_facts hd).1]
  induction h with
  | @one c d hd hlt =>
    rw [hs _ _ hd]
    refine ⟨by simp, fun x hx => by cases List.mem_singleton.mp hx; exact ⟨d, hd, hlt⟩, ?_⟩
    simp [number, (digitValue_facts hd).1]
  | more hn hd hlt ih => rw [bare_append, hs _ _ hd]; exact step _ _ _ _ ih hd hlt
  | under hn hd hlt ih => rw [bare_append, hs' _ _ hd]; exact step _ _ _ _ ih hd hlt

/-! ### The library functions -/

theorem takeWhile_stop {α : Type} (p : α → Bool) (l r : List α) (h : ∀ x ∈ l, p x = true)
    (hr : r = [] ∨ ∃ x r', r = x :: r' ∧ p x = false) :
    (l ++ r).takeWhile p = l ∧ (l ++ r).dropWhile p = r := by
  induction l with
  | nil =>
    rcases hr with rfl | ⟨x, r', rfl, hx⟩
    · exact ⟨rfl, rfl⟩
    · simp [hx]
  | cons a l ih =>
    have ha := h a (by simp)
    have := ih fun x hx => h x (by simp [hx])
    simp [ha, this.1, this.2]

theorem strtok_word (delim : Char → Bool) (l r : List Char) (hne : l ≠ []) (h : ∀ x ∈ l, delim x = false)
    (hr : r = [] ∨ ∃ x r', r = x :: r' ∧ delim x = true) :
    strtok delim (l ++ r) = some (l, r.drop 1) := by
  cases l with
  | nil => exact absurd rfl hne
  | cons a l =>
    have e : ((a :: l) ++ r).dropWhile delim = (a :: l) ++ r := by
      rw [List.cons_append, List.dropWhile_cons_of_neg (by simp [h a (by simp)])]
    have hs := takeWhile_stop (fun c => !delim c) (a :: l) r (fun x hx => by simp [h x hx])
      (hr.imp id (fun ⟨x, r', e, hx⟩ => ⟨x, r', e, by simp [hx]⟩))
    unfold strtok
    rw [e, if_neg (by simp), hs.1, hs.2]

theorem strtok_nil (delim : Char → Bool) : strtok delim [] = none := by simp [strtok]

theorem strtok_skip (delim : Char → Bool) (c : Char) (l : List Char) (h : delim c = true) :
    strtok delim (c :: l) = strtok delim l := by
  unfold strtok
  rw [List.dropWhile_cons_of_pos h]

/-- `strtoll` over digits of the base reads them all. -/
theorem strtollDigits_all (base : Nat) (ds : List Char) (h : ∀ c ∈ ds, ∃ d, DigitValue c d ∧ d < base) :
    strtollDigits base ds = (number base ds, []) := by
  have hx : ¬ (base = 16 ∧ ds.head? = some '0' ∧ (ds[1]? = some 'x' ∨ ds[1]? = some 'X') ∧
      (ds[2]?).any (inBase 16) = true) := by
    rintro ⟨_, _, h1, _⟩
    rcases h1 with h1 | h1
    · obtain ⟨d, hd, _⟩ := h _ (List.mem_of_getElem? h1)
      exact (digitValue_facts hd).2.2.2.2.2.2.1 rfl
    · obtain ⟨d, hd, _⟩ := h _ (List.mem_of_getElem? h1)
      exact (digitValue_facts hd).2.2.2.2.2.2.2.1 rfl
  have hs := takeWhile_stop (inBase base) ds [] (fun c hc => by
    obtain ⟨d, hd, hlt⟩ := h c hc
    rw [inBase_of hd]; simpa using hlt) (Or.inl rfl)
  rw [List.append_nil] at hs
  unfold strtollDigits
  rw [if_neg hx]
  simp only [hs.1, hs.2]

theorem head_plain {ds : List Char} (h : ∀ c ∈ ds, ∃ d, DigitValue c d) :
    ds.head? ≠ some '-' ∧ ds.head? ≠ some '+' := by
  constructor
  · intro e
    obtain ⟨d, hd⟩ := h _ (List.mem_of_mem_head? e)
    exact (digitValue_facts hd).2.2.2.1 rfl
  · intro e
    obtain ⟨d, hd⟩ := h _ (List.mem_of_mem_head? e)
    exact (digitValue_facts hd).2.2.1 rfl

theorem strtoll_all (base : Nat) (ds : List Char) (h : ∀ c ∈ ds, ∃ d, DigitValue c d ∧ d < base) :
    strtoll base ds = (if (number base ds : Int) > maxLL then maxLL else number base ds, [],
      decide ((number base ds : Int) > maxLL)) := by
  have hp := head_plain (ds := ds) fun c hc => (h c hc).imp fun d hd => hd.1
  unfold strtoll
  simp only [hp.1, hp.2, or_self, if_false]
  rw [strtollDigits_all base ds h]

theorem strtoll_plus (base : Nat) (ds : List Char) (h : ∀ c ∈ ds, ∃ d, DigitValue c d ∧ d < base) :
    strtoll base ('+' :: ds) = strtoll base ds := by
  rw [strtoll_all base ds h]
  unfold strtoll
  have e1 : ¬ (some '+' = some '-') := by decide
  simp only [List.head?_cons, e1, false_or, if_true, if_false, List.drop_one, List.tail_cons]
  rw [strtollDigits_all base ds h]

/-- The exponent of the text, cut to the range. -/
theorem exponent_of {x : List Char} {n : Nat} (h : Exponent x n) :
    exponent (bare x) = if (n : Int) > maxLL then maxLL else n := by
  cases h with
  | none => simp [bare, exponent, strtok_nil, maxLL]
  | @some e sign x n he hs hn =>
    have hb := numeral_bare hn
    have hne : e ≠ '_' := by rcases he with rfl | rfl <;> decide
    have hd : (fun c => c == 'e' || c == 'E') e = true := by rcases he with rfl | rfl <;> decide
    have hbx : ∀ c ∈ bare x, (c == 'e' || c == 'E') = false := fun c hc => by
      obtain ⟨d, hd, hlt⟩ := hb.2.1 c hc
      have := (digitValue_facts hd).2.2.2.2.2.2.2.2 hlt
      simp [this.1, this.2]
    have tok : ∀ l : List Char, l ≠ [] → (∀ c ∈ l, (c == 'e' || c == 'E') = false) →
        exponent (e :: l) = (strtoll 10 l).1 := fun l hl hc => by
      have := strtok_word (fun c => c == 'e' || c == 'E') l [] hl hc (Or.inl rfl)
      rw [List.append_nil] at this
      unfold exponent
      rw [strtok_skip _ _ _ hd, this]
    rw [bare_cons hne, bare_append]
    rcases hs with rfl | rfl
    · rw [show bare [] = [] from rfl, List.nil_append, tok _ hb.1 hbx, strtoll_all 10 _ hb.2.1, hb.2.2]
    · rw [show bare ['+'] = ['+'] from rfl, List.singleton_append, tok _ (by simp) (fun c hc => by
        rcases List.mem_cons.mp hc with rfl | hc
        · decide
        · exact hbx c hc), strtoll_plus 10 _ hb.2.1, strtoll_all 10 _ hb.2.1, hb.2.2]

theorem exponent_strip {x : List Char} {n : Nat} (h : Exponent x n) : (strip x).2 = false := by
  cases h with
  | none => rfl
  | @some e sign x n he hs hn =>
    have hne : e ≠ '_' := by rcases he with rfl | rfl <;> decide
    rw [strip, if_pos hne]
    rcases hs with rfl | rfl
    · exact numeral_strip hn
    · rw [List.singleton_append, strip, if_pos (by decide)]
      exact numeral_strip hn

theorem minus_of_digits {base : Nat} {l : List Char} (h : ∀ c ∈ l, ∃ d, DigitValue c d ∧ d < base) : '-' ∉ l := by
  intro hm
  obtain ⟨d, hd, _⟩ := h _ hm
  exact (digitValue_facts hd).2.2.2.1 rfl

theorem exponent_minus {x : List Char} {n : Nat} (h : Exponent x n) : '-' ∉ bare x := by
  cases h with
  | none => simp [bare]
  | @some e sign x n he hs hn =>
    have hne : e ≠ '_' := by rcases he with rfl | rfl <;> decide
    have hnm : '-' ≠ e := by rcases he with rfl | rfl <;> decide
    have := minus_of_digits (numeral_bare hn).2.1
    rw [bare_cons hne, bare_append]
    rcases hs with rfl | rfl
    · rw [show bare [] = [] from rfl]; simp [hnm, this]
    · rw [show bare ['+'] = ['+'] from rfl]; simp [hnm, this]

/-- What is left of the exponent is nothing or starts with the letter. -/
theorem exponent_head {x : List Char} {n : Nat} (h : Exponent x n) :
    bare x = [] ∨ ∃ e r, bare x = e :: r ∧ (e == 'e' || e == 'E') = true := by
  cases h with
  | none => exact Or.inl rfl
  | @some e sign x n he hs hn =>
    have hne : e ≠ '_' := by rcases he with rfl | rfl <;> decide
    exact Or.inr ⟨e, _, bare_cons hne _, by rcases he with rfl | rfl <;> decide⟩

/-! ### The loops -/

theorem scale10_eq (e : Nat) : ∀ v, scale10 e v = scaleBase 10 e v := by
  induction e with
  | zero => intro v; rfl
  | succ e ih => intro v; rw [scale10, scaleBase, ih]

theorem scaleBase_zero (base : Int) (e : Nat) : scaleBase base e 0 = some 0 := by
  induction e with
  | zero => rfl
  | succ e ih => rw [scaleBase, Int.zero_mul, if_neg (by decide), ih]

theorem scaleBase_pos (base e : Nat) (hb : 2 ≤ base) : ∀ v : Nat, 1 ≤ v →
    scaleBase base e v = if ((v * base ^ e : Nat) : Int) > maxLL ∧ 0 < e then none else some ((v * base ^ e : Nat) : Int) := by
  induction e with
  | zero => intro v _; simp [scaleBase]
  | succ e ih =>
    intro v hv
    have h1 : 1 ≤ base ^ e := Nat.pow_pos (by omega)
    have hvb : 1 ≤ v * base := Nat.mul_pos hv (by omega)
    have heq : v * base ^ (e + 1) = v * base * base ^ e := by rw [Nat.pow_succ, Nat.mul_assoc, Nat.mul_comm (base ^ e)]
    rw [scaleBase, heq, ← Int.natCast_mul]
    have hle : v * base ≤ v * base * base ^ e := Nat.le_mul_of_pos_right _ h1
    split
    · next h => rw [if_pos ⟨by omega, by omega⟩]
    · next h =>
      rw [ih _ hvb]
      by_cases he : 0 < e
      · simp only [he, and_true, Nat.succ_pos]
      · have : e = 0 := by omega
        subst this
        rw [Nat.pow_zero, Nat.mul_one, if_neg (by omega), if_neg (by omega)]

/-- An exponent that does not fit makes any positive number too large. -/
theorem pow_large (base n : Nat) (hb : 2 ≤ base) : n < base ^ n :=
  Nat.lt_of_lt_of_le Nat.lt_two_pow_self (Nat.pow_le_pow_left hb n)

end Verif.Lex
