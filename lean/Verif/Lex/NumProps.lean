import Verif.Lex.NumLemmas

/-
Integer literals have the value that the standard gives them.
-/

namespace Verif.Lex

theorem exponent_drop {x : List Char} {n : Nat} (h : Exponent x n) :
    exponent ((bare x).drop 1) = exponent (bare x) := by
  rcases exponent_head h with e | ⟨c, r, e, hc⟩
  · rw [e]; rfl
  · rw [e]
    unfold exponent
    rw [strtok_skip _ c r hc]
    rfl

/-- What the function does with a literal. -/
theorem lexDecimal_of {i x : List Char} {m n : Nat} (hi : Numeral 10 i m) (hx : Exponent x n) :
    lexDecimal (i ++ x) =
      let v : Int := if (m : Int) > maxLL then maxLL else m
      let e : Int := if (n : Int) > maxLL then maxLL else n
      if v = 0 then ⟨.int 0, decide ((m : Int) > maxLL), false⟩
      else match scale10 e.toNat v with
        | some w => ⟨.int w, decide ((m : Int) > maxLL), false⟩
        | none => ⟨.int 0, true, false⟩ := by
  have hb := numeral_bare hi
  have hs : (strip (i ++ x)).2 = false := by
    rw [strip_append _ _ (numeral_ends hi), numeral_strip hi, exponent_strip hx]; rfl
  have hm : '-' ∉ bare i ++ bare x := by
    simp only [List.mem_append, not_or]
    exact ⟨minus_of_digits hb.2.1, exponent_minus hx⟩
  have ht : strtok (fun c => c == 'e' || c == 'E') (bare i ++ bare x) = some (bare i, (bare x).drop 1) :=
    strtok_word _ _ _ hb.1 (fun c hc => by
      obtain ⟨d, hd, hlt⟩ := hb.2.1 c hc
      have := (digitValue_facts hd).2.2.2.2.2.2.2.2 hlt
      simp [this.1, this.2]) ((exponent_head hx).imp id fun ⟨c, r, e, hc⟩ => ⟨c, r, e, hc⟩)
  have he : (if (n : Int) > maxLL then maxLL else (n : Int)) ≥ 0 := by split <;> simp [maxLL]
  unfold lexDecimal
  simp only [hs, strip_fst, bare_append, ht, strtoll_all 10 _ hb.2.1, hb.2.2, exponent_drop hx, exponent_of hx,
    hm, if_false, he, if_true]
  rfl

/-- A decimal literal that is in range has its value and nothing is reported. -/
theorem decimal_value {text : List Char} {v : Nat} (h : DecimalLit text v) (hv : v < 2 ^ 63) :
    lexDecimal text = ⟨.int v, false, false⟩ := by
  obtain ⟨i, m, x, n, rfl, hi, hx, rfl⟩ := h
  rw [lexDecimal_of hi hx]
  by_cases hm : m = 0
  · subst hm; simp [maxLL]
  · have h1 : 1 ≤ 10 ^ n := Nat.pow_pos (by omega)
    have h2 := pow_large 10 n (by omega)
    have h3 : m ≤ m * 10 ^ n := Nat.le_mul_of_pos_right _ h1
    have h4 : 10 ^ n ≤ m * 10 ^ n := Nat.le_mul_of_pos_left _ (by omega)
    generalize hp : m * 10 ^ n = p at *
    have e1 : ¬ (m : Int) > maxLL := by simp only [maxLL]; omega
    have e2 : ¬ (n : Int) > maxLL := by simp only [maxLL]; omega
    have e3 : ¬ (p : Int) > maxLL := by simp only [maxLL]; omega
    simp only [e1, e2, if_false, Int.natCast_eq_zero, hm, Int.toNat_natCast, scale10_eq]
    have := scaleBase_pos 10 n (by omega) m (by omega)
    rw [hp, if_neg (fun h => e3 h.1)] at this
    rw [show (10 : Int) = ((10 : Nat) : Int) from rfl, this]
    rfl

example : DecimalLit "1_000E3".toList 1000000 :=
  ⟨"1_000".toList, 1000, "E3".toList, 3, rfl,
    .more (.more (.under (.one (d := 1) (Or.inl rfl) (by decide)) (d := 0) (Or.inl rfl) (by decide))
      (d := 0) (Or.inl rfl) (by decide)) (d := 0) (Or.inl rfl) (by decide),
    .some (sign := []) (Or.inl rfl) (Or.inl rfl) (.one (d := 3) (Or.inl rfl) (by decide)), rfl⟩

example : lexDecimal "1_000E3".toList = ⟨.int 1000000, false, false⟩ := by decide

/-- A decimal literal that is out of range is reported to be so. -/
theorem decimal_range {text : List Char} {v : Nat} (h : DecimalLit text v) (hv : 2 ^ 63 ≤ v) :
    (lexDecimal text).range = true ∧ (lexDecimal text).under = false := by
  obtain ⟨i, m, x, n, rfl, hi, hx, rfl⟩ := h
  rw [lexDecimal_of hi hx]
  have hm : 1 ≤ m := by
    rcases Nat.eq_zero_or_pos m with rfl | h
    · simp at hv
    · exact h
  by_cases e1 : (m : Int) > maxLL
  · have e0 : ¬ maxLL = 0 := by decide
    simp only [e1, if_true, e0, if_false]
    split <;> simp [e1]
  · have e0 : ¬ (m : Int) = 0 := by omega
    simp only [e1, if_false, e0]
    have key : ∀ k : Nat, 2 ^ 63 ≤ m * 10 ^ k → scale10 k m = none := fun k hk => by
      rw [scale10_eq, show (10 : Int) = ((10 : Nat) : Int) from rfl, scaleBase_pos 10 k (by omega) m hm, if_pos]
      refine ⟨by simp only [maxLL]; omega, ?_⟩
      rcases Nat.eq_zero_or_pos k with rfl | h
      · simp only [maxLL] at e1; omega
      · exact h
    by_cases e2 : (n : Int) > maxLL
    · simp only [e2, if_true]
      have h2 := pow_large 10 9223372036854775807 (by omega)
      have hk : maxLL.toNat = 9223372036854775807 := rfl
      rw [hk]
      rw [key]
      · simp
      · refine Nat.le_trans ?_ (Nat.le_mul_of_pos_left _ hm)
        exact h2
    · simp only [e2, if_false, Int.toNat_natCast]
      rw [key n hv]
      simp

example : (lexDecimal "9_223_372_036_854_775_808".toList).range = true := by decide
example : (lexDecimal "1e19".toList).range = true := by decide

/-! ### Only literals are accepted -/

theorem strip_suffix (a b : List Char) (h : (strip b).2 = true) : (strip (a ++ b)).2 = true := by
  induction a with
  | nil => exact h
  | cons c a ih =>
    rw [List.cons_append, strip]
    split
    · exact ih
    · split
      · rfl
      · exact ih

theorem strip_ends {cs : List Char} (hne : cs ≠ []) (h : (strip cs).2 = false) : EndsWell cs := by
  refine ⟨cs.dropLast, cs.getLast hne, (List.dropLast_concat_getLast hne).symm, fun e => ?_⟩
  have : (strip (cs.dropLast ++ ['_'])).2 = true := strip_suffix _ _ (by simp [strip])
  rw [← e, List.dropLast_concat_getLast, h] at this
  cases this

/-- Digits that the function takes without an error are a numeral. -/
theorem numeral_of (base k : Nat) : ∀ cs : List Char, cs.length ≤ k → cs ≠ [] → cs.head? ≠ some '_' →
    (∀ c ∈ cs, c = '_' ∨ ∃ d, d < base ∧ DigitValue c d) → (strip cs).2 = false → ∃ v, Numeral base cs v := by
  induction k with
  | zero => intro cs h hne; exact absurd (List.eq_nil_of_length_eq_zero (by omega)) hne
  | succ k ih =>
    intro cs hl hne hh hd hs
    obtain ⟨l, c, rfl, hc⟩ := strip_ends hne hs
    obtain ⟨d, hlt, hcd⟩ := (hd c (by simp)).resolve_left hc
    by_cases hl0 : l = []
    · subst hl0; exact ⟨d, .one hcd hlt⟩
    · by_cases hlast : (strip l).2 = false
      · obtain ⟨v, hv⟩ := ih l (by simp at hl; omega) hl0 (fun e => hh (by cases l <;> simp_all))
          (fun x hx => hd x (by simp [hx])) hlast
        exact ⟨_, .more hv hcd hlt⟩
      · obtain ⟨l', c', rfl⟩ : ∃ l' c', l = l' ++ [c'] :=
          ⟨_, _, (List.dropLast_concat_getLast hl0).symm⟩
        by_cases hc' : c' = '_'
        · subst hc'
          have hl' : l' ≠ [] := by rintro rfl; exact hh rfl
          have hs' : (strip l').2 = false := by
            by_cases h' : EndsWell l'
            · rw [List.append_assoc, strip_append _ _ h'] at hs
              exact (Bool.or_eq_false_iff.mp hs).1
            · obtain ⟨l'', c'', rfl⟩ : ∃ l'' c'', l' = l'' ++ [c''] :=
                ⟨_, _, (List.dropLast_concat_getLast hl').symm⟩
              have : c'' = '_' := Classical.byContradiction fun h => h' ⟨_, _, rfl, h⟩
              subst this
              have : (strip (l'' ++ ['_', '_', c])).2 = true := strip_suffix _ _ (by simp [strip])
              simp only [List.append_assoc, List.cons_append, List.nil_append] at hs
              rw [hs] at this; cases this
          obtain ⟨v, hv⟩ := ih l' (by simp at hl; omega) hl' (fun e => hh (by cases l' <;> simp_all))
            (fun x hx => hd x (by simp [hx])) hs'
          refine ⟨v * base + d, ?_⟩
          rw [List.append_assoc]
          exact .under hv hcd hlt
        · rw [strip_append _ _ ⟨_, _, rfl, hc'⟩] at hs
          exact absurd (Bool.or_eq_false_iff.mp hs).1 hlast

theorem numeral_of_digits {cs : List Char} (h : Digits cs) (hs : (strip cs).2 = false) : ∃ v, Numeral 10 cs v := by
  obtain ⟨c, rest, rfl, ⟨d, hlt, hd⟩, hr⟩ := h
  refine numeral_of 10 _ _ (Nat.le_refl _) (by simp) ?_ ?_ hs
  · simp [(digitValue_facts hd).2.1]
  · intro x hx
    rcases List.mem_cons.mp hx with rfl | hx
    · exact Or.inr ⟨d, hlt, hd⟩
    · exact hr x hx

theorem exponent_of_tail {cs : List Char} (h : Tail cs) (hm : '-' ∉ cs) (hs : (strip cs).2 = false) :
    ∃ n, Exponent cs n := by
  rcases h with rfl | ⟨e, sign, x, rfl, he, hsg, hx⟩
  · exact ⟨0, .none⟩
  · have hne : e ≠ '_' := by rcases he with rfl | rfl <;> decide
    rw [strip, if_pos hne] at hs
    rcases hsg with rfl | rfl | rfl
    · obtain ⟨n, hn⟩ := numeral_of_digits hx hs
      exact ⟨n, .some he (Or.inl rfl) hn⟩
    · rw [List.singleton_append, strip, if_pos (by decide)] at hs
      obtain ⟨n, hn⟩ := numeral_of_digits hx hs
      exact ⟨n, .some he (Or.inr rfl) hn⟩
    · simp at hm

theorem digits_ne {cs : List Char} (h : Digits cs) : cs ≠ [] := by
  obtain ⟨c, rest, rfl, _⟩ := h; simp

/-- The part before a character that does not follow an underscore ends well. -/
theorem endsWell_of {cs : List Char} (hne : cs ≠ []) (h : ∀ l, cs ≠ l ++ ['_']) : EndsWell cs :=
  ⟨cs.dropLast, cs.getLast hne, (List.dropLast_concat_getLast hne).symm, fun e =>
    h cs.dropLast (by rw [← e, List.dropLast_concat_getLast])⟩

/-- What the function takes for an integer without a message is a literal with
    this value, if there is neither a minus sign nor an underscore before the
    letter of the exponent. -/
theorem decimal_only_partial {i x : List Char} {v : Int} (hi : Digits i) (hx : Tail x) (hm : '-' ∉ x)
    (hu : ∀ l e r, i ++ x = l ++ '_' :: e :: r → e ≠ 'E' ∧ e ≠ 'e')
    (h : lexDecimal (i ++ x) = ⟨.int v, false, false⟩) :
    ∃ w : Nat, v = w ∧ DecimalLit (i ++ x) w := by
  have hs : (strip (i ++ x)).2 = false := by
    have : (lexDecimal (i ++ x)).under = (strip (i ++ x)).2 := by
      unfold lexDecimal
      simp only
      split
      · rfl
      · split
        · rfl
        · split
          · split <;> rfl
          · rfl
    rw [← this, h]
  have hend : EndsWell i := by
    rcases hx with rfl | ⟨e, sign, x, rfl, he, _, _⟩
    · rw [List.append_nil] at hs
      exact strip_ends (digits_ne hi) hs
    · refine endsWell_of (digits_ne hi) fun l hl => ?_
      have := hu l e (sign ++ x) (by rw [hl]; simp)
      rcases he with rfl | rfl
      · exact this.1 rfl
      · exact this.2 rfl
  rw [strip_append _ _ hend, Bool.or_eq_false_iff] at hs
  obtain ⟨m, hn⟩ := numeral_of_digits hi hs.1
  obtain ⟨n, he⟩ := exponent_of_tail hx hm hs.2
  have lit : DecimalLit (i ++ x) (m * 10 ^ n) := ⟨i, m, x, n, rfl, hn, he, rfl⟩
  refine ⟨m * 10 ^ n, ?_, lit⟩
  by_cases hv : m * 10 ^ n < 2 ^ 63
  · rw [decimal_value lit hv] at h
    simp only [Scan.mk.injEq, Tok.int.injEq] at h
    exact h.1.symm
  · have := (decimal_range lit (by omega)).1
    rw [h] at this
    cases this

example : Digits "1_2".toList ∧ Tail "e+3".toList ∧ '-' ∉ "e+3".toList ∧
    lexDecimal ("1_2".toList ++ "e+3".toList) = ⟨.int 12000, false, false⟩ := by
  have one : ∃ d, d < 10 ∧ DigitValue '1' d := ⟨1, by decide, Or.inl rfl⟩
  have two : ∃ d, d < 10 ∧ DigitValue '2' d := ⟨2, by decide, Or.inl rfl⟩
  have three : ∃ d, d < 10 ∧ DigitValue '3' d := ⟨3, by decide, Or.inl rfl⟩
  refine ⟨⟨'1', ['_', '2'], rfl, one, ?_⟩,
    Or.inr ⟨'e', ['+'], ['3'], rfl, Or.inr rfl, Or.inr (Or.inl rfl), ⟨'3', [], rfl, three, by simp⟩⟩, by decide, by decide⟩
  intro r hr
  simp only [List.mem_cons, List.not_mem_nil, or_false] at hr
  rcases hr with rfl | rfl
  · exact Or.inl rfl
  · exact Or.inr two

/-- A minus sign makes an error of everything but zero. -/
theorem decimal_minus {i x : List Char} {m : Nat} (hi : Numeral 10 i m) (hx : '-' ∈ x) (hm : m ≠ 0)
    (ht : Tail x) : (lexDecimal (i ++ x)).tok = .error := by
  have hb := numeral_bare hi
  obtain ⟨e, sign, x, rfl, he, _, _⟩ := ht.resolve_left (by rintro rfl; simp at hx)
  have hne : e ≠ '_' := by rcases he with rfl | rfl <;> decide
  have hd : (e == 'e' || e == 'E') = true := by rcases he with rfl | rfl <;> decide
  have tok : strtok (fun c => c == 'e' || c == 'E') (bare i ++ bare (e :: (sign ++ x))) =
      some (bare i, bare (sign ++ x)) := by
    rw [bare_cons hne]
    exact strtok_word _ _ _ hb.1 (fun c hc => by
      obtain ⟨d, hd, hlt⟩ := hb.2.1 c hc
      have := (digitValue_facts hd).2.2.2.2.2.2.2.2 hlt
      simp [this.1, this.2]) (Or.inr ⟨e, _, rfl, hd⟩)
  have hmem : '-' ∈ bare i ++ bare (e :: (sign ++ x)) := by
    refine List.mem_append.mpr (Or.inr ?_)
    unfold bare
    exact List.mem_filter.mpr ⟨hx, by decide⟩
  have h0 : ¬ (if (m : Int) > maxLL then maxLL else (m : Int)) = 0 := by
    split
    · decide
    · omega
  unfold lexDecimal
  simp only [strip_fst, bare_append] at *
  simp only [tok, strtoll_all 10 _ hb.2.1, hb.2.2, h0, if_false, hmem, if_true]
  split
  · split <;> rfl
  · rfl

example : (lexDecimal "1E-0".toList).tok = .error := by decide

/-- With a minus sign there is no literal, but zero is taken for one. -/
theorem decimal_minus_counterexample :
    lexDecimal "0E-1".toList = ⟨.int 0, false, false⟩ ∧ ∀ v, ¬ DecimalLit "0E-1".toList v := by
  refine ⟨by decide, ?_⟩
  rintro v ⟨i, m, x, n, e, hi, hx, _⟩
  have h1 := minus_of_digits (numeral_bare hi).2.1
  have h2 := exponent_minus hx
  have h3 : '-' ∈ bare (i ++ x) := by rw [← e]; decide
  rw [bare_append] at h3
  rcases List.mem_append.mp h3 with h | h
  · exact h1 h
  · exact h2 h

theorem numeral_no {base : Nat} {cs : List Char} {v : Nat} (h : Numeral base cs v) {c : Char} (hc : c ∈ cs) :
    c = '_' ∨ ∃ d, DigitValue c d ∧ d < base := by
  by_cases e : c = '_'
  · exact Or.inl e
  · exact Or.inr ((numeral_bare h).2.1 c (List.mem_filter.mpr ⟨hc, by simpa using e⟩))

theorem numeral_10_e {cs : List Char} {v : Nat} (h : Numeral 10 cs v) : 'e' ∉ cs ∧ 'E' ∉ cs := by
  constructor
  · intro hc
    rcases numeral_no h hc with e | ⟨d, hd, hlt⟩
    · exact absurd e (by decide)
    · exact ((digitValue_facts hd).2.2.2.2.2.2.2.2 hlt).1 rfl
  · intro hc
    rcases numeral_no h hc with e | ⟨d, hd, hlt⟩
    · exact absurd e (by decide)
    · exact ((digitValue_facts hd).2.2.2.2.2.2.2.2 hlt).2 rfl

/-- An underscore before the letter of the exponent is not reported. -/
theorem decimal_underscore_counterexample :
    lexDecimal "1_e5".toList = ⟨.int 100000, false, false⟩ ∧ ∀ v, ¬ DecimalLit "1_e5".toList v := by
  refine ⟨by decide, ?_⟩
  rintro v ⟨i, m, x, n, e, hi, hx, _⟩
  have h1 := (numeral_10_e hi).1
  obtain ⟨l, c, rfl, hc⟩ := numeral_ends hi
  have e : ['1', '_', 'e', '5'] = l ++ [c] ++ x := e
  have hx' : x = [] ∨ ∃ a r, x = a :: r ∧ (a = 'E' ∨ a = 'e') := by
    cases hx with
    | none => exact Or.inl rfl
    | some he _ _ => exact Or.inr ⟨_, _, rfl, he⟩
  rcases hx' with rfl | ⟨a, r, rfl, ha⟩
  · rw [List.append_nil] at e
    exact h1 (by rw [← e]; decide)
  · match l, e with
    | [], e =>
      simp only [List.nil_append, List.cons_append, List.cons.injEq] at e
      obtain ⟨_, rfl, _⟩ := e
      rcases ha with h | h <;> exact absurd h (by decide)
    | [_], e =>
      simp only [List.nil_append, List.cons_append, List.cons.injEq] at e
      exact hc e.2.1.symm
    | [_, _], e =>
      simp only [List.nil_append, List.cons_append, List.cons.injEq] at e
      exact h1 (by rw [← e.2.2.1]; simp)
    | _ :: _ :: _ :: l, e =>
      simp only [List.nil_append, List.cons_append, List.cons.injEq] at e
      exact h1 (by rw [← e.2.2.1]; simp)

/-! ### Based literals -/

theorem atoi_of {cs : List Char} {b : Nat} (h : Numeral 10 cs b) (hb : b < 2 ^ 31) : atoi (bare cs) = b := by
  have hn := numeral_bare h
  unfold atoi
  rw [strtoll_all 10 _ hn.2.1, hn.2.2]
  have : ¬ (b : Int) > maxLL := by simp only [maxLL]; omega
  simp only [this, if_false]
  rw [Int.emod_eq_of_lt (by omega) (by omega), if_pos (by omega)]

/-- What the function does with a literal. -/
theorem lexBased_of {b i x : List Char} {hash : Char} {base m n : Nat} (hh : hash = '#' ∨ hash = ':')
    (hb : Numeral 10 b base) (h2 : 2 ≤ base) (h16 : base ≤ 16) (hi : Numeral base i m) (hx : Exponent x n) :
    lexBased (b ++ hash :: (i ++ hash :: x)) =
      let v : Int := if (m : Int) > maxLL then maxLL else m
      let e : Int := if (n : Int) > maxLL then maxLL else n
      match scaleBase base e.toNat v with
        | some w => ⟨.int w, false, false⟩
        | none => ⟨.undefined, false, false⟩ := by
  have nb := numeral_bare hb
  have ni := numeral_bare hi
  have hu : hash ≠ '_' := by rcases hh with rfl | rfl <;> decide
  have hmh : '-' ≠ hash := by rcases hh with rfl | rfl <;> decide
  have hdel : (hash == '#' || hash == ':') = true := by rcases hh with rfl | rfl <;> decide
  have hs : (strip (b ++ hash :: (i ++ hash :: x))).2 = false := by
    rw [strip_append _ _ (numeral_ends hb), numeral_strip hb, strip, if_pos hu, strip_append _ _ (numeral_ends hi),
      numeral_strip hi, strip, if_pos hu, exponent_strip hx]; rfl
  have hbare : bare (b ++ hash :: (i ++ hash :: x)) = bare b ++ hash :: (bare i ++ hash :: bare x) := by
    rw [bare_append, bare_cons hu, bare_append, bare_cons hu]
  have hm : '-' ∉ bare b ++ hash :: (bare i ++ hash :: bare x) := by
    simp only [List.mem_append, List.mem_cons, not_or]
    exact ⟨minus_of_digits nb.2.1, hmh, minus_of_digits ni.2.1, hmh, exponent_minus hx⟩
  have plain : ∀ (k : Nat) (l : List Char), (∀ c ∈ l, ∃ d, DigitValue c d ∧ d < k) →
      ∀ c ∈ l, (c == '#' || c == ':') = false := fun k l h c hc => by
    obtain ⟨d, hd, _⟩ := h c hc
    have f := digitValue_facts hd
    simp [f.2.2.2.2.1, f.2.2.2.2.2.1]
  have t1 : strtok (fun c => c == '#' || c == ':') (bare b ++ hash :: (bare i ++ hash :: bare x)) =
      some (bare b, bare i ++ hash :: bare x) :=
    strtok_word _ _ _ nb.1 (plain _ _ nb.2.1) (Or.inr ⟨hash, _, rfl, hdel⟩)
  have t2 : strtok (fun c => c == '#' || c == ':') (bare i ++ hash :: bare x) = some (bare i, bare x) :=
    strtok_word _ _ _ ni.1 (plain _ _ ni.2.1) (Or.inr ⟨hash, _, rfl, hdel⟩)
  have he : (if (n : Int) > maxLL then maxLL else (n : Int)) ≥ 0 := by split <;> simp [maxLL]
  have hr : (2 : Int) ≤ base ∧ (base : Int) ≤ 16 := by omega
  unfold lexBased
  simp only [strip_fst, hbare, hs, t1, t2, atoi_of hb (by omega), hr, and_self, if_true, Int.toNat_natCast,
    strtoll_all base _ ni.2.1, ni.2.2, exponent_of hx, he, hm, not_false_eq_true]
  rfl

/-- A based literal that is in range has its value and nothing is reported. -/
theorem based_value {text : List Char} {v : Nat} (h : BasedLit text v) (hv : v < 2 ^ 63) :
    lexBased text = ⟨.int v, false, false⟩ := by
  obtain ⟨b, base, hash, i, m, x, n, rfl, hh, hb, h2, h16, hi, hx, rfl⟩ := h
  rw [lexBased_of hh hb h2 h16 hi hx]
  by_cases hm : m = 0
  · subst hm
    have : ¬ (0 : Int) > maxLL := by decide
    simp only [Int.natCast_zero]
    simp only [this, if_false, Int.natCast_zero, scaleBase_zero, Nat.zero_mul]
  · have h1 : 1 ≤ base ^ n := Nat.pow_pos (by omega)
    have h2' := pow_large base n h2
    have h3 : m ≤ m * base ^ n := Nat.le_mul_of_pos_right _ h1
    have h4 : base ^ n ≤ m * base ^ n := Nat.le_mul_of_pos_left _ (by omega)
    have hsc := scaleBase_pos base n h2 m (by omega)
    generalize hp : m * base ^ n = p at *
    have e1 : ¬ (m : Int) > maxLL := by simp only [maxLL]; omega
    have e2 : ¬ (n : Int) > maxLL := by simp only [maxLL]; omega
    have e3 : ¬ (p : Int) > maxLL := by simp only [maxLL]; omega
    rw [if_neg (fun h => e3 h.1)] at hsc
    simp only [e1, e2, if_false, Int.toNat_natCast, hsc]

example : BasedLit "16#F_F#e1".toList 4080 :=
  ⟨"16".toList, 16, '#', "F_F".toList, 255, "e1".toList, 1, rfl, Or.inl rfl,
    .more (.one (d := 1) (Or.inl rfl) (by decide)) (d := 6) (Or.inl rfl) (by decide), by decide, by decide,
    .under (.one (d := 15) (Or.inr rfl) (by decide)) (d := 15) (Or.inr rfl) (by decide),
    .some (sign := []) (Or.inr rfl) (Or.inl rfl) (.one (d := 1) (Or.inl rfl) (by decide)), rfl⟩

example : lexBased "16#F_F#e1".toList = ⟨.int 4080, false, false⟩ := by decide

/-- A based literal that is out of range is never reported: what happens is
    undefined, or it has the largest value that is in range. -/
theorem based_range_counterexample {text : List Char} {v : Nat} (h : BasedLit text v) (hv : 2 ^ 63 ≤ v) :
    lexBased text = ⟨.undefined, false, false⟩ ∨ lexBased text = ⟨.int (2 ^ 63 - 1), false, false⟩ := by
  obtain ⟨b, base, hash, i, m, x, n, rfl, hh, hb, h2, h16, hi, hx, rfl⟩ := h
  rw [lexBased_of hh hb h2 h16 hi hx]
  have hm : 1 ≤ m := by
    rcases Nat.eq_zero_or_pos m with rfl | h
    · simp at hv
    · exact h
  have big : ∀ (a k : Nat), 1 ≤ a → 2 ^ 63 ≤ a * base ^ k → 0 < k → scaleBase base k a = none := fun a k ha hk h0 => by
    rw [scaleBase_pos base k h2 a ha, if_pos ⟨by simp only [maxLL]; omega, h0⟩]
  have hlarge : ∀ a : Nat, 1 ≤ a → 2 ^ 63 ≤ a * base ^ 9223372036854775807 := fun a ha => by
    have h2' := pow_large base 9223372036854775807 h2
    exact Nat.le_trans h2' (Nat.le_mul_of_pos_left _ ha)
  have hk : maxLL.toNat = 9223372036854775807 := rfl
  by_cases e1 : (m : Int) > maxLL
  · simp only [e1, if_true]
    have hmax : maxLL = ((9223372036854775807 : Nat) : Int) := rfl
    by_cases e2 : (n : Int) > maxLL
    · simp only [e2, if_true, hk]
      have := big 9223372036854775807 9223372036854775807 (by omega) (hlarge _ (by omega)) (by omega)
      rw [← hmax] at this
      rw [this]; exact Or.inl rfl
    · simp only [e2, if_false, Int.toNat_natCast]
      rcases Nat.eq_zero_or_pos n with rfl | h0
      · exact Or.inr rfl
      · have hp : 2 ≤ base ^ n := Nat.le_trans h2 (Nat.le_self_pow (by omega) base)
        have := big 9223372036854775807 n (by omega) (by
          have := Nat.mul_le_mul_left 9223372036854775807 hp
          omega) h0
        rw [← hmax] at this
        rw [this]; exact Or.inl rfl
  · simp only [e1, if_false]
    by_cases e2 : (n : Int) > maxLL
    · simp only [e2, if_true, hk]
      rw [big m _ hm (hlarge _ hm) (by omega)]; exact Or.inl rfl
    · simp only [e2, if_false, Int.toNat_natCast]
      rcases Nat.eq_zero_or_pos n with rfl | h0
      · rw [Nat.pow_zero] at hv; simp only [maxLL] at e1; omega
      · rw [big m n hm hv h0]; exact Or.inl rfl

example : lexBased "16#8000_0000_0000_0000#".toList = ⟨.int (2 ^ 63 - 1), false, false⟩ := by decide
example : lexBased "16#1#E16".toList = ⟨.undefined, false, false⟩ := by decide

example : BasedLit "16#1#E16".toList (2 ^ 64) :=
  ⟨"16".toList, 16, '#', "1".toList, 1, "E16".toList, 16, rfl, Or.inl rfl,
    .more (.one (d := 1) (Or.inl rfl) (by decide)) (d := 6) (Or.inl rfl) (by decide), by decide, by decide,
    .one (d := 1) (Or.inl rfl) (by decide),
    .some (sign := []) (Or.inl rfl) (Or.inl rfl)
      (.more (.one (d := 1) (Or.inl rfl) (by decide)) (d := 6) (Or.inl rfl) (by decide)), by decide⟩

/-- A legal literal for zero with which the loop makes 2^63 - 1 rounds. -/
theorem based_rounds_counterexample :
    BasedLit "2#0#E9223372036854775807".toList 0 ∧ exponent "E9223372036854775807".toList = 2 ^ 63 - 1 := by
  refine ⟨?_, by decide⟩
  have h : ∀ cs : List Char, cs ≠ [] → cs.head? ≠ some '_' → (∀ c ∈ cs, c = '_' ∨ ∃ d, d < 10 ∧ DigitValue c d) →
      (strip cs).2 = false → ∃ v, Numeral 10 cs v := fun cs => numeral_of 10 _ cs (Nat.le_refl _)
  obtain ⟨n, hn⟩ := h "9223372036854775807".toList (by decide) (by decide) (by
    have key : ∀ c ∈ "9223372036854775807".toList, ∃ d, d < 10 ∧ DigitValue c d := by
      unfold DigitValue; decide
    exact fun c hc => Or.inr (key c hc)) (by decide)
  exact ⟨"2".toList, 2, '#', "0".toList, 0, _, n, rfl, Or.inl rfl, .one (d := 2) (Or.inl rfl) (by decide), by decide,
    by decide, .one (d := 0) (Or.inl rfl) (by decide), .some (sign := []) (Or.inl rfl) (Or.inl rfl) hn,
    (Nat.zero_mul _).symm⟩

/-- The digits that the function takes for a base. -/
theorem hex_in_base {base : Nat} (h16 : base ≤ 16) {cs : List Char} (h : Hex cs)
    (hr : ∀ c ∈ bare cs, inBase base c = true) : ∀ c ∈ cs, c = '_' ∨ ∃ d, d < base ∧ DigitValue c d := by
  have bad : ∀ c ∈ "zZxX".toList, ∀ b ≤ 16, inBase b c = false ∧ c ≠ '_' := by
    intro c hc b hb
    have : ∀ c ∈ "zZxX".toList, ∀ b < 17, inBase b c = false ∧ c ≠ '_' := by decide +kernel
    exact this c hc b (by omega)
  have good : ∀ c, ((∃ d, DigitValue c d) ∨ c ∈ "zZxX".toList) → c ∈ cs → c = '_' ∨ ∃ d, d < base ∧ DigitValue c d := by
    rintro c (⟨d, hd⟩ | hz) hc
    · have := hr c (List.mem_filter.mpr ⟨hc, by simpa using (digitValue_facts hd).2.1⟩)
      rw [inBase_of hd] at this
      exact Or.inr ⟨d, of_decide_eq_true this, hd⟩
    · have hb := bad c hz base h16
      have := hr c (List.mem_filter.mpr ⟨hc, by simpa using hb.2⟩)
      rw [hb.1] at this; cases this
  obtain ⟨c, rest, rfl, hc, hrest⟩ := h
  intro x hx
  rcases List.mem_cons.mp hx with rfl | hx
  · exact good x hc (by simp)
  · rcases hrest x hx with e | h
    · exact Or.inl e
    · exact good x h (by simp [hx])

theorem hex_plain {cs : List Char} (h : Hex cs) : cs ≠ [] ∧ cs.head? ≠ some '_' ∧
    (∀ c ∈ cs, (c == '#' || c == ':') = false) ∧ ∀ c ∈ cs, c ≠ '-' ∧ c ≠ '+' := by
  have bad : ∀ c ∈ "zZxX".toList, c ≠ '_' ∧ (c == '#' || c == ':') = false ∧ c ≠ '-' ∧ c ≠ '+' := by decide
  have good : ∀ c, ((∃ d, DigitValue c d) ∨ c ∈ "zZxX".toList) →
      c ≠ '_' ∧ (c == '#' || c == ':') = false ∧ c ≠ '-' ∧ c ≠ '+' := by
    rintro c (⟨d, hd⟩ | hz)
    · have f := digitValue_facts hd
      exact ⟨f.2.1, by simp [f.2.2.2.2.1, f.2.2.2.2.2.1], f.2.2.2.1, f.2.2.1⟩
    · exact bad c hz
  obtain ⟨c, rest, rfl, hc, hrest⟩ := h
  refine ⟨by simp, by simp [(good c hc).1], fun x hx => ?_, fun x hx => ?_⟩
  · rcases List.mem_cons.mp hx with rfl | hx
    · exact (good x hc).2.1
    · rcases hrest x hx with rfl | h
      · decide
      · exact (good x h).2.1
  · rcases List.mem_cons.mp hx with rfl | hx
    · exact (good x hc).2.2
    · rcases hrest x hx with rfl | h
      · decide
      · exact (good x h).2.2

theorem all_of_dropWhile {α : Type} (p : α → Bool) (l : List α) (h : l.dropWhile p = []) : ∀ x ∈ l, p x = true := by
  induction l with
  | nil => simp
  | cons a l ih =>
    rw [List.dropWhile_cons] at h
    split at h
    · next ha =>
      intro x hx
      rcases List.mem_cons.mp hx with rfl | hx
      · exact ha
      · exact ih h x hx
    · cases h

/-- What the function takes for an integer without a message is a literal, and if
    that is in range it is the value; if no underscore is before a number sign or
    the letter of the exponent, there is no letter x and the base is
    not huge. -/
theorem based_only_partial {b i x : List Char} {hash : Char} {v : Int} (hh : hash = '#' ∨ hash = ':')
    (hb : Digits b) (hi : Hex i) (hx : Tail x) (hX : 'x' ∉ i ∧ 'X' ∉ i)
    (hbase : ∀ n, Numeral 10 b n → n < 2 ^ 31)
    (hu : ∀ l r, b ++ hash :: (i ++ hash :: x) ≠ l ++ '_' :: hash :: r)
    (h : lexBased (b ++ hash :: (i ++ hash :: x)) = ⟨.int v, false, false⟩) :
    ∃ w : Nat, BasedLit (b ++ hash :: (i ++ hash :: x)) w ∧ (w < 2 ^ 63 → v = w) := by
  have hun : hash ≠ '_' := by rcases hh with rfl | rfl <;> decide
  have hdel : (hash == '#' || hash == ':') = true := by rcases hh with rfl | rfl <;> decide
  have hip := hex_plain hi
  have hs : (strip (b ++ hash :: (i ++ hash :: x))).2 = false := by
    have : (lexBased (b ++ hash :: (i ++ hash :: x))).under = (strip (b ++ hash :: (i ++ hash :: x))).2 := by
      unfold lexBased
      simp only
      split
      · rfl
      · split
        · rfl
        · split
          · split
            · split <;> rfl
            · rfl
          · rfl
    rw [← this, h]
  have eb : EndsWell b := endsWell_of (digits_ne hb) fun l hl => hu l (i ++ hash :: x) (by rw [hl]; simp)
  have ei : EndsWell i := endsWell_of hip.1 fun l hl => hu (b ++ hash :: l) x (by rw [hl]; simp)
  rw [strip_append _ _ eb, Bool.or_eq_false_iff, strip, if_pos hun, strip_append _ _ ei, Bool.or_eq_false_iff,
    strip, if_pos hun] at hs
  obtain ⟨base, nb⟩ := numeral_of_digits hb hs.1
  have nbare := numeral_bare nb
  have hlt := hbase base nb
  have hbare : bare (b ++ hash :: (i ++ hash :: x)) = bare b ++ hash :: (bare i ++ hash :: bare x) := by
    rw [bare_append, bare_cons hun, bare_append, bare_cons hun]
  have ibne : bare i ≠ [] := by
    obtain ⟨l, c, rfl, hc⟩ := ei
    rw [bare_append, bare_cons hc]; simp
  have t1 : strtok (fun c => c == '#' || c == ':') (bare b ++ hash :: (bare i ++ hash :: bare x)) =
      some (bare b, bare i ++ hash :: bare x) :=
    strtok_word _ _ _ nbare.1 (fun c hc => by
      obtain ⟨d, hd, _⟩ := nbare.2.1 c hc
      have f := digitValue_facts hd
      simp [f.2.2.2.2.1, f.2.2.2.2.2.1]) (Or.inr ⟨hash, _, rfl, hdel⟩)
  have t2 : strtok (fun c => c == '#' || c == ':') (bare i ++ hash :: bare x) = some (bare i, bare x) :=
    strtok_word _ _ _ ibne (fun c hc => hip.2.2.1 c (List.mem_filter.mp hc).1) (Or.inr ⟨hash, _, rfl, hdel⟩)
  have key : (2 ≤ base ∧ base ≤ 16) ∧ (strtoll base (bare i)).2.1 = [] ∧ '-' ∉ bare b ++ hash :: (bare i ++ hash :: bare x) := by
    unfold lexBased at h
    simp only [strip_fst, hbare, t1, t2, atoi_of nb hlt, Int.toNat_natCast] at h
    split at h
    · next hr =>
      refine ⟨by omega, ?_⟩
      split at h
      · split at h
        · split at h
          · next hc => exact hc
          · cases h
        · cases h
      · cases h
    · cases h
  obtain ⟨hr, hrest, hminus⟩ := key
  have hin : ∀ c ∈ bare i, inBase base c = true := by
    have hne : ∀ (c : Char), (bare i).head? = some c → c ≠ '-' ∧ c ≠ '+' := fun c hc =>
      hip.2.2.2 c (List.mem_filter.mp (List.mem_of_mem_head? hc)).1
    have n1 : ¬ (bare i).head? = some '-' := fun e => (hne _ e).1 rfl
    have n2 : ¬ (bare i).head? = some '+' := fun e => (hne _ e).2 rfl
    unfold strtoll at hrest
    simp only [n1, n2, or_self, if_false] at hrest
    unfold strtollDigits at hrest
    have nx : ¬ (base = 16 ∧ (bare i).head? = some '0' ∧ ((bare i)[1]? = some 'x' ∨ (bare i)[1]? = some 'X') ∧
        ((bare i)[2]?).any (inBase 16) = true) := by
      rintro ⟨_, _, h1 | h1, _⟩
      · exact hX.1 (List.mem_filter.mp (List.mem_of_getElem? h1)).1
      · exact hX.2 (List.mem_filter.mp (List.mem_of_getElem? h1)).1
    rw [if_neg nx] at hrest
    exact all_of_dropWhile _ _ hrest
  obtain ⟨m, ni⟩ := numeral_of base _ i (Nat.le_refl _) hip.1 hip.2.1 (hex_in_base hr.2 hi hin) hs.2.1
  obtain ⟨n, nx⟩ := exponent_of_tail hx (fun hm => hminus (by
    simp only [List.mem_append, List.mem_cons]
    exact Or.inr (Or.inr (Or.inr (Or.inr (List.mem_filter.mpr ⟨hm, by decide⟩)))))) hs.2.2
  have lit : BasedLit (b ++ hash :: (i ++ hash :: x)) (m * base ^ n) :=
    ⟨b, base, hash, i, m, x, n, rfl, hh, nb, hr.1, hr.2, ni, nx, rfl⟩
  refine ⟨_, lit, fun hv => ?_⟩
  rw [based_value lit hv] at h
  simp only [Scan.mk.injEq, Tok.int.injEq] at h
  exact h.1.symm

example : Hex "fF_0".toList ∧ (∀ n, Numeral 10 "16".toList n → n < 2 ^ 31) ∧
    lexBased ("16".toList ++ '#' :: ("fF_0".toList ++ '#' :: [])) = ⟨.int 4080, false, false⟩ := by
  refine ⟨⟨'f', ['F', '_', '0'], rfl, Or.inl ⟨15, Or.inl rfl⟩, ?_⟩, ?_, by decide⟩
  · intro r hr
    simp only [List.mem_cons, List.not_mem_nil, or_false] at hr
    rcases hr with rfl | rfl | rfl
    · exact Or.inr (Or.inl ⟨15, Or.inr rfl⟩)
    · exact Or.inl rfl
    · exact Or.inr (Or.inl ⟨0, Or.inl rfl⟩)
  · intro n h
    have := (numeral_bare h).2.2
    have k : number 10 (bare "16".toList) = 16 := by decide
    omega

/-- A literal has nothing but digits, underscores, signs and the letter e. -/
theorem basedLit_no_x {text : List Char} {v : Nat} (h : BasedLit text v) : 'x' ∉ text := by
  obtain ⟨b, base, hash, i, m, x, n, rfl, hh, hb, h2, h16, hi, hx, rfl⟩ := h
  have num : ∀ {k : Nat} {cs : List Char} {v : Nat}, Numeral k cs v → 'x' ∉ cs := fun h hc => by
    rcases numeral_no h hc with e | ⟨d, hd, _⟩
    · exact absurd e (by decide)
    · exact (digitValue_facts hd).2.2.2.2.2.2.1 rfl
  have hn : 'x' ≠ hash := by rcases hh with rfl | rfl <;> decide
  have ex : 'x' ∉ x := by
    cases hx with
    | none => simp
    | some he hs hn =>
      have h1 := num hn
      rcases he with rfl | rfl <;> rcases hs with rfl | rfl <;> simp [h1]
  simp [num hb, num hi, hn, ex]

/-- The prefix of C for hexadecimal numbers is accepted. -/
theorem based_prefix_counterexample :
    lexBased "16#0x1F#".toList = ⟨.int 31, false, false⟩ ∧ ∀ v, ¬ BasedLit "16#0x1F#".toList v :=
  ⟨by decide, fun _ h => basedLit_no_x h (by decide)⟩

/-- Two texts of a numeral and a number sign are the same if they are equal. -/
theorem split_hash {b b' r r' : List Char} {h h' : Char} (hh : h = '#' ∨ h = ':') (hh' : h' = '#' ∨ h' = ':')
    (hb : ∀ c ∈ b, c ≠ '#' ∧ c ≠ ':') (hb' : ∀ c ∈ b', c ≠ '#' ∧ c ≠ ':') (e : b ++ h :: r = b' ++ h' :: r') :
    b = b' ∧ h = h' ∧ r = r' := by
  induction b generalizing b' with
  | nil =>
    cases b' with
    | nil => simp at e; exact ⟨rfl, e.1, e.2⟩
    | cons c l =>
      simp at e
      have := hb' c (by simp)
      rcases hh with rfl | rfl
      · exact absurd e.1.symm this.1
      · exact absurd e.1.symm this.2
  | cons a l ih =>
    cases b' with
    | nil =>
      simp at e
      have := hb a (by simp)
      rcases hh' with rfl | rfl
      · exact absurd e.1 this.1
      · exact absurd e.1 this.2
    | cons c l' =>
      simp only [List.cons_append, List.cons.injEq] at e
      have := ih (fun c hc => hb c (by simp [hc])) (fun c hc => hb' c (by simp [hc])) e.2
      exact ⟨by rw [e.1, this.1], this.2⟩

theorem numeral_hash {k : Nat} {cs : List Char} {v : Nat} (h : Numeral k cs v) : ∀ c ∈ cs, c ≠ '#' ∧ c ≠ ':' := by
  intro c hc
  rcases numeral_no h hc with rfl | ⟨d, hd, _⟩
  · decide
  · exact ⟨(digitValue_facts hd).2.2.2.2.1, (digitValue_facts hd).2.2.2.2.2.1⟩

/-- An underscore before the number sign is not reported. -/
theorem based_underscore_counterexample :
    lexBased "16#F_#".toList = ⟨.int 15, false, false⟩ ∧ ∀ v, ¬ BasedLit "16#F_#".toList v := by
  refine ⟨by decide, ?_⟩
  rintro v ⟨b, base, hash, i, m, x, n, e, hh, hb, h2, h16, hi, hx, rfl⟩
  have e1 := split_hash (b := "16".toList) (h := '#') (r := "F_#".toList) (Or.inl rfl) hh (by decide) (numeral_hash hb) e
  have e2 := split_hash (b := "F_".toList) (h := '#') (r := []) (Or.inl rfl) hh (by decide) (numeral_hash hi) e1.2.2
  obtain ⟨l, c, hl, hc⟩ := numeral_ends hi
  rw [← e2.1] at hl
  have := congrArg List.getLast? hl
  rw [List.getLast?_concat] at this
  exact hc (Option.some.inj this).symm

/-- A base is cut to 32 bits before it is compared. -/
theorem based_base_counterexample :
    lexBased "4294967298#101#".toList = ⟨.int 5, false, false⟩ ∧ ∀ v, ¬ BasedLit "4294967298#101#".toList v := by
  refine ⟨by decide, ?_⟩
  rintro v ⟨b, base, hash, i, m, x, n, e, hh, hb, h2, h16, hi, hx, rfl⟩
  have e1 := split_hash (b := "4294967298".toList) (h := '#') (r := "101#".toList) (Or.inl rfl) hh (by decide)
    (numeral_hash hb) e
  have := (numeral_bare hb).2.2
  rw [← e1.1] at this
  have k : number 10 (bare "4294967298".toList) = 4294967298 := by decide
  omega

end Verif.Lex
