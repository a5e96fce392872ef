import Verif.Sim.TimeText

/-
C48 and C64.
-/

namespace Verif.TimeText

/-! ### Digits -/

theorem digits_lt : ∀ (fuel n : Nat), ∀ d ∈ digits fuel n, d < 10
  | 0, n, d, h => by cases h
  | fuel + 1, n, d, h => by
    unfold digits at h
    split at h
    · simp at h; omega
    · rw [List.mem_append] at h
      rcases h with h | h
      · exact digits_lt fuel _ d h
      · simp at h; omega

theorem digits_value : ∀ (fuel n : Nat), n < 10 ^ fuel →
    (digits fuel n).foldl (fun a d => 10 * a + d) 0 = n
  | 0, n, h => by simp at h; subst h; rfl
  | fuel + 1, n, h => by
    unfold digits
    split
    · simp
    · rw [List.foldl_append, digits_value fuel (n / 10) (by rw [Nat.pow_succ] at h; omega)]
      simp only [List.foldl_cons, List.foldl_nil]
      omega

theorem digits_length : ∀ (k fuel n : Nat), n < 10 ^ k → 0 < k → (digits fuel n).length ≤ k
  | 0, _, _, _, h => by omega
  | k + 1, 0, n, _, _ => by simp [digits]
  | k + 1, fuel + 1, n, h, _ => by
    unfold digits
    split
    · simp
    · next hn =>
      have : 0 < k := by
        cases k with
        | zero => simp at h; omega
        | succ k => omega
      rw [List.length_append]
      have := digits_length k fuel (n / 10) (by rw [Nat.pow_succ] at h; omega) this
      simp; omega

theorem digitChar_table : ∀ d : Fin 10, (digitChar d).toNat - 48 = d ∧
    (digitChar d).isDigit = true ∧ digitChar d ≠ '-' := by decide

theorem digitChar_toNat {d : Nat} (h : d < 10) : (digitChar d).toNat - 48 = d :=
  (digitChar_table ⟨d, h⟩).1

theorem digitChar_numeric {d : Nat} (h : d < 10) : numeric (digitChar d) = true := by
  unfold numeric
  rw [(digitChar_table ⟨d, h⟩).2.1]
  simp

theorem readDigits_map : ∀ (ds : List Nat) (a : Nat), (∀ d ∈ ds, d < 10) →
    (ds.map digitChar).foldl (fun n c => 10 * n + (c.toNat - 48)) a =
      ds.foldl (fun a d => 10 * a + d) a
  | [], a, _ => rfl
  | d :: ds, a, h => by
    simp only [List.map_cons, List.foldl_cons]
    rw [digitChar_toNat (h d (by simp))]
    exact readDigits_map ds _ fun d hd => h d (by simp [hd])

theorem digits_ne_nil (fuel n : Nat) : digits (fuel + 1) n ≠ [] := by
  unfold digits
  split <;> simp

/-- Printing a number and reading it. -/
theorem readNumber_decimal {x : Int} (h : x.natAbs < 10 ^ 20) : readNumber (decimal x) = x := by
  have hv : readDigits ((digits 20 x.natAbs).map digitChar) = x.natAbs := by
    unfold readDigits
    rw [readDigits_map _ _ (digits_lt _ _), digits_value _ _ h]
  unfold decimal
  by_cases hx : x < 0
  · rw [if_pos hx]
    simp only [List.cons_append, List.nil_append, readNumber]
    rw [hv]; omega
  · rw [if_neg hx, List.nil_append]
    have : readNumber ((digits 20 x.natAbs).map digitChar) =
        readDigits ((digits 20 x.natAbs).map digitChar) := by
      cases hd : digits 20 x.natAbs with
      | nil => rfl
      | cons d ds =>
        have hlt := digits_lt 20 x.natAbs d (by rw [hd]; simp)
        have := (digitChar_table ⟨d, hlt⟩).2.2
        unfold readNumber
        split
        · next h => simp only [List.map_cons, List.cons.injEq] at h; exact absurd h.1 this
        · rfl
    rw [this, hv]; omega

theorem decimal_numeric (x : Int) : ∀ c ∈ decimal x, numeric c = true := by
  intro c hc
  unfold decimal at hc
  rw [List.mem_append] at hc
  rcases hc with hc | hc
  · split at hc
    · simp at hc; subst hc; rfl
    · cases hc
  · rw [List.mem_map] at hc
    obtain ⟨d, hd, rfl⟩ := hc
    exact digitChar_numeric (digits_lt _ _ d hd)

/-! ### Units -/

/-- The chosen unit is one of the table, it divides the time, and no larger one of the table does. -/
theorem unitOf_spec (t : Int) : unitOf t ∈ units ∧ (unitOf t).1 ∣ t ∧
    ∀ v ∈ units, v.1 ∣ t → v.1 ≤ (unitOf t).1 := by
  have e : ∀ v : Int, v ∣ t ↔ t.tmod v = 0 := fun v => Int.dvd_iff_tmod_eq_zero
  simp only [unitOf, units, List.drop_succ_cons, List.drop_zero, pickUnit]
  have tm : ∀ v : Int, 0 < v → (t.tmod v = 0 ↔ t % v = 0) := fun v hv => by
    rw [← Int.dvd_iff_tmod_eq_zero, Int.dvd_iff_emod_eq_zero]
  simp only [e]
  have a := tm 1000 (by decide)
  have b := tm 1000000 (by decide)
  have c := tm 1000000000 (by decide)
  have d := tm 1000000000000 (by decide)
  have one : t.tmod 1 = 0 := by rw [tm 1 (by decide)]; omega
  refine ⟨?_, ?_, ?_⟩
  · (repeat' split) <;> simp
  · (repeat' split) <;> first | assumption | exact one
  · intro v hv
    simp only [List.mem_cons, List.not_mem_nil, or_false] at hv
    rcases hv with rfl | rfl | rfl | rfl | rfl <;> (repeat' split) <;> dsimp only at * <;> omega

theorem readUnit_units : ∀ v ∈ units, readUnit v.2 = some v.1 := by decide

/-- **C48**: the printed number times its unit is the time, the unit is the largest one for which
this is so, for all times (of 64 bits); hence the text can be read back. -/
theorem fmtTime_read {t : Int} (ht : t.natAbs < 10 ^ 20) {sep : List Char}
    (hs : ∀ c, sep.head? = some c → numeric c = false) : readTime sep (fmtTime t sep) = some t := by
  obtain ⟨hu, hd, -⟩ := unitOf_spec t
  have hq : (t.tdiv (unitOf t).1).natAbs < 10 ^ 20 := by
    rw [Int.natAbs_tdiv]
    exact Nat.lt_of_le_of_lt (Nat.div_le_self _ _) ht
  have hstop : ∀ c, (sep ++ (unitOf t).2).head? = some c → numeric c = false := by
    intro c hc
    cases sep with
    | nil =>
      have : ∀ v ∈ units, ∀ c, v.2.head? = some c → numeric c = false := by
        intro v hv
        simp only [units, List.mem_cons, List.not_mem_nil, or_false] at hv
        rcases hv with rfl | rfl | rfl | rfl | rfl <;>
          (intro c hc; simp at hc; subst hc; decide)
      exact this _ hu c hc
    | cons a as => exact hs c hc
  have hnum := decimal_numeric (t.tdiv (unitOf t).1)
  unfold readTime fmtTime
  have h₁ : (decimal (t.tdiv (unitOf t).1) ++ (sep ++ (unitOf t).2)).dropWhile numeric =
      sep ++ (unitOf t).2 := by
    rw [List.dropWhile_append_of_pos hnum]
    cases hl : sep ++ (unitOf t).2 with
    | nil => rfl
    | cons c cs =>
      have := hstop c (by rw [hl]; rfl)
      rw [List.dropWhile_cons, this]
      rfl
  have h₂ : (decimal (t.tdiv (unitOf t).1) ++ (sep ++ (unitOf t).2)).takeWhile numeric =
      decimal (t.tdiv (unitOf t).1) := by
    rw [List.takeWhile_append_of_pos hnum]
    cases hl : sep ++ (unitOf t).2 with
    | nil => simp
    | cons c cs =>
      have := hstop c (by rw [hl]; rfl)
      rw [List.takeWhile_cons, this]
      simp
  rw [h₁, h₂]
  dsimp only
  rw [if_pos (by simp), List.drop_left, readUnit_units _ hu, Option.map_some,
    readNumber_decimal hq, Int.tdiv_mul_cancel hd]

/-- Distinct times print differently. -/
theorem fmtTime_injective {t t' : Int} (ht : t.natAbs < 10 ^ 20) (ht' : t'.natAbs < 10 ^ 20)
    {sep : List Char} (hs : ∀ c, sep.head? = some c → numeric c = false)
    (h : fmtTime t sep = fmtTime t' sep) : t = t' := by
  have := fmtTime_read ht hs
  rw [h, fmtTime_read ht' hs] at this
  cases this
  rfl

/-- A buffer has room for the text and the terminating zero, otherwise the program stops. -/
theorem fmtTimeR_iff (len : Nat) (t : Int) (sep x : List Char) :
    fmtTimeR len t sep = some x ↔ x = fmtTime t sep ∧ x.length + 1 ≤ len := by
  unfold fmtTimeR
  constructor
  · intro h
    split at h
    · cases h
    · cases h
      exact ⟨rfl, by omega⟩
  · rintro ⟨rfl, h⟩
    rw [if_neg (by omega)]

example : fmtTimeR 5 2000000 [] = some "2ns".toList ∧ fmtTimeR 3 2000000 [] = none := by decide

/-- The buffers of 32 bytes are large enough for all 64 bit times, with a separator of up to 9
characters. -/
theorem fmtTimeR_fits {t : Int} (h₁ : -9223372036854775808 ≤ t) (h₂ : t ≤ 9223372036854775807)
    {sep : List Char} (hs : sep.length ≤ 9) {len : Nat} (hl : 32 ≤ len) :
    fmtTimeR len t sep = some (fmtTime t sep) := by
  unfold fmtTimeR
  rw [if_neg]
  obtain ⟨hu, -, -⟩ := unitOf_spec t
  have h2 : ∀ v ∈ units, v.2.length = 2 := by decide
  have hq : (t.tdiv (unitOf t).1).natAbs < 10 ^ 19 := by
    rw [Int.natAbs_tdiv]
    exact Nat.lt_of_le_of_lt (Nat.div_le_self _ _) (by omega)
  have := digits_length 19 20 _ hq (by omega)
  unfold fmtTime decimal
  simp only [List.length_append, List.length_map, h2 _ hu]
  split <;> simp only [List.length_cons, List.length_nil] <;> omega

example : fmtTime 1500 [] = "1500fs".toList ∧ fmtTime 12000000 [' '] = "12 ns".toList ∧
    fmtTime (-3000) [' '] = "-3 ps".toList ∧ fmtTime 0 [] = "0ms".toList ∧
    fmtTime 9223372036854775807 [] = "9223372036854775807fs".toList := by decide

example : readTime [' '] "12 ns".toList = some 12000000 ∧ readTime [' '] "12ns".toList = none ∧
    readTime [] "12nsx".toList = none := by decide

/-! ### Ordinal numbers -/

/-- The ending of an ordinal number in English. -/
def ending (n : Nat) : List Char :=
  if n % 100 = 11 ∨ n % 100 = 12 ∨ n % 100 = 13 then ['t', 'h']
  else if n % 10 = 1 then ['s', 't']
  else if n % 10 = 2 then ['n', 'd']
  else if n % 10 = 3 then ['r', 'd']
  else ['t', 'h']

/-- **C64**, partial: outside numbers that end in 3, or in 11 or 12 beyond 100. -/
theorem ordinalStr_partial {n : Nat} (h : 3 < n) (h₁ : n % 10 ≠ 3 ∨ n % 100 = 13)
    (h₂ : n > 20 → n % 100 ≠ 11 ∧ n % 100 ≠ 12) : ordinalStr n = decimal n ++ ending n := by
  unfold ordinalStr ending
  rw [if_neg (by omega), if_neg (by omega), if_neg (by omega)]
  by_cases h20 : n > 20
  · have := h₂ h20
    by_cases a : n % 10 = 1
    · rw [if_pos ⟨h20, a⟩, if_neg (by omega), if_pos a]
    · rw [if_neg (by omega)]
      by_cases b : n % 10 = 2
      · rw [if_pos ⟨h20, b⟩, if_neg (by omega), if_neg a, if_pos b]
      · rw [if_neg (by omega), if_neg (by omega)]
        by_cases c : n % 100 = 13
        · rw [if_pos (by omega)]
        · rw [if_neg (by omega), if_neg a, if_neg b, if_neg (by omega)]
  · rw [if_neg (by omega), if_neg (by omega), if_neg (by omega)]
    by_cases c : n % 100 = 11 ∨ n % 100 = 12 ∨ n % 100 = 13
    · rw [if_pos c]
    · rw [if_neg c, if_neg (by omega), if_neg (by omega), if_neg (by omega)]

/-- All numbers that end in 3 beyond 20 are printed with the wrong ending. -/
theorem ordinalStr_counterexample {n : Nat} (h : 20 < n) (h₁ : n % 10 = 3) (h₂ : n % 100 ≠ 13) :
    ordinalStr n ≠ decimal n ++ ending n ∧ ordinalStr n = decimal n ++ ['t', 'h'] := by
  have e : ordinalStr n = decimal n ++ ['t', 'h'] := by
    unfold ordinalStr
    rw [if_neg (by omega), if_neg (by omega), if_neg (by omega), if_neg (by omega),
      if_neg (by omega), if_neg (by omega)]
  refine ⟨?_, e⟩
  rw [e]
  unfold ending
  rw [if_neg (by omega), if_neg (by omega), if_neg (by omega), if_pos h₁]
  intro h
  have := List.append_cancel_left h
  simp at this

/-- So are 111, 112, 211 and so on. -/
theorem ordinalStr_eleven_counterexample :
    ordinalStr 111 = "111st".toList ∧ decimal 111 ++ ending 111 = "111th".toList := by decide

example : ordinalStr 23 = "23th".toList := by decide

end Verif.TimeText
