import Verif.Util.Model

/-!
# C55 and part of C27: arithmetic helpers are exact
-/

namespace Verif.Util

/-! ## next_power_of_2 -/

/-- Highest set bit is `h < 31` and the `s` bits from `h` downwards are all set. -/
structure Smear (n : BitVec 32) (h s : Nat) : Prop where
  above : ∀ i, h < i → n.getLsbD i = false
  window : ∀ i, i ≤ h → h < i + s → n.getLsbD i = true

theorem smear_step {n : BitVec 32} {h s : Nat} (hh : h < 31) (w : Smear n h s) :
    Smear (n ||| n.sshiftRight s) h (s + s) := by
  have hmsb : n.msb = false := by
    rw [BitVec.msb_eq_getLsbD_last]; exact w.above _ (by omega)
  rw [BitVec.sshiftRight_eq_of_msb_false hmsb]
  constructor
  · intro i hi
    rw [BitVec.getLsbD_or, BitVec.getLsbD_ushiftRight, w.above i hi, w.above (s + i) (by omega)]
    rfl
  · intro i h1 h2
    rw [BitVec.getLsbD_or, BitVec.getLsbD_ushiftRight]
    by_cases c : h < i + s
    · rw [w.window i h1 c]; rfl
    · rw [w.window (s + i) (by omega) (by omega)]; simp

theorem smear_full {n : BitVec 32} {h : Nat} (hh : h < 31) (w : Smear n h 32) :
    n.toNat = 2 ^ (h + 1) - 1 := by
  apply Nat.eq_of_testBit_eq
  intro i
  rw [Nat.testBit_two_pow_sub_one]
  show n.getLsbD i = _
  by_cases c : i ≤ h
  · rw [w.window i c (by omega)]; simp; omega
  · rw [w.above i (by omega)]; simp; omega

/-- **C55a.**  For every `int` between 1 and 2^30, `next_power_of_2` is the least power of
two that is at least the argument. -/
theorem next_power_of_2_spec (n : BitVec 32) (h1 : 1 ≤ n.toNat) (h2 : n.toNat ≤ 2 ^ 30) :
    ∃ e, (nextPowerOf2 n).toNat = 2 ^ e ∧ n.toNat ≤ 2 ^ e ∧ ∀ e', n.toNat ≤ 2 ^ e' → e ≤ e' := by
  have hm : (n - 1#32).toNat = n.toNat - 1 := by
    rw [BitVec.toNat_sub]; simp only [BitVec.toNat_ofNat]; omega
  by_cases c : n.toNat = 1
  · refine ⟨0, ?_, by omega, by intros; omega⟩
    have : n = 1#32 := BitVec.eq_of_toNat_eq c
    subst this; decide
  · have hne : n.toNat - 1 ≠ 0 := by omega
    have hlt : n.toNat - 1 < 2 ^ ((n.toNat - 1).log2 + 1) := Nat.lt_log2_self
    have hle : 2 ^ (n.toNat - 1).log2 ≤ n.toNat - 1 := Nat.log2_self_le hne
    have hh : (n.toNat - 1).log2 < 31 := by
      rw [Nat.log2_lt hne]; omega
    have w0 : Smear (n - 1#32) (n.toNat - 1).log2 1 := by
      constructor
      · intro i hi
        show Nat.testBit _ i = _
        rw [hm]
        apply Nat.testBit_lt_two_pow
        exact Nat.lt_of_lt_of_le hlt (Nat.pow_le_pow_right (by decide) (by omega))
      · intro i a b
        show Nat.testBit _ i = _
        have : i = (n.toNat - 1).log2 := by omega
        rw [this, hm, Nat.testBit_log2 hne]
    have w := smear_step hh (smear_step hh (smear_step hh (smear_step hh (smear_step hh w0))))
    have hf := smear_full hh w
    have hp : (2 : Nat) ^ ((n.toNat - 1).log2 + 1) ≤ 2 ^ 31 :=
      Nat.pow_le_pow_right (by decide) (by omega)
    refine ⟨(n.toNat - 1).log2 + 1, ?_, by omega, ?_⟩
    · unfold nextPowerOf2
      simp only []
      rw [BitVec.toNat_add]
      rw [show (1#32).toNat = 1 from rfl]
      simp only [Nat.reduceAdd] at hf
      rw [hf]
      have := Nat.two_pow_pos ((n.toNat - 1).log2 + 1)
      omega
    · intro e' he'
      apply Classical.byContradiction
      intro hc
      have : (2 : Nat) ^ e' ≤ 2 ^ (n.toNat - 1).log2 := Nat.pow_le_pow_right (by decide) (by omega)
      omega

example : (nextPowerOf2 100#32).toNat = 128 ∧ (nextPowerOf2 128#32).toNat = 128 := by decide

/-- For zero the result is zero, which is not a power of two: a table of that size has no
slots. -/
theorem next_power_of_2_zero_counterexample : (nextPowerOf2 0#32).toNat = 0 := by decide

/-! ## ilog2 -/

theorem ilog2Loop_spec (n : Int) (f r : Nat) (hf : r + f ≥ 64)
    (hn : n ≤ 2 ^ 62) (hlow : ∀ e, n ≤ 2 ^ e → r ≤ e) (hr : r ≤ 62) :
    ∃ k : Nat, ilog2Loop n f (2 ^ r) r = some k ∧ n ≤ 2 ^ k ∧ ∀ e : Nat, n ≤ 2 ^ e → k ≤ e := by
  induction f generalizing r with
  | zero => omega
  | succ f ih =>
    unfold ilog2Loop
    by_cases c : (2 : Int) ^ r < n
    · have hr' : r < 62 := by
        apply Classical.byContradiction
        intro hc
        have : r = 62 := by omega
        subst this; omega
      have hpow : (2 : Int) ^ r * 2 = 2 ^ (r + 1) := by rw [Int.pow_succ]
      have hle : (2 : Int) ^ (r + 1) ≤ 2 ^ 62 := by
        have : (2 : Nat) ^ (r + 1) ≤ 2 ^ 62 := Nat.pow_le_pow_right (by decide) (by omega)
        exact_mod_cast this
      have hpos : (0 : Int) < 2 ^ (r + 1) := by
        have : (0 : Nat) < 2 ^ (r + 1) := Nat.two_pow_pos _
        exact_mod_cast this
      have hin : inI64 ((2 : Int) ^ r * 2) = true := by
        rw [hpow]; unfold inI64; simp only [decide_eq_true_eq]; omega
      rw [if_pos c, if_pos hin, hpow]
      apply ih (r + 1) (by omega) _ (by omega)
      intro e he
      apply Classical.byContradiction
      intro hc
      have h1 : (2 : Nat) ^ e ≤ 2 ^ r := Nat.pow_le_pow_right (by decide) (by omega)
      have h2 : (2 : Int) ^ e ≤ 2 ^ r := by exact_mod_cast h1
      omega
    · rw [if_neg c]
      exact ⟨r, rfl, by omega, hlow⟩

/-- **C55b.**  For every argument up to 2^62, `ilog2` is the base-2 logarithm rounded up
(0 for arguments not above 1). -/
theorem ilog2_spec (n : Int) (hn : n ≤ 2 ^ 62) :
    ∃ k : Nat, ilog2 n = some k ∧ n ≤ 2 ^ k ∧ ∀ e : Nat, n ≤ 2 ^ e → k ≤ e := by
  unfold ilog2
  by_cases c : n ≤ 1
  · rw [if_pos c]
    exact ⟨0, rfl, by simpa using c, by omega⟩
  · rw [if_neg c]
    exact ilog2Loop_spec n 64 0 (by omega) hn (by omega) (by omega)

example : ilog2 (2 ^ 62) = some 62 ∧ ilog2 5 = some 3 := by decide

/-- Above 2^62 the shift overflows: undefined behaviour in C. -/
theorem ilog2_large_counterexample : ilog2 (2 ^ 62 + 1) = none := by decide

/-! ## saturating addition -/

/-- **C55c.**  Unsigned saturating addition is the exact sum cut off at the maximum. -/
theorem saturate_add_unsigned (w a b : Nat) :
    saturateAddU w a b = min (a + b) (2 ^ w - 1) := by
  unfold saturateAddU
  have := Nat.two_pow_pos w
  split <;> omega

/-- Signed saturating addition of a non-negative amount is the exact sum cut off at the
maximum. -/
theorem saturate_add_signed_partial (w : Nat) (a b : Int) (ha : -2 ^ (w - 1) ≤ a) (hb : 0 ≤ b) :
    saturateAddS w a b = min (a + b) (2 ^ (w - 1) - 1) := by
  unfold saturateAddS
  split <;> omega

/-- With a negative amount the macro "saturates" to the maximum instead of the minimum
(no caller passes one). -/
theorem saturate_add_signed_counterexample : saturateAddS 32 (-2 ^ 31) (-1) = 2 ^ 31 - 1 := by
  decide

/-! ## ipow_safe -/

theorem inI64_iff (x : Int) : inI64 x = true ↔ -2 ^ 63 ≤ x ∧ x < 2 ^ 63 := by
  unfold inI64; simp only [decide_eq_true_eq]

theorem wrapI64_of_in {x : Int} (h : inI64 x = true) : wrapI64 x = x := by
  rw [inI64_iff] at h
  unfold wrapI64
  omega

theorem notIn_big {a b : Int} (ha : 2 ^ 63 ≤ a.natAbs) (hb : 2 ≤ b.natAbs) :
    inI64 (a * b) = false := by
  have h : 2 ^ 63 * 2 ≤ a.natAbs * b.natAbs := Nat.mul_le_mul ha hb
  rw [← Int.natAbs_mul] at h
  rw [← Bool.not_eq_true, inI64_iff]
  omega

theorem notIn_natAbs {a : Int} (h : inI64 a = false) : 2 ^ 63 ≤ a.natAbs := by
  rw [← Bool.not_eq_true, inI64_iff] at h
  omega

theorem two_le_sq {a : Int} (h : 2 ≤ a.natAbs) : 2 ≤ (a * a).natAbs := by
  rw [Int.natAbs_mul]
  have : 2 * 2 ≤ a.natAbs * a.natAbs := Nat.mul_le_mul h h
  omega

/-- Loop invariant: `X` and `R` are the exact values the machine variables `x` and `r`
stand for. -/
structure PowInv (x r : Int) (ov xo : Bool) (X R : Int) : Prop where
  xok : xo = false → x = X ∧ inI64 X = true
  xbad : xo = true → 2 ^ 63 ≤ X
  rok : ov = false → r = R ∧ inI64 R = true
  rbad : ov = true → inI64 R = false ∧ 2 ≤ X.natAbs
  unit : 2 ≤ X.natAbs → R = 1 ∨ 2 ≤ R.natAbs
  small : X.natAbs ≤ 1 → R.natAbs ≤ 1

theorem sq_flag {x X : Int} {xo : Bool} (h1 : xo = false → x = X ∧ inI64 X = true)
    (h2 : xo = true → 2 ^ 63 ≤ X) :
    ((xo || (mulOverflow x x).2) = false →
      (mulOverflow x x).1 = X * X ∧ inI64 (X * X) = true) ∧
    ((xo || (mulOverflow x x).2) = true → 2 ^ 63 ≤ X * X) := by
  have hsq : 0 ≤ X * X := by
    have h : ((X.natAbs * X.natAbs : Nat) : Int) = X * X := Int.natAbs_mul_self
    rw [← h]; exact Int.natCast_nonneg _
  cases xo with
  | false =>
    obtain ⟨rfl, hin⟩ := h1 rfl
    unfold mulOverflow
    simp only [Bool.false_or, Bool.not_eq_false', Bool.not_eq_true']
    constructor
    · intro h; exact ⟨wrapI64_of_in h, h⟩
    · intro h
      have := notIn_natAbs h
      omega
  | true =>
    have hX := h2 rfl
    simp only [Bool.true_or, Bool.true_eq_false, false_implies, true_and, forall_const]
    have : (2 : Int) ^ 63 * 1 ≤ X * X := Int.mul_le_mul hX (by omega) (by omega) (by omega)
    omega

theorem ipowLoop_spec (x : Int) (y : Nat) (r : Int) (ov xo : Bool) :
    ∀ X R, PowInv x r ov xo X R →
      ((ipowLoop x y r ov xo).2 = false ↔ inI64 (R * X ^ y) = true) ∧
      ((ipowLoop x y r ov xo).2 = false → (ipowLoop x y r ov xo).1 = R * X ^ y) := by
  induction y using Nat.strongRecOn generalizing x r ov xo with
  | _ y ih =>
  intro X R I
  rw [ipowLoop]
  by_cases h0 : y = 0
  · subst h0
    simp only [dif_pos, Int.pow_zero, Int.mul_one]
    cases ov with
    | false => have := I.rok rfl; simp [this.1, this.2]
    | true => have := I.rbad rfl; simp [this.1]
  · rw [dif_neg h0]
    have hpow : X ^ y = (if y % 2 = 1 then X else 1) * (X * X) ^ (y / 2) := by
      have e : X * X = X ^ 2 := by rw [Int.pow_succ, Int.pow_succ, Int.pow_zero, Int.one_mul]
      rw [e, ← Int.pow_mul]
      by_cases c : y % 2 = 1
      · rw [if_pos c]
        have : y = 2 * (y / 2) + 1 := by omega
        conv => lhs; rw [this, Int.pow_succ]
        rw [Int.mul_comm]
      · rw [if_neg c, Int.one_mul]
        have : y = 2 * (y / 2) := by omega
        conv => lhs; rw [this]
    obtain ⟨s1, s2⟩ := sq_flag I.xok I.xbad
    by_cases c : y % 2 = 1
    · rw [if_pos c] at hpow
      simp only [if_pos c]
      have hprod : R * X ^ y = (R * X) * (X * X) ^ (y / 2) := by rw [hpow, Int.mul_assoc]
      rw [hprod]
      have hunit : 2 ≤ (X * X).natAbs → R * X = 1 ∨ 2 ≤ (R * X).natAbs := by
        intro h
        right
        have hX : 2 ≤ X.natAbs := by
          apply Classical.byContradiction
          intro hc
          have : X.natAbs * X.natAbs ≤ 1 * 1 := Nat.mul_le_mul (by omega) (by omega)
          rw [Int.natAbs_mul] at h; omega
        rw [Int.natAbs_mul]
        have hR : 1 ≤ R.natAbs := by rcases I.unit hX with h | h <;> omega
        have : 1 * 2 ≤ R.natAbs * X.natAbs := Nat.mul_le_mul hR hX
        omega
      have hsmall : (X * X).natAbs ≤ 1 → (R * X).natAbs ≤ 1 := by
        intro h
        have hX : X.natAbs ≤ 1 := by
          apply Classical.byContradiction
          intro hc
          have := two_le_sq (a := X) (by omega)
          omega
        rw [Int.natAbs_mul]
        have : R.natAbs * X.natAbs ≤ 1 * 1 := Nat.mul_le_mul (I.small hX) hX
        omega
      cases hxo : xo with
      | true =>
        simp only [if_true]
        rw [hxo] at s1 s2
        apply ih (y / 2) (by omega)
        have hXb := I.xbad hxo
        have hX2 : 2 ≤ X.natAbs := by omega
        refine ⟨s1, s2, by simp, fun _ => ⟨?_, two_le_sq hX2⟩, hunit, hsmall⟩
        rcases I.unit hX2 with h | h
        · rw [h, Int.one_mul, ← Bool.not_eq_true, inI64_iff]; omega
        · rw [Int.mul_comm]
          exact notIn_big (by omega) h
      | false =>
        simp only [Bool.false_eq_true, if_false]
        rw [hxo] at s1 s2
        apply ih (y / 2) (by omega)
        obtain ⟨rfl, hXin⟩ := I.xok hxo
        refine ⟨s1, s2, ?_, ?_, hunit, hsmall⟩
        · intro h
          rw [Bool.or_eq_false_iff] at h
          obtain ⟨rfl, hRin⟩ := I.rok h.1
          unfold mulOverflow at h ⊢
          simp only [Bool.not_eq_false'] at h
          exact ⟨wrapI64_of_in h.2, h.2⟩
        · intro h
          rw [Bool.or_eq_true] at h
          cases hov : ov with
          | true =>
            obtain ⟨a, b⟩ := I.rbad hov
            exact ⟨notIn_big (notIn_natAbs a) b, two_le_sq b⟩
          | false =>
            obtain ⟨rfl, hRin⟩ := I.rok hov
            rw [hov] at h
            unfold mulOverflow at h
            simp only [Bool.false_eq_true, false_or, Bool.not_eq_true'] at h
            refine ⟨h, ?_⟩
            apply two_le_sq
            apply Classical.byContradiction
            intro hc
            have h1 := I.small (by omega)
            have : r.natAbs * x.natAbs ≤ 1 * 1 := Nat.mul_le_mul h1 (by omega)
            rw [← Int.natAbs_mul] at this
            have := notIn_natAbs h
            omega
    · rw [if_neg c, Int.one_mul] at hpow
      simp only [if_neg c]
      rw [hpow]
      apply ih (y / 2) (by omega)
      refine ⟨s1, s2, I.rok, fun h => ⟨(I.rbad h).1, two_le_sq (I.rbad h).2⟩, ?_, ?_⟩
      · intro h
        apply I.unit
        apply Classical.byContradiction
        intro hc
        have : X.natAbs * X.natAbs ≤ 1 * 1 := Nat.mul_le_mul (by omega) (by omega)
        rw [Int.natAbs_mul] at h; omega
      · intro h
        apply I.small
        apply Classical.byContradiction
        intro hc
        have := two_le_sq (a := X) (by omega)
        omega

/-- **C27 (compile-time and 64-bit run-time part).**  For every base in the range of
`int64_t` and every non-negative exponent, `ipow_safe` reports success exactly when the
power is representable, and then returns it. -/
theorem ipow_safe_exact (x : Int) (hx : -2 ^ 63 ≤ x ∧ x < 2 ^ 63) (y : Nat) :
    ∃ r ok, ipowSafe x y = some (r, ok) ∧
      (ok = true ↔ -2 ^ 63 ≤ x ^ y ∧ x ^ y < 2 ^ 63) ∧ (ok = true → r = x ^ y) := by
  have I : PowInv x 1 false false x 1 := by
    refine ⟨fun _ => ⟨rfl, (inI64_iff x).2 hx⟩, by simp, fun _ => ⟨rfl, by decide⟩, by simp,
      fun _ => Or.inl rfl, fun _ => by decide⟩
  obtain ⟨h1, h2⟩ := ipowLoop_spec x y 1 false false x 1 I
  rw [Int.one_mul] at h1 h2
  refine ⟨(ipowLoop x y 1 false false).1, !(ipowLoop x y 1 false false).2, ?_, ?_, ?_⟩
  · unfold ipowSafe
    rw [if_neg (by omega)]
    rfl
  · rw [← inI64_iff, ← h1]; simp
  · intro h
    exact h2 (by simpa using h)

example : ipowSafe (-2) 63 = some (-2 ^ 63, true) := by decide +kernel
example : (ipowSafe 2 63).map (·.2) = some false := by decide +kernel
example : ipowSafe 3 39 = some (4052555153018976267, true) := by decide +kernel

end Verif.Util
