import Verif.StdEnv.Times

/-
Property C95: adding seconds to a record, and values of type TIME.
-/

namespace Verif.StdEnv

open Spec

attribute [local irreducible] daysBefore

theorem scale_nonneg (d : Int) (q : Nat) (K : Int) (hq : 0 < q) (hK : 0 < K) (hd : 0 ≤ d) :
    Int.tdiv d q = Int.tdiv (Int.tdiv (d * K) q) K ∧
    Int.tdiv (Int.tmod d q * K) q = Int.tmod (Int.tdiv (d * K) q) K := by
  have hq' : (0 : Int) < q := by omega
  have hb0 := Int.emod_nonneg d (by omega : (q : Int) ≠ 0)
  have hb1 := Int.emod_lt_of_pos d hq'
  have hdq : 0 ≤ d / q := Int.ediv_nonneg hd (by omega)
  have hdK : 0 ≤ d * K := Int.mul_nonneg hd (by omega)
  have hbK : 0 ≤ d % q * K := Int.mul_nonneg hb0 (by omega)
  have e : d * K = d % q * K + d / q * K * q := by
    have := Int.mul_ediv_add_emod d q
    calc d * K = (q * (d / q) + d % q) * K := by rw [this]
      _ = d % q * K + d / q * K * q := by
        rw [Int.add_mul, Int.mul_comm (q : Int) (d / q), Int.mul_assoc, Int.mul_assoc,
          Int.mul_comm (q : Int) K, Int.add_comm]
  have e2 : d * K / q = d % q * K / q + d / q * K := by
    rw [e, Int.add_mul_ediv_right _ _ (by omega)]
  have h0 : 0 ≤ d % q * K / q := Int.ediv_nonneg hbK (by omega)
  have h1 : d % q * K / q < K := by
    apply Int.ediv_lt_of_lt_mul hq'
    rw [Int.mul_comm K]
    exact Int.mul_lt_mul_of_pos_right hb1 hK
  rw [Int.tdiv_eq_ediv_of_nonneg hd, Int.tdiv_eq_ediv_of_nonneg hdK,
    Int.tmod_eq_emod_of_nonneg hd, Int.tdiv_eq_ediv_of_nonneg hbK, e2]
  have h2 : 0 ≤ d % q * K / q + d / q * K :=
    Int.add_nonneg h0 (Int.mul_nonneg hdq (by omega))
  rw [Int.tdiv_eq_ediv_of_nonneg h2, Int.tmod_eq_emod_of_nonneg h2,
    Int.add_mul_ediv_right _ _ (by omega), Int.ediv_eq_zero_of_lt h0 h1, Int.zero_add,
    Int.add_mul_emod_self_right, Int.emod_eq_of_lt h0 h1]
  exact ⟨rfl, rfl⟩

/-- Whole and fractional parts taken separately are those of the scaled
number. -/
theorem scale (d : Int) (q : Nat) (K : Int) (hq : 0 < q) (hK : 0 < K) :
    Int.tdiv d q = Int.tdiv (Int.tdiv (d * K) q) K ∧
    Int.tdiv (Int.tmod d q * K) q = Int.tmod (Int.tdiv (d * K) q) K := by
  by_cases hd : 0 ≤ d
  · exact scale_nonneg d q K hq hK hd
  · have h := scale_nonneg (-d) q K hq hK (by omega)
    rw [Int.neg_tdiv, Int.neg_tmod, Int.neg_mul, Int.neg_tdiv, Int.neg_mul, Int.neg_tdiv,
      Int.neg_tdiv, Int.neg_tmod] at h
    exact ⟨by omega, by omega⟩

/-- The number `d / q` of seconds in microseconds, cut off. -/
def deltaMicros (d : Int) (q : Nat) : Int := Int.tdiv (d * 1000000) q

theorem micro_range (D : Int) : -1000000 < Int.tmod D 1000000 ∧ Int.tmod D 1000000 < 1000000 := by
  constructor
  · have := Int.lt_tmod_of_pos D (show (0 : Int) < 1000000 by decide); omega
  · exact Int.tmod_lt_of_pos D (by decide)

theorem tmod_small (a b : Int) (h : -b < a) (h2 : a ≤ 0) : Int.tmod a b = a := by
  have h3 : a = -(-a) := by omega
  rw [h3, Int.neg_tmod, Int.tmod_eq_emod_of_nonneg (by omega), Int.emod_eq_of_lt (by omega) (by omega)]

/-- Adding to a record is right exactly when the sum of the microseconds is
not under minus a hundred thousand.  `T` is the exact result in
microseconds. -/
theorem add_correct_iff (gm : Int → Tm) (hg : GmtimeR gm) (tr : TimeRecord) (s us : Int)
    (h : RecDenotes tr s us) (h1 : 1969 ≤ tr.year) (h2 : tr.year ≤ 2038)
    (d : Int) (q : Nat) (hq : 0 < q) (T : Int)
    (hT : T = s * 1000000 + us + deltaMicros d q)
    (h3 : -(719528 * 86400 * 1000000) ≤ T) :
    (∃ r : TimeRecord, addTrec gm tr d q = some r ∧ RecDenotes r (T / 1000000) (T % 1000000)) ↔
      -100000 < us + Int.tmod (deltaMicros d q) 1000000 := by
  have sc := scale d q 1000000 hq (by decide)
  have hD := Int.mul_tdiv_add_tmod (deltaMicros d q) 1000000
  have hr := micro_range (deltaMicros d q)
  unfold addTrec
  rw [to_time_t_correct tr s us h h1 h2]
  simp only
  rw [sc.1, sc.2, h.2.1]
  change _ ↔ _
  have eD : Int.tdiv (d * 1000000) q = deltaMicros d q := rfl
  rw [eD]
  have u0 := h.2.2.1
  have u1 := h.2.2.2
  generalize deltaMicros d q = D at *
  generalize Int.tmod D 1000000 = m at *
  generalize Int.tdiv D 1000000 = w at *
  by_cases c1 : us + m ≥ 1000000
  · rw [if_pos c1]
    constructor
    · intro _; omega
    · intro _
      have e : Int.tmod (us + m) 1000000 = T % 1000000 := by
        rw [Int.tmod_eq_emod_of_nonneg (by omega)]; omega
      have e2 : s + w + 1 = T / 1000000 := by omega
      rw [e, e2]
      exact toTimeRecord_denotes _ _ _ (by omega) (by omega) (hg _ (by omega))
  · rw [if_neg c1]
    by_cases c2 : us + m < 0
    · rw [if_pos c2]
      constructor
      · rintro ⟨r, e, hd⟩
        have hm : r.microsecond = 1000000 + Int.tmod (us + m) 100000 := by
          unfold toTimeRecord at e
          split at e
          · rw [← Option.some.inj e]
          · cases e
        have h5 := hd.2.1
        have h6 := Int.lt_tmod_of_pos (us + m) (show (0 : Int) < 100000 by decide)
        omega
      · intro c3
        rw [tmod_small (us + m) 100000 (by omega) (by omega)]
        have e : 1000000 + (us + m) = T % 1000000 := by omega
        have e2 : s + w - 1 = T / 1000000 := by omega
        rw [e, e2]
        exact toTimeRecord_denotes _ _ _ (by omega) (by omega) (hg _ (by omega))
    · rw [if_neg c2]
      constructor
      · intro _; omega
      · intro _
        have e : us + m = T % 1000000 := by omega
        have e2 : s + w = T / 1000000 := by omega
        rw [e, e2]
        exact toTimeRecord_denotes _ _ _ (by omega) (by omega) (hg _ (by omega))

/-- Adding a number that is not negative is always right. -/
theorem add_nonneg_correct (gm : Int → Tm) (hg : GmtimeR gm) (tr : TimeRecord) (s us : Int)
    (h : RecDenotes tr s us) (h1 : 1969 ≤ tr.year) (h2 : tr.year ≤ 2038)
    (d : Int) (q : Nat) (hq : 0 < q) (hd : 0 ≤ d) (hs : 0 ≤ s) :
    ∃ r : TimeRecord, addTrec gm tr d q = some r ∧
      RecDenotes r ((s * 1000000 + us + deltaMicros d q) / 1000000)
        ((s * 1000000 + us + deltaMicros d q) % 1000000) := by
  have hD : 0 ≤ deltaMicros d q := by
    unfold deltaMicros
    rw [Int.tdiv_eq_ediv_of_nonneg (by omega)]
    exact Int.ediv_nonneg (by omega) (by omega)
  have hm : 0 ≤ Int.tmod (deltaMicros d q) 1000000 := by
    rw [Int.tmod_eq_emod_of_nonneg hD]; omega
  have := h.2.2.1
  exact (add_correct_iff gm hg tr s us h h1 h2 d q hq _ rfl (by omega)).mpr (by omega)

/-- Subtracting a whole number of seconds is always right. -/
theorem sub_whole_correct (gm : Int → Tm) (hg : GmtimeR gm) (tr : TimeRecord) (s us : Int)
    (h : RecDenotes tr s us) (h1 : 1969 ≤ tr.year) (h2 : tr.year ≤ 2038)
    (n : Nat) (h3 : -(719528 * 86400) ≤ s - n) :
    ∃ r : TimeRecord, subTrec gm tr n 1 = some r ∧ RecDenotes r (s - n) us := by
  have e : deltaMicros (-(n : Int)) 1 = -(n : Int) * 1000000 := by
    unfold deltaMicros; exact Int.tdiv_one _
  have u0 := h.2.2.1
  have u1 := h.2.2.2
  have em : Int.tmod (-(n : Int) * 1000000) 1000000 = 0 := Int.mul_tmod_left _ _
  have := (add_correct_iff gm hg tr s us h h1 h2 (-(n : Int)) 1 (by decide)
    (s * 1000000 + us + deltaMicros (-(n : Int)) 1) rfl (by rw [e]; omega)).mpr
    (by rw [e, em]; omega)
  obtain ⟨r, hr, hd⟩ := this
  rw [e] at hd
  refine ⟨r, hr, ?_⟩
  have e1 : (s * 1000000 + us + -(n : Int) * 1000000) / 1000000 = s - n := by omega
  have e2 : (s * 1000000 + us + -(n : Int) * 1000000) % 1000000 = us := by omega
  rw [e1, e2] at hd
  exact hd

/-- Half a second before a whole second: the microseconds become a million
and the assertion fails. -/
theorem sub_half_counterexample (gm : Int → Tm) (tr : TimeRecord)
    (hu : tr.microsecond = 0) : subTrec gm tr 1 2 = none := by
  unfold subTrec addTrec
  cases h : toTimeT tr with
  | none => rfl
  | some t =>
    simp only
    rw [hu]
    rfl

/-- A quarter of a second before a whole second is 950 milliseconds after
the second before, instead of 750. -/
theorem sub_quarter_counterexample (gm : Int → Tm) (tr : TimeRecord) (t : Int)
    (ht : toTimeT tr = some t) (hu : tr.microsecond = 0) :
    ∃ r : TimeRecord, subTrec gm tr 1 4 = some r ∧ r.microsecond = 950000 := by
  unfold subTrec addTrec
  rw [ht]
  simp only
  rw [hu]
  exact ⟨_, rfl, rfl⟩

/-! ## Values of type TIME -/

/-- TIME_TO_SECONDS is right exactly for times that are not negative or a
whole number of seconds. -/
theorem time_to_seconds_iff (t : Int) :
    (timeToSeconds t).1 * 1000000000000000 + (timeToSeconds t).2 = t ↔
      (0 ≤ t ∨ t % 1000000000000000 = 0) := by
  unfold timeToSeconds
  simp only
  rw [Int.fmod_eq_emod_of_nonneg t (by decide)]
  have := tdiv_cases t 1000000000000000
  omega

/-- Minus half a second gives half a second. -/
theorem time_to_seconds_counterexample :
    timeToSeconds (-500000000000000) = (0, 500000000000000) := by decide

/-- SECONDS_TO_TIME is exact when the result is in the range of TIME. -/
theorem seconds_to_time_correct (d : Int) (q : Nat) (hq : 0 < q)
    (h1 : -9223372036854775808 ≤ Int.tdiv (d * 1000000000000000) q)
    (h2 : Int.tdiv (d * 1000000000000000) q ≤ 9223372036854775807) :
    secondsToTime d q = some (Int.tdiv (d * 1000000000000000) q) := by
  have sc := scale d q 1000000000000000 hq (by decide)
  unfold secondsToTime
  simp only
  rw [sc.1, sc.2]
  generalize Int.tdiv (d * 1000000000000000) q = D at *
  have hD := Int.mul_tdiv_add_tmod D 1000000000000000
  have ht := tdiv_cases D 1000000000000000
  rw [if_pos (by simp only [fitsInt64, Bool.and_eq_true, decide_eq_true_eq]; omega)]
  congr 1
  rw [Int.mul_comm, hD]
  unfold wrap64
  simp only
  split <;> omega

/-- Outside of the range there is no error (env.vhdl:108): the result is
another time. -/
theorem seconds_to_time_range_counterexample (d : Int) (q : Nat) (hq : 0 < q)
    (h : fitsInt64 (Int.tdiv d q) = true) :
    ∃ t : Int, secondsToTime d q = some t ∧
      -9223372036854775808 ≤ t ∧ t ≤ 9223372036854775807 := by
  unfold secondsToTime
  simp only
  rw [if_pos h]
  refine ⟨_, rfl, ?_⟩
  unfold wrap64
  simp only
  split <;> omega

/-- Ten thousand seconds become minus 8446.744… seconds. -/
example : secondsToTime 10000 1 = some (-8446744073709551616) := by decide

/-- SECONDS_TO_TIME brings TIME_TO_SECONDS back. -/
theorem seconds_time_roundtrip (t : Int) (h : 0 ≤ t) (h2 : t ≤ 9223372036854775807) :
    secondsToTime ((timeToSeconds t).1 * 1000000000000000 + (timeToSeconds t).2)
      1000000000000000 = some t := by
  rw [(time_to_seconds_iff t).mpr (Or.inl h)]
  have e : Int.tdiv (t * 1000000000000000) ((1000000000000000 : Nat) : Int) = t :=
    Int.mul_tdiv_cancel t (by decide)
  have := seconds_to_time_correct t 1000000000000000 (by decide) (by rw [e]; omega) (by rw [e]; exact h2)
  rw [this, e]

end Verif.StdEnv
