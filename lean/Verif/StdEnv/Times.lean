import Verif.StdEnv.Calendar

/-
Property C95: dates as seconds, and seconds as dates.
-/

namespace Verif.StdEnv

open Spec

attribute [local irreducible] daysBefore

/-- A record stands for a moment, given in seconds and microseconds. -/
def RecDenotes (tr : TimeRecord) (s us : Int) : Prop :=
  Denotes tr.second tr.minute tr.hour tr.day tr.month tr.year tr.weekday tr.dayofyear s ∧
  tr.microsecond = us ∧ 0 ≤ us ∧ us < 1000000

/-- What is assumed of `gmtime_r` of the C library. -/
def GmtimeR (gm : Int → Tm) : Prop :=
  ∀ s : Int, -(719528 * 86400) ≤ s →
    Denotes (gm s).sec (gm s).min (gm s).hour (gm s).mday (gm s).mon (1900 + (gm s).year)
      (gm s).wday (gm s).yday s

/-- What is assumed of `localtime_r`: the date at a place whose clocks are
`off s` seconds ahead. -/
def LocaltimeR (lt : Int → Tm) (off : Int → Int) : Prop :=
  ∀ s : Int, -(719528 * 86400) ≤ s + off s →
    Denotes (lt s).sec (lt s).min (lt s).hour (lt s).mday (lt s).mon (1900 + (lt s).year)
      (lt s).wday (lt s).yday (s + off s)

/-- There is such a function. -/
theorem gmtimeR_exists : ∃ gm : Int → Tm, GmtimeR gm := by
  have h : ∀ s : Int, ∃ t : Tm, -(719528 * 86400) ≤ s →
      Denotes t.sec t.min t.hour t.mday t.mon (1900 + t.year) t.wday t.yday s := by
    intro s
    by_cases hs : -(719528 * 86400) ≤ s
    · obtain ⟨a, b, c, d, e, f, g, i, hd⟩ := date_exists s hs
      refine ⟨⟨a, b, c, d, e, f - 1900, g, i⟩, fun _ => ?_⟩
      have e2 : (1900 : Int) + (f - 1900) = f := by omega
      show Denotes a b c d e (1900 + (f - 1900)) g i s
      rw [e2]; exact hd
    · exact ⟨⟨0, 0, 0, 0, 0, 0, 0, 0⟩, fun h => absurd h hs⟩
  exact ⟨fun s => Classical.choose (h s), fun s => Classical.choose_spec (h s)⟩

/-! ## to_time_t -/

theorem tdiv_cases (a b : Int) :
    (0 ≤ a ∧ Int.tdiv a b = a / b) ∨ (a < 0 ∧ Int.tdiv a b = -((-a) / b)) := by
  by_cases h : 0 ≤ a
  · exact Or.inl ⟨h, Int.tdiv_eq_ediv_of_nonneg h⟩
  · refine Or.inr ⟨by omega, ?_⟩
    rw [← Int.tdiv_eq_ediv_of_nonneg (by omega : 0 ≤ -a), Int.neg_tdiv, Int.neg_neg]

/-- The operations on `int` are all defined exactly in these years, among
those that a record can have. -/
theorem to_time_t_defined_iff (tr : TimeRecord) (h1 : 1 ≤ tr.year) (h2 : tr.year ≤ 4095) :
    (toTimeT tr).isSome = true ↔ (1902 ≤ tr.year ∧ tr.year ≤ 2038) := by
  unfold toTimeT
  simp only
  have tb := tdiv_cases (tr.year - 1900 - 69) 4
  have tc := tdiv_cases (tr.year - 1900 - 1) 100
  have td := tdiv_cases (tr.year - 1900 + 299) 400
  split
  · rename_i h
    simp only [fitsInt, Bool.and_eq_true, decide_eq_true_eq] at h
    exact ⟨fun _ => by omega, fun _ => rfl⟩
  · rename_i h
    simp only [fitsInt, Bool.and_eq_true, decide_eq_true_eq] at h
    exact ⟨fun h3 => by simp at h3, fun h3 => by omega⟩

/-- The result is right exactly from 1969 to 2038, and in one year of four
before. -/
theorem to_time_t_iff (tr : TimeRecord) (y : Nat) (hy : tr.year = y)
    (h1 : 1 ≤ y) (h2 : y ≤ 4095) :
    toTimeT tr = some (secondsAt y tr.dayofyear tr.hour tr.minute tr.second) ↔
      (1902 ≤ y ∧ y ≤ 2038 ∧ (1969 ≤ y ∨ y % 4 = 1)) := by
  have hs := to_time_t_defined_iff tr (by omega) (by omega)
  have cl := daysBefore_closed y
  have tb := tdiv_cases ((y : Int) - 1900 - 69) 4
  have tc := tdiv_cases ((y : Int) - 1900 - 1) 100
  have td := tdiv_cases ((y : Int) - 1900 + 299) 400
  constructor
  · intro h
    rw [h] at hs
    have h3 := hs.mp rfl
    unfold toTimeT at h
    simp only at h
    split at h
    · have h4 := Option.some.inj h
      unfold secondsAt at h4
      rw [daysBefore_1970, hy] at h4
      omega
    · cases h
  · intro h
    have h3 := hs.mpr (by omega)
    unfold toTimeT at h3 ⊢
    simp only at h3 ⊢
    split
    · congr 1
      unfold secondsAt
      rw [daysBefore_1970, hy]
      omega
    · rename_i h5
      rw [if_neg h5] at h3
      cases h3

/-- A record that stands for a moment is converted to it. -/
theorem to_time_t_correct (tr : TimeRecord) (s us : Int) (h : RecDenotes tr s us)
    (h1 : 1969 ≤ tr.year) (h2 : tr.year ≤ 2038) : toTimeT tr = some s := by
  obtain ⟨⟨y, m, d, ey, em, ed, _, _, _, _, _, _, _, _, es⟩, _⟩ := h
  have h3 := (to_time_t_iff tr y ey (by omega) (by omega)).mpr (by omega)
  rw [h3]
  congr 1
  rw [es, ed]
  unfold secondsAt dayNumber
  omega

/-- The first of January 2039 has no result: the product overflows. -/
theorem to_time_t_2039_counterexample :
    toTimeT ⟨0, 0, 0, 0, 1, 0, 2039, 6, 0⟩ = none := by decide

/-- The first of January 1968 is a day too late. -/
theorem to_time_t_1968_counterexample :
    toTimeT ⟨0, 0, 0, 0, 1, 0, 1968, 1, 0⟩ = some (-730 * 86400) ∧
    secondsAt 1968 0 0 0 0 = -731 * 86400 := by
  constructor
  · decide
  · have := daysBefore_closed 1968
    unfold secondsAt
    rw [daysBefore_1970]; omega

/-! ## EPOCH -/

/-- EPOCH of a record in universal time. -/
theorem epoch_trec_correct (tr : TimeRecord) (s us : Int) (h : RecDenotes tr s us)
    (h1 : 1969 ≤ tr.year) (h2 : tr.year ≤ 2038) : epochTrec tr = some (s, us) := by
  unfold epochTrec
  rw [to_time_t_correct tr s us h h1 h2, h.2.1]

/-- EPOCH takes a record in local time (env.vhdl:90), which stands for the
moment `s` if it is the date of `s + off s`: the result is right only where
and when the offset is zero. -/
theorem epoch_local_iff (tr : TimeRecord) (s us : Int) (off : Int → Int)
    (h : RecDenotes tr (s + off s) us) (h1 : 1969 ≤ tr.year) (h2 : tr.year ≤ 2038) :
    epochTrec tr = some (s, us) ↔ off s = 0 := by
  rw [epoch_trec_correct tr _ us h h1 h2]
  constructor
  · intro h3
    have h4 := (Prod.mk.inj (Option.some.inj h3)).1
    omega
  · intro h3; rw [h3, Int.add_zero]

/-- EPOCH of the current time is never right: it is always late, and infinite
in the first nanosecond of a second. -/
theorem epoch_wrong_counterexample (nanos : Nat) :
    epoch nanos = Flt.inf ∨
    ∃ num den : Nat, epoch nanos = Flt.frac num den ∧ 0 < den ∧
      num * 1000000000 > nanos * den ∧ ¬ IsSeconds num den nanos := by
  unfold epoch
  by_cases h : nanos % 1000000000 = 0
  · exact Or.inl (by simp only [h]; rfl)
  · refine Or.inr ⟨_, _, by simp only [if_neg h]; rfl, Nat.pos_of_ne_zero h, ?_, ?_⟩
    all_goals
      generalize hr : nanos % 1000000000 = r at h ⊢
      generalize hw : nanos / 1000000000 = w
      have hn : nanos = 1000000000 * w + r := by omega
      have hlt : r < 1000000000 := by omega
      have hsq : r * r < 1000000000 * 1000000000 := Nat.mul_lt_mul'' hlt hlt
      have e1 : (w * r + 1000000000) * 1000000000
          = 1000000000 * w * r + 1000000000 * 1000000000 := by
        rw [Nat.add_mul, Nat.mul_comm (w * r), Nat.mul_assoc]
      have e2 : nanos * r = 1000000000 * w * r + r * r := by rw [hn, Nat.add_mul]
    · rw [e1, e2]; omega
    · unfold IsSeconds
      rw [e1, e2]; omega

/-- It is more than a second late in three fifths of every second. -/
theorem epoch_second_late_counterexample (nanos num den : Nat)
    (h : epoch nanos = Flt.frac num den) (h2 : nanos % 1000000000 ≤ 618033988) :
    num * 1000000000 > (nanos + 1000000000) * den := by
  unfold epoch at h
  simp only at h
  split at h
  · cases h
  · obtain ⟨rfl, rfl⟩ := Flt.frac.inj h
    generalize hr : nanos % 1000000000 = r at h2 ⊢
    generalize hw : nanos / 1000000000 = w
    have hn : nanos = 1000000000 * w + r := by omega
    have hsq : r * r ≤ 618033988 * 618033988 := Nat.mul_le_mul h2 h2
    have e1 : (w * r + 1000000000) * 1000000000
        = 1000000000 * w * r + 1000000000 * 1000000000 := by
      rw [Nat.add_mul, Nat.mul_comm (w * r), Nat.mul_assoc]
    have e2 : (nanos + 1000000000) * r = 1000000000 * w * r + r * r + 1000000000 * r := by
      rw [hn, Nat.add_mul, Nat.add_mul]
    rw [e1, e2]; omega

example : epoch 1700000000000000001 = Flt.frac 2700000000 1 := by decide

/-! ## GMTIME and LOCALTIME -/

theorem toTimeRecord_denotes (tm : Tm) (s us : Int) (h1 : 0 ≤ us) (h2 : us < 1000000)
    (h : Denotes tm.sec tm.min tm.hour tm.mday tm.mon (1900 + tm.year) tm.wday tm.yday s) :
    ∃ r : TimeRecord, toTimeRecord tm us = some r ∧ RecDenotes r s us := by
  unfold toTimeRecord
  rw [if_pos ⟨h1, h2⟩]
  exact ⟨_, rfl, h, rfl, h1, h2⟩

theorem frac_range (d : Int) (q : Nat) (h : 0 < q) :
    0 ≤ 1000000 * (d % q) / q ∧ 1000000 * (d % q) / q < 1000000 := by
  have hq : (0 : Int) < q := by omega
  have h1 := Int.emod_nonneg d (by omega : (q : Int) ≠ 0)
  have h2 := Int.emod_lt_of_pos d hq
  constructor
  · exact Int.ediv_nonneg (by omega) (by omega)
  · exact Int.ediv_lt_of_lt_mul hq (by omega)

/-- `us` microseconds are the part of a number after its whole seconds, cut
off. -/
def IsMicro (d : Int) (q : Nat) (s us : Int) : Prop :=
  s * q ≤ d ∧ d < (s + 1) * q ∧
  us * q ≤ (d - s * q) * 1000000 ∧ (d - s * q) * 1000000 < (us + 1) * q

theorem isMicro (d : Int) (q : Nat) (h : 0 < q) :
    IsMicro d q (d / q) (1000000 * (d % q) / q) := by
  have hq : (0 : Int) < q := by omega
  have h1 := Int.emod_nonneg d (by omega : (q : Int) ≠ 0)
  have h2 := Int.emod_lt_of_pos d hq
  have h3 := Int.mul_ediv_add_emod d q
  have h4 : d / (q : Int) * q = q * (d / q) := Int.mul_comm _ _
  have e : d - d / (q : Int) * q = d % q := by omega
  have h5 := Int.mul_ediv_add_emod (1000000 * (d % q)) q
  have h6 := Int.emod_nonneg (1000000 * (d % (q : Int))) (by omega : (q : Int) ≠ 0)
  have h7 := Int.emod_lt_of_pos (1000000 * (d % (q : Int))) hq
  have h8 : 1000000 * (d % (q : Int)) / q * q = q * (1000000 * (d % q) / q) := Int.mul_comm _ _
  refine ⟨by omega, ?_, ?_, ?_⟩
  · rw [Int.add_mul]; omega
  · rw [e]; omega
  · rw [e, Int.add_mul]; omega

/-- GMTIME of a number of seconds that fits in an `int`. -/
theorem gmtime_correct (gm : Int → Tm) (hg : GmtimeR gm) (d : Int) (q : Nat) (hq : 0 < q)
    (h1 : -2147483648 ≤ d / q) (h2 : d / q ≤ 2147483647) :
    ∃ (r : TimeRecord) (s us : Int), gmtimeReal gm d q = some r ∧
      RecDenotes r s us ∧ IsMicro d q s us := by
  unfold gmtimeReal
  rw [if_pos (by simp [fitsInt, h1, h2])]
  obtain ⟨r, e, hr⟩ := toTimeRecord_denotes (gm (d / q)) (d / q) _
    (frac_range d q hq).1 (frac_range d q hq).2 (hg (d / q) (by omega))
  exact ⟨r, _, _, e, hr, isMicro d q hq⟩

/-- Otherwise the conversion to `int` is undefined: GMTIME works until the
nineteenth of January 2038. -/
theorem gmtime_defined_iff (gm : Int → Tm) (d : Int) (q : Nat) (hq : 0 < q) :
    (gmtimeReal gm d q).isSome = true ↔ (-2147483648 ≤ d / q ∧ d / q ≤ 2147483647) := by
  unfold gmtimeReal
  constructor
  · intro h
    split at h
    · rename_i h2
      simpa [fitsInt] using h2
    · cases h
  · intro h
    rw [if_pos (by simp [fitsInt, h.1, h.2])]
    unfold toTimeRecord
    rw [if_pos (frac_range d q hq)]
    rfl

theorem gmtime_2038_counterexample (gm : Int → Tm) : gmtimeReal gm 2147483648 1 = none := by
  rfl

/-- LOCALTIME of a number of seconds. -/
theorem localtime_correct (lt : Int → Tm) (off : Int → Int) (hl : LocaltimeR lt off)
    (d : Int) (q : Nat) (hq : 0 < q) (h1 : -(719528 * 86400) ≤ d / q + off (d / q)) :
    ∃ (r : TimeRecord) (s us : Int), localtimeReal lt d q = some r ∧
      RecDenotes r (s + off s) us ∧ IsMicro d q s us := by
  unfold localtimeReal
  obtain ⟨r, e, hr⟩ := toTimeRecord_denotes (lt (d / q)) _ _
    (frac_range d q hq).1 (frac_range d q hq).2 (hl (d / q) h1)
  exact ⟨r, _, _, e, hr, isMicro d q hq⟩

/-- EPOCH brings GMTIME back, to the microsecond. -/
theorem epoch_gmtime (gm : Int → Tm) (hg : GmtimeR gm) (d : Int) (q : Nat) (hq : 0 < q)
    (h1 : 0 ≤ d / q) (h2 : d / q ≤ 2147483647) :
    ∃ (r : TimeRecord) (s us : Int), gmtimeReal gm d q = some r ∧
      epochTrec r = some (s, us) ∧ IsMicro d q s us := by
  unfold gmtimeReal
  rw [if_pos (by simp [fitsInt, h2]; omega)]
  obtain ⟨r, e, hr⟩ := toTimeRecord_denotes (gm (d / q)) (d / q) _
    (frac_range d q hq).1 (frac_range d q hq).2 (hg (d / q) (by omega))
  refine ⟨r, d / q, _, e, ?_, isMicro d q hq⟩
  obtain ⟨y, m, k, ey, _, _, _, _, _, _, hk, _, _, _, es⟩ := hr.1
  have cl := daysBefore_closed y
  have hyl := yearLen_pos y
  unfold dayNumber at es
  rw [daysBefore_1970] at es
  exact epoch_trec_correct r _ _ hr (by omega) (by omega)

/-- LOCALTIME of a record in universal time. -/
theorem localtime_trec_correct (lt : Int → Tm) (off : Int → Int) (hl : LocaltimeR lt off)
    (tr : TimeRecord) (s us : Int) (h : RecDenotes tr s us)
    (h1 : 1969 ≤ tr.year) (h2 : tr.year ≤ 2038) (h3 : -(719528 * 86400) ≤ s + off s) :
    ∃ r : TimeRecord, localtimeTrec lt tr = some r ∧ RecDenotes r (s + off s) us := by
  unfold localtimeTrec
  rw [to_time_t_correct tr s us h h1 h2]
  simp only
  rw [h.2.1]
  exact toTimeRecord_denotes _ _ _ h.2.2.1 h.2.2.2 (hl s h3)

/-- GMTIME of a record in local time is right exactly when the clocks have
the same offset at the moment that the record would be in universal time. -/
theorem gmtime_trec_iff (gm : Int → Tm) (off : Int → Int) (hg : GmtimeR gm)
    (tr : TimeRecord) (s us : Int) (h : RecDenotes tr (s + off s) us)
    (h1 : 1969 ≤ tr.year) (h2 : tr.year ≤ 2038)
    (h3 : -(719528 * 86400) ≤ s + off s - off (s + off s)) :
    (∃ r : TimeRecord, gmtimeTrec gm off tr = some r ∧ RecDenotes r s us) ↔
      off (s + off s) = off s := by
  unfold gmtimeTrec
  rw [to_time_t_correct tr _ us h h1 h2]
  simp only
  rw [h.2.1]
  obtain ⟨r, e, hr⟩ := toTimeRecord_denotes _ _ _ h.2.2.1 h.2.2.2 (hg _ h3)
  rw [e]
  constructor
  · rintro ⟨r2, e2, hr2⟩
    obtain rfl := Option.some.inj e2
    obtain ⟨y, m, k, ey, em, ek, _, _, _, _, _, _, _, _, es⟩ := hr.1
    obtain ⟨y2, m2, k2, ey2, em2, ek2, _, _, _, _, _, _, _, _, es2⟩ := hr2.1
    have a : y = y2 := by omega
    have b : k = k2 := by omega
    subst a; subst b
    omega
  · intro h4
    refine ⟨r, rfl, ?_⟩
    have : s + off s - off (s + off s) = s := by omega
    rw [this] at hr
    exact hr

/-- In a place that is always an hour ahead GMTIME is right. -/
example (gm : Int → Tm) (hg : GmtimeR gm) (tr : TimeRecord) (us : Int)
    (h : RecDenotes tr (1700000000 + 3600) us) (h1 : 1969 ≤ tr.year) (h2 : tr.year ≤ 2038) :
    ∃ r : TimeRecord, gmtimeTrec gm (fun _ => 3600) tr = some r ∧ RecDenotes r 1700000000 us :=
  (gmtime_trec_iff gm (fun _ => 3600) hg tr 1700000000 us h h1 h2 (by decide)).mpr rfl

/-- Where the clocks go forward an hour at the moment `c`, GMTIME is an hour
off for a record of the hour before: the clocks are an hour ahead until `c`
and two hours ahead from `c`. -/
theorem gmtime_trec_counterexample (gm : Int → Tm) (hg : GmtimeR gm)
    (tr : TimeRecord) (us c : Int) (hc : 0 ≤ c) (off : Int → Int)
    (hoff : ∀ t : Int, off t = if t < c then 3600 else 7200)
    (h : RecDenotes tr (c - 1 + off (c - 1)) us)
    (h1 : 1969 ≤ tr.year) (h2 : tr.year ≤ 2038) :
    ¬ ∃ r : TimeRecord, gmtimeTrec gm off tr = some r ∧ RecDenotes r (c - 1) us := by
  have e1 : off (c - 1) = 3600 := by rw [hoff, if_pos (by omega)]
  have e2 : off (c - 1 + off (c - 1)) = 7200 := by rw [e1, hoff, if_neg (by omega)]
  rw [gmtime_trec_iff gm off hg tr (c - 1) us h h1 h2 (by omega)]
  omega

/-- The difference of two records, both in universal time or both in local
time. -/
theorem diff_correct (a b : TimeRecord) (s us t ut : Int)
    (ha : RecDenotes a s us) (hb : RecDenotes b t ut)
    (h1 : 1969 ≤ a.year) (h2 : a.year ≤ 2038) (h3 : 1969 ≤ b.year) (h4 : b.year ≤ 2038) :
    ∃ x y : Int, diffTrec a b = some (x, y) ∧
      x * 1000000 + y = (s * 1000000 + us) - (t * 1000000 + ut) := by
  unfold diffTrec
  rw [to_time_t_correct a s us ha h1 h2, to_time_t_correct b t ut hb h3 h4]
  refine ⟨_, _, rfl, ?_⟩
  rw [ha.2.1, hb.2.1]; omega

end Verif.StdEnv
