import Verif.StdEnv.Model

/-
Property C95: the calendar.
-/

namespace Verif.StdEnv

open Spec

theorem yearLen_pos (y : Nat) : 365 ≤ yearLen y ∧ yearLen y ≤ 366 := by
  unfold yearLen; split <;> omega

theorem leap_iff (y : Nat) :
    leap y = true ↔ (y % 4 = 0 ∧ (y % 100 ≠ 0 ∨ y % 400 = 0)) := by
  simp [leap]

theorem daysBefore_closed (y : Nat) :
    daysBefore y + (y + 99) / 100 = 365 * y + (y + 3) / 4 + (y + 399) / 400 := by
  induction y with
  | zero => rfl
  | succ y ih =>
    rw [daysBefore]
    unfold yearLen
    by_cases h : leap y = true
    · rw [if_pos h]
      have := (leap_iff y).mp h
      omega
    · rw [if_neg h]
      have : ¬ (y % 4 = 0 ∧ (y % 100 ≠ 0 ∨ y % 400 = 0)) := fun h2 => h ((leap_iff y).mpr h2)
      omega

theorem daysBefore_1970 : daysBefore 1970 = 719528 := by
  have := daysBefore_closed 1970
  omega

theorem daysBefore_mono {a b : Nat} (h : a < b) : daysBefore a + yearLen a ≤ daysBefore b := by
  induction b with
  | zero => omega
  | succ b ih =>
    by_cases h2 : a = b
    · subst h2; exact Nat.le_refl _
    · have := ih (by omega)
      rw [daysBefore]; omega

theorem daysBeforeMonth_mono (y : Nat) {a b : Nat} (h : a < b) :
    daysBeforeMonth y a + monthLen y a ≤ daysBeforeMonth y b := by
  induction b with
  | zero => omega
  | succ b ih =>
    by_cases h2 : a = b
    · subst h2; exact Nat.le_refl _
    · have := ih (by omega)
      rw [daysBeforeMonth]; omega

/-- The months fill the year. -/
theorem months_fill_year (y : Nat) : daysBeforeMonth y 12 = yearLen y := by
  simp only [daysBeforeMonth, monthLen, yearLen]
  split <;> rfl

theorem exists_year (n : Nat) : ∃ y d : Nat, d < yearLen y ∧ n = daysBefore y + d := by
  induction n with
  | zero => exact ⟨0, 0, by decide, rfl⟩
  | succ n ih =>
    obtain ⟨y, d, h1, h2⟩ := ih
    by_cases h : d + 1 < yearLen y
    · exact ⟨y, d + 1, h, by omega⟩
    · refine ⟨y + 1, 0, ?_, ?_⟩
      · have := yearLen_pos (y + 1); omega
      · rw [daysBefore]; omega

theorem exists_month (y n : Nat) (h : n < yearLen y) :
    ∃ m d : Nat, m < 12 ∧ d < monthLen y m ∧ n = daysBeforeMonth y m + d := by
  have key : ∀ k : Nat, n < daysBeforeMonth y k →
      ∃ m d : Nat, m < k ∧ d < monthLen y m ∧ n = daysBeforeMonth y m + d := by
    intro k
    induction k with
    | zero => intro hk; exact absurd hk (Nat.not_lt_zero _)
    | succ k ih =>
      intro hk
      rw [daysBeforeMonth] at hk
      by_cases h2 : n < daysBeforeMonth y k
      · obtain ⟨m, d, h3, h4, h5⟩ := ih h2
        exact ⟨m, d, by omega, h4, h5⟩
      · exact ⟨k, n - daysBeforeMonth y k, by omega, by omega, by omega⟩
  exact key 12 (by rw [months_fill_year]; exact h)

/-- Every moment from the start of year 0 has a date. -/
theorem date_exists (s : Int) (h : -(719528 * 86400) ≤ s) :
    ∃ sec min hour day mon year wday yday : Int,
      Denotes sec min hour day mon year wday yday s := by
  obtain ⟨y, d, h1, h2⟩ := exists_year (s / 86400 + 719528).toNat
  obtain ⟨m, k, h3, h4, h5⟩ := exists_month y d h1
  have e : s / 86400 = dayNumber y d := by
    unfold dayNumber; rw [daysBefore_1970]; omega
  refine ⟨s % 60, s / 60 % 60, s / 3600 % 24, k + 1, m, y, (dayNumber y d + 4) % 7, d,
    y, m, d, rfl, rfl, rfl, by omega, by omega, by omega, h3, h1, ⟨by omega, by omega⟩,
    by omega, rfl, ?_⟩
  rw [← e]; omega

/-- A moment has one date. -/
theorem date_unique {s1 m1 h1 d1 o1 y1 w1 n1 s2 m2 h2 d2 o2 y2 w2 n2 s : Int}
    (a : Denotes s1 m1 h1 d1 o1 y1 w1 n1 s) (b : Denotes s2 m2 h2 d2 o2 y2 w2 n2 s) :
    s1 = s2 ∧ m1 = m2 ∧ h1 = h2 ∧ d1 = d2 ∧ o1 = o2 ∧ y1 = y2 ∧ w1 = w2 ∧ n1 = n2 := by
  obtain ⟨ya, ma, da, ea1, ea2, ea3, a1, a2, a3, a4, a5, a6, a7, a8, a9⟩ := a
  obtain ⟨yb, mb, db, eb1, eb2, eb3, b1, b2, b3, b4, b5, b6, b7, b8, b9⟩ := b
  have hd : dayNumber ya da = dayNumber yb db := by omega
  have hy : ya = yb := by
    unfold dayNumber at hd
    rcases Nat.lt_trichotomy ya yb with h | h | h
    · have := daysBefore_mono h; omega
    · exact h
    · have := daysBefore_mono h; omega
  subst hy
  have hn : da = db := by unfold dayNumber at hd; omega
  subst hn
  have hm : ma = mb := by
    rcases Nat.lt_trichotomy ma mb with h | h | h
    · have := daysBeforeMonth_mono ya h; omega
    · exact h
    · have := daysBeforeMonth_mono ya h; omega
  subst hm
  refine ⟨by omega, by omega, by omega, by omega, ?_, ?_, ?_, ?_⟩
  · rw [ea2, eb2]
  · rw [ea1, eb1]
  · rw [a8, b8]
  · rw [ea3, eb3]

theorem dayNumber_1973 : dayNumber 1973 258 = 1354 := by
  have := daysBefore_closed 1973
  unfold dayNumber; rw [daysBefore_1970]; omega

/-- The sixteenth of September 1973 of the comment, env.vhdl:114. -/
example : Denotes 52 3 1 16 8 1973 0 258 116989432 :=
  ⟨1973, 8, 258, rfl, rfl, rfl, by decide, by decide, by decide, by decide, by decide,
    by decide, by decide, by rw [dayNumber_1973]; decide, by rw [dayNumber_1973]; decide⟩

end Verif.StdEnv
