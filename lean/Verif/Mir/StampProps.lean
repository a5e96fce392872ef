import Verif.Mir.StampModel

/-
C30: integer range analysis is sound.

`Within o x` is the specification: if a stamp is known then it contains the value.  For every
operation there is a theorem that the stamp of the result contains the result whenever the stamps
of the operands contain the operands, or a counterexample when it is false:

* the stamp of `rem` is wrong when the divisor may be below the negative of its upper bound,
* the stamp of a selection forgets the operand about which nothing is known,
* the stamp of a cast assumes that the value is in the range of the type.
-/

namespace Verif.Mir

/-- The value lies in the range, if there is one.  This is the specification. -/
def Within (o : Option Stamp) (x : Int) : Prop := ∀ s, o = some s → s.low ≤ x ∧ x ≤ s.high

/-- A stamp that the program can hold: 64-bit bounds in order (the assertion of
`mir_int_stamp`). -/
def Stamp.Valid (s : Stamp) : Prop := Fits s.low ∧ Fits s.high ∧ s.low ≤ s.high

/-- A known stamp is one the program can hold. -/
def ValidStamp (o : Option Stamp) : Prop := ∀ s, o = some s → s.Valid

theorem within_none (x : Int) : Within none x := by intro s h; cases h

theorem within_some {a b x : Int} (h₁ : a ≤ x) (h₂ : x ≤ b) : Within (some ⟨a, b⟩) x := by
  intro s h; cases h; exact ⟨h₁, h₂⟩

/-- The nearest 64-bit value. -/
def clamp (x : Int) : Int := max i64min (min i64max x)

theorem clamp_mono {x y : Int} (h : x ≤ y) : clamp x ≤ clamp y := by
  unfold clamp i64min i64max; omega

theorem clamp_fits (x : Int) : Fits (clamp x) := by
  unfold clamp Fits i64min i64max; omega

theorem clamp_of_fits {x : Int} (h : Fits x) : clamp x = x := by
  unfold clamp; unfold Fits i64min i64max at *; omega

theorem sadd64_eq {a b : Int} (ha : Fits a) : sadd64 a b = clamp (a + b) := by
  unfold sadd64
  split
  · next h => exact (clamp_of_fits h).symm
  · next h =>
    unfold Fits at h ha
    unfold clamp
    unfold i64min i64max at *
    split <;> omega

theorem ssub64_eq {a b : Int} (ha : Fits a) : ssub64 a b = clamp (a - b) := by
  unfold ssub64
  split
  · next h => exact (clamp_of_fits h).symm
  · next h =>
    unfold Fits at h ha
    unfold clamp
    unfold i64min i64max at *
    split <;> omega

theorem smul64_eq (a b : Int) : smul64 a b = clamp (a * b) := by
  unfold smul64
  split
  · next h => exact (clamp_of_fits h).symm
  · next h =>
    have hpos : (a > 0 ∧ b > 0) ∨ (a < 0 ∧ b < 0) → 0 < a * b := by
      rintro (⟨h₁, h₂⟩ | ⟨h₁, h₂⟩)
      · exact Int.mul_pos h₁ h₂
      · exact Int.mul_pos_of_neg_of_neg h₁ h₂
    have hneg : ¬ ((a > 0 ∧ b > 0) ∨ (a < 0 ∧ b < 0)) → a * b ≤ 0 := by
      intro hn
      rcases Int.le_total a 0 with h₁ | h₁
      · rcases Int.le_total 0 b with h₂ | h₂
        · exact Int.mul_nonpos_of_nonpos_of_nonneg h₁ h₂
        · by_cases ha : a = 0
          · simp [ha]
          · by_cases hb : b = 0
            · simp [hb]
            · exact absurd (Or.inr ⟨by omega, by omega⟩) hn
      · rcases Int.le_total b 0 with h₂ | h₂
        · exact Int.mul_nonpos_of_nonneg_of_nonpos h₁ h₂
        · by_cases ha : a = 0
          · simp [ha]
          · by_cases hb : b = 0
            · simp [hb]
            · exact absurd (Or.inl ⟨by omega, by omega⟩) hn
    generalize a * b = p at *
    split
    · next hs =>
      have := hpos hs
      unfold clamp; unfold Fits i64min i64max at *; omega
    · next hs =>
      have := hneg hs
      unfold clamp; unfold Fits i64min i64max at *; omega

/-! ### Addition and subtraction -/

/-- **C30, addition**: the stamp of a sum contains every sum that does not overflow. -/
theorem stampAdd_sound {l r : Option Stamp} {x y : Int} (hl : ValidStamp l)
    (hx : Within l x) (hy : Within r y) (hf : Fits (x + y)) : Within (stampAdd l r) (x + y) := by
  cases l with
  | none => exact within_none _
  | some a =>
    cases r with
    | none => exact within_none _
    | some b =>
      obtain ⟨hx₁, hx₂⟩ := hx a rfl
      obtain ⟨hy₁, hy₂⟩ := hy b rfl
      obtain ⟨hv₁, hv₂, -⟩ := hl a rfl
      show Within (some ⟨_, _⟩) _
      rw [sadd64_eq hv₁, sadd64_eq hv₂]
      have h₁ := clamp_mono (show a.low + b.low ≤ x + y by omega)
      have h₂ := clamp_mono (show x + y ≤ a.high + b.high by omega)
      rw [clamp_of_fits hf] at h₁ h₂
      exact within_some h₁ h₂

/-- **C30, subtraction**: the stamp of a difference contains every difference that does not
overflow. -/
theorem stampSub_sound {l r : Option Stamp} {x y : Int} (hl : ValidStamp l)
    (hx : Within l x) (hy : Within r y) (hf : Fits (x - y)) : Within (stampSub l r) (x - y) := by
  cases l with
  | none => exact within_none _
  | some a =>
    cases r with
    | none => exact within_none _
    | some b =>
      obtain ⟨hx₁, hx₂⟩ := hx a rfl
      obtain ⟨hy₁, hy₂⟩ := hy b rfl
      obtain ⟨hv₁, hv₂, -⟩ := hl a rfl
      show Within (some ⟨_, _⟩) _
      rw [ssub64_eq hv₁, ssub64_eq hv₂]
      have h₁ := clamp_mono (show a.low - b.high ≤ x - y by omega)
      have h₂ := clamp_mono (show x - y ≤ a.high - b.low by omega)
      rw [clamp_of_fits hf] at h₁ h₂
      exact within_some h₁ h₂

/-! ### Multiplication -/

theorem mul_between {a b x y : Int} (h₁ : a ≤ x) (h₂ : x ≤ b) :
    min (a * y) (b * y) ≤ x * y ∧ x * y ≤ max (a * y) (b * y) := by
  rcases Int.le_total 0 y with hy | hy
  · have p := Int.mul_le_mul_of_nonneg_right h₁ hy
    have q := Int.mul_le_mul_of_nonneg_right h₂ hy
    omega
  · have p := Int.mul_le_mul_of_nonpos_right h₁ hy
    have q := Int.mul_le_mul_of_nonpos_right h₂ hy
    omega

theorem mul_corners {a b c d x y : Int} (h₁ : a ≤ x) (h₂ : x ≤ b) (h₃ : c ≤ y) (h₄ : y ≤ d) :
    min (min (a * c) (a * d)) (min (b * c) (b * d)) ≤ x * y ∧
    x * y ≤ max (max (a * c) (a * d)) (max (b * c) (b * d)) := by
  have p := mul_between (y := y) h₁ h₂
  have q := mul_between (y := a) h₃ h₄
  have r := mul_between (y := b) h₃ h₄
  simp only [Int.mul_comm _ a, Int.mul_comm _ b] at q r p ⊢
  omega

theorem clamp_min (x y : Int) : clamp (min x y) = min (clamp x) (clamp y) := by
  unfold clamp i64min i64max; omega

theorem clamp_max (x y : Int) : clamp (max x y) = max (clamp x) (clamp y) := by
  unfold clamp i64min i64max; omega

theorem stampMul_eq (a b : Stamp) : stampMul (some a) (some b) = some
    ⟨clamp (min (min (a.low * b.low) (a.low * b.high)) (min (a.high * b.low) (a.high * b.high))),
     clamp (max (max (a.low * b.low) (a.low * b.high)) (max (a.high * b.low) (a.high * b.high)))⟩
    := by
  simp only [stampMul, intStamp, smul64_eq, clamp_min, clamp_max]

/-- **C30, multiplication**: the stamp of a product contains every product that does not
overflow. -/
theorem stampMul_sound {l r : Option Stamp} {x y : Int}
    (hx : Within l x) (hy : Within r y) (hf : Fits (x * y)) : Within (stampMul l r) (x * y) := by
  cases l with
  | none => exact within_none _
  | some a =>
    cases r with
    | none => exact within_none _
    | some b =>
      obtain ⟨hx₁, hx₂⟩ := hx a rfl
      obtain ⟨hy₁, hy₂⟩ := hy b rfl
      rw [stampMul_eq]
      obtain ⟨h₁, h₂⟩ := mul_corners hx₁ hx₂ hy₁ hy₂
      have h₁ := clamp_mono h₁
      have h₂ := clamp_mono h₂
      rw [clamp_of_fits hf] at h₁ h₂
      exact within_some h₁ h₂

/-! ### Comparison -/

/-- What a comparison means. -/
def Cmp.Holds : Cmp → Int → Int → Prop
  | .eq, x, y => x = y
  | .neq, x, y => x ≠ y
  | .lt, x, y => x < y
  | .leq, x, y => x ≤ y
  | .gt, x, y => x > y
  | .geq, x, y => x ≥ y

instance : (c : Cmp) → (x y : Int) → Decidable (c.Holds x y)
  | .eq, x, y => inferInstanceAs (Decidable (x = y))
  | .neq, x, y => inferInstanceAs (Decidable (x ≠ y))
  | .lt, x, y => inferInstanceAs (Decidable (x < y))
  | .leq, x, y => inferInstanceAs (Decidable (x ≤ y))
  | .gt, x, y => inferInstanceAs (Decidable (x > y))
  | .geq, x, y => inferInstanceAs (Decidable (x ≥ y))

/-- The result of a comparison as a number. -/
def truth (p : Prop) [Decidable p] : Int := if p then 1 else 0

theorem truth_cases (p : Prop) [Decidable p] : (p ∧ truth p = 1) ∨ (¬ p ∧ truth p = 0) := by
  unfold truth
  by_cases h : p
  · exact .inl ⟨h, if_pos h⟩
  · exact .inr ⟨h, if_neg h⟩

/-- **C30, comparison**: the stamp of a comparison contains its result. -/
theorem stampCmp_sound (c : Cmp) {l r : Option Stamp} {x y : Int}
    (hx : Within l x) (hy : Within r y) : Within (stampCmp c l r) (truth (c.Holds x y)) := by
  cases l with
  | none => exact within_none _
  | some a =>
    cases r with
    | none => exact within_none _
    | some b =>
      obtain ⟨hx₁, hx₂⟩ := hx a rfl
      obtain ⟨hy₁, hy₂⟩ := hy b rfl
      intro s hs
      have ht := truth_cases (c.Holds x y)
      generalize truth (c.Holds x y) = t at ht
      cases c <;>
        simp only [stampCmp, cmpDisjoint, cmpBelow, cmpAbove, intStamp] at hs <;>
        simp only [Cmp.Holds] at ht <;>
        (repeat' split at hs) <;> first | cases hs | skip
      all_goals (dsimp only; omega)

/-- **C30, comparison, exactly**: when the ranges decide a comparison the stamp says so: for two
valid ranges the stamp is unknown only if some pair of values in them makes the comparison true and
another makes it false; except that `=` and `/=` of two single values that are equal is left
unknown. -/
theorem stampCmp_exact (c : Cmp) {a b : Stamp} (ha : a.Valid) (hb : b.Valid)
    (hn : stampCmp c (some a) (some b) = none)
    (hc : ¬ ((c = .eq ∨ c = .neq) ∧ a.low = a.high ∧ b.low = b.high)) :
    (∃ x y, Within (some a) x ∧ Within (some b) y ∧ c.Holds x y) ∧
    (∃ x y, Within (some a) x ∧ Within (some b) y ∧ ¬ c.Holds x y) := by
  obtain ⟨-, -, ha⟩ := ha
  obtain ⟨-, -, hb⟩ := hb
  have w : ∀ {s : Stamp} {x : Int}, s.low ≤ x → x ≤ s.high → Within (some s) x :=
    fun h₁ h₂ => within_some h₁ h₂
  -- For equality: a common value, and two different values.
  have same : max a.low b.low ≤ min a.high b.high →
      ∃ x y, Within (some a) x ∧ Within (some b) y ∧ x = y := fun h =>
    ⟨max a.low b.low, max a.low b.low, w (by omega) (by omega), w (by omega) (by omega), rfl⟩
  have differ : ¬ (a.low = a.high ∧ b.low = b.high) →
      ∃ x y, Within (some a) x ∧ Within (some b) y ∧ x ≠ y := fun h => by
    by_cases h₁ : a.low = b.low
    · by_cases h₂ : a.low = a.high
      · exact ⟨a.low, b.high, w (by omega) (by omega), w (by omega) (by omega), by omega⟩
      · exact ⟨a.high, b.low, w (by omega) (by omega), w (by omega) (by omega), by omega⟩
    · exact ⟨a.low, b.low, w (by omega) (by omega), w (by omega) (by omega), h₁⟩
  cases c <;> simp only [stampCmp, cmpDisjoint, cmpBelow, cmpAbove, intStamp] at hn <;>
    simp only [Cmp.Holds] <;> (repeat' split at hn) <;> first | cases hn | skip
  · next h =>
    refine ⟨same h, differ fun h' => hc ⟨.inl rfl, h'⟩⟩
  · next h =>
    obtain ⟨x, y, h₁, h₂, h₃⟩ := same h
    exact ⟨differ fun h' => hc ⟨.inr rfl, h'⟩, x, y, h₁, h₂, by omega⟩
  · exact ⟨⟨a.low, b.high, w (by omega) (by omega), w (by omega) (by omega), by omega⟩,
      ⟨a.high, b.low, w (by omega) (by omega), w (by omega) (by omega), by omega⟩⟩
  · exact ⟨⟨a.low, b.high, w (by omega) (by omega), w (by omega) (by omega), by omega⟩,
      ⟨a.high, b.low, w (by omega) (by omega), w (by omega) (by omega), by omega⟩⟩
  · exact ⟨⟨a.high, b.low, w (by omega) (by omega), w (by omega) (by omega), by omega⟩,
      ⟨a.low, b.high, w (by omega) (by omega), w (by omega) (by omega), by omega⟩⟩
  · exact ⟨⟨a.high, b.low, w (by omega) (by omega), w (by omega) (by omega), by omega⟩,
      ⟨a.low, b.high, w (by omega) (by omega), w (by omega) (by omega), by omega⟩⟩

/-! ### Remainder -/

/-- **C30, remainder**: the stamp of a remainder contains it, if the divisor cannot be below the
negative of its upper bound (as when it cannot be negative). -/
theorem stampRem_sound_partial {l r : Option Stamp} {x y : Int}
    (hx : Within l x) (hy : Within r y) (h0 : y ≠ 0)
    (hneg : ∀ s, r = some s → -s.high ≤ s.low) :
    Within (stampRem l r) (x.tmod y) := by
  cases l with
  | none => exact within_none _
  | some a =>
    cases r with
    | none => exact within_none _
    | some b =>
      obtain ⟨hx₁, hx₂⟩ := hx a rfl
      obtain ⟨hy₁, hy₂⟩ := hy b rfl
      have hn := hneg b rfl
      simp only [stampRem]
      split
      · next h =>
        have h₁ := Int.tmod_nonneg y (show 0 ≤ x by omega)
        have h₂ := Int.tmod_lt_of_pos x (show 0 < (y.natAbs : Int) by omega)
        have h₃ : x.tmod y = x.tmod y.natAbs := by
          rcases Int.natAbs_eq y with h | h
          · rw [← h]
          · rw [h, Int.tmod_neg]; simp
        exact within_some h₁ (by omega)
      · exact within_none _

/-- **C30 is false for the remainder**: with `x` in `0 .. 100` and `y` in `-100 .. 1`, the stamp of
`x rem y` is `0 .. 0`, but `50 rem -100 = 50`. -/
theorem stampRem_counterexample :
    ∃ l r x y, ValidStamp l ∧ ValidStamp r ∧ Within l x ∧ Within r y ∧ y ≠ 0 ∧
      ¬ Within (stampRem l r) (x.tmod y) := by
  refine ⟨some ⟨0, 100⟩, some ⟨-100, 1⟩, 50, -100, ?_, ?_, within_some (by decide) (by decide),
    within_some (by decide) (by decide), by decide, ?_⟩
  · intro s h; cases h; unfold Stamp.Valid; decide
  · intro s h; cases h; unfold Stamp.Valid; decide
  · intro h
    have := h ⟨0, 0⟩ rfl
    revert this; decide

/-! ### Selection -/

/-- **C30, selection**: the stamp of a selection contains both values, if both have a stamp. -/
theorem stampUnion_sound_partial {a b : Stamp} {x : Int}
    (h : Within (some a) x ∨ Within (some b) x) : Within (stampUnion (some a) (some b)) x := by
  rcases h with h | h <;>
  · have := h _ rfl
    exact within_some (by omega) (by omega)

/-- **C30 is false for a selection**: nothing is known about `7`, the stamp of the selection is
that of the other operand. -/
theorem stampUnion_counterexample :
    ∃ l r x, ValidStamp l ∧ ValidStamp r ∧ Within l x ∧ ¬ Within (stampUnion l r) x := by
  refine ⟨none, some ⟨5, 5⟩, 7, ?_, ?_, within_none _, ?_⟩
  · intro s h; cases h
  · intro s h; cases h; unfold Stamp.Valid; decide
  · intro h
    have := h ⟨5, 5⟩ rfl
    revert this; decide

/-! ### Casts -/

/-- **C30, casts**: the stamp of a cast contains the value, if the value is in the range of the
type. -/
theorem stampCast_sound_partial {low high : Int} {o : Option Stamp} {x : Int} (h : Within o x)
    (h₁ : low ≤ x) (h₂ : x ≤ high) : Within (stampCast low high o) x := by
  cases o with
  | none => exact within_none _
  | some s =>
    have := h s rfl
    exact within_some (by omega) (by omega)

/-- The stamp of a cast has exactly the values of the operand that are in the range of the type. -/
theorem stampCast_exact {low high : Int} {s : Stamp} {x : Int} :
    Within (stampCast low high (some s)) x ↔ Within (some s) x ∧ low ≤ x ∧ x ≤ high := by
  constructor
  · intro h
    have := h _ rfl
    dsimp only at this
    exact ⟨within_some (by omega) (by omega), by omega, by omega⟩
  · rintro ⟨h, h₁, h₂⟩
    have := h s rfl
    exact within_some (by omega) (by omega)

/-- **C30 is false for casts**: the generated code leaves the value alone (`irgen_op_cast`,
jit-irgen.c 2139-2143), so `300` with range `0 .. 1000` is still `300` after a cast to a type with
range `0 .. 255`, and the stamp says it is at most `255`. -/
theorem stampCast_counterexample :
    ∃ low high o x, ValidStamp o ∧ Within o x ∧ ValidStamp (stampCast low high o) ∧
      ¬ Within (stampCast low high o) x := by
  refine ⟨0, 255, some ⟨0, 1000⟩, 300, ?_, within_some (by decide) (by decide), ?_, ?_⟩
  · intro s h; cases h; unfold Stamp.Valid; decide
  · intro s h; cases h; unfold Stamp.Valid; decide
  · intro h
    have := h ⟨0, 255⟩ rfl
    revert this; decide

/-- A cast to a type whose range does not meet the stamp gives bounds in the wrong order, which the
assertion of `mir_int_stamp` rejects. -/
theorem stampCast_assert_counterexample :
    ∃ low high o, low ≤ high ∧ ValidStamp o ∧ ¬ ValidStamp (stampCast low high o) := by
  refine ⟨0, 255, some ⟨300, 400⟩, by decide, ?_, ?_⟩
  · intro s h; cases h; unfold Stamp.Valid; decide
  · intro h
    have := h ⟨300, 255⟩ rfl
    revert this; unfold Stamp.Valid; decide

/-! ### Stamps are well formed, and as small as possible -/

/-- **C30**: the bounds of computed stamps are in order, so that the assertion of `mir_int_stamp`
holds. -/
theorem stamp_valid {l r : Option Stamp} (hl : ValidStamp l) (hr : ValidStamp r) :
    ValidStamp (stampAdd l r) ∧ ValidStamp (stampSub l r) ∧ ValidStamp (stampMul l r) ∧
    ValidStamp (stampDiv l r) ∧ ValidStamp (stampRem l r) ∧ (∀ c, ValidStamp (stampCmp c l r)) ∧
    ValidStamp (stampUnion l r) := by
  have hnone : ValidStamp none := by intro s h; cases h
  cases l with
  | none => exact ⟨hnone, hnone, hnone, hnone, hnone, fun c => by cases c <;> exact hnone, hr⟩
  | some a =>
    cases r with
    | none => exact ⟨hnone, hnone, hnone, hnone, hnone, fun c => by cases c <;> exact hnone, hl⟩
    | some b =>
      obtain ⟨ha₁, ha₂, ha⟩ := hl a rfl
      obtain ⟨hb₁, hb₂, hb⟩ := hr b rfl
      refine ⟨?_, ?_, ?_, hnone, ?_, ?_, ?_⟩
      · intro s h
        simp only [stampAdd, intStamp, sadd64_eq ha₁, sadd64_eq ha₂] at h
        cases h
        exact ⟨clamp_fits _, clamp_fits _, clamp_mono (by omega)⟩
      · intro s h
        simp only [stampSub, intStamp, ssub64_eq ha₁, ssub64_eq ha₂] at h
        cases h
        exact ⟨clamp_fits _, clamp_fits _, clamp_mono (by omega)⟩
      · intro s h
        rw [stampMul_eq] at h
        cases h
        exact ⟨clamp_fits _, clamp_fits _, clamp_mono (by omega)⟩
      · intro s h
        simp only [stampRem] at h
        split at h
        · cases h
          unfold Stamp.Valid; unfold Fits i64min i64max at *; dsimp only; omega
        · cases h
      · intro c s h
        cases c <;> simp only [stampCmp, cmpDisjoint, cmpBelow, cmpAbove, intStamp] at h <;>
          (repeat' split at h) <;> first | cases h | skip
        all_goals (unfold Stamp.Valid Fits i64min i64max; dsimp only; omega)
      · intro s h
        simp only [stampUnion, intStamp] at h
        cases h
        unfold Stamp.Valid; unfold Fits i64min i64max at *; dsimp only; omega

/-- A bound of a stamp is reached by the values of the operation, or it is the last 64-bit value
and some operands overflow in that direction. -/
def Reached (s : Stamp) (res : Int → Prop) : Prop :=
  (res s.low ∨ (s.low = i64min ∧ ∃ v, res v ∧ v < i64min) ∨
    (s.low = i64max ∧ ∃ v, res v ∧ v > i64max)) ∧
  (res s.high ∨ (s.high = i64max ∧ ∃ v, res v ∧ v > i64max) ∨
    (s.high = i64min ∧ ∃ v, res v ∧ v < i64min))

theorem clamp_reached {v : Int} (res : Int → Prop) (h : res v) :
    (res (clamp v) ∨ (clamp v = i64min ∧ ∃ v, res v ∧ v < i64min) ∨
      (clamp v = i64max ∧ ∃ v, res v ∧ v > i64max)) := by
  by_cases h₁ : v < i64min
  · exact .inr (.inl ⟨by unfold clamp i64min i64max at *; omega, v, h, h₁⟩)
  · by_cases h₂ : v > i64max
    · exact .inr (.inr ⟨by unfold clamp i64min i64max at *; omega, v, h, h₂⟩)
    · left; rw [clamp_of_fits ⟨by omega, by omega⟩]; exact h

/-- **C30**: the stamps of sums, differences, products and selections are as small as they can be:
both bounds are reached by operands in their ranges, or the operation can overflow there. -/
theorem stamp_least {a b : Stamp} (ha : a.Valid) (hb : b.Valid) :
    (∀ s, stampAdd (some a) (some b) = some s →
      Reached s fun v => ∃ x y, Within (some a) x ∧ Within (some b) y ∧ v = x + y) ∧
    (∀ s, stampSub (some a) (some b) = some s →
      Reached s fun v => ∃ x y, Within (some a) x ∧ Within (some b) y ∧ v = x - y) ∧
    (∀ s, stampMul (some a) (some b) = some s →
      Reached s fun v => ∃ x y, Within (some a) x ∧ Within (some b) y ∧ v = x * y) ∧
    (∀ s, stampUnion (some a) (some b) = some s →
      Reached s fun v => Within (some a) v ∨ Within (some b) v) := by
  obtain ⟨ha₁, ha₂, ha⟩ := ha
  obtain ⟨hb₁, hb₂, hb⟩ := hb
  have al : Within (some a) a.low := within_some (Int.le_refl _) ha
  have ah : Within (some a) a.high := within_some ha (Int.le_refl _)
  have bl : Within (some b) b.low := within_some (Int.le_refl _) hb
  have bh : Within (some b) b.high := within_some hb (Int.le_refl _)
  have flip : ∀ {p q r : Prop}, p ∨ q ∨ r → p ∨ r ∨ q := fun h =>
    h.elim .inl fun h => .inr h.symm
  refine ⟨?_, ?_, ?_, ?_⟩
  · intro s h
    simp only [stampAdd, intStamp, sadd64_eq ha₁, sadd64_eq ha₂] at h
    cases h
    refine ⟨clamp_reached (fun v => ∃ x y, Within (some a) x ∧ Within (some b) y ∧ v = x + y)
         ⟨_, _, al, bl, rfl⟩,
      flip (clamp_reached (fun v => ∃ x y, Within (some a) x ∧ Within (some b) y ∧ v = x + y)
         ⟨_, _, ah, bh, rfl⟩)⟩
  · intro s h
    simp only [stampSub, intStamp, ssub64_eq ha₁, ssub64_eq ha₂] at h
    cases h
    refine ⟨clamp_reached (fun v => ∃ x y, Within (some a) x ∧ Within (some b) y ∧ v = x - y)
         ⟨_, _, al, bh, rfl⟩,
      flip (clamp_reached (fun v => ∃ x y, Within (some a) x ∧ Within (some b) y ∧ v = x - y)
         ⟨_, _, ah, bl, rfl⟩)⟩
  · intro s h
    rw [stampMul_eq] at h
    cases h
    have corner : ∀ (m : Int), m = a.low * b.low ∨ m = a.low * b.high ∨ m = a.high * b.low ∨
        m = a.high * b.high →
        ∃ x y, Within (some a) x ∧ Within (some b) y ∧ m = x * y := by
      rintro m (h | h | h | h)
      · exact ⟨_, _, al, bl, h⟩
      · exact ⟨_, _, al, bh, h⟩
      · exact ⟨_, _, ah, bl, h⟩
      · exact ⟨_, _, ah, bh, h⟩
    refine ⟨clamp_reached (fun v => ∃ x y, Within (some a) x ∧ Within (some b) y ∧ v = x * y)
         (corner _ ?_),
      flip (clamp_reached (fun v => ∃ x y, Within (some a) x ∧ Within (some b) y ∧ v = x * y)
         (corner _ ?_))⟩
    · generalize a.low * b.low = p
      generalize a.low * b.high = q
      generalize a.high * b.low = r
      generalize a.high * b.high = t
      omega
    · generalize a.low * b.low = p
      generalize a.low * b.high = q
      generalize a.high * b.low = r
      generalize a.high * b.high = t
      omega
  · intro s h
    simp only [stampUnion, intStamp] at h
    cases h
    refine ⟨.inl ?_, .inl ?_⟩
    · by_cases h : a.low ≤ b.low
      · left; dsimp only; rw [Int.min_eq_left h]; exact al
      · right; dsimp only; rw [Int.min_eq_right (by omega)]; exact bl
    · by_cases h : a.high ≤ b.high
      · right; dsimp only; rw [Int.max_eq_right h]; exact bh
      · left; dsimp only; rw [Int.max_eq_left (by omega)]; exact ah

/-- **C30**: a stamp with a single value stands for that value. -/
theorem stampConst_sound {o : Option Stamp} {x c : Int} (h : Within o x)
    (hc : stampConst o = some c) : x = c := by
  cases o with
  | none => cases hc
  | some s =>
    have := h s rfl
    simp only [stampConst] at hc
    split at hc
    · cases hc; omega
    · cases hc

/-! ### Examples -/

example : stampAdd (some ⟨0, 10⟩) (some ⟨-5, 9223372036854775807⟩) =
    some ⟨-5, 9223372036854775807⟩ := by decide
example : stampSub (some ⟨0, 10⟩) (some ⟨-5, 7⟩) = some ⟨-7, 15⟩ := by decide
example : stampMul (some ⟨-3, 2⟩) (some ⟨-5, 7⟩) = some ⟨-21, 15⟩ := by decide
example : stampMul (some ⟨-3, 9223372036854775807⟩) (some ⟨-2, 7⟩) =
    some ⟨-9223372036854775808, 9223372036854775807⟩ := by decide
example : stampRem (some ⟨0, 100⟩) (some ⟨1, 8⟩) = some ⟨0, 7⟩ := by decide
example : stampCmp .lt (some ⟨0, 3⟩) (some ⟨4, 8⟩) = some ⟨1, 1⟩ := by decide
example : stampCmp .lt (some ⟨0, 4⟩) (some ⟨4, 8⟩) = none := by decide
example : stampCmp .geq (some ⟨4, 9⟩) (some ⟨0, 4⟩) = some ⟨1, 1⟩ := by decide
example : stampCmp .eq (some ⟨4, 9⟩) (some ⟨0, 3⟩) = some ⟨0, 0⟩ := by decide
example : stampUnion (some ⟨4, 9⟩) (some ⟨0, 3⟩) = some ⟨0, 9⟩ := by decide
example : stampCast 0 255 (some ⟨-4, 9⟩) = some ⟨0, 9⟩ := by decide
example : (⟨0, 10⟩ : Stamp).Valid := by unfold Stamp.Valid; decide
example : Within (some ⟨0, 10⟩) 7 := within_some (by decide) (by decide)

end Verif.Mir
