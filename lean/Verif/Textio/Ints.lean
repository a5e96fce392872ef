import Verif.Textio.Props

/-
Property C92, second part: integers and times.
-/

namespace Verif.Textio

open Spec

/-! ## Decimal numbers -/

theorem decR_append (l : List Char) (c : Char) :
    decR (l ++ [c]) = decR l + 10 ^ l.length * (c.toNat - 48) := by
  induction l with
  | nil => simp [decR]
  | cons a l ih =>
    simp only [List.cons_append, decR, ih, List.length_cons, Nat.pow_succ]
    rw [Nat.mul_add, Nat.mul_comm (10 ^ l.length) 10, Nat.mul_assoc]
    omega

theorem dec_cons (c : Char) (l : List Char) :
    dec (c :: l) = (c.toNat - 48) * 10 ^ l.length + dec l := by
  unfold dec
  rw [List.reverse_cons, decR_append, List.length_reverse, Nat.mul_comm]
  omega

theorem dec_snoc (l : List Char) (c : Char) : dec (l ++ [c]) = 10 * dec l + (c.toNat - 48) := by
  unfold dec
  rw [List.reverse_append]
  simp only [List.reverse_cons, List.reverse_nil, List.nil_append, List.cons_append, decR]
  omega

theorem digit_toNat {n : Nat} (h : n < 10) : (Char.ofNat (48 + n)).toNat = 48 + n := by
  have : ∀ m < 10, (Char.ofNat (48 + m)).toNat = 48 + m := by decide
  exact this n h

theorem natText_spec (n : Nat) : natText n ≠ [] ∧ (∀ c ∈ natText n, Dig c) ∧ dec (natText n) = n := by
  induction n using Nat.strongRecOn with
  | ind n ih =>
    rw [natText]
    split
    · next h =>
      refine ⟨by simp, ?_, ?_⟩
      · intro c hc
        simp only [List.mem_singleton] at hc
        subst hc
        unfold Dig
        rw [digit_toNat h]
        omega
      · rw [dec_cons, digit_toNat h]
        simp [dec, decR]
    · next h =>
      obtain ⟨h1, h2, h3⟩ := ih (n / 10) (by omega)
      refine ⟨by simp, ?_, ?_⟩
      · intro c hc
        rw [List.mem_append, List.mem_singleton] at hc
        rcases hc with hc | rfl
        · exact h2 c hc
        · unfold Dig
          rw [digit_toNat (by omega)]
          omega
      · rw [dec_snoc, h3, digit_toNat (by omega)]
        omega

/-- The text of an integer denotes it. -/
theorem intText_denotes (v : Int) : Denotes (intText v) v := by
  obtain ⟨h1, h2, h3⟩ := natText_spec v.natAbs
  unfold intText
  split
  · next h =>
    have := Denotes.minus h1 h2
    rw [h3] at this
    have e : -(v.natAbs : Int) = v := by omega
    rwa [e] at this
  · next h =>
    have := Denotes.plain h1 h2
    rw [h3] at this
    have e : (v.natAbs : Int) = v := by omega
    rwa [e] at this

/-! ## The loop over the digits -/

def sgn (neg : Bool) (m : Nat) : Int := if neg then -(m : Int) else m

def lim (neg : Bool) : Nat := if neg then 2147483648 else 2147483647

theorem inRange_sgn (neg : Bool) (m : Nat) : inRange (sgn neg m) = decide (m ≤ lim neg) := by
  cases neg <;> simp only [inRange, sgn, lim, Bool.false_eq_true, if_false, if_true] <;>
    rw [Bool.eq_iff_iff, Bool.and_eq_true] <;> simp only [decide_eq_true_eq] <;> omega

theorem isInt_sgn (neg : Bool) (m : Nat) : IsInt (sgn neg m) ↔ m ≤ lim neg := by
  cases neg <;> simp only [IsInt, sgn, lim, Bool.false_eq_true, if_false, if_true] <;> omega

/-- Nothing or a character which is no digit. -/
def NoDig (l : List Char) : Prop := ∀ c r, l = c :: r → ¬ Dig c

theorem dig_loop (neg : Bool) (ds rest : List Char) (hd : ∀ c ∈ ds, Dig c) (hr : NoDig rest)
    (m : Nat) (hm : m ≤ lim neg) : digLoop neg (sgn neg m) (ds ++ rest) =
      if m * 10 ^ ds.length + dec ds ≤ lim neg
      then some (sgn neg (m * 10 ^ ds.length + dec ds), ds.length) else none := by
  induction ds generalizing m with
  | nil =>
    have e : m * 10 ^ ([] : List Char).length + dec [] = m := by simp [dec, decR]
    rw [e, if_pos hm]
    cases rest with
    | nil => rfl
    | cons c r =>
      have := hr c r rfl
      unfold Dig at this
      simp only [List.nil_append, digLoop]
      rw [if_pos (by omega)]
      rfl
  | cons c ds ih =>
    rw [List.forall_mem_cons] at hd
    have hc := hd.1
    unfold Dig at hc
    simp only [List.cons_append, digLoop]
    rw [if_neg (by omega)]
    have e1 : sgn neg m * 10 = sgn neg (m * 10) := by
      cases neg <;> simp only [sgn, Bool.false_eq_true, if_false, if_true] <;> push_cast <;> omega
    have e2 : sgn neg (m * 10) + (if neg = true then -((c.toNat : Int) - 48) else (c.toNat : Int) - 48)
        = sgn neg (m * 10 + (c.toNat - 48)) := by
      cases neg <;> simp only [sgn, Bool.false_eq_true, if_false, if_true] <;> omega
    have e3 : m * 10 ^ (c :: ds).length + dec (c :: ds) =
        (m * 10 + (c.toNat - 48)) * 10 ^ ds.length + dec ds := by
      rw [dec_cons, List.length_cons, Nat.pow_succ, Nat.add_mul, Nat.mul_comm (10 ^ ds.length) 10,
        ← Nat.mul_assoc]
      omega
    rw [e1, e2, e3, inRange_sgn, inRange_sgn]
    generalize hx : m * 10 + (c.toNat - 48) = x
    have hge : x ≤ x * 10 ^ ds.length + dec ds := by
      have : 1 ≤ 10 ^ ds.length := Nat.one_le_pow _ _ (by omega)
      have := Nat.mul_le_mul_left x this
      omega
    by_cases h1 : m * 10 ≤ lim neg
    · simp only [h1, decide_true, Bool.not_true, Bool.false_eq_true, if_false]
      by_cases h2 : x ≤ lim neg
      · simp only [h2, decide_true, Bool.not_true, Bool.false_eq_true, if_false]
        rw [ih hd.2 x h2]
        split <;> simp
      · simp only [h2, decide_false, Bool.not_false, if_true]
        rw [if_neg (by omega)]
    · simp only [h1, decide_false, Bool.not_false, if_true]
      rw [if_neg (by omega)]

/-! ## Integers -/

theorem sign_not_white : ¬ White '-' ∧ ¬ White '+' := by decide

theorem dig_not_white {c : Char} (h : Dig c) : ¬ White c ∧ c ≠ '-' ∧ c ≠ '+' := by
  refine ⟨?_, ?_, ?_⟩
  · unfold Dig at h
    unfold White
    omega
  · rintro rfl
    revert h; decide
  · rintro rfl
    revert h; decide

theorem denotes_cases {s : List Char} {v : Int} (h : Denotes s v) :
    ∃ (neg : Bool) (ds : List Char) (m : Nat), ds ≠ [] ∧ (∀ c ∈ ds, Dig c) ∧ v = sgn neg (dec ds) ∧
      ((s = ds ∧ neg = false ∧ m = 1) ∨ (s = '+' :: ds ∧ neg = false ∧ m = 2) ∨
        (s = '-' :: ds ∧ neg = true ∧ m = 2)) := by
  cases h with
  | plain h1 h2 => exact ⟨false, _, 1, h1, h2, rfl, .inl ⟨rfl, rfl, rfl⟩⟩
  | plus h1 h2 => exact ⟨false, _, 2, h1, h2, rfl, .inr (.inl ⟨rfl, rfl, rfl⟩)⟩
  | minus h1 h2 => exact ⟨true, _, 2, h1, h2, rfl, .inr (.inr ⟨rfl, rfl, rfl⟩)⟩

theorem denotes_stop {s : List Char} {v : Int} (h : Denotes s v) (t : List Char) : Stop (s ++ t) := by
  have key : ∀ ds : List Char, ds ≠ [] → (∀ c ∈ ds, Dig c) → Stop (ds ++ t) := by
    intro ds h1 h2
    cases ds with
    | nil => exact absurd rfl h1
    | cons a ds => exact stop_cons (dig_not_white (h2 a (by simp))).1
  cases h with
  | plain h1 h2 => exact key _ h1 h2
  | plus h1 h2 => exact stop_cons sign_not_white.2
  | minus h1 h2 => exact stop_cons sign_not_white.1

/-- **C92**: an integer with digits is read to its last digit if it is in the range of
the type; otherwise there is an error at run time. -/
theorem read_int_correct (ws s rest : List Char) (v : Int) (hw : ∀ c ∈ ws, White c)
    (hs : Denotes s v) (hr : NoDig rest) : readInt (some (ws ++ s ++ rest)) =
      if IsInt v then .done true (some v) (some rest) else .err := by
  have hstop := denotes_stop hs rest
  unfold readInt
  rw [List.append_assoc, skip_some hw hstop]
  simp only
  cases hs with
  | plain h1 h2 =>
    cases s with
    | nil => exact absurd rfl h1
    | cons a ds =>
      have ha := dig_not_white (h2 a (by simp))
      simp only [List.cons_append, if_neg ha.2.1, if_neg ha.2.2, Nat.sub_self, List.drop_zero]
      have := dig_loop false (a :: ds) rest h2 hr 0 (by decide)
      have e0 : sgn false 0 = 0 := rfl
      simp only [e0, List.cons_append, Nat.zero_mul, Nat.zero_add] at this
      rw [this]
      have hi := isInt_sgn false (dec (a :: ds))
      have es : sgn false (dec (a :: ds)) = (dec (a :: ds) : Int) := rfl
      rw [es] at hi
      by_cases hl : dec (a :: ds) ≤ lim false
      · rw [if_pos hl, if_pos (hi.mpr hl)]
        simp only [es, consume, List.length_cons, Bool.false_eq_true, false_and, if_false]
        have : 1 + (ds.length + 1) - 1 = (a :: ds).length := by simp
        rw [this, ← List.cons_append, List.drop_left]
        simp
      · rw [if_neg hl, if_neg (fun h => hl (hi.mp h))]
  | @plus ds h1 h2 =>
    simp only [List.cons_append, if_neg (by decide : ¬ '+' = '-'), if_true, Nat.reduceSub,
      List.drop_succ_cons, List.drop_zero]
    have := dig_loop false ds rest h2 hr 0 (by decide)
    have e0 : sgn false 0 = 0 := rfl
    simp only [e0, Nat.zero_mul, Nat.zero_add] at this
    rw [this]
    have hi := isInt_sgn false (dec ds)
    have es : sgn false (dec ds) = (dec ds : Int) := rfl
    rw [es] at hi
    by_cases hl : dec ds ≤ lim false
    · rw [if_pos hl, if_pos (hi.mpr hl)]
      simp only [es, consume, Bool.false_eq_true, false_and, if_false]
      have : 2 + ds.length - 1 = ds.length + 1 := by omega
      rw [this, List.drop_succ_cons, List.drop_left]
      simp
      omega
    · rw [if_neg hl, if_neg (fun h => hl (hi.mp h))]
  | @minus ds h1 h2 =>
    simp only [List.cons_append, if_true, Nat.reduceSub, List.drop_succ_cons, List.drop_zero]
    have := dig_loop true ds rest h2 hr 0 (by decide)
    have e0 : sgn true 0 = 0 := rfl
    simp only [e0, Nat.zero_mul, Nat.zero_add] at this
    rw [this]
    have hi := isInt_sgn true (dec ds)
    have es : sgn true (dec ds) = -(dec ds : Int) := rfl
    rw [es] at hi
    have hp : 0 < ds.length := List.length_pos_iff.mpr h1
    by_cases hl : dec ds ≤ lim true
    · rw [if_pos hl, if_pos (hi.mpr hl)]
      simp only [es, consume, true_and]
      rw [if_neg (by omega)]
      have : 2 + ds.length - 1 = ds.length + 1 := by omega
      rw [this, List.drop_succ_cons, List.drop_left]
      simp
      omega
    · rw [if_neg hl, if_neg (fun h => hl (hi.mp h))]

/-- Without digits only a sign `+` is taken. -/
theorem read_int_bad (ws t : List Char) (hw : ∀ c ∈ ws, White c) (hs : Stop t) (hd : NoDig t)
    (hp : ∀ r, t ≠ '+' :: r) (hm : ∀ r, t = '-' :: r → NoDig r) :
    readInt (some (ws ++ t)) = .done false (some 0) (some t) := by
  unfold readInt
  rw [skip_some hw hs]
  simp only
  cases t with
  | nil => rfl
  | cons c r =>
    have h1 : c ≠ '+' := fun e => hp r (by rw [e])
    by_cases h2 : c = '-'
    · subst h2
      have := dig_loop true [] r (by simp) (hm r rfl) 0 (by decide)
      have e : sgn true 0 = 0 := rfl
      simp only [List.nil_append, e] at this
      simp only [if_true, Nat.reduceSub, List.drop_succ_cons, List.drop_zero, this]
      simp [dec, decR, lim, sgn, consume]
    · have := dig_loop false [] (c :: r) (by simp) hd 0 (by decide)
      have e : sgn false 0 = 0 := rfl
      simp only [List.nil_append, e] at this
      simp only [if_neg h1, if_neg h2, Nat.sub_self, List.drop_zero, this]
      simp [dec, decR, lim, sgn, consume]

/-- A sign `+` without digits is read as 0. -/
theorem read_int_plus_counterexample :
    readInt (some "+abc".toList) = .done true (some 0) (some "abc".toList) ∧
    ¬ ∃ v, Denotes "+".toList v := by
  refine ⟨by decide, ?_⟩
  rintro ⟨v, h⟩
  have h' : Denotes ['+'] v := h
  cases h' with
  | plain h1 h2 => exact absurd (h2 '+' (by simp)) (by decide)
  | plus h1 _ => exact h1 rfl

theorem replicate_noDig (n : Nat) (rest : List Char) (h : 0 < n ∨ NoDig rest) :
    NoDig (List.replicate n ' ' ++ rest) := by
  cases n with
  | zero =>
    rcases h with h | h
    · omega
    · exact h
  | succ n =>
    intro c r e
    rw [List.replicate_succ, List.cons_append] at e
    cases e
    decide

/-- **C92**: an integer in a field is read back, if no digit follows it. -/
theorem write_read_int (v : Int) (hv : IsInt v) (left : Bool) (w : Nat) (rest : List Char)
    (hr : NoDig rest) : ∃ r, readInt (some (field (intText v) left w ++ rest)) =
      .done true (some v) (some (r ++ rest)) ∧ ∀ c ∈ r, White c := by
  unfold field
  cases left
  · refine ⟨[], ?_, by simp⟩
    have := read_int_correct (List.replicate (w - (intText v).length) ' ') (intText v) rest v
      (spaces_white _) (intText_denotes v) hr
    rw [if_pos hv] at this
    exact this
  · refine ⟨List.replicate (w - (intText v).length) ' ', ?_, spaces_white _⟩
    have := read_int_correct [] (intText v)
      (List.replicate (w - (intText v).length) ' ' ++ rest) v (by simp) (intText_denotes v)
      (replicate_noDig _ _ (.inr hr))
    rw [if_pos hv] at this
    simpa using this

-- `write(l, -25, left, 5); write(l, string'("x"))`
example : readInt (some "-25  x".toList) = .done true (some (-25)) (some "  x".toList) := by decide
example : IsInt (-25) ∧ NoDig ['x'] := ⟨by decide, fun c r e => by cases e; decide⟩
example : readInt (some "2147483648".toList) = .err := by decide

end Verif.Textio
