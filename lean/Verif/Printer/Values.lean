import Verif.Printer.Model
import Verif.Wave.Model

/-
Theorems on the texts of values, property C99.
-/

namespace Verif.Printer

open Spec

/-! ## Numbers -/

theorem digitVal_digit (d : Nat) (h : d < 16) : digitVal (digit d) = d := by
  unfold digitVal digit
  split <;> split <;> omega

theorem valueOf_snoc (b : Nat) (t : Text) (c : Nat) :
    valueOf b (t ++ [c]) = valueOf b t * b + digitVal c := by
  simp [valueOf, List.foldl_append]

/-- The digits say the number if there is room for them. -/
theorem digits_value (b : Nat) (hb : 2 ≤ b) (hb2 : b ≤ 16) (f n : Nat) (h : n < b ^ f) :
    valueOf b (digits b f n) = n := by
  induction f generalizing n with
  | zero => rw [Nat.pow_zero] at h; have : n = 0 := by omega
            rw [this]; rfl
  | succ f ih =>
    unfold digits
    by_cases hn : n < b
    · rw [if_pos hn]
      show 0 * b + digitVal (digit n) = n
      rw [digitVal_digit n (by omega)]; omega
    · rw [if_neg hn, valueOf_snoc]
      have hdiv : n / b < b ^ f := by
        rw [Nat.div_lt_iff_lt_mul (by omega)]
        rw [Nat.pow_succ] at h; exact h
      rw [ih _ hdiv, digitVal_digit _ (Nat.lt_of_lt_of_le (Nat.mod_lt _ (by omega)) hb2)]
      rw [Nat.mul_comm]; exact Nat.div_add_mod n b

theorem digits_head (b : Nat) (f n : Nat) :
    ∀ t : Text, digits b f n ≠ 45 :: t := by
  induction f generalizing n with
  | zero => intro t h; cases h
  | succ f ih =>
    intro t h
    unfold digits at h
    by_cases hn : n < b
    · rw [if_pos hn] at h
      injection h with h1 _
      unfold digit at h1; split at h1 <;> omega
    · rw [if_neg hn] at h
      cases hd : digits b f (n / b) with
      | nil =>
        rw [hd] at h
        injection h with h1 _
        unfold digit at h1; split at h1 <;> omega
      | cons c r =>
        rw [hd] at h
        injection h with h1 _
        exact ih (n / b) r (by rw [hd, h1])

theorem intOf_digits (t : Text) (h : ∀ r : Text, t ≠ 45 :: r) : intOf t = valueOf 10 t := by
  unfold intOf
  split
  · rename_i r; exact absurd rfl (h r)
  · rfl

/-- A number of 64 bits in decimal says the number. -/
theorem decimal_value (v : Int) (h1 : -(2 ^ 63) ≤ v) (h2 : v < 2 ^ 63) :
    intOf (decimal v) = v := by
  have hb : v.natAbs < 10 ^ 20 := by omega
  unfold decimal
  by_cases hv : v < 0
  · rw [if_pos hv]
    show -((valueOf 10 (digits 10 20 v.natAbs) : Nat) : Int) = v
    rw [digits_value 10 (by omega) (by omega) 20 _ hb]; omega
  · rw [if_neg hv, intOf_digits _ (digits_head 10 20 _),
      digits_value 10 (by omega) (by omega) 20 _ hb]; omega

theorem binary_length (u n : Nat) : (binary u n).length = n := by
  induction n with
  | zero => rfl
  | succ n ih => simp [binary, ih]

theorem binary_fold (u n a : Nat) :
    (binary u n).foldl (fun a c => a * 2 + digitVal c) a = a * 2 ^ n + u % 2 ^ n := by
  induction n generalizing a with
  | zero => simp [binary, Nat.mod_one]
  | succ n ih =>
    have hd : digitVal (if u / 2 ^ n % 2 = 1 then 49 else 48) = u / 2 ^ n % 2 := by
      have := Nat.mod_two_eq_zero_or_one (u / 2 ^ n)
      split <;> simp [digitVal] <;> omega
    rw [binary, List.foldl_cons, ih, hd, Nat.mod_pow_succ, Nat.pow_succ, Nat.add_mul,
      Nat.mul_assoc, Nat.mul_comm 2 (2 ^ n), Nat.mul_comm (u / 2 ^ n % 2)]
    omega

/-- The binary text has all bits of the value and says the number in them. -/
theorem binary_value (u n : Nat) (h : u < 2 ^ n) : valueOf 2 (binary u n) = u := by
  unfold valueOf
  rw [binary_fold, Nat.mod_eq_of_lt h]; omega

/-! ## Integers -/

theorem stored_lt (n : Nat) (v : Int) : Wave.stored n v < 2 ^ (8 * n) := by
  unfold Wave.stored
  have hp : 0 < 2 ^ (8 * n) := Nat.pow_pos (by omega)
  have h1 := Int.emod_nonneg v (b := ((2 ^ (8 * n) : Nat) : Int)) (by omega)
  have h2 := Int.emod_lt_of_pos v (b := ((2 ^ (8 * n) : Nat) : Int)) (by omega)
  omega

/-- Reading with sign gives the value exactly if it is in the signed range of
its bytes. -/
theorem signed_stored_iff (n : Nat) (hn : 0 < n) (v : Int)
    (h1 : -(2 ^ (8 * n - 1) : Nat) ≤ v) (h2 : v < (2 ^ (8 * n) : Nat)) :
    signed n (Wave.stored n v) = v ↔ v < (2 ^ (8 * n - 1) : Nat) := by
  have hp : 2 ^ (8 * n) = 2 * 2 ^ (8 * n - 1) := by
    conv => lhs; rw [show 8 * n = (8 * n - 1) + 1 by omega, Nat.pow_succ]
    omega
  have hpi : ((2 : Int) ^ (8 * n)) = ((2 ^ (8 * n) : Nat) : Int) := by simp
  unfold signed Wave.stored
  rw [hpi, hp]
  rw [hp] at h2
  generalize 2 ^ (8 * n - 1) = P at *
  have hP : 0 < P := by omega
  by_cases hv : v < 0
  · have e : v % ((2 * P : Nat) : Int) = v + (2 * P : Nat) := by
      rw [← Int.add_emod_right, Int.emod_eq_of_lt (by omega) (by omega)]
    rw [e]; split <;> omega
  · rw [Int.emod_eq_of_lt (by omega) (by omega)]
    split <;> omega

/-- An integer in decimal is shown as it is exactly if it is in the signed
range of the bytes of its type. -/
theorem int_decimal_iff (n : Nat) (hn : n = 1 ∨ n = 2 ∨ n = 4 ∨ n = 8) (v : Int)
    (h1 : -(2 ^ (8 * n - 1) : Nat) ≤ v) (h2 : v < (2 ^ (8 * n) : Nat))
    (fl : Flags) (hr : fl.radix = .dflt ∨ fl.radix = .dec) (he : fl.encode = false) :
    (intPrinter n (Wave.stored n v) fl).map intOf = some v ↔ v < (2 ^ (8 * n - 1) : Nat) := by
  have hs := signed_stored_iff n (by omega) v h1 h2
  have hlt := stored_lt n v
  have hb : -(2 ^ 63) ≤ signed n (Wave.stored n v) ∧ signed n (Wave.stored n v) < 2 ^ 63 := by
    unfold signed
    rcases hn with h | h | h | h <;> subst h <;> split <;> omega
  have e : (intPrinter n (Wave.stored n v) fl).map intOf = some (signed n (Wave.stored n v)) := by
    unfold intPrinter
    rw [if_neg (by omega)]
    rcases hr with h | h <;> rw [h, he] <;>
      simp [decimal_value _ hb.1 hb.2]
  rw [e]
  constructor
  · intro h; exact hs.mp (Option.some.inj h)
  · intro h; rw [hs.mpr h]

/-- A type of integers with a range from zero: which values are shown. -/
theorem int_unsigned_type (hi v : Int) (h0 : 0 ≤ v) (hv : v ≤ hi) (hhi : 1 < hi)
    (hmax : hi < 2 ^ 63) (fl : Flags) (hr : fl.radix = .dflt ∨ fl.radix = .dec)
    (he : fl.encode = false) :
    let n := Wave.bytesFor (Wave.bitsForRange 0 hi)
    ((intPrinter n (Wave.stored n v) fl).map intOf = some v ↔
      ¬ ((hi ≤ 255 ∧ 128 ≤ v) ∨ (255 < hi ∧ hi ≤ 65535 ∧ 32768 ≤ v) ∨
        (65535 < hi ∧ hi ≤ 4294967295 ∧ 2147483648 ≤ v))) := by
  intro n
  have key : ∀ m : Nat, (m = 1 ∨ m = 2 ∨ m = 4 ∨ m = 8) → v < (2 ^ (8 * m) : Nat) →
      ((intPrinter m (Wave.stored m v) fl).map intOf = some v ↔ v < (2 ^ (8 * m - 1) : Nat)) :=
    fun m hm hlt => int_decimal_iff m hm v
      (Int.le_trans (Int.neg_nonpos_of_nonneg (Int.natCast_nonneg _)) h0) hlt fl hr he
  by_cases a : hi ≤ 255
  · have hn : n = 1 := by
      show Wave.bytesFor (Wave.bitsForRange 0 hi) = 1
      unfold Wave.bytesFor Wave.bitsForRange
      rw [if_neg (by omega), if_neg (by omega), if_neg (by omega), if_pos a]
    rw [hn, key 1 (by omega) (by omega)]; omega
  · by_cases b : hi ≤ 65535
    · have hn : n = 2 := by
        show Wave.bytesFor (Wave.bitsForRange 0 hi) = 2
        unfold Wave.bytesFor Wave.bitsForRange
        rw [if_neg (by omega), if_neg (by omega), if_neg (by omega), if_neg a, if_pos b]
      rw [hn, key 2 (by omega) (by omega)]; omega
    · by_cases c : hi ≤ 4294967295
      · have hn : n = 4 := by
          show Wave.bytesFor (Wave.bitsForRange 0 hi) = 4
          unfold Wave.bytesFor Wave.bitsForRange
          rw [if_neg (by omega), if_neg (by omega), if_neg (by omega), if_neg a, if_neg b,
            if_pos c]
        rw [hn, key 4 (by omega) (by omega)]; omega
      · have hn : n = 8 := by
          show Wave.bytesFor (Wave.bitsForRange 0 hi) = 8
          unfold Wave.bytesFor Wave.bitsForRange
          rw [if_neg (by omega), if_neg (by omega), if_neg (by omega), if_neg a, if_neg b,
            if_neg c]
        rw [hn, key 8 (by omega) (by omega)]; omega

/-- A type of integers with a negative bound: all values are shown. -/
theorem int_signed_type (lo hi v : Int) (hlo : lo < 0) (h0 : lo ≤ v) (hv : v ≤ hi)
    (hmin : -(2 ^ 63) ≤ lo) (hmax : hi < 2 ^ 63) (fl : Flags)
    (hr : fl.radix = .dflt ∨ fl.radix = .dec) (he : fl.encode = false) :
    let n := Wave.bytesFor (Wave.bitsForRange lo hi)
    (intPrinter n (Wave.stored n v) fl).map intOf = some v := by
  intro n
  have key : ∀ m : Nat, (m = 1 ∨ m = 2 ∨ m = 4 ∨ m = 8) → -(2 ^ (8 * m - 1) : Nat) ≤ v →
      v < (2 ^ (8 * m - 1) : Nat) → (intPrinter m (Wave.stored m v) fl).map intOf = some v := by
    intro m hm hl hu
    refine (int_decimal_iff m hm v hl ?_ fl hr he).mpr hu
    have : 2 ^ (8 * m - 1) ≤ 2 ^ (8 * m) := Nat.pow_le_pow_right (by omega) (by omega)
    omega
  by_cases a : lo ≥ -128 ∧ hi ≤ 127
  · have hn : n = 1 := by
      show Wave.bytesFor (Wave.bitsForRange lo hi) = 1
      unfold Wave.bytesFor Wave.bitsForRange
      rw [if_neg (by omega), if_pos hlo, if_pos a]
    rw [hn]; exact key 1 (by omega) (by omega) (by omega)
  · by_cases b : lo ≥ -32768 ∧ hi ≤ 32767
    · have hn : n = 2 := by
        show Wave.bytesFor (Wave.bitsForRange lo hi) = 2
        unfold Wave.bytesFor Wave.bitsForRange
        rw [if_neg (by omega), if_pos hlo, if_neg a, if_pos b]
      rw [hn]; exact key 2 (by omega) (by omega) (by omega)
    · by_cases c : lo ≥ -2147483648 ∧ hi ≤ 2147483647
      · have hn : n = 4 := by
          show Wave.bytesFor (Wave.bitsForRange lo hi) = 4
          unfold Wave.bytesFor Wave.bitsForRange
          rw [if_neg (by omega), if_pos hlo, if_neg a, if_neg b, if_pos c]
        rw [hn]; exact key 4 (by omega) (by omega) (by omega)
      · have hn : n = 8 := by
          show Wave.bytesFor (Wave.bitsForRange lo hi) = 8
          unfold Wave.bytesFor Wave.bitsForRange
          rw [if_neg (by omega), if_pos hlo, if_neg a, if_neg b, if_neg c]
        rw [hn]; exact key 8 (by omega) (by omega) (by omega)

/-- `type byte is range 0 to 255`: 200 is shown as -56. -/
theorem int_byte_counterexample :
    intPrinter (Wave.bytesFor (Wave.bitsForRange 0 255)) (Wave.stored 1 200) ⟨.dflt, false⟩ =
      some [45, 53, 54] := by decide +kernel

/-- In binary and in hexadecimal the bits stored are shown, for any value. -/
theorem int_bits (n : Nat) (hn : n = 1 ∨ n = 2 ∨ n = 4 ∨ n = 8) (u : Nat)
    (hu : u < 2 ^ (8 * n)) :
    (∃ t : Text, intPrinter n u ⟨.bin, false⟩ = some t ∧ t.length = 8 * n ∧ valueOf 2 t = u) ∧
    (∃ t : Text, intPrinter n u ⟨.hex, false⟩ = some (48 :: 120 :: t) ∧ valueOf 16 t = u) := by
  constructor
  · refine ⟨binary u (n * 8), ?_, ?_, ?_⟩
    · simp [intPrinter]; omega
    · rw [binary_length]; omega
    · exact binary_value u (n * 8) (by rw [Nat.mul_comm]; exact hu)
  · refine ⟨digits 16 16 u, ?_, ?_⟩
    · simp [intPrinter]; omega
    · apply digits_value 16 (by omega) (by omega)
      rcases hn with h | h | h | h <;> subst h <;> omega

/-- Encoding puts one letter before the text. -/
theorem int_encode (n u : Nat) (r : Radix) :
    intPrinter n u ⟨r, true⟩ = (intPrinter n u ⟨r, false⟩).map fun t => 105 :: t := by
  unfold intPrinter
  split
  · rfl
  · cases r <;> rfl

/-- A physical value is shown as its number of primary units and the name of
the unit, whatever the radix. -/
theorem phys_shown (unit : Text) (n u : Nat) (r : Radix)
    (hn : n = 1 ∨ n = 2 ∨ n = 4 ∨ n = 8) :
    physPrinter unit n u ⟨r, false⟩ = some (decimal (signed n u) ++ 32 :: unit) ∧
    physPrinter unit n u ⟨r, true⟩ = some (112 :: (decimal (signed n u) ++ 32 :: unit)) := by
  constructor <;> · simp [physPrinter, intPrinter]; omega

example : intPrinter 4 (Wave.stored 4 (-12)) ⟨.dflt, false⟩ = some [45, 49, 50] := by
  decide +kernel
example : ∃ v : Int, -(2 ^ 31) ≤ v ∧ v < 2 ^ 31 ∧ intOf (decimal v) = v := ⟨-5, by decide +kernel⟩

/-! ## Strings -/

/-- Text of printable characters as a string literal: it says the string
exactly if there is no quote in it. -/
theorem body_plain (vs : List Nat) (h : 34 ∉ vs) : body (vs ++ [34]) = some vs := by
  induction vs with
  | nil => rfl
  | cons c t ih =>
    have hc : c ≠ 34 := fun e => h (by rw [e]; exact List.mem_cons_self)
    have ht := ih fun m => h (List.mem_cons_of_mem _ m)
    rw [List.cons_append]
    unfold body
    split
    · rename_i e; injection e
    · rename_i e; injection e with e1; exact absurd e1 hc
    · rename_i e; injection e with e1; exact absurd e1 hc
    · rename_i e; injection e with e1; exact absurd e1 hc
    · rename_i c2 t2 _ _ _ e
      injection e with e1 e2
      rw [← e1, ← e2, ht]; rfl

theorem body_len (t vs : Text) (h : body t = some vs) (q : 34 ∈ vs) : vs.length + 1 < t.length := by
  have gen : ∀ (t vs : Text), body t = some vs → vs.length + 1 ≤ t.length ∧
      (34 ∈ vs → vs.length + 1 < t.length) := by
    intro t
    induction t using body.induct with
    | case1 => intro vs h; cases h
    | case2 => intro vs h; rw [body] at h; cases h; simp
    | case3 t ih =>
      intro vs h
      rw [body] at h
      cases hb : body t with
      | none => rw [hb] at h; cases h
      | some r =>
        rw [hb] at h; cases h
        have := (ih r hb).1
        simp; omega
    | case4 t h1 h2 => intro vs h; rw [body] at h; · cases h
                       all_goals assumption
    | case5 c t h1 h2 h3 ih =>
      intro vs h
      rw [body] at h
      · cases hb : body t with
        | none => rw [hb] at h; cases h
        | some r =>
          rw [hb] at h; cases h
          have := ih r hb
          simp
          refine ⟨by omega, fun m => ?_⟩
          rcases m with m | m
          · first | exact absurd m.symm h3 | exact absurd rfl (h3 m.symm) | omega
          · have := this.2 m; omega
      all_goals assumption
  exact (gen t vs h).2 q

/-- A string of printable characters is shown as a literal that says it
exactly if there is no quote in it. -/
theorem string_shown_iff (chars : List Text) (vs : List Nat) (hp : vs.all isPrint = true)
    (r : Radix) :
    ∃ t : Text, stringPrinter chars vs ⟨r, false⟩ = some t ∧
      (stringOf t = some vs ↔ 34 ∉ vs) := by
  refine ⟨34 :: vs ++ [34], by simp [stringPrinter, hp, quoted], ?_⟩
  show body (vs ++ [34]) = some vs ↔ 34 ∉ vs
  constructor
  · intro h q
    have := body_len _ _ h q
    simp at this
  · exact body_plain vs

/-- With encoding the text after the letter is the string. -/
theorem string_encoded (chars : List Text) (vs : List Nat) (hp : vs.all isPrint = true)
    (r : Radix) : stringPrinter chars vs ⟨r, true⟩ = some (83 :: vs) := by
  simp [stringPrinter, hp, quoted]

/-- The string of the characters `a"` is shown as `"a""`, which is not a
literal. -/
theorem string_quote_counterexample :
    stringPrinter [] [97, 34] ⟨.dflt, false⟩ = some [34, 97, 34, 34] ∧
    stringOf [34, 97, 34, 34] = none := by decide +kernel

/-! ## Logic values -/

theorem logic_inj (v w : Nat) (fl : Flags) (t : Text) (hv : logicPrinter v fl = some t)
    (hw : logicPrinter w fl = some t) : v = w := by
  have hb : ∀ x : Nat, logicPrinter x fl = some t → x < 9 := by
    intro x hx
    unfold logicPrinter at hx
    by_cases h : x < 9
    · exact h
    · rw [List.getElem?_eq_none (show stdLogicMap.length ≤ x by show 9 ≤ x; omega)] at hx
      cases hx
  have all : ∀ (e : Bool) (a b : Fin 9), logicPrinter a.val ⟨.dflt, e⟩ =
      logicPrinter b.val ⟨.dflt, e⟩ → a = b := by decide +kernel
  have hr : ∀ x : Nat, logicPrinter x fl = logicPrinter x ⟨.dflt, fl.encode⟩ := fun _ => rfl
  have := all fl.encode ⟨v, hb v hv⟩ ⟨w, hb w hw⟩ (by rw [← hr, ← hr, hv, hw])
  exact congrArg Fin.val this

/-- Values of STD_ULOGIC are shown, all nine of them. -/
theorem logic_shown (v : Nat) (fl : Flags) : (logicPrinter v fl).isSome = true ↔ v < 9 := by
  unfold logicPrinter
  rw [Option.isSome_map]
  by_cases h : v < 9
  · rw [List.getElem?_eq_getElem (show v < stdLogicMap.length from h)]; simp [h]
  · rw [List.getElem?_eq_none (show stdLogicMap.length ≤ v by show 9 ≤ v; omega)]; simp [h]

theorem mapM_inj {α β : Type} (f : α → Option β)
    (hf : ∀ (a b : α) (c : β), f a = some c → f b = some c → a = b)
    (l l' : List α) (r : List β) (h : l.mapM f = some r) (h' : l'.mapM f = some r) : l = l' := by
  induction l generalizing l' r with
  | nil =>
    cases l' with
    | nil => rfl
    | cons b l' =>
      simp [List.mapM_cons] at h h'
      cases hb : f b with
      | none => rw [hb] at h'; simp at h'
      | some c =>
        rw [hb] at h'
        cases hm : l'.mapM f with
        | none => rw [hm] at h'; simp at h'
        | some r' => rw [hm] at h'; subst h; simp at h'
  | cons a l ih =>
    rw [List.mapM_cons] at h
    cases ha : f a with
    | none => rw [ha] at h; cases h
    | some c =>
      cases hm : l.mapM f with
      | none => rw [ha, hm] at h; cases h
      | some r' =>
        rw [ha, hm] at h
        cases h
        cases l' with
        | nil => cases h'
        | cons b l' =>
          rw [List.mapM_cons] at h'
          cases hb : f b with
          | none => rw [hb] at h'; cases h'
          | some c' =>
            cases hm' : l'.mapM f with
            | none => rw [hb, hm'] at h'; cases h'
            | some r'' =>
              rw [hb, hm'] at h'
              injection h' with h'
              injection h' with h1 h2
              rw [hf a b c ha (by rw [hb, h1]), ih l' r' hm (by rw [hm', h2])]

theorem quoted_inj (fl : Flags) (e : Nat) (a b : Text) (h : quoted fl e a = quoted fl e b) :
    a = b := by
  unfold quoted at h
  split at h
  · exact (List.cons.inj h).2
  · exact List.append_cancel_right (List.cons.inj h).2

/-- The text of a vector of STD_ULOGIC determines the vector. -/
theorem logic_vector_inj (vs ws : List Nat) (fl : Flags) (t : Text)
    (hv : logicVecPrinter vs fl = some t) (hw : logicVecPrinter ws fl = some t) : vs = ws := by
  unfold logicVecPrinter at hv hw
  cases h1 : vs.mapM fun v => stdLogicMap[v]? with
  | none => rw [h1] at hv; cases hv
  | some a =>
    cases h2 : ws.mapM fun v => stdLogicMap[v]? with
    | none => rw [h2] at hw; cases hw
    | some b =>
      rw [h1] at hv; rw [h2] at hw
      have e : a = b := quoted_inj fl 76 a b
        ((Option.some.inj hv).trans (Option.some.inj hw).symm)
      refine mapM_inj _ ?_ vs ws a h1 (by rw [h2, e])
      intro x y c hx hy
      exact logic_inj x y ⟨.dflt, true⟩ [108, c] (by simp [logicPrinter, hx])
        (by simp [logicPrinter, hy])

/-- The text of a vector of bits determines the vector. -/
theorem bit_vector_inj (vs ws : List Nat) (fl : Flags) (hv : ∀ v ∈ vs, v < 2)
    (hw : ∀ v ∈ ws, v < 2) (h : bitVecPrinter vs fl = bitVecPrinter ws fl) : vs = ws := by
  have e := quoted_inj _ _ _ _ h
  clear h
  induction vs generalizing ws with
  | nil => cases ws with
    | nil => rfl
    | cons _ _ => cases e
  | cons a l ih =>
    cases ws with
    | nil => cases e
    | cons b l' =>
      rw [List.map_cons, List.map_cons] at e
      injection e with e1 e2
      have ha := hv a List.mem_cons_self
      have hb := hw b List.mem_cons_self
      rw [ih l' (fun v m => hv v (List.mem_cons_of_mem _ m))
        (fun v m => hw v (List.mem_cons_of_mem _ m)) e2]
      have : a = b := by
        by_cases x : a = 0
        · by_cases y : b = 0
          · omega
          · simp [x, y] at e1
        · by_cases y : b = 0
          · simp [x, y] at e1
          · omega
      rw [this]

/-! ## Enumerations -/

/-- A literal is shown by its name; the type must have at most 256 literals,
so that it is stored in one byte. -/
theorem enum_shown (lits : List Text) (v : Nat) (h : v < lits.length) (r : Radix) :
    enumPrinter lits 1 v ⟨r, false⟩ = some lits[v] ∧
    enumPrinter lits 1 v ⟨r, true⟩ = some (101 :: lits[v]) := by
  simp [enumPrinter, List.getElem?_eq_getElem h]

/-- A type with more than 256 literals is stored in two bytes, and the
assertion fails. -/
theorem enum_large_counterexample (lits : List Text) (v : Nat) (fl : Flags)
    (h : 256 < lits.length) (h2 : lits.length ≤ 65536) :
    enumPrinter lits (Wave.bytesFor (Wave.bitsForRange 0 ((lits.length : Int) - 1))) v fl =
      none := by
  have hn : Wave.bytesFor (Wave.bitsForRange 0 ((lits.length : Int) - 1)) = 2 := by
    unfold Wave.bytesFor Wave.bitsForRange
    rw [if_neg (by omega), if_neg (by omega), if_neg (by omega), if_neg (by omega),
      if_pos (by omega)]
  rw [hn]; simp [enumPrinter]

theorem sep_split (l l' r r' : Text) (hl : clean l = true) (hl' : clean l' = true)
    (h : l ++ 44 :: 32 :: r = l' ++ 44 :: 32 :: r') : l = l' ∧ r = r' := by
  induction l generalizing l' with
  | nil =>
    cases l' with
    | nil => simp at h; exact ⟨rfl, h⟩
    | cons c t =>
      rw [List.nil_append, List.cons_append] at h
      injection h with h1 h2
      subst h1
      cases t with
      | nil => simp [clean] at hl'
      | cons d t =>
        rw [List.cons_append] at h2
        injection h2 with h3 h4
        subst h3; simp [clean] at hl'
  | cons c t ih =>
    cases l' with
    | nil =>
      rw [List.nil_append, List.cons_append] at h
      injection h with h1 h2
      subst h1
      cases t with
      | nil => simp [clean] at hl
      | cons d t =>
        rw [List.cons_append] at h2
        injection h2 with h3 h4
        subst h3; simp [clean] at hl
    | cons c' t' =>
      rw [List.cons_append, List.cons_append] at h
      injection h with h1 h2
      have tl : ∀ (a : Nat) (s : Text), clean (a :: s) = true → clean s = true := by
        intro a s hs
        cases s with
        | nil => rfl
        | cons d s => simp [clean] at hs ⊢; exact hs.2
      obtain ⟨e1, e2⟩ := ih t' (tl _ _ hl) (tl _ _ hl') h2
      exact ⟨by rw [h1, e1], e2⟩

theorem sep_last (l l' r : Text) (hl : clean l = true) :
    l ++ [41] ≠ l' ++ 44 :: 32 :: r := by
  induction l generalizing l' with
  | nil =>
    intro h
    cases l' with
    | nil => simp at h
    | cons c t =>
      rw [List.nil_append, List.cons_append] at h
      injection h with _ h
      cases t <;> cases h
  | cons c t ih =>
    intro h
    cases l' with
    | nil =>
      rw [List.nil_append, List.cons_append] at h
      injection h with h1 h2
      subst h1
      cases t with
      | nil => simp [clean] at hl
      | cons d t =>
        rw [List.cons_append] at h2
        injection h2 with h3 _
        subst h3; simp [clean] at hl
    | cons c' t' =>
      rw [List.cons_append, List.cons_append] at h
      injection h with _ h2
      refine ih t' ?_ h2
      cases t with
      | nil => rfl
      | cons d s => simp [clean] at hl ⊢; exact hl.2

theorem commas_cons (a b : Text) (l : List Text) :
    commas (a :: b :: l) ++ [41] = a ++ 44 :: 32 :: (commas (b :: l) ++ [41]) := by
  simp [commas]

theorem commas_inj (l l' : List Text) (hl : ∀ t ∈ l, clean t = true ∧ t ≠ [])
    (hl' : ∀ t ∈ l', clean t = true ∧ t ≠ [])
    (h : commas l ++ [41] = commas l' ++ [41]) : l = l' := by
  induction l generalizing l' with
  | nil =>
    cases l' with
    | nil => rfl
    | cons a m =>
      have ha := (hl' a List.mem_cons_self).2
      have e := List.append_cancel_right h
      cases a with
      | nil => exact absurd rfl ha
      | cons c s => cases m <;> simp [commas] at e
  | cons a m ih =>
    cases l' with
    | nil =>
      have ha := (hl a List.mem_cons_self).2
      have e := List.append_cancel_right h
      cases a with
      | nil => exact absurd rfl ha
      | cons c s => cases m <;> simp [commas] at e
    | cons b m' =>
      have ca := (hl a List.mem_cons_self).1
      have cb := (hl' b List.mem_cons_self).1
      cases m with
      | nil =>
        cases m' with
        | nil => rw [show a = b from List.append_cancel_right h]
        | cons b2 m' =>
          rw [commas_cons] at h
          exact absurd h (sep_last a b _ ca)
      | cons a2 m =>
        cases m' with
        | nil =>
          rw [commas_cons] at h
          exact absurd h.symm (sep_last b a _ cb)
        | cons b2 m' =>
          rw [commas_cons, commas_cons] at h
          obtain ⟨e1, e2⟩ := sep_split a b _ _ ca cb h
          rw [e1, ih (b2 :: m') (fun t ht => hl t (List.mem_cons_of_mem _ ht))
            (fun t ht => hl' t (List.mem_cons_of_mem _ ht)) e2]

theorem mapM_mem {α β : Type} (f : α → Option β) (l : List α) (r : List β)
    (h : l.mapM f = some r) : ∀ b ∈ r, ∃ a ∈ l, f a = some b := by
  induction l generalizing r with
  | nil => cases h; intro b hb; cases hb
  | cons a l ih =>
    rw [List.mapM_cons] at h
    cases ha : f a with
    | none => rw [ha] at h; cases h
    | some c =>
      cases hm : l.mapM f with
      | none => rw [ha, hm] at h; cases h
      | some r' =>
        rw [ha, hm] at h
        cases h
        intro b hb
        rcases List.mem_cons.mp hb with e | e
        · exact ⟨a, List.mem_cons_self, by rw [e, ha]⟩
        · obtain ⟨x, hx, hf⟩ := ih r' hm b e
          exact ⟨x, List.mem_cons_of_mem _ hx, hf⟩

/-- The text of a vector of an enumeration determines the vector if the
literals are distinct and the separator is not found in any of them. -/
theorem enum_vector_inj (lits : List Text) (hd : lits.Nodup)
    (hc : ∀ t ∈ lits, clean t = true ∧ t ≠ []) (fl : Flags) (vs ws : List Nat) (t : Text)
    (hv : enumVecPrinter (fun v => enumPrinter lits 1 v ⟨fl.radix, false⟩) vs fl = some t)
    (hw : enumVecPrinter (fun v => enumPrinter lits 1 v ⟨fl.radix, false⟩) ws fl = some t) :
    vs = ws := by
  have he : ∀ v : Nat, enumPrinter lits 1 v ⟨fl.radix, false⟩ = lits[v]? := by
    intro v; simp [enumPrinter]
  simp only [he] at hv hw
  unfold enumVecPrinter at hv hw
  cases h1 : vs.mapM fun v => lits[v]? with
  | none => rw [h1] at hv; cases hv
  | some a =>
    cases h2 : ws.mapM fun v => lits[v]? with
    | none => rw [h2] at hw; cases hw
    | some b =>
      rw [h1] at hv; rw [h2] at hw
      have e := (Option.some.inj hv).trans (Option.some.inj hw).symm
      simp only [List.append_assoc] at e
      have e2 : commas a ++ [41] = commas b ++ [41] :=
        List.append_cancel_left (List.append_cancel_left e)
      have mem : ∀ (us : List Nat) (r : List Text), (us.mapM fun v => lits[v]?) = some r →
          ∀ x ∈ r, clean x = true ∧ x ≠ [] := by
        intro us r hr x hx
        obtain ⟨i, _, hi⟩ := mapM_mem _ us r hr x hx
        exact hc x (List.mem_of_getElem? hi)
      have eab := commas_inj a b (mem vs a h1) (mem ws b h2) e2
      refine mapM_inj _ ?_ vs ws a h1 (by rw [h2, eab])
      intro x y c hx hy
      obtain ⟨lx, _⟩ := List.getElem?_eq_some_iff.mp hx
      exact (List.getElem?_inj lx hd).mp (hx.trans hy.symm)

example : enumVecPrinter (fun v => enumPrinter [[39, 44, 39], [78, 85, 76]] 1 v ⟨.dflt, false⟩)
    [0, 1] ⟨.dflt, false⟩ = some [40, 39, 44, 39, 44, 32, 78, 85, 76, 41] ∧
    clean [39, 44, 39] = true := by decide +kernel

/-! ## Bits and strings that are not printable -/

theorem bit_shown (fl : Flags) :
    bitPrinter 0 fl = (if fl.encode then [98, 48] else [39, 48, 39]) ∧
    bitPrinter 1 fl = (if fl.encode then [98, 49] else [39, 49, 39]) := ⟨rfl, rfl⟩

/-- The text of a vector of bits. -/
theorem bit_vector_shown (vs : List Nat) (fl : Flags) (h : ∀ v ∈ vs, v < 2) :
    bitVecPrinter vs fl =
      if fl.encode then 66 :: vs.map (48 + ·) else 34 :: vs.map (48 + ·) ++ [34] := by
  have e : (vs.map fun v => if v = 0 then 48 else 49) = vs.map (48 + ·) := by
    apply List.map_congr_left
    intro v hv
    have := h v hv
    show (if v = 0 then 48 else 49) = 48 + v
    split <;> omega
  unfold bitVecPrinter quoted
  rw [e]

/-- The nine values of STD_ULOGIC by their names. -/
theorem logic_names : (List.range 9).map (fun v => logicPrinter v ⟨.dflt, false⟩) =
    ['U', 'X', '0', '1', 'Z', 'W', 'L', 'H', '-'].map fun c => some [39, c.toNat, 39] := by
  decide +kernel

/-- The text of a vector of STD_ULOGIC: the names of its elements in order. -/
theorem logic_vector_shown (vs : List Nat) (h : ∀ v ∈ vs, v < 9) :
    logicVecPrinter vs ⟨.dflt, false⟩ =
      some (34 :: vs.map (fun v => (stdLogicMap[v]?).getD 0) ++ [34]) := by
  have hm : ∀ us : List Nat, (∀ v ∈ us, v < 9) →
      (us.mapM fun v => stdLogicMap[v]?) = some (us.map fun v => (stdLogicMap[v]?).getD 0) := by
    intro us
    induction us with
    | nil => intro _; rfl
    | cons a l ih =>
      intro h
      have hv : a < stdLogicMap.length := h a List.mem_cons_self
      rw [List.mapM_cons, ih fun v m => h v (List.mem_cons_of_mem _ m)]
      simp [List.getElem?_eq_getElem hv]
  unfold logicVecPrinter
  rw [hm vs h]
  rfl

/-- The printable characters of ISO 8859-1 are those that are not control
characters: 0 to 31 and 127 to 159. -/
theorem is_print_iff (c : Nat) (h : c < 256) :
    isPrint c = true ↔ ¬ (c < 32 ∨ (127 ≤ c ∧ c < 160)) := by
  simp [isPrint]; omega

/-- The text of any string, printable or not, determines the string, if the
names of the characters are distinct and without the separator. -/
theorem string_inj (chars : List Text) (hd : chars.Nodup)
    (hc : ∀ t ∈ chars, clean t = true ∧ t ≠ []) (fl : Flags) (vs ws : List Nat) (t : Text)
    (hv : stringPrinter chars vs fl = some t) (hw : stringPrinter chars ws fl = some t) :
    vs = ws := by
  have mixed : ∀ us xs : List Nat, some (quoted fl 83 us) = some t →
      enumVecPrinter (fun v => enumPrinter chars 1 v ⟨fl.radix, false⟩) xs fl = some t →
      False := by
    intro us xs h1 h2
    unfold enumVecPrinter at h2
    cases hm : xs.mapM fun v => enumPrinter chars 1 v ⟨fl.radix, false⟩ with
    | none => rw [hm] at h2; cases h2
    | some r =>
      rw [hm] at h2
      have e := (Option.some.inj h1).trans (Option.some.inj h2).symm
      unfold quoted at e
      cases he : fl.encode <;> simp [he] at e
  unfold stringPrinter at hv hw
  by_cases pv : vs.all isPrint = true
  · by_cases pw : ws.all isPrint = true
    · rw [if_pos pv] at hv; rw [if_pos pw] at hw
      exact quoted_inj _ _ _ _ ((Option.some.inj hv).trans (Option.some.inj hw).symm)
    · rw [if_pos pv] at hv; rw [if_neg pw] at hw
      exact (mixed vs ws hv hw).elim
  · by_cases pw : ws.all isPrint = true
    · rw [if_neg pv] at hv; rw [if_pos pw] at hw
      exact (mixed ws vs hw hv).elim
    · rw [if_neg pv] at hv; rw [if_neg pw] at hw
      exact enum_vector_inj chars hd hc fl vs ws t hv hw

/-- A string with a character that is not printable is shown as the list of
the names of its characters. -/
theorem string_unprintable (chars : List Text) (vs : List Nat) (c : Nat) (hc : c ∈ vs)
    (hp : isPrint c = false) (hl : ∀ v ∈ vs, v < chars.length) (r : Radix) :
    stringPrinter chars vs ⟨r, false⟩ =
      some (40 :: commas (vs.map fun v => (chars[v]?).getD []) ++ [41]) := by
  have ha : ¬ vs.all isPrint = true := by
    intro h
    have := List.all_eq_true.mp h c hc
    rw [hp] at this; cases this
  have hm : ∀ us : List Nat, (∀ v ∈ us, v < chars.length) →
      (us.mapM fun v => enumPrinter chars 1 v ⟨r, false⟩) =
        some (us.map fun v => (chars[v]?).getD []) := by
    intro us
    induction us with
    | nil => intro _; rfl
    | cons a l ih =>
      intro h
      have hv := h a List.mem_cons_self
      rw [List.mapM_cons, (enum_shown chars a hv r).1,
        ih fun v m => h v (List.mem_cons_of_mem _ m)]
      simp [List.getElem?_eq_getElem hv]
  unfold stringPrinter
  rw [if_neg ha]
  unfold enumVecPrinter
  simp only
  rw [hm vs hl]
  rfl

end Verif.Printer
