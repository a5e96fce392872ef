import Verif.Numeric.Model

/-! Specification of vector values, and lemmas about the helpers. -/

namespace Verif.Numeric

/-! ## Specification -/

/-- The binary digit that an element stands for: '0' and 'L', '1' and 'H'. -/
def digit (b : Nat) : Option Nat :=
  if b = 2 ∨ b = 6 then some 0 else if b = 3 ∨ b = 7 then some 1 else none

/-- The natural number a vector stands for, if it has no metavalue. -/
def uval : Vec → Option Nat
  | [] => some 0
  | b :: v =>
    match digit b, uval v with
    | some d, some n => some (d * 2 ^ v.length + n)
    | _, _ => none

/-- The number a vector stands for in two's complement. -/
def sval : Vec → Option Int
  | [] => some 0
  | b :: v =>
    match digit b, uval v with
    | some d, some n => some ((n : Int) - d * 2 ^ v.length)
    | _, _ => none

/-- The vector of length `n` for a number, with '0' and '1'. -/
def enc : Nat → Nat → Vec
  | 0, _ => []
  | n + 1, v => (2 + v / 2 ^ n % 2) :: enc n v

/-- Elements of type `std_ulogic`. -/
def Valid (v : Vec) : Prop := ∀ b ∈ v, b < 9

/-! ## Vectors of '0' and '1' -/

def Bits (v : Vec) : Prop := ∀ b ∈ v, b = 2 ∨ b = 3

def val : Vec → Nat
  | [] => 0
  | b :: v => b % 2 * 2 ^ v.length + val v

theorem val_lt (v : Vec) : val v < 2 ^ v.length := by
  induction v with
  | nil => simp [val]
  | cons b v ih =>
    simp only [val, List.length_cons, Nat.pow_succ]
    have : b % 2 < 2 := Nat.mod_lt _ (by omega)
    rcases (by omega : b % 2 = 0 ∨ b % 2 = 1) with h | h <;> rw [h] <;> omega

theorem val_append (a b : Vec) : val (a ++ b) = val a * 2 ^ b.length + val b := by
  induction a with
  | nil => simp [val]
  | cons x a ih =>
    simp only [List.cons_append, val, ih, List.length_append, Nat.pow_add]
    grind

theorem Bits.append {a b : Vec} (ha : Bits a) (hb : Bits b) : Bits (a ++ b) := by
  intro x hx
  rcases List.mem_append.1 hx with h | h
  · exact ha x h
  · exact hb x h

theorem Bits.replicate (n : Nat) (b : Nat) (hb : b = 2 ∨ b = 3) : Bits (List.replicate n b) := by
  intro x hx
  rw [(List.mem_replicate.1 hx).2]; exact hb

theorem Bits.drop {a : Vec} (ha : Bits a) (n : Nat) : Bits (a.drop n) :=
  fun x hx => ha x (List.mem_of_mem_drop hx)

theorem val_replicate2 (n : Nat) : val (List.replicate n 2) = 0 := by
  induction n with
  | zero => rfl
  | succ n ih => simp [List.replicate_succ, val, ih]

theorem val_replicate3 (n : Nat) : val (List.replicate n 3) = 2 ^ n - 1 := by
  induction n with
  | zero => rfl
  | succ n ih =>
    simp [List.replicate_succ, val, ih, Nat.pow_succ]
    have := Nat.two_pow_pos n
    omega

theorem enc_length (n v : Nat) : (enc n v).length = n := by
  induction n with
  | zero => rfl
  | succ n ih => simp [enc, ih]

theorem enc_bits (n v : Nat) : Bits (enc n v) := by
  induction n with
  | zero => intro b hb; simp [enc] at hb
  | succ n ih =>
    intro b hb
    rcases List.mem_cons.1 hb with rfl | hb
    · omega
    · exact ih b hb

theorem enc_val (n v : Nat) : val (enc n v) = v % 2 ^ n := by
  induction n with
  | zero => simp [enc, val, Nat.mod_one]
  | succ n ih =>
    simp only [enc, val, enc_length, ih]
    have h1 : (2 + v / 2 ^ n % 2) % 2 = v / 2 ^ n % 2 := by omega
    rw [h1, Nat.pow_succ, Nat.mod_mul]
    rw [Nat.mul_comm]; omega

theorem bits_ext (a b : Vec) (hl : a.length = b.length) (ha : Bits a) (hb : Bits b)
    (h : val a = val b) : a = b := by
  induction a generalizing b with
  | nil => cases b with | nil => rfl | cons => simp at hl
  | cons x a ih =>
    cases b with
    | nil => simp at hl
    | cons y b =>
      have hl' : a.length = b.length := by simpa using hl
      simp only [val, hl'] at h
      have l1 := val_lt a
      have l2 := val_lt b
      rw [hl'] at l1
      have hx := ha x (by simp)
      have hy := hb y (by simp)
      have hxy : x = y ∧ val a = val b := by
        rcases hx with rfl | rfl <;> rcases hy with rfl | rfl <;> simp at h ⊢ <;> omega
      rw [hxy.1, ih b hl' (fun z hz => ha z (by simp [hz])) (fun z hz => hb z (by simp [hz])) hxy.2]

/-- A bit vector is the encoding of any number congruent to its value. -/
theorem eq_enc (a : Vec) (n v : Nat) (hl : a.length = n) (ha : Bits a) (h : val a = v % 2 ^ n) :
    a = enc n v :=
  bits_ext a _ (by rw [enc_length, hl]) ha (enc_bits n v) (by rw [enc_val, h])

theorem uval_bits (v : Vec) (h : Bits v) : uval v = some (val v) := by
  induction v with
  | nil => rfl
  | cons b v ih =>
    rw [uval, ih (fun x hx => h x (by simp [hx])), val]
    rcases h b (by simp) with rfl | rfl <;> simp [digit]

theorem uval_enc (n v : Nat) : uval (enc n v) = some (v % 2 ^ n) := by
  rw [uval_bits _ (enc_bits n v), enc_val]

theorem uval_lt (v : Vec) (n : Nat) (h : uval v = some n) : n < 2 ^ v.length := by
  induction v generalizing n with
  | nil => simp [uval] at h; simp; omega
  | cons b v ih =>
    unfold uval at h
    cases hd : digit b with
    | none => simp [hd] at h
    | some d =>
      cases hu : uval v with
      | none => simp [hd, hu] at h
      | some m =>
        simp only [hd, hu, Option.some.injEq] at h
        have := ih m hu
        have hd' : d = 0 ∨ d = 1 := by
          unfold digit at hd
          split at hd
          · simp at hd; omega
          · split at hd <;> simp at hd; omega
        rw [List.length_cons, Nat.pow_succ]
        rcases hd' with rfl | rfl <;> omega

/-! ## Loads and masks -/

theorem and_split (a x m y : Nat) (ha : a < 256) (hm : m < 256) :
    (a + 256 * x) &&& (m + 256 * y) = (a &&& m) + 256 * (x &&& y) := by
  have e1 : a + 256 * x = x <<< 8 + a := by rw [Nat.shiftLeft_eq]; omega
  have e2 : m + 256 * y = y <<< 8 + m := by rw [Nat.shiftLeft_eq]; omega
  have e3 : (a &&& m) + 256 * (x &&& y) = (x &&& y) <<< 8 + (a &&& m) := by
    rw [Nat.shiftLeft_eq]; omega
  have ham : (a &&& m) < 2 ^ 8 := Nat.lt_of_le_of_lt Nat.and_le_left ha
  rw [e1, e2, e3, Nat.shiftLeft_add_eq_or_of_lt (by omega : a < 2 ^ 8),
    Nat.shiftLeft_add_eq_or_of_lt (by omega : m < 2 ^ 8), Nat.shiftLeft_add_eq_or_of_lt ham]
  apply Nat.eq_of_testBit_eq
  intro i
  simp only [Nat.testBit_and, Nat.testBit_or, Nat.testBit_shiftLeft]
  by_cases h : i < 8
  · simp [h, Nat.not_le.2 h]
  · have h8 : 2 ^ 8 ≤ 2 ^ i := Nat.pow_le_pow_right (by omega) (by omega)
    have ta : a.testBit i = false := Nat.testBit_lt_two_pow (by omega)
    have tm : m.testBit i = false := Nat.testBit_lt_two_pow (by omega)
    have h9 : 8 ≤ i := by omega
    simp [ta, tm, h9]

theorem load_and (v ms : List Nat) (hl : v.length = ms.length) (hv : ∀ b ∈ v, b < 256)
    (hm : ∀ b ∈ ms, b < 256) : load v &&& load ms = load (List.zipWith (· &&& ·) v ms) := by
  induction v generalizing ms with
  | nil => simp [load]
  | cons b v ih =>
    cases ms with
    | nil => simp at hl
    | cons m ms =>
      simp only [load, List.zipWith_cons_cons]
      rw [and_split _ _ _ _ (hv b (by simp)) (hm m (by simp)),
        ih ms (by simpa using hl) (fun x hx => hv x (by simp [hx])) (fun x hx => hm x (by simp [hx]))]

theorem load_inj (v w : List Nat) (hl : v.length = w.length) (hv : ∀ b ∈ v, b < 256)
    (hw : ∀ b ∈ w, b < 256) (h : load v = load w) : v = w := by
  induction v generalizing w with
  | nil => cases w with | nil => rfl | cons => simp at hl
  | cons b v ih =>
    cases w with
    | nil => simp at hl
    | cons c w =>
      simp only [load] at h
      have h1 := hv b (by simp)
      have h2 := hw c (by simp)
      have : b = c ∧ load v = load w := by omega
      rw [this.1, ih w (by simpa using hl) (fun x hx => hv x (by simp [hx]))
        (fun x hx => hw x (by simp [hx])) this.2]

theorem is01b_iff (b : Nat) (h : b < 9) : is01b b = true ↔ (b = 2 ∨ b = 3) := by
  have : ∀ b : Fin 9, is01b b.1 = true ↔ (b.1 = 2 ∨ b.1 = 3) := by decide
  exact this ⟨b, h⟩

theorem is01w_iff (v : Vec) (hl : v.length = 8) (hv : Valid v) :
    is01w (load v) = true ↔ Bits v := by
  have em : load (List.replicate 8 0x0e) = 0x0e0e0e0e0e0e0e0e := by decide
  have e2 : load (List.replicate 8 2) = 0x0202020202020202 := by decide
  have hv' : ∀ b ∈ v, b < 256 := fun b hb => by have := hv b hb; omega
  unfold is01w
  rw [decide_eq_true_iff, ← em, ← e2,
    load_and v _ (by simp [hl]) hv' (by intro b hb; rw [(List.mem_replicate.1 hb).2]; omega)]
  have ez : List.zipWith (· &&& ·) v (List.replicate 8 0x0e) = v.map (· &&& 0x0e) := by
    rw [← hl]
    clear hl hv hv'
    induction v with
    | nil => rfl
    | cons b v ih => simpa [List.replicate_succ] using ih
  rw [ez]
  constructor
  · intro h b hb
    have hi := load_inj (v.map (· &&& 0x0e)) (List.replicate 8 2) (by simp [hl])
      (by
        intro x hx
        obtain ⟨y, hy, rfl⟩ := List.mem_map.1 hx
        exact Nat.lt_of_le_of_lt Nat.and_le_right (by omega))
      (by intro x hx; rw [(List.mem_replicate.1 hx).2]; omega) h
    have hb2 : (b &&& 0x0e) ∈ v.map (· &&& 0x0e) := List.mem_map_of_mem hb
    rw [hi] at hb2
    have := (List.mem_replicate.1 hb2).2
    exact (is01b_iff b (hv b hb)).1 (by simp [is01b, this])
  · intro h
    congr 1
    rw [← hl]
    clear hl hv hv' ez
    induction v with
    | nil => rfl
    | cons b v ih =>
      rw [List.map_cons, List.length_cons, List.replicate_succ,
        ih (fun x hx => h x (by simp [hx]))]
      rcases h b (by simp) with rfl | rfl <;> rfl

theorem all01_iff (v : Vec) (hv : Valid v) : all01 v = true ↔ Bits v := by
  induction v using all01.induct with
  | case1 v h ih =>
    have hd : Valid (v.drop 8) := fun b hb => hv b (List.mem_of_mem_drop hb)
    have ht : Valid (v.take 8) := fun b hb => hv b (List.mem_of_mem_take hb)
    rw [all01, if_pos h, Bool.and_eq_true, ih hd,
      is01w_iff _ (by simp; omega) ht]
    constructor
    · rintro ⟨h1, h2⟩
      rw [← List.take_append_drop 8 v]
      exact h1.append h2
    · intro hb
      exact ⟨fun b h => hb b (List.mem_of_mem_take h), hb.drop 8⟩
  | case2 v h =>
    rw [all01, if_neg h, List.all_eq_true]
    constructor
    · intro h b hb; exact (is01b_iff b (hv b hb)).1 (h b hb)
    · intro h b hb; exact (is01b_iff b (hv b hb)).2 (h b hb)

/-! ## Conversion to '0' and '1' -/

theorem to01Loop_spec (v : Vec) :
    (∀ n, uval v = some n → (to01Loop v).2 = false ∧ Bits (to01Loop v).1 ∧
      (to01Loop v).1.length = v.length ∧ val (to01Loop v).1 = n) ∧
    (uval v = none → (to01Loop v).2 = true) := by
  induction v with
  | nil =>
    refine ⟨?_, by simp [uval]⟩
    intro n h
    simp [uval] at h
    simp [to01Loop, Bits, val, h]
  | cons b v ih =>
    by_cases h3 : b = 3 ∨ b = 7
    · have h2 : ¬ (b = 2 ∨ b = 6) := by omega
      have hd : digit b = some 1 := by rw [digit, if_neg h2, if_pos h3]
      simp only [uval, hd, to01Loop, if_pos h3]
      cases hu : uval v with
      | none => exact ⟨by simp, fun _ => ih.2 hu⟩
      | some m =>
        obtain ⟨i1, i2, i3, i4⟩ := ih.1 m hu
        refine ⟨?_, by simp⟩
        intro n hn
        simp only [Option.some.injEq] at hn
        refine ⟨i1, ?_, by simp [i3], by simp [val, i3, i4, ← hn]⟩
        intro x hx
        rcases List.mem_cons.1 hx with rfl | hx
        · exact .inr rfl
        · exact i2 x hx
    · by_cases h2 : b = 2 ∨ b = 6
      · have hd : digit b = some 0 := by rw [digit, if_pos h2]
        simp only [uval, hd, to01Loop, if_neg h3, if_pos h2]
        cases hu : uval v with
        | none => exact ⟨by simp, fun _ => ih.2 hu⟩
        | some m =>
          obtain ⟨i1, i2, i3, i4⟩ := ih.1 m hu
          refine ⟨?_, by simp⟩
          intro n hn
          simp only [Option.some.injEq] at hn
          refine ⟨i1, ?_, by simp [i3], by simp [val, i3, i4, ← hn]⟩
          intro x hx
          rcases List.mem_cons.1 hx with rfl | hx
          · exact .inl rfl
          · exact i2 x hx
      · have hd : digit b = none := by rw [digit, if_neg h2, if_neg h3]
        simp [uval, hd, to01Loop, h2, h3]

theorem to01_some (v : Vec) (x n : Nat) (hv : Valid v) (h : uval v = some n) :
    Bits (to01 v x) ∧ (to01 v x).length = v.length ∧ val (to01 v x) = n := by
  unfold to01
  by_cases c : all01 v = true
  · rw [if_pos c]
    have hb := (all01_iff v hv).1 c
    rw [uval_bits v hb] at h
    exact ⟨hb, rfl, by simpa using h⟩
  · rw [if_neg c]
    obtain ⟨h1, h2, h3, h4⟩ := (to01Loop_spec v).1 n h
    unfold to01Slow
    simp only [h1]
    exact ⟨h2, h3, h4⟩

theorem to01_none (v : Vec) (x : Nat) (hv : Valid v) (h : uval v = none) :
    to01 v x = List.replicate v.length x := by
  unfold to01
  have c : ¬ all01 v = true := by
    intro c
    rw [uval_bits v ((all01_iff v hv).1 c)] at h
    simp at h
  rw [if_neg c]
  unfold to01Slow
  simp [(to01Loop_spec v).2 h]

/-! ## Resizing -/

theorem resizeU_length (v : Vec) (n : Nat) : (resizeU v n).length = n := by
  unfold resizeU
  split
  · simp; omega
  · split <;> simp <;> omega

theorem uval_pad (k : Nat) (v : Vec) : uval (List.replicate k 2 ++ v) = uval v := by
  induction k with
  | zero => simp
  | succ k ih =>
    rw [List.replicate_succ, List.cons_append, uval, ih]
    cases uval v <;> simp [digit]

theorem uval_resizeU (v : Vec) (n : Nat) (h : v.length ≤ n) (hn : 0 < n) :
    uval (resizeU v n) = uval v := by
  unfold resizeU
  rw [if_neg (by omega)]
  by_cases c : v.length ≥ n
  · rw [if_pos c, (by omega : v.length - n = 0)]; simp
  · rw [if_neg c, uval_pad]

theorem resizeU_valid (v : Vec) (n : Nat) (h : Valid v) : Valid (resizeU v n) := by
  intro b hb
  unfold resizeU at hb
  split at hb
  · simp at hb
  · split at hb
    · exact h b (List.mem_of_mem_drop hb)
    · rcases List.mem_append.1 hb with hb | hb
      · rw [(List.mem_replicate.1 hb).2]; omega
      · exact h b hb

theorem resizeU_bits (v : Vec) (n : Nat) (h : Bits v) : Bits (resizeU v n) := by
  unfold resizeU
  split
  · intro b hb; simp at hb
  · split
    · exact h.drop _
    · exact (Bits.replicate _ 2 (.inl rfl)).append h

/-- Extension by copies of the first element. -/
theorem resizeS_grow (v : Vec) (n : Nat) (h0 : v ≠ []) (h : v.length ≤ n) :
    resizeS v n = List.replicate (n - v.length) (v.headD 0) ++ v := by
  have hl : 0 < v.length := List.length_pos_iff.2 h0
  unfold resizeS
  rw [if_neg (by omega)]
  by_cases c : v.length = n
  · rw [if_pos c, c]; simp
  · rw [if_neg c, if_neg (by omega)]
    simp only [Nat.min_eq_left h]
    cases v with
    | nil => exact absurd rfl h0
    | cons b v =>
      simp only [List.length_cons, Nat.add_sub_cancel, List.headD_cons]
      have e1 : n - v.length = (n - (v.length + 1)) + 1 := by simp at hl h c; omega
      rw [e1, List.replicate_succ']
      have e2 : v.length + 1 - v.length = 1 := by omega
      rw [e2]
      simp

theorem resizeS_length (v : Vec) (n : Nat) : (resizeS v n).length = n := by
  unfold resizeS
  split
  · simp; omega
  · split
    · assumption
    · split
      · simp
      · simp; omega

/-- Sign extension on the level of values: the number modulo `2^n`. -/
theorem uval_signext (b : Nat) (v : Vec) (k : Nat) :
    uval (List.replicate k b ++ b :: v) =
      match digit b, uval v with
      | some d, some m => some (d * (2 ^ (k + 1) - 1) * 2 ^ v.length + m)
      | _, _ => none := by
  induction k with
  | zero =>
    simp only [List.replicate_zero, List.nil_append, uval]
    cases digit b <;> cases uval v <;> simp
  | succ k ih =>
    rw [List.replicate_succ, List.cons_append, uval, ih]
    cases hd : digit b with
    | none => simp
    | some d =>
      cases uval v with
      | none => simp
      | some m =>
        simp only [Option.some.injEq, List.length_append, List.length_replicate, List.length_cons]
        have hp : 2 ^ (k + (v.length + 1)) = 2 ^ (k + 1) * 2 ^ v.length := by
          rw [← Nat.pow_add]; congr 1; omega
        have h1 := Nat.two_pow_pos (k + 1)
        have h2 : 2 ^ (k + 1 + 1) - 1 = 2 ^ (k + 1) + (2 ^ (k + 1) - 1) := by
          rw [Nat.pow_succ]; omega
        rw [hp, h2]
        generalize 2 ^ (k + 1) - 1 = q
        generalize 2 ^ (k + 1) = p
        generalize 2 ^ v.length = w
        grind

theorem resizeS_valid (v : Vec) (n : Nat) (h0 : v ≠ []) (h : v.length ≤ n) (hv : Valid v) :
    Valid (resizeS v n) := by
  rw [resizeS_grow v n h0 h]
  intro b hb
  rcases List.mem_append.1 hb with hb | hb
  · rw [(List.mem_replicate.1 hb).2]
    cases v with
    | nil => exact absurd rfl h0
    | cons c v => exact hv c (by simp)
  · exact hv b hb

/-- Values modulo `2^n`, on integers. -/
def Cong (n : Nat) (a b : Int) : Prop := ∃ q : Int, a = b + q * 2 ^ n

theorem resizeS_val (v : Vec) (n : Nat) (h0 : v ≠ []) (h : v.length ≤ n) :
    (∀ a, sval v = some a → ∃ m, uval (resizeS v n) = some m ∧ Cong n m a) ∧
    (sval v = none → uval (resizeS v n) = none) := by
  rw [resizeS_grow v n h0 h]
  cases v with
  | nil => exact absurd rfl h0
  | cons b v =>
    simp only [List.headD_cons, List.length_cons]
    rw [uval_signext]
    unfold sval
    cases hd : digit b with
    | none => simp [hd]
    | some d =>
      cases hu : uval v with
      | none => simp [hd, hu]
      | some m =>
        simp only [hd, hu, Option.some.injEq, reduceCtorEq, false_implies, and_true]
        rintro a rfl
        refine ⟨_, rfl, d, ?_⟩
        have hn : n = (n - (v.length + 1) + 1) + v.length := by simp at h; omega
        have hp : (2 : Int) ^ n = 2 ^ (n - (v.length + 1) + 1) * 2 ^ v.length := by
          rw [← Int.pow_add, ← hn]
        rw [hp]
        have h1 := Nat.two_pow_pos (n - (v.length + 1) + 1)
        simp only [Int.natCast_add, Int.natCast_mul, Int.natCast_pow, Int.natCast_sub h1]
        simp only [Int.natCast_pow, Int.cast_ofNat_Int, Int.natCast_one]
        grind

theorem sval_none_iff (v : Vec) : sval v = none ↔ uval v = none := by
  cases v with
  | nil => simp [sval, uval]
  | cons b v => simp only [sval, uval]; cases digit b <;> cases uval v <;> simp

end Verif.Numeric
