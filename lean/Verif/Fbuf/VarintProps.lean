import Verif.Fbuf.VarintModel

/-! Property theorems for C01 and C02. -/

namespace Verif.Fbuf

theorem and7f (n : Nat) : n &&& 0x7f = n % 128 := by
  have := Nat.and_two_pow_sub_one_eq_mod n 7
  simpa using this

theorem and80_eq (n : Nat) (h : n < 256) : n &&& 0x80 = if n < 128 then 0 else 128 := by
  have : ∀ n : Fin 256, n.val &&& 0x80 = if n.val < 128 then 0 else 128 := by decide +kernel
  exact this ⟨n, h⟩

theorem or80 (n : Nat) (h : n < 128) : n ||| 0x80 = n + 128 := by
  have : ∀ n : Fin 128, n.val ||| 0x80 = n.val + 128 := by decide +kernel
  exact this ⟨n, h⟩

theorem shr7 (n : Nat) : n >>> 7 = n / 128 := by simp [Nat.shiftRight_eq_div_pow]

theorem putUint_eq (n : Nat) :
    putUint n = if n < 128 then [n] else (n % 128 + 128) :: putUint (n / 128) := by
  rw [putUint]
  simp only [and7f, shr7]
  by_cases h : n < 128
  · have : n / 128 = 0 := by omega
    simp [this, h, Nat.mod_eq_of_lt h]
  · have : n / 128 ≠ 0 := by omega
    simp [this, h, or80 _ (Nat.mod_lt n (by omega : 128 > 0))]

/-- All emitted bytes are bytes. -/
theorem putUint_bytes (n : Nat) : ∀ b ∈ putUint n, b < 256 := by
  induction n using Nat.strongRecOn with
  | _ n ih =>
    rw [putUint_eq]
    split
    · simp; omega
    · intro b hb
      simp only [List.mem_cons] at hb
      rcases hb with h | h
      · subst h; have := Nat.mod_lt n (by omega : 128 > 0); omega
      · exact ih (n / 128) (by omega) b h

theorem getUintLoop_putUint (n : Nat) : ∀ (val shift : Nat) (rest : List Nat),
    val < 2 ^ shift → n * 2 ^ shift < 2 ^ 64 → 0 < n →
    getUintLoop val shift (putUint n ++ rest) = .ok (val + n * 2 ^ shift) rest := by
  induction n using Nat.strongRecOn with
  | _ n ih =>
    intro val shift rest hv hn hpos
    have hs : ¬ shift ≥ 64 := by
      intro h
      have : 2 ^ 64 ≤ 2 ^ shift := Nat.pow_le_pow_right (by omega) h
      have : 2 ^ shift ≤ n * 2 ^ shift := Nat.le_mul_of_pos_left _ hpos
      omega
    have hor : ∀ k, val ||| (k <<< shift) = val + k * 2 ^ shift := by
      intro k
      rw [Nat.or_comm, ← Nat.shiftLeft_add_eq_or_of_lt hv, Nat.shiftLeft_eq]; omega
    rw [putUint_eq]
    by_cases h : n < 128
    · simp only [h, if_true, List.cons_append, List.nil_append]
      rw [getUintLoop]
      rw [if_neg hs, and80_eq n (by omega), and7f, Nat.mod_eq_of_lt h]
      have : (n <<< shift) % 2 ^ 64 = n <<< shift := by
        apply Nat.mod_eq_of_lt; rw [Nat.shiftLeft_eq]; exact hn
      simp only [this, hor, h, if_true]
      simp
    · have hm : n % 128 < 128 := Nat.mod_lt n (by omega)
      simp only [h, if_false, List.cons_append]
      rw [getUintLoop]
      have e80 : (n % 128 + 128) &&& 0x80 = 128 := by
        rw [and80_eq _ (by omega)]; simp
      have e7f : (n % 128 + 128) &&& 0x7f = n % 128 := by
        rw [and7f]; omega
      have hle : n % 128 * 2 ^ shift ≤ n * 2 ^ shift :=
        Nat.mul_le_mul_right _ (Nat.mod_le n 128)
      have : ((n % 128) <<< shift) % 2 ^ 64 = (n % 128) <<< shift := by
        apply Nat.mod_eq_of_lt; rw [Nat.shiftLeft_eq]; omega
      rw [if_neg hs, e80, e7f]
      simp only [this, hor]
      rw [if_pos (by omega)]
      have hpow : 2 ^ (shift + 7) = 128 * 2 ^ shift := by
        rw [Nat.pow_add]; omega
      have hsplit : n * 2 ^ shift = n % 128 * 2 ^ shift + n / 128 * (128 * 2 ^ shift) := by
        have hd := Nat.div_add_mod n 128
        calc n * 2 ^ shift = (128 * (n / 128) + n % 128) * 2 ^ shift := by rw [hd]
          _ = _ := by rw [Nat.add_mul, Nat.add_comm]; congr 1
                      rw [Nat.mul_comm 128 (n/128), Nat.mul_assoc]
      have hval : val + n % 128 * 2 ^ shift < 2 ^ (shift + 7) := by
        rw [hpow]
        have : n % 128 * 2 ^ shift ≤ 127 * 2 ^ shift := Nat.mul_le_mul_right _ (by omega)
        omega
      rw [ih (n / 128) (by omega) _ _ rest hval (by rw [hpow]; omega) (by omega), hpow]
      congr 1
      omega

/-- **C01.** Reading back what was written yields the value, consumes exactly the
emitted bytes and never reaches undefined behaviour, for every 64-bit value and
every continuation of the stream. -/
theorem getUint_putUint (n : Nat) (hn : n < 2 ^ 64) (rest : List Nat) :
    getUint (putUint n ++ rest) = .ok n rest := by
  rw [putUint_eq]
  by_cases h : n < 128
  · simp [h, getUint, and80_eq n (by omega)]
  · have hm : n % 128 < 128 := Nat.mod_lt n (by omega)
    simp only [h, if_false, List.cons_append, getUint]
    have e7f : (n % 128 + 128) % 128 = n % 128 := by omega
    have e80 : (n % 128 + 128) &&& 0x80 = 128 := by
      rw [and80_eq _ (by omega)]; simp
    rw [e80, if_neg (by omega : ¬ 128 = 0), and7f, e7f]
    rw [getUintLoop_putUint (n / 128) _ 7 rest (by omega) (by omega) (by omega)]
    congr 1
    omega

/-- **C01.** No encoding is a prefix of (or equal to) the encoding of a different
value: the code is uniquely decodable. -/
theorem putUint_prefix_free (n m : Nat) (hn : n < 2 ^ 64) (hm : m < 2 ^ 64)
    (s t : List Nat) (h : putUint n ++ s = putUint m ++ t) : n = m ∧ s = t := by
  have h1 := getUint_putUint n hn s
  have h2 := getUint_putUint m hm t
  rw [h, h2] at h1
  cases h1
  exact ⟨rfl, rfl⟩

/-- **C01.** The encoding of a 64-bit value has between 1 and 10 bytes, so the
ten bytes reserved by `fbuf_put_uint` suffice (fbuf.c 595). -/
theorem putUint_length (n : Nat) (hn : n < 2 ^ 64) :
    1 ≤ (putUint n).length ∧ (putUint n).length ≤ 10 := by
  have gen : ∀ (k n : Nat), n < 128 ^ (k + 1) →
      1 ≤ (putUint n).length ∧ (putUint n).length ≤ k + 1 := by
    intro k
    induction k with
    | zero => intro n h; rw [putUint_eq]; simp at h; simp [h]
    | succ k ih =>
      intro n h
      rw [putUint_eq]
      split
      · simp
      · have : n / 128 < 128 ^ (k + 1) := by
          rw [Nat.pow_succ] at h; exact Nat.div_lt_of_lt_mul (by omega)
        have := ih (n / 128) this
        simp only [List.length_cons]; omega
  exact gen 9 n (Nat.lt_trans hn (by decide))

/-- Non-vacuity of C01: a value using all ten bytes. -/
example : (2 ^ 64 - 1 < 2 ^ 64) ∧ (putUint (2 ^ 64 - 1)).length = 10 ∧
    getUint (putUint (2 ^ 64 - 1) ++ [7]) = .ok (2 ^ 64 - 1) [7] := by
  have h : 2 ^ 64 - 1 < 2 ^ 64 := by decide
  refine ⟨h, ?_, getUint_putUint _ h _⟩
  simp [putUint_eq]

/-- The zig-zag mapping is undone by the reader for every 64-bit word. -/
theorem unzigzag_zigzag (v : BitVec 64) : unzigzag (zigzag v) = v := by
  have h1 : ∀ i, i < 64 → (zigzag v).getLsbD i =
      (if i = 0 then v.getLsbD 63 else (v.getLsbD (i-1) ^^ v.getLsbD 63)) := by
    intro i hi
    unfold zigzag
    rw [BitVec.getLsbD_xor, BitVec.getLsbD_shiftLeft, BitVec.getLsbD_sshiftRight]
    simp only [BitVec.msb_eq_getLsbD_last]
    by_cases h0 : i = 0
    · subst h0; simp
    · have h3 : ¬ (63 + i < 64) := by omega
      have h4 : ¬ (64 ≤ i) := by omega
      have h5 : ¬ i < 1 := by omega
      simp [hi, h0, h3, h4, h5]
  have hneg : -(zigzag v &&& 1) = if v.getLsbD 63 then BitVec.allOnes 64 else 0 := by
    have hand : zigzag v &&& 1 = if v.getLsbD 63 then 1 else 0 := by
      apply BitVec.eq_of_getLsbD_eq
      intro i hi
      rw [BitVec.getLsbD_and, h1 i hi]
      by_cases h0 : i = 0
      · subst h0; cases h : v.getLsbD 63 <;> simp
      · cases h : v.getLsbD 63 <;> simp [h0, BitVec.getLsbD_one]
    rw [hand]
    cases v.getLsbD 63 <;> decide
  apply BitVec.eq_of_getLsbD_eq
  intro i hi
  unfold unzigzag
  rw [hneg, BitVec.getLsbD_xor, BitVec.getLsbD_ushiftRight]
  by_cases h63 : i = 63
  · subst h63
    cases h : v.getLsbD 63 <;> simp
  · have hs : 1 + i < 64 := by omega
    rw [h1 (1 + i) hs, if_neg (by omega)]
    have : 1 + i - 1 = i := by omega
    rw [this]
    cases h : v.getLsbD 63 <;> simp [hi, -BitVec.reduceAllOnes]

/-- **C02.** Signed round trip, for all 64-bit words and all continuations. -/
theorem getInt_putInt (v : BitVec 64) (rest : List Nat) :
    getInt (putInt v ++ rest) = .ok v rest := by
  unfold getInt putInt
  rw [getUint_putUint _ (zigzag v).isLt]
  simp [unzigzag_zigzag]

/-- Independent description of the zig-zag number of an integer: non-negative
numbers map to even numbers, negative ones to odd ones. -/
def zigzagSpec (z : Int) : Int := if 0 ≤ z then 2 * z else -2 * z - 1

/-- **C02.** The unsigned word transmitted is twice the magnitude (up to one), so
small magnitudes of either sign have short encodings. -/
theorem zigzag_toNat (v : BitVec 64) : ((zigzag v).toNat : Int) = zigzagSpec v.toInt := by
  have hssr : v.sshiftRight 63 = if v.msb then BitVec.allOnes 64 else 0 := by
    apply BitVec.eq_of_getLsbD_eq
    intro i hi
    rw [BitVec.getLsbD_sshiftRight]
    have h4 : ¬ (64 ≤ i) := by omega
    have h6 : (if 63 + i < 64 then v.getLsbD (63 + i) else v.msb) = v.msb := by
      split
      · have : i = 0 := by omega
        subst this; rw [BitVec.msb_eq_getLsbD_last]
      · rfl
    rw [h6]
    cases v.msb <;> simp [hi, -BitVec.reduceAllOnes]
  have hlt := v.isLt
  have hsl : (v <<< 1).toNat = v.toNat * 2 % 2 ^ 64 := by
    simp [BitVec.toNat_shiftLeft, Nat.shiftLeft_eq]
  unfold zigzagSpec zigzag
  rw [hssr, BitVec.toInt_eq_toNat_cond]
  have hm := BitVec.msb_eq_decide v
  cases hmsb : v.msb
  · rw [hmsb] at hm
    have h63 : v.toNat < 2 ^ 63 := by simpa using hm.symm
    rw [if_pos (by omega : 2 * v.toNat < 2 ^ 64), if_pos (by omega : (0:Int) ≤ v.toNat)]
    simp only [Bool.false_eq_true, if_false, BitVec.ofNat_eq_ofNat, BitVec.xor_zero, hsl]
    omega
  · rw [hmsb] at hm
    have h63 : 2 ^ 63 ≤ v.toNat := by simpa using hm.symm
    rw [if_neg (by omega : ¬ 2 * v.toNat < 2 ^ 64),
      if_neg (by omega : ¬ (0:Int) ≤ (v.toNat : Int) - ((2 ^ 64 : Nat) : Int))]
    simp only [if_true, BitVec.xor_allOnes, BitVec.toNat_not, hsl]
    omega

/-- Non-vacuity of C02: the most negative and a small negative number. -/
example : getInt (putInt (BitVec.intMin 64) ++ [1, 2]) = .ok (BitVec.intMin 64) [1, 2] ∧
    putInt (BitVec.ofInt 64 (-1)) = [1] := by
  refine ⟨getInt_putInt _ _, ?_⟩
  have : (zigzag (BitVec.ofInt 64 (-1))).toNat = 1 := by decide
  unfold putInt; rw [this, putUint_eq]; simp

end Verif.Fbuf
