import Verif.Numeric.Lemmas

/-! Lemmas about addition in groups of eight, conversion of integers and multiplication. -/

namespace Verif.Numeric

/-! ## Encoding of integers -/

/-- The vector of length `n` for an integer in two's complement. -/
def encI (n : Nat) (z : Int) : Vec := enc n (z % 2 ^ n).toNat

theorem Cong.refl (n : Nat) (a : Int) : Cong n a a := ⟨0, by simp⟩

theorem Cong.symm {n : Nat} {a b : Int} (h : Cong n a b) : Cong n b a := by
  obtain ⟨q, rfl⟩ := h; exact ⟨-q, by grind⟩

theorem Cong.trans {n : Nat} {a b c : Int} (h : Cong n a b) (g : Cong n b c) : Cong n a c := by
  obtain ⟨q, rfl⟩ := h; obtain ⟨r, rfl⟩ := g; exact ⟨q + r, by grind⟩

theorem Cong.add {n : Nat} {a b c d : Int} (h : Cong n a b) (g : Cong n c d) :
    Cong n (a + c) (b + d) := by
  obtain ⟨q, rfl⟩ := h; obtain ⟨r, rfl⟩ := g; exact ⟨q + r, by grind⟩

theorem Cong.sub {n : Nat} {a b c d : Int} (h : Cong n a b) (g : Cong n c d) :
    Cong n (a - c) (b - d) := by
  obtain ⟨q, rfl⟩ := h; obtain ⟨r, rfl⟩ := g; exact ⟨q - r, by grind⟩

theorem Cong.mul_left {n : Nat} {a b : Int} (h : Cong n a b) (c : Int) :
    Cong n (c * a) (c * b) := by
  obtain ⟨q, rfl⟩ := h; exact ⟨c * q, by grind⟩

theorem Cong.emod {n : Nat} {a b : Int} (h : Cong n a b) : a % 2 ^ n = b % 2 ^ n := by
  obtain ⟨q, rfl⟩ := h; exact Int.add_mul_emod_self_right b q _

theorem cong_mod (n : Nat) (a : Nat) : Cong n ((a % 2 ^ n : Nat) : Int) a := by
  refine ⟨-((a / 2 ^ n : Nat) : Int), ?_⟩
  have := Nat.div_add_mod a (2 ^ n)
  have h2 : ((a : Nat) : Int) = ((2 ^ n * (a / 2 ^ n) + a % 2 ^ n : Nat) : Int) := by rw [this]
  rw [h2]
  simp only [Int.natCast_add, Int.natCast_mul, Int.natCast_pow, Int.cast_ofNat_Int]
  grind

theorem pow_pos_int (n : Nat) : (0 : Int) < 2 ^ n := Int.pow_pos (by omega)

theorem eq_encI (a : Vec) (n : Nat) (z : Int) (hl : a.length = n) (ha : Bits a)
    (h : Cong n (val a) z) : a = encI n z := by
  apply eq_enc a n _ hl ha
  have h1 := h.emod
  have h2 := val_lt a
  rw [hl] at h2
  have h3 : ((val a : Nat) : Int) % 2 ^ n = val a :=
    Int.emod_eq_of_lt (by omega) (by exact_mod_cast h2)
  rw [h3] at h1
  rw [← h1]
  simp [Nat.mod_eq_of_lt h2]

theorem encI_length (n : Nat) (z : Int) : (encI n z).length = n := enc_length _ _
theorem encI_bits (n : Nat) (z : Int) : Bits (encI n z) := enc_bits _ _

theorem encI_val (n : Nat) (z : Int) : Cong n (val (encI n z)) z := by
  unfold encI
  rw [enc_val]
  refine (cong_mod n _).trans ⟨-(z / 2 ^ n), ?_⟩
  have h1 : 0 ≤ z % 2 ^ n := Int.emod_nonneg _ (by have := pow_pos_int n; omega)
  rw [Int.toNat_of_nonneg h1]
  have := Int.mul_ediv_add_emod z (2 ^ n)
  grind

theorem encI_nat (n v : Nat) : encI n v = enc n v :=
  (eq_encI (enc n v) n v (enc_length n v) (enc_bits n v) (by rw [enc_val]; exact cong_mod n v)).symm

theorem encI_append (m k : Nat) (z : Int) : encI (m + k) z = encI m (z / 2 ^ k) ++ encI k z := by
  symm
  apply eq_encI
  · simp [encI_length]
  · exact (encI_bits _ _).append (encI_bits _ _)
  · rw [val_append, encI_length]
    obtain ⟨q, hq⟩ := encI_val m (z / 2 ^ k)
    have h1 : ((val (encI k z) : Nat) : Int) = z % 2 ^ k := by
      have h := (encI_val k z).emod
      have h2 := val_lt (encI k z)
      rw [encI_length] at h2
      rw [← h]
      exact (Int.emod_eq_of_lt (by omega) (by exact_mod_cast h2)).symm
    refine ⟨q, ?_⟩
    simp only [Int.natCast_add, Int.natCast_mul, Int.natCast_pow, Int.cast_ofNat_Int]
    rw [hq, h1, Int.pow_add]
    have := Int.mul_ediv_add_emod z (2 ^ k)
    grind

/-! ## Packing and spreading -/

theorem exists8 {α : Type} (l : List α) (h : l.length = 8) :
    ∃ a b c d e f g i, l = [a, b, c, d, e, f, g, i] := by
  match l, h with
  | [a, b, c, d, e, f, g, i], _ => exact ⟨a, b, c, d, e, f, g, i, rfl⟩

theorem pack_table : ∀ a b c d e f g i : Fin 2,
    ((load [a.1, b.1, c.1, d.1, e.1, f.1, g.1, i.1] * 0x8040201008040201) % 2 ^ 64) >>> 56 =
      a.1 * 128 + (b.1 * 64 + (c.1 * 32 + (d.1 * 16 + (e.1 * 8 + (f.1 * 4 + (g.1 * 2 + i.1)))))) := by
  decide +kernel

theorem packLowBits_spec (v : Vec) (hl : 8 ≤ v.length) (hv : Valid v) :
    packLowBits v = val (v.take 8) := by
  unfold packLowBits
  obtain ⟨a, b, c, d, e, f, g, i, h⟩ := exists8 (v.take 8) (by simp; omega)
  have hv' : ∀ x ∈ v.take 8, x < 256 := fun x hx => by
    have := hv x (List.mem_of_mem_take hx); omega
  rw [h] at hv' ⊢
  have em : load [1, 1, 1, 1, 1, 1, 1, 1] = 0x0101010101010101 := by decide
  rw [← em, load_and [a, b, c, d, e, f, g, i] [1, 1, 1, 1, 1, 1, 1, 1] rfl hv' (by simp)]
  simp only [List.zipWith_cons_cons, List.zipWith_nil_right, Nat.and_one_is_mod]
  have lt (x : Nat) : x % 2 < 2 := Nat.mod_lt _ (by omega)
  have := pack_table ⟨a % 2, lt a⟩ ⟨b % 2, lt b⟩ ⟨c % 2, lt c⟩ ⟨d % 2, lt d⟩ ⟨e % 2, lt e⟩
    ⟨f % 2, lt f⟩ ⟨g % 2, lt g⟩ ⟨i % 2, lt i⟩
  dsimp only at this
  rw [this]
  simp [val]

theorem spread_table : ∀ p : Fin 256, spreadBits p.1 = enc 8 p.1 := by decide +kernel

theorem spreadBits_spec (s : Nat) : spreadBits s = enc 8 s := by
  have h1 : spreadBits s = spreadBits (s % 256) := by simp [spreadBits]
  rw [h1, spread_table ⟨s % 256, Nat.mod_lt _ (by omega)⟩]
  exact eq_enc _ 8 s (enc_length _ _) (enc_bits _ _) (by rw [enc_val]; simp)

theorem carry_table : ∀ s : Fin 512, (s.1 &&& 0x100 ≠ 0) ↔ 256 ≤ s.1 := by decide +kernel

/-! ## Addition -/

/-- What has been computed when `p` positions are left. -/
structure AddInv (l r : Vec) (c0 p carry : Nat) (acc : Vec) : Prop where
  le : p ≤ l.length
  len : acc.length = l.length - p
  bits : Bits acc
  hcarry : carry ≤ 1
  sum : val acc + carry * 2 ^ (l.length - p) = val (l.drop p) + val (r.drop p) + c0

theorem addBytes_spec (l r : Vec) (c0 : Nat) (hlr : r.length = l.length) (hl : Valid l)
    (hr : Valid r) : ∀ (p carry : Nat) (acc : Vec), AddInv l r c0 p carry acc →
    AddInv l r c0 (addBytes l r p carry acc).1 (addBytes l r p carry acc).2.1
      (addBytes l r p carry acc).2.2 := by
  intro p
  induction p using Nat.strongRecOn with
  | _ p ih =>
    intro carry acc h
    unfold addBytes
    by_cases c : 8 < p
    · rw [if_pos c]
      apply ih (p - 8) (by omega)
      have hp := h.le
      have hdl : Valid (l.drop (p - 8)) := fun b hb => hl b (List.mem_of_mem_drop hb)
      have hdr : Valid (r.drop (p - 8)) := fun b hb => hr b (List.mem_of_mem_drop hb)
      rw [packLowBits_spec _ (by simp; omega) hdl, packLowBits_spec _ (by simp; omega) hdr]
      have split (x : Vec) (hx : x.length = l.length) :
          val (x.drop (p - 8)) = val ((x.drop (p - 8)).take 8) * 2 ^ (l.length - p) +
            val (x.drop p) ∧ val ((x.drop (p - 8)).take 8) < 256 := by
        constructor
        · have e : x.drop (p - 8) = (x.drop (p - 8)).take 8 ++ x.drop p := by
            have := (List.take_append_drop 8 (x.drop (p - 8))).symm
            rw [List.drop_drop, (by omega : p - 8 + 8 = p)] at this
            exact this
          have := val_append ((x.drop (p - 8)).take 8) (x.drop p)
          rw [← e, List.length_drop, hx] at this
          exact this
        · have := val_lt ((x.drop (p - 8)).take 8)
          rw [(by simp; omega : ((x.drop (p - 8)).take 8).length = 8)] at this
          exact this
      obtain ⟨s1, t1⟩ := split l rfl
      obtain ⟨s2, t2⟩ := split r hlr
      generalize val ((l.drop (p - 8)).take 8) = a at *
      generalize val ((r.drop (p - 8)).take 8) = b at *
      have hc := h.hcarry
      have hs : a + b + carry < 512 := by omega
      have hcar : (if (a + b + carry) &&& 0x100 ≠ 0 then 1 else 0) = (a + b + carry) / 256 := by
        have := carry_table ⟨a + b + carry, hs⟩
        dsimp only at this
        by_cases q : 256 ≤ a + b + carry
        · rw [if_pos (this.2 q)]; omega
        · rw [if_neg (fun e => q (this.1 e))]; omega
      rw [hcar]
      refine ⟨by omega, ?_, ?_, by omega, ?_⟩
      · rw [List.length_append, spreadBits_spec, enc_length, h.len]; omega
      · rw [spreadBits_spec]; exact (enc_bits _ _).append h.bits
      · rw [val_append, spreadBits_spec, enc_val, h.len, s1, s2]
        have hsum := h.sum
        have e : 2 ^ (l.length - (p - 8)) = 256 * 2 ^ (l.length - p) := by
          rw [(by omega : l.length - (p - 8) = 8 + (l.length - p)), Nat.pow_add]
        rw [e]
        have hd := Nat.div_add_mod (a + b + carry) 256
        generalize 2 ^ (l.length - p) = w at *
        simp only [Nat.reducePow] at *
        generalize (a + b + carry) / 256 = q at *
        generalize (a + b + carry) % 256 = m at *
        grind
    · rw [if_neg c]; exact h

theorem bit_table : ∀ a b c : Fin 2,
    (if (a.1 + b.1 + c.1) &&& 2 ≠ 0 then 1 else 0) = (a.1 + b.1 + c.1) / 2 ∧
    ((a.1 + b.1 + c.1) &&& 1) ||| 2 = 2 + (a.1 + b.1 + c.1) % 2 := by decide

theorem drop_getD (x : Vec) (p : Nat) (h : p < x.length) : x.drop p = x.getD p 0 :: x.drop (p + 1) := by
  rw [List.drop_eq_getElem_cons h]; simp [h]

theorem addBits_spec (l r : Vec) (c0 : Nat) (hlr : r.length = l.length) :
    ∀ (p carry : Nat) (acc : Vec), AddInv l r c0 p carry acc →
    ∃ co, AddInv l r c0 0 co (addBits l r p carry acc) := by
  intro p
  induction p with
  | zero => intro carry acc h; exact ⟨carry, h⟩
  | succ p ih =>
    intro carry acc h
    have hp := h.le
    have hc := h.hcarry
    unfold addBits
    apply ih
    rw [Nat.and_one_is_mod, Nat.and_one_is_mod]
    have lt (x : Nat) : x % 2 < 2 := Nat.mod_lt _ (by omega)
    obtain ⟨t1, t2⟩ := bit_table ⟨l.getD p 0 % 2, lt _⟩ ⟨r.getD p 0 % 2, lt _⟩ ⟨carry, by omega⟩
    dsimp only at t1 t2
    rw [t1, t2]
    refine ⟨by omega, by simp [h.len]; omega, ?_, ?_, ?_⟩
    · intro b hb
      rcases List.mem_cons.1 hb with rfl | hb
      · omega
      · exact h.bits b hb
    · have := lt (l.getD p 0); have := lt (r.getD p 0); omega
    · rw [drop_getD l p (by omega), drop_getD r p (by omega)]
      simp only [val, List.length_drop, h.len, hlr]
      have hsum := h.sum
      have e : 2 ^ (l.length - p) = 2 * 2 ^ (l.length - (p + 1)) := by
        rw [(by omega : l.length - p = 1 + (l.length - (p + 1))), Nat.pow_add]
      rw [e]
      generalize 2 ^ (l.length - (p + 1)) = w at *
      clear t1 t2
      generalize l.getD p 0 % 2 = a at *
      generalize r.getD p 0 % 2 = b at *
      have hm : (2 + (a + b + carry) % 2) % 2 = (a + b + carry) % 2 := by omega
      rw [hm]
      have hd := Nat.div_add_mod (a + b + carry) 2
      generalize (a + b + carry) / 2 = q at *
      generalize (a + b + carry) % 2 = m at *
      grind

/-- `__ieee_packed_add` computes the sum modulo `2^size`. -/
theorem packedAdd_spec (l r : Vec) (size carry : Nat) (h1 : l.length = size)
    (h2 : r.length = size) (hl : Valid l) (hr : Valid r) (hc : carry ≤ 1) :
    packedAdd l r size carry = enc size (val l + val r + carry) := by
  subst h1
  have i0 : AddInv l r carry l.length carry [] :=
    ⟨Nat.le_refl _, by simp, by intro b hb; simp at hb, hc, by
      have : r.drop l.length = [] := by rw [← h2]; simp
      simp [val, this]⟩
  have i1 := addBytes_spec l r carry h2 hl hr _ _ _ i0
  obtain ⟨co, i2⟩ := addBits_spec l r carry h2 _ _ _ i1
  have hs := i2.sum
  simp only [Nat.sub_zero, List.drop_zero] at hs
  have hlen := i2.len
  unfold packedAdd
  apply eq_enc _ _ _ (by simpa using hlen) i2.bits
  have hlt := val_lt (addBits l r (addBytes l r l.length carry []).1
    (addBytes l r l.length carry []).2.1 (addBytes l r l.length carry []).2.2)
  rw [hlen, Nat.sub_zero] at hlt
  rw [← hs, Nat.add_mul_mod_self_right, Nat.mod_eq_of_lt hlt]

theorem Bits.valid {v : Vec} (h : Bits v) : Valid v := fun b hb => by
  have := h b hb; omega

theorem xor1 (b : Nat) (h : b = 2 ∨ b = 3) : b ^^^ 1 = 5 - b := by
  rcases h with rfl | rfl <;> rfl

theorem invertBits_spec (v : Vec) (h : Bits v) :
    Bits (invertBits v) ∧ (invertBits v).length = v.length ∧
      val (invertBits v) + val v + 1 = 2 ^ v.length := by
  induction v with
  | nil => exact ⟨h, rfl, rfl⟩
  | cons b v ih =>
    obtain ⟨i1, i2, i3⟩ := ih (fun x hx => h x (by simp [hx]))
    have hb := h b (by simp)
    have e : invertBits (b :: v) = (b ^^^ 1) :: invertBits v := rfl
    refine ⟨?_, by simp [invertBits], ?_⟩
    · rw [e]
      intro x hx
      rcases List.mem_cons.1 hx with rfl | hx
      · rw [xor1 b hb]; omega
      · exact i1 x hx
    · rw [e, val, val, i2, List.length_cons, Nat.pow_succ, xor1 b hb]
      rcases hb with rfl | rfl <;> simp <;> omega

/-- Addition on integers. -/
theorem packedAdd_int (l r : Vec) (size : Nat) (a b : Int) (h1 : l.length = size)
    (h2 : r.length = size) (hl : Valid l) (hr : Valid r) (ha : Cong size (val l) a)
    (hb : Cong size (val r) b) : packedAdd l r size 0 = encI size (a + b) := by
  rw [packedAdd_spec l r size 0 h1 h2 hl hr (by omega)]
  apply eq_encI _ _ _ (enc_length _ _) (enc_bits _ _)
  rw [enc_val]
  refine (cong_mod _ _).trans ?_
  simp only [Nat.add_zero, Int.natCast_add]
  exact ha.add hb

/-- Subtraction by adding the complement and one. -/
theorem packedSub_int (l r : Vec) (size : Nat) (a b : Int) (h1 : l.length = size)
    (h2 : r.length = size) (hl : Valid l) (hr : Bits r) (ha : Cong size (val l) a)
    (hb : Cong size (val r) b) : packedAdd l (invertBits r) size 1 = encI size (a - b) := by
  obtain ⟨i1, i2, i3⟩ := invertBits_spec r hr
  rw [packedAdd_spec l _ size 1 h1 (by rw [i2, h2]) hl i1.valid (by omega)]
  apply eq_encI _ _ _ (enc_length _ _) (enc_bits _ _)
  rw [enc_val]
  refine (cong_mod _ _).trans ?_
  rw [h2] at i3
  have e : ((val l + val (invertBits r) + 1 : Nat) : Int) = (val l : Int) - val r + 1 * 2 ^ size := by
    have : ((val (invertBits r) + val r + 1 : Nat) : Int) = ((2 ^ size : Nat) : Int) := by rw [i3]
    simp only [Int.natCast_add, Int.natCast_pow, Int.cast_ofNat_Int, Int.natCast_one] at this ⊢
    grind
  exact Cong.trans ⟨1, e⟩ (ha.sub hb)

/-! ## Conversion of integers -/

theorem shr8 (a : Int) : a >>> 8 = a / 256 := by
  rw [Int.shiftRight_eq_div_pow]; rfl

theorem spreadLoop_spec (n : Nat) : ∀ (arg : Int) (last : Nat) (acc : Vec),
    (spreadLoop n arg last acc).1 = arg / 2 ^ (8 * n) ∧
    (spreadLoop n arg last acc).2.2 = encI (8 * n) arg ++ acc ∧
    (spreadLoop (n + 1) arg last acc).2.1 = (arg / 2 ^ (8 * n) % 256).toNat := by
  induction n with
  | zero => intro arg last acc; simp [spreadLoop, encI, enc]
  | succ n ih =>
    intro arg last acc
    obtain ⟨h1, h2, h3⟩ := ih (arg >>> 8) (arg % 256).toNat (spreadBits (arg % 256).toNat ++ acc)
    have hp : (2 : Int) ^ (8 * (n + 1)) = 256 * 2 ^ (8 * n) := by
      rw [(by omega : 8 * (n + 1) = 8 + 8 * n), Int.pow_add]; rfl
    have hdiv : arg / 256 / 2 ^ (8 * n) = arg / 2 ^ (8 * (n + 1)) := by
      rw [hp, Int.ediv_ediv_of_nonneg (by omega)]
    refine ⟨?_, ?_, ?_⟩
    · rw [spreadLoop]; rw [h1, shr8, hdiv]
    · rw [spreadLoop]
      rw [h2, shr8, spreadBits_spec, (by omega : 8 * (n + 1) = 8 * n + 8), encI_append,
        List.append_assoc]
      rfl
    · rw [spreadLoop]; rw [h3, shr8, hdiv]

theorem roundup_spec (size : Nat) (h : 0 < size) :
    ∃ k t, roundup size = 8 * (k + 1) ∧ size = 8 * k + t ∧ 1 ≤ t ∧ t ≤ 8 ∧
      roundup size - size = 8 - t ∧ roundup size / 8 = k + 1 ∧ 8 + size - roundup size = t := by
  unfold roundup
  refine ⟨(size + 7) / 8 - 1, size - 8 * ((size + 7) / 8 - 1), ?_⟩
  refine ⟨?_, ?_, ?_, ?_, ?_, ?_, ?_⟩ <;> omega

end Verif.Numeric
