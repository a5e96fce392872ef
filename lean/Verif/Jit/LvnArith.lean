import Verif.Jit.LvnModel
import Verif.Jit.ArithProps
import Verif.Util.Props

/-!
# Arithmetic facts for local value numbering

Property C51: the algebraic simplifications.
-/

namespace Verif.Code

theorem toInt_inType (a : Word) : InType true 64 a.toInt := by
  unfold InType
  have h1 := BitVec.le_toInt a
  have h2 := BitVec.toInt_lt (x := a)
  simp only [if_true]
  exact ⟨h1, h2⟩

theorem plain_toInt (a : Word) : plain a.toInt = some a := by
  unfold plain
  rw [if_pos (inRange_iff.2 (toInt_inType a)), BitVec.ofInt_toInt]

theorem plain_eq {x : Int} {r : Word} (h : plain x = some r) : r = BitVec.ofInt 64 x := by
  unfold plain at h
  split at h
  · injection h with h; exact h.symm
  · cases h

theorem wrap_toInt (a : Word) : wrap true 64 a.toInt = a.toInt := wrap_of_inType (by decide) (toInt_inType a)

/-- A number without a bit in common with its predecessor is a power of two. -/
theorem pow2_of_and (y : Nat) (h0 : 0 < y) (h : y &&& (y - 1) = 0) : ∃ n, y = 2 ^ n := by
  induction y using Nat.strongRecOn with
  | _ y ih =>
    by_cases h1 : y = 1
    · exact ⟨0, h1⟩
    · have hd : y / 2 &&& (y - 1) / 2 = 0 := by
        rw [← Nat.and_div_two, h]
      rcases Nat.mod_two_eq_zero_or_one y with e | e
      · have : (y - 1) / 2 = y / 2 - 1 := by omega
        rw [this] at hd
        obtain ⟨n, hn⟩ := ih (y / 2) (by omega) (by omega) hd
        exact ⟨n + 1, by rw [Nat.pow_succ, ← hn]; omega⟩
      · have : (y - 1) / 2 = y / 2 := by omega
        rw [this, Nat.and_self] at hd
        omega

theorem isPow2_spec {x : Word} (h0 : 0 < x.toInt) (h : isPow2 x = true) :
    ∃ n, n < 63 ∧ x.toInt = 2 ^ n ∧ x = BitVec.ofNat 64 (2 ^ n) ∧ Verif.Util.ilog2 x.toInt = some n := by
  have hlt := BitVec.toInt_lt (x := x)
  have hnat : (x.toNat : Int) = x.toInt := by
    have := BitVec.toInt_eq_toNat_cond x
    have hx := x.isLt
    split at this
    · exact this.symm
    · exfalso
      rw [this] at h0
      simp only [Nat.reducePow] at h0 hx
      omega
  have hpos : 0 < x.toNat := by omega
  have hand : x.toNat &&& (x.toNat - 1) = 0 := by
    unfold isPow2 at h
    simp only [beq_iff_eq] at h
    have h := congrArg BitVec.toNat h
    rw [BitVec.toNat_and, BitVec.toNat_sub] at h
    have hx := x.isLt
    have e : (2 ^ 64 - (1#64).toNat + x.toNat) % 2 ^ 64 = x.toNat - 1 := by
      simp only [BitVec.toNat_ofNat, Nat.reducePow, Nat.reduceMod] at *
      omega
    have e1 : (2 ^ 64 - (1 : Word).toNat + x.toNat) % 2 ^ 64 = x.toNat - 1 := e
    rw [e1] at h
    exact h
  obtain ⟨n, hn⟩ := pow2_of_and x.toNat hpos hand
  have hi : x.toInt = 2 ^ n := by
    rw [← hnat, hn]; push_cast; rfl
  have hn63 : n < 63 := by
    apply Classical.byContradiction
    intro c
    have : 2 ^ 63 ≤ 2 ^ n := Nat.pow_le_pow_right (by decide) (by omega)
    have h2 : (x.toNat : Int) < 2 ^ (64 - 1) := by rw [hnat]; exact hlt
    rw [hn] at h2
    have h3 : (2 ^ 63 : Int) ≤ ((2 ^ n : Nat) : Int) := by exact_mod_cast this
    have h4 : (2 : Int) ^ (64 - 1) = 2 ^ 63 := by decide
    omega
  have hle : x.toInt ≤ 2 ^ 62 := by
    rw [hi]
    have : (2 : Nat) ^ n ≤ 2 ^ 62 := Nat.pow_le_pow_right (by decide) (by omega)
    exact_mod_cast this
  obtain ⟨k, hk, h1, h2⟩ := Verif.Util.ilog2_spec x.toInt hle
  refine ⟨n, hn63, hi, ?_, ?_⟩
  · rw [← hn]; simp
  · have hkn : k ≤ n := h2 n (by omega)
    have hnk : n ≤ k := by
      rw [hi] at h1
      have h1' : (2 : Nat) ^ n ≤ 2 ^ k := by exact_mod_cast h1
      exact (Nat.pow_le_pow_iff_right (by decide)).1 h1'
    rw [hk]; congr 1; omega

theorem ofInt_mul_pow (a : Word) (n : Nat) : BitVec.ofInt 64 (a.toInt * 2 ^ n) = a <<< n := by
  rw [BitVec.ofInt_mul, BitVec.ofInt_toInt, BitVec.shiftLeft_eq_mul_twoPow]
  congr 1
  apply BitVec.eq_of_toNat_eq
  rw [BitVec.toNat_twoPow]
  have : ((2 : Int) ^ n) = ((2 ^ n : Nat) : Int) := by push_cast; rfl
  rw [this, BitVec.ofInt_natCast, BitVec.toNat_ofNat]

/-- Multiplication with a power of two is a shift. -/
theorem mul_pow2 {size : Size} {a b x : Word} {fl : Option Bool} {n : Nat} (hs : size = .unspec) {cc : CC}
    (h : arith .mul size cc a b = some (x, fl)) (hn : n < 63) (hb : b.toInt = 2 ^ n) :
    shift (· <<< ·) a (BitVec.ofNat 64 n) = some x ∧ fl = none := by
  subst hs
  have h : (plain (a.toInt * b.toInt)).map (fun r => (r, none)) = some (x, fl) := by
    cases cc <;> simpa [arith, Size.bits, Arith.eval] using h
  rw [Option.map_eq_some_iff] at h
  obtain ⟨r, hr, he⟩ := h
  injection he with h1 h2
  subst h1
  refine ⟨?_, h2.symm⟩
  have := plain_eq hr
  unfold shift
  have hm : (BitVec.ofNat 64 n).toNat = n := by
    rw [BitVec.toNat_ofNat]; exact Nat.mod_eq_of_lt (by omega)
  rw [hm, if_pos (by omega), this, hb, ofInt_mul_pow]

/-- A power of two is a shift. -/
theorem exp_two {size : Size} {b x : Word} {fl : Option Bool} (h : power size .none 2 b = some (x, fl)) :
    shift (· <<< ·) 1 b = some x ∧ fl = none := by
  unfold power at h
  dsimp only at h
  rw [Option.bind_eq_some_iff] at h
  obtain ⟨⟨r, o⟩, hc, h⟩ := h
  dsimp only at h
  cases o with
  | true => simp at h
  | false =>
    simp only [Bool.false_eq_true, if_false, Option.some.injEq, Prod.mk.injEq] at h
    obtain ⟨rfl, rfl⟩ := h
    refine ⟨?_, rfl⟩
    unfold checkedExp at hc
    rw [wrap_toInt, wrap_toInt] at hc
    have h2 : (2 : Word).toInt = 2 := by decide
    rw [h2] at hc
    dsimp only at hc
    split at hc
    · cases hc
    · rename_i hb
      have I : PowInv true 64 2 1 false false 2 1 := by
        refine ⟨fun h => by simp at h, fun h => by simp at h, fun _ => ⟨rfl, by decide⟩, by simp, fun _ => ⟨rfl, by decide⟩, by simp,
          fun _ => Or.inl rfl, fun _ => by decide⟩
      obtain ⟨e1, e2⟩ := expLoop_spec true 64 (by decide) 2 b.toInt.toNat 1 false false 2 1 I
      rw [Int.one_mul] at e1 e2
      injection hc with hc; injection hc with hr ho
      have hin := e1.1 ho
      have hval := e2 ho
      rw [hval] at hr
      rw [inRange_iff] at hin
      unfold InType at hin
      simp only [if_true] at hin
      have hlt : b.toInt.toNat < 63 := by
        apply Classical.byContradiction
        intro c
        have : 2 ^ 63 ≤ 2 ^ b.toInt.toNat := Nat.pow_le_pow_right (by decide) (by omega)
        have h3 : (2 ^ 63 : Int) ≤ 2 ^ b.toInt.toNat := by exact_mod_cast this
        have h4 : (2 : Int) ^ (64 - 1) = 2 ^ 63 := by decide
        omega
      have hbn : b.toNat = b.toInt.toNat := by
        have := BitVec.toInt_eq_toNat_cond b
        split at this
        · omega
        · exfalso
          have hx := b.isLt
          simp only [Nat.reducePow] at this hx
          omega
      unfold shift
      rw [hbn, if_pos (by omega), ← hr]
      have := ofInt_mul_pow 1 b.toInt.toNat
      have h1 : (1 : Word).toInt = 1 := by decide
      rw [h1, Int.one_mul] at this
      rw [this]

/-- A constant fold that the compiler does and the operation in the program agree. -/
theorem foldArith_eq {k : Arith} {size : Size} {a b x : Word} (h : foldArith k size a b = some x) {y : Word}
    (hp : plain (k.eval a.toInt b.toInt) = some y) : x = y := by
  unfold foldArith at h
  split at h
  · injection h with h
    rw [plain_eq hp, h]
  · cases h

theorem foldDiv_eq {a b x y : Word} (h : foldDiv .unspec a b = some x) (hp : divide a b = some y) : x = y := by
  unfold foldDiv at h
  simp only [Size.bits, Option.getD_none, wrap_toInt] at h
  unfold divide at hp
  split at h
  · cases h
  · split at hp
    · cases hp
    · rename_i hb
      have hy := plain_eq hp
      unfold plain at hp
      split at hp
      · rename_i hin
        split at h
        · injection h with h
          rw [wrap_of_inType (by decide) (inRange_iff.1 hin)] at h
          rw [← h, hy]
        · cases h
      · cases hp

end Verif.Code
