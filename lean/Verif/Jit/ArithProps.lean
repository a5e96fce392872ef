import Verif.Jit.IrModel

/-!
# Integer arithmetic with checks in the interpreter of the intermediate code

Properties C27 and C28.  The effect of an instruction on two operands is compared with the result of the
mathematical operation on the numbers they stand for.
-/

namespace Verif.Code

/-! ## what the property speaks about: ranges of the types -/

/-- The number is one of the type with `n` bits. -/
def InType (signed : Bool) (n : Nat) (x : Int) : Prop :=
  if signed then -2 ^ (n - 1) ≤ x ∧ x < 2 ^ (n - 1) else 0 ≤ x ∧ x < 2 ^ n

/-- A register that holds the number `x` of the type with `n` bits: the low `n` bits are those of `x`
(the bits above may be anything). -/
def Holds (n : Nat) (a : Word) (x : Int) : Prop := (a.toInt - x) % 2 ^ n = 0

theorem inRange_iff {signed n x} : inRange signed n x = true ↔ InType signed n x := by
  unfold inRange InType
  cases signed <;> simp

theorem wrap_of_inType {signed n x} (hn : 0 < n) (h : InType signed n x) : wrap signed n x = x := by
  unfold wrap InType at *
  have e : (2 : Int) ^ n = 2 ^ (n - 1) * 2 := by
    rw [← Int.pow_succ]; congr 1; omega
  cases signed with
  | true =>
    simp only [if_true] at *
    rw [Int.bmod_eq_of_le] <;> push_cast <;> omega
  | false =>
    simp only [Bool.false_eq_true, if_false] at *
    exact Int.emod_eq_of_lt h.1 h.2

theorem wrap_of_holds {signed n a x} (hn : 0 < n) (h : InType signed n x) (ha : Holds n a x) :
    wrap signed n a.toInt = x := by
  have hm : a.toInt % 2 ^ n = x % 2 ^ n := Int.emod_eq_emod_iff_emod_sub_eq_zero.2 ha
  rw [← wrap_of_inType hn h]
  unfold wrap
  cases signed with
  | true =>
    simp only [if_true]
    have : ((2 ^ n : Nat) : Int) = 2 ^ n := by push_cast; rfl
    rw [← Int.emod_bmod (x := a.toInt), ← Int.emod_bmod (x := x), this, hm]
  | false => simpa using hm

/-- Value of a register that contains a wrapped number. -/
theorem ofInt_inType {signed n x} (hn : 0 < n) (hn' : n ≤ 64) (h : InType signed n x) :
    Holds n (BitVec.ofInt 64 x) x := by
  unfold Holds
  have h1 : ((BitVec.ofInt 64 x).toInt - x) % 2 ^ 64 = 0 := by
    rw [BitVec.toInt_ofInt]
    have := Int.bmod_emod (x := x) (m := 2 ^ 64)
    omega
  have h2 : ((2 : Int) ^ n) ∣ 2 ^ 64 := ⟨2 ^ (64 - n), by rw [← Int.pow_add]; congr 1; omega⟩
  exact Int.emod_eq_zero_of_dvd (Int.dvd_trans h2 (Int.dvd_of_emod_eq_zero h1))

theorem bits_pos {size : Size} {n} (h : size.bits = some n) : 8 ≤ n ∧ n ≤ 64 := by
  cases size <;> simp [Size.bits] at h <;> omega

/-! ## C28: add, subtract, multiply -/

/-- The condition code that asks for the check: overflow for signed, carry for unsigned types. -/
def checkCC (signed : Bool) : CC := if signed then .o else .c

/-- The opcode of an operation. -/
def Arith.op : Arith → Op
  | .add => .add
  | .sub => .sub
  | .mul => .mul

/-- **C28.**  For every width and signedness, and operands that stand for numbers of the type, the
instruction with overflow check sets the flag exactly if the mathematical result is outside the range of
the type, and otherwise the result register is the mathematical result. -/
theorem arith_exact {W : Type} (env : Env W) (k : Arith) (size : Size) (n : Nat) (signed : Bool)
    (hs : size.bits = some n) (a b old : Word) (x y : Int) (fl : Bool) (w : W)
    (hx : InType signed n x) (hy : InType signed n y) (ha : Holds n a x) (hb : Holds n b y) :
    ∃ r fl', effect env k.op size (checkCC signed) a b old fl w = some ⟨some r, some fl', w, .next⟩ ∧
      (fl' = true ↔ ¬ InType signed n (k.eval x y)) ∧
      (fl' = false → r = BitVec.ofInt 64 (k.eval x y)) := by
  have hn := bits_pos hs
  refine ⟨(checked k signed n a b).1, (checked k signed n a b).2, ?_, ?_, ?_⟩
  · cases k <;> cases signed <;> simp [Arith.op, checkCC, effect, arith, hs, giveFlags]
  · simp only [checked, wrap_of_holds (by omega) hx ha, wrap_of_holds (by omega) hy hb]
    rw [← inRange_iff]; simp
  · simp only [checked, wrap_of_holds (by omega) hx ha, wrap_of_holds (by omega) hy hb]
    intro h
    simp only [Bool.not_eq_false', inRange_iff] at h
    rw [wrap_of_inType (by omega) h]

/-- The register then stands for the result: the next operation may use it. -/
theorem arith_holds {W : Type} (env : Env W) (k : Arith) (size : Size) (n : Nat) (signed : Bool)
    (hs : size.bits = some n) (a b old r : Word) (x y : Int) (fl : Bool) (w : W)
    (hx : InType signed n x) (hy : InType signed n y) (ha : Holds n a x) (hb : Holds n b y)
    (h : effect env k.op size (checkCC signed) a b old fl w = some ⟨some r, some false, w, .next⟩) :
    Holds n r (k.eval x y) := by
  obtain ⟨r', fl', h', h1, h2⟩ := arith_exact env k size n signed hs a b old x y fl w hx hy ha hb
  rw [h] at h'
  have hn := bits_pos hs
  injection h' with h'
  injection h' with e1 e2
  injection e1 with e1
  injection e2 with e2
  subst e1 e2
  rw [h2 rfl]
  have : InType signed n (k.eval x y) := by
    apply Classical.byContradiction
    intro hc
    exact absurd (h1.2 hc) (by decide)
  exact ofInt_inType (by omega) hn.2 this

/-- Without a check the operation is exact for all operands whose result fits 64 bits; otherwise it is
undefined. -/
theorem arith_plain {W : Type} (env : Env W) (k : Arith) (size : Size) (cc : CC)
    (hc : cc ≠ .o ∧ cc ≠ .c) (a b old : Word) (fl : Bool) (w : W) (e : Eff W) :
    effect env k.op size cc a b old fl w = some e ↔
      InType true 64 (k.eval a.toInt b.toInt) ∧
        e = ⟨some (BitVec.ofInt 64 (k.eval a.toInt b.toInt)), none, w, .next⟩ := by
  have : effect env k.op size cc a b old fl w = giveFlags w (arith k size cc a b) := by
    cases k <;> rfl
  rw [this]
  have : arith k size cc a b = (plain (k.eval a.toInt b.toInt)).map fun r => (r, none) := by
    cases cc <;> simp_all [arith]
  rw [this]
  unfold plain giveFlags
  by_cases h : inRange true 64 (k.eval a.toInt b.toInt) = true
  · simp [h, inRange_iff.1 h, eq_comm]
  · have h2 : ¬ InType true 64 (k.eval a.toInt b.toInt) := fun c => h (inRange_iff.2 c)
    simp [h, h2]

/-! ## comparison, division -/

/-- The relation a condition code stands for. -/
def CC.Rel : CC → Int → Int → Prop
  | .eq, x, y => x = y
  | .ne, x, y => x ≠ y
  | .lt, x, y => x < y
  | .ge, x, y => y ≤ x
  | .gt, x, y => y < x
  | .le, x, y => x ≤ y
  | _, _, _ => False

/-- **C28.**  A comparison sets the flag exactly if the numbers are in the relation; a combining comparison
exactly if the flag was set before, too. -/
theorem compare_exact {W : Type} (env : Env W) (size : Size) (cc : CC) (a b old : Word) (fl : Bool) (w : W) :
    (∃ fl', effect env .cmp size cc a b old fl w = some ⟨none, some fl', w, .next⟩ ∧
      (fl' = true ↔ cc.Rel a.toInt b.toInt)) ∧
    (∃ fl', effect env .ccmp size cc a b old fl w = some ⟨none, some fl', w, .next⟩ ∧
      (fl' = true ↔ fl = true ∧ cc.Rel a.toInt b.toInt)) := by
  have h : compare cc a b = true ↔ cc.Rel a.toInt b.toInt := by
    cases cc <;> simp [compare, CC.Rel, BitVec.toInt_inj]
  refine ⟨⟨_, rfl, h⟩, ⟨_, rfl, ?_⟩⟩
  rw [Bool.and_eq_true, h]

/-- **C28.**  Division truncates, the remainder has the sign of the dividend; both are undefined exactly if
the divisor is zero or the quotient does not fit. -/
theorem division_exact {W : Type} (env : Env W) (size : Size) (cc : CC) (a b old : Word) (fl : Bool) (w : W)
    (e : Eff W) :
    (effect env .div size cc a b old fl w = some e ↔
      b.toInt ≠ 0 ∧ InType true 64 (a.toInt.tdiv b.toInt) ∧
        e = ⟨some (BitVec.ofInt 64 (a.toInt.tdiv b.toInt)), none, w, .next⟩) ∧
    (effect env .rem size cc a b old fl w = some e ↔
      b.toInt ≠ 0 ∧ InType true 64 (a.toInt.tdiv b.toInt) ∧
        e = ⟨some (BitVec.ofInt 64 (a.toInt.tmod b.toInt)), none, w, .next⟩) := by
  have hb : b.toInt = 0 ↔ b = 0 := by
    rw [← BitVec.toInt_inj]; simp
  have hd : ∀ q, divide a b = some q ↔ b.toInt ≠ 0 ∧ InType true 64 (a.toInt.tdiv b.toInt) ∧
      q = BitVec.ofInt 64 (a.toInt.tdiv b.toInt) := by
    intro q
    unfold divide plain
    by_cases c : b = 0
    · rw [if_pos c]
      simp [hb.2 c]
    · rw [if_neg c]
      have c' : b.toInt ≠ 0 := fun x => c (hb.1 x)
      by_cases h : inRange true 64 (a.toInt.tdiv b.toInt) = true
      · rw [if_pos h]
        simp [c', inRange_iff.1 h, eq_comm]
      · rw [if_neg h]
        have : ¬ InType true 64 (a.toInt.tdiv b.toInt) := fun x => h (inRange_iff.2 x)
        simp [this]
  constructor
  · show give w (divide a b) = some e ↔ _
    unfold give
    rw [Option.map_eq_some_iff]
    constructor
    · rintro ⟨q, h, rfl⟩
      obtain ⟨h1, h2, rfl⟩ := (hd q).1 h
      exact ⟨h1, h2, rfl⟩
    · rintro ⟨h1, h2, rfl⟩
      exact ⟨_, (hd _).2 ⟨h1, h2, rfl⟩, rfl⟩
  · show give w ((divide a b).bind fun q => plain (a.toInt - q.toInt * b.toInt)) = some e ↔ _
    have key : b.toInt ≠ 0 → InType true 64 (a.toInt.tdiv b.toInt) →
        plain (a.toInt - (BitVec.ofInt 64 (a.toInt.tdiv b.toInt)).toInt * b.toInt) =
          some (BitVec.ofInt 64 (a.toInt.tmod b.toInt)) := by
      intro h1 h2
      have e1 : (BitVec.ofInt 64 (a.toInt.tdiv b.toInt)).toInt = a.toInt.tdiv b.toInt := by
        rw [BitVec.toInt_ofInt]
        exact wrap_of_inType (signed := true) (n := 64) (by omega) h2
      have e2 : a.toInt - a.toInt.tdiv b.toInt * b.toInt = a.toInt.tmod b.toInt := by
        have := Int.tdiv_mul_add_tmod a.toInt b.toInt
        omega
      rw [e1, e2]
      unfold plain
      have h3 : (a.toInt.tmod b.toInt).natAbs ≤ a.toInt.natAbs := by
        rw [Int.natAbs_tmod]; exact Nat.mod_le _ _
      have h4 : (a.toInt.tmod b.toInt).natAbs < b.toInt.natAbs := by
        rw [Int.natAbs_tmod]; exact Nat.mod_lt _ (by omega)
      have h5 := BitVec.le_toInt b
      have h6 := BitVec.toInt_lt (x := b)
      rw [if_pos]
      rw [inRange_iff]
      unfold InType
      simp only [if_true] at *
      constructor <;> omega
    unfold give
    rw [Option.map_eq_some_iff]
    constructor
    · rintro ⟨q, h, rfl⟩
      rw [Option.bind_eq_some_iff] at h
      obtain ⟨x, hx, h⟩ := h
      obtain ⟨h1, h2, rfl⟩ := (hd x).1 hx
      rw [key h1 h2] at h
      injection h with h
      subst h
      exact ⟨h1, h2, rfl⟩
    · rintro ⟨h1, h2, rfl⟩
      refine ⟨_, ?_, rfl⟩
      rw [Option.bind_eq_some_iff]
      exact ⟨_, (hd _).2 ⟨h1, h2, rfl⟩, key h1 h2⟩

/-! ## C27: powers -/

/-- The bound of a type. -/
def top (signed : Bool) (n : Nat) : Int := if signed then 2 ^ (n - 1) else 2 ^ n

/-- Numbers that may occur. -/
def Sign (signed : Bool) (x : Int) : Prop := signed = false → 0 ≤ x

theorem top_ge {signed n} (hn : 2 ≤ n) : 2 ≤ top signed n := by
  unfold top
  have h1 : (2 : Int) ^ 1 ≤ 2 ^ (n - 1) := by
    exact_mod_cast Nat.pow_le_pow_right (n := 2) (by decide) (by omega)
  have h2 : (2 : Int) ^ 1 ≤ 2 ^ n := by
    exact_mod_cast Nat.pow_le_pow_right (n := 2) (by decide) (by omega)
  cases signed <;> simp <;> omega

theorem inRange_iff_top {signed n x} (h : Sign signed x) :
    inRange signed n x = true ↔ -top signed n ≤ x ∧ x < top signed n := by
  unfold inRange top Sign at *
  cases signed with
  | true => simp
  | false =>
    have := h rfl
    have hp : (0 : Int) < 2 ^ n := Int.pow_pos (by decide)
    simp; omega

theorem Sign.mul {signed a b} (ha : Sign signed a) (hb : Sign signed b) : Sign signed (a * b) :=
  fun h => Int.mul_nonneg (ha h) (hb h)

theorem notIn_big {signed n} {a b : Int} (sa : Sign signed a) (sb : Sign signed b) (hn : 2 ≤ n)
    (ha : top signed n ≤ a.natAbs) (hb : 2 ≤ b.natAbs) : inRange signed n (a * b) = false := by
  have h : a.natAbs * 2 ≤ a.natAbs * b.natAbs := Nat.mul_le_mul (Nat.le_refl _) hb
  rw [← Int.natAbs_mul] at h
  rw [← Bool.not_eq_true, inRange_iff_top (sa.mul sb)]
  have := top_ge (signed := signed) hn
  generalize a * b = c at *
  omega

theorem notIn_natAbs {signed n} {a : Int} (sa : Sign signed a) (h : inRange signed n a = false) :
    top signed n ≤ a.natAbs := by
  rw [← Bool.not_eq_true, inRange_iff_top sa] at h
  omega

theorem two_le_sq {a : Int} (h : 2 ≤ a.natAbs) : 2 ≤ (a * a).natAbs := by
  rw [Int.natAbs_mul]
  have : 2 * 2 ≤ a.natAbs * a.natAbs := Nat.mul_le_mul h h
  omega

/-- Loop invariant: `X` and `R` are the exact values the machine variables stand for. -/
structure PowInv (signed : Bool) (n : Nat) (x r : Int) (ov xo : Bool) (X R : Int) : Prop where
  sx : Sign signed X
  sr : Sign signed R
  xok : xo = false → x = X ∧ inRange signed n X = true
  xbad : xo = true → top signed n ≤ X
  rok : ov = false → r = R ∧ inRange signed n R = true
  rbad : ov = true → inRange signed n R = false ∧ 2 ≤ X.natAbs
  unit : 2 ≤ X.natAbs → R = 1 ∨ 2 ≤ R.natAbs
  small : X.natAbs ≤ 1 → R.natAbs ≤ 1

theorem wrap_of_in {signed n x} (hn : 2 ≤ n) (h : inRange signed n x = true) : wrap signed n x = x :=
  wrap_of_inType (by omega) (inRange_iff.1 h)

theorem sq_flag {signed n} {x X : Int} {xo : Bool} (hn : 2 ≤ n)
    (h1 : xo = false → x = X ∧ inRange signed n X = true) (h2 : xo = true → top signed n ≤ X) :
    ((xo || !inRange signed n (x * x)) = false →
      wrap signed n (x * x) = X * X ∧ inRange signed n (X * X) = true) ∧
    ((xo || !inRange signed n (x * x)) = true → top signed n ≤ X * X) := by
  have hsq : 0 ≤ X * X := by
    have h : ((X.natAbs * X.natAbs : Nat) : Int) = X * X := Int.natAbs_mul_self
    rw [← h]; exact Int.natCast_nonneg _
  cases xo with
  | false =>
    obtain ⟨rfl, hin⟩ := h1 rfl
    simp only [Bool.false_or, Bool.not_eq_false', Bool.not_eq_true']
    constructor
    · intro h; exact ⟨wrap_of_in hn h, h⟩
    · intro h
      have := notIn_natAbs (fun _ => hsq) h
      omega
  | true =>
    have hX := h2 rfl
    have ht := top_ge (signed := signed) hn
    simp only [Bool.true_or, Bool.true_eq_false, false_implies, true_and, forall_const]
    have : top signed n * 1 ≤ X * X := Int.mul_le_mul hX (by omega) (by omega) (by omega)
    omega

theorem expLoop_spec (signed : Bool) (n : Nat) (hn : 2 ≤ n) (x : Int) (y : Nat) (r : Int)
    (ov xo : Bool) :
    ∀ X R, PowInv signed n x r ov xo X R →
      ((expLoop signed n x y r ov xo).2 = false ↔ inRange signed n (R * X ^ y) = true) ∧
      ((expLoop signed n x y r ov xo).2 = false →
        (expLoop signed n x y r ov xo).1 = R * X ^ y) := by
  have ht := top_ge (signed := signed) hn
  induction y using Nat.strongRecOn generalizing x r ov xo with
  | _ y ih =>
  intro X R I
  rw [expLoop]
  by_cases h0 : y = 0
  · subst h0
    simp only [dif_pos, Int.pow_zero, Int.mul_one]
    cases ov with
    | false => have := I.rok rfl; simp [this.1, this.2]
    | true => have := I.rbad rfl; simp [this.1]
  · rw [dif_neg h0]
    have hpow : X ^ y = (if y % 2 = 1 then X else 1) * (X * X) ^ (y / 2) := by
      have e : X * X = X ^ 2 := by rw [Int.pow_succ, Int.pow_succ, Int.pow_zero, Int.one_mul]
      rw [e, ← Int.pow_mul]
      by_cases c : y % 2 = 1
      · rw [if_pos c]
        have : y = 2 * (y / 2) + 1 := by omega
        conv => lhs; rw [this, Int.pow_succ]
        rw [Int.mul_comm]
      · rw [if_neg c, Int.one_mul]
        have : y = 2 * (y / 2) := by omega
        conv => lhs; rw [this]
    have sxx := I.sx.mul I.sx
    obtain ⟨s1, s2⟩ := sq_flag hn I.xok I.xbad
    by_cases c : y % 2 = 1
    · rw [if_pos c] at hpow
      simp only [if_pos c]
      have hprod : R * X ^ y = (R * X) * (X * X) ^ (y / 2) := by rw [hpow, Int.mul_assoc]
      rw [hprod]
      have srx := I.sr.mul I.sx
      have hunit : 2 ≤ (X * X).natAbs → R * X = 1 ∨ 2 ≤ (R * X).natAbs := by
        intro h
        right
        have hX : 2 ≤ X.natAbs := by
          apply Classical.byContradiction
          intro hc
          have : X.natAbs * X.natAbs ≤ 1 * 1 := Nat.mul_le_mul (by omega) (by omega)
          rw [Int.natAbs_mul] at h; omega
        rw [Int.natAbs_mul]
        have hR : 1 ≤ R.natAbs := by rcases I.unit hX with h | h <;> omega
        have : 1 * 2 ≤ R.natAbs * X.natAbs := Nat.mul_le_mul hR hX
        omega
      have hsmall : (X * X).natAbs ≤ 1 → (R * X).natAbs ≤ 1 := by
        intro h
        have hX : X.natAbs ≤ 1 := by
          apply Classical.byContradiction
          intro hc
          have := two_le_sq (a := X) (by omega)
          omega
        rw [Int.natAbs_mul]
        have : R.natAbs * X.natAbs ≤ 1 * 1 := Nat.mul_le_mul (I.small hX) hX
        omega
      cases hxo : xo with
      | true =>
        simp only [if_true]
        rw [hxo] at s1 s2
        apply ih (y / 2) (by omega)
        have hXb := I.xbad hxo
        have hX2 : 2 ≤ X.natAbs := by omega
        refine ⟨sxx, srx, s1, s2, by simp, fun _ => ⟨?_, two_le_sq hX2⟩, hunit, hsmall⟩
        rcases I.unit hX2 with h | h
        · rw [h, Int.one_mul, ← Bool.not_eq_true, inRange_iff_top I.sx]; omega
        · rw [Int.mul_comm]
          exact notIn_big I.sx I.sr hn (by omega) h
      | false =>
        simp only [Bool.false_eq_true, if_false]
        rw [hxo] at s1 s2
        apply ih (y / 2) (by omega)
        obtain ⟨rfl, hXin⟩ := I.xok hxo
        refine ⟨sxx, srx, s1, s2, ?_, ?_, hunit, hsmall⟩
        · intro h
          rw [Bool.or_eq_false_iff] at h
          obtain ⟨rfl, hRin⟩ := I.rok h.1
          simp only [Bool.not_eq_false'] at h
          exact ⟨wrap_of_in hn h.2, h.2⟩
        · intro h
          rw [Bool.or_eq_true] at h
          cases hov : ov with
          | true =>
            obtain ⟨a, b⟩ := I.rbad hov
            exact ⟨notIn_big I.sr I.sx hn (notIn_natAbs I.sr a) b, two_le_sq b⟩
          | false =>
            obtain ⟨rfl, hRin⟩ := I.rok hov
            rw [hov] at h
            simp only [Bool.false_eq_true, false_or, Bool.not_eq_true'] at h
            refine ⟨h, ?_⟩
            apply two_le_sq
            apply Classical.byContradiction
            intro hc
            have h1 := I.small (by omega)
            have : r.natAbs * x.natAbs ≤ 1 * 1 := Nat.mul_le_mul h1 (by omega)
            rw [← Int.natAbs_mul] at this
            have := notIn_natAbs srx h
            omega
    · rw [if_neg c, Int.one_mul] at hpow
      simp only [if_neg c]
      rw [hpow]
      apply ih (y / 2) (by omega)
      refine ⟨sxx, I.sr, s1, s2, I.rok, fun h => ⟨(I.rbad h).1, two_le_sq (I.rbad h).2⟩, ?_, ?_⟩
      · intro h
        apply I.unit
        apply Classical.byContradiction
        intro hc
        have : X.natAbs * X.natAbs ≤ 1 * 1 := Nat.mul_le_mul (by omega) (by omega)
        rw [Int.natAbs_mul] at h; omega
      · intro h
        apply I.small
        apply Classical.byContradiction
        intro hc
        have := two_le_sq (a := X) (by omega)
        omega

/-- **C27 (run time).**  For every width and signedness, a base of the type and an exponent that is a
natural number of the type too, the power instruction with overflow check sets the flag exactly if the
power is outside the range of the type, and otherwise returns the power. -/
theorem exp_exact_partial {W : Type} (env : Env W) (size : Size) (n : Nat) (signed : Bool)
    (hs : size.bits = some n) (a b old : Word) (x : Int) (y : Nat) (fl : Bool) (w : W)
    (hx : InType signed n x) (hy : InType signed n y) (ha : Holds n a x) (hb : Holds n b y) :
    ∃ r fl', effect env .exp size (checkCC signed) a b old fl w = some ⟨some r, some fl', w, .next⟩ ∧
      (fl' = true ↔ ¬ InType signed n (x ^ y)) ∧ (fl' = false → r = BitVec.ofInt 64 (x ^ y)) := by
  have hn := bits_pos hs
  have sx : Sign signed x := by
    intro h; subst h; unfold InType at hx; simp at hx; exact hx.1
  have I : PowInv signed n x 1 false false x 1 := by
    refine ⟨sx, fun _ => by decide, fun _ => ⟨rfl, inRange_iff.2 hx⟩, by simp, fun _ => ⟨rfl, ?_⟩,
      by simp, fun _ => Or.inl rfl, fun _ => by decide⟩
    rw [inRange_iff_top (fun _ => by decide)]
    have := top_ge (signed := signed) (n := n) (by omega)
    omega
  obtain ⟨h1, h2⟩ := expLoop_spec signed n (by omega) x y 1 false false x 1 I
  rw [Int.one_mul] at h1 h2
  have e : checkedExp signed n a b = some (BitVec.ofInt 64 (expLoop signed n x y 1 false false).1,
      (expLoop signed n x y 1 false false).2) := by
    unfold checkedExp
    rw [wrap_of_holds (by omega) hx ha, wrap_of_holds (by omega) hy hb]
    have : ¬ ((y : Int) < 0) := by omega
    simp [this]
  refine ⟨_, _, ?_, ?_, fun h => congrArg _ (h2 h)⟩
  · show effect env .exp size (checkCC signed) a b old fl w = _
    have : effect env .exp size (checkCC signed) a b old fl w =
        giveFlags w ((checkedExp signed n a b).map fun p => (p.1, some p.2)) := by
      cases signed <;> simp [checkCC, effect, power, hs]
    rw [this, e]
    rfl
  · rw [← inRange_iff, ← h1]; simp

/-! ## tests, and what the restriction on the exponent is needed for -/

/-- A world with nothing in it. -/
def noEnv : Env Unit where
  cpool := 0
  cover := id
  recv := fun _ _ => none
  send := fun _ _ _ => none
  load := fun _ _ _ _ => none
  store := fun _ _ _ _ => none
  copy := fun _ _ _ _ => none
  move := fun _ _ _ _ => none
  bzero := fun _ _ _ => none
  memset := fun _ _ _ _ _ => none
  sadd := fun _ _ _ _ => none
  galloc := fun _ _ => none
  lalloc := fun _ _ => none
  salloc := fun _ _ => none
  call := fun _ _ => none
  exit := fun _ _ => none
  getpriv := fun _ _ => none
  putpriv := fun _ _ _ => none
  trim := fun _ => none
  reexec := fun _ => none
  farith := fun _ _ _ => none
  fcompare := fun _ _ _ => false

/-- What a test looks at. -/
def resultAndFlags {W} (e : Option (Eff W)) : Option (Option Word × Option Bool) :=
  e.map fun e => (e.result, e.flags)

example : resultAndFlags (effect noEnv .mul .s8 .o 0xFFF0 8 0 false ()) =
    some (some (-128), some false) := by decide +kernel
example : InType true 8 (-16) ∧ InType true 8 8 ∧ Holds 8 0xFFF0 (-16) ∧ Holds 8 8 8 ∧
    InType true 8 (Arith.eval .mul (-16) 8) := by unfold InType Holds; decide
example : resultAndFlags (effect noEnv .add .s64 .o 0x7FFFFFFFFFFFFFFF 1 0 false ()) =
    some (some 0x8000000000000000, some true) := by decide +kernel
example : resultAndFlags (effect noEnv .div .s64 .none (-7) 2 0 false ()) = some (some (-3), none) ∧
    resultAndFlags (effect noEnv .rem .s64 .none (-7) 2 0 false ()) = some (some (-1), none) ∧
    resultAndFlags (effect noEnv .cmp .unspec .lt (-7) 2 0 false ()) = some (none, some true) := by decide +kernel
example : resultAndFlags (effect noEnv .exp .s8 .o (-2) 7 0 false ()) =
    some (some (-128), some false) := by decide +kernel
example : resultAndFlags (effect noEnv .exp .s32 .c 3 20 0 false ()) =
    some (some 3486784401, some false) := by decide +kernel
example : InType true 8 (-2) ∧ InType true 8 (7 : Nat) ∧ Holds 8 (-2) (-2) ∧ Holds 8 7 (7 : Nat) := by
  unfold InType Holds; decide

/-- The exponent, a number of type INTEGER in the source, is converted to the type of the base without
a check (`lower_builtin`, lower.c 2146-2149): in a type with eight bits the power 2**256, far out of range,
is 1 and no overflow is reported. -/
theorem exp_truncated_counterexample :
    resultAndFlags (effect noEnv .exp .s8 .o 2 256 0 false ()) = some (some 1, some false) ∧
      ¬ InType true 8 (2 ^ 256) := by
  unfold InType; decide +kernel

/-- And the power 1**128, which is 1, is never computed: the loop does not end. -/
theorem exp_endless_counterexample :
    (effect noEnv .exp .s8 .o 1 128 0 false ()).isNone = true ∧ InType true 8 (1 ^ 128) := by
  unfold InType; decide +kernel

end Verif.Code
