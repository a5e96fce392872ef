import Verif.Jit.LlvmModel

/-!
# Arithmetic in the code that LLVM makes

The instructions that `jit-llvm.c` emits for an operation compute what the interpreter computes.
-/

namespace Verif.Code.Llvm

/-! ## conversions -/

theorem low_low (n : Nat) (h : n ≤ 64) (w : Word) : (low n w).setWidth n = w.setWidth n := by
  apply BitVec.eq_of_toNat_eq
  simp only [low, BitVec.toNat_setWidth]
  have h1 : w.toNat % 2 ^ n < 2 ^ 64 :=
    Nat.lt_of_lt_of_le (Nat.mod_lt _ (Nat.two_pow_pos n)) (Nat.pow_le_pow_right (by decide) h)
  rw [Nat.mod_eq_of_lt h1, Nat.mod_mod]

theorem low_64 (w : Word) : low 64 w = w := by
  apply BitVec.eq_of_toNat_eq
  simp only [low, BitVec.toNat_setWidth]
  rw [Nat.mod_eq_of_lt w.isLt, Nat.mod_eq_of_lt w.isLt]

theorem signExt_64 (w : Word) : signExt 64 w = w := by
  simp [signExt]

theorem signExt_small (w : Word) (h : w.toNat < 2 ^ 31) : signExt 32 w = w := by
  apply BitVec.eq_of_toInt_eq
  have h1 : (w.setWidth 32).toNat = w.toNat := by
    rw [BitVec.toNat_setWidth]; exact Nat.mod_eq_of_lt (by omega)
  have h2 : (w.setWidth 32).toInt = w.toNat := by
    rw [BitVec.toInt_eq_toNat_of_lt (by omega), h1]
  have h3 : w.toInt = w.toNat := BitVec.toInt_eq_toNat_of_lt (by omega)
  rw [signExt, BitVec.toInt_signExtend_of_le (by decide), h2, h3]

theorem low_small (w : Word) (h : w.toNat < 2 ^ 31) : low 32 w = w := by
  apply BitVec.eq_of_toNat_eq
  simp only [low, BitVec.toNat_setWidth]
  rw [Nat.mod_eq_of_lt (show w.toNat < 2 ^ 32 by omega), Nat.mod_eq_of_lt w.isLt]

theorem pow_dvd_64 {n : Nat} (h : n ≤ 64) : (2 : Int) ^ n ∣ 2 ^ 64 := by
  have := Nat.pow_dvd_pow 2 h
  exact_mod_cast this

/-- The low bits of a word as a number. -/
theorem asInt_eq (signed : Bool) (n : Nat) (h : n ≤ 64) (w : Word) : asInt signed n w = wrap signed n w.toInt := by
  have hd : (2 ^ n : Nat) ∣ 2 ^ 64 := Nat.pow_dvd_pow 2 h
  cases signed
  · show ((w.setWidth n).toNat : Int) = w.toInt % 2 ^ n
    rw [BitVec.toNat_setWidth, BitVec.toInt_eq_toNat_bmod]
    rw [show (2 : Int) ^ n = ((2 ^ n : Nat) : Int) by push_cast; rfl]
    rw [Int.natCast_emod]
    rw [← Int.bmod_emod]
    rw [← Int.bmod_emod (x := ((w.toNat : Int).bmod (2 ^ 64)))]
    rw [Int.bmod_bmod_of_dvd hd]
  · show (w.setWidth n).toInt = w.toInt.bmod (2 ^ n)
    rw [BitVec.toInt_setWidth, BitVec.toInt_eq_toNat_bmod, Int.bmod_bmod_of_dvd hd]

theorem asInt_low (signed : Bool) (n : Nat) (h : n ≤ 64) (w : Word) : asInt signed n (low n w) = asInt signed n w := by
  unfold asInt; rw [low_low n h]

theorem setWidth_ofInt (n : Nat) (h : n ≤ 64) (x : Int) :
    ((BitVec.ofInt n x).setWidth 64).setWidth n = BitVec.ofInt n x := by
  apply BitVec.eq_of_toNat_eq
  rw [BitVec.toNat_setWidth, BitVec.toNat_setWidth]
  have h1 := (BitVec.ofInt n x).isLt
  have h2 : (2 : Nat) ^ n ≤ 2 ^ 64 := Nat.pow_le_pow_right (by decide) h
  rw [Nat.mod_eq_of_lt (a := (BitVec.ofInt n x).toNat) (by omega), Nat.mod_eq_of_lt h1]

/-- Extension of the wrapped result with its sign. -/
theorem signExt_ofInt (n : Nat) (h : n ≤ 64) (x : Int) :
    signExt n ((BitVec.ofInt n x).setWidth 64) = BitVec.ofInt 64 (wrap true n x) := by
  unfold signExt
  rw [setWidth_ofInt n h]
  apply BitVec.eq_of_toInt_eq
  rw [BitVec.toInt_signExtend_of_le h, BitVec.toInt_ofInt, BitVec.toInt_ofInt]
  show x.bmod (2 ^ n) = (x.bmod (2 ^ n)).bmod (2 ^ 64)
  have hp : (0 : Nat) < 2 ^ n := Nat.two_pow_pos n
  have h2 : (2 : Nat) ^ n ≤ 2 ^ 64 := Nat.pow_le_pow_right (by decide) h
  have a := Int.le_bmod (x := x) hp
  have b := Int.bmod_lt (x := x) hp
  symm
  apply Int.bmod_eq_of_le <;> omega

/-- Extension with zeros. -/
theorem low_ofInt (n : Nat) (h : n ≤ 64) (x : Int) :
    low n ((BitVec.ofInt n x).setWidth 64) = BitVec.ofInt 64 (wrap false n x) := by
  unfold low
  rw [setWidth_ofInt n h]
  apply BitVec.eq_of_toNat_eq
  rw [BitVec.toNat_setWidth, BitVec.toNat_ofInt, BitVec.toNat_ofInt]
  show (x % ((2 ^ n : Nat) : Int)).toNat % 2 ^ 64 = (x % 2 ^ n % ((2 ^ 64 : Nat) : Int)).toNat
  have hp : (0 : Nat) < 2 ^ n := Nat.two_pow_pos n
  have h2 : (2 : Nat) ^ n ≤ 2 ^ 64 := Nat.pow_le_pow_right (by decide) h
  have e : (2 : Int) ^ n = ((2 ^ n : Nat) : Int) := by push_cast; rfl
  rw [e]
  have a := Int.emod_nonneg x (show ((2 ^ n : Nat) : Int) ≠ 0 by omega)
  have b := Int.emod_lt_of_pos x (show (0 : Int) < ((2 ^ n : Nat) : Int) by omega)
  generalize x % ((2 ^ n : Nat) : Int) = y at *
  rw [Int.emod_eq_of_lt a (by omega), Nat.mod_eq_of_lt (by omega)]

/-! ## addition, subtraction and multiplication -/

/-- The extension of a result that `sext` or `zext` makes; for 64 bits there is none. -/
def ext (signed : Bool) (n : Nat) (w : Word) : Word := if signed then signExt n w else low n w

theorem ext_64 (signed : Bool) (w : Word) : ext signed 64 w = w := by
  cases signed
  · exact low_64 w
  · exact signExt_64 w

theorem ext_ofInt (signed : Bool) (n : Nat) (h : n ≤ 64) (x : Int) :
    ext signed n ((BitVec.ofInt n x).setWidth 64) = BitVec.ofInt 64 (wrap signed n x) := by
  cases signed
  · exact low_ofInt n h x
  · exact signExt_ofInt n h x

/-- An operation with a check for overflow, on operands cut to the size. -/
theorem withOverflow_eq (k : Arith) (signed : Bool) (n : Nat) (h : n ≤ 64) (a b : Word) :
    (ext signed n (withOverflow k signed n (low n a) (low n b)).1, (withOverflow k signed n (low n a) (low n b)).2) =
      checked k signed n a b := by
  simp only [withOverflow, checked, asInt_low _ n h, asInt_eq _ n h, ext_ofInt _ n h]

theorem plain_some {x : Int} {r : Word} (h : plain x = some r) :
    r = BitVec.ofInt 64 x ∧ -2 ^ 63 ≤ x ∧ x < 2 ^ 63 := by
  unfold plain at h
  by_cases hr : inRange true 64 x = true
  · rw [if_pos hr] at h
    simp only [inRange, if_true, decide_eq_true_eq] at hr
    exact ⟨(Option.some.inj h).symm, hr.1, hr.2⟩
  · rw [if_neg hr] at h; cases h

def Arith.bin : Arith → Bin
  | .add => .add
  | .sub => .sub
  | .mul => .mul

/-- Without a check the interpreter must not overflow. -/
theorem plain_arith (k : Arith) (a b r : Word) (h : plain (k.eval a.toInt b.toInt) = some r) :
    (Arith.bin k).eval a b = some r := by
  obtain ⟨e, -, -⟩ := plain_some h
  subst e
  cases k
  · show some (a + b) = some (BitVec.ofInt 64 (a.toInt + b.toInt))
    rw [BitVec.ofInt_add, BitVec.ofInt_toInt, BitVec.ofInt_toInt]
  · show some (a - b) = some (BitVec.ofInt 64 (a.toInt - b.toInt))
    rw [Int.sub_eq_add_neg, BitVec.ofInt_add, BitVec.ofInt_neg, BitVec.ofInt_toInt, BitVec.ofInt_toInt, BitVec.sub_eq_add_neg]
  · show some (a * b) = some (BitVec.ofInt 64 (a.toInt * b.toInt))
    rw [BitVec.ofInt_mul, BitVec.ofInt_toInt, BitVec.ofInt_toInt]

theorem plain_neg (a r : Word) (h : plain (-a.toInt) = some r) : -a = r := by
  obtain ⟨e, -, -⟩ := plain_some h
  rw [e, BitVec.ofInt_neg, BitVec.ofInt_toInt]

/-! ## division -/

theorem divide_defined {a b q : Word} (h : divide a b = some q) :
    ¬ (b = 0 ∨ (a.toInt = -2 ^ 63 ∧ b.toInt = -1)) ∧ q = BitVec.ofInt 64 (a.toInt.tdiv b.toInt) := by
  unfold divide at h
  by_cases hb : b = 0
  · rw [if_pos hb] at h; cases h
  · rw [if_neg hb] at h
    obtain ⟨e, -, h2⟩ := plain_some h
    refine ⟨?_, e⟩
    rintro (h0 | ⟨h0, h1⟩)
    · exact hb h0
    · rw [h0, h1] at h2
      exact absurd h2 (by decide)

theorem sdiv_eq (a b q : Word) (h : divide a b = some q) : Bin.eval .sdiv a b = some q := by
  obtain ⟨hd, e⟩ := divide_defined h
  show (if b = 0 ∨ (a.toInt = -2 ^ 63 ∧ b.toInt = -1) then none else some (a.sdiv b)) = some q
  rw [if_neg hd, e]
  congr 1
  apply BitVec.eq_of_toInt_eq
  rw [BitVec.toInt_sdiv, BitVec.toInt_ofInt]

theorem srem_eq (a b r : Word) (h : ((divide a b).bind fun q => plain (a.toInt - q.toInt * b.toInt)) = some r) :
    Bin.eval .srem a b = some r := by
  cases hq : divide a b with
  | none => rw [hq] at h; cases h
  | some q =>
    rw [hq] at h
    obtain ⟨hd, e⟩ := divide_defined hq
    obtain ⟨e2, -, -⟩ := plain_some (show plain (a.toInt - q.toInt * b.toInt) = some r from h)
    show (if b = 0 ∨ (a.toInt = -2 ^ 63 ∧ b.toInt = -1) then none else some (a.srem b)) = some r
    rw [if_neg hd, e2]
    congr 1
    have hq2 : q.toInt = a.toInt.tdiv b.toInt := by
      unfold divide at hq
      by_cases hb : b = 0
      · rw [if_pos hb] at hq; cases hq
      · rw [if_neg hb] at hq
        obtain ⟨e3, h3, h4⟩ := plain_some hq
        rw [e3, BitVec.toInt_ofInt]
        apply Int.bmod_eq_of_le <;> omega
    have hm := Int.tmod_def a.toInt b.toInt
    rw [hq2, Int.mul_comm, ← hm, ← BitVec.toInt_srem, BitVec.ofInt_toInt]

theorem shift_shl (a b r : Word) (h : shift (· <<< ·) a b = some r) : Bin.eval .shl a b = some r := h

theorem shift_asr (a b r : Word) (h : shift BitVec.sshiftRight a b = some r) : Bin.eval .ashr a b = some r := h

/-! ## powers -/

/-- Once a square that is used has overflowed the interpreter reports it. -/
theorem expLoop_sticky (signed : Bool) (n : Nat) : ∀ (y : Nat) (x r : Int) (o xo : Bool),
    (expLoop signed n x y r o xo).2 = false → o = false ∧ (y ≠ 0 → xo = false) := by
  intro y
  induction y using Nat.strongRecOn with
  | ind y ih =>
    intro x r o xo h
    rw [expLoop] at h
    by_cases hy : y = 0
    · rw [dif_pos hy] at h
      exact ⟨h, fun hn => absurd hy hn⟩
    · rw [dif_neg hy] at h
      by_cases hodd : y % 2 = 1
      · simp only [if_pos hodd] at h
        cases xo with
        | true =>
          simp only [if_true] at h
          exact absurd (ih (y / 2) (by omega) _ _ _ _ h).1 (by simp)
        | false =>
          simp only [Bool.false_eq_true, if_false] at h
          have h1 := (ih (y / 2) (by omega) _ _ _ _ h).1
          simp only [Bool.or_eq_false_iff] at h1
          exact ⟨h1.1, fun _ => rfl⟩
      · simp only [if_neg hodd] at h
        have h1 := ih (y / 2) (by omega) _ _ _ _ h
        refine ⟨h1.1, fun _ => ?_⟩
        have h2 := h1.2 (by omega)
        simp only [Bool.or_eq_false_iff] at h2
        exact h2.1

/-- If the interpreter does not report an overflow, the loop that LLVM runs computes the same. -/
theorem llExp_eq (signed : Bool) (n : Nat) : ∀ (rounds y : Nat) (x r : Int) (o xo : Bool), y < 2 ^ rounds →
    (expLoop signed n x y r o false).2 = false → (xo = true → y = 0) →
    llExp signed n rounds x y r o xo = expLoop signed n x y r o false := by
  intro rounds
  induction rounds with
  | zero =>
    intro y x r o xo hy _ _
    have : y = 0 := by simpa using hy
    subst this
    rw [expLoop]; rfl
  | succ rounds ih =>
    intro y x r o xo hlt hno hxo
    by_cases hy : y = 0
    · subst hy; rw [expLoop]; rfl
    · have hxo' : xo = false := by cases xo with
        | false => rfl
        | true => exact absurd (hxo rfl) hy
      subst hxo'
      have hlt2 : y / 2 < 2 ^ rounds := by rw [Nat.pow_succ] at hlt; omega
      rw [expLoop, dif_neg hy] at hno ⊢
      unfold llExp
      rw [if_neg hy]
      by_cases hodd : y % 2 = 1
      · have h0 : ¬ y % 2 = 0 := by omega
        simp only [if_pos hodd, if_neg h0, Bool.false_eq_true, if_false, Bool.false_or, Bool.or_false] at hno ⊢
        have hs := expLoop_sticky signed n _ _ _ _ _ hno
        by_cases hz : y / 2 = 0
        · rw [hz] at hno ⊢
          rw [expLoop, dif_pos rfl]
          cases rounds <;> rfl
        · have hov := hs.2 hz
          rw [hov] at hno ⊢
          exact ih _ _ _ _ _ hlt2 hno (fun h => by cases h)
      · have h0 : y % 2 = 0 := by omega
        simp only [if_neg hodd, if_pos h0, Bool.false_or] at hno ⊢
        have hs := expLoop_sticky signed n _ _ _ _ _ hno
        have hov := hs.2 (by omega)
        rw [hov] at hno ⊢
        exact ih _ _ _ _ _ hlt2 hno (fun h => by cases h)

/-- A power that the interpreter computes without overflow. -/
theorem expOverflow_eq (signed : Bool) (n : Nat) (h : n ≤ 64) (a b r : Word)
    (hc : checkedExp signed n a b = some (r, false)) :
    expOverflow signed n (low n a) (low n b) =
      ((BitVec.ofInt n (expLoop signed n (wrap signed n a.toInt) (wrap signed n b.toInt).toNat 1 false false).1).setWidth 64, false) ∧
    r = BitVec.ofInt 64 (expLoop signed n (wrap signed n a.toInt) (wrap signed n b.toInt).toNat 1 false false).1 := by
  unfold checkedExp at hc
  dsimp only at hc
  by_cases hneg : wrap signed n b.toInt < 0
  · rw [if_pos hneg] at hc; cases hc
  · rw [if_neg hneg] at hc
    have hc := Option.some.inj hc
    have h2 : (expLoop signed n (wrap signed n a.toInt) (wrap signed n b.toInt).toNat 1 false false).2 = false :=
      (Prod.mk.inj hc).2
    refine ⟨?_, ((Prod.mk.inj hc).1).symm⟩
    unfold expOverflow
    have hy : ((low n b).setWidth n).toNat = (wrap signed n b.toInt).toNat := by
      rw [low_low n h, ← asInt_eq signed n h]
      rw [← asInt_eq signed n h] at hneg
      unfold asInt at hneg ⊢
      cases signed
      · simp only [Bool.false_eq_true, if_false, Int.toNat_natCast]
      · simp only [if_true] at hneg ⊢
        have := BitVec.toInt_eq_toNat_cond (b.setWidth n)
        have hlt := (b.setWidth n).isLt
        split at this
        · omega
        · omega
    rw [hy, asInt_low _ n h, asInt_eq _ n h]
    have hlt : (wrap signed n b.toInt).toNat < 2 ^ n := by rw [← hy]; exact BitVec.isLt _
    rw [llExp_eq signed n n _ _ _ _ _ hlt h2 (fun h => by cases h)]
    generalize expLoop signed n (wrap signed n a.toInt) (wrap signed n b.toInt).toNat 1 false false = p at h2
    obtain ⟨p1, p2⟩ := p
    have h2 : p2 = false := h2
    subst h2
    rfl

/-- The power in a range: every partial product is in it too. -/
theorem wrap_range (signed : Bool) (n : Nat) (hn : 0 < n) (x : Int) (h : inRange signed n x = true) : wrap signed n x = x := by
  have e : (2 : Nat) ^ n = 2 * 2 ^ (n - 1) := by
    rw [← Nat.pow_succ']; congr 1; omega
  cases signed
  · simp only [inRange, wrap, Bool.false_eq_true, if_false, decide_eq_true_eq] at h ⊢
    exact Int.emod_eq_of_lt h.1 h.2
  · simp only [inRange, wrap, if_true, decide_eq_true_eq] at h ⊢
    have e1 : ((2 : Int) ^ (n - 1)) = ((2 ^ (n - 1) : Nat) : Int) := by push_cast; rfl
    rw [e1] at h
    generalize (2 : Nat) ^ (n - 1) = p at *
    apply Int.bmod_eq_of_le <;> omega

theorem expLoop_result (signed : Bool) (n : Nat) : ∀ (y : Nat) (x r : Int),
    inRange signed n r = true → (expLoop signed n x y r false false).2 = false →
    inRange signed n (expLoop signed n x y r false false).1 = true := by
  intro y
  induction y using Nat.strongRecOn with
  | ind y ih =>
    intro x r hr h
    rw [expLoop] at h ⊢
    by_cases hy : y = 0
    · rw [dif_pos hy]; exact hr
    · rw [dif_neg hy] at h ⊢
      have key : ∀ (r' : Int), inRange signed n r' = true →
          (expLoop signed n (wrap signed n (x * x)) (y / 2) r' false (false || !inRange signed n (x * x))).2 = false →
          inRange signed n (expLoop signed n (wrap signed n (x * x)) (y / 2) r' false (false || !inRange signed n (x * x))).1 = true := by
        intro r' hr' h'
        by_cases hz : y / 2 = 0
        · rw [hz, expLoop, dif_pos rfl]; exact hr'
        · have hov := (expLoop_sticky signed n _ _ _ _ _ h').2 hz
          rw [hov] at h' ⊢
          exact ih _ (by omega) _ _ hr' h'
      by_cases hodd : y % 2 = 1
      · simp only [if_pos hodd, Bool.false_eq_true, if_false] at h ⊢
        have hm := (expLoop_sticky signed n _ _ _ _ _ h).1
        rw [Bool.false_or] at hm
        rw [hm] at h ⊢
        have hin : inRange signed n (r * x) = true := by simpa using hm
        by_cases hn : 0 < n
        · rw [wrap_range signed n hn _ hin] at h ⊢
          exact key _ hin h
        · have : n = 0 := by omega
          subst this
          have hw : inRange signed 0 (wrap signed 0 (r * x)) = true := by
            cases signed
            · simp [inRange, wrap, Int.emod_one]
            · simp [inRange, wrap]
          exact key _ hw h
      · simp only [if_neg hodd] at h ⊢
        exact key _ hr h

/-- The result after extension. -/
theorem power_value (signed : Bool) (n : Nat) (h : n ≤ 64) (h1 : 1 < n) (a b r : Word)
    (hc : checkedExp signed n a b = some (r, false)) :
    ext signed n (expOverflow signed n (low n a) (low n b)).1 = r ∧
      (expOverflow signed n (low n a) (low n b)).2 = false := by
  obtain ⟨e1, e2⟩ := expOverflow_eq signed n h a b r hc
  rw [e1]
  refine ⟨?_, rfl⟩
  show ext signed n ((BitVec.ofInt n _).setWidth 64) = r
  rw [ext_ofInt _ n h, e2]
  congr 1
  apply wrap_range signed n (by omega)
  apply expLoop_result
  · cases signed
    · simp only [inRange, Bool.false_eq_true, if_false, decide_eq_true_eq]
      refine ⟨by decide, ?_⟩
      have : (2 : Nat) ^ 1 ≤ 2 ^ n := Nat.pow_le_pow_right (by decide) (by omega)
      have e : ((2 : Int) ^ n) = ((2 ^ n : Nat) : Int) := by push_cast; rfl
      omega
    · simp only [inRange, if_true, decide_eq_true_eq]
      have : (2 : Nat) ^ 1 ≤ 2 ^ (n - 1) := Nat.pow_le_pow_right (by decide) (by omega)
      have e : ((2 : Int) ^ (n - 1)) = ((2 ^ (n - 1) : Nat) : Int) := by push_cast; rfl
      omega
  · unfold checkedExp at hc
    dsimp only at hc
    by_cases hneg : wrap signed n b.toInt < 0
    · rw [if_pos hneg] at hc; cases hc
    · rw [if_neg hneg] at hc
      exact (Prod.mk.inj (Option.some.inj hc)).2

end Verif.Code.Llvm
