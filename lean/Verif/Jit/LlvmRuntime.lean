import Verif.Jit.LlvmProps

/-!
# The functions that the LLVM code has of its own

Models of `cgen_tlab_alloc_body`, `cgen_macro_lalloc`, `cgen_frame_anchor`, `cgen_macro_trim`,
`cgen_macro_sadd` and `cgen_memset_body`, `/repo/src/jit/jit-llvm.c` lines 2149-2164, 2264-2276, 2306-2323,
2539-2546, 3093-3164, 3289-3353, and of what the interpreter calls, `tlab_alloc` in `/repo/src/rt/mspace.c`
lines 401-413, `interp_trim` and `interp_sadd`, `/repo/src/jit/jit-interp.c` lines 861-884, and the loop of
`interp_memset`, 772-788.

Simplifications: of the buffer only its two numbers are modelled; an allocation is the offset in the
buffer, or nothing if `mspace_alloc` is called, which gets the same number of bytes in both.
-/

namespace Verif.Code.Llvm.Runtime

/-! ## allocation -/

/-- `tlab_t`, mspace.h 32-38, with the watermark of the frame, jit-priv.h 318. -/
structure Tlab where
  alloc : BitVec 32
  limit : BitVec 32
  watermark : BitVec 32 := 0
  deriving DecidableEq, Repr

/-- `tlab_alloc`, mspace.c 401-413: where in the buffer, and the buffer after it.  The sum is computed with
64 bits, and `ALIGN_UP` rounds to eight. -/
def tlabAlloc (t : Tlab) (size : Word) : Option (BitVec 32) × Tlab :=
  if (t.alloc.setWidth 64 + size).toNat ≤ t.limit.toNat then
    (some t.alloc, { t with alloc := (t.alloc.setWidth 64 + ((size + 7#64) &&& ~~~7#64)).setWidth 32 })
  else (none, t)

/-- The body of `nvc.tlab_alloc`, jit-llvm.c 3093-3164: the size is cut to 32 bits, and so is the sum. -/
def llvmAlloc (t : Tlab) (bytes : Word) : Option (BitVec 32) × Tlab :=
  let next := t.alloc + ((bytes.setWidth 32 + 7#32) &&& ~~~7#32)
  if next.toNat > t.limit.toNat then (none, t) else (some t.alloc, { t with alloc := next })

/-- What holds of a buffer: assertions in mspace.c 403-404 and 366. -/
structure TlabOk (t : Tlab) : Prop where
  le : t.alloc.toNat ≤ t.limit.toNat
  aligned : t.alloc.toNat % 8 = 0
  limit : t.limit.toNat % 8 = 0
  small : t.limit.toNat < 2 ^ 31

theorem seven64 : ∀ j : Fin 64, (7#64)[j.1] = decide (j.1 < 3) := by decide

theorem align64 (s : Word) (h : s.toNat + 7 < 2 ^ 64) : ((s + 7#64) &&& ~~~7#64).toNat = (s.toNat + 7) / 8 * 8 := by
  have h1 : ((s + 7#64) &&& ~~~7#64) = ((s + 7#64) >>> 3) <<< 3 := by
    ext i hi
    simp only [BitVec.getElem_and, BitVec.getElem_not, BitVec.getElem_shiftLeft, BitVec.getElem_ushiftRight]
    rw [seven64 ⟨i, hi⟩]
    by_cases hi3 : i < 3
    · simp [hi3]
    · simp only [hi3, decide_false, Bool.not_false, Bool.and_true, Bool.true_and]
      rw [BitVec.getLsbD_eq_getElem (by omega)]
      congr 1
      omega
  rw [h1, BitVec.toNat_shiftLeft, BitVec.toNat_ushiftRight, BitVec.toNat_add]
  rw [show (7#64).toNat = 7 from rfl, Nat.mod_eq_of_lt (by omega)]
  rw [Nat.shiftLeft_eq, Nat.shiftRight_eq_div_pow]
  omega

theorem seven32 : ∀ j : Fin 32, (7#32)[j.1] = decide (j.1 < 3) := by decide

theorem align32 (s : BitVec 32) (h : s.toNat + 7 < 2 ^ 32) : ((s + 7#32) &&& ~~~7#32).toNat = (s.toNat + 7) / 8 * 8 := by
  have h1 : ((s + 7#32) &&& ~~~7#32) = ((s + 7#32) >>> 3) <<< 3 := by
    ext i hi
    simp only [BitVec.getElem_and, BitVec.getElem_not, BitVec.getElem_shiftLeft, BitVec.getElem_ushiftRight]
    rw [seven32 ⟨i, hi⟩]
    by_cases hi3 : i < 3
    · simp [hi3]
    · simp only [hi3, decide_false, Bool.not_false, Bool.and_true, Bool.true_and]
      rw [BitVec.getLsbD_eq_getElem (by omega)]
      congr 1
      omega
  rw [h1, BitVec.toNat_shiftLeft, BitVec.toNat_ushiftRight, BitVec.toNat_add]
  rw [show (7#32).toNat = 7 from rfl, Nat.mod_eq_of_lt (by omega)]
  rw [Nat.shiftLeft_eq, Nat.shiftRight_eq_div_pow]
  omega

/-- For sizes below two gigabytes both allocate in the same way. -/
theorem llvm_alloc_same_partial (t : Tlab) (ht : TlabOk t) (size : Word) (hs : size.toNat + 7 < 2 ^ 31) :
    llvmAlloc t size = tlabAlloc t size := by
  have h32 : (size.setWidth 32).toNat = size.toNat := by
    rw [BitVec.toNat_setWidth]; omega
  have ha := align32 (size.setWidth 32) (by rw [h32]; omega)
  rw [h32] at ha
  have hb := align64 size (by omega)
  have hl := ht.small
  have h1 : (t.alloc + ((size.setWidth 32 + 7#32) &&& ~~~7#32)).toNat = t.alloc.toNat + (size.toNat + 7) / 8 * 8 := by
    rw [BitVec.toNat_add, ha]
    have := ht.le
    omega
  have h2 : (t.alloc.setWidth 64 + size).toNat = t.alloc.toNat + size.toNat := by
    rw [BitVec.toNat_add, BitVec.toNat_setWidth]
    have := ht.le
    omega
  have h3 : (t.alloc.setWidth 64 + ((size + 7#64) &&& ~~~7#64)).setWidth 32 = t.alloc + ((size.setWidth 32 + 7#32) &&& ~~~7#32) := by
    apply BitVec.eq_of_toNat_eq
    rw [h1, BitVec.toNat_setWidth, BitVec.toNat_add, hb, BitVec.toNat_setWidth]
    have := ht.le
    omega
  unfold llvmAlloc tlabAlloc
  dsimp only
  rw [h1, h2, h3]
  have e1 := ht.aligned
  have e2 := ht.limit
  by_cases hc : t.alloc.toNat + size.toNat ≤ t.limit.toNat
  · rw [if_pos hc, if_neg (by omega)]
  · rw [if_neg hc, if_pos (by omega)]

/-- And then what is allocated is inside the buffer and after everything allocated before. -/
theorem llvm_alloc_fits (t : Tlab) (ht : TlabOk t) (size : Word) (hs : size.toNat + 7 < 2 ^ 31) (p : BitVec 32)
    (t' : Tlab) (h : llvmAlloc t size = (some p, t')) :
    p = t.alloc ∧ p.toNat + size.toNat ≤ t'.alloc.toNat ∧ TlabOk t' := by
  have h32 : (size.setWidth 32).toNat = size.toNat := by
    rw [BitVec.toNat_setWidth]; omega
  have ha := align32 (size.setWidth 32) (by rw [h32]; omega)
  rw [h32] at ha
  have hl := ht.small
  have h1 : (t.alloc + ((size.setWidth 32 + 7#32) &&& ~~~7#32)).toNat = t.alloc.toNat + (size.toNat + 7) / 8 * 8 := by
    rw [BitVec.toNat_add, ha]
    have := ht.le
    omega
  unfold llvmAlloc at h
  dsimp only at h
  rw [h1] at h
  split at h
  · cases h
  · rename_i hc
    simp only [Prod.mk.injEq, Option.some.injEq] at h
    obtain ⟨rfl, rfl⟩ := h
    refine ⟨rfl, by dsimp only; rw [h1]; omega, ?_, ?_, ht.limit, ht.small⟩
    · dsimp only; rw [h1]; omega
    · dsimp only; rw [h1]; have := ht.aligned; omega

/-- A buffer as `tlab_acquire` makes it, mspace.c 366, after some use. -/
def usedTlab : Tlab := { alloc := 64, limit := 65504 }

example : TlabOk usedTlab ∧ (13 : Word).toNat + 7 < 2 ^ 31 ∧
    llvmAlloc usedTlab 13 = (some 64, { alloc := 80, limit := 65504 }) ∧
    (llvmAlloc usedTlab 70000).1 = none := by
  refine ⟨⟨by decide, by decide, by decide, by decide⟩, by decide, by decide, by decide⟩

/-- Four gigabytes: the code gets no bytes of the buffer, where the interpreter fails. -/
theorem llvm_alloc_zero_counterexample :
    llvmAlloc usedTlab 0x100000000 = (some 64, usedTlab) ∧ tlabAlloc usedTlab 0x100000000 = (none, usedTlab) := by
  decide

/-- Almost four gigabytes: the buffer gives back memory that is in use. -/
theorem llvm_alloc_back_counterexample :
    llvmAlloc usedTlab 0xfffffff8 = (some 64, { usedTlab with alloc := 56 }) ∧
      tlabAlloc usedTlab 0xfffffff8 = (none, usedTlab) := by
  decide

/-! ## giving back what was allocated -/

/-- `jit_interp`, jit-interp.c 1078, and `interp_trim`, 861-865. -/
def interpEnter (t : Tlab) : Tlab := { t with watermark := t.alloc }
def interpTrim (t : Tlab) : Tlab := { t with alloc := t.watermark }

/-- Fields of the structure by their numbers, jit-llvm.c 356-365. -/
def getField (t : Tlab) : Nat → BitVec 32
  | 1 => t.alloc
  | _ => t.limit

def putField (t : Tlab) (v : BitVec 32) : Nat → Tlab
  | 1 => { t with alloc := v }
  | _ => { t with limit := v }

/-- `cgen_frame_anchor`, 2539-2546, and `cgen_macro_trim`, 2264-2276: field 2 is used, although the variables
are called `alloc`. -/
def llvmEnter (t : Tlab) : Tlab := { t with watermark := getField t 2 }
def llvmTrim (t : Tlab) : Tlab := putField t t.watermark 2

/-- Some allocations. -/
def allocs (alloc : Tlab → Word → Option (BitVec 32) × Tlab) (t : Tlab) (sizes : List Word) : Tlab :=
  sizes.foldl (fun t n => (alloc t n).2) t

theorem tlabAlloc_keeps (sizes : List Word) : ∀ t : Tlab, (allocs tlabAlloc t sizes).watermark = t.watermark ∧
    (allocs tlabAlloc t sizes).limit = t.limit := by
  induction sizes with
  | nil => intro t; exact ⟨rfl, rfl⟩
  | cons n l ih =>
    intro t
    have := ih (tlabAlloc t n).2
    have h : (tlabAlloc t n).2.watermark = t.watermark ∧ (tlabAlloc t n).2.limit = t.limit := by
      unfold tlabAlloc; split <;> exact ⟨rfl, rfl⟩
    exact ⟨this.1.trans h.1, this.2.trans h.2⟩

theorem llvmAlloc_keeps (sizes : List Word) : ∀ t : Tlab, (allocs llvmAlloc t sizes).watermark = t.watermark ∧
    (allocs llvmAlloc t sizes).limit = t.limit := by
  induction sizes with
  | nil => intro t; exact ⟨rfl, rfl⟩
  | cons n l ih =>
    intro t
    have := ih (llvmAlloc t n).2
    have h : (llvmAlloc t n).2.watermark = t.watermark ∧ (llvmAlloc t n).2.limit = t.limit := by
      unfold llvmAlloc; dsimp only; split <;> exact ⟨rfl, rfl⟩
    exact ⟨this.1.trans h.1, this.2.trans h.2⟩

/-- In the interpreter the function gives back everything. -/
theorem interp_trim_frees (t : Tlab) (sizes : List Word) :
    (interpTrim (allocs tlabAlloc (interpEnter t) sizes)).alloc = t.alloc :=
  (tlabAlloc_keeps sizes (interpEnter t)).1

/-- The code that LLVM makes gives back nothing: trimming changes nothing. -/
theorem llvm_trim_counterexample (t : Tlab) (sizes : List Word) :
    llvmTrim (allocs llvmAlloc (llvmEnter t) sizes) = allocs llvmAlloc (llvmEnter t) sizes := by
  obtain ⟨h1, h2⟩ := llvmAlloc_keeps sizes (llvmEnter t)
  have h : (allocs llvmAlloc (llvmEnter t) sizes).watermark = (allocs llvmAlloc (llvmEnter t) sizes).limit := by
    rw [h1, h2]; rfl
  unfold llvmTrim
  rw [h]
  rfl

example : (interpTrim (allocs tlabAlloc (interpEnter usedTlab) [13, 100])).alloc = 64 ∧
    (llvmTrim (allocs llvmAlloc (llvmEnter usedTlab) [13, 100])).alloc = 184 := by decide

/-! ## counters -/

/-- `saturate_add`, util.h 473-478, with a number of `n` bits and one of 64. -/
def satAdd (n : Nat) (cur : BitVec n) (addend : Word) : BitVec n :=
  if 0 ≤ (cur.toNat : Int) + addend.toInt ∧ (cur.toNat : Int) + addend.toInt < 2 ^ n then
    BitVec.ofInt n ((cur.toNat : Int) + addend.toInt)
  else BitVec.allOnes n

/-- `llvm.uadd.sat`, with the addend cut to `n` bits. -/
def llvmSadd (n : Nat) (cur : BitVec n) (addend : Word) : BitVec n :=
  if cur.toNat + (addend.setWidth n).toNat < 2 ^ n then cur + addend.setWidth n else BitVec.allOnes n

theorem llvm_sadd_same (n : Nat) (hn : n ≤ 64) (cur : BitVec n) (addend : Word) (h0 : 0 ≤ addend.toInt)
    (h : addend.toInt < 2 ^ n) : llvmSadd n cur addend = satAdd n cur addend := by
  have hnat : addend.toInt = (addend.toNat : Int) := by
    rw [BitVec.toInt_eq_toNat_cond] at h0 ⊢
    split
    · rfl
    · rename_i hc
      rw [if_neg hc] at h0
      have := addend.isLt
      omega
  have hlt : addend.toNat < 2 ^ n := by
    rw [hnat] at h
    exact_mod_cast h
  have hw : (addend.setWidth n).toNat = addend.toNat := by
    rw [BitVec.toNat_setWidth, Nat.mod_eq_of_lt hlt]
  unfold llvmSadd satAdd
  rw [hw, hnat]
  by_cases hc : cur.toNat + addend.toNat < 2 ^ n
  · have hc' : (cur.toNat : Int) + (addend.toNat : Int) < 2 ^ n := by exact_mod_cast hc
    rw [if_pos hc, if_pos ⟨by omega, hc'⟩]
    apply BitVec.eq_of_toNat_eq
    rw [BitVec.toNat_add, hw, BitVec.toNat_ofInt]
    rw [show (cur.toNat : Int) + (addend.toNat : Int) = ((cur.toNat + addend.toNat : Nat) : Int) by omega,
      ← Int.natCast_emod, Int.toNat_natCast]
  · have hc' : ¬ (cur.toNat : Int) + (addend.toNat : Int) < 2 ^ n := by
      intro hh; exact hc (by exact_mod_cast hh)
    rw [if_neg hc, if_neg (fun hh => hc' hh.2)]

example : (0 : Int) ≤ (1 : Word).toInt ∧ (1 : Word).toInt < 2 ^ 32 ∧ llvmSadd 32 41 1 = 42 ∧
    llvmSadd 32 0xffffffff 1 = 0xffffffff := by decide

/-- A negative addend. -/
theorem llvm_sadd_counterexample : llvmSadd 32 5 (-1) = 0xffffffff ∧ satAdd 32 5 (-1) = 4 := by decide

/-! ## filling memory -/

/-- The loop of `interp_memset`, jit-interp.c 780-785: the offsets that are written. -/
def memsetC (sz bytes : Nat) : Nat → Nat → List Nat
  | 0, _ => []
  | rounds + 1, p => if p < bytes then p :: memsetC sz bytes rounds (p + sz) else []

/-- The loop of `cgen_memset_body`, 3317-3349: the test is after the store. -/
def memsetBody (sz bytes : Nat) : Nat → Nat → List Nat
  | 0, _ => []
  | rounds + 1, p => p :: if p + sz < bytes then memsetBody sz bytes rounds (p + sz) else []

def memsetLlvm (sz bytes rounds : Nat) : List Nat := if bytes = 0 then [] else memsetBody sz bytes rounds 0

theorem memset_loop (sz bytes : Nat) : ∀ (rounds p : Nat), p < bytes → bytes ≤ p + rounds * sz →
    memsetBody sz bytes rounds p = memsetC sz bytes rounds p := by
  intro rounds
  induction rounds with
  | zero => intro p h1 h2; omega
  | succ rounds ih =>
    intro p h1 h2
    rw [memsetBody, memsetC, if_pos h1]
    by_cases hc : p + sz < bytes
    · rw [if_pos hc, ih (p + sz) hc (by rw [Nat.succ_mul] at h2; omega)]
    · rw [if_neg hc]
      cases rounds with
      | zero => rfl
      | succ r => rw [memsetC, if_neg hc]

/-- Both write the same elements, in the same order. -/
theorem llvm_memset_same (sz bytes rounds : Nat) (h : bytes ≤ rounds * sz) :
    memsetLlvm sz bytes rounds = memsetC sz bytes rounds 0 := by
  unfold memsetLlvm
  by_cases hc : bytes = 0
  · rw [if_pos hc]
    subst hc
    cases rounds with
    | zero => rfl
    | succ r => rw [memsetC, if_neg (Nat.lt_irrefl 0)]
  · rw [if_neg hc]
    exact memset_loop sz bytes rounds 0 (by omega) (by omega)

example : memsetLlvm 4 12 3 = [0, 4, 8] ∧ memsetLlvm 4 0 0 = [] := by decide

end Verif.Code.Llvm.Runtime
