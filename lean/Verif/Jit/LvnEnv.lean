import Verif.Jit.LvnProps
import Verif.Jit.MemEnv

/-!
# An environment that satisfies the assumptions about memory

Flat memory as in `MemEnv`, with a constant pool at 0x10000 that cannot be written, and past whose end one
cannot read from it.
-/

namespace Verif.Code

/-- Address of the constant pool. -/
def poolBase : Nat := 0x10000

/-- What is read at an address. -/
def romByte (data : List (BitVec 8)) (m : Mem) (q : Word) : BitVec 8 :=
  if poolBase ≤ q.toNat ∧ q.toNat < poolBase + data.length then data.getD (q.toNat - poolBase) 0 else m.bytes q

/-- Write bytes outside the constant pool. -/
def romFill (data : List (BitVec 8)) (m : Mem) (n : Nat) (p : Word) (f : Nat → BitVec 8) : Option Mem :=
  if n ≠ 0 ∧ p.toNat < poolBase + data.length ∧ poolBase < p.toNat + n then none else fill m n p f

/-- `memmove`. -/
def romMove (data : List (BitVec 8)) (m : Mem) (n d s : Word) : Option Mem :=
  if n ≠ 0 ∧ (s.toNat < 4096 ∨ 2 ^ 64 < s.toNat + n.toNat ∨
      (poolBase ≤ s.toNat ∧ s.toNat < poolBase + data.length ∧ poolBase + data.length < s.toNat + n.toNat)) then none
  else romFill data m n.toNat d fun k => romByte data m (s + BitVec.ofNat 64 k)

/-- `memcpy`. -/
def romCopy (data : List (BitVec 8)) (m : Mem) (n d s : Word) : Option Mem :=
  if d.toNat + n.toNat ≤ s.toNat ∨ s.toNat + n.toNat ≤ d.toNat then romMove data m n d s else none

def romMemset (data : List (BitVec 8)) (m : Mem) (size : Size) (n p v : Word) : Option Mem :=
  size.bytes.bind fun b => if n.toNat % b ≠ 0 then none else romFill data m n.toNat p fun k => byteOf v (k % b)

/-- The environment. -/
def romEnv (data : List (BitVec 8)) : Env Mem :=
  { memEnv with
    cpool := BitVec.ofNat 64 poolBase
    load := fun m size signed p => memLoad { m with bytes := romByte data m } size signed p
    store := fun m size v p => size.bytes.bind fun n => romFill data m n p (byteOf v)
    copy := romCopy data
    move := romMove data
    bzero := fun w n p => romFill data w n.toNat p fun _ => 0
    memset := romMemset data }

/-- The number at an offset in the pool, little-endian. -/
def romPool (data : List (BitVec 8)) (off : Word) (size : Size) : Word :=
  let b := fun k => (data.getD (off.toNat + k) 0).toNat
  BitVec.ofNat 64 (match size with
    | .s8 => b 0
    | .s16 => b 0 + 256 * b 1
    | .s32 => b 0 + 256 * b 1 + 65536 * b 2 + 16777216 * b 3
    | _ => b 0 + 256 * b 1 + 65536 * b 2 + 16777216 * b 3 + 4294967296 * b 4 + 1099511627776 * b 5 +
        281474976710656 * b 6 + 72057594037927936 * b 7)

theorem fill_args {m m' : Mem} {n p f} (h : fill m n p f = some m') : m'.args = m.args := by
  unfold fill at h
  split at h
  · injection h with h; rw [h]
  · split at h
    · cases h
    · injection h with h; rw [← h]

theorem fill_congr {m : Mem} {n p f g} (h : ∀ k, k < n → f k = g k) : fill m n p f = fill m n p g := by
  unfold fill
  split
  · rfl
  · split
    · rfl
    · congr 2
      funext q
      split
      · rename_i hq; exact h _ (by omega)
      · rfl

variable {data : List (BitVec 8)}

theorem romFill_args {m m' : Mem} {n p f} (h : romFill data m n p f = some m') : m'.args = m.args := by
  unfold romFill at h
  split at h
  · cases h
  · exact fill_args h

theorem romFill_congr {m : Mem} {n p f g} (h : ∀ k, k < n → f k = g k) : romFill data m n p f = romFill data m n p g := by
  unfold romFill
  rw [fill_congr h]

theorem romFill_zero {m m' : Mem} {p f} (h : romFill data m 0 p f = some m') : m' = m := by
  unfold romFill fill at h
  simpa using h.symm

theorem romMove_args {m m' : Mem} {n d s} (h : romMove data m n d s = some m') : m'.args = m.args := by
  unfold romMove at h
  split at h
  · cases h
  · exact romFill_args h

theorem romCopy_args {m m' : Mem} {n d s} (h : romCopy data m n d s = some m') : m'.args = m.args := by
  unfold romCopy at h
  split at h
  · exact romMove_args h
  · cases h

theorem sameArgs_of {m m' : Mem} (h : m'.args = m.args) : SameArgs (romEnv data) m m' := by
  intro n _
  show (if _ then some (m'.args _) else none) = (if _ then some (m.args _) else none)
  rw [h]

theorem byteOf_zero (k : Nat) : byteOf 0 k = 0 := by simp [byteOf]

theorem storeSize_bytes {n : Word} {size : Size} (h : storeSize n = some size) : size.bytes = some n.toNat := by
  unfold storeSize at h
  split at h
  · subst n; injection h with h; subst h; rfl
  split at h
  · subst n; injection h with h; subst h; rfl
  split at h
  · subst n; injection h with h; subst h; rfl
  split at h
  · subst n; injection h with h; subst h; rfl
  · cases h

/-! ## bytes of numbers -/

/-- Byte `k` of a number. -/
def byteN (n k : Nat) : Nat := n / 256 ^ k % 256

theorem byteN_low {b k v r : Nat} (hk : k < b) : byteN (v + 256 ^ b * r) k = byteN v k := by
  unfold byteN
  obtain ⟨c, rfl⟩ : ∃ c, b = k + (1 + c) := ⟨b - k - 1, by omega⟩
  rw [Nat.pow_add, Nat.mul_assoc, Nat.add_mul_div_left _ _ (Nat.pow_pos (by decide)), Nat.pow_add, Nat.mul_assoc,
    Nat.pow_one, Nat.add_mul_mod_self_left]

theorem byteN_high {b k v r : Nat} (hk : b ≤ k) (hv : v < 256 ^ b) : byteN (v + 256 ^ b * r) k = byteN r (k - b) := by
  unfold byteN
  obtain ⟨c, rfl⟩ : ∃ c, k = b + c := ⟨k - b, by omega⟩
  rw [Nat.pow_add, ← Nat.div_div_eq_div_mul, Nat.add_mul_div_left _ _ (Nat.pow_pos (by decide)), Nat.div_eq_of_lt hv,
    Nat.zero_add, Nat.add_sub_cancel_left]

theorem byteN_mod {b k n : Nat} (hk : k < b) : byteN (n % 256 ^ b) k = byteN n k := by
  have := Nat.mod_add_div n (256 ^ b)
  rw [← byteN_low (r := n / 256 ^ b) hk, this]

theorem byteN_small {n : Nat} (h : n < 256) : byteN n 0 = n := by
  unfold byteN; rw [Nat.pow_zero, Nat.div_one, Nat.mod_eq_of_lt h]

theorem byteOf_toNat (v : Word) (k : Nat) : (byteOf v k).toNat = byteN v.toNat k := by
  unfold byteOf byteN
  rw [BitVec.toNat_ofNat, Nat.pow_mul]

theorem byteOf_eq {v : Word} {k : Nat} {x : BitVec 8} (h : byteN v.toNat k = x.toNat) : byteOf v k = x :=
  BitVec.eq_of_toNat_eq (by rw [byteOf_toNat, h])

/-- A number of `b` bytes, `j` times. -/
def replicateN (b v : Nat) : Nat → Nat
  | 0 => 0
  | j + 1 => v + 256 ^ b * replicateN b v j

theorem byteN_replicate {b v : Nat} (hv : v < 256 ^ b) (hb : 0 < b) : ∀ (j k : Nat), k < b * j →
    byteN (replicateN b v j) k = byteN v (k % b) := by
  intro j
  induction j with
  | zero => intro k h; omega
  | succ j ih =>
    intro k h
    unfold replicateN
    by_cases hk : k < b
    · rw [byteN_low hk, Nat.mod_eq_of_lt hk]
    · rw [byteN_high (by omega) hv, ih (k - b) (by rw [Nat.mul_add, Nat.mul_one] at h; omega)]
      congr 1
      exact (Nat.mod_eq_sub_mod (by omega)).symm

/-- The same byte again and again. -/
theorem byteOf_repeat {size : Size} {m v : Word} {b k : Nat} (hm : compress size = some m) (hb : size.bytes = some b)
    (hv : v = (v &&& 0xff) * m) (hk : k < b) : byteOf v k = byteOf (v &&& 0xff) 0 := by
  have hx : (v &&& 0xff).toNat < 256 := by
    rw [BitVec.toNat_and]
    exact Nat.lt_of_le_of_lt Nat.and_le_right (by decide)
  have hv' := congrArg BitVec.toNat hv
  rw [BitVec.toNat_mul] at hv'
  apply byteOf_eq
  rw [byteOf_toNat, byteN_small hx, hv']
  generalize (v &&& 0xff).toNat = x at hx
  have key : ∀ j, k < j → byteN (replicateN 1 x j) k = x := by
    intro j h
    rw [byteN_replicate (by omega) (by omega) j k (by omega), Nat.mod_one, byteN_small hx]
  cases size <;> simp only [compress, Size.bytes, Option.some.injEq, reduceCtorEq] at hm hb <;> subst hm <;> subst hb
  · refine Eq.trans (congrArg (byteN · k) ?_) (key 1 hk); simp [replicateN] <;> omega
  · refine Eq.trans (congrArg (byteN · k) ?_) (key 2 hk); simp [replicateN] <;> omega
  · refine Eq.trans (congrArg (byteN · k) ?_) (key 4 hk); simp [replicateN] <;> omega
  · refine Eq.trans (congrArg (byteN · k) ?_) (key 8 hk); simp [replicateN] <;> omega

theorem sizeMask_toNat {size : Size} {b : Nat} (h : size.bytes = some b) (x : Word) :
    (x &&& sizeMask size).toNat = x.toNat % 256 ^ b := by
  rw [BitVec.toNat_and]
  cases size <;> simp only [Size.bytes, Option.some.injEq, reduceCtorEq] at h <;> subst h
  · exact Nat.and_two_pow_sub_one_eq_mod x.toNat 8
  · exact Nat.and_two_pow_sub_one_eq_mod x.toNat 16
  · exact Nat.and_two_pow_sub_one_eq_mod x.toNat 32
  · exact Nat.and_two_pow_sub_one_eq_mod x.toNat 64

/-- A number repeated over a larger one. -/
theorem byteOf_expand {size size' : Size} {m v : Word} {b b' k : Nat} (hm : expand size = some m) (hb : size.bytes = some b)
    (hb' : size'.bytes = some b') (hv : v.toNat < 256 ^ b) (hd : b' % b = 0) (hk : k < b') :
    byteOf ((v * m) &&& sizeMask size') k = byteOf v (k % b) := by
  apply byteOf_eq
  rw [byteOf_toNat, sizeMask_toNat hb', byteN_mod hk, BitVec.toNat_mul]
  have hk8 : k < 8 := by
    cases size' <;> simp only [Size.bytes, Option.some.injEq, reduceCtorEq] at hb' <;> omega
  generalize v.toNat = v at hv
  cases size <;> simp only [expand, Size.bytes, Option.some.injEq, reduceCtorEq] at hm hb <;> subst hm <;> subst hb
  · refine Eq.trans (congrArg (byteN · k) ?_) (byteN_replicate hv (by decide) 8 k (by omega)); simp [replicateN] at hv ⊢ <;> omega
  · refine Eq.trans (congrArg (byteN · k) ?_) (byteN_replicate hv (by decide) 4 k (by omega)); simp [replicateN] at hv ⊢ <;> omega
  · refine Eq.trans (congrArg (byteN · k) ?_) (byteN_replicate hv (by decide) 2 k (by omega)); simp [replicateN] at hv ⊢ <;> omega
  · refine Eq.trans (congrArg (byteN · k) ?_) (byteN_replicate hv (by decide) 1 k (by omega)); simp [replicateN] at hv ⊢ <;> omega

/-- A number from its bytes. -/
def numberOf : List Nat → Nat
  | [] => 0
  | d :: ds => d + 256 * numberOf ds

theorem byteN_number : ∀ (ds : List Nat) (k d : Nat), (∀ x ∈ ds, x < 256) → ds[k]? = some d → byteN (numberOf ds) k = d := by
  intro ds
  induction ds with
  | nil => intro k d _ h; simp at h
  | cons x ds ih =>
    intro k d h hk
    have hx := h x (by simp)
    show byteN (x + 256 ^ 1 * numberOf ds) k = d
    cases k with
    | zero =>
      simp at hk; subst hk
      rw [byteN_low (by omega), byteN_small hx]
    | succ k =>
      rw [byteN_high (by omega) (by omega)]
      exact ih k d (fun x hx => h x (by simp [hx])) (by simpa using hk)

theorem byteOf_pool {size : Size} {b k : Nat} (off : Word) (hb : size.bytes = some b) (hk : k < b) :
    byteOf (romPool data off size) k = data.getD (off.toNat + k) 0 := by
  apply byteOf_eq
  have hlt : ∀ j, (data.getD (off.toNat + j) 0).toNat < 256 := fun j => BitVec.isLt _
  have key : ∀ n : Nat, n ≤ 8 → k < n → (romPool data off size).toNat =
      numberOf ((List.range n).map fun j => (data.getD (off.toNat + j) 0).toNat) →
      byteN (romPool data off size).toNat k = (data.getD (off.toNat + k) 0).toNat := by
    intro n _ hn e
    rw [e]
    apply byteN_number
    · intro x hx
      rw [List.mem_map] at hx
      obtain ⟨j, _, rfl⟩ := hx
      exact hlt j
    · rw [List.getElem?_map, List.getElem?_range hn]; rfl
  have h0 := hlt 0
  have h1 := hlt 1
  have h2 := hlt 2
  have h3 := hlt 3
  have h4 := hlt 4
  have h5 := hlt 5
  have h6 := hlt 6
  have h7 := hlt 7
  cases size <;> simp only [Size.bytes, Option.some.injEq, reduceCtorEq] at hb <;> subst hb <;>
    refine key _ (by decide) hk ?_ <;> unfold romPool <;> rw [BitVec.toNat_ofNat] <;>
    simp only [numberOf, List.map, List.range, List.range.loop] <;> omega

/-! ## the laws -/

theorem romMove_pool {m m' : Mem} {n d off : Word} (ho : off.toNat < data.length) (hd : data.length ≤ 2 ^ 32)
    (h : romMove data m n d (BitVec.ofNat 64 poolBase + off) = some m') :
    (n = 0 ∨ off.toNat + n.toNat ≤ data.length) ∧ romCopy data m n d (BitVec.ofNat 64 poolBase + off) = some m' := by
  have hs : (BitVec.ofNat 64 poolBase + off).toNat = poolBase + off.toNat := by
    rw [BitVec.toNat_add, BitVec.toNat_ofNat]; unfold poolBase; omega
  unfold romCopy
  rw [hs]
  have h' := h
  unfold romMove at h'
  rw [hs] at h'
  by_cases hn : n = 0
  · refine ⟨Or.inl hn, ?_⟩
    rw [if_pos (by subst hn; simp; omega)]
    exact h
  · have hn0 : n.toNat ≠ 0 := fun c => hn (BitVec.eq_of_toNat_eq c)
    split at h'
    · cases h'
    · rename_i hg
      rw [not_and] at hg
      have hg := hg hn
      unfold romFill at h'
      split at h'
      · cases h'
      · rename_i hf
        refine ⟨Or.inr ?_, ?_⟩
        · clear hs; omega
        · rw [if_pos (by clear hs; omega)]
          exact h

theorem romEnv_laws (data : List (BitVec 8)) (hd : data.length ≤ 2 ^ 32) :
    LvnLaws (romEnv data) (romPool data) data.length where
  store := by
    intro w size v p w' h
    change size.bytes.bind _ = _ at h
    rw [Option.bind_eq_some_iff] at h
    obtain ⟨n, _, h⟩ := h
    exact sameArgs_of (romFill_args h)
  copy := fun _ _ _ _ _ h => sameArgs_of (romCopy_args h)
  move := fun _ _ _ _ _ h => sameArgs_of (romMove_args h)
  bzero := fun _ _ _ _ h => sameArgs_of (romFill_args h)
  memset := by
    intro w size n d v w' h
    change romMemset data w size n d v = _ at h
    unfold romMemset at h
    rw [Option.bind_eq_some_iff] at h
    obtain ⟨b, _, h⟩ := h
    split at h
    · cases h
    · exact sameArgs_of (romFill_args h)
  sadd := by intro _ _ _ _ _ h; cases h
  galloc := by intro _ _ _ _ h; cases h
  lalloc := by intro _ _ _ _ h; cases h
  putpriv := by intro _ _ _ _ h; cases h
  trim := by intro _ _ h; cases h
  reexec := by intro _ _ h; cases h
  sendOther := by
    intro w a v w' n h _ hn
    change (if _ then some _ else none) = _ at h
    split at h
    · injection h with h
      subst h
      show (if _ then some (if _ then _ else _) else _) = (if _ then some _ else _)
      rw [if_neg hn]
    · cases h
  sendSame := by
    intro w a v w' h hr
    change (if _ then some _ else none) = _ at h
    change (if _ then some _ else none) = _ at hr
    split at h
    · rename_i ha
      rw [if_pos ha] at hr
      injection h with h
      injection hr with hr
      subst h
      rcases w with ⟨args, bytes, ex⟩
      dsimp only at hr ⊢
      congr 1
      funext q
      split
      · rename_i e; rw [e, hr]
      · rfl
    · cases h
  copy0 := by
    intro w d s w' h
    change romCopy data w 0 d s = _ at h
    unfold romCopy at h
    split at h
    · unfold romMove at h
      rw [if_neg (by simp)] at h
      exact romFill_zero h
    · cases h
  move0 := by
    intro w d s w' h
    change romMove data w 0 d s = _ at h
    unfold romMove at h
    rw [if_neg (by simp)] at h
    exact romFill_zero h
  bzero0 := by
    intro w d w' h
    change romFill data w 0 d (fun _ => 0) = _ at h
    exact romFill_zero h
  memset0 := by
    intro w size d v w' h
    change romMemset data w size 0 d v = _ at h
    unfold romMemset at h
    rw [Option.bind_eq_some_iff] at h
    obtain ⟨b, _, h⟩ := h
    split at h
    · cases h
    · exact romFill_zero h
  movePool := fun w n d off w' ho h => (romMove_pool ho hd h).2
  copyPool := by
    intro w n d off w' size ho hsz h
    have hb := storeSize_bytes hsz
    change romCopy data w n d _ = _ at h
    have hm : romMove data w n d (BitVec.ofNat 64 poolBase + off) = some w' := by
      unfold romCopy at h
      split at h
      · exact h
      · cases h
    have hn : n ≠ 0 := by
      intro c; subst c; simp [storeSize] at hsz
    have hr := (romMove_pool ho hd hm).1.resolve_left hn
    show size.bytes.bind _ = _
    rw [hb, Option.bind_some, ← hm]
    unfold romMove at hm ⊢
    split at hm
    · cases hm
    · rename_i hg
      rw [if_neg hg]
      apply romFill_congr
      intro k hk
      rw [byteOf_pool off hb hk]
      have hs : (BitVec.ofNat 64 poolBase + off + BitVec.ofNat 64 k).toNat = poolBase + (off.toNat + k) := by
        rw [BitVec.toNat_add, BitVec.toNat_add, BitVec.toNat_ofNat, BitVec.toNat_ofNat]; unfold poolBase; omega
      unfold romByte
      rw [hs, if_pos (by omega), Nat.add_sub_cancel_left]
  bzeroStore := by
    intro w n d w' size hsz h
    have hb := storeSize_bytes hsz
    change romFill data w n.toNat d _ = _ at h
    show size.bytes.bind _ = _
    rw [hb, Option.bind_some, ← h]
    apply romFill_congr
    intro k _
    exact byteOf_zero k
  memsetZero := by
    intro w size n d w' h
    change romMemset data w size n d 0 = _ at h
    unfold romMemset at h
    rw [Option.bind_eq_some_iff] at h
    obtain ⟨b, _, h⟩ := h
    split at h
    · cases h
    · show romFill data w n.toNat d _ = _
      rw [← h]
      apply romFill_congr
      intro k _
      exact (byteOf_zero _).symm
  memsetByte := by
    intro w size n d v m w' hm hv h
    change romMemset data w size n d v = _ at h
    unfold romMemset at h
    rw [Option.bind_eq_some_iff] at h
    obtain ⟨b, hb, h⟩ := h
    split at h
    · cases h
    · show romMemset data w .s8 n d _ = _
      unfold romMemset
      show (if n.toNat % 1 ≠ 0 then none else _) = _
      rw [if_neg (by omega), ← h]
      apply romFill_congr
      intro k _
      have hpos : 0 < b := by
        cases size <;> simp only [Size.bytes, Option.some.injEq, reduceCtorEq] at hb <;> omega
      rw [Nat.mod_one, byteOf_repeat hm hb hv (Nat.mod_lt k hpos)]
  memsetStore := by
    intro w size n d v m b w' size' hsz hm hbits hv h
    change romMemset data w size n d v = _ at h
    unfold romMemset at h
    rw [Option.bind_eq_some_iff] at h
    obtain ⟨b', hb, h⟩ := h
    split at h
    · cases h
    · rename_i hmod
      have hb' := storeSize_bytes hsz
      show size'.bytes.bind _ = _
      rw [hb', Option.bind_some, ← h]
      apply romFill_congr
      intro k hk
      refine byteOf_expand hm hb hb' ?_ (by omega) hk
      have : b = 8 * b' := by
        cases size <;> simp only [Size.bytes, Size.bits, Option.some.injEq, reduceCtorEq] at hb hbits <;> omega
      rw [this, Nat.pow_mul] at hv; exact hv

end Verif.Code
