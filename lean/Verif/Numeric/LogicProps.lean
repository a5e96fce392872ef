import Verif.Numeric.LogicModel
import Verif.Numeric.Lemmas

/-!
# Logical operators agree with STD_LOGIC_1164 on every instruction set (C25)
-/

namespace Verif.Numeric

/-! ## Specification -/

/-- "and" of two elements: '0' wins, then 'U'; two ones give '1'; anything else 'X'. -/
def specAnd (a b : Nat) : Nat :=
  if digit a = some 0 ∨ digit b = some 0 then 2
  else if a = 0 ∨ b = 0 then 0
  else if digit a = some 1 ∧ digit b = some 1 then 3
  else 1

/-- "or" of two elements: '1' wins, then 'U'; two zeros give '0'; anything else 'X'. -/
def specOr (a b : Nat) : Nat :=
  if digit a = some 1 ∨ digit b = some 1 then 3
  else if a = 0 ∨ b = 0 then 0
  else if digit a = some 0 ∧ digit b = some 0 then 2
  else 1

/-- "xor" of two elements: 'U' wins, then any other metavalue gives 'X'. -/
def specXor (a b : Nat) : Nat :=
  if a = 0 ∨ b = 0 then 0
  else match digit a, digit b with
    | some x, some y => if x = y then 2 else 3
    | _, _ => 1

/-- `TO_X01` of an element. -/
def specX01 (a : Nat) : Nat :=
  match digit a with
  | some 0 => 2
  | some _ => 3
  | none => 1

/-! ## Lanes -/

theorem lanes_spec (f : Nat → Nat → Nat) (l r : Mem) (size pos : Nat) :
    (lanes f l r size pos).length = (size - pos + 15) / 16 * 16 ∧
    ∀ i, pos + i < size → (lanes f l r size pos)[i]? = some (f (l (pos + i)) (r (pos + i))) := by
  induction pos using lanes.induct size with
  | case1 pos h ih =>
    obtain ⟨i1, i2⟩ := ih
    rw [lanes, if_pos h]
    constructor
    · simp only [List.length_append, List.length_map, List.length_range, i1]
      by_cases c : pos + 16 ≤ size <;> omega
    · intro i hi
      by_cases c : i < 16
      · rw [List.getElem?_append_left (by simpa using c)]
        simp [c]
      · rw [List.getElem?_append_right (by simp; omega)]
        simp only [List.length_map, List.length_range]
        rw [i2 (i - 16) (by omega)]
        have : pos + 16 + (i - 16) = pos + i := by omega
        rw [this]
  | case2 pos h =>
    rw [lanes, if_neg h]
    exact ⟨by simp; omega, fun i hi => by omega⟩

theorem lane_tables : ∀ a b : Fin 9,
    laneSSE smallAnd a.1 b.1 = specAnd a.1 b.1 ∧ laneNeon smallAnd a.1 b.1 = specAnd a.1 b.1 ∧
    (andTable.getD a.1 []).getD b.1 0 = specAnd a.1 b.1 ∧
    laneSSE smallOr a.1 b.1 = specOr a.1 b.1 ∧ laneNeon smallOr a.1 b.1 = specOr a.1 b.1 ∧
    (orTable.getD a.1 []).getD b.1 0 = specOr a.1 b.1 ∧
    laneSSE smallXor a.1 b.1 = specXor a.1 b.1 ∧ laneNeon smallXor a.1 b.1 = specXor a.1 b.1 ∧
    (xorTable.getD a.1 []).getD b.1 0 = specXor a.1 b.1 := by
  decide +kernel

/-- Common part: an operator whose tables agree with a specification on single elements. -/
theorem logicOp_of_table (t : Tables) (spec : Nat → Nat → Nat)
    (h : ∀ a b, a < 9 → b < 9 → laneSSE t.small a b = spec a b ∧ laneNeon t.small a b = spec a b ∧
      (t.full.getD a []).getD b 0 = spec a b)
    (isa : Isa) (left right : Mem) (n : Nat) (hl : ∀ i < n, left i < 9) (hr : ∀ i < n, right i < 9) :
    ∃ v, logicOp isa t left n right n = some v ∧
      v.take n = (List.range n).map (fun i => spec (left i) (right i)) ∧
      v.length ≤ (n + 15) / 16 * 16 := by
  have viaLanes (f : Nat → Nat → Nat) (hf : ∀ i < n, f (left i) (right i) = spec (left i) (right i)) :
      (lanes f left right n 0).take n = (List.range n).map (fun i => spec (left i) (right i)) ∧
      (lanes f left right n 0).length ≤ (n + 15) / 16 * 16 := by
    obtain ⟨l1, l2⟩ := lanes_spec f left right n 0
    refine ⟨?_, by rw [l1]; simp⟩
    apply List.ext_getElem?
    intro i
    by_cases c : i < n
    · rw [List.getElem?_take_of_lt c, l2 i (by omega)]
      simp [c, hf i c]
    · rw [List.getElem?_eq_none (by simp; omega), List.getElem?_eq_none (by simp; omega)]
  unfold logicOp
  rw [if_neg (by simp)]
  refine ⟨_, rfl, ?_⟩
  cases isa with
  | scalar =>
    dsimp only
    unfold scalarLoop
    constructor
    · rw [List.take_of_length_le (by simp)]
      apply List.map_congr_left
      intro i hi
      have hi := List.mem_range.1 hi
      exact (h _ _ (hl i hi) (hr i hi)).2.2
    · simp; omega
  | sse => exact viaLanes _ (fun i hi => (h _ _ (hl i hi) (hr i hi)).1)
  | neon => exact viaLanes _ (fun i hi => (h _ _ (hl i hi) (hr i hi)).2.1)

/-! ## Properties -/

/-- The operators give the element by element result of STD_LOGIC_1164 on every instruction
set, whatever follows the operands in memory, and write no more than the length rounded up to 16. -/
theorem logic_vector (isa : Isa) (left right : Mem) (n : Nat) (hl : ∀ i < n, left i < 9)
    (hr : ∀ i < n, right i < 9) :
    (∃ v, logicOp isa opAnd left n right n = some v ∧
      v.take n = (List.range n).map (fun i => specAnd (left i) (right i)) ∧
      v.length ≤ (n + 15) / 16 * 16) ∧
    (∃ v, logicOp isa opOr left n right n = some v ∧
      v.take n = (List.range n).map (fun i => specOr (left i) (right i)) ∧
      v.length ≤ (n + 15) / 16 * 16) ∧
    (∃ v, logicOp isa opXor left n right n = some v ∧
      v.take n = (List.range n).map (fun i => specXor (left i) (right i)) ∧
      v.length ≤ (n + 15) / 16 * 16) := by
  refine ⟨logicOp_of_table opAnd specAnd ?_ isa left right n hl hr,
    logicOp_of_table opOr specOr ?_ isa left right n hl hr,
    logicOp_of_table opXor specXor ?_ isa left right n hl hr⟩
  · intro a b ha hb
    obtain ⟨h1, h2, h3, _⟩ := lane_tables ⟨a, ha⟩ ⟨b, hb⟩
    exact ⟨h1, h2, h3⟩
  · intro a b ha hb
    obtain ⟨_, _, _, h1, h2, h3, _⟩ := lane_tables ⟨a, ha⟩ ⟨b, hb⟩
    exact ⟨h1, h2, h3⟩
  · intro a b ha hb
    obtain ⟨_, _, _, _, _, _, h1, h2, h3⟩ := lane_tables ⟨a, ha⟩ ⟨b, hb⟩
    exact ⟨h1, h2, h3⟩

/-- Operands of different lengths are a failure. -/
theorem logic_vector_length (isa : Isa) (t : Tables) (left right : Mem) (n m : Nat) :
    logicOp isa t left n right m = none ↔ n ≠ m := by
  unfold logicOp
  split
  · simpa
  · simp_all

theorem x01_table : ∀ a : Fin 9,
    shuffleSSE cvtToX01 a.1 = specX01 a.1 ∧ cvtToX01.getD a.1 0 = specX01 a.1 := by decide +kernel

/-- `TO_X01`. -/
theorem to_x01 (sse : Bool) (input : Mem) (n : Nat) (h : ∀ i < n, input i < 9) :
    (toX01 sse input n).take n = (List.range n).map (fun i => specX01 (input i)) ∧
      (toX01 sse input n).length ≤ (n + 15) / 16 * 16 := by
  unfold toX01
  cases sse with
  | true =>
    rw [if_pos rfl]
    obtain ⟨l1, l2⟩ := lanes_spec (fun a _ => shuffleSSE cvtToX01 a) input input n 0
    refine ⟨?_, by rw [l1]; simp⟩
    apply List.ext_getElem?
    intro i
    by_cases c : i < n
    · rw [List.getElem?_take_of_lt c, l2 i (by omega)]
      simp [c, (x01_table ⟨input i, h i c⟩).1]
    · rw [List.getElem?_eq_none (by simp; omega), List.getElem?_eq_none (by simp; omega)]
  | false =>
    rw [if_neg (by simp)]
    constructor
    · rw [List.take_of_length_le (by simp)]
      apply List.map_congr_left
      intro i hi
      exact (x01_table ⟨input i, h i (List.mem_range.1 hi)⟩).2
    · simp; omega

theorem load_eq_zero (v : List Nat) : load v = 0 ↔ ∀ b ∈ v, b = 0 := by
  induction v with
  | nil => simp [load]
  | cons b v ih =>
    simp only [load, List.mem_cons, forall_eq_or_imp, ← ih]
    omega

theorem xor_eq_zero (a b : Nat) : a ^^^ b = 0 ↔ a = b := by
  constructor
  · intro h
    apply Nat.eq_of_testBit_eq
    intro i
    have : (a ^^^ b).testBit i = false := by rw [h]; simp
    rw [Nat.testBit_xor] at this
    simpa using this
  · intro h; subst h; simp

theorem xor_lt (a b : Nat) (ha : a < 256) (hb : b < 256) : a ^^^ b < 256 :=
  Nat.xor_lt_two_pow (n := 8) ha hb

theorem and_255 (a : Nat) (h : a < 256) : a &&& 255 = a := by
  have := Nat.and_two_pow_sub_one_eq_mod a 8
  simp at this
  omega

theorem xor16_get (l r : Mem) (pos i : Nat) (h : i < 16) :
    (xor16 l r pos)[i]? = some (l (pos + i) ^^^ r (pos + i)) := by
  unfold xor16 chunk
  simp [List.getElem?_zipWith, h]

theorem xor16_length (l r : Mem) (pos : Nat) : (xor16 l r pos).length = 16 := by
  simp [xor16, chunk]

/-- Masked comparison of 16 lanes. -/
theorem masked (l r : Mem) (pos n : Nat) (hl : ∀ i, l i < 256) (hr : ∀ i, r i < 256) :
    (∀ b ∈ List.zipWith (· &&& ·) (xor16 l r pos) (maskTail n), b = 0) ↔
      ∀ i, i < 16 → i < n → l (pos + i) = r (pos + i) := by
  have get (i : Nat) (h : i < 16) : (List.zipWith (· &&& ·) (xor16 l r pos) (maskTail n))[i]? =
      some ((l (pos + i) ^^^ r (pos + i)) &&& (if i < n then 255 else 0)) := by
    rw [List.getElem?_zipWith, xor16_get l r pos i h]
    simp [maskTail, h]
  constructor
  · intro h i hi hn
    have := h _ (List.mem_of_getElem? (get i hi))
    rw [if_pos hn, and_255 _ (xor_lt _ _ (hl _) (hr _))] at this
    exact (xor_eq_zero _ _).1 this
  · intro h b hb
    obtain ⟨i, hi⟩ := List.mem_iff_getElem?.1 hb
    have hi16 : i < 16 := by
      by_cases c : i < 16
      · exact c
      · rw [List.getElem?_eq_none (by simp [xor16_length, maskTail]; omega)] at hi; simp at hi
    rw [get i hi16] at hi
    have hb' := Option.some.inj hi
    rw [← hb']
    by_cases c : i < n
    · rw [(xor_eq_zero _ _).2 (h i hi16 c)]; simp
    · rw [if_neg c]; simp

theorem unmasked (l r : Mem) (pos : Nat) :
    (∀ b ∈ xor16 l r pos, b = 0) ↔ ∀ i, i < 16 → l (pos + i) = r (pos + i) := by
  constructor
  · intro h i hi
    exact (xor_eq_zero _ _).1 (h _ (List.mem_of_getElem? (xor16_get l r pos i hi)))
  · intro h b hb
    obtain ⟨i, hi⟩ := List.mem_iff_getElem?.1 hb
    have hi16 : i < 16 := by
      by_cases c : i < 16
      · exact c
      · rw [List.getElem?_eq_none (by simp [xor16_length]; omega)] at hi; simp at hi
    rw [xor16_get l r pos i hi16] at hi
    rw [← Option.some.inj hi]
    exact (xor_eq_zero _ _).2 (h i hi16)

theorem testAllZeros_iff (a b : List Nat) :
    testAllZeros a b = true ↔ ∀ x ∈ List.zipWith (· &&& ·) a b, x = 0 := by
  unfold testAllZeros
  simp only [List.all_eq_true, beq_iff_eq]

theorem fullMask : List.replicate 16 255 = maskTail 16 := by decide

theorem halves (x : List Nat) : (load (x.take 8) ≠ 0 ∨ load (x.drop 8) ≠ 0) ↔ ¬ ∀ b ∈ x, b = 0 := by
  rw [Ne, Ne, load_eq_zero, load_eq_zero, ← Classical.not_and_iff_not_or_not]
  apply not_congr
  constructor
  · rintro ⟨h1, h2⟩ b hb
    rw [← List.take_append_drop 8 x] at hb
    rcases List.mem_append.1 hb with h | h
    · exact h1 b h
    · exact h2 b h
  · intro h
    exact ⟨fun b hb => h b (List.mem_of_mem_take hb), fun b hb => h b (List.mem_of_mem_drop hb)⟩

theorem forall_split (P : Nat → Prop) (pos size : Nat) (h : pos + 15 < size) :
    (∀ i, pos ≤ i → i < size → P i) ↔
      (∀ i, i < 16 → P (pos + i)) ∧ ∀ i, pos + 16 ≤ i → i < size → P i := by
  constructor
  · intro hp
    exact ⟨fun i hi => hp _ (by omega) (by omega), fun i h1 h2 => hp i (by omega) h2⟩
  · rintro ⟨h1, h2⟩ i hi hs
    by_cases c : pos + 16 ≤ i
    · exact h2 i c hs
    · have := h1 (i - pos) (by omega)
      rwa [(by omega : pos + (i - pos) = i)] at this

theorem forall_tail (P : Nat → Prop) (pos size : Nat) (h : ¬ pos + 15 < size) :
    (∀ i, pos ≤ i → i < size → P i) ↔ ∀ i, i < 16 → i < size - pos → P (pos + i) := by
  constructor
  · intro hp i _ hi; exact hp _ (by omega) (by omega)
  · intro hp i h1 h2
    have := hp (i - pos) (by omega) (by omega)
    rwa [(by omega : pos + (i - pos) = i)] at this

theorem equalSSE_spec (l r : Mem) (size : Nat) (hl : ∀ i, l i < 256) (hr : ∀ i, r i < 256)
    (pos : Nat) : equalSSE l r size pos = true ↔ ∀ i, pos ≤ i → i < size → l i = r i := by
  induction pos using equalSSE.induct l r size with
  | case1 pos h c =>
    rw [equalSSE, if_pos h, if_pos c, forall_split _ pos size h]
    rw [Bool.not_eq_true', ← Bool.not_eq_true, fullMask, testAllZeros_iff,
      masked l r pos 16 hl hr] at c
    constructor
    · intro e; simp at e
    · intro e; exact absurd (fun i hi _ => e.1 i hi) c
  | case2 pos h c ih =>
    rw [equalSSE, if_pos h, if_neg c, ih, forall_split _ pos size h]
    rw [Bool.not_eq_true', ← Bool.not_eq_true, Classical.not_not, fullMask, testAllZeros_iff,
      masked l r pos 16 hl hr] at c
    exact ⟨fun e => ⟨fun i hi => c i hi hi, e⟩, fun e => e.2⟩
  | case3 pos h h2 c =>
    rw [equalSSE, if_neg h, if_pos h2, if_pos c, forall_tail _ pos size h]
    rw [Bool.not_eq_true', ← Bool.not_eq_true, testAllZeros_iff, masked l r pos _ hl hr] at c
    constructor
    · intro e; simp at e
    · intro e; exact absurd e c
  | case4 pos h h2 c =>
    rw [equalSSE, if_neg h, if_pos h2, if_neg c, forall_tail _ pos size h]
    rw [Bool.not_eq_true', ← Bool.not_eq_true, Classical.not_not, testAllZeros_iff,
      masked l r pos _ hl hr] at c
    exact ⟨fun _ => c, fun _ => rfl⟩
  | case5 pos h h2 =>
    rw [equalSSE, if_neg h, if_neg h2]
    exact ⟨fun _ i h1 h2 => by omega, fun _ => rfl⟩

theorem equalNeon_spec (l r : Mem) (size : Nat) (hl : ∀ i, l i < 256) (hr : ∀ i, r i < 256)
    (pos : Nat) : equalNeon l r size pos = true ↔ ∀ i, pos ≤ i → i < size → l i = r i := by
  induction pos using equalNeon.induct l r size with
  | case1 pos h x c =>
    rw [equalNeon, if_pos h]
    dsimp only
    rw [if_pos c, forall_split _ pos size h]
    rw [halves, unmasked] at c
    constructor
    · intro e; simp at e
    · intro e; exact absurd e.1 c
  | case2 pos h x c ih =>
    rw [equalNeon, if_pos h]
    dsimp only
    rw [if_neg c, ih, forall_split _ pos size h]
    rw [halves, Classical.not_not, unmasked] at c
    exact ⟨fun e => ⟨c, e⟩, fun e => e.2⟩
  | case3 pos h h2 x c =>
    rw [equalNeon, if_neg h, if_pos h2]
    dsimp only
    rw [if_pos c, forall_tail _ pos size h]
    rw [halves, masked l r pos _ hl hr] at c
    constructor
    · intro e; simp at e
    · intro e; exact absurd e c
  | case4 pos h h2 x c =>
    rw [equalNeon, if_neg h, if_pos h2]
    dsimp only
    rw [if_neg c, forall_tail _ pos size h]
    rw [halves, Classical.not_not, masked l r pos _ hl hr] at c
    exact ⟨fun _ => c, fun _ => rfl⟩
  | case5 pos h h2 =>
    rw [equalNeon, if_neg h, if_neg h2]
    exact ⟨fun _ i h1 h2 => by omega, fun _ => rfl⟩

/-- Predefined "=" on vectors of bytes, on every instruction set. -/
theorem vector_equal (isa : Isa) (l r : Mem) (n m : Nat) (hl : ∀ i, l i < 256)
    (hr : ∀ i, r i < 256) :
    vectorEqual isa l n r m = true ↔ n = m ∧ ∀ i < n, l i = r i := by
  unfold vectorEqual
  by_cases h : n = m
  · rw [if_neg (by simpa using h)]
    cases isa with
    | scalar =>
      simp only [List.all_eq_true, List.mem_range, beq_iff_eq]
      exact ⟨fun e => ⟨h, e⟩, fun e => e.2⟩
    | sse =>
      dsimp only
      rw [equalSSE_spec l r n hl hr]
      exact ⟨fun e => ⟨h, fun i hi => e i (by omega) hi⟩, fun e i _ hi => e.2 i hi⟩
    | neon =>
      dsimp only
      rw [equalNeon_spec l r n hl hr]
      exact ⟨fun e => ⟨h, fun i hi => e i (by omega) hi⟩, fun e i _ hi => e.2 i hi⟩
  · rw [if_pos h]; simp [h]

/-- No vector version depends on bytes more than 15 past the end. -/
theorem overrun (f : Nat → Nat → Nat) (l r l' r' : Mem) (size pos : Nat)
    (h : ∀ i < size + 15, l i = l' i ∧ r i = r' i) :
    lanes f l r size pos = lanes f l' r' size pos := by
  induction pos using lanes.induct size with
  | case1 pos hp ih =>
    rw [lanes, if_pos hp, ih, lanes.eq_def f l' r' size pos, if_pos hp]
    congr 1
    apply List.map_congr_left
    intro i hi
    have hi := List.mem_range.1 hi
    obtain ⟨h1, h2⟩ := h (pos + i) (by omega)
    rw [h1, h2]
  | case2 pos hp => rw [lanes, if_neg hp, lanes, if_neg hp]

/-! ## Array bounds -/

/-- The length of an ascending array is stored as it is and the length of a descending one
complemented; the macros recover length, direction and right bound. -/
theorem ffi_bounds (d0 : BitVec 64) (n : Nat) (h : n < 2 ^ 63) :
    ffiLength (BitVec.ofNat 64 n) = BitVec.ofNat 64 n ∧
    ffiLength (~~~ BitVec.ofNat 64 n) = BitVec.ofNat 64 n ∧
    ffiDir (BitVec.ofNat 64 n) = false ∧ ffiDir (~~~ BitVec.ofNat 64 n) = true ∧
    ffiRight d0 (BitVec.ofNat 64 n) = d0 + BitVec.ofNat 64 n - 1 ∧
    ffiRight d0 (~~~ BitVec.ofNat 64 n) = d0 - BitVec.ofNat 64 n + 1 := by
  have hm : (BitVec.ofNat 64 n).msb = false := by
    rw [BitVec.msb_eq_decide]; simp; omega
  have hm' : (~~~ BitVec.ofNat 64 n).msb = true := by rw [BitVec.msb_not]; simp [hm]
  have s1 : (BitVec.ofNat 64 n).slt 0 = false := by
    have := BitVec.slt_zero_eq_msb (x := BitVec.ofNat 64 n); rw [hm] at this; exact this
  have s2 : (~~~ BitVec.ofNat 64 n).slt 0 = true := by
    have := BitVec.slt_zero_eq_msb (x := ~~~ BitVec.ofNat 64 n); rw [hm'] at this; exact this
  have sh (x : BitVec 64) : x.sshiftRight 63 = if x.msb then BitVec.allOnes 64 else 0#64 := by
    ext i hi
    rw [BitVec.getElem_sshiftRight]
    cases hx : x.msb with
    | false =>
      simp only [Bool.false_eq_true, if_false, BitVec.getElem_zero]
      split
      · rename_i c
        have : i = 0 := by omega
        subst this
        rw [BitVec.msb_eq_getLsbD_last] at hx
        simpa using hx
      · rfl
    | true =>
      simp only [if_true, BitVec.getElem_allOnes]
      split
      · rename_i c
        have : i = 0 := by omega
        subst this
        rw [BitVec.msb_eq_getLsbD_last] at hx
        simpa using hx
      · rfl
  refine ⟨?_, ?_, s1, s2, ?_, ?_⟩
  · unfold ffiLength; rw [sh, hm]; simp
  · unfold ffiLength; rw [sh, hm', if_pos rfl]
    rw [BitVec.xor_allOnes]; simp
  · unfold ffiRight; rw [s1, if_neg (by simp)]
    rw [BitVec.sub_eq_add_neg]
  · unfold ffiRight; rw [s2, if_pos rfl, BitVec.not_eq_neg_add, BitVec.sub_eq_add_neg]
    grind

/-! ## Examples -/

example : (logicOp .sse opAnd (fun i => i % 9) 20 (fun i => 200 - i) 20).isSome = true := by
  decide +kernel
example : ∃ v, logicOp .neon opXor (fun i => [3, 7, 0].getD i 255) 3 (fun i => [2, 3, 1].getD i 77) 3 =
    some v ∧ v.take 3 = [3, 2, 0] := ⟨_, rfl, by decide +kernel⟩
example : ∀ i < 3, (fun i => [3, 7, 0].getD i 255) i < 9 := by decide
example : vectorEqual .sse (fun i => if i < 17 then 3 else i % 256) 17
    (fun i => if i < 17 then 3 else 0) 17 = true := by decide +kernel
example : vectorEqual .neon (fun i => if i < 17 then 3 else i % 256) 18
    (fun i => if i < 17 then 3 else 0) 18 = false := by decide +kernel
example : (toX01 true (fun i => [8, 7, 6].getD i 99) 3).take 3 = [1, 3, 2] := by decide +kernel
example : ffiRight 7#64 (~~~ 8#64) = 0#64 ∧ ffiRight 1#64 8#64 = 8#64 := by decide

end Verif.Numeric
