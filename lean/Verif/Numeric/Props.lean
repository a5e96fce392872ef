import Verif.Numeric.ArithLemmas

/-!
# Accelerated operators of NUMERIC_STD and the Synopsys packages (C21-C24, C26)

Specification: `uval`/`sval` read a vector of '0', '1', 'L', 'H' as a number, `enc n v` is the vector
of length `n` for a natural number and `encI n z` the one for an integer in two's complement
(definitions in `Lemmas.lean` and `AddLemmas.lean`).
-/

namespace Verif.Numeric

/-! ## `encI` is what it should be -/

/-- `encI n z` is the vector of length `n` of '0' and '1' whose value is `z` modulo `2^n`. -/
theorem encI_spec (n : Nat) (z : Int) :
    (encI n z).length = n ∧ uval (encI n z) = some (z % 2 ^ n).toNat := by
  refine ⟨encI_length n z, ?_⟩
  unfold encI
  rw [uval_enc]
  have h1 : 0 ≤ z % 2 ^ n := Int.emod_nonneg _ (by have := pow_pos_int n; omega)
  have h2 : z % 2 ^ n < 2 ^ n := Int.emod_lt_of_pos _ (pow_pos_int n)
  congr 1
  apply Nat.mod_eq_of_lt
  have : ((z % 2 ^ n).toNat : Int) < ((2 ^ n : Nat) : Int) := by
    rw [Int.toNat_of_nonneg h1]; exact_mod_cast h2
  omega

/-- An integer in range is recovered by the signed reading. -/
theorem sval_encI (n : Nat) (z : Int) (hn : 0 < n) (h1 : -2 ^ (n - 1) ≤ z) (h2 : z < 2 ^ (n - 1)) :
    sval (encI n z) = some z := by
  have hs := sval_bits _ (encI_bits n z)
  rw [hs]
  congr 1
  have hne : encI n z ≠ [] := by
    intro e; have := encI_length n z; rw [e] at this; simp at this; omega
  have r := sval_range _ _ hne hs
  obtain ⟨m, e1, c1⟩ := cong_sval _ _ hs
  rw [uval_bits _ (encI_bits n z)] at e1
  have e1' : val (encI n z) = m := by simpa using e1
  subst e1'
  rw [encI_length] at r c1
  obtain ⟨q, hq⟩ := c1.symm.trans (encI_val n z)
  have hp : (2 : Int) ^ n = 2 ^ (n - 1) * 2 := by
    rw [← Int.pow_succ]; congr 1; omega
  rw [hp] at hq
  have hpos := pow_pos_int (n - 1)
  generalize (2 : Int) ^ (n - 1) = w2 at *
  have : q = 0 := by
    rcases Int.lt_trichotomy q 0 with h | h | h
    · have : q * (w2 * 2) ≤ -1 * (w2 * 2) := Int.mul_le_mul_of_nonneg_right (by omega) (by omega)
      omega
    · exact h
    · have : 1 * (w2 * 2) ≤ q * (w2 * 2) := Int.mul_le_mul_of_nonneg_right (by omega) (by omega)
      omega
  subst this
  omega

/-! ## Operands after normalisation -/

theorem normU (v : Vec) (n : Nat) (hv : Valid v) (hle : v.length ≤ n) (hn : 0 < n) :
    (∀ a, uval v = some a → Bits (to01 (resizeU v n) 1) ∧ (to01 (resizeU v n) 1).length = n ∧
      val (to01 (resizeU v n) 1) = a ∧ (to01 (resizeU v n) 1).headD 0 ≠ 1) ∧
    (uval v = none → to01 (resizeU v n) 1 = List.replicate n 1 ∧
      (to01 (resizeU v n) 1).headD 0 = 1) := by
  have hu := uval_resizeU v n hle hn
  have hval := resizeU_valid v n hv
  constructor
  · intro a ha
    obtain ⟨t1, t2, t3⟩ := to01_some (resizeU v n) 1 a hval (by rw [hu, ha])
    rw [resizeU_length] at t2
    exact ⟨t1, t2, t3, head_bits _ t1 (by intro e; rw [e] at t2; simp at t2; omega)⟩
  · intro hno
    rw [to01_none _ 1 hval (by rw [hu, hno]), resizeU_length]
    exact ⟨rfl, head_replicate n hn⟩

theorem normS (v : Vec) (n : Nat) (hv : Valid v) (h0 : v ≠ []) (hle : v.length ≤ n) :
    (∀ a, sval v = some a → Bits (to01 (resizeS v n) 1) ∧ (to01 (resizeS v n) 1).length = n ∧
      Cong n (val (to01 (resizeS v n) 1)) a ∧ (to01 (resizeS v n) 1).headD 0 ≠ 1) ∧
    (sval v = none → to01 (resizeS v n) 1 = List.replicate n 1 ∧
      (to01 (resizeS v n) 1).headD 0 = 1) := by
  have hn : 0 < n := by have := List.length_pos_iff.2 h0; omega
  obtain ⟨r1, r2⟩ := resizeS_val v n h0 hle
  have hval := resizeS_valid v n h0 hle hv
  constructor
  · intro a ha
    obtain ⟨m, hm, hc⟩ := r1 a ha
    obtain ⟨t1, t2, t3⟩ := to01_some (resizeS v n) 1 m hval hm
    rw [resizeS_length] at t2
    exact ⟨t1, t2, by rw [t3]; exact hc,
      head_bits _ t1 (by intro e; rw [e] at t2; simp at t2; omega)⟩
  · intro hno
    rw [to01_none _ 1 hval (r2 hno), resizeS_length]
    exact ⟨rfl, head_replicate n hn⟩

/-! ## C21: addition and subtraction -/

/-- "+" on UNSIGNED: the sum modulo `2^max(lengths)`, all 'X' if an operand has a metavalue. -/
theorem plus_unsigned (l r : Vec) (hl : Valid l) (hr : Valid r) (h1 : l ≠ []) (h2 : r ≠ []) :
    plusU l r = match uval l, uval r with
      | some a, some b => enc (max l.length r.length) (a + b)
      | _, _ => List.replicate (max l.length r.length) 1 := by
  have p1 := List.length_pos_iff.2 h1
  have p2 := List.length_pos_iff.2 h2
  obtain ⟨a1, a2⟩ := normU l (max l.length r.length) hl (by omega) (by omega)
  obtain ⟨b1, b2⟩ := normU r (max l.length r.length) hr (by omega) (by omega)
  unfold plusU guardX
  rw [if_neg (by omega)]
  dsimp only
  cases ha : uval l with
  | none => obtain ⟨e1, e2⟩ := a2 ha; rw [if_pos e2, e1]
  | some a =>
    obtain ⟨x1, x2, x3, x4⟩ := a1 a ha
    rw [if_neg x4]
    cases hb : uval r with
    | none => obtain ⟨e1, e2⟩ := b2 hb; rw [if_pos e2, e1]
    | some b =>
      obtain ⟨y1, y2, y3, y4⟩ := b1 b hb
      rw [if_neg y4, packedAdd_spec _ _ _ 0 x2 y2 x1.valid y1.valid (by omega), x3, y3, Nat.add_zero]

/-- "-" on UNSIGNED. -/
theorem minus_unsigned (l r : Vec) (hl : Valid l) (hr : Valid r) (h1 : l ≠ []) (h2 : r ≠ []) :
    minusU l r = match uval l, uval r with
      | some a, some b => encI (max l.length r.length) ((a : Int) - b)
      | _, _ => List.replicate (max l.length r.length) 1 := by
  have p1 := List.length_pos_iff.2 h1
  have p2 := List.length_pos_iff.2 h2
  obtain ⟨a1, a2⟩ := normU l (max l.length r.length) hl (by omega) (by omega)
  obtain ⟨b1, b2⟩ := normU r (max l.length r.length) hr (by omega) (by omega)
  unfold minusU guardX
  rw [if_neg (by omega)]
  dsimp only
  cases ha : uval l with
  | none => obtain ⟨e1, e2⟩ := a2 ha; rw [if_pos e2, e1]
  | some a =>
    obtain ⟨x1, x2, x3, x4⟩ := a1 a ha
    rw [if_neg x4]
    cases hb : uval r with
    | none => obtain ⟨e1, e2⟩ := b2 hb; rw [if_pos e2, e1]
    | some b =>
      obtain ⟨y1, y2, y3, y4⟩ := b1 b hb
      rw [if_neg y4]
      exact packedSub_int _ _ _ a b x2 y2 x1.valid y1 (by rw [x3]; exact Cong.refl _ _)
        (by rw [y3]; exact Cong.refl _ _)

/-- "+" on SIGNED. -/
theorem plus_signed (l r : Vec) (hl : Valid l) (hr : Valid r) (h1 : l ≠ []) (h2 : r ≠ []) :
    plusS l r = match sval l, sval r with
      | some a, some b => encI (max l.length r.length) (a + b)
      | _, _ => List.replicate (max l.length r.length) 1 := by
  have p1 := List.length_pos_iff.2 h1
  have p2 := List.length_pos_iff.2 h2
  obtain ⟨a1, a2⟩ := normS l (max l.length r.length) hl h1 (by omega)
  obtain ⟨b1, b2⟩ := normS r (max l.length r.length) hr h2 (by omega)
  unfold plusS guardX
  rw [if_neg (by omega)]
  dsimp only
  cases ha : sval l with
  | none => obtain ⟨e1, e2⟩ := a2 ha; rw [if_pos e2, e1]
  | some a =>
    obtain ⟨x1, x2, x3, x4⟩ := a1 a ha
    rw [if_neg x4]
    cases hb : sval r with
    | none => obtain ⟨e1, e2⟩ := b2 hb; rw [if_pos e2, e1]
    | some b =>
      obtain ⟨y1, y2, y3, y4⟩ := b1 b hb
      rw [if_neg y4]
      exact packedAdd_int _ _ _ a b x2 y2 x1.valid y1.valid x3 y3

/-- "-" on SIGNED. -/
theorem minus_signed (l r : Vec) (hl : Valid l) (hr : Valid r) (h1 : l ≠ []) (h2 : r ≠ []) :
    minusS l r = match sval l, sval r with
      | some a, some b => encI (max l.length r.length) (a - b)
      | _, _ => List.replicate (max l.length r.length) 1 := by
  have p1 := List.length_pos_iff.2 h1
  have p2 := List.length_pos_iff.2 h2
  obtain ⟨a1, a2⟩ := normS l (max l.length r.length) hl h1 (by omega)
  obtain ⟨b1, b2⟩ := normS r (max l.length r.length) hr h2 (by omega)
  unfold minusS guardX
  rw [if_neg (by omega)]
  dsimp only
  cases ha : sval l with
  | none => obtain ⟨e1, e2⟩ := a2 ha; rw [if_pos e2, e1]
  | some a =>
    obtain ⟨x1, x2, x3, x4⟩ := a1 a ha
    rw [if_neg x4]
    cases hb : sval r with
    | none => obtain ⟨e1, e2⟩ := b2 hb; rw [if_pos e2, e1]
    | some b =>
      obtain ⟨y1, y2, y3, y4⟩ := b1 b hb
      rw [if_neg y4]
      exact packedSub_int _ _ _ a b x2 y2 x1.valid y1 x3 y3

/-- A null operand gives a null result. -/
theorem arith_null (l r : Vec) (h : l = [] ∨ r = []) :
    plusU l r = [] ∧ minusU l r = [] ∧ plusS l r = [] ∧ minusS l r = [] ∧ mulU l r = [] ∧
      mulS l r = [] := by
  have h' : l.length = 0 ∨ r.length = 0 := by simpa using h
  refine ⟨?_, ?_, ?_, ?_, ?_, ?_⟩
  · unfold plusU; rw [if_pos h']
  · unfold minusU; rw [if_pos h']
  · unfold plusS; rw [if_pos h']
  · unfold minusS; rw [if_pos h']
  · unfold mulU; rw [if_pos h']
  · unfold mulS; rw [if_pos h']

/-- "+" of UNSIGNED and NATURAL: the sum modulo `2^length`, and a warning exactly when the
number does not fit in the length. -/
theorem plus_unsigned_natural (l : Vec) (k : Nat) (hl : Valid l) (h1 : l ≠ []) :
    (plusUN l k).1 = (match uval l with
      | some a => enc l.length (a + k)
      | none => List.replicate l.length 1) ∧
    ((plusUN l k).2 = true ↔ 2 ^ l.length ≤ k) := by
  have p1 := List.length_pos_iff.2 h1
  obtain ⟨t1, t2⟩ := toUnsigned_spec k l.length p1
  have t2' : (toUnsigned k l.length).2 = true ↔ 2 ^ l.length ≤ k := by
    rw [t2 (by omega)]; exact_mod_cast Iff.rfl
  unfold plusUN
  rw [if_neg (by omega)]
  dsimp only
  cases ha : uval l with
  | none =>
    have e := to01_none l 1 hl ha
    rw [if_pos (Or.inl (by rw [e]; exact head_replicate _ p1))]
    exact ⟨e, t2'⟩
  | some a =>
    obtain ⟨x1, x2, x3⟩ := to01_some l 1 a hl ha
    have x4 := head_bits _ x1 (by intro e; rw [e] at x2; simp at x2; omega)
    by_cases c : (k : Int) = 0
    · rw [if_pos (Or.inr c)]
      refine ⟨?_, t2'⟩
      have : k = 0 := by omega
      subst this
      exact eq_enc _ _ _ x2 x1 (by rw [x3, Nat.add_zero, Nat.mod_eq_of_lt (uval_lt l a ha)])
    · rw [if_neg (by rintro (e | e); exact x4 e; exact c e)]
      refine ⟨?_, t2'⟩
      dsimp only
      rw [t1, packedAdd_int _ _ _ a k x2 (encI_length _ _) x1.valid (encI_bits _ _).valid
        (by rw [x3]; exact Cong.refl _ _) (encI_val _ _)]
      exact_mod_cast encI_nat _ _

/-! ## C22: multiplication -/

theorem encI_nat_val (n v : Nat) (z : Int) (h : z = v) : encI n z = enc n v := by
  subst h; exact encI_nat n v

/-- "*" on UNSIGNED: the exact product in `length l + length r` bits. -/
theorem mul_unsigned (l r : Vec) (hl : Valid l) (hr : Valid r) (h1 : l ≠ []) (h2 : r ≠ []) :
    mulU l r = match uval l, uval r with
      | some a, some b => enc (l.length + r.length) (a * b)
      | _, _ => List.replicate (l.length + r.length) 1 := by
  have p1 := List.length_pos_iff.2 h1
  have p2 := List.length_pos_iff.2 h2
  unfold mulU
  rw [if_neg (by omega)]
  dsimp only
  cases ha : uval l with
  | none =>
    rw [if_pos (Or.inl (by rw [to01_none l 1 hl ha]; exact head_replicate _ p1))]
  | some a =>
    obtain ⟨x1, x2, x3⟩ := to01_some l 1 a hl ha
    have xn : to01 l 1 ≠ [] := by intro e; rw [e] at x2; simp at x2; omega
    cases hb : uval r with
    | none =>
      rw [if_pos (Or.inr (by rw [to01_none r 1 hr hb]; exact head_replicate _ p2))]
    | some b =>
      obtain ⟨y1, y2, y3⟩ := to01_some r 1 b hr hb
      have yn : to01 r 1 ≠ [] := by intro e; rw [e] at y2; simp at y2; omega
      rw [if_neg (by rintro (e | e); exact head_bits _ x1 xn e; exact head_bits _ y1 yn e)]
      have hu := uval_resizeU (to01 r 1) (l.length + r.length) (by omega) (by omega)
      have hb' := resizeU_bits (to01 r 1) (l.length + r.length) y1
      rw [uval_bits _ hb', uval_bits _ y1, y3] at hu
      have hu' : val (resizeU (to01 r 1) (l.length + r.length)) = b := by simpa using hu
      have := mulLoop_result false (to01 l 1) (resizeU (to01 r 1) (l.length + r.length)) x1 b
        (l.length + r.length) xn (by omega) (resizeU_length _ _) hb'
        (by rw [hu']; exact Cong.refl _ _)
      rw [x2] at this
      dsimp only
      rw [this]
      apply encI_nat_val
      simp only [mval, Bool.false_eq_true, if_false, x3, Int.natCast_mul]

/-- The product is not truncated. -/
theorem mul_unsigned_exact (l r : Vec) (a b : Nat) (hl : Valid l) (hr : Valid r) (h1 : l ≠ [])
    (h2 : r ≠ []) (ha : uval l = some a) (hb : uval r = some b) :
    uval (mulU l r) = some (a * b) := by
  rw [mul_unsigned l r hl hr h1 h2, ha, hb]
  dsimp only
  rw [uval_enc, Nat.mod_eq_of_lt]
  rw [Nat.pow_add]
  exact Nat.mul_lt_mul'' (uval_lt l a ha) (uval_lt r b hb)

theorem resizeS_bits (v : Vec) (n : Nat) (h0 : v ≠ []) (h : v.length ≤ n) (hb : Bits v) :
    Bits (resizeS v n) := by
  rw [resizeS_grow v n h0 h]
  refine Bits.append (Bits.replicate _ _ ?_) hb
  cases v with
  | nil => exact absurd rfl h0
  | cons x v => exact hb x (by simp)

/-- "*" on SIGNED. -/
theorem mul_signed (l r : Vec) (hl : Valid l) (hr : Valid r) (h1 : l ≠ []) (h2 : r ≠ []) :
    mulS l r = match sval l, sval r with
      | some a, some b => encI (l.length + r.length) (a * b)
      | _, _ => List.replicate (l.length + r.length) 1 := by
  have p1 := List.length_pos_iff.2 h1
  have p2 := List.length_pos_iff.2 h2
  unfold mulS
  rw [if_neg (by omega)]
  dsimp only
  cases ha : sval l with
  | none =>
    rw [if_pos (Or.inl (by
      rw [to01_none l 1 hl ((sval_none_iff l).1 ha)]; exact head_replicate _ p1))]
  | some a =>
    obtain ⟨m, hm, _⟩ := cong_sval l a ha
    obtain ⟨x1, x2, x3⟩ := to01_some l 1 m hl hm
    have xn : to01 l 1 ≠ [] := by intro e; rw [e] at x2; simp at x2; omega
    have xa : mval true (to01 l 1) = a :=
      sval_of_to01 l _ a h1 x1 x2 ha (by rw [x3]; exact hm)
    cases hb : sval r with
    | none =>
      rw [if_pos (Or.inr (by
        rw [to01_none r 1 hr ((sval_none_iff r).1 hb)]; exact head_replicate _ p2))]
    | some b =>
      obtain ⟨k, hk, _⟩ := cong_sval r b hb
      obtain ⟨y1, y2, y3⟩ := to01_some r 1 k hr hk
      have yn : to01 r 1 ≠ [] := by intro e; rw [e] at y2; simp at y2; omega
      have yb : mval true (to01 r 1) = b :=
        sval_of_to01 r _ b h2 y1 y2 hb (by rw [y3]; exact hk)
      rw [if_neg (by rintro (e | e); exact head_bits _ x1 xn e; exact head_bits _ y1 yn e)]
      have hb' := resizeS_bits (to01 r 1) (l.length + r.length) yn (by omega) y1
      obtain ⟨q, hq, hc⟩ := (resizeS_val (to01 r 1) (l.length + r.length) yn (by omega)).1 b
        (by rw [sval_bits _ y1, yb])
      rw [uval_bits _ hb'] at hq
      have hq' : val (resizeS (to01 r 1) (l.length + r.length)) = q := by simpa using hq
      have := mulLoop_result true (to01 l 1) (resizeS (to01 r 1) (l.length + r.length)) x1 b
        (l.length + r.length) xn (by omega) (resizeS_length _ _) hb' (by rw [hq']; exact hc)
      rw [x2, xa] at this
      exact this

/-- The signed product is not truncated. -/
theorem mul_signed_exact (l r : Vec) (a b : Int) (hl : Valid l) (hr : Valid r) (h1 : l ≠ [])
    (h2 : r ≠ []) (ha : sval l = some a) (hb : sval r = some b) :
    sval (mulS l r) = some (a * b) := by
  have p1 := List.length_pos_iff.2 h1
  have p2 := List.length_pos_iff.2 h2
  rw [mul_signed l r hl hr h1 h2, ha, hb]
  dsimp only
  obtain ⟨a1, a2⟩ := sval_range l a h1 ha
  obtain ⟨b1, b2⟩ := sval_range r b h2 hb
  have hp : (2 : Int) ^ (l.length + r.length - 1) = 2 * (2 ^ (l.length - 1) * 2 ^ (r.length - 1)) := by
    rw [← Int.pow_add, Int.mul_comm, ← Int.pow_succ]; congr 1; omega
  have q1 := pow_pos_int (l.length - 1)
  have q2 := pow_pos_int (r.length - 1)
  generalize (2 : Int) ^ (l.length - 1) = u at *
  generalize (2 : Int) ^ (r.length - 1) = w at *
  have huw : 0 < u * w := Int.mul_pos q1 q2
  have n1 : a.natAbs ≤ u.natAbs := by omega
  have n2 : b.natAbs ≤ w.natAbs := by omega
  have n3 : (a * b).natAbs ≤ (u * w).natAbs := by
    rw [Int.natAbs_mul, Int.natAbs_mul]; exact Nat.mul_le_mul n1 n2
  apply sval_encI
  · omega
  · rw [hp]; omega
  · rw [hp]; omega

/-! ## C23: comparison -/

/-- The relational operators on UNSIGNED compare the numbers; with a null operand or a metavalue
they are false and warn (`cmpU` is `none`). -/
theorem compare_unsigned (l r : Vec) (hl : Valid l) (hr : Valid r) :
    (∀ a b, l ≠ [] → r ≠ [] → uval l = some a → uval r = some b →
      cmpU l r ≠ none ∧ (lessU l r = true ↔ a < b) ∧ (greaterU l r = true ↔ a > b) ∧
      (geqU l r = true ↔ a ≥ b) ∧ (leqU l r = true ↔ a ≤ b)) ∧
    (l = [] ∨ r = [] ∨ uval l = none ∨ uval r = none →
      cmpU l r = none ∧ lessU l r = false ∧ greaterU l r = false ∧ geqU l r = false ∧ leqU l r = false) := by
  constructor
  · intro a b h1 h2 ha hb
    have p1 := List.length_pos_iff.2 h1
    have p2 := List.length_pos_iff.2 h2
    obtain ⟨x1, x2, x3⟩ := to01_some l 1 a hl ha
    obtain ⟨y1, y2, y3⟩ := to01_some r 1 b hr hb
    have xn : to01 l 1 ≠ [] := by intro e; rw [e] at x2; simp at x2; omega
    have yn : to01 r 1 ≠ [] := by intro e; rw [e] at y2; simp at y2; omega
    have resized (v : Vec) (n c : Nat) (hv : Bits v) (hle : v.length ≤ n) (hn : 0 < n)
        (hc : val v = c) : val (resizeU v n) = c := by
      have hu := uval_resizeU v n hle hn
      rw [uval_bits _ (resizeU_bits v n hv), uval_bits _ hv, hc] at hu
      simpa using hu
    have e1 := resized (to01 l 1) (max l.length r.length) a x1 (by omega) (by omega) x3
    have e2 := resized (to01 r 1) (max l.length r.length) b y1 (by omega) (by omega) y3
    have hc : cmpU l r = some (firstDiff (resizeU (to01 l 1) (max l.length r.length))
        (resizeU (to01 r 1) (max l.length r.length))) := by
      unfold cmpU
      rw [if_neg (by omega)]
      dsimp only
      rw [if_neg (by rintro (e | e); exact head_bits _ x1 xn e; exact head_bits _ y1 yn e)]
    obtain ⟨f1, f2⟩ := firstDiff_spec (resizeU (to01 l 1) (max l.length r.length))
      (resizeU (to01 r 1) (max l.length r.length)) (by rw [resizeU_length, resizeU_length])
      (by intro e; have := resizeU_length (to01 l 1) (max l.length r.length)
          rw [e] at this; simp at this; omega)
      (resizeU_bits _ _ x1) (resizeU_bits _ _ y1)
    rw [e1, e2] at f1 f2
    refine ⟨by rw [hc]; simp, ?_⟩
    unfold lessU greaterU geqU leqU
    rw [hc]
    generalize firstDiff (resizeU (to01 l 1) (max l.length r.length))
        (resizeU (to01 r 1) (max l.length r.length)) = d at *
    obtain ⟨u, w⟩ := d
    simp only [decide_eq_true_eq] at *
    omega
  · intro h
    have hc : cmpU l r = none := by
      unfold cmpU
      by_cases c : l.length < 1 ∨ r.length < 1
      · rw [if_pos c]
      · rw [if_neg c]
        dsimp only
        rw [if_pos]
        rcases h with rfl | rfl | h | h
        · simp at c
        · simp at c
        · exact Or.inl (by rw [to01_none l 1 hl h]; exact head_replicate _ (by omega))
        · exact Or.inr (by rw [to01_none r 1 hr h]; exact head_replicate _ (by omega))
    unfold lessU greaterU geqU leqU
    rw [hc]
    exact ⟨rfl, rfl, rfl, rfl, rfl⟩

/-! ## C24: conversion -/

/-- TO_UNSIGNED: the number modulo `2^size`, and a warning exactly when it does not fit. -/
theorem to_unsigned (arg : Int) (size : Nat) :
    (ieeeToUnsigned arg size).1 = encI size arg ∧
      ((ieeeToUnsigned arg size).2 = true ↔ 0 < size ∧ (arg < 0 ∨ 2 ^ size ≤ arg)) := by
  unfold ieeeToUnsigned
  by_cases h : size < 1
  · rw [if_pos h]
    have : size = 0 := by omega
    subst this
    simp [encI, enc]
  · rw [if_neg h]
    obtain ⟨t1, t2⟩ := toUnsigned_spec arg size (by omega)
    refine ⟨t1, ?_⟩
    by_cases hn : arg < 0
    · simp only [toUnsigned_neg arg size (by omega) hn, true_iff]
      exact ⟨by omega, Or.inl hn⟩
    · rw [t2 (by omega)]
      constructor
      · intro e; exact ⟨by omega, Or.inr e⟩
      · rintro ⟨_, e | e⟩
        · omega
        · exact e

/-- TO_SIGNED. -/
theorem to_signed (arg : Int) (size : Nat) :
    (ieeeToSigned arg size).1 = encI size arg ∧
      ((ieeeToSigned arg size).2 = true ↔
        0 < size ∧ (arg < -2 ^ (size - 1) ∨ 2 ^ (size - 1) ≤ arg)) := by
  by_cases h : size = 0
  · subst h; simp [ieeeToSigned, encI, enc]
  · obtain ⟨t1, t2⟩ := ieeeToSigned_spec arg size (by omega)
    refine ⟨t1, ?_⟩
    rw [t2]
    constructor
    · intro e; exact ⟨by omega, e⟩
    · exact fun e => e.2

/-- TO_01: normalised vector, or all `xmap`. -/
theorem to_01 (v : Vec) (x : Nat) (hv : Valid v) :
    ieeeTo01 v x = match uval v with
      | some a => enc v.length a
      | none => List.replicate v.length x := by
  unfold ieeeTo01
  by_cases h : v.length = 0
  · rw [if_pos h]
    have : v = [] := by simpa using h
    subst this; rfl
  · rw [if_neg h]
    cases ha : uval v with
    | none => exact to01_none v x hv ha
    | some a =>
      obtain ⟨x1, x2, x3⟩ := to01_some v x a hv ha
      exact eq_enc _ _ _ x2 x1 (by rw [x3, Nat.mod_eq_of_lt (uval_lt v a ha)])

theorem getD_get (v : Vec) (i : Nat) (h : i < v.length) : v.getD i 0 = v[i] := by
  simp [h]

/-- RESIZE on UNSIGNED keeps the low elements and pads on the left with '0'. -/
theorem resize_unsigned (v : Vec) (n i : Nat) (h : i < n) :
    (resizeU v n).length = n ∧
      (resizeU v n)[n - 1 - i]? = some (if i < v.length then v.getD (v.length - 1 - i) 0 else 2) := by
  refine ⟨resizeU_length v n, ?_⟩
  unfold resizeU
  rw [if_neg (by omega)]
  by_cases c : v.length ≥ n
  · rw [if_pos c, List.getElem?_drop, if_pos (by omega)]
    rw [List.getElem?_eq_getElem (by omega)]
    congr 1
    rw [getD_get v _ (by omega)]
    congr 1
    omega
  · rw [if_neg c]
    by_cases d : i < v.length
    · rw [if_pos d, List.getElem?_append_right (by simp; omega), List.length_replicate,
        List.getElem?_eq_getElem (by omega), getD_get v _ (by omega)]
      congr 2
      omega
    · rw [if_neg d, List.getElem?_append_left (by simp; omega), List.getElem?_replicate,
        if_pos (by omega)]

/-- RESIZE on SIGNED keeps the sign element and the low elements, and pads with the sign
element. -/
theorem resize_signed (v : Vec) (n i : Nat) (hv : v ≠ []) (h : i < n) :
    (resizeS v n).length = n ∧
      (resizeS v n)[n - 1 - i]? =
        some (if i < v.length - 1 ∧ i < n - 1 then v.getD (v.length - 1 - i) 0 else v.headD 0) := by
  have p := List.length_pos_iff.2 hv
  refine ⟨resizeS_length v n, ?_⟩
  unfold resizeS
  rw [if_neg (by omega)]
  by_cases c : v.length = n
  · rw [if_pos c, List.getElem?_eq_getElem (by omega)]
    congr 1
    by_cases d : i < v.length - 1 ∧ i < n - 1
    · rw [if_pos d, getD_get v _ (by omega)]
      congr 1; omega
    · rw [if_neg d]
      cases v with
      | nil => exact absurd rfl hv
      | cons x v =>
        have : n - 1 - i = 0 := by simp at *; omega
        simp [this]
  · rw [if_neg c, if_neg (by omega)]
    dsimp only
    by_cases d : i < v.length - 1 ∧ i < n - 1
    · rw [if_pos d, List.getElem?_append_right (by simp; omega), List.length_replicate,
        List.getElem?_drop, List.getElem?_eq_getElem (by omega), getD_get v _ (by omega)]
      congr 2
      omega
    · rw [if_neg d, List.getElem?_append_left (by simp; omega), List.getElem?_replicate,
        if_pos (by omega)]

/-! ## C26: Synopsys packages -/

theorem convU_spec (v : Vec) (n : Nat) (hv : Valid v) (h0 : v ≠ []) (hle : v.length ≤ n) :
    (∀ a, uval v = some a → convU v n = enc n a) ∧
    (uval v = none → convU v n = List.replicate n 1) := by
  have p := List.length_pos_iff.2 h0
  unfold convU
  constructor
  · intro a ha
    split
    · rename_i c
      have hb := (all01_iff v hv).1 c.2
      rw [uval_bits v hb] at ha
      have ha' : val v = a := by simpa using ha
      have := val_lt v
      exact eq_enc _ _ _ c.1 hb (by rw [ha', Nat.mod_eq_of_lt (by rw [← c.1, ← ha']; exact this)])
    · obtain ⟨m1, m2, m3⟩ := makeBinary_some v a hv ha
      have hne : makeBinary v ≠ [] := by intro e; rw [e] at m2; simp at m2; omega
      dsimp only
      rw [if_neg (head_bits _ m1 hne)]
      apply eq_enc
      · simp [m2]; omega
      · exact (Bits.replicate _ _ (by omega)).append m1
      · have hlt := uval_lt v a ha
        have : (2 : Nat) ^ v.length ≤ 2 ^ n := Nat.pow_le_pow_right (by omega) hle
        rw [val_append, val_replicate2, m3, Nat.mod_eq_of_lt (by omega)]; omega
  · intro hno
    rw [if_neg (by
      rintro ⟨_, c⟩
      rw [uval_bits v ((all01_iff v hv).1 c)] at hno; simp at hno)]
    dsimp only
    rw [if_pos (by rw [makeBinary_none v hv hno]; exact head_replicate _ p)]

theorem enc_head (n v : Nat) (h : 0 < n) : (enc n v).headD 0 ≠ 1 :=
  head_bits _ (enc_bits n v) (by intro e; have := enc_length n v; rw [e] at this; simp at this; omega)

/-- Value of the sign-extended vector, whatever the first element (of weight `b % 2`). -/
theorem val_signext (b : Nat) (k : Nat) (w : Vec) :
    (val (List.replicate k b ++ w) : Int) = b % 2 * (2 ^ k - 1) * 2 ^ w.length + val w := by
  induction k with
  | zero => simp
  | succ k ih =>
    rw [List.replicate_succ, List.cons_append, val]
    simp only [Int.natCast_add, Int.natCast_mul, Int.natCast_pow, Int.cast_ofNat_Int, ih,
      List.length_append, List.length_replicate, Int.pow_succ, Int.pow_add]
    have : ((b % 2 : Nat) : Int) = (b : Int) % 2 := by omega
    rw [this]
    grind

theorem digit_mod (b d : Nat) (h : digit b = some d) : b % 2 = d ∧ b ≠ 1 := by
  unfold digit at h
  split at h
  · simp at h; omega
  · split at h
    · simp at h; omega
    · simp at h

theorem convS_spec (v : Vec) (n : Nat) (hv : Valid v) (h0 : v ≠ []) (hle : v.length ≤ n) :
    (∀ a, sval v = some a → Valid (convS v n) ∧ (convS v n).length = n ∧
      Cong n (val (convS v n)) a ∧ (convS v n).headD 0 ≠ 1 ∧
      (v.length = n ∨ v.headD 0 = 2 ∨ v.headD 0 = 3 → Bits (convS v n))) ∧
    (sval v = none → convS v n = List.replicate n 1) := by
  have p := List.length_pos_iff.2 h0
  unfold convS
  constructor
  · intro a ha
    obtain ⟨m, hm, hc⟩ := cong_sval v a ha
    split
    · rename_i c
      have hb := (all01_iff v hv).1 c.2
      rw [uval_bits v hb] at hm
      have hm' : val v = m := by simpa using hm
      exact ⟨hv, c.1, by rw [hm', ← c.1]; exact hc, head_bits v hb h0, fun _ => hb⟩
    · obtain ⟨m1, m2, m3⟩ := makeBinary_some v m hv hm
      have hne : makeBinary v ≠ [] := by intro e; rw [e] at m2; simp at m2; omega
      dsimp only
      rw [if_neg (head_bits _ m1 hne)]
      obtain ⟨b, w, rfl⟩ : ∃ b w, v = b :: w := by
        cases v with
        | nil => exact absurd rfl h0
        | cons b w => exact ⟨b, w, rfl⟩
      have hd : ∃ d u, digit b = some d ∧ uval w = some u ∧ a = (u : Int) - d * 2 ^ w.length ∧
          m = d * 2 ^ w.length + u := by
        unfold sval at ha
        unfold uval at hm
        cases hd : digit b with
        | none => simp [hd] at ha
        | some d =>
          cases hu : uval w with
          | none => simp [hd, hu] at ha
          | some u =>
            simp only [hd, hu, Option.some.injEq] at ha hm
            exact ⟨d, u, rfl, rfl, ha.symm, hm.symm⟩
      obtain ⟨d, u, hd, hu, ea, em⟩ := hd
      obtain ⟨hb2, hb1⟩ := digit_mod b d hd
      have hd1 := digit_le b d hd
      simp only [List.headD_cons]
      refine ⟨?_, ?_, ?_, ?_, ?_⟩
      · intro x hx
        rcases List.mem_append.1 hx with hx | hx
        · rw [(List.mem_replicate.1 hx).2]; exact hv b (by simp)
        · have := m1 x hx; omega
      · simp [m2] at *; omega
      · rw [val_signext, m2, m3]
        have hp : (2 : Int) ^ n = 2 ^ (n - (b :: w).length) * 2 ^ (b :: w).length := by
          rw [← Int.pow_add]; congr 1; omega
        refine ⟨(d : Int), ?_⟩
        rw [ea, em, hp, List.length_cons, Int.pow_succ]
        have : (b : Int) % 2 = d := by omega
        rw [this]
        simp only [Int.natCast_add, Int.natCast_mul, Int.natCast_pow, Int.cast_ofNat_Int]
        grind
      · cases hk : n - (b :: w).length with
        | zero =>
          simp only [List.replicate_zero, List.nil_append]
          exact head_bits _ m1 hne
        | succ k => simp [List.replicate_succ]; exact hb1
      · rintro (e | e)
        · rw [e, Nat.sub_self]; simpa using m1
        · exact (Bits.replicate _ _ e).append m1
  · intro hno
    have hu := (sval_none_iff v).1 hno
    rw [if_neg (by
      rintro ⟨_, c⟩
      rw [uval_bits v ((all01_iff v hv).1 c)] at hu; simp at hu)]
    dsimp only
    rw [if_pos (by rw [makeBinary_none v hv hu]; exact head_replicate _ p)]

/-- "+" of STD_LOGIC_UNSIGNED. -/
theorem syn_plus_unsigned (l r : Vec) (hl : Valid l) (hr : Valid r) (h1 : l ≠ []) (h2 : r ≠ []) :
    synPlusU l r = match uval l, uval r with
      | some a, some b => enc (max l.length r.length) (a + b)
      | _, _ => List.replicate (max l.length r.length) 1 := by
  have p1 := List.length_pos_iff.2 h1
  have p2 := List.length_pos_iff.2 h2
  obtain ⟨a1, a2⟩ := convU_spec l (max l.length r.length) hl h1 (by omega)
  obtain ⟨b1, b2⟩ := convU_spec r (max l.length r.length) hr h2 (by omega)
  unfold synPlusU
  dsimp only
  cases ha : uval l with
  | none => rw [if_pos (Or.inl (by rw [a2 ha]; exact head_replicate _ (by omega)))]
  | some a =>
    cases hb : uval r with
    | none => rw [if_pos (Or.inr (by rw [b2 hb]; exact head_replicate _ (by omega)))]
    | some b =>
      rw [a1 a ha, b1 b hb, if_neg (by
        rintro (e | e)
        · exact enc_head _ _ (by omega) e
        · exact enc_head _ _ (by omega) e),
        packedAdd_spec _ _ _ 0 (enc_length _ _) (enc_length _ _) (enc_bits _ _).valid
          (enc_bits _ _).valid (by omega)]
      apply eq_enc _ _ _ (enc_length _ _) (enc_bits _ _)
      rw [enc_val, enc_val, enc_val]
      simp only [Nat.add_zero, Nat.add_mod_mod, Nat.mod_add_mod, ← Nat.add_mod]

/-- "-" of STD_LOGIC_UNSIGNED. -/
theorem syn_minus_unsigned (l r : Vec) (hl : Valid l) (hr : Valid r) (h1 : l ≠ []) (h2 : r ≠ []) :
    synMinusU l r = match uval l, uval r with
      | some a, some b => encI (max l.length r.length) ((a : Int) - b)
      | _, _ => List.replicate (max l.length r.length) 1 := by
  have p1 := List.length_pos_iff.2 h1
  have p2 := List.length_pos_iff.2 h2
  obtain ⟨a1, a2⟩ := convU_spec l (max l.length r.length) hl h1 (by omega)
  obtain ⟨b1, b2⟩ := convU_spec r (max l.length r.length) hr h2 (by omega)
  unfold synMinusU
  dsimp only
  cases ha : uval l with
  | none => rw [if_pos (Or.inl (by rw [a2 ha]; exact head_replicate _ (by omega)))]
  | some a =>
    cases hb : uval r with
    | none => rw [if_pos (Or.inr (by rw [b2 hb]; exact head_replicate _ (by omega)))]
    | some b =>
      rw [a1 a ha, b1 b hb, if_neg (by
        rintro (e | e)
        · exact enc_head _ _ (by omega) e
        · exact enc_head _ _ (by omega) e)]
      exact packedSub_int _ _ _ a b (enc_length _ _) (enc_length _ _) (enc_bits _ _).valid
        (enc_bits _ _) (by rw [enc_val]; exact cong_mod _ _) (by rw [enc_val]; exact cong_mod _ _)

/-- "+" of STD_LOGIC_SIGNED. -/
theorem syn_plus_signed (l r : Vec) (hl : Valid l) (hr : Valid r) (h1 : l ≠ []) (h2 : r ≠ []) :
    synPlusS l r = match sval l, sval r with
      | some a, some b => encI (max l.length r.length) (a + b)
      | _, _ => List.replicate (max l.length r.length) 1 := by
  have p1 := List.length_pos_iff.2 h1
  have p2 := List.length_pos_iff.2 h2
  obtain ⟨a1, a2⟩ := convS_spec l (max l.length r.length) hl h1 (by omega)
  obtain ⟨b1, b2⟩ := convS_spec r (max l.length r.length) hr h2 (by omega)
  unfold synPlusS
  dsimp only
  cases ha : sval l with
  | none => rw [if_pos (Or.inl (by rw [a2 ha]; exact head_replicate _ (by omega)))]
  | some a =>
    obtain ⟨x1, x2, x3, x4, _⟩ := a1 a ha
    cases hb : sval r with
    | none => rw [if_pos (Or.inr (by rw [b2 hb]; exact head_replicate _ (by omega)))]
    | some b =>
      obtain ⟨y1, y2, y3, y4, _⟩ := b1 b hb
      rw [if_neg (by rintro (e | e); exact x4 e; exact y4 e)]
      exact packedAdd_int _ _ _ a b x2 y2 x1 y1 x3 y3

/-- "*" of STD_LOGIC_UNSIGNED. -/
theorem syn_mul_unsigned (l r : Vec) (hl : Valid l) (hr : Valid r) (h1 : l ≠ []) (h2 : r ≠ []) :
    synMulU l r = match uval l, uval r with
      | some a, some b => enc (l.length + r.length) (a * b)
      | _, _ => List.replicate (l.length + r.length) 1 := by
  have p1 := List.length_pos_iff.2 h1
  have p2 := List.length_pos_iff.2 h2
  obtain ⟨a1, a2⟩ := convU_spec l l.length hl h1 (by omega)
  obtain ⟨b1, b2⟩ := convU_spec r r.length hr h2 (by omega)
  unfold synMulU
  dsimp only
  cases ha : uval l with
  | none => rw [if_pos (Or.inl (by rw [a2 ha]; exact head_replicate _ (by omega)))]
  | some a =>
    cases hb : uval r with
    | none => rw [if_pos (Or.inr (by rw [b2 hb]; exact head_replicate _ (by omega)))]
    | some b =>
      rw [a1 a ha, b1 b hb, if_neg (by
        rintro (e | e)
        · exact enc_head _ _ (by omega) e
        · exact enc_head _ _ (by omega) e)]
      have hne : enc l.length a ≠ [] := by
        intro e; have := enc_length l.length a; rw [e] at this; simp at this; omega
      have := mulLoop_result false (enc l.length a)
        (List.replicate (l.length + r.length - r.length) 2 ++ enc r.length b) (enc_bits _ _) b
        (l.length + r.length) hne (by rw [enc_length]; omega) (by simp [enc_length])
        ((Bits.replicate _ _ (by omega)).append (enc_bits _ _))
        (by rw [val_append, val_replicate2, enc_val, Nat.mod_eq_of_lt (uval_lt r b hb)]
            simp; exact Cong.refl _ _)
      rw [enc_length] at this
      dsimp only
      rw [this]
      apply encI_nat_val
      simp only [mval, Bool.false_eq_true, if_false, enc_val, Int.natCast_mul,
        Nat.mod_eq_of_lt (uval_lt l a ha)]

/-- "*" of STD_LOGIC_SIGNED. -/
theorem syn_mul_signed (l r : Vec) (hl : Valid l) (hr : Valid r) (h1 : l ≠ []) (h2 : r ≠ []) :
    synMulS l r = match sval l, sval r with
      | some a, some b => encI (l.length + r.length) (a * b)
      | _, _ => List.replicate (l.length + r.length) 1 := by
  have p1 := List.length_pos_iff.2 h1
  have p2 := List.length_pos_iff.2 h2
  obtain ⟨a1, a2⟩ := convS_spec l l.length hl h1 (by omega)
  obtain ⟨b1, b2⟩ := convS_spec r r.length hr h2 (by omega)
  unfold synMulS
  dsimp only
  cases ha : sval l with
  | none => rw [if_pos (Or.inl (by rw [a2 ha]; exact head_replicate _ (by omega)))]
  | some a =>
    obtain ⟨x1, x2, x3, x4, x5⟩ := a1 a ha
    have x5 := x5 (Or.inl rfl)
    cases hb : sval r with
    | none => rw [if_pos (Or.inr (by rw [b2 hb]; exact head_replicate _ (by omega)))]
    | some b =>
      obtain ⟨y1, y2, y3, y4, y5⟩ := b1 b hb
      have y5 := y5 (Or.inl rfl)
      rw [if_neg (by rintro (e | e); exact x4 e; exact y4 e)]
      dsimp only
      have small (v w : Vec) (c : Int) (hv : v ≠ []) (hw : Bits w) (hlen : w.length = v.length)
          (hc : Cong v.length (val w) c) (hs : sval v = some c) : mval true w = c := by
        obtain ⟨m, hm, hc2⟩ := cong_sval v c hs
        have := uval_exact v m (val w) (by rw [← hlen]; exact val_lt w) (uval_lt v m hm)
          (hc.trans hc2.symm)
        exact sval_of_to01 v w c hv hw hlen hs (by rw [this]; exact hm)
      have ma := small l _ a h1 x5 x2 x3 ha
      have mb := small r _ b h2 y5 y2 y3 hb
      have xn : convS l l.length ≠ [] := by intro e; rw [e] at x2; simp at x2; omega
      have yn : convS r r.length ≠ [] := by intro e; rw [e] at y2; simp at y2; omega
      generalize convS l l.length = x at *
      generalize convS r r.length = y at *
      have ey : List.replicate (l.length + r.length - r.length) (y.headD 0) ++ y =
          resizeS y (l.length + r.length) := by
        rw [resizeS_grow y _ yn (by omega), y2]
      rw [ey]
      have hb' := resizeS_bits y (l.length + r.length) yn (by omega) y5
      obtain ⟨q, hq, hc⟩ := (resizeS_val y (l.length + r.length) yn (by omega)).1 b
        (by rw [sval_bits _ y5, mb])
      rw [uval_bits _ hb'] at hq
      have hq' : val (resizeS y (l.length + r.length)) = q := by simpa using hq
      have := mulLoop_result true x (resizeS y (l.length + r.length)) x5 b
        (l.length + r.length) xn (by omega) (resizeS_length _ _) hb' (by rw [hq']; exact hc)
      rw [x2, ma] at this
      exact this

/-- "=" of STD_LOGIC_UNSIGNED on operands without metavalues. -/
theorem syn_eql_unsigned (l r : Vec) (a b : Nat) (hl : Valid l) (hr : Valid r) (h1 : l ≠ [])
    (h2 : r ≠ []) (ha : uval l = some a) (hb : uval r = some b) :
    synEqlU l r = true ↔ a = b := by
  have p1 := List.length_pos_iff.2 h1
  have p2 := List.length_pos_iff.2 h2
  unfold synEqlU
  dsimp only
  rw [(convU_spec l (max l.length r.length) hl h1 (by omega)).1 a ha,
    (convU_spec r (max l.length r.length) hr h2 (by omega)).1 b hb, decide_eq_true_eq]
  constructor
  · intro e
    have e2 : val (enc (max l.length r.length) a) = val (enc (max l.length r.length) b) := by rw [e]
    have m1 : (2 : Nat) ^ l.length ≤ 2 ^ max l.length r.length :=
      Nat.pow_le_pow_right (by omega) (by omega)
    have m2 : (2 : Nat) ^ r.length ≤ 2 ^ max l.length r.length :=
      Nat.pow_le_pow_right (by omega) (by omega)
    have := uval_lt l a ha
    have := uval_lt r b hb
    rwa [enc_val, enc_val, Nat.mod_eq_of_lt (by omega), Nat.mod_eq_of_lt (by omega)] at e2
  · intro e; rw [e]

/-- "=" of STD_LOGIC_SIGNED compares the numbers if the operands have the same length or begin
with '0' or '1'.  Missing: a shorter operand beginning with 'L' or 'H', for which it is false
(`syn_eql_signed_counterexample`). -/
theorem syn_eql_signed_partial (l r : Vec) (a b : Int) (hl : Valid l) (hr : Valid r) (h1 : l ≠ [])
    (h2 : r ≠ []) (ha : sval l = some a) (hb : sval r = some b)
    (hc : l.length = r.length ∨
      ((l.headD 0 = 2 ∨ l.headD 0 = 3) ∧ (r.headD 0 = 2 ∨ r.headD 0 = 3))) :
    synEqlS l r = true ↔ a = b := by
  have p1 := List.length_pos_iff.2 h1
  have p2 := List.length_pos_iff.2 h2
  obtain ⟨x1, x2, x3, x4, x5⟩ :=
    (convS_spec l (max l.length r.length) hl h1 (by omega)).1 a ha
  obtain ⟨y1, y2, y3, y4, y5⟩ :=
    (convS_spec r (max l.length r.length) hr h2 (by omega)).1 b hb
  have x5 := x5 (by omega)
  have y5 := y5 (by omega)
  unfold synEqlS
  dsimp only
  rw [decide_eq_true_eq]
  constructor
  · intro e
    rw [e] at x3
    obtain ⟨q, hq⟩ := x3.symm.trans y3
    obtain ⟨r1, r2⟩ := sval_range l a h1 ha
    obtain ⟨r3, r4⟩ := sval_range r b h2 hb
    have hp : (2 : Int) ^ max l.length r.length = 2 ^ (max l.length r.length - 1) * 2 := by
      rw [← Int.pow_succ]; congr 1; omega
    have m1 : (2 : Int) ^ (l.length - 1) ≤ 2 ^ (max l.length r.length - 1) := by
      exact_mod_cast Nat.pow_le_pow_right (by omega) (by omega)
    have m2 : (2 : Int) ^ (r.length - 1) ≤ 2 ^ (max l.length r.length - 1) := by
      exact_mod_cast Nat.pow_le_pow_right (by omega) (by omega)
    rw [hp] at hq
    generalize (2 : Int) ^ (max l.length r.length - 1) = w2 at *
    have : q = 0 := by
      rcases Int.lt_trichotomy q 0 with h | h | h
      · have : q * (w2 * 2) ≤ -1 * (w2 * 2) := Int.mul_le_mul_of_nonneg_right (by omega) (by omega)
        omega
      · exact h
      · have : 1 * (w2 * 2) ≤ q * (w2 * 2) := Int.mul_le_mul_of_nonneg_right (by omega) (by omega)
        omega
    subst this
    omega
  · intro e
    rw [eq_encI _ _ _ x2 x5 x3, eq_encI _ _ _ y2 y5 y3, e]

/-- "H" and "11" are both -1, but "=" of STD_LOGIC_SIGNED says that they differ: the shorter one is
padded with 'H' itself. -/
theorem syn_eql_signed_counterexample :
    ∃ (l r : Vec) (a : Int), Valid l ∧ Valid r ∧ l ≠ [] ∧ r ≠ [] ∧ sval l = some a ∧
      sval r = some a ∧ synEqlS l r = false :=
  ⟨[7], [3, 3], -1, by unfold Valid; decide, by unfold Valid; decide, by decide, by decide,
    by decide, by decide, by decide +kernel⟩

/-! ## Examples -/

example : plusU [3, 2, 7, 3, 3, 3, 3, 3, 3] [3] = [3, 3, 2, 2, 2, 2, 2, 2, 2] := by decide +kernel
example : Valid [3, 2, 7, 3, 3, 3, 3, 3, 3] ∧ uval [3, 2, 7, 3, 3, 3, 3, 3, 3] = some 383 := by
  unfold Valid; decide +kernel
example : minusU [2, 2] [2, 3] = [3, 3] := by decide +kernel
example : plusS [3] [2, 3, 2] = [2, 2, 3] := by decide +kernel
example : minusS [3] [2, 3, 2] = [3, 2, 3] := by decide +kernel
example : plusU [1, 2] [3, 3, 3] = [1, 1, 1] := by decide +kernel
example : plusUN [2, 3] 7 = ([2, 2], true) := by decide +kernel
example : mulU [3, 7] [3, 3] = [3, 2, 2, 3] := by decide +kernel
example : mulS [3, 2] [3, 2] = [2, 3, 2, 2] := by decide +kernel
example : lessU [3, 2] [2, 3, 3] = true ∧ leqU [3] [6, 7] = true := by decide +kernel
example : ieeeToUnsigned 300 8 = ([2, 2, 3, 2, 3, 3, 2, 2], true) := by decide +kernel
example : ieeeToUnsigned 300 9 = ([3, 2, 2, 3, 2, 3, 3, 2, 2], false) := by decide +kernel
example : ieeeToSigned (-3) 3 = ([3, 2, 3], false) ∧ (ieeeToSigned (-5) 3).2 = true := by decide +kernel
example : ieeeTo01 [7, 6, 3] 1 = [3, 2, 3] ∧ ieeeTo01 [7, 4] 1 = [1, 1] := by decide +kernel
example : resizeS [3, 2, 3] 2 = [3, 3] ∧ resizeS [3, 2] 4 = [3, 3, 3, 2] := by decide +kernel
example : resizeU [3, 2, 3] 2 = [2, 3] ∧ resizeU [3, 2] 4 = [2, 2, 3, 2] := by decide +kernel
example : synPlusU [7] [3, 3] = [2, 2] ∧ synPlusS [7] [2, 3, 3] = [2, 3, 2] := by decide +kernel
example : synMinusU [2, 2] [3] = [3, 3] := by decide +kernel
example : synMulU [7, 3] [3, 3] = [3, 2, 2, 3] ∧ synMulS [7] [3, 3] = [2, 2, 3] := by decide +kernel
example : synEqlU [7] [6, 3] = true ∧ synEqlS [3] [3, 7] = true := by decide +kernel
example : sval [3] = some (-1) ∧ sval [3, 7] = some (-1) := by decide +kernel

end Verif.Numeric
