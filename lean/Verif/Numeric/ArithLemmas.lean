import Verif.Numeric.AddLemmas

/-! Lemmas about conversion of integers, multiplication, comparison and the Synopsys packages. -/

namespace Verif.Numeric

/-! ## Conversion of integers -/

theorem mask_table : ∀ t : Fin 9, 1 ≤ t.1 → ∀ last : Fin 256,
    ((last.1 &&& (255 - (2 ^ t.1 - 1) % 256) ≠ 0) ↔ 2 ^ t.1 ≤ last.1) ∧
    ((last.1 &&& (255 - (2 ^ t.1 - 1) % 256) = 255 - (2 ^ t.1 - 1) % 256) ↔
      256 - 2 ^ t.1 ≤ last.1) := by
  decide +kernel

/-- What both conversions compute: `A` is the argument without its low whole bytes. -/
theorem spread_result (arg : Int) (size : Nat) (h : 0 < size) :
    ∃ (k t : Nat) (A : Int) (last : Fin 256), 1 ≤ t ∧ t ≤ 8 ∧ size = 8 * k + t ∧
      A = arg / 2 ^ (8 * k) ∧ spillMask size = 255 - (2 ^ t - 1) % 256 ∧
      (spreadLoop (roundup size / 8) arg 0 []).1 = A / 256 ∧
      (spreadLoop (roundup size / 8) arg 0 []).2.1 = last.1 ∧ (last.1 : Int) = A % 256 ∧
      (spreadLoop (roundup size / 8) arg 0 []).2.2 = encI (8 - t) (arg / 2 ^ size) ++
        encI size arg ∧ roundup size - size = 8 - t := by
  obtain ⟨k, t, h1, h2, h3, h4, h5, h6, h7⟩ := roundup_spec size h
  have hb : 0 ≤ arg / 2 ^ (8 * k) % 256 := Int.emod_nonneg _ (by omega)
  have hb' : arg / 2 ^ (8 * k) % 256 < 256 := Int.emod_lt_of_pos _ (by omega)
  refine ⟨k, t, arg / 2 ^ (8 * k), ⟨(arg / 2 ^ (8 * k) % 256).toNat, by omega⟩, h3, h4, h2, rfl, ?_,
    ?_, ?_, ?_, ?_, h5⟩
  · unfold spillMask; rw [h7]
  · rw [h6, (spreadLoop_spec (k + 1) arg 0 []).1, (by omega : 8 * (k + 1) = 8 * k + 8),
      Int.pow_add, Int.ediv_ediv_of_nonneg (Int.le_of_lt (pow_pos_int _))]
    rfl
  · rw [h6, (spreadLoop_spec k arg 0 []).2.2]
  · dsimp only; omega
  · rw [h6, (spreadLoop_spec (k + 1) arg 0 []).2.1, List.append_nil, ← encI_append]
    congr 1
    omega

theorem div_ge (a : Int) (n : Nat) (c : Int) : c ≤ a / 2 ^ n ↔ c * 2 ^ n ≤ a :=
  Int.le_ediv_iff_mul_le (pow_pos_int n)

theorem toUnsigned_spec (arg : Int) (size : Nat) (h : 0 < size) :
    (toUnsigned arg size).1 = encI size arg ∧
      (0 ≤ arg → ((toUnsigned arg size).2 = true ↔ 2 ^ size ≤ arg)) := by
  obtain ⟨k, t, A, last, h1, h2, h3, hA, h4, h5, h6, h7, h8, h9⟩ := spread_result arg size h
  constructor
  · unfold toUnsigned
    dsimp only
    rw [h8, h9, List.drop_left' (encI_length _ _)]
  · intro hpos
    have m := (mask_table ⟨t, by omega⟩ h1 last).1
    unfold toUnsigned
    dsimp only at m ⊢
    rw [h5, h6, h4]
    simp only [Bool.or_eq_true, decide_eq_true_eq]
    rw [m]
    have e : (2 : Int) ^ size ≤ arg ↔ 2 ^ t ≤ A := by
      rw [hA, div_ge, h3, Int.pow_add]; rw [Int.mul_comm]
    rw [e]
    have hA0 : 0 ≤ A := by rw [hA, div_ge]; simpa using hpos
    have ht : t = 1 ∨ t = 2 ∨ t = 3 ∨ t = 4 ∨ t = 5 ∨ t = 6 ∨ t = 7 ∨ t = 8 := by omega
    generalize last.1 = y at *
    rcases ht with rfl | rfl | rfl | rfl | rfl | rfl | rfl | rfl <;>
      simp only [Nat.reducePow, Int.reducePow] <;> omega

theorem toUnsigned_neg (arg : Int) (size : Nat) (h : 0 < size) (hn : arg < 0) :
    (toUnsigned arg size).2 = true := by
  obtain ⟨k, t, A, last, h1, h2, h3, hA, h4, h5, h6, h7, h8, h9⟩ := spread_result arg size h
  unfold toUnsigned
  dsimp only
  rw [h5]
  have : A < 0 := by
    rw [hA]; exact Int.ediv_neg_of_neg_of_pos hn (pow_pos_int _)
  have : A / 256 ≠ 0 := by omega
  simp [this]

theorem encI_head (n : Nat) (z : Int) : (encI (n + 1) z).headD 0 = 2 + (z / 2 ^ n % 2).toNat := by
  rw [Nat.add_comm, encI_append]
  have : encI 1 (z / 2 ^ n) = [2 + (z / 2 ^ n % 2).toNat] := by
    simp only [encI, enc]
    congr 1
    have h1 := Int.emod_lt_of_pos (z / 2 ^ n) (b := 2) (by omega)
    have h2 := Int.emod_nonneg (z / 2 ^ n) (b := 2) (by omega)
    simp
    omega
  rw [this]
  rfl

theorem ieeeToSigned_spec (arg : Int) (size : Nat) (h : 0 < size) :
    (ieeeToSigned arg size).1 = encI size arg ∧
      ((ieeeToSigned arg size).2 = true ↔
        (arg < -2 ^ (size - 1) ∨ 2 ^ (size - 1) ≤ arg)) := by
  obtain ⟨k, t, A, last, h1, h2, h3, hA, h4, h5, h6, h7, h8, h9⟩ := spread_result arg size h
  unfold ieeeToSigned
  rw [if_neg (by omega)]
  dsimp only
  constructor
  · rw [h8, h9, List.drop_left' (encI_length _ _)]
  · have htop : (spreadLoop (roundup size / 8) arg 0 []).2.2.getD (roundup size - size) 0 =
        2 + (A / 2 ^ (t - 1) % 2).toNat := by
      rw [h8, h9]
      have e : (encI (8 - t) (arg / 2 ^ size) ++ encI size arg).getD (8 - t) 0 =
          (encI size arg).headD 0 := by
        rw [List.getD_eq_getElem?_getD, List.getElem?_append_right (by rw [encI_length]; omega),
          encI_length, Nat.sub_self]
        cases encI size arg <;> rfl
      rw [e, (by omega : size = size - 1 + 1), encI_head, hA, Int.ediv_ediv_of_nonneg
        (Int.le_of_lt (pow_pos_int _)), ← Int.pow_add, (by omega : size - 1 = 8 * k + (t - 1))]
    obtain ⟨m1, m2⟩ := mask_table ⟨t, by omega⟩ h1 last
    dsimp only at m1 m2
    rw [htop, h5, h6, h4]
    simp only [Bool.or_eq_true, Bool.and_eq_true, decide_eq_true_eq]
    have m2' : (last.1 &&& (255 - (2 ^ t - 1) % 256) ≠ 255 - (2 ^ t - 1) % 256) ↔
        ¬ (256 - 2 ^ t ≤ last.1) := not_congr m2
    rw [m1, m2']
    have e1 : (2 : Int) ^ (size - 1) ≤ arg ↔ 2 ^ (t - 1) ≤ A := by
      rw [hA, div_ge, (by omega : size - 1 = (t - 1) + 8 * k), Int.pow_add]
    have e2 : arg < -(2 : Int) ^ (size - 1) ↔ A < -2 ^ (t - 1) := by
      rw [← Int.not_le, ← Int.not_le, hA, div_ge, (by omega : size - 1 = (t - 1) + 8 * k),
        Int.pow_add, Int.neg_mul]
    rw [e1, e2]
    clear m1 m2 m2' e1 e2 htop h4 h5 h6 h8 hA
    generalize last.1 = y at *
    have ht : t = 1 ∨ t = 2 ∨ t = 3 ∨ t = 4 ∨ t = 5 ∨ t = 6 ∨ t = 7 ∨ t = 8 := by omega
    rcases ht with rfl | rfl | rfl | rfl | rfl | rfl | rfl | rfl <;>
      simp only [Nat.reducePow, Int.reducePow, Nat.reduceSub] <;> omega

/-! ## Multiplication -/

theorem shift_val (a : Vec) (k : Nat) (ha : Bits a) (hk : k ≤ a.length) :
    Bits ((a.drop k).take (a.length - k) ++ List.replicate k 2) ∧
    ((a.drop k).take (a.length - k) ++ List.replicate k 2).length = a.length ∧
    Cong a.length (val ((a.drop k).take (a.length - k) ++ List.replicate k 2))
      (val a * 2 ^ k) := by
  have e : (a.drop k).take (a.length - k) = a.drop k := List.take_of_length_le (by simp)
  rw [e]
  refine ⟨(ha.drop k).append (Bits.replicate _ _ (by omega)), by simp; omega, ?_⟩
  rw [val_append, val_replicate2, List.length_replicate, Nat.add_zero]
  have := val_append (a.take k) (a.drop k)
  rw [List.take_append_drop, List.length_drop] at this
  refine ⟨-(val (a.take k) : Int), ?_⟩
  rw [this]
  simp only [Int.natCast_add, Int.natCast_mul, Int.natCast_pow, Int.cast_ofNat_Int]
  have hp : (2 : Int) ^ a.length = 2 ^ (a.length - k) * 2 ^ k := by
    rw [← Int.pow_add]; congr 1; omega
  rw [hp]
  grind

/-- The multiplier as a number. -/
def mval (signed : Bool) (left : Vec) : Int :=
  if signed then (val left : Int) - (if left.headD 0 = 3 then 1 else 0) * 2 ^ left.length
  else val left

theorem val_drop_step (left : Vec) (i : Nat) (h : i < left.length) (hl : Bits left) :
    (left.getD i 0 = 3 → val (left.drop i) = 2 ^ (left.length - (i + 1)) + val (left.drop (i + 1))) ∧
    (left.getD i 0 ≠ 3 → val (left.drop i) = val (left.drop (i + 1))) := by
  rw [drop_getD left i h]
  have hm : left.getD i 0 ∈ left := by simp [h]
  have hb := hl _ hm
  simp only [val, List.length_drop]
  constructor
  · intro e; rw [e]; omega
  · intro e
    have : left.getD i 0 = 2 := by omega
    rw [this]; omega

theorem mulLoop_spec (signed : Bool) (left : Vec) (hl : Bits left) (R : Int) (size : Nat)
    (hs : left.length ≤ size) :
    ∀ (k shift : Nat) (adval res : Vec), k ≤ left.length → shift ≤ left.length - k →
      adval.length = size → Bits adval → res.length = size → Bits res →
      Cong size (val adval * 2 ^ shift) (R * 2 ^ (left.length - k)) →
      Cong size (val res) (val (left.drop k) * R) →
      Cong size (val (mulLoop signed left size k shift adval res))
        ((if k = 0 then (val left : Int) else mval signed left) * R) ∧
      (mulLoop signed left size k shift adval res).length = size ∧
      Bits (mulLoop signed left size k shift adval res) := by
  intro k
  induction k with
  | zero =>
    intro shift adval res _ _ _ _ h3 h4 _ h6
    rw [mulLoop]
    exact ⟨by simpa using h6, h3, h4⟩
  | succ i ih =>
    intro shift adval res hk hsh h1 h2 h3 h4 h5 h6
    obtain ⟨d1, d2⟩ := val_drop_step left i (by omega) hl
    have hpow : (2 : Int) ^ (left.length - i) = 2 ^ (left.length - (i + 1)) * 2 := by
      rw [← Int.pow_succ]; congr 1; omega
    have target : (signed = true → i = 0 → left.getD i 0 ≠ 3) →
        (if i = 0 then (val left : Int) else mval signed left) =
          (if i + 1 = 0 then (val left : Int) else mval signed left) := by
      intro hc
      rw [if_neg (by omega : ¬ i + 1 = 0)]
      split
      · rename_i hi
        subst hi
        unfold mval
        split
        · rename_i hsg
          have := hc hsg rfl
          have e : left.headD 0 = left.getD 0 0 := by cases left <;> rfl
          rw [e, if_neg this]; omega
        · rfl
      · rfl
    unfold mulLoop
    by_cases c : left.getD i 0 = 3
    · rw [if_pos c]
      have sv := shift_val adval shift h2 (by omega)
      rw [h1] at sv
      obtain ⟨s1, s2, s3⟩ := sv
      dsimp only
      generalize (adval.drop shift).take (size - shift) ++ List.replicate shift 2 = ad at *
      have s4 : Cong size (val ad) (R * 2 ^ (left.length - (i + 1))) := s3.trans h5
      have d := d1 c
      by_cases c2 : signed = true ∧ i = 0
      · rw [if_pos c2, packedSub_int res ad size _ _ h3 s2 h4.valid s1 h6 s4]
        obtain ⟨cs, rfl⟩ := c2
        rw [mulLoop]
        refine ⟨(encI_val _ _).trans ?_, encI_length _ _, encI_bits _ _⟩
        have e : left.headD 0 = left.getD 0 0 := by cases left <;> rfl
        rw [if_neg (by omega), mval, if_pos cs, e, if_pos c]
        have d' : (val left : Int) = 2 ^ (left.length - 1) + val (left.drop 1) := by
          simp only [List.drop_zero, Nat.zero_add] at d
          rw [d]
          simp only [Int.natCast_add, Int.natCast_pow, Int.cast_ofNat_Int]
        simp only [Nat.sub_zero, Nat.zero_add] at hpow ⊢
        have : (val (left.drop 1) : Int) * R - R * 2 ^ (left.length - 1) =
            ((val left : Int) - 1 * 2 ^ left.length) * R := by
          rw [d', hpow]; grind
        rw [this]; exact Cong.refl _ _
      · rw [if_neg c2, packedAdd_int res ad size _ _ h3 s2 h4.valid s1.valid h6 s4]
        rw [← target (by intro a b; exact absurd ⟨a, b⟩ c2)]
        apply ih 1 ad _ (by omega) (by omega) s2 s1 (encI_length _ _) (encI_bits _ _)
        · rw [hpow]
          have := s4.mul_left 2
          have e1 : (2 : Int) * val ad = val ad * 2 ^ 1 := by grind
          have e2 : (2 : Int) * (R * 2 ^ (left.length - (i + 1))) =
            R * (2 ^ (left.length - (i + 1)) * 2) := by grind
          rw [e1, e2] at this
          exact this
        · refine (encI_val _ _).trans ?_
          rw [d]
          have : (val (left.drop (i + 1)) : Int) * R + R * 2 ^ (left.length - (i + 1)) =
            ((2 ^ (left.length - (i + 1)) + val (left.drop (i + 1)) : Nat) : Int) * R := by
            simp only [Int.natCast_add, Int.natCast_pow, Int.cast_ofNat_Int]; grind
          rw [this]; exact Cong.refl _ _
    · rw [if_neg c, ← target (fun _ _ => c)]
      apply ih (shift + 1) adval res (by omega) (by omega) h1 h2 h3 h4
      · rw [hpow, Int.pow_succ]
        have := h5.mul_left 2
        have e1 : (2 : Int) * (val adval * 2 ^ shift) = val adval * (2 ^ shift * 2) := by grind
        have e2 : (2 : Int) * (R * 2 ^ (left.length - (i + 1))) =
          R * (2 ^ (left.length - (i + 1)) * 2) := by grind
        rw [e1, e2] at this
        exact this
      · rw [d2 c]; exact h6

/-- Both multiplications: the product modulo `2^size`. -/
theorem mulLoop_result (signed : Bool) (left adval : Vec) (hl : Bits left) (R : Int) (size : Nat)
    (hn : left ≠ []) (hs : left.length ≤ size) (h1 : adval.length = size) (h2 : Bits adval)
    (h : Cong size (val adval) R) :
    mulLoop signed left size left.length 0 adval (List.replicate size 2) =
      encI size (mval signed left * R) := by
  have hp : left.length ≠ 0 := by simpa using hn
  obtain ⟨r1, r2, r3⟩ := mulLoop_spec signed left hl R size hs left.length 0 adval
    (List.replicate size 2) (Nat.le_refl _) (by omega) h1 h2 (by simp)
    (Bits.replicate _ _ (by omega)) (by simpa using h)
    (by simp [val_replicate2, val]; exact Cong.refl _ _)
  rw [if_neg hp] at r1
  exact eq_encI _ _ _ r2 r3 r1

/-! ## Results of `to01` -/

theorem head_bits (v : Vec) (h : Bits v) (hn : v ≠ []) : v.headD 0 ≠ 1 := by
  cases v with
  | nil => exact absurd rfl hn
  | cons b v => have := h b (by simp); simp; omega

theorem head_replicate (n : Nat) (h : 0 < n) : (List.replicate n 1).headD 0 = 1 := by
  cases n with
  | zero => omega
  | succ n => rfl

theorem mval_uval (v : Vec) (h : Bits v) : mval false v = val v := rfl

theorem sval_bits (v : Vec) (h : Bits v) : sval v = some (mval true v) := by
  cases v with
  | nil => rfl
  | cons b v =>
    have hv : Bits v := fun x hx => h x (by simp [hx])
    rw [sval, uval_bits v hv]
    rcases h b (by simp) with rfl | rfl
    · simp [digit, mval, val]
    · simp [digit, mval, val, Int.pow_succ]; omega

theorem cong_sval (v : Vec) (a : Int) (h : sval v = some a) :
    ∃ m, uval v = some m ∧ Cong v.length m a := by
  cases v with
  | nil => simp [sval] at h; subst h; exact ⟨0, rfl, Cong.refl _ _⟩
  | cons b v =>
    unfold sval at h
    unfold uval
    cases hd : digit b with
    | none => simp [hd] at h
    | some d =>
      cases hu : uval v with
      | none => simp [hd, hu] at h
      | some m =>
        simp only [hd, hu, Option.some.injEq] at h
        refine ⟨_, rfl, (d : Int), ?_⟩
        rw [← h]
        simp only [Int.natCast_add, Int.natCast_mul, Int.natCast_pow, Int.cast_ofNat_Int,
          List.length_cons, Int.pow_succ]
        grind

theorem digit_le (b d : Nat) (h : digit b = some d) : d ≤ 1 := by
  unfold digit at h
  split at h
  · simp at h; omega
  · split at h
    · simp at h; omega
    · simp at h

theorem sval_range (v : Vec) (a : Int) (hn : v ≠ []) (h : sval v = some a) :
    -2 ^ (v.length - 1) ≤ a ∧ a < 2 ^ (v.length - 1) := by
  cases v with
  | nil => exact absurd rfl hn
  | cons b v =>
    unfold sval at h
    cases hd : digit b with
    | none => simp [hd] at h
    | some d =>
      cases hu : uval v with
      | none => simp [hd, hu] at h
      | some m =>
        simp only [hd, hu, Option.some.injEq] at h
        have := uval_lt v m hu
        have hm : (m : Int) < 2 ^ v.length := by exact_mod_cast this
        have := digit_le b d hd
        simp only [List.length_cons, Nat.add_sub_cancel]
        rcases (by omega : d = 0 ∨ d = 1) with rfl | rfl
        · simp at h; omega
        · simp at h; omega

theorem uval_exact (v : Vec) (a m : Nat) (h : m < 2 ^ v.length) (ha : a < 2 ^ v.length)
    (hc : Cong v.length (m : Int) a) : m = a := by
  have := hc.emod
  rw [Int.emod_eq_of_lt (by omega) (by exact_mod_cast h),
    Int.emod_eq_of_lt (by omega) (by exact_mod_cast ha)] at this
  omega

/-- The signed value is a function of the value of a normalised vector. -/
theorem sval_of_to01 (v w : Vec) (a : Int) (hn : v ≠ []) (hw : Bits w) (hl : w.length = v.length)
    (hv : sval v = some a) (hu : uval v = some (val w)) : mval true w = a := by
  have hs := sval_bits w hw
  have hwn : w ≠ [] := by
    intro e; subst e; simp at hl; exact hn (by simpa using hl.symm)
  have r1 := sval_range v a hn hv
  have r2 := sval_range w _ hwn hs
  obtain ⟨m, e1, c1⟩ := cong_sval v a hv
  obtain ⟨m', e2, c2⟩ := cong_sval w _ hs
  rw [uval_bits w hw] at e2
  rw [hu] at e1
  have e1' : val w = m := by simpa using e1
  have e2' : val w = m' := by simpa using e2
  subst e1'; subst e2'
  rw [hl] at c2 r2
  obtain ⟨q, hq⟩ := c2.symm.trans c1
  have hp : (2 : Int) ^ v.length = 2 ^ (v.length - 1) * 2 := by
    rw [← Int.pow_succ]; congr 1
    have := List.length_pos_iff.2 hn
    omega
  rw [hp] at hq
  have hpos := pow_pos_int (v.length - 1)
  generalize (2 : Int) ^ (v.length - 1) = w2 at *
  have : q = 0 := by
    rcases Int.lt_trichotomy q 0 with h | h | h
    · have : q * (w2 * 2) ≤ -1 * (w2 * 2) := Int.mul_le_mul_of_nonneg_right (by omega) (by omega)
      omega
    · exact h
    · have : 1 * (w2 * 2) ≤ q * (w2 * 2) := Int.mul_le_mul_of_nonneg_right (by omega) (by omega)
      omega
  subst this
  omega

/-! ## Comparison -/

theorem firstDiff_spec : ∀ (l r : Vec), l.length = r.length → l ≠ [] → Bits l → Bits r →
    ((firstDiff l r).1 < (firstDiff l r).2 ↔ val l < val r) ∧
    ((firstDiff l r).1 = (firstDiff l r).2 ↔ val l = val r) := by
  intro l
  induction l with
  | nil => intro r _ h; exact absurd rfl h
  | cons a l ih =>
    intro r hlen _ hl hr
    cases r with
    | nil => simp at hlen
    | cons b r =>
      have hlen' : l.length = r.length := by simpa using hlen
      have ha := hl a (by simp)
      have hb := hr b (by simp)
      have hl' : Bits l := fun x hx => hl x (by simp [hx])
      have hr' : Bits r := fun x hx => hr x (by simp [hx])
      have v1 := val_lt l
      have v2 := val_lt r
      by_cases hnil : l = []
      · subst hnil
        have : r = [] := by simpa using hlen'.symm
        subst this
        rcases ha with rfl | rfl <;> rcases hb with rfl | rfl <;> simp [firstDiff, val]
      · have hrn : r ≠ [] := by
          intro e; subst e; exact hnil (by simpa using hlen')
        have e : firstDiff (a :: l) (b :: r) = if a = b then firstDiff l r else (a, b) := by
          cases l with
          | nil => exact absurd rfl hnil
          | cons => cases r with
            | nil => exact absurd rfl hrn
            | cons => rfl
        rw [e]
        simp only [val]
        rw [← hlen'] at v2 ⊢
        obtain ⟨i1, i2⟩ := ih r hlen' hnil hl' hr'
        by_cases hab : a = b
        · rw [if_pos hab]; subst hab
          constructor
          · rw [i1]; omega
          · rw [i2]; omega
        · rw [if_neg hab]
          rcases ha with rfl | rfl <;> rcases hb with rfl | rfl <;> simp at hab ⊢ <;> omega

/-! ## Synopsys conversions -/

theorem isX_iff (b : Nat) (h : b < 9) : isX b = true ↔ digit b = none := by
  have : ∀ b : Fin 9, isX b.1 = true ↔ digit b.1 = none := by decide
  exact this ⟨b, h⟩

theorem tblBinary_spec (b d : Nat) (h : b < 9) (hd : digit b = some d) :
    tblBinary.getD b 0 = 2 + d := by
  have : ∀ b : Fin 9, ∀ d : Fin 2, digit b.1 = some d.1 → tblBinary.getD b.1 0 = 2 + d.1 := by decide
  exact this ⟨b, h⟩ ⟨d, by have := digit_le b d hd; omega⟩ hd

theorem map_binary (v : Vec) (n : Nat) (hv : Valid v) (h : uval v = some n) :
    v.any isX = false ∧ Bits (v.map (tblBinary.getD · 0)) ∧ val (v.map (tblBinary.getD · 0)) = n := by
  induction v generalizing n with
  | nil => simp [uval] at h; subst h; exact ⟨rfl, fun _ hb => by simp at hb, rfl⟩
  | cons b v ih =>
    have hb := hv b (by simp)
    have hv' : Valid v := fun x hx => hv x (by simp [hx])
    unfold uval at h
    cases hd : digit b with
    | none => simp [hd] at h
    | some d =>
      cases hu : uval v with
      | none => simp [hd, hu] at h
      | some m =>
        simp only [hd, hu, Option.some.injEq] at h
        obtain ⟨i1, i2, i3⟩ := ih m hv' hu
        have hx : isX b = false := by
          cases e : isX b with
          | false => rfl
          | true => rw [(isX_iff b hb).1 e] at hd; simp at hd
        have ht := tblBinary_spec b d hb hd
        have hd1 := digit_le b d hd
        refine ⟨by simp [hx] at i1 ⊢; exact i1, ?_, ?_⟩
        · intro x hx
          rw [List.map_cons] at hx
          rcases List.mem_cons.1 hx with rfl | hx
          · omega
          · exact i2 x hx
        · rw [List.map_cons, val, i3, ht, List.length_map, ← h]
          congr 2
          omega

theorem uval_none_any (v : Vec) (hv : Valid v) (h : uval v = none) : v.any isX = true := by
  induction v with
  | nil => simp [uval] at h
  | cons b v ih =>
    have hv' : Valid v := fun x hx => hv x (by simp [hx])
    unfold uval at h
    cases hd : digit b with
    | none => simp [(isX_iff b (hv b (by simp))).2 hd]
    | some d =>
      cases hu : uval v with
      | none => simp only [List.any_cons, ih hv' hu, Bool.or_true]
      | some m => simp [hd, hu] at h

theorem makeBinary_some (v : Vec) (n : Nat) (hv : Valid v) (h : uval v = some n) :
    Bits (makeBinary v) ∧ (makeBinary v).length = v.length ∧ val (makeBinary v) = n := by
  obtain ⟨h1, h2, h3⟩ := map_binary v n hv h
  unfold makeBinary
  rw [h1]
  exact ⟨h2, by simp, h3⟩

theorem makeBinary_none (v : Vec) (hv : Valid v) (h : uval v = none) :
    makeBinary v = List.replicate v.length 1 := by
  unfold makeBinary
  rw [if_pos (uval_none_any v hv h)]

end Verif.Numeric
