import Verif.Case.Model
import Verif.Util.Props

/-! C87: the encodings of choices and values agree, and the exact encoding is injective. -/
namespace Verif.Case

/-- Elements of a type with up to `2 ^ n` literals as one number. -/
def natEnc (n a : Nat) (xs : List Nat) : Nat := xs.foldl (fun a x => a * 2 ^ n + x) a

theorem natEnc_bound (n : Nat) (xs : List Nat) : ∀ (a m : Nat), a < 2 ^ m → (∀ x ∈ xs, x < 2 ^ n) →
    natEnc n a xs < 2 ^ (m + xs.length * n) := by
  induction xs with
  | nil => intro a m ha _; simpa [natEnc] using ha
  | cons x xs ih =>
    intro a m ha hx
    have h1 : a * 2 ^ n + x < 2 ^ (m + n) := by
      have h2 : x < 2 ^ n := hx x (by simp)
      have h3 : (a + 1) * 2 ^ n ≤ 2 ^ m * 2 ^ n := Nat.mul_le_mul_right _ ha
      rw [Nat.pow_add]
      rw [Nat.succ_mul] at h3
      omega
    have := ih (a * 2 ^ n + x) (m + n) h1 (fun y hy => hx y (by simp [hy]))
    have e : m + n + xs.length * n = m + (x :: xs).length * n := by
      rw [List.length_cons, Nat.succ_mul]; omega
    rw [e] at this
    exact this

theorem natEnc_inj (n : Nat) (xs : List Nat) : ∀ (ys : List Nat) (a b : Nat), xs.length = ys.length →
    (∀ x ∈ xs, x < 2 ^ n) → (∀ y ∈ ys, y < 2 ^ n) → natEnc n a xs = natEnc n b ys →
    a = b ∧ xs = ys := by
  induction xs with
  | nil =>
    intro ys a b hl _ _ h
    cases ys with
    | nil => exact ⟨h, rfl⟩
    | cons y ys => simp at hl
  | cons x xs ih =>
    intro ys a b hl hx hy h
    cases ys with
    | nil => simp at hl
    | cons y ys =>
      obtain ⟨h1, h2⟩ := ih ys (a * 2 ^ n + x) (b * 2 ^ n + y) (by simpa using hl)
        (fun z hz => hx z (by simp [hz])) (fun z hz => hy z (by simp [hz])) h
      have h3 : x < 2 ^ n := hx x (by simp)
      have h4 : y < 2 ^ n := hy y (by simp)
      have hp : 0 < 2 ^ n := Nat.two_pow_pos n
      have e1 : (a * 2 ^ n + x) / 2 ^ n = a := by
        rw [Nat.add_comm, Nat.add_mul_div_right _ _ hp, Nat.div_eq_of_lt h3, Nat.zero_add]
      have e2 : (b * 2 ^ n + y) / 2 ^ n = b := by
        rw [Nat.add_comm, Nat.add_mul_div_right _ _ hp, Nat.div_eq_of_lt h4, Nat.zero_add]
      have e3 : a = b := by rw [← e1, ← e2, h1]
      subst e3
      exact ⟨rfl, by rw [h2, show x = y by omega]⟩

/-- `enc <<= bits; enc |= c`. -/
theorem encStep_toNat (n : Nat) (hn : n > 0) (e : BitVec 64) (x : Nat) (hx : x < 2 ^ n)
    (hb : e.toNat * 2 ^ n + x < 2 ^ 64) :
    (encStep n e (some x)).toNat = e.toNat * 2 ^ n + x := by
  unfold encStep
  rw [if_pos hn]
  have h1 : e.toNat <<< n < 2 ^ 64 := by rw [Nat.shiftLeft_eq]; omega
  have h2 : x < 2 ^ 64 := by omega
  rw [BitVec.toNat_or, BitVec.toNat_shiftLeft, Nat.mod_eq_of_lt h1]
  show _ ||| (BitVec.ofNat 64 x).toNat = _
  rw [BitVec.toNat_ofNat, Nat.mod_eq_of_lt h2, ← Nat.shiftLeft_add_eq_or_of_lt hx, Nat.shiftLeft_eq]

theorem valueStep_toNat (n : Nat) (e : BitVec 64) (x : Nat) (hb : e.toNat * 2 ^ n + x < 2 ^ 64) :
    (valueStep true n e x).toNat = e.toNat * 2 ^ n + x := by
  unfold valueStep
  rw [if_pos rfl, BitVec.toNat_add, BitVec.toNat_mul, BitVec.toNat_shiftLeft, BitVec.toNat_ofNat,
    BitVec.toNat_ofNat]
  have : (1 % 2 ^ 64) <<< n = 2 ^ n := by rw [Nat.shiftLeft_eq]; simp
  rw [this, Nat.mul_mod_mod, Nat.mod_add_mod, Nat.add_mod_mod, Nat.mod_eq_of_lt hb]

theorem encode_toNat (n : Nat) (hn : n > 0) (xs : List Nat) : ∀ (e : BitVec 64) (m : Nat),
    e.toNat < 2 ^ m → m + xs.length * n ≤ 64 → (∀ x ∈ xs, x < 2 ^ n) →
    ((xs.map some).foldl (encStep n) e).toNat = natEnc n e.toNat xs := by
  induction xs with
  | nil => intro e m _ _ _; rfl
  | cons x xs ih =>
    intro e m he hl hx
    have hx0 : x < 2 ^ n := hx x (by simp)
    have hlen : m + n + xs.length * n ≤ 64 := by
      rw [List.length_cons, Nat.succ_mul] at hl; omega
    have h1 : e.toNat * 2 ^ n + x < 2 ^ (m + n) := by
      have h3 : (e.toNat + 1) * 2 ^ n ≤ 2 ^ m * 2 ^ n := Nat.mul_le_mul_right _ he
      rw [Nat.pow_add]
      rw [Nat.succ_mul] at h3
      omega
    have h2 : e.toNat * 2 ^ n + x < 2 ^ 64 :=
      Nat.lt_of_lt_of_le h1 (Nat.pow_le_pow_right (by decide) (by omega))
    have hs := encStep_toNat n hn e x hx0 h2
    show ((xs.map some).foldl (encStep n) (encStep n e (some x))).toNat = natEnc n (e.toNat * 2 ^ n + x) xs
    rw [ih (encStep n e (some x)) (m + n) (by rw [hs]; exact h1) hlen (fun y hy => hx y (by simp [hy])), hs]

theorem value_toNat (n : Nat) (xs : List Nat) : ∀ (e : BitVec 64) (m : Nat),
    e.toNat < 2 ^ m → m + xs.length * n ≤ 64 → (∀ x ∈ xs, x < 2 ^ n) →
    (xs.foldl (valueStep true n) e).toNat = natEnc n e.toNat xs := by
  induction xs with
  | nil => intro e m _ _ _; rfl
  | cons x xs ih =>
    intro e m he hl hx
    have hx0 : x < 2 ^ n := hx x (by simp)
    have hlen : m + n + xs.length * n ≤ 64 := by
      rw [List.length_cons, Nat.succ_mul] at hl; omega
    have h1 : e.toNat * 2 ^ n + x < 2 ^ (m + n) := by
      have h3 : (e.toNat + 1) * 2 ^ n ≤ 2 ^ m * 2 ^ n := Nat.mul_le_mul_right _ he
      rw [Nat.pow_add]
      rw [Nat.succ_mul] at h3
      omega
    have h2 : e.toNat * 2 ^ n + x < 2 ^ 64 :=
      Nat.lt_of_lt_of_le h1 (Nat.pow_le_pow_right (by decide) (by omega))
    have hs := valueStep_toNat n e x h2
    show (xs.foldl (valueStep true n) (valueStep true n e x)).toNat = natEnc n (e.toNat * 2 ^ n + x) xs
    rw [ih (valueStep true n e x) (m + n) (by rw [hs]; exact h1) hlen (fun y hy => hx y (by simp [hy])), hs]

theorem encode_zero (xs : List Nat) (h : ∀ x ∈ xs, x = 0) :
    (xs.map some).foldl (encStep 0) 0#64 = 0#64 := by
  induction xs with
  | nil => rfl
  | cons x xs ih =>
    have hx : x = 0 := h x (by simp)
    subst hx
    show (xs.map some).foldl (encStep 0) (encStep 0 0#64 (some 0)) = 0#64
    rw [show encStep 0 0#64 (some 0) = 0#64 by decide]
    exact ih (fun y hy => h y (by simp [hy]))

theorem natEnc_zero (xs : List Nat) (h : ∀ x ∈ xs, x = 0) : natEnc 0 0 xs = 0 := by
  induction xs with
  | nil => rfl
  | cons x xs ih =>
    have hx : x = 0 := h x (by simp)
    subst hx
    exact ih (fun y hy => h y (by simp [hy]))

theorem hash_eq (n : Nat) (xs : List Nat) : ∀ e : BitVec 64,
    (xs.map some).foldl (encStep 0) e = xs.foldl (valueStep false n) e := by
  induction xs with
  | nil => intro e; rfl
  | cons x xs ih => intro e; exact ih _

/-- The elements belong to a type with up to `2 ^ nbits` literals and there is room for the
exact encoding, if it is used. -/
def Fits (exact : Bool) (nbits : Nat) (xs : List Nat) : Prop :=
  exact = true → (∀ x ∈ xs, x < 2 ^ nbits) ∧ xs.length * nbits ≤ 64

/-- **C87b.**  The label of a choice is the number that is computed for that value when the
statement is executed. -/
theorem enc_agree (exact : Bool) (nbits : Nat) (xs : List Nat) (h : Fits exact nbits xs) :
    choiceEnc exact nbits (xs.map some) = valueEnc exact nbits xs := by
  unfold choiceEnc valueEnc encodeChoice
  cases exact with
  | false =>
    simp only [Bool.false_eq_true, if_false]
    rw [hash_eq nbits]
  | true =>
    simp only [if_true]
    obtain ⟨hx, hl⟩ := h rfl
    congr 1
    apply BitVec.eq_of_toNat_eq
    rw [value_toNat nbits xs 0#64 0 (by decide) (by omega) hx]
    by_cases hn : nbits > 0
    · rw [encode_toNat nbits hn xs 0#64 0 (by decide) (by omega) hx]
    · have : nbits = 0 := by omega
      subst this
      have h0 : ∀ x ∈ xs, x = 0 := fun x hm => by
        have := hx x hm
        simp at this
        exact this
      rw [encode_zero xs h0]
      exact (natEnc_zero xs h0).symm

/-- **C87c.**  The exact encoding tells all values of one length apart. -/
theorem exact_injective (nbits : Nat) (xs ys : List Nat) (hl : xs.length = ys.length)
    (hx : Fits true nbits xs) (hy : Fits true nbits ys)
    (h : valueEnc true nbits xs = valueEnc true nbits ys) : xs = ys := by
  obtain ⟨hx1, hx2⟩ := hx rfl
  obtain ⟨hy1, hy2⟩ := hy rfl
  unfold valueEnc at h
  simp only [if_true] at h
  have h := congrArg BitVec.toNat (BitVec.eq_of_toInt_eq h)
  rw [value_toNat nbits xs 0#64 0 (by decide) (by omega) hx1,
    value_toNat nbits ys 0#64 0 (by decide) (by omega) hy1] at h
  exact (natEnc_inj nbits xs ys _ _ hl hx1 hy1 h).2

/-- **C87c'.**  The number of bits that `lower_case_array` uses is enough for all literals of
the element type, and the exact encoding is used only if the bits have room. -/
theorem fits_of_literals (nlits : Nat) (hlits : nlits ≤ 2 ^ 62) (nbits : Nat)
    (hb : Verif.Util.ilog2 (nlits : Int) = some nbits) (xs : List Nat) (hx : ∀ x ∈ xs, x < nlits) :
    Fits (exactMap nbits xs.length) nbits xs := by
  intro he
  obtain ⟨k, hk, hle, _⟩ := Verif.Util.ilog2_spec (nlits : Int) (by exact_mod_cast hlits)
  rw [hb] at hk
  cases hk
  refine ⟨fun x hm => ?_, of_decide_eq_true he⟩
  have h1 := hx x hm
  have h2 : nlits ≤ 2 ^ nbits := by exact_mod_cast hle
  omega

example : Fits true 4 [8, 3, 2] ∧ Fits (exactMap 4 20) 4 (List.replicate 20 15) :=
  ⟨fun _ => ⟨by decide, by decide⟩, fun h => absurd h (by decide)⟩

end Verif.Case
