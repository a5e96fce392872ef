import Verif.Fbuf.AdlerModel

/-! Property theorems for C05. -/

namespace Verif.Fbuf

/-! ## Specification: the sums of Adler-32 as plain natural numbers -/

/-- The first Adler sum without reduction, started at `a`. -/
def specA (a : Nat) (data : List Nat) : Nat := a + data.sum

/-- The second Adler sum: the sum of all the running values of the first sum. -/
def specB (a : Nat) : List Nat → Nat
  | [] => 0
  | b :: bs => (a + b) + specB (a + b) bs

/-- Adler-32 by its definition (RFC 1950 section 8.2), in the byte order nvc uses:
first sum in the upper half. -/
def adler32Spec (data : List Nat) : Nat :=
  (specA 1 data % 65521) * 65536 + specB 1 data % 65521

/-- A list of bytes. -/
def IsBytes (l : List Nat) : Prop := ∀ b ∈ l, b < 256

theorem IsBytes.append {x y : List Nat} (hx : IsBytes x) (hy : IsBytes y) :
    IsBytes (x ++ y) := by
  intro b hb
  rcases List.mem_append.1 hb with h | h
  · exact hx b h
  · exact hy b h

theorem IsBytes.cons {b : Nat} {l : List Nat} (h : IsBytes (b :: l)) : b < 256 ∧ IsBytes l :=
  ⟨h b (by simp), fun c hc => h c (by simp [hc])⟩

theorem IsBytes.take {l : List Nat} (h : IsBytes l) (n : Nat) : IsBytes (l.take n) :=
  fun b hb => h b (List.mem_of_mem_take hb)

theorem IsBytes.drop {l : List Nat} (h : IsBytes l) (n : Nat) : IsBytes (l.drop n) :=
  fun b hb => h b (List.mem_of_mem_drop hb)

theorem specA_append (a : Nat) (x y : List Nat) : specA a (x ++ y) = specA (specA a x) y := by
  simp [specA, Nat.add_assoc]

theorem specB_append (a : Nat) (x y : List Nat) :
    specB a (x ++ y) = specB a x + specB (specA a x) y := by
  induction x generalizing a with
  | nil => simp [specB, specA]
  | cons b bs ih =>
    simp only [List.cons_append, specB, ih, specA, List.sum_cons]
    rw [Nat.add_assoc a b bs.sum]; omega

/-- Shifting the start value shifts the second sum by its length. -/
theorem specB_shift (a : Nat) (x : List Nat) : specB a x = x.length * a + specB 0 x := by
  suffices h : ∀ a c, specB (a + c) x = x.length * a + specB c x by
    have := h a 0; simpa using this
  induction x with
  | nil => intro a c; simp [specB]
  | cons b bs ih =>
    intro a c
    have := ih a (c + b)
    simp only [specB, List.length_cons]
    rw [show a + c + b = a + (c + b) by omega, this, Nat.succ_mul]
    omega

/-- The second sum modulo `m` depends only on the start value modulo `m`. -/
theorem specB_mod (a m : Nat) (x : List Nat) : specB a x % m = specB (a % m) x % m := by
  rw [specB_shift a, specB_shift (a % m), Nat.add_mod, Nat.add_mod (x.length * (a % m))]
  rw [Nat.mul_mod, Nat.mul_mod x.length (a % m), Nat.mod_mod]

theorem sum_le_of_bytes {l : List Nat} (h : IsBytes l) : l.sum ≤ 255 * l.length := by
  induction l with
  | nil => simp
  | cons b bs ih =>
    have := h.cons
    have := ih this.2
    simp only [List.sum_cons, List.length_cons]; omega

theorem specB_le {l : List Nat} (h : IsBytes l) (a : Nat) :
    specB a l ≤ l.length * (a + 255 * l.length) := by
  induction l generalizing a with
  | nil => simp [specB]
  | cons b bs ih =>
    have hb := h.cons
    have := ih hb.2 (a + b)
    simp only [specB, List.length_cons]
    have h1 : bs.length * (a + b + 255 * bs.length) ≤
        bs.length * (a + 255 * (bs.length + 1)) := Nat.mul_le_mul_left _ (by omega)
    rw [Nat.succ_mul]
    omega

/-- A state whose two components are the given natural numbers modulo 65521. -/
def Adler.Is (s : Adler) (a b : Nat) : Prop := s.s1 = a % 65521 ∧ s.s2 = b % 65521

/-! ## Scalar implementation -/

theorem foldl_adlerByte (w : Nat) (l : List Nat) : ∀ (s : Adler),
    s.s1 + l.sum < 2 ^ w → s.s2 + specB s.s1 l < 2 ^ w →
    l.foldl (adlerByte w) s = ⟨specA s.s1 l, s.s2 + specB s.s1 l⟩ := by
  induction l with
  | nil => intro s _ _; simp [specA, specB]
  | cons b bs ih =>
    intro s h1 h2
    simp only [List.sum_cons, specB] at h1 h2
    have e1 : (s.s1 + b) % 2 ^ w = s.s1 + b := Nat.mod_eq_of_lt (by omega)
    have e2 : (s.s2 + (s.s1 + b)) % 2 ^ w = s.s2 + (s.s1 + b) := Nat.mod_eq_of_lt (by omega)
    simp only [List.foldl_cons, adlerByte, e1, e2]
    rw [ih]
    · simp [specA, specB, Nat.add_assoc]
    · simp only; omega
    · simp only; omega

theorem adlerHead_spec (w : Nat) (l : List Nat) : ∀ (s : Adler),
    adlerHead w s l =
      ((l.take (l.length % 8)).foldl (adlerByte w) s, l.drop (l.length % 8)) := by
  induction l with
  | nil => intro s; simp [adlerHead]
  | cons b bs ih =>
    intro s
    rw [adlerHead]
    by_cases h : (b :: bs).length % 8 = 0
    · rw [if_neg (by simpa using h), h]; simp
    · rw [if_pos h, ih]
      simp only [List.length_cons] at h ⊢
      have : (bs.length + 1) % 8 = bs.length % 8 + 1 := by omega
      rw [this]; simp

theorem adlerSub_spec (n : Nat) (h : n < 2 * 65521) : adlerSub n = n % 65521 := by
  unfold adlerSub adlerMod; split <;> omega

/-- Number of bytes until the next reduction of `s2` when `r` bytes remain. -/
def untilReduce (r : Nat) : Nat := if r % 0x8000 = 0 then 0x8000 else r % 0x8000

theorem pow32_le {w : Nat} (hw : 32 ≤ w) : 2 ^ 32 ≤ 2 ^ w := Nat.pow_le_pow_right (by omega) hw

theorem adlerMain_spec (w : Nat) (hw : 32 ≤ w) (n : Nat) : ∀ (l : List Nat) (s : Adler) (a b : Nat),
    l.length = 8 * n → IsBytes l → s.s1 < 65521 → s.s1 = a % 65521 → s.s2 % 65521 = b % 65521 →
    s.s2 ≤ 65520 + 67560 * (0x8000 - untilReduce l.length) → (n = 0 → s.s2 < 65521) →
    (adlerMain w s l).Is (specA a l) (b + specB a l) := by
  induction n with
  | zero =>
    intro l s a b hl _ _ h2 h3 _ h5
    have : l = [] := List.length_eq_zero_iff.1 (by omega)
    subst this
    simp only [adlerMain, Adler.Is, specA, specB, List.sum_nil, Nat.add_zero]
    have := h5 rfl
    refine ⟨h2, ?_⟩
    omega
  | succ n ih =>
    intro l s a b hl hb h1 h2 h3 h4 _
    match l, hl with
    | b0 :: b1 :: b2 :: b3 :: b4 :: b5 :: b6 :: b7 :: rest, hl =>
      have hrest : rest.length = 8 * n := by simp at hl; omega
      have hsplit : b0 :: b1 :: b2 :: b3 :: b4 :: b5 :: b6 :: b7 :: rest =
        [b0, b1, b2, b3, b4, b5, b6, b7] ++ rest := by simp
      have hb8 : IsBytes [b0, b1, b2, b3, b4, b5, b6, b7] := by
        intro c hc; apply hb; rw [hsplit]; exact List.mem_append_left _ hc
      have hbr : IsBytes rest := by
        intro c hc; apply hb; rw [hsplit]; exact List.mem_append_right _ hc
      rw [adlerMain]
      generalize hbl : [b0, b1, b2, b3, b4, b5, b6, b7] = blk at *
      have hlen8 : blk.length = 8 := by rw [← hbl]; rfl
      rw [hsplit] at h4 hl ⊢
      have hsum := sum_le_of_bytes hb8
      have hB := specB_le hb8 s.s1
      rw [hlen8] at hsum hB
      have hp := pow32_le hw
      have hlen : (blk ++ rest).length = rest.length + 8 := by simp [hlen8]; omega
      rw [hlen] at h4
      have hmod8 : rest.length % 8 = 0 := by omega
      have hbound : s.s2 ≤ 65520 + 67560 * 0x8000 - 67560 * 8 := by
        unfold untilReduce at h4; split at h4 <;> omega
      rw [foldl_adlerByte w _ s (by omega) (by omega)]
      dsimp only
      rw [specA_append, specB_append]
      have hA : adlerSub (specA s.s1 blk) = specA a blk % 65521 := by
        rw [adlerSub_spec _ (by unfold specA; omega)]
        unfold specA; omega
      have hBm : (s.s2 + specB s.s1 blk) % 65521 = (b + specB a blk) % 65521 := by
        rw [Nat.add_mod, h3, h2, ← specB_mod a 65521, ← Nat.add_mod]
      have hih := ih rest
        ⟨adlerSub (specA s.s1 blk),
          if rest.length % 0x8000 = 0 then (s.s2 + specB s.s1 blk) % adlerMod
          else s.s2 + specB s.s1 blk⟩
        (specA a blk) (b + specB a blk) hrest hbr
        (by rw [hA]; exact Nat.mod_lt _ (by omega)) hA
        (by simp only [adlerMod]; split <;> omega)
        (by
          simp only [adlerMod]
          split
          · have := Nat.mod_lt (s.s2 + specB s.s1 blk) (by omega : 65521 > 0); omega
          · rename_i hne
            unfold untilReduce at h4 ⊢
            rw [if_neg hne]
            split at h4 <;> omega)
        (by
          intro hn
          have : rest.length % 0x8000 = 0 := by rw [hrest, hn]
          simp only [this, if_true, adlerMod]
          exact Nat.mod_lt _ (by omega))
      rw [Nat.add_assoc] at hih
      exact hih

/-- **C05 (scalar).** One call of the scalar update advances the two Adler sums
exactly, for words of at least 32 bits: no machine overflow can occur. -/
theorem adlerScalar_spec (w : Nat) (hw : 32 ≤ w) (l : List Nat) (hb : IsBytes l)
    (s : Adler) (a b : Nat) (hs : s.Is a b) :
    (adlerScalar w s l).Is (specA a l) (b + specB a l) := by
  obtain ⟨h1, h2⟩ := hs
  have l1 : s.s1 < 65521 := by rw [h1]; exact Nat.mod_lt _ (by omega)
  have l2 : s.s2 < 65521 := by rw [h2]; exact Nat.mod_lt _ (by omega)
  have hp := pow32_le hw
  unfold adlerScalar
  by_cases h : l.length % 8 = 0
  · rw [if_neg (by simpa using h)]
    refine adlerMain_spec w hw (l.length / 8) l s a b (by omega) hb l1 h1 (by omega) (by omega) ?_
    intro _; exact l2
  · rw [if_pos h, adlerHead_spec]
    dsimp only
    have htb : IsBytes (l.take (l.length % 8)) := hb.take _
    have hlen : (l.take (l.length % 8)).length = l.length % 8 := by
      rw [List.length_take]; have := Nat.mod_le l.length 8; omega
    have hsum := sum_le_of_bytes htb
    have hB := specB_le htb s.s1
    rw [hlen] at hsum hB
    have hlt : l.length % 8 < 8 := Nat.mod_lt _ (by omega)
    have hB2 : specB s.s1 (l.take (l.length % 8)) ≤ 8 * (s.s1 + 255 * 8) :=
      Nat.le_trans hB (Nat.mul_le_mul (by omega) (by omega))
    rw [foldl_adlerByte w _ s (by omega) (by omega)]
    dsimp only
    have hA : adlerSub (specA s.s1 (l.take (l.length % 8))) =
        specA a (l.take (l.length % 8)) % 65521 := by
      rw [adlerSub_spec _ (by unfold specA; omega)]
      unfold specA; omega
    have hBm : (s.s2 + specB s.s1 (l.take (l.length % 8))) % 65521 =
        (b + specB a (l.take (l.length % 8))) % 65521 := by
      rw [Nat.add_mod, h1, ← specB_mod a 65521, h2, Nat.mod_mod, ← Nat.add_mod]
    have key := adlerMain_spec w hw ((l.drop (l.length % 8)).length / 8) (l.drop (l.length % 8))
      ⟨adlerSub (specA s.s1 (l.take (l.length % 8))),
        (s.s2 + specB s.s1 (l.take (l.length % 8))) % adlerMod⟩
      (specA a (l.take (l.length % 8))) (b + specB a (l.take (l.length % 8)))
      (by rw [List.length_drop]; omega) (hb.drop _)
      (by rw [hA]; exact Nat.mod_lt _ (by omega)) hA
      (by simp only [adlerMod]; omega)
      (by simp only [adlerMod]; omega)
      (by intro _; simp only [adlerMod]; exact Nat.mod_lt _ (by omega))
    rw [Nat.add_assoc, ← specB_append, ← specA_append, List.take_append_drop] at key
    exact key

/-! ## AVX2 implementation -/

/-- Sum of the eight 32-bit lanes. -/
def lanes (v : Nat → Nat) : Nat := v 0 + v 1 + v 2 + v 3 + v 4 + v 5 + v 6 + v 7

theorem avxReduce_spec (v : Nat → Nat) : avxReduce v = lanes v % 2 ^ 32 := by
  simp only [avxReduce, lanes]
  simp
  omega

/-- Effect of one 32-byte step on the lane sums, modulo `2^32`. -/
theorem avxBlock_spec (sv s2v g : Nat → Nat) (hg : ∀ i, g i < 256) :
    lanes (avxBlock sv s2v g).1 % 2 ^ 32 =
      (lanes sv + (g 0 + g 1 + g 2 + g 3 + g 4 + g 5 + g 6 + g 7 + g 8 + g 9 + g 10 + g 11
        + g 12 + g 13 + g 14 + g 15 + g 16 + g 17 + g 18 + g 19 + g 20 + g 21 + g 22 + g 23
        + g 24 + g 25 + g 26 + g 27 + g 28 + g 29 + g 30 + g 31)) % 2 ^ 32 ∧
    lanes (avxBlock sv s2v g).2 % 2 ^ 32 =
      (lanes s2v + 32 * lanes sv + (32 * g 0 + 31 * g 1 + 30 * g 2 + 29 * g 3 + 28 * g 4
        + 27 * g 5 + 26 * g 6 + 25 * g 7 + 24 * g 8 + 23 * g 9 + 22 * g 10 + 21 * g 11
        + 20 * g 12 + 19 * g 13 + 18 * g 14 + 17 * g 15 + 16 * g 16 + 15 * g 17 + 14 * g 18
        + 13 * g 19 + 12 * g 20 + 11 * g 21 + 10 * g 22 + 9 * g 23 + 8 * g 24 + 7 * g 25
        + 6 * g 26 + 5 * g 27 + 4 * g 28 + 3 * g 29 + 2 * g 30 + g 31)) % 2 ^ 32 := by
  have hmad : ∀ j, j < 16 → avxMaddubs g j =
      g (2 * j) * (32 - 2 * j) + g (2 * j + 1) * (31 - 2 * j) := by
    intro j hj
    unfold avxMaddubs avxCoeff
    have h1 : g (2 * j) * (32 - 2 * j) ≤ 255 * 32 :=
      Nat.mul_le_mul (by have := hg (2 * j); omega) (by omega)
    have h2 : g (2 * j + 1) * (32 - (2 * j + 1)) ≤ 255 * 32 :=
      Nat.mul_le_mul (by have := hg (2 * j + 1); omega) (by omega)
    have h3 : 32 - (2 * j + 1) = 31 - 2 * j := by omega
    rw [h3] at h2 ⊢
    omega
  constructor
  · simp only [avxBlock, lanes, avxSad]
    simp
    omega
  · simp only [avxBlock, lanes, avxMadd]
    rw [hmad _ (by omega), hmad _ (by omega), hmad _ (by omega), hmad _ (by omega),
      hmad _ (by omega), hmad _ (by omega), hmad _ (by omega), hmad _ (by omega),
      hmad _ (by omega), hmad _ (by omega), hmad _ (by omega), hmad _ (by omega),
      hmad _ (by omega), hmad _ (by omega), hmad _ (by omega), hmad _ (by omega)]
    simp [Nat.shiftLeft_eq]
    omega

theorem getD_lt_of_bytes {l : List Nat} (h : IsBytes l) (i : Nat) : l.getD i 0 < 256 := by
  rw [List.getD_eq_getElem?_getD]
  cases hi : l[i]? with
  | none => simp
  | some x => exact h x (List.mem_of_getElem? hi)

/-- The two sums of a full block in terms of its bytes. -/
theorem block_sums (data : List Nat) (h : 32 ≤ data.length) :
    let g := fun i => data.getD i 0
    (data.take 32).sum = (g 0 + g 1 + g 2 + g 3 + g 4 + g 5 + g 6 + g 7 + g 8 + g 9 + g 10 + g 11
        + g 12 + g 13 + g 14 + g 15 + g 16 + g 17 + g 18 + g 19 + g 20 + g 21 + g 22 + g 23
        + g 24 + g 25 + g 26 + g 27 + g 28 + g 29 + g 30 + g 31) ∧
    specB 0 (data.take 32) = (32 * g 0 + 31 * g 1 + 30 * g 2 + 29 * g 3 + 28 * g 4
        + 27 * g 5 + 26 * g 6 + 25 * g 7 + 24 * g 8 + 23 * g 9 + 22 * g 10 + 21 * g 11
        + 20 * g 12 + 19 * g 13 + 18 * g 14 + 17 * g 15 + 16 * g 16 + 15 * g 17 + 14 * g 18
        + 13 * g 19 + 12 * g 20 + 11 * g 21 + 10 * g 22 + 9 * g 23 + 8 * g 24 + 7 * g 25
        + 6 * g 26 + 5 * g 27 + 4 * g 28 + 3 * g 29 + 2 * g 30 + g 31) := by
  intro g
  have hl : data.take 32 = (List.range 32).map g := by
    apply List.ext_getElem
    · simp; omega
    · intro i h1 h2
      simp only [List.length_map, List.length_range] at h2
      simp [g, List.getElem?_eq_getElem (by omega : i < data.length)]
  have hl2 : (List.range 32).map g = [g 0, g 1, g 2, g 3, g 4, g 5, g 6, g 7, g 8, g 9, g 10, g 11, g 12, g 13, g 14, g 15, g 16, g 17, g 18, g 19, g 20, g 21, g 22, g 23, g 24, g 25, g 26, g 27, g 28, g 29, g 30, g 31] := rfl
  rw [hl, hl2]
  generalize g = g
  constructor
  · simp only [List.sum_cons, List.sum_nil, Nat.add_zero, Nat.add_assoc]
  · have hcons : ∀ b bs, specB 0 (b :: bs) = (bs.length + 1) * b + specB 0 bs := by
      intro b bs
      rw [specB, specB_shift, Nat.zero_add, Nat.succ_mul]; omega
    have hnil : specB 0 [] = 0 := rfl
    simp only [hcons, hnil, List.length_cons, List.length_nil, Nat.zero_add, Nat.reduceAdd,
      Nat.one_mul, Nat.add_zero, Nat.add_assoc]

theorem avxInner_spec (n : Nat) : ∀ (data : List Nat) (sv s2v : Nat → Nat) (a b : Nat),
    32 * n ≤ data.length → IsBytes data → lanes sv % 2 ^ 32 = a % 2 ^ 32 →
    lanes s2v % 2 ^ 32 = b % 2 ^ 32 →
    lanes (avxInner sv s2v n data).1 % 2 ^ 32 = specA a (data.take (32 * n)) % 2 ^ 32 ∧
    lanes (avxInner sv s2v n data).2 % 2 ^ 32 = (b + specB a (data.take (32 * n))) % 2 ^ 32 := by
  induction n with
  | zero => intro data sv s2v a b _ _ h1 h2; simpa [avxInner, specA, specB] using ⟨h1, h2⟩
  | succ n ih =>
    intro data sv s2v a b hlen hb h1 h2
    have hblk := avxBlock_spec sv s2v (fun i => data.getD i 0) (getD_lt_of_bytes hb)
    have hsum := block_sums data (by omega)
    simp only [] at hsum
    rw [← hsum.1, ← hsum.2] at hblk
    rw [avxInner]
    have htake : data.take (32 * (n + 1)) = data.take 32 ++ (data.drop 32).take (32 * n) := by
      rw [show 32 * (n + 1) = 32 + 32 * n by omega, List.take_add]
    have hl32 : (data.take 32).length = 32 := by rw [List.length_take]; omega
    rw [htake, specA_append, specB_append, ← Nat.add_assoc]
    apply ih
    · rw [List.length_drop]; omega
    · exact hb.drop _
    · rw [hblk.1]; unfold specA; omega
    · rw [hblk.2, specB_shift a, hl32]; omega

/-- Tight bound for the second sum: `255·n(n+1)/2` plus the contribution of the start. -/
theorem specB_le_tight {l : List Nat} (h : IsBytes l) (a : Nat) :
    2 * specB a l ≤ 2 * (l.length * a) + 255 * (l.length * (l.length + 1)) := by
  induction l generalizing a with
  | nil => simp [specB]
  | cons b bs ih =>
    have hb := h.cons
    have h1 := ih hb.2 (a + b)
    simp only [specB, List.length_cons]
    have e1 : bs.length * (a + b) ≤ bs.length * a + bs.length * 255 := by
      rw [Nat.mul_add]; have := Nat.mul_le_mul_left bs.length (by omega : b ≤ 255); omega
    have e2 : (bs.length + 1) * a = bs.length * a + a := by rw [Nat.succ_mul]
    have e3 : (bs.length + 1) * (bs.length + 1 + 1) =
        bs.length * (bs.length + 1) + 2 * bs.length + 2 := by
      simp only [Nat.mul_add, Nat.add_mul]; omega
    rw [e2, e3]
    omega

theorem avxOuter_spec (data : List Nat) : ∀ (sum sum2 a b : Nat), IsBytes data →
    sum = a % 65521 → sum2 = b % 65521 →
    (avxOuter sum sum2 data).2.length < 32 ∧ IsBytes (avxOuter sum sum2 data).2 ∧
    ∃ pre, data = pre ++ (avxOuter sum sum2 data).2 ∧
      (avxOuter sum sum2 data).1.1 = specA a pre % 65521 ∧
      (avxOuter sum sum2 data).1.2 = (b + specB a pre) % 65521 := by
  induction hn : data.length using Nat.strongRecOn generalizing data with
  | _ n ih =>
    intro sum sum2 a b hb h1 h2
    rw [avxOuter]
    by_cases h : data.length ≥ 32
    · rw [dif_pos h]
      dsimp only
      have hc : avxChunkLen data.length % 32 = 0 ∧ avxChunkLen data.length ≤ 5536 ∧
          32 ≤ avxChunkLen data.length ∧ avxChunkLen data.length ≤ data.length := by
        unfold avxChunkLen; simp only; split <;> omega
      generalize avxChunkLen data.length = c at *
      have l1 : sum < 65521 := by rw [h1]; exact Nat.mod_lt _ (by omega)
      have l2 : sum2 < 65521 := by rw [h2]; exact Nat.mod_lt _ (by omega)
      have hin := avxInner_spec (c / 32) data (fun _ => 0) (fun _ => 0) 0 0 (by omega) hb
        (by simp [lanes]) (by simp [lanes])
      have hc32 : 32 * (c / 32) = c := by omega
      rw [hc32] at hin
      have hlen : (data.take c).length = c := by rw [List.length_take]; omega
      have hsumle := sum_le_of_bytes (hb.take c)
      have hBle := specB_le_tight (hb.take c) sum
      have hshift := specB_shift sum (data.take c)
      rw [hlen] at hsumle hBle hshift
      have hcc : c * (c + 1) ≤ 5536 * 5537 := Nat.mul_le_mul (by omega) (by omega)
      have hcs : c * sum ≤ 5536 * 65520 := Nat.mul_le_mul (by omega) (by omega)
      have r1 : (sum + avxReduce (avxInner (fun _ => 0) (fun _ => 0) (c / 32) data).1) % 2 ^ 32 =
          specA sum (data.take c) := by
        rw [avxReduce_spec, hin.1]; unfold specA; omega
      have r2 : ((sum2 + sum * c) % 2 ^ 32 +
          avxReduce (avxInner (fun _ => 0) (fun _ => 0) (c / 32) data).2) % 2 ^ 32 =
          sum2 + specB sum (data.take c) := by
        rw [avxReduce_spec, hin.2, hshift, Nat.mul_comm sum c]
        rw [hshift] at hBle
        omega
      rw [r1, r2]
      have hrec := ih (data.drop c).length (by rw [List.length_drop]; omega) (data.drop c) rfl
        (specA sum (data.take c) % adlerMod) ((sum2 + specB sum (data.take c)) % adlerMod)
        (specA a (data.take c)) (b + specB a (data.take c)) (hb.drop c)
        (by unfold specA adlerMod; omega)
        (by unfold adlerMod
            rw [Nat.add_mod, h1, ← specB_mod a 65521, h2, Nat.mod_mod, ← Nat.add_mod])
      obtain ⟨e1, e2, pre, e3, e4, e5⟩ := hrec
      refine ⟨e1, e2, data.take c ++ pre, ?_, ?_, ?_⟩
      · rw [List.append_assoc, ← e3, List.take_append_drop]
      · rw [e4, specA_append]
      · rw [e5, specB_append, Nat.add_assoc]
    · rw [dif_neg h]
      exact ⟨by simp only; omega, hb, [], by simp, by simpa [specA] using h1, by simpa [specB] using h2⟩

theorem avxTailChunk_spec (l : List Nat) : ∀ (sum sum2 : Nat),
    sum + l.sum < 2 ^ 32 → sum2 + specB sum l < 2 ^ 32 →
    avxTailChunk sum sum2 l = (specA sum l, sum2 + specB sum l) := by
  induction l with
  | nil => intro s t _ _; simp [avxTailChunk, specA, specB]
  | cons b bs ih =>
    intro s t h1 h2
    simp only [List.sum_cons, specB] at h1 h2
    have e1 : (s + b) % 2 ^ 32 = s + b := Nat.mod_eq_of_lt (by omega)
    have e2 : (t + (s + b)) % 2 ^ 32 = t + (s + b) := Nat.mod_eq_of_lt (by omega)
    simp only [avxTailChunk, e1, e2]
    rw [ih _ _ (by omega) (by omega)]
    simp [specA, specB, Nat.add_assoc]

/-- **C05 (vector).** One call of the AVX2 update advances the two Adler sums exactly:
no lane overflow or saturation can affect the result. -/
theorem adlerAvx2_spec (l : List Nat) (hb : IsBytes l) (s : Adler) (a b : Nat) (hs : s.Is a b) :
    (adlerAvx2 s l).Is (specA a l) (b + specB a l) := by
  obtain ⟨hlt, hbr, pre, hpre, h1, h2⟩ := avxOuter_spec l s.s1 s.s2 a b hb hs.1 hs.2
  unfold adlerAvx2
  dsimp only
  generalize avxOuter s.s1 s.s2 l = r at *
  obtain ⟨⟨r1, r2⟩, rest⟩ := r
  dsimp only at *
  rw [hpre, specA_append, specB_append, ← Nat.add_assoc]
  by_cases h0 : rest.length = 0
  · have : rest = [] := List.length_eq_zero_iff.1 h0
    subst this
    rw [avxTail, dif_neg (by simp)]
    exact ⟨by simpa [specA] using h1, by simpa [specB] using h2⟩
  · rw [avxTail, dif_pos h0]
    have hc : (if rest.length > 5552 then 5552 else rest.length) = rest.length := by
      rw [if_neg (by omega)]
    simp only [hc, List.take_length, List.drop_length]
    rw [avxTail, dif_neg (by simp)]
    have l1 : r1 < 65521 := by rw [h1]; exact Nat.mod_lt _ (by omega)
    have l2 : r2 < 65521 := by rw [h2]; exact Nat.mod_lt _ (by omega)
    have hsum := sum_le_of_bytes hbr
    have hB := specB_le hbr r1
    have hB2 : specB r1 rest ≤ 32 * (r1 + 255 * 32) :=
      Nat.le_trans hB (Nat.mul_le_mul (by omega) (by omega))
    rw [avxTailChunk_spec _ _ _ (by omega) (by omega)]
    refine ⟨?_, ?_⟩
    · unfold specA adlerMod; unfold specA at h1; simp only; omega
    · simp only [adlerMod]
      rw [Nat.add_mod, h1, ← specB_mod _ 65521, h2, Nat.mod_mod, ← Nat.add_mod]

/-! ## C05: the property theorems -/

/-- Implementations that `checksum_init` can select on a supported host. -/
def AdlerImpl.Supported : AdlerImpl → Prop
  | .scalar w => 32 ≤ w
  | .avx2 => True

theorem checksumUpdate_spec (impl : AdlerImpl) (hi : impl.Supported) (l : List Nat)
    (hb : IsBytes l) (s : Adler) (a b : Nat) (hs : s.Is a b) :
    (checksumUpdate impl s l).Is (specA a l) (b + specB a l) := by
  cases impl with
  | scalar w => exact adlerScalar_spec w hi l hb s a b hs
  | avx2 => exact adlerAvx2_spec l hb s a b hs

theorem checksum_fold (impl : AdlerImpl) (hi : impl.Supported) (chunks : List (List Nat)) :
    ∀ (s : Adler) (a b : Nat), (∀ c ∈ chunks, IsBytes c) → s.Is a b →
    (chunks.foldl (checksumUpdate impl) s).Is (specA a chunks.flatten)
      (b + specB a chunks.flatten) := by
  induction chunks with
  | nil => intro s a b _ hs; simpa [specA, specB] using hs
  | cons c cs ih =>
    intro s a b hc hs
    rw [List.foldl_cons, List.flatten_cons, specA_append, specB_append, ← Nat.add_assoc]
    exact ih _ _ _ (fun d hd => hc d (by simp [hd]))
      (checksumUpdate_spec impl hi c (hc c (by simp)) s a b hs)

theorem checksumFinish_spec (s : Adler) (a b : Nat) (hs : s.Is a b) :
    checksumFinish s = (a % 65521) * 65536 + b % 65521 := by
  obtain ⟨h1, h2⟩ := hs
  unfold checksumFinish
  have l1 : s.s1 < 65521 := by rw [h1]; exact Nat.mod_lt _ (by omega)
  have l2 : s.s2 < 65521 := by rw [h2]; exact Nat.mod_lt _ (by omega)
  have : (s.s1 <<< 16) % 2 ^ 32 = s.s1 <<< 16 := by
    rw [Nat.shiftLeft_eq]; apply Nat.mod_eq_of_lt; omega
  rw [this, ← Nat.shiftLeft_add_eq_or_of_lt (by omega : s.s2 < 2 ^ 16), Nat.shiftLeft_eq, h1, h2]

/-- **C05.** Whatever implementation is selected and however the data are cut into
update calls, the checksum is the mathematical Adler-32 of the data. -/
theorem checksum_eq_adler32 (impl : AdlerImpl) (hi : impl.Supported)
    (chunks : List (List Nat)) (hc : ∀ c ∈ chunks, IsBytes c) :
    checksumOf impl chunks = adler32Spec chunks.flatten := by
  unfold checksumOf adler32Spec
  have h := checksum_fold impl hi chunks adlerInit 1 0 hc ⟨rfl, rfl⟩
  rw [checksumFinish_spec _ _ _ h]
  simp

/-- **C05.** Changing one byte always changes the checksum (as computed by any of the
implementations over any cutting of the two versions of the data). -/
theorem checksum_detects_byte (impl impl' : AdlerImpl) (hi : impl.Supported)
    (hi' : impl'.Supported) (pre post : List Nat) (x y : Nat)
    (hpre : IsBytes pre) (hpost : IsBytes post) (hx : x < 256) (hy : y < 256) (hxy : x ≠ y) :
    checksumOf impl [pre ++ x :: post] ≠ checksumOf impl' [pre ++ y :: post] := by
  have hb : ∀ z, z < 256 → IsBytes (pre ++ z :: post) := by
    intro z hz
    apply hpre.append
    intro b hb
    rcases List.mem_cons.1 hb with h | h
    · omega
    · exact hpost b h
  rw [checksum_eq_adler32 impl hi _ (by simpa using hb x hx),
    checksum_eq_adler32 impl' hi' _ (by simpa using hb y hy)]
  unfold adler32Spec specA
  simp only [List.flatten_cons, List.flatten_nil, List.append_nil, List.sum_append, List.sum_cons]
  have l1 : specB 1 (pre ++ x :: post) % 65521 < 65521 := Nat.mod_lt _ (by omega)
  have l2 : specB 1 (pre ++ y :: post) % 65521 < 65521 := Nat.mod_lt _ (by omega)
  omega

/-- Non-vacuity of C05: concrete data on both implementations. -/
example : AdlerImpl.Supported (.scalar 64) ∧ AdlerImpl.Supported .avx2 ∧
    checksumOf (.scalar 64) [[0x57, 0x69], [0x6b, 0x69]] = adler32Spec [0x57, 0x69, 0x6b, 0x69] ∧
    adler32Spec [0x57, 0x69, 0x6b, 0x69] ≠ 0 := by
  refine ⟨by simp [AdlerImpl.Supported], trivial, by decide, by decide⟩

end Verif.Fbuf
