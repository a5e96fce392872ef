import Verif.Mask.Model

namespace Verif.Mask

/-- Bit `j` of a word array (false outside). -/
def wbit (ptr : List W) (j : Nat) : Bool := (ptr.getD (j / 64) 0#64).getLsbD (j % 64)

theorem low_mask_bit (k i : Nat) (hk : k < 64) (hi : i < 64) :
    ((1#64 <<< k) - 1#64).getLsbD i = decide (i < k) := by
  have hp : 2 ^ k < 2 ^ 64 := Nat.pow_lt_pow_right (by decide) hk
  have h1 : (1#64 <<< k).toNat = 2 ^ k := by
    rw [BitVec.toNat_shiftLeft]
    rw [Nat.shiftLeft_eq]
    simp only [BitVec.toNat_ofNat]
    rw [Nat.mod_eq_of_lt (by omega)]
    omega
  have h2 : ((1#64 <<< k) - 1#64).toNat = 2 ^ k - 1 := by
    have : 0 < 2 ^ k := Nat.two_pow_pos k
    rw [BitVec.toNat_sub, h1]
    simp only [BitVec.toNat_ofNat]
    omega
  rw [BitVec.getLsbD, h2, Nat.testBit_two_pow_sub_one]

theorem maskForRange_spec (low high : Int) (h0 : 0 ≤ low) (h1 : high < 64) :
    ∃ k, maskForRange low high = some k ∧
      ∀ i, i < 64 → k.getLsbD i = decide (low ≤ i ∧ (i : Int) ≤ high) := by
  unfold maskForRange
  by_cases c : high < low
  · refine ⟨0, by simp [c], ?_⟩
    intro i _
    have : ¬ (low ≤ (i : Int) ∧ (i : Int) ≤ high) := by omega
    simp [this]
  · have hn : ¬ (low < 0 ∨ low ≥ 64 ∨ high < 0 ∨ high ≥ 64) := by omega
    simp only [c, hn, if_false]
    refine ⟨_, rfl, ?_⟩
    intro i hi
    have e1 : (if high < 63 then BitVec.allOnes 64 &&& ((1#64 <<< (high.toNat + 1)) - 1#64)
        else BitVec.allOnes 64).getLsbD i = decide ((i : Int) ≤ high) := by
      split
      · rw [BitVec.getLsbD_and, low_mask_bit _ _ (by omega) hi, BitVec.getLsbD_allOnes]
        rw [Bool.eq_iff_iff]; simp only [Bool.and_eq_true, decide_eq_true_eq]; omega
      · rw [BitVec.getLsbD_allOnes]
        rw [Bool.eq_iff_iff]; simp only [decide_eq_true_eq]; omega
    split
    · rw [BitVec.getLsbD_and, e1, BitVec.getLsbD_not, low_mask_bit _ _ (by omega) hi]
      rw [Bool.eq_iff_iff]
      simp only [Bool.and_eq_true, decide_eq_true_eq, Bool.not_eq_true', decide_eq_false_iff_not]
      omega
    · rw [e1, Bool.eq_iff_iff]; simp only [decide_eq_true_eq]; omega

theorem one_shl_bit (k i : Nat) (hk : k < 64) :
    (1#64 <<< k).getLsbD i = decide (i = k) := by
  rw [BitVec.getLsbD_shiftLeft, BitVec.getLsbD_one]
  rw [Bool.eq_iff_iff]
  simp only [Bool.and_eq_true, decide_eq_true_eq, Bool.not_eq_true', decide_eq_false_iff_not]
  omega

theorem word_ne_zero (w : W) : w ≠ 0#64 ↔ ∃ i, i < 64 ∧ w.getLsbD i = true := by
  constructor
  · intro h
    apply Classical.byContradiction
    intro hc
    apply h
    apply BitVec.eq_of_getLsbD_eq
    intro i hi
    cases hb : w.getLsbD i
    · simp
    · exact absurd ⟨i, hi, hb⟩ hc
  · rintro ⟨i, _, hb⟩ rfl
    simp at hb

theorem testBitW_eq (w : W) (k : Nat) (hk : k < 64) : testBitW w k = w.getLsbD k := by
  unfold testBitW
  rw [Bool.eq_iff_iff, decide_eq_true_eq, word_ne_zero]
  constructor
  · rintro ⟨i, hi, hb⟩
    rw [BitVec.getLsbD_and, one_shl_bit _ _ hk, Bool.and_eq_true, decide_eq_true_eq] at hb
    rw [← hb.2]; exact hb.1
  · intro h
    refine ⟨k, hk, ?_⟩
    rw [BitVec.getLsbD_and, one_shl_bit _ _ hk]
    simp [h]

theorem store_eq (ptr : List W) (k : Nat) (w : W) (h : k < ptr.length) :
    store ptr k w = some (ptr.set k w) := if_pos h

theorem load_eq (ptr : List W) (k : Nat) (h : k < ptr.length) :
    load ptr k = some (ptr.getD k 0#64) := by
  unfold load
  rw [List.getElem?_eq_getElem h, List.getD_eq_getElem?_getD, List.getElem?_eq_getElem h]; rfl

theorem wbit_set (ptr : List W) (k : Nat) (w : W) (h : k < ptr.length) (j : Nat) :
    wbit (ptr.set k w) j = if j / 64 = k then w.getLsbD (j % 64) else wbit ptr j := by
  unfold wbit
  rw [List.getD_eq_getElem?_getD, List.getElem?_set]
  by_cases c : k = j / 64
  · subst c; simp [h]
  · have c' : ¬ j / 64 = k := fun e => c e.symm
    simp [c, c', List.getD_eq_getElem?_getD]

/-- `upd` writes the bit `v` where the mask is set, `full` is `v` everywhere. -/
def UpdOk (upd : W → W → W) (full : W) (v : Bool) : Prop :=
  (∀ w k : W, ∀ i, i < 64 → (upd w k).getLsbD i = if k.getLsbD i then v else w.getLsbD i) ∧
  ∀ i, i < 64 → full.getLsbD i = v

theorem updOk_set : UpdOk (fun w k => w ||| k) (BitVec.allOnes 64) true := by
  constructor
  · intro w k i hi
    simp only [BitVec.getLsbD_or]
    cases k.getLsbD i <;> simp
  · intro i hi
    rw [BitVec.getLsbD_allOnes]; simpa using hi

theorem updOk_clear : UpdOk (fun w k => w &&& ~~~k) 0#64 false := by
  constructor
  · intro w k i hi
    simp only [BitVec.getLsbD_and, BitVec.getLsbD_not]
    cases k.getLsbD i <;> simp [hi]
  · intro i hi
    simp

theorem rangeWords_spec {upd full v} (hu : UpdOk upd full v) (ptr : List W) (start count : Nat)
    (h64 : count ≥ 64 → start % 64 = 0) (hlen : start + count ≤ 64 * ptr.length) :
    ∃ p, rangeWords full ptr start count = some (p, start + 64 * (count / 64), count % 64) ∧
      p.length = ptr.length ∧
      ∀ j, wbit p j = if start ≤ j ∧ j < start + 64 * (count / 64) then v else wbit ptr j := by
  fun_induction rangeWords full ptr start count with
  | case1 ptr start count h hs =>
    rw [store_eq _ _ _ (by omega)] at hs; cases hs
  | case2 ptr start count h p hs ih =>
    have hk : start / 64 < ptr.length := by omega
    rw [store_eq _ _ _ hk] at hs
    simp only [Option.some.injEq] at hs; subst hs
    have h0 := h64 h
    obtain ⟨p, hp, hl, hb⟩ := ih (by omega) (by simp; omega)
    refine ⟨p, ?_, by simpa using hl, ?_⟩
    · rw [hp]
      have e1 : start + 64 + 64 * ((count - 64) / 64) = start + 64 * (count / 64) := by omega
      have e2 : (count - 64) % 64 = count % 64 := by omega
      rw [e1, e2]
    · intro j
      rw [hb j, wbit_set _ _ _ hk]
      by_cases c1 : start + 64 ≤ j ∧ j < start + 64 + 64 * ((count - 64) / 64)
      · have : start ≤ j ∧ j < start + 64 * (count / 64) := by omega
        simp only [c1, this, and_self, if_true]
      · simp only [c1, if_false]
        by_cases c2 : j / 64 = start / 64
        · have : start ≤ j ∧ j < start + 64 * (count / 64) := by omega
          simp only [c2, this, and_self, if_true]
          exact hu.2 _ (by omega)
        · have : ¬ (start ≤ j ∧ j < start + 64 * (count / 64)) := by omega
          simp only [c2, this, if_false]
  | case3 ptr start count h =>
    have e1 : count / 64 = 0 := by omega
    have e2 : count % 64 = count := by omega
    refine ⟨ptr, by rw [e1, e2]; simp, rfl, ?_⟩
    intro j
    have : ¬ (start ≤ j ∧ j < start + 64 * (count / 64)) := by omega
    simp only [this, if_false]

theorem word_upd {upd full v} (hu : UpdOk upd full v) (ptr : List W) (start low high : Nat)
    (hl : low = start % 64) (hh : high < 64) (hlh : low ≤ high) (hlen : start / 64 < ptr.length) :
    ∃ k, maskForRange low high = some k ∧
      ∀ j, wbit (ptr.set (start / 64) (upd (ptr.getD (start / 64) 0#64) k)) j =
        if start ≤ j ∧ j < start + (high - low + 1) then v else wbit ptr j := by
  obtain ⟨k, hk, hb⟩ := maskForRange_spec low high (by omega) (by omega)
  refine ⟨k, hk, ?_⟩
  intro j
  rw [wbit_set _ _ _ hlen]
  by_cases c : j / 64 = start / 64
  · simp only [c, if_true]
    rw [hu.1 _ _ _ (by omega), hb _ (by omega)]
    by_cases d : start ≤ j ∧ j < start + (high - low + 1)
    · have : (low : Int) ≤ ((j % 64 : Nat) : Int) ∧ ((j % 64 : Nat) : Int) ≤ high := by omega
      simp only [this, d, and_self, decide_true, if_true]
    · have : ¬ ((low : Int) ≤ ((j % 64 : Nat) : Int) ∧ ((j % 64 : Nat) : Int) ≤ high) := by omega
      simp only [this, d, decide_false, if_false, wbit, c]; rfl
  · have : ¬ (start ≤ j ∧ j < start + (high - low + 1)) := by omega
    simp only [c, this, if_false]

theorem rangeUpd_spec {upd full v} (hu : UpdOk upd full v) (ptr : List W) (start count : Nat)
    (hlen : start + count ≤ 64 * ptr.length) :
    ∃ p, rangeUpd upd full ptr start count = some p ∧ p.length = ptr.length ∧
      ∀ j, wbit p j = if start ≤ j ∧ j < start + count then v else wbit ptr j := by
  -- the part after the pre-loop
  have tail : ∀ (ptr : List W) (start count : Nat), (count > 0 → start % 64 = 0) →
      start + count ≤ 64 * ptr.length →
      ∃ p, (do
        let (ptr, start, count) ← rangeWords full ptr start count
        if count > 0 then do
          let high := min (count - 1) 63
          let w ← load ptr (start / 64)
          let mk ← maskForRange 0 high
          store ptr (start / 64) (upd w mk)
        else some ptr) = some p ∧ p.length = ptr.length ∧
      ∀ j, wbit p j = if start ≤ j ∧ j < start + count then v else wbit ptr j := by
    intro ptr start count h0 hlen
    obtain ⟨p, hp, hl, hb⟩ := rangeWords_spec hu ptr start count (by omega) hlen
    rw [hp]
    by_cases c : count % 64 > 0
    · have h0' := h0 (by omega)
      have hk : (start + 64 * (count / 64)) / 64 < p.length := by omega
      have em : min (count % 64 - 1) 63 = count % 64 - 1 := by omega
      obtain ⟨k, hk1, hk2⟩ := word_upd hu p (start + 64 * (count / 64)) 0 (count % 64 - 1)
        (by omega) (by omega) (by omega) hk
      refine ⟨p.set ((start + 64 * (count / 64)) / 64)
        (upd (p.getD ((start + 64 * (count / 64)) / 64) 0#64) k), ?_, by simpa using hl, ?_⟩
      · have hk1' : maskForRange 0 ((count % 64 - 1 : Nat) : Int) = some k := hk1
        simp only [Option.bind_eq_bind, Option.bind_some, c, if_true, em, load_eq _ _ hk, hk1',
          store_eq _ _ _ hk]
      · intro j
        rw [hk2, hb]
        by_cases d : start ≤ j ∧ j < start + count
        · simp only [d, and_self, if_true]
          by_cases e : j < start + 64 * (count / 64)
          · simp [e]
          · have : start + 64 * (count / 64) ≤ j ∧
              j < start + 64 * (count / 64) + (count % 64 - 1 - 0 + 1) := by omega
            simp only [this, and_self, if_true]
        · have a : ¬ (start + 64 * (count / 64) ≤ j ∧
              j < start + 64 * (count / 64) + (count % 64 - 1 - 0 + 1)) := by omega
          have b : ¬ (start ≤ j ∧ j < start + 64 * (count / 64)) := by omega
          simp only [a, b, d, if_false]
    · refine ⟨p, ?_, hl, ?_⟩
      · simp only [Option.bind_eq_bind, Option.bind_some, c, if_false]
      · intro j
        rw [hb]
        have : 64 * (count / 64) = count := by omega
        rw [this]
  unfold rangeUpd
  by_cases c : count > 0 ∧ start % 64 ≠ 0
  · have hk : start / 64 < ptr.length := by omega
    have em : min (start % 64 + count - 1) 63 < 64 ∧
        start % 64 ≤ min (start % 64 + count - 1) 63 ∧
        min (start % 64 + count - 1) 63 ≤ start % 64 + count - 1 ∧
        (min (start % 64 + count - 1) 63 < 63 →
          min (start % 64 + count - 1) 63 = start % 64 + count - 1) := by omega
    generalize hm : min (start % 64 + count - 1) 63 = high at *
    obtain ⟨k, hk1, hk2⟩ := word_upd hu ptr start (start % 64) high rfl em.1 em.2.1 hk
    obtain ⟨p, hp, hl, hb⟩ := tail
      (ptr.set (start / 64) (upd (ptr.getD (start / 64) 0#64) k))
      (start + (high - start % 64 + 1)) (count - (high - start % 64 + 1))
      (by omega) (by simp only [List.length_set]; omega)
    refine ⟨p, ?_, by simpa using hl, ?_⟩
    · simp only [c, and_self, not_false_eq_true, ne_eq, if_true, load_eq _ _ hk, Option.bind_eq_bind,
        Option.bind_some, hm, hk1, store_eq _ _ _ hk]
      exact hp
    · intro j
      rw [hb, hk2]
      by_cases d : start ≤ j ∧ j < start + count
      · simp only [d, and_self, if_true]
        by_cases e : j < start + (high - start % 64 + 1)
        · simp [e]
        · have : start + (high - start % 64 + 1) ≤ j ∧
              j < start + (high - start % 64 + 1) + (count - (high - start % 64 + 1)) := by omega
          simp only [this, and_self, if_true]
      · have a : ¬ (start + (high - start % 64 + 1) ≤ j ∧
              j < start + (high - start % 64 + 1) + (count - (high - start % 64 + 1))) := by omega
        have b : ¬ (start ≤ j ∧ j < start + (high - start % 64 + 1)) := by omega
        simp only [a, b, d, if_false]
  · obtain ⟨p, hp, hl, hb⟩ := tail ptr start count (by omega) hlen
    refine ⟨p, ?_, hl, hb⟩
    simp only [c, if_false, Option.bind_eq_bind, Option.bind_some]
    exact hp

end Verif.Mask
