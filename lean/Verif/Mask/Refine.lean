import Verif.Mask.Lemmas2

namespace Verif.Mask

/-- The bit the mask stores for element `i`. -/
def mbit (m : Mask) (i : Nat) : Bool := if m.size > 64 then wbit m.ptr i else m.bits.getLsbD i

/-- The mask `m` of size `n` represents the set `s`. -/
structure Rep (m : Mask) (n : Nat) (s : Nat → Bool) : Prop where
  size : m.size = n
  len : n > 64 → m.ptr.length = (n + 63) / 64
  bit : ∀ i, mbit m i = s i
  out : ∀ i, n ≤ i → s i = false

theorem Rep.big {m n s} (h : Rep m n s) (hn : n > 64) (i : Nat) : wbit m.ptr i = s i := by
  have := h.bit i
  unfold mbit at this
  have e : m.size > 64 := by rw [h.size]; exact hn
  rw [if_pos e] at this; exact this

theorem Rep.small {m n s} (h : Rep m n s) (hn : ¬ n > 64) (i : Nat) : m.bits.getLsbD i = s i := by
  have := h.bit i
  unfold mbit at this
  have e : ¬ m.size > 64 := by rw [h.size]; exact hn
  rw [if_neg e] at this; exact this

theorem rep_big {m : Mask} {n : Nat} {s : Nat → Bool} (hn : n > 64) (hs : m.size = n)
    (hl : m.ptr.length = (n + 63) / 64) (hb : ∀ i, wbit m.ptr i = s i)
    (ho : ∀ i, n ≤ i → s i = false) : Rep m n s := by
  refine ⟨hs, fun _ => hl, ?_, ho⟩
  intro i
  unfold mbit
  have e : m.size > 64 := by rw [hs]; exact hn
  rw [if_pos e]; exact hb i

theorem rep_small {m : Mask} {n : Nat} {s : Nat → Bool} (hn : ¬ n > 64) (hs : m.size = n)
    (hb : ∀ i, i < 64 → m.bits.getLsbD i = s i)
    (ho : ∀ i, n ≤ i → s i = false) : Rep m n s := by
  refine ⟨hs, fun h => absurd h hn, ?_, ho⟩
  intro i
  unfold mbit
  have e : ¬ m.size > 64 := by rw [hs]; exact hn
  rw [if_neg e]
  by_cases c : i < 64
  · exact hb i c
  · rw [ho i (by omega)]
    exact BitVec.getLsbD_of_ge _ _ (by omega)

theorem init_rep (n : Nat) : Rep (init n) n (fun _ => false) := by
  unfold init
  by_cases c : n > 64
  · rw [if_pos c]
    refine rep_big c rfl (by simp) ?_ (by simp)
    intro i
    unfold wbit
    rw [List.getD_eq_getElem?_getD, List.getElem?_replicate]
    split <;> simp
  · rw [if_neg c]
    exact rep_small c rfl (by simp) (by simp)

theorem test_rep {m n s} (h : Rep m n s) (b : Nat) (hb : b < n) : test m b = some (s b) := by
  unfold test
  rw [h.size, if_pos hb]
  by_cases c : n > 64
  · have hl := h.len c
    rw [if_pos c, load_eq _ _ (by omega)]
    simp only [Option.map_some, testBitW_eq _ _ (Nat.mod_lt b (by decide : 64 > 0))]
    rw [← h.big c b]; rfl
  · rw [if_neg c]
    have e : b % 64 = b := by omega
    rw [e, testBitW_eq _ _ (by omega), h.small c]

theorem set_rep {m n s} (h : Rep m n s) (b : Nat) (hb : b < n) :
    ∃ m', set m b = some m' ∧ Rep m' n (fun i => if i = b then true else s i) := by
  unfold set
  rw [h.size, if_pos hb]
  have ho : ∀ i, n ≤ i → (if i = b then true else s i) = false := by
    intro i hi
    have : i ≠ b := by omega
    simp [this, h.out i hi]
  by_cases c : n > 64
  · have hl := h.len c
    have hk : b / 64 < m.ptr.length := by omega
    rw [if_pos c, load_eq _ _ hk]
    simp only [Option.bind_eq_bind, Option.bind_some, store_eq _ _ _ hk]
    refine ⟨_, rfl, rep_big c rfl (by simpa using hl) ?_ ho⟩
    intro i
    show wbit (m.ptr.set _ _) i = _
    rw [wbit_set _ _ _ hk]
    by_cases d : i / 64 = b / 64
    · rw [if_pos d, BitVec.getLsbD_or, one_shl_bit _ _ (by omega), ← h.big c i, wbit_of_word, d]
      by_cases e : i = b
      · subst e; simp
      · have : ¬ i % 64 = b % 64 := by omega
        simp [e, this]
    · have : i ≠ b := by intro e; subst e; exact d rfl
      rw [if_neg d, if_neg this, h.big c i]
  · rw [if_neg c]
    refine ⟨_, rfl, rep_small c rfl ?_ ho⟩
    intro i hi
    show (m.bits ||| _).getLsbD i = _
    have e : b % 64 = b := by omega
    rw [BitVec.getLsbD_or, e, one_shl_bit _ _ (by omega), h.small c]
    by_cases d : i = b <;> simp [d]

theorem clear_rep {m n s} (h : Rep m n s) (b : Nat) (hb : b < n) :
    ∃ m', clear m b = some m' ∧ Rep m' n (fun i => if i = b then false else s i) := by
  unfold clear
  rw [h.size, if_pos hb]
  have ho : ∀ i, n ≤ i → (if i = b then false else s i) = false := by
    intro i hi
    simp [h.out i hi]
  by_cases c : n > 64
  · have hl := h.len c
    have hk : b / 64 < m.ptr.length := by omega
    rw [if_pos c, load_eq _ _ hk]
    simp only [Option.bind_eq_bind, Option.bind_some, store_eq _ _ _ hk]
    refine ⟨_, rfl, rep_big c rfl (by simpa using hl) ?_ ho⟩
    intro i
    show wbit (m.ptr.set _ _) i = _
    rw [wbit_set _ _ _ hk]
    by_cases d : i / 64 = b / 64
    · rw [if_pos d, BitVec.getLsbD_and, BitVec.getLsbD_not, one_shl_bit _ _ (by omega),
        ← h.big c i, wbit_of_word, d]
      have hm : i % 64 < 64 := by omega
      by_cases e : i = b
      · subst e; simp
      · have : ¬ i % 64 = b % 64 := by omega
        simp [e, this, hm]
    · have : i ≠ b := by intro e; subst e; exact d rfl
      rw [if_neg d, if_neg this, h.big c i]
  · rw [if_neg c]
    refine ⟨_, rfl, rep_small c rfl ?_ ho⟩
    intro i hi
    show (m.bits &&& _).getLsbD i = _
    have e : b % 64 = b := by omega
    rw [BitVec.getLsbD_and, BitVec.getLsbD_not, e, one_shl_bit _ _ (by omega), h.small c]
    by_cases d : i = b <;> simp [d, hi]

theorem setRange_rep {m n s} (h : Rep m n s) (st ct : Nat) (hr : st + ct ≤ n) :
    ∃ m', setRange m st ct = some m' ∧
      Rep m' n (fun i => if st ≤ i ∧ i < st + ct then true else s i) := by
  unfold setRange
  rw [h.size]
  have ho : ∀ i, n ≤ i → (if st ≤ i ∧ i < st + ct then true else s i) = false := by
    intro i hi
    have : ¬ (st ≤ i ∧ i < st + ct) := by omega
    simp only [this, if_false, h.out i hi]
  by_cases c : n ≤ 64
  · rw [if_pos c]
    obtain ⟨k, hk, hb⟩ := maskForRange_spec st ((st : Int) + ct - 1) (by omega) (by omega)
    rw [hk]
    refine ⟨_, rfl, rep_small (by omega) rfl ?_ ho⟩
    intro i hi
    show (m.bits ||| k).getLsbD i = _
    rw [BitVec.getLsbD_or, hb i hi, h.small (by omega)]
    by_cases d : st ≤ i ∧ i < st + ct
    · have : (st : Int) ≤ i ∧ (i : Int) ≤ st + ct - 1 := by omega
      simp only [d, this, and_self, decide_true, if_true, Bool.or_true]
    · have : ¬ ((st : Int) ≤ i ∧ (i : Int) ≤ st + ct - 1) := by omega
      simp only [d, this, decide_false, if_false, Bool.or_false]
  · rw [if_neg c]
    have hl := h.len (by omega)
    obtain ⟨p, hp, hpl, hb⟩ := rangeUpd_spec updOk_set m.ptr st ct (by omega)
    rw [hp]
    refine ⟨_, rfl, rep_big (by omega) rfl (by show p.length = _; omega) ?_ ho⟩
    intro i
    show wbit p i = _
    rw [hb, h.big (by omega)]

theorem clearRange_rep {m n s} (h : Rep m n s) (st ct : Nat) (hr : st + ct ≤ n) :
    ∃ m', clearRange m st ct = some m' ∧
      Rep m' n (fun i => if st ≤ i ∧ i < st + ct then false else s i) := by
  unfold clearRange
  rw [h.size]
  have ho : ∀ i, n ≤ i → (if st ≤ i ∧ i < st + ct then false else s i) = false := by
    intro i hi
    have : ¬ (st ≤ i ∧ i < st + ct) := by omega
    simp only [this, if_false, h.out i hi]
  by_cases c : n ≤ 64
  · rw [if_pos c]
    obtain ⟨k, hk, hb⟩ := maskForRange_spec st ((st : Int) + ct - 1) (by omega) (by omega)
    rw [hk]
    refine ⟨_, rfl, rep_small (by omega) rfl ?_ ho⟩
    intro i hi
    show (m.bits &&& ~~~k).getLsbD i = _
    rw [BitVec.getLsbD_and, BitVec.getLsbD_not, hb i hi, h.small (by omega)]
    by_cases d : st ≤ i ∧ i < st + ct
    · have : (st : Int) ≤ i ∧ (i : Int) ≤ st + ct - 1 := by omega
      simp [d, this]
    · have : ¬ ((st : Int) ≤ i ∧ (i : Int) ≤ st + ct - 1) := by omega
      simp only [d, this, decide_false, if_false, hi, decide_true, Bool.not_false, Bool.and_true]
  · rw [if_neg c]
    have hl := h.len (by omega)
    obtain ⟨p, hp, hpl, hb⟩ := rangeUpd_spec updOk_clear m.ptr st ct (by omega)
    rw [hp]
    refine ⟨_, rfl, rep_big (by omega) rfl (by show p.length = _; omega) ?_ ho⟩
    intro i
    show wbit p i = _
    rw [hb, h.big (by omega)]

/-- Does the set meet `[st, st + ct)`? -/
def anyIn (s : Nat → Bool) (st ct : Nat) : Bool := (List.range ct).any fun i => s (st + i)

theorem anyIn_iff (s : Nat → Bool) (st ct : Nat) :
    anyIn s st ct = true ↔ ∃ j, st ≤ j ∧ j < st + ct ∧ s j = true := by
  unfold anyIn
  rw [List.any_eq_true]
  constructor
  · rintro ⟨i, hi, hs⟩
    exact ⟨st + i, by omega, by have := List.mem_range.mp hi; omega, hs⟩
  · rintro ⟨j, h1, h2, hs⟩
    refine ⟨j - st, List.mem_range.mpr (by omega), ?_⟩
    have : st + (j - st) = j := by omega
    rw [this]; exact hs

theorem word_any (ptr : List W) (start low high : Nat)
    (hl : low = start % 64) (hh : high < 64) (hlh : low ≤ high) :
    ∃ k, maskForRange low high = some k ∧
      (ptr.getD (start / 64) 0#64 &&& k ≠ 0#64 ↔
        anyIn (wbit ptr) start (high - low + 1) = true) := by
  obtain ⟨k, hk, hb⟩ := maskForRange_spec low high (by omega) (by omega)
  refine ⟨k, hk, ?_⟩
  rw [word_ne_zero, anyIn_iff]
  constructor
  · rintro ⟨i, hi, h⟩
    rw [BitVec.getLsbD_and, hb i hi, Bool.and_eq_true, decide_eq_true_eq] at h
    refine ⟨64 * (start / 64) + i, by omega, by omega, ?_⟩
    rw [wbit_word _ _ _ hi]; exact h.1
  · rintro ⟨j, h1, h2, h3⟩
    refine ⟨j % 64, by omega, ?_⟩
    rw [BitVec.getLsbD_and, hb _ (by omega), Bool.and_eq_true, decide_eq_true_eq]
    have : j / 64 = start / 64 := by omega
    rw [wbit_of_word, this] at h3
    exact ⟨h3, by omega⟩

theorem testWords_spec (ptr : List W) (start count : Nat)
    (h64 : count ≥ 64 → start % 64 = 0) (hlen : start + count ≤ 64 * ptr.length) :
    (testWords ptr start count = some none ∧ anyIn (wbit ptr) start count = true) ∨
    (testWords ptr start count = some (some (start + 64 * (count / 64), count % 64)) ∧
      ∀ j, start ≤ j → j < start + 64 * (count / 64) → wbit ptr j = false) := by
  fun_induction testWords ptr start count with
  | case1 start count h hld => rw [load_eq _ _ (by omega)] at hld; cases hld
  | case2 start count h w hld hw =>
    left
    refine ⟨rfl, ?_⟩
    rw [load_eq _ _ (by omega)] at hld
    simp only [Option.some.injEq] at hld
    subst hld
    obtain ⟨i, hi, hb⟩ := (word_ne_zero _).1 hw
    rw [anyIn_iff]
    refine ⟨64 * (start / 64) + i, by omega, by omega, ?_⟩
    rw [wbit_word _ _ _ hi]; exact hb
  | case3 start count h w hld hw ih =>
    rw [load_eq _ _ (by omega)] at hld
    simp only [Option.some.injEq] at hld
    have hz : ptr.getD (start / 64) 0#64 = 0#64 := by
      rw [hld]; exact Classical.not_not.1 hw
    have h0 := h64 h
    rcases ih (by omega) (by omega) with ⟨a, b⟩ | ⟨a, b⟩
    · left
      refine ⟨a, ?_⟩
      rw [anyIn_iff] at b ⊢
      obtain ⟨j, x, y, z⟩ := b
      exact ⟨j, by omega, by omega, z⟩
    · right
      refine ⟨?_, ?_⟩
      · rw [a]
        have e1 : start + 64 + 64 * ((count - 64) / 64) = start + 64 * (count / 64) := by omega
        have e2 : (count - 64) % 64 = count % 64 := by omega
        rw [e1, e2]
      · intro j h1 h2
        by_cases d : j < start + 64
        · exact word_zero_wbit ptr (start / 64) hz j (by omega)
        · exact b j (by omega) (by omega)
  | case4 start count h =>
    right
    have e1 : count / 64 = 0 := by omega
    have e2 : count % 64 = count := by omega
    refine ⟨by rw [e1, e2]; simp, by omega⟩

theorem testTail_spec (ptr : List W) (start count : Nat)
    (h64 : count > 0 → start % 64 = 0) (hlen : start + count ≤ 64 * ptr.length) :
    testTail ptr start count = some (anyIn (wbit ptr) start count) := by
  unfold testTail
  rcases testWords_spec ptr start count (by omega) hlen with ⟨a, b⟩ | ⟨a, b⟩
  · rw [a, b]
  · rw [a]
    simp only []
    by_cases c : count % 64 > 0
    · have h0 := h64 (by omega)
      rw [if_pos c, load_eq _ _ (by omega)]
      have em : min (count % 64 - 1) 63 = count % 64 - 1 := by omega
      obtain ⟨k, hk, hb⟩ := word_any ptr (start + 64 * (count / 64)) 0 (count % 64 - 1)
        (by omega) (by omega) (by omega)
      have hk' : maskForRange 0 ((count % 64 - 1 : Nat) : Int) = some k := hk
      simp only [Option.bind_eq_bind, Option.bind_some, em, hk']
      congr 1
      rw [Bool.eq_iff_iff, decide_eq_true_eq, hb, anyIn_iff, anyIn_iff]
      constructor
      · rintro ⟨j, x, y, z⟩; exact ⟨j, by omega, by omega, z⟩
      · rintro ⟨j, x, y, z⟩
        refine ⟨j, ?_, by omega, z⟩
        apply Classical.byContradiction
        intro hc
        rw [b j x (by omega)] at z; cases z
    · rw [if_neg c]
      congr 1
      symm
      rw [← Bool.not_eq_true, anyIn_iff]
      rintro ⟨j, x, y, z⟩
      rw [b j x (by omega)] at z; cases z

theorem testRange_rep {m n s} (h : Rep m n s) (st ct : Nat) (hr : st + ct ≤ n) :
    testRange m st ct = some (anyIn s st ct) := by
  unfold testRange
  rw [h.size]
  by_cases c : n ≤ 64
  · rw [if_pos c]
    obtain ⟨k, hk, hb⟩ := maskForRange_spec st ((st : Int) + ct - 1) (by omega) (by omega)
    rw [hk]
    simp only [Option.map_some]
    congr 1
    rw [Bool.eq_iff_iff, decide_eq_true_eq, anyIn_iff, word_ne_zero]
    constructor
    · rintro ⟨i, hi, hx⟩
      rw [BitVec.getLsbD_and, hb i hi, Bool.and_eq_true, decide_eq_true_eq, h.small (by omega)] at hx
      exact ⟨i, by omega, by omega, hx.1⟩
    · rintro ⟨j, x, y, z⟩
      refine ⟨j, by omega, ?_⟩
      rw [BitVec.getLsbD_and, hb j (by omega), Bool.and_eq_true, decide_eq_true_eq,
        h.small (by omega)]
      exact ⟨z, by omega⟩
  · rw [if_neg c]
    have hl := h.len (by omega)
    have hw : wbit m.ptr = s := funext (h.big (by omega))
    by_cases d : ct > 0 ∧ st % 64 ≠ 0
    · rw [if_pos d, load_eq _ _ (by omega)]
      obtain ⟨k, hk, hb⟩ := word_any m.ptr st (st % 64) (min (st % 64 + ct - 1) 63) rfl
        (by omega) (by omega)
      simp only [Option.bind_eq_bind, Option.bind_some, hk]
      by_cases e : m.ptr.getD (st / 64) 0#64 &&& k ≠ 0#64
      · rw [if_pos e]
        congr 1
        symm
        rw [hb, anyIn_iff] at e
        obtain ⟨j, x, y, z⟩ := e
        rw [anyIn_iff, ← hw]
        exact ⟨j, x, by omega, z⟩
      · rw [if_neg e, testTail_spec _ _ _ (by omega) (by omega)]
        congr 1
        rw [hb, anyIn_iff] at e
        rw [Bool.eq_iff_iff, anyIn_iff, anyIn_iff, ← hw]
        constructor
        · rintro ⟨j, x, y, z⟩; exact ⟨j, by omega, by omega, z⟩
        · rintro ⟨j, x, y, z⟩
          refine ⟨j, ?_, by omega, z⟩
          apply Classical.byContradiction
          intro hc
          exact e ⟨j, x, by omega, z⟩
    · rw [if_neg d, testTail_spec _ _ _ (by omega) (by omega), hw]

theorem popcount_rep {m n s} (h : Rep m n s) : popcount m = (List.range n).countP s := by
  unfold popcount
  rw [h.size]
  by_cases c : n > 64
  · have hl := h.len c
    have hw : wbit m.ptr = s := funext (h.big c)
    rw [if_pos c, popcount_words, hw]
    have e : 64 * m.ptr.length = n + (64 * m.ptr.length - n) := by omega
    rw [e]
    exact countP_range_extend s n _ h.out
  · rw [if_neg c]
    have hw : (fun i => m.bits.getLsbD i) = s := funext (h.small c)
    unfold popcountW
    rw [hw]
    have e : 64 = n + (64 - n) := by omega
    rw [e]
    exact countP_range_extend s n _ h.out

/-- The scan may start one element behind the last, unless that is in another word. -/
theorem scan_rep_end {m n s} (h : Rep m n s) (b : Nat) (hb : b < n ∨ b = n ∧ n % 64 ≠ 0) :
    scanBackwards m b = some (match scanMax s (b + 1) with | some i => (i : Int) | none => -1) := by
  unfold scanBackwards
  rw [h.size]
  by_cases c : n ≤ 64
  · rw [if_pos c]
    obtain ⟨k, hk, hkb⟩ := maskForRange_spec 0 b (by omega) (by omega)
    rw [hk]
    simp only [Option.bind_eq_bind, Option.bind_some]
    have hbit : ∀ i, i < 64 → (m.bits &&& k).getLsbD i = (s i && decide (i ≤ b)) := by
      intro i hi
      rw [BitVec.getLsbD_and, hkb i hi, h.small (by omega)]
      congr 1
      rw [Bool.eq_iff_iff]; simp only [decide_eq_true_eq]; omega
    by_cases d : m.bits &&& k = 0#64
    · rw [if_pos d, scanMax_none]
      intro j hj
      have := hbit j (by omega)
      rw [d] at this
      have hd : j ≤ b := by omega
      simpa [hd] using this.symm
    · rw [if_neg d]
      obtain ⟨i, a, b1, b2, b3⟩ := highBit_cases _ d
      rw [a]
      rw [hbit i b1, Bool.and_eq_true, decide_eq_true_eq] at b2
      rw [scanMax_some s (b + 1) i (by omega) b2.1]
      · rfl
      · intro j h1 h2
        have := b3 j h1 (by omega)
        rw [hbit j (by omega)] at this
        have hd : j ≤ b := by omega
        simpa [hd] using this
  · rw [if_neg c]
    have hl := h.len (by omega)
    have hw : wbit m.ptr = s := funext (h.big (by omega))
    rw [load_eq _ _ (by omega)]
    obtain ⟨k, hk, hkb⟩ := maskForRange_spec 0 (b % 64 : Nat) (by omega) (by omega)
    rw [hk]
    simp only [Option.bind_eq_bind, Option.bind_some]
    have hbit : ∀ i, i < 64 → (m.ptr.getD (b / 64) 0#64 &&& k).getLsbD i =
        (s (64 * (b / 64) + i) && decide (64 * (b / 64) + i ≤ b)) := by
      intro i hi
      rw [BitVec.getLsbD_and, hkb i hi, ← hw, wbit_word _ _ _ hi]
      congr 1
      rw [Bool.eq_iff_iff]; simp only [decide_eq_true_eq]; omega
    by_cases d : m.ptr.getD (b / 64) 0#64 &&& k = 0#64
    · have hz : ∀ j, 64 * (b / 64) ≤ j → j < b + 1 → s j = false := by
        intro j h1 h2
        have := hbit (j - 64 * (b / 64)) (by omega)
        have e : 64 * (b / 64) + (j - 64 * (b / 64)) = j := by omega
        rw [d, e] at this
        have hd : j ≤ b := by omega
        simpa [hd] using this.symm
      rw [if_neg (by simpa using d), scanWords_spec _ _ (by omega), hw]
      have : scanMax s (64 * (b / 64)) = scanMax s (b + 1) := by
        rcases scanMax_cases s (64 * (b / 64)) with ⟨i, a, b1, b2, b3⟩ | ⟨a, b1⟩
        · rw [a]
          symm
          apply scanMax_some _ _ _ (by omega) b2
          intro j h1 h2
          by_cases e : j < 64 * (b / 64)
          · exact b3 j h1 e
          · exact hz j (by omega) h2
        · rw [a]
          symm
          apply scanMax_none
          intro j h2
          by_cases e : j < 64 * (b / 64)
          · exact b1 j e
          · exact hz j (by omega) h2
      rw [this]
      cases scanMax s (b + 1) <;> rfl
    · rw [if_pos d]
      obtain ⟨i, a, b1, b2, b3⟩ := highBit_cases _ d
      rw [a]
      rw [hbit i b1, Bool.and_eq_true, decide_eq_true_eq] at b2
      rw [scanMax_some s (b + 1) (64 * (b / 64) + i) (by omega) b2.1]
      · rfl
      · intro j h1 h2
        have := b3 (j - 64 * (b / 64)) (by omega) (by omega)
        have e : 64 * (b / 64) + (j - 64 * (b / 64)) = j := by omega
        rw [hbit _ (by omega), e] at this
        have hd : j ≤ b := by omega
        simpa [hd] using this

theorem scan_rep {m n s} (h : Rep m n s) (b : Nat) (hb : b < n) :
    scanBackwards m b = some (match scanMax s (b + 1) with | some i => (i : Int) | none => -1) :=
  scan_rep_end h b (.inl hb)

/-- Number of consecutive elements absent from the set, starting at `b`. -/
def runOf (s : Nat → Bool) (n b : Nat) : Nat :=
  (((List.range n).drop b).takeWhile fun i => !s i).length

theorem countTail_spec {m n s} (h : Rep m n s) (hn : n > 64) (b c b0 : Nat)
    (h0 : b < n → b % 64 = 0) (hb : b ≤ n) (hb0 : b0 ≤ b) (hc : c = b - b0)
    (hz : ∀ i, b0 ≤ i → i < b → s i = false) :
    countTail m b c = some (runOf s n b0) := by
  have hl := h.len hn
  have hw : wbit m.ptr = s := funext (h.big hn)
  unfold countTail
  rw [h.size]
  by_cases e : b = n
  · rw [if_pos e]
    congr 1
    symm
    exact takeWhile_run s n b0 c (by omega) (fun i h1 h2 => hz i h1 (by omega)) (by omega)
  · rw [if_neg e]
    obtain ⟨b', c', h1, h2, h3, h4, h5, h6, h7⟩ :=
      countWords_spec n m.ptr b c (h0 (by omega)) (by omega) (by omega)
    rw [h1]
    simp only [Option.bind_eq_bind, Option.bind_some]
    rw [load_eq _ _ (by omega)]
    simp only [Option.bind_some]
    rw [hw] at h6
    have hz' : ∀ i, b0 ≤ i → i < b' → s i = false := by
      intro i x y
      by_cases d : i < b
      · exact hz i x d
      · exact h6 i (by omega) y
    rcases ffs_cases (m.ptr.getD (b' / 64) 0#64) with ⟨i, a, b1, b2, b3⟩ | ⟨a, b1⟩
    · rw [a]
      have hsi : s (b' + i) = true := by
        rw [← hw]
        have e : b' + i = 64 * (b' / 64) + i := by omega
        rw [e, wbit_word _ _ _ b1]; exact b2
      have hlt : b' + i < n := by
        apply Classical.byContradiction
        intro hx
        rw [h.out _ (by omega)] at hsi; cases hsi
      rw [if_pos (by omega)]
      congr 1
      symm
      apply takeWhile_run s n b0 (c' + (i + 1) - 1) (by omega)
      · intro j x y
        by_cases d : j < b'
        · exact hz' j x d
        · rw [← hw]
          have e : j = 64 * (b' / 64) + (j - b') := by omega
          rw [e, wbit_word _ _ _ (by omega)]
          exact b3 _ (by omega)
      · intro _
        have e : b0 + (c' + (i + 1) - 1) = b' + i := by omega
        rw [e]; exact hsi
    · rw [a, if_neg (by omega)]
      have hge : ¬ b' + 64 < n := by
        intro hx
        obtain ⟨i, hi, hb⟩ := (word_ne_zero _).1 (h7 hx)
        rw [b1 i hi] at hb; cases hb
      congr 1
      symm
      apply takeWhile_run s n b0 (c' + n - b') (by omega)
      · intro j x y
        by_cases d : j < b'
        · exact hz' j x d
        · rw [← hw]
          have e : j = 64 * (b' / 64) + (j - b') := by omega
          rw [e, wbit_word _ _ _ (by omega)]
          exact b1 _ (by omega)
      · intro _; omega

theorem countClear_rep {m n s} (h : Rep m n s) (b : Nat) (hb : b < n) :
    countClear m b = some (runOf s n b) := by
  unfold countClear
  rw [h.size, if_neg (by omega)]
  by_cases c : n ≤ 64
  · rw [if_pos c]
    obtain ⟨k, hk, hkb⟩ := maskForRange_spec b 63 (by omega) (by omega)
    rw [hk]
    simp only [Option.bind_eq_bind, Option.bind_some]
    have hbit : ∀ i, i < 64 → (m.bits &&& k).getLsbD i = (s i && decide (b ≤ i)) := by
      intro i hi
      rw [BitVec.getLsbD_and, hkb i hi, h.small (by omega)]
      congr 1
      rw [Bool.eq_iff_iff]; simp only [decide_eq_true_eq]; omega
    congr 1
    symm
    rcases ffs_cases (m.bits &&& k) with ⟨i, a, b1, b2, b3⟩ | ⟨a, b1⟩
    · rw [a, if_pos (by omega)]
      rw [hbit i b1, Bool.and_eq_true, decide_eq_true_eq] at b2
      have hlt : i < n := by
        apply Classical.byContradiction
        intro hx
        rw [h.out _ (by omega)] at b2; cases b2.1
      apply takeWhile_run s n b (i + 1 - 1 - b) (by omega)
      · intro j x y
        have := b3 j (by omega)
        rw [hbit j (by omega)] at this
        simpa [x] using this
      · intro _
        have e : b + (i + 1 - 1 - b) = i := by omega
        rw [e]; exact b2.1
    · rw [a, if_neg (by omega)]
      apply takeWhile_run s n b (n - b) (by omega)
      · intro j x y
        have := b1 j (by omega)
        rw [hbit j (by omega)] at this
        simpa [x] using this
      · omega
  · rw [if_neg c]
    have hl := h.len (by omega)
    have hw : wbit m.ptr = s := funext (h.big (by omega))
    simp only []
    by_cases d : b % 64 > 0
    · rw [if_pos d, load_eq _ _ (by omega)]
      obtain ⟨k, hk, hkb⟩ := maskForRange_spec (b % 64 : Nat)
        ((min 64 (n - (b - b % 64)) : Nat) - 1 : Int) (by omega) (by omega)
      simp only [Option.bind_eq_bind, Option.bind_some, hk]
      have hbit : ∀ i, i < 64 → (m.ptr.getD (b / 64) 0#64 &&& k).getLsbD i =
          (s (64 * (b / 64) + i) && decide (b ≤ 64 * (b / 64) + i)) := by
        intro i hi
        rw [BitVec.getLsbD_and, hkb i hi, ← wbit_word _ _ _ hi, hw]
        by_cases hx : n ≤ 64 * (b / 64) + i
        · rw [h.out _ hx]; simp
        · congr 1
          rw [Bool.eq_iff_iff]; simp only [decide_eq_true_eq]; omega
      rcases ffs_cases (m.ptr.getD (b / 64) 0#64 &&& k) with ⟨i, a, b1, b2, b3⟩ | ⟨a, b1⟩
      · rw [a, if_pos (by omega)]
        rw [hbit i b1, Bool.and_eq_true, decide_eq_true_eq] at b2
        have hlt : 64 * (b / 64) + i < n := by
          apply Classical.byContradiction
          intro hx
          rw [h.out _ (by omega)] at b2; cases b2.1
        congr 1
        symm
        apply takeWhile_run s n b (i + 1 - 1 - b % 64) (by omega)
        · intro j x y
          have := b3 (j - 64 * (b / 64)) (by omega)
          have e : 64 * (b / 64) + (j - 64 * (b / 64)) = j := by omega
          rw [hbit _ (by omega), e] at this
          simpa [x] using this
        · intro _
          have e : b + (i + 1 - 1 - b % 64) = 64 * (b / 64) + i := by omega
          rw [e]; exact b2.1
      · rw [a, if_neg (by omega)]
        apply countTail_spec h (by omega) _ _ b
        · omega
        · omega
        · omega
        · omega
        · intro j x y
          have := b1 (j - 64 * (b / 64)) (by omega)
          have e : 64 * (b / 64) + (j - 64 * (b / 64)) = j := by omega
          rw [hbit _ (by omega), e] at this
          simpa [x] using this
    · rw [if_neg d]
      exact countTail_spec h (by omega) b 0 b (by omega) (by omega) (by omega) (by omega)
        (by omega)

theorem wbit_zipWith (f : W → W → W) (p q : List W) (hl : p.length = q.length)
    (g : Bool → Bool → Bool) (hf : ∀ a b : W, ∀ i, i < 64 → (f a b).getLsbD i = g (a.getLsbD i) (b.getLsbD i))
    (hg : g false false = false) (j : Nat) :
    wbit (List.zipWith f p q) j = g (wbit p j) (wbit q j) := by
  unfold wbit
  by_cases c : j / 64 < p.length
  · have c2 : j / 64 < q.length := by omega
    have c3 : j / 64 < (List.zipWith f p q).length := by simp; omega
    simp only [List.getD_eq_getElem?_getD, List.getElem?_eq_getElem c, List.getElem?_eq_getElem c2,
      List.getElem?_eq_getElem c3, Option.getD_some, List.getElem_zipWith]
    exact hf _ _ _ (by omega)
  · have c2 : ¬ j / 64 < q.length := by omega
    have c3 : ¬ j / 64 < (List.zipWith f p q).length := by simp; omega
    simp only [List.getD_eq_getElem?_getD, List.getElem?_eq_none (Nat.le_of_not_lt c),
      List.getElem?_eq_none (Nat.le_of_not_lt c2),
      List.getElem?_eq_none (Nat.le_of_not_lt c3), Option.getD_none]
    simp [hg]

theorem combine_rep {m m2 : Mask} {n s s2} (h : Rep m n s) (h2 : Rep m2 n s2) (f : W → W → W)
    (g : Bool → Bool → Bool)
    (hf : ∀ a b : W, ∀ i, i < 64 → (f a b).getLsbD i = g (a.getLsbD i) (b.getLsbD i))
    (hg : g false false = false) :
    ∃ m', combine f m m2 = some m' ∧ Rep m' n (fun i => g (s i) (s2 i)) := by
  unfold combine
  have ho : ∀ i, n ≤ i → g (s i) (s2 i) = false := by
    intro i hi; rw [h.out i hi, h2.out i hi, hg]
  rw [h.size, h2.size, if_neg (by simp)]
  by_cases c : n > 64
  · have hl := h.len c
    have hl2 := h2.len c
    rw [if_pos c, if_neg (by omega)]
    refine ⟨_, rfl, rep_big c rfl (by simp only [List.length_zipWith]; omega) ?_ ho⟩
    intro i
    show wbit (List.zipWith f m.ptr m2.ptr) i = _
    rw [wbit_zipWith f _ _ (by omega) g hf hg, h.big c, h2.big c]
  · rw [if_neg c]
    refine ⟨_, rfl, rep_small c rfl ?_ ho⟩
    intro i hi
    show (f m.bits m2.bits).getLsbD i = _
    rw [hf _ _ _ hi, h.small c, h2.small c]

theorem eq_rep {m m2 : Mask} {n s s2} (h : Rep m n s) (h2 : Rep m2 n s2) :
    eq m m2 = some ((List.range n).all fun i => s i == s2 i) := by
  unfold eq
  rw [h.size, h2.size, if_neg (by simp)]
  by_cases c : n > 64
  · have hl := h.len c
    have hl2 := h2.len c
    rw [if_pos c]
    congr 1
    rw [Bool.eq_iff_iff, beq_iff_eq, List.all_eq_true]
    constructor
    · intro e i _
      rw [← h.big c, ← h2.big c, e]; simp
    · intro e
      apply List.ext_getElem (by omega)
      intro k hk1 hk2
      apply BitVec.eq_of_getLsbD_eq
      intro i hi
      have a := wbit_word m.ptr k i hi
      have b := wbit_word m2.ptr k i hi
      simp only [List.getD_eq_getElem?_getD, List.getElem?_eq_getElem hk1,
        List.getElem?_eq_getElem hk2, Option.getD_some] at a b
      rw [← a, ← b, h.big c, h2.big c]
      by_cases d : 64 * k + i < n
      · simpa using e _ (List.mem_range.mpr d)
      · rw [h.out _ (by omega), h2.out _ (by omega)]
  · rw [if_neg c]
    congr 1
    rw [Bool.eq_iff_iff, beq_iff_eq, List.all_eq_true]
    constructor
    · intro e i _
      rw [← h.small c, ← h2.small c, e]; simp
    · intro e
      apply BitVec.eq_of_getLsbD_eq
      intro i hi
      rw [h.small c, h2.small c]
      by_cases d : i < n
      · simpa using e _ (List.mem_range.mpr d)
      · rw [h.out _ (by omega), h2.out _ (by omega)]

/-- Least element of the set that is at least `b`. -/
def nextOf (s : Nat → Bool) (n b : Nat) : Option Nat :=
  (List.range n).find? fun i => decide (b ≤ i) && s i

theorem nextOf_some {s : Nat → Bool} {n b i : Nat} (hi : i < n) (hb : b ≤ i) (hs : s i = true)
    (hj : ∀ j, b ≤ j → j < i → s j = false) : nextOf s n b = some i := by
  apply findMin_some _ _ _ hi
  · simp [hb, hs]
  · intro j h
    by_cases c : b ≤ j
    · simp [hj j c h]
    · simp [c]

theorem nextOf_none {s : Nat → Bool} {n b : Nat}
    (hj : ∀ j, b ≤ j → j < n → s j = false) : nextOf s n b = none := by
  apply findMin_none
  intro j h
  by_cases c : b ≤ j
  · simp [hj j c h]
  · simp [c]

theorem nextOf_extend {s : Nat → Bool} {n n' b b' : Nat} (hn : n ≤ n')
    (ho : ∀ i, n ≤ i → s i = false) (hb : b ≤ b') (hz : ∀ i, b ≤ i → i < b' → s i = false) :
    nextOf s n' b' = nextOf s n b := by
  unfold nextOf
  cases hx : (List.range n).find? fun i => decide (b ≤ i) && s i with
  | none =>
    rw [List.find?_range_eq_none] at hx
    apply findMin_none
    intro j hj
    by_cases c : j < n
    · have := hx j c
      by_cases d : b ≤ j
      · have : s j = false := by simpa [d] using this
        simp [this]
      · have : ¬ b' ≤ j := by omega
        simp [this]
    · simp [ho j (by omega)]
  | some i =>
    rw [List.find?_range_eq_some] at hx
    obtain ⟨h1, h2, h3⟩ := hx
    rw [Bool.and_eq_true, decide_eq_true_eq] at h1
    have hi := List.mem_range.mp h2
    have hbi : b' ≤ i := by
      apply Classical.byContradiction
      intro hc
      rw [hz i h1.1 (by omega)] at h1; cases h1.2
    apply findMin_some _ _ _ (by omega)
    · simp [hbi, h1.2]
    · intro j hj
      have := h3 j hj
      by_cases d : b' ≤ j
      · have d' : b ≤ j := by omega
        have : s j = false := by simpa [d'] using this
        simp [this]
      · simp [d]

theorem iter_rep {m n s} (h : Rep m n s) (b : Nat) : iter m b = some (nextOf s n b) := by
  unfold iter
  rw [h.size]
  by_cases c0 : b ≥ n
  · rw [if_pos c0, nextOf_none (by omega)]
  · rw [if_neg c0]
    by_cases c : n > 64
    · have hl := h.len c
      have hw : wbit m.ptr = s := funext (h.big c)
      rw [if_pos c]
      simp only []
      have words : ∀ w, w ≤ (n + 63) / 64 → iterWords m.ptr w ((n + 63) / 64 - w) =
          some (nextOf s (64 * ((n + 63) / 64)) (64 * w)) := by
        intro w hw'
        have e : w + ((n + 63) / 64 - w) = (n + 63) / 64 := by omega
        rw [iterWords_spec _ _ _ (by omega), e, hw]; rfl
      by_cases d : b % 64 > 0
      · rw [if_pos d, load_eq _ _ (by omega)]
        obtain ⟨k, hk, hkb⟩ := maskForRange_spec 0 ((b - 1) % 64 : Nat) (by omega) (by omega)
        simp only [Option.bind_eq_bind, Option.bind_some, hk]
        have hbit : ∀ i, i < 64 → (m.ptr.getD (b / 64) 0#64 &&& ~~~k).getLsbD i =
            (s (64 * (b / 64) + i) && decide (b ≤ 64 * (b / 64) + i)) := by
          intro i hi
          rw [BitVec.getLsbD_and, BitVec.getLsbD_not, hkb i hi, ← wbit_word _ _ _ hi, hw]
          congr 1
          rw [Bool.eq_iff_iff]
          simp only [Bool.and_eq_true, decide_eq_true_eq, Bool.not_eq_true',
            decide_eq_false_iff_not]
          omega
        rcases ffs_cases (m.ptr.getD (b / 64) 0#64 &&& ~~~k) with ⟨i, a, b1, b2, b3⟩ | ⟨a, b1⟩
        · rw [a, if_pos (by omega)]
          rw [hbit i b1, Bool.and_eq_true, decide_eq_true_eq] at b2
          have hlt : 64 * (b / 64) + i < n := by
            apply Classical.byContradiction
            intro hx
            rw [h.out _ (by omega)] at b2; cases b2.1
          rw [nextOf_some hlt b2.2 b2.1]
          · congr 2; omega
          · intro j x y
            have := b3 (j - 64 * (b / 64)) (by omega)
            have e : 64 * (b / 64) + (j - 64 * (b / 64)) = j := by omega
            rw [hbit _ (by omega), e] at this
            simpa [x] using this
        · rw [a, if_neg (by omega), words _ (by omega)]
          congr 1
          apply nextOf_extend (by omega) h.out (by omega)
          intro j x y
          have := b1 (j - 64 * (b / 64)) (by omega)
          have e : 64 * (b / 64) + (j - 64 * (b / 64)) = j := by omega
          rw [hbit _ (by omega), e] at this
          simpa [x] using this
      · rw [if_neg d, words _ (by omega)]
        congr 1
        apply nextOf_extend (by omega) h.out (by omega)
        omega
    · rw [if_neg c]
      obtain ⟨k, hk, hkb⟩ := maskForRange_spec 0 ((b : Int) - 1) (by omega) (by omega)
      simp only [Option.bind_eq_bind, Option.bind_some, hk]
      have hbit : ∀ i, i < 64 → (m.bits &&& ~~~k).getLsbD i = (s i && decide (b ≤ i)) := by
        intro i hi
        rw [BitVec.getLsbD_and, BitVec.getLsbD_not, hkb i hi, h.small c]
        congr 1
        rw [Bool.eq_iff_iff]
        simp only [Bool.and_eq_true, decide_eq_true_eq, Bool.not_eq_true',
          decide_eq_false_iff_not]
        omega
      congr 1
      rcases ffs_cases (m.bits &&& ~~~k) with ⟨i, a, b1, b2, b3⟩ | ⟨a, b1⟩
      · rw [a, if_pos (by omega)]
        rw [hbit i b1, Bool.and_eq_true, decide_eq_true_eq] at b2
        have hlt : i < n := by
          apply Classical.byContradiction
          intro hx
          rw [h.out _ (by omega)] at b2; cases b2.1
        rw [nextOf_some hlt b2.2 b2.1]
        · rfl
        · intro j x y
          have := b3 j y
          rw [hbit _ (by omega)] at this
          simpa [x] using this
      · rw [a, if_neg (by omega), nextOf_none]
        intro j x y
        have := b1 j (by omega)
        rw [hbit _ (by omega)] at this
        simpa [x] using this

end Verif.Mask
