import Verif.Mask.Lemmas

namespace Verif.Mask

/-- Greatest `i < n` satisfying `p`. -/
def scanMax (p : Nat → Bool) (n : Nat) : Option Nat := (List.range n).reverse.find? p

theorem scanMax_succ (p : Nat → Bool) (n : Nat) :
    scanMax p (n + 1) = if p n then some n else scanMax p n := by
  unfold scanMax
  rw [List.range_succ, List.reverse_append]
  simp only [List.reverse_cons, List.reverse_nil, List.nil_append, List.cons_append,
    List.find?_cons]
  cases p n <;> simp

theorem scanMax_some (p : Nat → Bool) (n i : Nat) (hi : i < n) (hp : p i = true)
    (hj : ∀ j, i < j → j < n → p j = false) : scanMax p n = some i := by
  induction n with
  | zero => omega
  | succ n ih =>
    rw [scanMax_succ]
    by_cases c : i = n
    · subst c; simp [hp]
    · rw [hj n (by omega) (by omega)]
      simp only [Bool.false_eq_true, if_false]
      exact ih (by omega) (fun j h1 h2 => hj j h1 (by omega))

theorem scanMax_none (p : Nat → Bool) (n : Nat) (hj : ∀ j, j < n → p j = false) :
    scanMax p n = none := by
  induction n with
  | zero => rfl
  | succ n ih =>
    rw [scanMax_succ, hj n (by omega)]
    simp only [Bool.false_eq_true, if_false]
    exact ih (fun j h => hj j (by omega))

theorem scanMax_cases (p : Nat → Bool) (n : Nat) :
    (∃ i, scanMax p n = some i ∧ i < n ∧ p i = true ∧ ∀ j, i < j → j < n → p j = false) ∨
    (scanMax p n = none ∧ ∀ j, j < n → p j = false) := by
  induction n with
  | zero => right; exact ⟨rfl, by omega⟩
  | succ n ih =>
    rw [scanMax_succ]
    cases hp : p n
    · rcases ih with ⟨i, h1, h2, h3, h4⟩ | ⟨h1, h2⟩
      · left; refine ⟨i, by simpa using h1, by omega, h3, ?_⟩
        intro j a b
        by_cases c : j = n
        · subst c; exact hp
        · exact h4 j a (by omega)
      · right; refine ⟨by simpa using h1, ?_⟩
        intro j a
        by_cases c : j = n
        · subst c; exact hp
        · exact h2 j (by omega)
    · left; exact ⟨n, by simp, by omega, hp, by omega⟩

theorem findMin_some (p : Nat → Bool) (n i : Nat) (hi : i < n) (hp : p i = true)
    (hj : ∀ j, j < i → p j = false) : (List.range n).find? p = some i := by
  rw [List.find?_range_eq_some]
  refine ⟨hp, List.mem_range.mpr hi, ?_⟩
  intro j h; simp [hj j h]

theorem findMin_none (p : Nat → Bool) (n : Nat) (hj : ∀ j, j < n → p j = false) :
    (List.range n).find? p = none := by
  rw [List.find?_range_eq_none]
  intro j h; simp [hj j h]

theorem highBit_cases (w : W) (h : w ≠ 0#64) :
    ∃ i, highBit w = some i ∧ i < 64 ∧ w.getLsbD i = true ∧
      ∀ j, i < j → j < 64 → w.getLsbD j = false := by
  rcases scanMax_cases (fun i => w.getLsbD i) 64 with ⟨i, a, b⟩ | ⟨_, b⟩
  · exact ⟨i, a, b⟩
  · obtain ⟨i, hi, hb⟩ := (word_ne_zero w).1 h
    simp only [b i hi, Bool.false_eq_true] at hb

theorem ffs_cases (w : W) :
    (∃ i, ffs w = i + 1 ∧ i < 64 ∧ w.getLsbD i = true ∧ ∀ j, j < i → w.getLsbD j = false) ∨
    (ffs w = 0 ∧ ∀ j, j < 64 → w.getLsbD j = false) := by
  unfold ffs
  cases h : (List.range 64).find? fun i => w.getLsbD i with
  | none =>
    right
    rw [List.find?_range_eq_none] at h
    refine ⟨rfl, fun j hj => ?_⟩
    simpa using h j hj
  | some i =>
    left
    rw [List.find?_range_eq_some] at h
    refine ⟨i, rfl, List.mem_range.mp h.2.1, h.1, fun j hj => ?_⟩
    simpa using h.2.2 j hj

theorem wbit_word (ptr : List W) (k h : Nat) (hh : h < 64) :
    wbit ptr (64 * k + h) = (ptr.getD k 0#64).getLsbD h := by
  unfold wbit
  have e1 : (64 * k + h) / 64 = k := by omega
  have e2 : (64 * k + h) % 64 = h := by omega
  rw [e1, e2]

theorem wbit_of_word (ptr : List W) (j : Nat) :
    wbit ptr j = (ptr.getD (j / 64) 0#64).getLsbD (j % 64) := rfl

theorem word_zero_wbit (ptr : List W) (k : Nat) (h : ptr.getD k 0#64 = 0#64) (j : Nat)
    (hj : j / 64 = k) : wbit ptr j = false := by
  rw [wbit_of_word, hj, h]; simp

theorem scanWords_spec (ptr : List W) (k : Nat) (hk : k ≤ ptr.length) :
    scanWords ptr k = some (match scanMax (wbit ptr) (64 * k) with
      | some i => (i : Int) | none => -1) := by
  induction k with
  | zero => rfl
  | succ k ih =>
    unfold scanWords
    rw [load_eq _ _ (by omega)]
    simp only [Option.bind_eq_bind, Option.bind_some]
    by_cases c : ptr.getD k 0#64 = 0#64
    · rw [if_pos c, ih (by omega)]
      have : scanMax (wbit ptr) (64 * (k + 1)) = scanMax (wbit ptr) (64 * k) := by
        rcases scanMax_cases (wbit ptr) (64 * k) with ⟨i, a, b1, b2, b3⟩ | ⟨a, b⟩
        · rw [a]
          apply scanMax_some _ _ _ (by omega) b2
          intro j h1 h2
          by_cases d : j < 64 * k
          · exact b3 j h1 d
          · exact word_zero_wbit ptr k c j (by omega)
        · rw [a]
          apply scanMax_none
          intro j h2
          by_cases d : j < 64 * k
          · exact b j d
          · exact word_zero_wbit ptr k c j (by omega)
      rw [this]
    · rw [if_neg c]
      obtain ⟨i, a, b1, b2, b3⟩ := highBit_cases _ c
      rw [a]
      have : scanMax (wbit ptr) (64 * (k + 1)) = some (64 * k + i) := by
        apply scanMax_some _ _ _ (by omega)
        · rw [wbit_word _ _ _ b1]; exact b2
        · intro j h1 h2
          have : j = 64 * k + (j - 64 * k) := by omega
          rw [this, wbit_word _ _ _ (by omega)]
          exact b3 _ (by omega) (by omega)
      rw [this]; rfl

theorem iterWords_spec (ptr : List W) (word n : Nat) (h : word + n ≤ ptr.length) :
    iterWords ptr word n =
      some ((List.range (64 * (word + n))).find? fun i => decide (64 * word ≤ i) && wbit ptr i) := by
  induction n generalizing word with
  | zero =>
    unfold iterWords
    rw [findMin_none]
    intro j hj
    have : ¬ (64 * word ≤ j) := by omega
    simp [this]
  | succ n ih =>
    unfold iterWords
    rw [load_eq _ _ (by omega)]
    simp only [Option.bind_eq_bind, Option.bind_some]
    rcases ffs_cases (ptr.getD word 0#64) with ⟨i, a, b1, b2, b3⟩ | ⟨a, b⟩
    · rw [a]
      simp only [Nat.zero_lt_succ, gt_iff_lt, if_true]
      rw [findMin_some _ _ (64 * word + i) (by omega)]
      · congr 2; omega
      · rw [wbit_word _ _ _ b1, b2]; simp
      · intro j hj
        by_cases d : 64 * word ≤ j
        · have : j = 64 * word + (j - 64 * word) := by omega
          rw [this, wbit_word _ _ _ (by omega), b3 _ (by omega)]; simp
        · simp [d]
    · rw [a]
      simp only [gt_iff_lt, Nat.lt_irrefl, if_false]
      rw [ih (word + 1) (by omega)]
      have e : 64 * (word + 1 + n) = 64 * (word + (n + 1)) := by omega
      rw [e]
      congr 2
      funext i
      by_cases d : i / 64 = word
      · have : wbit ptr i = false := by rw [wbit_of_word, d, b _ (by omega)]
        simp [this]
      · rw [Bool.eq_iff_iff]; simp only [Bool.and_eq_true, decide_eq_true_eq]
        constructor <;> intro ⟨x, y⟩ <;> exact ⟨by omega, y⟩

theorem wbit_cons (w : W) (ptr : List W) (j : Nat) :
    wbit (w :: ptr) (64 + j) = wbit ptr j := by
  unfold wbit
  have e1 : (64 + j) / 64 = j / 64 + 1 := by omega
  have e2 : (64 + j) % 64 = j % 64 := by omega
  rw [e1, e2]; simp

theorem popcount_words (ptr : List W) :
    (ptr.map popcountW).sum = (List.range (64 * ptr.length)).countP (wbit ptr) := by
  induction ptr with
  | nil => rfl
  | cons w ptr ih =>
    rw [List.map_cons, List.sum_cons, ih]
    have e : 64 * (w :: ptr).length = 64 + 64 * ptr.length := by simp; omega
    rw [e, List.range_add, List.countP_append, List.countP_map]
    have e1 : popcountW w = (List.range 64).countP (wbit (w :: ptr)) := by
      unfold popcountW
      apply List.countP_congr
      intro i hi
      have hi' : i < 64 := List.mem_range.mp hi
      unfold wbit
      have e1 : i / 64 = 0 := by omega
      have e2 : i % 64 = i := by omega
      rw [e1, e2]; simp
    have e2 : wbit (w :: ptr) ∘ (fun x => 64 + x) = wbit ptr := by
      funext i; simp only [Function.comp, wbit_cons]
    rw [e1, e2]

theorem countP_range_extend (p : Nat → Bool) (n d : Nat) (h : ∀ i, n ≤ i → p i = false) :
    (List.range (n + d)).countP p = (List.range n).countP p := by
  rw [List.range_add, List.countP_append, List.countP_map]
  have : (List.range d).countP (p ∘ (fun x => n + x)) = 0 := by
    rw [List.countP_eq_zero]
    intro i _
    simp [h (n + i) (by omega)]
  omega

/-- Length of the run of clear elements from `b`, with an explicit characterisation. -/
theorem takeWhile_run (s : Nat → Bool) (n b r : Nat) (hb : b + r ≤ n)
    (h1 : ∀ i, b ≤ i → i < b + r → s i = false) (h2 : b + r < n → s (b + r) = true) :
    (((List.range n).drop b).takeWhile fun i => !s i).length = r := by
  have e : (List.range n).drop b = (List.range' b r) ++ (List.range' (b + r) (n - b - r)) := by
    rw [List.range_eq_range', List.drop_range', List.range'_append_1]
    congr 1 <;> omega
  rw [e, List.takeWhile_append_of_pos]
  · rw [List.length_append, List.length_range']
    have : (List.takeWhile (fun i => !s i) (List.range' (b + r) (n - b - r))) = [] := by
      cases hx : n - b - r with
      | zero => simp
      | succ m =>
        rw [List.range'_succ, List.takeWhile_cons, h2 (by omega)]; simp
    rw [this]; simp
  · intro i hi
    rw [List.mem_range'_1] at hi
    simp [h1 i hi.1 hi.2]

theorem countWords_spec (size : Nat) (ptr : List W) (bit count : Nat)
    (h0 : bit % 64 = 0) (hl : size ≤ 64 * ptr.length) (hb : bit < size) :
    ∃ b c, countWords size ptr bit count = some (b, c) ∧ b % 64 = 0 ∧ bit ≤ b ∧ b < size ∧
      c = count + (b - bit) ∧ (∀ i, bit ≤ i → i < b → wbit ptr i = false) ∧
      (b + 64 < size → ptr.getD (b / 64) 0#64 ≠ 0#64) := by
  fun_induction countWords size ptr bit count with
  | case1 bit count h hld => rw [load_eq _ _ (by omega)] at hld; cases hld
  | case2 bit count h hld ih =>
    rw [load_eq _ _ (by omega)] at hld
    simp only [Option.some.injEq] at hld
    obtain ⟨b, c, h1, h2, h3, h4, h5, h6, h7⟩ := ih (by omega) (by omega)
    refine ⟨b, c, h1, h2, by omega, h4, by omega, ?_, h7⟩
    intro i hi1 hi2
    by_cases d : i < bit + 64
    · exact word_zero_wbit ptr (bit / 64) hld i (by omega)
    · exact h6 i (by omega) hi2
  | case3 bit count h w hld hw =>
    rw [load_eq _ _ (by omega)] at hld
    simp only [Option.some.injEq] at hld
    exact ⟨bit, count, rfl, h0, by omega, by omega, by omega, by omega, fun _ => hld ▸ hw⟩
  | case4 bit count h =>
    exact ⟨bit, count, rfl, h0, by omega, by omega, by omega, by omega, by omega⟩

end Verif.Mask
