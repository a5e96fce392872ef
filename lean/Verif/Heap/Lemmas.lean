import Verif.Heap.Model

/-! Helper lemmas: heap order and permutation invariants. -/

namespace Verif.Heap

variable {α : Type}

theorem key_eq (l : List (Node α)) (i : Nat) (h : 1 ≤ i) (h2 : i ≤ l.length) :
    key l i = (l[i - 1]'(by omega)).key := by
  unfold key; rw [List.getElem?_eq_getElem (by omega)]

theorem exchange_eq (l : List (Node α)) (i j : Nat) (hi : 1 ≤ i) (hi2 : i ≤ l.length)
    (hj : 1 ≤ j) (hj2 : j ≤ l.length) :
    exchange l i j = (l.set (i - 1) (l[j - 1]'(by omega))).set (j - 1) (l[i - 1]'(by omega)) := by
  unfold exchange
  rw [List.getElem?_eq_getElem (by omega), List.getElem?_eq_getElem (by omega)]

theorem exchange_perm (l : List (Node α)) (i j : Nat) : (exchange l i j).Perm l := by
  unfold exchange
  split
  · rename_i a b ha hb
    obtain ⟨hi, rfl⟩ := List.getElem?_eq_some_iff.1 ha
    obtain ⟨hj, rfl⟩ := List.getElem?_eq_some_iff.1 hb
    have := Array.swap_perm (xs := l.toArray) (i := i - 1) (j := j - 1) (by simpa using hi)
      (by simpa using hj)
    rw [Array.perm_iff_toList_perm] at this
    simpa [Array.swap_def] using this
  · exact List.Perm.refl _

theorem exchange_key (l : List (Node α)) (i j : Nat) (hi : 1 ≤ i) (hi2 : i ≤ l.length)
    (hj : 1 ≤ j) (hj2 : j ≤ l.length) (m : Nat) (hm : 1 ≤ m) (hm2 : m ≤ l.length) :
    key (exchange l i j) m = if m = i then key l j else if m = j then key l i else key l m := by
  rw [key_eq (exchange l i j) m hm (by rw [exchange_length]; exact hm2), key_eq l i hi hi2,
    key_eq l j hj hj2, key_eq l m hm hm2]
  simp only [exchange_eq l i j hi hi2 hj hj2, List.getElem_set]
  by_cases h1 : m = j
  · subst h1
    rw [if_pos rfl]
    by_cases h2 : m = i
    · subst h2; simp
    · rw [if_neg h2, if_pos rfl]
  · rw [if_neg (by omega)]
    by_cases h2 : m = i
    · subst h2; simp
    · rw [if_neg (by omega), if_neg h2, if_neg h1]

/-- Heap order. -/
def Ordered (l : List (Node α)) : Prop :=
  ∀ j, 2 ≤ j → j ≤ l.length → key l (j / 2) ≤ key l j

/-- Heap order except between `i` and its children. -/
structure DownInv (l : List (Node α)) (i : Nat) : Prop where
  other : ∀ j, 2 ≤ j → j ≤ l.length → j / 2 ≠ i → key l (j / 2) ≤ key l j
  grand : ∀ j, 2 ≤ j → j ≤ l.length → j / 2 = i → 2 ≤ i → key l (i / 2) ≤ key l j

/-- Heap order except between `i` and its parent. -/
structure UpInv (l : List (Node α)) (i : Nat) : Prop where
  other : ∀ j, 2 ≤ j → j ≤ l.length → j ≠ i → key l (j / 2) ≤ key l j
  grand : ∀ j, 2 ≤ j → j ≤ l.length → j / 2 = i → 2 ≤ i → key l (i / 2) ≤ key l j

theorem smallest_spec (l : List (Node α)) (i : Nat) (hi : 1 ≤ i) (hi2 : i ≤ l.length) :
    let s := smallest l i
    (s = i ∨ (s / 2 = i ∧ 2 ≤ s ∧ s ≤ l.length ∧ key l s < key l i)) ∧
    (∀ j, 2 ≤ j → j ≤ l.length → j / 2 = i → key l s ≤ key l j) ∧ key l s ≤ key l i := by
  unfold smallest
  simp only [Nat.shiftLeft_eq, Nat.pow_one]
  have hch : ∀ j, j / 2 = i → j = i * 2 ∨ j = i * 2 + 1 := by intro j hj; omega
  by_cases h1 : i * 2 ≤ l.length ∧ key l (i * 2) < key l i
  · rw [if_pos h1]
    by_cases h2 : i * 2 + 1 ≤ l.length ∧ key l (i * 2 + 1) < key l (i * 2)
    · rw [if_pos h2]
      refine ⟨Or.inr ⟨by omega, by omega, by omega, by omega⟩, ?_, by omega⟩
      intro j _ hj3 hj
      rcases hch j hj with rfl | rfl <;> omega
    · rw [if_neg h2]
      refine ⟨Or.inr ⟨by omega, by omega, by omega, by omega⟩, ?_, by omega⟩
      intro j _ hj3 hj
      rcases hch j hj with rfl | rfl
      · omega
      · have : ¬ key l (i * 2 + 1) < key l (i * 2) := fun h => h2 ⟨hj3, h⟩
        omega
  · rw [if_neg h1]
    by_cases h2 : i * 2 + 1 ≤ l.length ∧ key l (i * 2 + 1) < key l i
    · rw [if_pos h2]
      refine ⟨Or.inr ⟨by omega, by omega, by omega, by omega⟩, ?_, by omega⟩
      intro j _ hj3 hj
      rcases hch j hj with rfl | rfl
      · have : ¬ key l (i * 2) < key l i := fun h => h1 ⟨hj3, h⟩
        omega
      · omega
    · rw [if_neg h2]
      refine ⟨Or.inl rfl, ?_, by omega⟩
      intro j _ hj3 hj
      rcases hch j hj with rfl | rfl
      · have : ¬ key l (i * 2) < key l i := fun h => h1 ⟨hj3, h⟩
        omega
      · have : ¬ key l (i * 2 + 1) < key l i := fun h => h2 ⟨hj3, h⟩
        omega

theorem minHeapify_spec (l : List (Node α)) (i : Nat) (hi : 1 ≤ i) (hi2 : i ≤ l.length)
    (h : DownInv l i) :
    Ordered (minHeapify l i) ∧ (minHeapify l i).Perm l := by
  induction hn : l.length - i using Nat.strongRecOn generalizing l i with
  | ind n ih =>
    obtain ⟨s1, s2, s3⟩ := smallest_spec l i hi hi2
    unfold minHeapify
    dsimp only
    generalize smallest l i = s at s1 s2 s3 ⊢
    split
    · rename_i hs
      subst hs
      refine ⟨?_, List.Perm.refl _⟩
      intro j hj hj2
      by_cases hji : j / 2 = s
      · rw [hji]; exact s2 j hj hj2 hji
      · exact h.other j hj hj2 hji
    · rename_i hs
      rcases s1 with s1 | ⟨s1, s4, s5, s6⟩
      · exact absurd s1 hs
      · rw [dif_pos (by omega)]
        have hk := exchange_key l i s hi hi2 (by omega) s5
        have hlen := exchange_length l i s
        have := ih _ (by omega) (exchange l i s) s (by omega) (by omega) ?_ rfl
        · exact ⟨this.1, this.2.trans (exchange_perm l i s)⟩
        · constructor
          · intro j hj hj2 hjs
            rw [hlen] at hj2
            rw [hk (j / 2) (by omega) (by omega), hk j (by omega) hj2]
            by_cases e1 : j / 2 = i
            · rw [if_pos e1, if_neg (by omega)]
              by_cases e2 : j = s
              · rw [if_pos e2]; omega
              · rw [if_neg e2]; exact s2 j hj hj2 e1
            · rw [if_neg e1, if_neg hjs]
              by_cases e2 : j = i
              · rw [if_pos e2]
                subst e2
                exact h.grand s s4 s5 s1 hj
              · rw [if_neg e2]
                by_cases e3 : j = s
                · omega
                · rw [if_neg e3]; exact h.other j hj hj2 e1
          · intro j hj hj2 hjs hs2
            rw [hlen] at hj2
            rw [s1, hk i hi hi2, hk j (by omega) hj2, if_pos rfl, if_neg (by omega),
              if_neg (by omega)]
            have := h.other j hj hj2 (by omega)
            rw [hjs] at this
            exact this

theorem siftUp_spec (l : List (Node α)) (i : Nat) (hi : 1 ≤ i) (hi2 : i ≤ l.length)
    (h : UpInv l i) : Ordered (siftUp l i) ∧ (siftUp l i).Perm l := by
  induction i using Nat.strongRecOn generalizing l with
  | ind i ih =>
    unfold siftUp
    rw [Nat.shiftRight_eq_div_pow, Nat.pow_one]
    split
    · rename_i hc
      have hk := exchange_key l i (i / 2) hi hi2 (by omega) (by omega)
      have hlen := exchange_length l i (i / 2)
      have := ih (i / 2) (by omega) (exchange l i (i / 2)) (by omega) (by omega) ?_
      · exact ⟨this.1, this.2.trans (exchange_perm _ _ _)⟩
      · constructor
        · intro j hj hj2 hji
          rw [hlen] at hj2
          rw [hk (j / 2) (by omega) (by omega), hk j (by omega) hj2, if_neg hji]
          by_cases e1 : j / 2 = i
          · rw [if_pos e1, if_neg (by omega)]
            exact h.grand j hj hj2 e1 (by omega)
          · rw [if_neg e1]
            by_cases e2 : j / 2 = i / 2
            · rw [if_pos e2]
              by_cases e3 : j = i
              · rw [if_pos e3]; omega
              · rw [if_neg e3]
                have := h.other j hj hj2 e3
                rw [e2] at this
                omega
            · rw [if_neg e2, if_neg (by omega)]
              exact h.other j hj hj2 (by omega)
        · intro j hj hj2 hji hp
          rw [hlen] at hj2
          rw [hk (i / 2 / 2) (by omega) (by omega), hk j (by omega) hj2, if_neg (by omega),
            if_neg (by omega)]
          have h1 := h.other (i / 2) hp (by omega) (by omega)
          by_cases e3 : j = i
          · rw [if_pos e3]; exact h1
          · rw [if_neg e3, if_neg (by omega)]
            have h2 := h.other j hj hj2 e3
            rw [hji] at h2
            omega
    · rename_i hc
      refine ⟨?_, List.Perm.refl _⟩
      intro j hj hj2
      by_cases e : j = i
      · subst e
        exact Nat.le_of_not_lt fun hh => hc ⟨by omega, hh⟩
      · exact h.other j hj hj2 e

theorem siftUp_length (l : List (Node α)) (i : Nat) : (siftUp l i).length = l.length := by
  induction i using Nat.strongRecOn generalizing l with
  | ind i ih =>
    unfold siftUp
    split
    · rename_i hc
      rw [ih _ (by rw [Nat.shiftRight_eq_div_pow]; omega), exchange_length]
    · rfl

theorem Ordered.root_le {l : List (Node α)} (h : Ordered l) (i : Nat) (hi : 1 ≤ i)
    (hi2 : i ≤ l.length) : key l 1 ≤ key l i := by
  induction i using Nat.strongRecOn with
  | ind i ih =>
    by_cases h1 : i = 1
    · subst h1; exact Nat.le_refl _
    · exact Nat.le_trans (ih (i / 2) (by omega) (by omega) (by omega)) (h i (by omega) hi2)

/-! ### Removing the last element after moving it to position `i` -/

theorem replace_key (l : List (Node α)) (i : Nat) (hi : 1 ≤ i) (hi2 : i < l.length)
    (m : Nat) (hm : 1 ≤ m) (hm2 : m < l.length) :
    key ((l.set (i - 1) (l[l.length - 1]'(by omega))).dropLast) m =
      if m = i then key l l.length else key l m := by
  rw [key_eq _ m hm (by simp; omega), key_eq l l.length (by omega) (Nat.le_refl _),
    key_eq l m hm (by omega)]
  simp only [List.getElem_dropLast, List.getElem_set]
  by_cases h : m = i
  · subst h; simp
  · rw [if_neg (by omega), if_neg h]

theorem replace_perm (l : List (Node α)) (i : Nat) (hi : i < l.length) :
    (l[i] :: ((l.set i (l[l.length - 1]'(by omega))).dropLast)).Perm l := by
  by_cases he : i = l.length - 1
  · subst he
    have hne : l ≠ [] := by intro hc; simp [hc] at hi
    have h1 : (l.set (l.length - 1) l[l.length - 1]) = l := List.set_getElem_self hi
    rw [h1]
    have h2 := List.dropLast_concat_getLast hne
    rw [List.getLast_eq_getElem] at h2
    calc (l[l.length - 1] :: l.dropLast).Perm (l.dropLast ++ [l[l.length - 1]]) :=
          (List.perm_append_singleton _ _).symm
      _ = l := h2
  · have hne : l ≠ [] := by intro hc; simp [hc] at hi
    have hx : exchange l (i + 1) l.length =
        ((l.set i (l[l.length - 1]'(by omega))).dropLast) ++ [l[i]] := by
      rw [exchange_eq l (i + 1) l.length (by omega) (by omega) (by omega) (Nat.le_refl _)]
      apply List.ext_getElem
      · simp; omega
      · intro n h1 h2
        simp only [List.getElem_set, List.getElem_append, List.length_dropLast, List.length_set,
          List.getElem_dropLast]
        by_cases hn : n < l.length - 1
        · rw [dif_pos hn, if_neg (by omega)]
          simp
        · rw [dif_neg hn, if_pos (by simp at h1; omega)]
          simp
    have := exchange_perm l (i + 1) l.length
    rw [hx] at this
    exact (List.perm_append_singleton _ _).symm.trans this

end Verif.Heap
