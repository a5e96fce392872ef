import Verif.Handle.Model

/-!
# Handles: lemmas about the table
-/

namespace Verif.Handle

variable {c : Cfg}

/-- The slot, or a new one if the table is too small. -/
def slotAt (t : Tab) (i : Nat) : Slot := t.slots[i]?.getD {}

theorem lim_pos : 0 < c.lim := Nat.pow_pos (by omega)

theorem decodeSlot_eq (t : Tab) (h : Nat) : decodeSlot c t h =
    if h ≠ 0 ∧ (slotAt t (h % c.lim)).obj ≠ none ∧ (slotAt t (h % c.lim)).gen = h / c.lim then
      some (h % c.lim, slotAt t (h % c.lim)) else none := by
  unfold decodeSlot slotAt
  split
  · rename_i h0; simp [h0]
  · rename_i h0
    cases hs : t.slots[h % c.lim]? with
    | none => simp
    | some s =>
      simp only [Option.getD_some]
      by_cases h1 : s.obj = none
      · simp [h1]
      · by_cases h2 : s.gen = h / c.lim
        · simp [h1, h2, h0]
        · simp [h1, h2]

theorem decodeSlot_some {t : Tab} {h i s} (e : decodeSlot c t h = some (i, s)) :
    h ≠ 0 ∧ i = h % c.lim ∧ s = slotAt t i ∧ s.obj ≠ none ∧ s.gen = h / c.lim := by
  rw [decodeSlot_eq] at e
  split at e
  · rename_i h'
    simp at e
    obtain ⟨rfl, rfl⟩ := e
    exact ⟨h'.1, rfl, rfl, h'.2.1, h'.2.2⟩
  · simp at e

theorem decode_eq (t : Tab) (h : Nat) : decode c t h =
    if h ≠ 0 ∧ (slotAt t (h % c.lim)).gen = h / c.lim then (slotAt t (h % c.lim)).obj else none := by
  unfold decode
  rw [decodeSlot_eq]
  by_cases h0 : h = 0
  · simp [h0]
  · by_cases h1 : (slotAt t (h % c.lim)).obj = none
    · simp [h1]
    · by_cases h2 : (slotAt t (h % c.lim)).gen = h / c.lim <;> simp [h0, h1, h2]

theorem slot_lt {t : Tab} {i} (h : (slotAt t i).obj ≠ none) : i < t.slots.length := by
  unfold slotAt at h
  cases hs : t.slots[i]? with
  | none => simp [hs] at h
  | some s => exact (List.getElem?_eq_some_iff.1 hs).1

theorem set_slotAt (t : Tab) (hint i : Nat) (s : Slot) (hi : i < t.slots.length) (j : Nat) :
    slotAt { slots := t.slots.set i s, hint := hint } j = if j = i then s else slotAt t j := by
  unfold slotAt
  simp only [List.getElem?_set]
  by_cases h : i = j
  · subst h; simp [hi]
  · simp [h, Ne.symm h]

theorem release_slotAt (t : Tab) (i : Nat) (s : Slot) (hi : i < t.slots.length) (j : Nat) :
    slotAt (release c t i s) j =
      if j = i then { obj := none, ref := 0, gen := (s.gen + 1) % c.lim } else slotAt t j :=
  set_slotAt t i i _ hi j

theorem findFree_spec (l : List Slot) (n : Nat) : n ≤ findFree c l n ∧
    findFree c l n ≤ n + l.length ∧
    ∀ s, l[findFree c l n - n]? = some s → s.obj = none := by
  induction l generalizing n with
  | nil => simp [findFree]
  | cons a l ih =>
    unfold findFree
    split
    · rename_i h
      refine ⟨Nat.le_refl _, by omega, ?_⟩
      intro s hs
      simp at hs; subst hs; exact h.1
    · obtain ⟨h1, h2, h3⟩ := ih (n + 1)
      refine ⟨by omega, by simp; omega, ?_⟩
      intro s hs
      have : findFree c l (n + 1) - n = (findFree c l (n + 1) - (n + 1)) + 1 := by omega
      rw [this] at hs
      simp at hs
      exact h3 s hs

theorem pick_spec (t : Tab) : pick c t ≤ t.slots.length ∧ (slotAt t (pick c t)).obj = none := by
  have key : findFree c t.slots 0 ≤ t.slots.length ∧
      (slotAt t (findFree c t.slots 0)).obj = none := by
    obtain ⟨_, h2, h3⟩ := findFree_spec (c := c) t.slots 0
    refine ⟨by omega, ?_⟩
    unfold slotAt
    cases hs : t.slots[findFree c t.slots 0]? with
    | none => rfl
    | some s => exact h3 s (by simpa using hs)
  unfold pick
  split
  · rename_i s hs
    split
    · rename_i ho
      refine ⟨Nat.le_of_lt (List.getElem?_eq_some_iff.1 hs).1, ?_⟩
      unfold slotAt
      rw [hs]; exact ho
    · exact key
  · exact key

theorem alloc_spec {t : Tab} {o h t'} (e : alloc c t o = some (h, t')) :
    ∃ i, i < c.lim ∧ (slotAt t i).obj = none ∧ h = (slotAt t i).gen * c.lim + i ∧
      t'.hint = i + 1 ∧ i = pick c t ∧
      ∀ j, slotAt t' j =
        if j = i then { slotAt t i with obj := some o, ref := 1 } else slotAt t j := by
  unfold alloc at e
  dsimp only at e
  split at e
  · simp at e
  · rename_i hlim
    have hl := lim_pos (c := c)
    obtain ⟨h1, h2⟩ := pick_spec (c := c) t
    generalize hp : pick c t = i at e h1 h2 hlim
    generalize hsl : (if i = t.slots.length then
        t.slots ++ List.replicate (max (t.slots.length * 2) c.first - t.slots.length) ({} : Slot)
      else t.slots) = slots at e
    have hview : ∀ j, slots[j]?.getD {} = slotAt t j := by
      intro j
      subst hsl
      unfold slotAt
      split
      · rw [List.getElem?_append]
        split
        · rfl
        · rename_i hj
          rw [List.getElem?_eq_none (by omega : t.slots.length ≤ j)]
          simp only [List.getElem?_replicate]
          split <;> rfl
      · rfl
    split at e
    · simp at e
    · rename_i s hs
      simp at e
      obtain ⟨rfl, rfl⟩ := e
      have hse : s = slotAt t i := by rw [← hview i, hs]; rfl
      refine ⟨i, by omega, h2, by rw [hse], rfl, rfl, ?_⟩
      intro j
      have hi : i < slots.length := (List.getElem?_eq_some_iff.1 hs).1
      rw [set_slotAt { slots := slots, hint := t.hint } (i + 1) i _ hi j]
      split
      · rw [hse]
      · exact hview j

/-- The table is not too small for the slot that is used. -/
theorem alloc_some (t : Tab) (o : Nat) (h : pick c t < c.lim) :
    ∃ h' t', alloc c t o = some (h', t') := by
  unfold alloc
  dsimp only
  rw [if_neg (by omega)]
  obtain ⟨h1, _⟩ := pick_spec (c := c) t
  have := c.pos
  split
  · rename_i hn
    exfalso
    rw [List.getElem?_eq_none_iff] at hn
    split at hn
    · simp only [List.length_append, List.length_replicate] at hn
      omega
    · omega
  · exact ⟨_, _, rfl⟩

theorem handle_split {g i : Nat} (hi : i < c.lim) : (g * c.lim + i) % c.lim = i ∧
    (g * c.lim + i) / c.lim = g := by
  have := lim_pos (c := c)
  constructor
  · rw [Nat.add_comm, Nat.add_mul_mod_self_right, Nat.mod_eq_of_lt hi]
  · rw [Nat.add_comm, Nat.add_mul_div_right _ _ this, Nat.div_eq_of_lt hi, Nat.zero_add]

theorem handle_join (h : Nat) : h / c.lim * c.lim + h % c.lim = h := by
  rw [Nat.mul_comm]; exact Nat.div_add_mod h c.lim

theorem handle_eq {g i h : Nat} (h1 : h % c.lim = i) (h2 : h / c.lim = g) :
    h = g * c.lim + i := by
  rw [← h1, ← h2]; exact (handle_join h).symm

end Verif.Handle
