import Verif.Heap.Lemmas

/-!
# C09, C10: the event heap is a priority queue

Specification: a bag of (key, value) pairs, given as a list up to permutation, with a
nondeterministic step relation (`SpecStep`).  Nothing of heap order appears in it.
-/

namespace Verif.Heap

variable {α : Type}

/-- Operations of the heap interface. -/
inductive Op (α : Type) where
  | insert (k : Nat) (u : α)
  | extract
  | min
  | minKey
  | delete (fn : Nat → α → Bool)

/-- Observable results. -/
inductive Out (α : Type) where
  | unit
  | user (u : α)
  | key (k : Nat)
  | bool (b : Bool)

/-- What a priority queue may do: `SpecStep bag op out bag'`. -/
inductive SpecStep : List (Node α) → Op α → Out α → List (Node α) → Prop where
  | insert {bag bag' k u} : bag'.Perm (⟨k, u⟩ :: bag) → SpecStep bag (.insert k u) .unit bag'
  | extract {bag bag' k u} : bag.Perm (⟨k, u⟩ :: bag') → (∀ m ∈ bag, k ≤ m.key) →
      SpecStep bag .extract (.user u) bag'
  | min {bag k u} : ⟨k, u⟩ ∈ bag → (∀ m ∈ bag, k ≤ m.key) → SpecStep bag .min (.user u) bag
  | minKey {bag k u} : ⟨k, u⟩ ∈ bag → (∀ m ∈ bag, k ≤ m.key) → SpecStep bag .minKey (.key k) bag
  | deleteHit {bag bag' n fn} : bag.Perm (n :: bag') → fn n.key n.user = true →
      SpecStep bag (.delete fn) (.bool true) bag'
  | deleteMiss {bag fn} : (∀ n ∈ bag, fn n.key n.user = false) →
      SpecStep bag (.delete fn) (.bool false) bag

/-- One operation of the model; `none` is a failed assertion or an out-of-bounds write. -/
def step (h : Heap α) : Op α → Option (Out α × Heap α)
  | .insert k u => (insert h k u).map fun h' => (.unit, h')
  | .extract => (extractMin h).map fun r => (.user r.1, r.2)
  | .min => (min h).map fun u => (.user u, h)
  | .minKey => (minKey h).map fun k => (.key k, h)
  | .delete fn => let r := delete h fn; some (.bool r.1, r.2)

/-- Invariant of reachable heaps. -/
structure Inv (h : Heap α) : Prop where
  ord : Ordered h.nodes
  cap_pos : 0 < h.cap
  cap_le : h.nodes.length ≤ h.cap

theorem new_inv (n : Nat) (hn : 0 < n) : Inv (new n : Heap α) :=
  ⟨fun j h1 h2 => by simp [new] at h2; omega, hn, by simp [new]⟩

theorem append_key (l : List (Node α)) (x : Node α) (m : Nat) (hm : 1 ≤ m) (hm2 : m ≤ l.length) :
    key (l ++ [x]) m = key l m := by
  unfold key; rw [List.getElem?_append_left (by omega)]

theorem insert_spec (h : Heap α) (hi : Inv h) (k : Nat) (u : α) :
    ∃ h', insert h k u = some h' ∧ Inv h' ∧ h'.nodes.Perm (⟨k, u⟩ :: h.nodes) := by
  obtain ⟨ho, hc, hl⟩ := hi
  have hcap : h.nodes.length < if h.nodes.length = h.cap then h.cap * 2 else h.cap := by
    split <;> omega
  have hup : UpInv (h.nodes ++ [⟨k, u⟩]) (h.nodes.length + 1) := by
    constructor
    · intro j hj hj2 hji
      rw [List.length_append, List.length_singleton] at hj2
      rw [append_key _ _ _ (by omega) (by omega), append_key _ _ _ (by omega) (by omega)]
      exact ho j hj (by omega)
    · intro j hj hj2 hji _
      rw [List.length_append, List.length_singleton] at hj2
      omega
  obtain ⟨s1, s2⟩ := siftUp_spec _ (h.nodes.length + 1) (by omega) (by simp) hup
  refine ⟨_, by unfold insert; rw [if_pos hcap], ⟨s1, by dsimp only; split <;> omega, ?_⟩, ?_⟩
  · dsimp only
    rw [siftUp_length, List.length_append, List.length_singleton]
    exact hcap
  · exact s2.trans (List.perm_append_singleton _ _)

theorem mem_root_le {l : List (Node α)} (ho : Ordered l) (m : Node α) (hm : m ∈ l)
    (h0 : 0 < l.length) : l[0].key ≤ m.key := by
  obtain ⟨i, hi, rfl⟩ := List.getElem_of_mem hm
  have := ho.root_le (i + 1) (by omega) (by omega)
  rw [key_eq l 1 (by omega) (by omega), key_eq l (i + 1) (by omega) (by omega)] at this
  simpa using this

theorem replace_down (l : List (Node α)) (ho : Ordered l) (i : Nat) (hi : 1 ≤ i)
    (hi2 : i < l.length) :
    (∀ j, 2 ≤ j → j < l.length → j ≠ i → j / 2 ≠ i →
      key ((l.set (i - 1) (l[l.length - 1]'(by omega))).dropLast) (j / 2) ≤
      key ((l.set (i - 1) (l[l.length - 1]'(by omega))).dropLast) j) ∧
    (∀ j, 2 ≤ j → j < l.length → j / 2 = i → 2 ≤ i →
      key ((l.set (i - 1) (l[l.length - 1]'(by omega))).dropLast) (i / 2) ≤
      key ((l.set (i - 1) (l[l.length - 1]'(by omega))).dropLast) j) := by
  have hk := replace_key l i hi hi2
  refine ⟨?_, ?_⟩
  · intro j hj hj2 h1 h2
    rw [hk (j / 2) (by omega) (by omega), hk j (by omega) hj2, if_neg h2, if_neg h1]
    exact ho j hj (by omega)
  · intro j hj hj2 h1 h2
    rw [hk (i / 2) (by omega) (by omega), hk j (by omega) hj2, if_neg (by omega),
      if_neg (by omega)]
    have a := ho i h2 (by omega)
    have b := ho j hj (by omega)
    rw [h1] at b
    omega

theorem extractMin_spec (h : Heap α) (hi : Inv h) (hne : h.nodes ≠ []) :
    ∃ k u h', extractMin h = some (u, h') ∧ Inv h' ∧ h.nodes.Perm (⟨k, u⟩ :: h'.nodes) ∧
      (∀ m ∈ h.nodes, k ≤ m.key) ∧ min h = some u ∧ minKey h = some k := by
  obtain ⟨ho, hc, hl⟩ := hi
  have hlen : 0 < h.nodes.length := List.length_pos_iff.2 hne
  have hroot := fun m hm => mem_root_le ho m hm hlen
  have hperm := replace_perm h.nodes 0 hlen
  have hlen2 : ((h.nodes.set 0 (h.nodes[h.nodes.length - 1]'(by omega))).dropLast).length =
    h.nodes.length - 1 := by simp
  have hh : Ordered (minHeapify ((h.nodes.set 0 (h.nodes[h.nodes.length - 1]'(by omega))).dropLast) 1)
      ∧ (minHeapify ((h.nodes.set 0 (h.nodes[h.nodes.length - 1]'(by omega))).dropLast) 1).Perm
        ((h.nodes.set 0 (h.nodes[h.nodes.length - 1]'(by omega))).dropLast) := by
    by_cases h1 : h.nodes.length = 1
    · have he : (h.nodes.set 0 (h.nodes[h.nodes.length - 1]'(by omega))).dropLast = [] :=
        List.eq_nil_of_length_eq_zero (by omega)
      rw [he]
      have hm : minHeapify ([] : List (Node α)) 1 = [] := by
        unfold minHeapify
        simp [smallest]
      rw [hm]
      exact ⟨fun j h1 h2 => by simp at h2; omega, List.Perm.refl _⟩
    · obtain ⟨d1, d2⟩ := replace_down h.nodes ho 1 (by omega) (by omega)
      refine minHeapify_spec _ 1 (Nat.le_refl _) (by omega) ⟨?_, ?_⟩
      · intro j hj hj2 hji
        exact d1 j hj (by omega) (by omega) hji
      · intro j hj hj2 hji h2; omega
  refine ⟨h.nodes[0].key, h.nodes[0].user, { h with nodes := minHeapify ((h.nodes.set 0
      (h.nodes[h.nodes.length - 1]'(by omega))).dropLast) 1 }, ?_, ⟨hh.1, hc, ?_⟩, ?_, hroot, ?_, ?_⟩
  · unfold extractMin
    rw [List.getElem?_eq_getElem (by omega), List.getElem?_eq_getElem (by omega)]
  · dsimp only
    rw [hh.2.length_eq]; omega
  · exact hperm.symm.trans (hh.2.symm.cons _)
  · unfold min; rw [List.getElem?_eq_getElem hlen]; rfl
  · unfold minKey; rw [List.getElem?_eq_getElem hlen]; rfl

theorem Ordered.dropLast {l : List (Node α)} (ho : Ordered l) : Ordered l.dropLast := by
  intro j hj hj2
  rw [List.length_dropLast] at hj2
  have := ho j hj (by omega)
  rw [key_eq _ _ (by omega) (by omega), key_eq _ _ (by omega) (by omega)] at this
  rw [key_eq _ _ (by omega) (by simp; omega), key_eq _ _ (by omega) (by simp; omega)]
  simpa using this

theorem deleteAt_spec (l : List (Node α)) (ho : Ordered l) (i : Nat) (hi : i < l.length) :
    Ordered (deleteAt l (i + 1)) ∧ l.Perm (l[i] :: deleteAt l (i + 1)) := by
  unfold deleteAt
  by_cases he : i + 1 = l.length
  · rw [if_pos he]
    refine ⟨ho.dropLast, ?_⟩
    have := replace_perm l i hi
    have h1 : l.set i (l[l.length - 1]'(by omega)) = l := by
      have : l.length - 1 = i := by omega
      simp only [this]
      exact List.set_getElem_self hi
    rw [h1] at this
    exact this.symm
  · rw [if_neg he, List.getElem?_eq_getElem (by omega)]
    dsimp only
    rw [Nat.add_sub_cancel]
    have hperm := replace_perm l i hi
    obtain ⟨d1, d2⟩ := replace_down l ho (i + 1) (by omega) (by omega)
    rw [Nat.add_sub_cancel] at d1 d2
    have hlen : ((l.set i (l[l.length - 1]'(by omega))).dropLast).length = l.length - 1 := by simp
    generalize (l.set i (l[l.length - 1]'(by omega))).dropLast = r at *
    have hsift : DownInv (siftUp r (i + 1)) (i + 1) ∧ (siftUp r (i + 1)).Perm r := by
      by_cases hc : i + 1 > 1 ∧ key r ((i + 1) / 2) > key r (i + 1)
      · have hup : UpInv r (i + 1) := by
          constructor
          · intro j hj hj2 hji
            by_cases hp : j / 2 = i + 1
            · have := d2 j hj (by omega) hp (by omega)
              rw [hp]; omega
            · exact d1 j hj (by omega) hji hp
          · intro j hj hj2 hji h2
            exact d2 j hj (by omega) hji h2
        obtain ⟨u1, u2⟩ := siftUp_spec r (i + 1) (by omega) (by omega) hup
        refine ⟨⟨fun j hj hj2 _ => u1 j hj hj2, fun j hj hj2 hji h2 => ?_⟩, u2⟩
        have a := u1 (i + 1) h2 (by omega)
        have b := u1 j hj hj2
        rw [hji] at b
        omega
      · have hs : siftUp r (i + 1) = r := by
          unfold siftUp
          rw [Nat.shiftRight_eq_div_pow, Nat.pow_one, dif_neg hc]
        rw [hs]
        refine ⟨⟨fun j hj hj2 hji => ?_, fun j hj hj2 hji h2 => d2 j hj (by omega) hji h2⟩,
          List.Perm.refl _⟩
        by_cases hj3 : j = i + 1
        · subst hj3
          exact Nat.le_of_not_lt fun hh => hc ⟨by omega, hh⟩
        · exact d1 j hj (by omega) hj3 hji
    obtain ⟨m1, m2⟩ := minHeapify_spec (siftUp r (i + 1)) (i + 1) (by omega)
      (by rw [siftUp_length]; omega) hsift.1
    exact ⟨m1, hperm.symm.trans ((m2.trans hsift.2).symm.cons _)⟩

theorem delete_spec (h : Heap α) (hi : Inv h) (fn : Nat → α → Bool) :
    Inv (delete h fn).2 ∧
    (((delete h fn).1 = true ∧ ∃ n, fn n.key n.user = true ∧ h.nodes.Perm (n :: (delete h fn).2.nodes)) ∨
     ((delete h fn).1 = false ∧ (∀ n ∈ h.nodes, fn n.key n.user = false) ∧ (delete h fn).2 = h)) := by
  unfold delete
  cases hf : h.nodes.findIdx? (fun n => fn n.key n.user) with
  | none =>
    dsimp only
    refine ⟨hi, Or.inr ⟨rfl, ?_, rfl⟩⟩
    intro n hn
    rw [List.findIdx?_eq_none_iff] at hf
    simpa using hf n hn
  | some i =>
    dsimp only
    rw [List.findIdx?_eq_some_iff_getElem] at hf
    obtain ⟨hlt, hp, _⟩ := hf
    obtain ⟨a, b⟩ := deleteAt_spec h.nodes hi.ord i hlt
    refine ⟨⟨a, hi.cap_pos, ?_⟩, Or.inl ⟨rfl, _, hp, b⟩⟩
    have := b.length_eq
    have := hi.cap_le
    simp only [List.length_cons] at *
    omega

/-- A run of the model over a sequence of operations, with its observable results. -/
def run (h : Heap α) : List (Op α) → Option (List (Out α) × Heap α)
  | [] => some ([], h)
  | op :: ops =>
    match step h op with
    | none => none
    | some (o, h') => (run h' ops).map fun r => (o :: r.1, r.2)

/-- A run of the specification. -/
inductive SpecRun : List (Node α) → List (Op α) → List (Out α) → List (Node α) → Prop where
  | nil {bag} : SpecRun bag [] [] bag
  | cons {bag bag' bag'' op ops o os} : SpecStep bag op o bag' → SpecRun bag' ops os bag'' →
      SpecRun bag (op :: ops) (o :: os) bag''

theorem step_refines (h : Heap α) (hi : Inv h) (op : Op α) (o : Out α) (h' : Heap α)
    (hs : step h op = some (o, h')) : Inv h' ∧ SpecStep h.nodes op o h'.nodes := by
  cases op with
  | insert k u =>
    obtain ⟨h1, e1, e2, e3⟩ := insert_spec h hi k u
    simp only [step, e1, Option.map_some, Option.some.injEq, Prod.mk.injEq] at hs
    obtain ⟨rfl, rfl⟩ := hs
    exact ⟨e2, .insert e3⟩
  | extract =>
    have hne : h.nodes ≠ [] := by
      intro hc; simp [step, extractMin, hc] at hs
    obtain ⟨k, u, h1, e1, e2, e3, e4, _⟩ := extractMin_spec h hi hne
    simp only [step, e1, Option.map_some, Option.some.injEq, Prod.mk.injEq] at hs
    obtain ⟨rfl, rfl⟩ := hs
    exact ⟨e2, .extract e3 e4⟩
  | min =>
    have hne : h.nodes ≠ [] := by
      intro hc; simp [step, min, hc] at hs
    obtain ⟨k, u, h1, e1, e2, e3, e4, e5, e6⟩ := extractMin_spec h hi hne
    simp only [step, e5, Option.map_some, Option.some.injEq, Prod.mk.injEq] at hs
    obtain ⟨rfl, rfl⟩ := hs
    exact ⟨hi, .min (k := k) (e3.mem_iff.2 (by simp)) e4⟩
  | minKey =>
    have hne : h.nodes ≠ [] := by
      intro hc; simp [step, minKey, hc] at hs
    obtain ⟨k, u, h1, e1, e2, e3, e4, e5, e6⟩ := extractMin_spec h hi hne
    simp only [step, e6, Option.map_some, Option.some.injEq, Prod.mk.injEq] at hs
    obtain ⟨rfl, rfl⟩ := hs
    exact ⟨hi, .minKey (u := u) (e3.mem_iff.2 (by simp)) e4⟩
  | delete fn =>
    simp only [step, Option.some.injEq, Prod.mk.injEq] at hs
    obtain ⟨rfl, rfl⟩ := hs
    obtain ⟨d1, d2⟩ := delete_spec h hi fn
    refine ⟨d1, ?_⟩
    rcases d2 with ⟨e1, n, e2, e3⟩ | ⟨e1, e2, e3⟩
    · rw [e1]; exact .deleteHit e3 e2
    · rw [e1, e3]; exact .deleteMiss e2

theorem run_refines_from (ops : List (Op α)) : ∀ (h : Heap α), Inv h → ∀ outs h',
    run h ops = some (outs, h') → Inv h' ∧ SpecRun h.nodes ops outs h'.nodes := by
  induction ops with
  | nil =>
    intro h hi outs h' hr
    simp only [run, Option.some.injEq, Prod.mk.injEq] at hr
    obtain ⟨rfl, rfl⟩ := hr
    exact ⟨hi, .nil⟩
  | cons op ops ih =>
    intro h hi outs h' hr
    simp only [run] at hr
    cases hs : step h op with
    | none => rw [hs] at hr; simp at hr
    | some r =>
      obtain ⟨o, h1⟩ := r
      rw [hs] at hr
      simp only [Option.map_eq_some_iff, Prod.mk.injEq, Prod.exists] at hr
      obtain ⟨os, h2, hr, rfl, rfl⟩ := hr
      obtain ⟨i1, s1⟩ := step_refines h hi op o h1 hs
      obtain ⟨i2, s2⟩ := ih h1 i1 _ _ hr
      exact ⟨i2, .cons s1 s2⟩

/-- **C09, C10.**  Whatever operations are applied to a new heap (created with positive
size), the observable results are those of a priority queue: the stored pairs are exactly
those inserted minus those extracted or deleted, extraction returns a minimal element,
`heap_min`/`heap_min_key` agree, deletion removes exactly one matching pair iff there is
one. -/
theorem heap_run_refines (n : Nat) (hn : 0 < n) (ops : List (Op α)) (outs : List (Out α))
    (h : Heap α) (hr : run (new n) ops = some (outs, h)) : SpecRun [] ops outs h.nodes :=
  (run_refines_from ops (new n) (new_inv n hn) outs h hr).2

/-- **C09 (progress).**  Starting from a new heap, an operation can only fail if it asks
for the minimum of an empty heap. -/
theorem heap_progress (n : Nat) (hn : 0 < n) (ops : List (Op α)) (outs : List (Out α))
    (h : Heap α) (hr : run (new n) ops = some (outs, h)) (op : Op α) (hf : step h op = none) :
    h.nodes = [] ∧ (op = .extract ∨ op = .min ∨ op = .minKey) := by
  have hi := (run_refines_from ops (new n) (new_inv n hn) outs h hr).1
  cases op with
  | insert k u =>
    obtain ⟨h1, e1, _⟩ := insert_spec h hi k u
    simp [step, e1] at hf
  | delete fn => simp [step] at hf
  | extract =>
    refine ⟨?_, by simp⟩
    refine Classical.byContradiction fun hne => ?_
    obtain ⟨k, u, h1, e1, _⟩ := extractMin_spec h hi hne
    simp [step, e1] at hf
  | min =>
    refine ⟨?_, by simp⟩
    refine Classical.byContradiction fun hne => ?_
    obtain ⟨k, u, h1, e1, e2, e3, e4, e5, e6⟩ := extractMin_spec h hi hne
    simp [step, e5] at hf
  | minKey =>
    refine ⟨?_, by simp⟩
    refine Classical.byContradiction fun hne => ?_
    obtain ⟨k, u, h1, e1, e2, e3, e4, e5, e6⟩ := extractMin_spec h hi hne
    simp [step, e6] at hf

/-- **C10.**  Deletion on its own: true iff some entry matches, exactly one matching entry
disappears, and the result is again a valid heap. -/
theorem heap_delete_spec (h : Heap α) (hi : Inv h) (fn : Nat → α → Bool) :
    ((delete h fn).1 = true ↔ ∃ n ∈ h.nodes, fn n.key n.user = true) ∧
    ((delete h fn).1 = true → ∃ n, fn n.key n.user = true ∧
      h.nodes.Perm (n :: (delete h fn).2.nodes)) ∧
    ((delete h fn).1 = false → (delete h fn).2 = h) ∧ Inv (delete h fn).2 := by
  obtain ⟨d1, d2⟩ := delete_spec h hi fn
  rcases d2 with ⟨e1, n, e2, e3⟩ | ⟨e1, e2, e3⟩
  · rw [e1]
    exact ⟨⟨fun _ => ⟨n, e3.mem_iff.2 (by simp), e2⟩, fun _ => rfl⟩, fun _ => ⟨n, e2, e3⟩,
      by simp, d1⟩
  · rw [e1]
    refine ⟨⟨by simp, fun ⟨n, hn, hp⟩ => ?_⟩, by simp, fun _ => e3, d1⟩
    rw [e2 n hn] at hp; exact hp

/-- Creating a heap with size zero makes the first insertion write out of bounds. -/
theorem heap_new_zero_counterexample : insert (new 0 : Heap Nat) 1 5 = none := rfl

/-- Non-trivial instance: a run with insertions (equal keys), a deletion in the middle
and extractions. -/
example : (run (new 1 : Heap Nat) [.insert 5 0, .insert 3 1, .insert 3 2, .insert 9 3,
    .insert 1 4, .delete (fn := fun k _ => k == 3), .extract, .minKey]).isSome = true := by
  decide +kernel

end Verif.Heap
