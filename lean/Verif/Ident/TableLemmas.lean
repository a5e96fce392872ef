import Verif.Ident.TableModel

/-!
# Lemmas about the identifier table
-/

namespace Verif.Ident

/-! ## Triangular probing -/

/-- Triangular numbers. -/
def tri : Nat → Nat
  | 0 => 0
  | n + 1 => tri n + (n + 1)

theorem tri_two (n : Nat) : 2 * tri n = n * (n + 1) := by
  induction n with
  | zero => rfl
  | succ n ih =>
    unfold tri
    have : (n + 1) * (n + 1 + 1) = n * (n + 1) + 2 * (n + 1) := by
      rw [Nat.mul_add, Nat.mul_one, Nat.mul_comm 2, Nat.add_mul n 1 (n + 1)]; omega
    omega

/-- Position of probe number `j`. -/
def pos (h size j : Nat) : Nat := (h + tri j) % size

theorem and_pow (x k : Nat) : x &&& (2 ^ k - 1) = x % 2 ^ k := Nat.and_two_pow_sub_one_eq_mod x k

theorem slotOf_pos (h : BitVec 32) (k : Nat) : slotOf h (2 ^ k) = pos h.toNat (2 ^ k) 0 := by
  unfold slotOf pos; rw [and_pow]; rfl

theorem nextSlot_pos (h k j : Nat) :
    nextSlot (pos h (2 ^ k) j) (j + 1) (2 ^ k) = pos h (2 ^ k) (j + 1) := by
  unfold nextSlot pos
  rw [and_pow, Nat.mod_add_mod]
  congr 1
  show h + tri j + (j + 1) = h + (tri j + (j + 1))
  omega

theorem odd_dvd (k a b : Nat) (ha : a % 2 = 1) (h : 2 ^ k ∣ a * b) : 2 ^ k ∣ b := by
  have hc : Nat.Coprime (2 ^ k) a := by
    apply Nat.Coprime.pow_left
    rw [Nat.coprime_iff_gcd_eq_one]
    have h1 : Nat.gcd 2 a ∣ 2 := Nat.gcd_dvd_left 2 a
    have h2 : Nat.gcd 2 a ∣ a := Nat.gcd_dvd_right 2 a
    have h3 : Nat.gcd 2 a ≤ 2 := Nat.le_of_dvd (by omega) h1
    have h4 : 0 < Nat.gcd 2 a := Nat.gcd_pos_of_pos_left _ (by omega)
    have : Nat.gcd 2 a = 1 ∨ Nat.gcd 2 a = 2 := by omega
    rcases this with h5 | h5
    · exact h5
    · rw [h5] at h2; omega
  exact hc.dvd_of_dvd_mul_left h

theorem pos_inj (h k i j : Nat) (hi : i < j) (hj : j < 2 ^ k) :
    pos h (2 ^ k) i ≠ pos h (2 ^ k) j := by
  intro e
  unfold pos at e
  have hle : tri i ≤ tri j := by
    have h1 := tri_two i
    have h2 := tri_two j
    have : i * (i + 1) ≤ j * (j + 1) := Nat.mul_le_mul (by omega) (by omega)
    omega
  have hd : 2 ^ k ∣ (h + tri j) - (h + tri i) := by
    have := Nat.sub_mod_eq_zero_of_mod_eq e.symm
    exact Nat.dvd_of_mod_eq_zero this
  have hd2 : 2 ^ (k + 1) ∣ (j - i) * (j + i + 1) := by
    have : (j - i) * (j + i + 1) = 2 * ((h + tri j) - (h + tri i)) := by
      have h1 := tri_two i
      have h2 := tri_two j
      obtain ⟨d, rfl⟩ : ∃ d, j = i + d := ⟨j - i, by omega⟩
      have e1 : (i + d - i) = d := by omega
      rw [e1]
      have e2 : (i + d) * (i + d + 1) = i * (i + 1) + d * (i + d + i + 1) := by
        simp only [Nat.mul_add, Nat.add_mul, Nat.mul_one, Nat.one_mul]
        have := Nat.mul_comm d i
        omega
      omega
    rw [this, Nat.pow_succ, Nat.mul_comm]
    exact Nat.mul_dvd_mul_left 2 hd
  have hp : 2 ^ (k + 1) = 2 * 2 ^ k := by rw [Nat.pow_succ]; omega
  by_cases c : (j - i) % 2 = 1
  · have := odd_dvd _ _ _ c hd2
    have := Nat.le_of_dvd (by omega) this
    omega
  · have c2 : (j + i + 1) % 2 = 1 := by omega
    rw [Nat.mul_comm] at hd2
    have := odd_dvd _ _ _ c2 hd2
    have := Nat.le_of_dvd (by omega) this
    omega

theorem pos_lt (h size j : Nat) (hs : 0 < size) : pos h size j < size := Nat.mod_lt _ hs

/-! ## Counting occupied slots -/

/-- The number of occupied slots. -/
def occ (s : List (Option Nat)) : Nat := s.countP (·.isSome)

theorem occ_set_none (s : List (Option Nat)) (p v : Nat) (h : s[p]? = some none) :
    occ (s.set p (some v)) = occ s + 1 := by
  obtain ⟨hp, he⟩ := List.getElem?_eq_some_iff.1 h
  unfold occ
  rw [List.countP_set hp]
  simp [he]

theorem occ_set_some (s : List (Option Nat)) (p v : Nat) (h : s[p]? = some (some v)) :
    occ (s.set p none) + 1 = occ s := by
  obtain ⟨hp, he⟩ := List.getElem?_eq_some_iff.1 h
  have hpos : 0 < occ s := by
    unfold occ
    apply List.countP_pos_iff.2
    exact ⟨some v, he ▸ List.getElem_mem hp, rfl⟩
  unfold occ at *
  rw [List.countP_set hp]
  simp [he]
  omega

/-- If `n` different positions are occupied, then at least `n` slots are. -/
theorem occ_ge (n : Nat) : ∀ (s : List (Option Nat)) (f : Nat → Nat),
    (∀ i j, i < j → j < n → f i ≠ f j) →
    (∀ i, i < n → ∃ v, s[f i]? = some (some v)) → n ≤ occ s := by
  induction n with
  | zero => intros; omega
  | succ n ih =>
    intro s f hinj hocc
    obtain ⟨v, hv⟩ := hocc n (by omega)
    have := ih (s.set (f n) none) f (fun i j h1 h2 => hinj i j h1 (by omega)) (by
      intro i hi
      obtain ⟨w, hw⟩ := hocc i (by omega)
      refine ⟨w, ?_⟩
      rw [List.getElem?_set_ne (fun e => hinj i n hi (by omega) e.symm)]
      exact hw)
    have := occ_set_some s (f n) v hv
    omega

/-- A table that is not full has a free slot among the first `size` probes. -/
theorem free_probe (s : List (Option Nat)) (h k : Nat) (hl : s.length = 2 ^ k)
    (ho : occ s < s.length) : ∃ j, j < 2 ^ k ∧ s[pos h (2 ^ k) j]? = some none ∧
      ∀ i, i < j → ∃ v, s[pos h (2 ^ k) i]? = some (some v) := by
  have hex : ∃ j, j < 2 ^ k ∧ s[pos h (2 ^ k) j]? = some none := by
    apply Classical.byContradiction
    intro hn
    have := occ_ge (2 ^ k) s (pos h (2 ^ k)) (fun i j h1 h2 => pos_inj h k i j h1 h2) (by
      intro i hi
      have hp : pos h (2 ^ k) i < s.length := by
          rw [hl]; exact pos_lt h (2 ^ k) i (Nat.two_pow_pos k)
      rcases e : s[pos h (2 ^ k) i]? with _ | _ | v
      · rw [List.getElem?_eq_none_iff] at e; omega
      · exact absurd ⟨i, hi, e⟩ hn
      · exact ⟨v, rfl⟩)
    omega
  obtain ⟨j, hj⟩ := hex
  -- least such j
  have least : ∀ j, (j < 2 ^ k ∧ s[pos h (2 ^ k) j]? = some none) →
      ∃ j, j < 2 ^ k ∧ s[pos h (2 ^ k) j]? = some none ∧
      ∀ i, i < j → ∃ v, s[pos h (2 ^ k) i]? = some (some v) := by
    intro j
    induction j using Nat.strongRecOn with
    | ind j ih =>
      intro hj
      by_cases c : ∃ i, i < j ∧ s[pos h (2 ^ k) i]? = some none
      · obtain ⟨i, hi, he⟩ := c
        exact ih i hi ⟨by omega, he⟩
      · refine ⟨j, hj.1, hj.2, fun i hi => ?_⟩
        have hp : pos h (2 ^ k) i < s.length := by
          rw [hl]; exact pos_lt h (2 ^ k) i (Nat.two_pow_pos k)
        rcases e : s[pos h (2 ^ k) i]? with _ | _ | v
        · rw [List.getElem?_eq_none_iff] at e; omega
        · exact absurd ⟨i, hi, e⟩ c
        · exact ⟨v, rfl⟩
  exact least j hj

/-! ## Placement -/

theorem place_spec (s : List (Option Nat)) (id h k : Nat) (hl : s.length = 2 ^ k) (j : Nat)
    (hj : s[pos h (2 ^ k) j]? = some none)
    (hocc : ∀ i, i < j → ∃ v, s[pos h (2 ^ k) i]? = some (some v)) :
    ∀ (fuel i : Nat), i ≤ j → j < i + fuel →
      place s id fuel (pos h (2 ^ k) i) (i + 1) = some (s.set (pos h (2 ^ k) j) (some id)) := by
  intro fuel
  induction fuel with
  | zero => intro i h1 h2; omega
  | succ fuel ih =>
    intro i h1 h2
    unfold place
    by_cases c : i = j
    · subst c; rw [hj]
    · obtain ⟨v, hv⟩ := hocc i (by omega)
      rw [hv]
      simp only
      rw [hl, nextSlot_pos]
      exact ih (i + 1) (by omega) (by omega)

/-! ## The invariant -/

/-- Every object stored in `s` is at a position all earlier probes of which are occupied. -/
def Chain (objs : List Obj) (s : List (Option Nat)) : Prop :=
  ∀ (p id : Nat), s[p]? = some (some id) → ∃ o, objs[id]? = some o ∧
    ∃ j, p = pos o.hash.toNat s.length j ∧ j < s.length ∧
      ∀ i, i < j → ∃ v, s[pos o.hash.toNat s.length i]? = some (some v)

/-- Slots in `s` hold pairwise different objects. -/
def Distinct (s : List (Option Nat)) : Prop :=
  ∀ (p q id : Nat), s[p]? = some (some id) → s[q]? = some (some id) → p = q

/-- Adding an object at the first free position of its probe sequence. -/
theorem chain_set (objs : List Obj) (s : List (Option Nat)) (id : Nat) (o : Obj) (k : Nat)
    (hl : s.length = 2 ^ k) (hc : Chain objs s) (ho : objs[id]? = some o) (j : Nat)
    (hjl : j < 2 ^ k)
    (hocc : ∀ i, i < j → ∃ v, s[pos o.hash.toNat (2 ^ k) i]? = some (some v)) :
    Chain objs (s.set (pos o.hash.toNat (2 ^ k) j) (some id)) := by
  have keep : ∀ (q : Nat), (∃ v, s[q]? = some (some v)) →
      ∃ v, (s.set (pos o.hash.toNat (2 ^ k) j) (some id))[q]? = some (some v) := by
    intro q ⟨v, hv⟩
    by_cases c : pos o.hash.toNat (2 ^ k) j = q
    · subst c
      exact ⟨id, List.getElem?_set_self (List.getElem?_eq_some_iff.1 hv).1⟩
    · exact ⟨v, by rw [List.getElem?_set_ne c]; exact hv⟩
  intro p id' hp
  by_cases c : pos o.hash.toNat (2 ^ k) j = p
  · have hpl : pos o.hash.toNat (2 ^ k) j < s.length := by
      rw [hl]; exact pos_lt _ _ _ (Nat.two_pow_pos k)
    subst c
    rw [List.getElem?_set_self hpl] at hp
    simp only [Option.some.injEq] at hp
    subst hp
    refine ⟨o, ho, j, ?_, ?_, ?_⟩
    · rw [List.length_set, hl]
    · rw [List.length_set, hl]; exact hjl
    · intro i hi
      rw [List.length_set, hl]
      exact keep _ (hocc i hi)
  · rw [List.getElem?_set_ne c] at hp
    obtain ⟨o', h1, j', h2, h3, h4⟩ := hc p id' hp
    refine ⟨o', h1, j', ?_, ?_, ?_⟩
    · rw [List.length_set]; exact h2
    · rw [List.length_set]; exact h3
    · intro i hi
      rw [List.length_set]
      exact keep _ (h4 i hi)

/-- What `copyTable` achieves: every object of the old table and nothing else is added. -/
theorem copyTable_spec (objs : List Obj) (k : Nat) : ∀ (old to : List (Option Nat)),
    to.length = 2 ^ k → occ old + occ to < to.length →
    (∀ id, some id ∈ old → ∃ o, objs[id]? = some o) →
    Chain objs to →
    (∀ (id : Nat), (old ++ to).count (some id) ≤ 1) →
    ∃ s, copyTable objs old to = some s ∧ s.length = to.length ∧ Chain objs s ∧
      (∀ (id : Nat), s.count (some id) = (old ++ to).count (some id)) ∧
      occ s = occ old + occ to := by
  intro old
  induction old with
  | nil =>
    intro to _ _ _ hc _
    exact ⟨to, rfl, rfl, hc, fun _ => rfl, by simp [occ]⟩
  | cons a old ih =>
    intro to hl ho hobj hc hcnt
    cases a with
    | none =>
      have ho' : occ old + occ to < to.length := by simpa [occ] using ho
      obtain ⟨s, h1, h2, h3, h4, h5⟩ := ih to hl ho' (fun id h => hobj id (by simp [h])) hc
        (by intro id; have := hcnt id; simpa using this)
      exact ⟨s, h1, h2, h3, by intro id; rw [h4]; simp, by rw [h5]; simp [occ]⟩
    | some id =>
      have hocc1 : occ (some id :: old) = occ old + 1 := by simp [occ]
      obtain ⟨o, hobj1⟩ := hobj id (by simp)
      obtain ⟨j, j1, j2, j3⟩ := free_probe to o.hash.toNat k hl (by omega)
      have hpl := place_spec to id o.hash.toNat k hl j j2 j3 (2 ^ k) 0 (by omega) (by omega)
      have hocc2 := occ_set_none to _ id j2
      have hpos := (List.getElem?_eq_some_iff.1 j2)
      obtain ⟨hp1, hp2⟩ := hpos
      have cntset : ∀ (x : Nat), (to.set (pos o.hash.toNat (2 ^ k) j) (some id)).count (some x) =
          to.count (some x) + if x = id then 1 else 0 := by
        intro x
        rw [List.count, List.countP_set hp1]
        simp only [hp2]
        by_cases c : x = id
        · subst c; simp [List.count]
        · simp [List.count, c, Ne.symm c]
      obtain ⟨s, h1, h2, h3, h4, h5⟩ := ih (to.set (pos o.hash.toNat (2 ^ k) j) (some id))
        (by rw [List.length_set]; exact hl) (by rw [List.length_set]; omega)
        (fun id h => hobj id (by simp [h]))
        (chain_set objs to id o k hl hc hobj1 j j1 j3)
        (by
          intro x
          have := hcnt x
          rw [List.count_append, cntset]
          rw [List.count_append, List.count_cons] at this
          by_cases c : x = id
          · subst c; simp at this ⊢; omega
          · rw [if_neg c]; omega)
      refine ⟨s, ?_, by rw [h2, List.length_set], h3, ?_, by omega⟩
      · unfold copyTable
        rw [hobj1]
        simp only
        rw [hl, slotOf_pos, hpl]
        exact h1
      · intro x
        rw [h4, List.count_append, cntset, List.count_append, List.count_cons]
        by_cases c : x = id
        · subst c; simp; omega
        · have : (some id == some x) = false := by simp [Ne.symm c]
          rw [this, if_neg c]; simp

/-- The invariant of the identifier table. -/
structure TInv (t : Tab) : Prop where
  pow : ∃ k, t.slots.length = 2 ^ k ∧ 5 ≤ k
  chain : Chain t.objs t.slots
  once : ∀ (id : Nat), t.slots.count (some id) = if id < t.objs.length then 1 else 0
  hashes : ∀ o ∈ t.objs, o.hash = mixBits32 (hashUpdate hashInit o.bytes)
  distinct : ∀ (i j : Nat) (a b : Obj), t.objs[i]? = some a → t.objs[j]? = some b →
    a.bytes = b.bytes → i = j

theorem init_inv : TInv Tab.init := by
  refine ⟨⟨10, by unfold Tab.init initialSize; rw [List.length_replicate], by omega⟩, ?_, ?_, ?_, ?_⟩
  · intro p id h
    unfold Tab.init at h
    simp only [List.getElem?_replicate] at h
    split at h <;> simp at h
  · intro id
    unfold Tab.init
    simp only [List.count_replicate]
    simp
  · simp [Tab.init]
  · intro i j a b h; simp [Tab.init] at h

theorem TInv.obj {t : Tab} (h : TInv t) {id : Nat} (hm : some id ∈ t.slots) :
    ∃ o, t.objs[id]? = some o := by
  have h1 := h.once id
  have h2 := List.count_pos_iff.2 hm
  have : id < t.objs.length := by
    apply Classical.byContradiction
    intro hn
    rw [if_neg hn] at h1; omega
  exact ⟨_, List.getElem?_eq_getElem this⟩

theorem TInv.slot {t : Tab} (h : TInv t) {id : Nat} (hi : id < t.objs.length) :
    ∃ p : Nat, t.slots[p]? = some (some id) := by
  have h1 := h.once id
  rw [if_pos hi] at h1
  have := List.count_pos_iff.1 (show 0 < t.slots.count (some id) by omega)
  exact List.mem_iff_getElem?.1 this

theorem occ_le (s : List (Option Nat)) : occ s ≤ s.length := List.countP_le_length

theorem grow_inv (t : Tab) (h : TInv t) :
    ∃ t', grow t = some t' ∧ TInv t' ∧ t'.objs = t.objs ∧ t'.slots.length = t.slots.length * 2 := by
  obtain ⟨k, hk, hk5⟩ := h.pow
  have e2 : t.slots.length * 2 = 2 ^ (k + 1) := by rw [hk, Nat.pow_succ]
  have hocc0 : occ (List.replicate (t.slots.length * 2) none) = 0 := by
    simp [occ, List.countP_replicate]
  have hpos : 0 < t.slots.length := by rw [hk]; exact Nat.two_pow_pos k
  have hle := occ_le t.slots
  obtain ⟨s, h1, h2, h3, h4, _⟩ := copyTable_spec t.objs (k + 1) t.slots
    (List.replicate (t.slots.length * 2) none) (by simp [e2]) (by rw [hocc0]; simp; omega)
    (fun id hm => h.obj hm)
    (by intro p id hp; simp [List.getElem?_replicate] at hp)
    (by
      intro id
      have := h.once id
      rw [List.count_append, this]
      simp only [List.count_replicate]
      simp
      split <;> omega)
  refine ⟨{ t with slots := s }, by unfold grow; rw [h1]; rfl, ?_, rfl, by simp [h2]⟩
  refine ⟨⟨k + 1, by simp [h2, e2], by omega⟩, h3, ?_, h.hashes, h.distinct⟩
  intro id
  show s.count (some id) = _
  rw [h4, List.count_append, h.once id]
  simp [List.count_replicate]

end Verif.Ident
