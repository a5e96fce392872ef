import Verif.Hash.Model

namespace Verif.Hash

variable {K V : Type} [DecidableEq K]

theorem and_mask (e x : Nat) : x &&& (2 ^ e - 1) = x % 2 ^ e := Nat.and_two_pow_sub_one_eq_mod x e

theorem mask_eq {size x : Nat} (h : ∃ e, size = 2 ^ e) : x &&& (size - 1) = x % size := by
  obtain ⟨e, rfl⟩ := h; exact and_mask e x

/-- Structural invariant of the key array. -/
structure Chain (hf : K → Nat) (size : Nat) (keys : List (Option K)) : Prop where
  pow : ∃ e, size = 2 ^ e
  len : keys.length = size
  chain : ∀ (i : Nat) k, keys[i]? = some (some k) → ∃ d, d < size ∧ (hf k + d) % size = i ∧
    ∀ d', d' < d → ∃ k', keys[(hf k + d') % size]? = some (some k')

/-- No key occurs twice. -/
def Uniq (keys : List (Option K)) : Prop :=
  ∀ (i j : Nat) (k : K), keys[i]? = some (some k) → keys[j]? = some (some k) → i = j

theorem Chain.pos {hf : K → Nat} {size keys} (h : Chain hf size keys) : 0 < size := by
  obtain ⟨e, rfl⟩ := h.pow; exact Nat.two_pow_pos e

theorem probe_ok {keys : List (Option K)} {size : Nat} (hp : ∃ e, size = 2 ^ e) (k : K)
    (f b : Nat) (i : Nat) (fd : Bool) (h : probe keys size k f (b % size) = .ok (i, fd)) :
    ∃ d, d < f ∧ i = (b + d) % size ∧
      (∀ d', d' < d → ∃ k', keys[(b + d') % size]? = some (some k') ∧ k' ≠ k) ∧
      keys[i]? = some (if fd then some k else none) := by
  induction f generalizing b with
  | zero => simp [probe] at h
  | succ f ih =>
    unfold probe at h
    split at h
    · cases h
    · rename_i hk
      simp only [Except.ok.injEq, Prod.mk.injEq] at h
      obtain ⟨rfl, rfl⟩ := h
      exact ⟨0, by omega, rfl, by omega, by simpa using hk⟩
    · rename_i k' hk
      split at h
      · rename_i hkk
        subst hkk
        simp only [Except.ok.injEq, Prod.mk.injEq] at h
        obtain ⟨rfl, rfl⟩ := h
        exact ⟨0, by omega, rfl, by omega, by simpa using hk⟩
      · rename_i hkk
        rw [mask_eq hp, Nat.mod_add_mod] at h
        obtain ⟨d, h1, h2, h3, h4⟩ := ih (b + 1) h
        refine ⟨d + 1, by omega, by rw [h2]; congr 1; omega, ?_, h4⟩
        intro d' hd'
        cases d' with
        | zero => exact ⟨k', hk, hkk⟩
        | succ d' =>
          have := h3 d' (by omega)
          have e : b + 1 + d' = b + (d' + 1) := by omega
          rw [e] at this; exact this

theorem probe_hit {keys : List (Option K)} {size : Nat} (hp : ∃ e, size = 2 ^ e)
    (hl : keys.length = size) (k : K) (f b d : Nat) (hd : d < f)
    (hs : keys[(b + d) % size]? = some none ∨ keys[(b + d) % size]? = some (some k)) :
    ∃ r, probe keys size k f (b % size) = .ok r := by
  induction f generalizing b d with
  | zero => omega
  | succ f ih =>
    have hpos : 0 < size := by obtain ⟨e, rfl⟩ := hp; exact Nat.two_pow_pos e
    have hin : b % size < keys.length := by rw [hl]; exact Nat.mod_lt _ hpos
    unfold probe
    rw [List.getElem?_eq_getElem hin]
    cases hx : keys[b % size] with
    | none => exact ⟨_, rfl⟩
    | some k' =>
      simp only []
      by_cases c : k' = k
      · rw [if_pos c]; exact ⟨_, rfl⟩
      · rw [if_neg c, mask_eq hp, Nat.mod_add_mod]
        cases d with
        | zero =>
          simp only [Nat.add_zero] at hs
          rw [List.getElem?_eq_getElem hin, hx] at hs
          rcases hs with hs | hs
          · simp at hs
          · simp only [Option.some.injEq] at hs; exact absurd hs c
        | succ d =>
          apply ih (b + 1) d (by omega)
          have e : b + 1 + d = b + (d + 1) := by omega
          rw [e]; exact hs

theorem exists_offset {size : Nat} (b i : Nat) (hi : i < size) :
    ∃ d, d < size ∧ (b + d) % size = i := by
  have hpos : 0 < size := by omega
  refine ⟨(i + (size - b % size)) % size, Nat.mod_lt _ hpos, ?_⟩
  rw [Nat.add_mod_mod]
  have hb : b % size < size := Nat.mod_lt _ hpos
  have : b + (i + (size - b % size)) = i + size * (b / size + 1) := by
    have := Nat.div_add_mod b size
    rw [Nat.mul_add]
    omega
  rw [this, Nat.add_mul_mod_self_left, Nat.mod_eq_of_lt hi]

/-- A present key is found at its slot. -/
theorem find_present {hf : K → Nat} {t : Tab K V} (h : Chain hf t.size t.keys) (hu : Uniq t.keys)
    {i : Nat} {k : K} (hk : t.keys[i]? = some (some k)) : find hf t k = .ok (i, true) := by
  obtain ⟨d, hd, he, hc⟩ := h.chain i k hk
  unfold find slotOf
  rw [mask_eq h.pow]
  obtain ⟨⟨j, fd⟩, hr⟩ := probe_hit h.pow h.len k t.size (hf k) d hd (Or.inr (by rw [he]; exact hk))
  rw [hr]
  obtain ⟨d', hd', he', hc', hj⟩ := probe_ok h.pow k _ _ _ _ hr
  cases fd with
  | true =>
    have hj' : t.keys[j]? = some (some k) := by simpa using hj
    rw [hu j i k hj' hk]
  | false =>
    exfalso
    have hj' : t.keys[j]? = some none := by simpa using hj
    by_cases c : d' < d
    · obtain ⟨k', hk'⟩ := hc d' c
      rw [← he', hj'] at hk'; simp at hk'
    · by_cases c2 : d' = d
      · subst c2
        rw [he', he, hk] at hj'; simp at hj'
      · obtain ⟨k', hk', hne⟩ := hc' d (by omega)
        rw [he, hk] at hk'
        simp only [Option.some.injEq] at hk'
        exact hne hk'.symm

/-- With a free slot, an absent key is found to be absent, at a free slot from which the
probe chain is complete. -/
theorem find_absent {hf : K → Nat} {t : Tab K V} (h : Chain hf t.size t.keys)
    (hfree : ∃ i : Nat, t.keys[i]? = some none) {k : K} (hk : ∀ i : Nat, t.keys[i]? ≠ some (some k)) :
    ∃ i, find hf t k = .ok (i, false) ∧ t.keys[i]? = some none ∧
      ∃ d, d < t.size ∧ (hf k + d) % t.size = i ∧
        ∀ d', d' < d → ∃ k', t.keys[(hf k + d') % t.size]? = some (some k') := by
  obtain ⟨i0, hi0⟩ := hfree
  have hlt : i0 < t.size := by
    obtain ⟨hx, _⟩ := List.getElem?_eq_some_iff.1 hi0
    rw [h.len] at hx; exact hx
  obtain ⟨d0, hd0, he0⟩ := exists_offset (hf k) i0 hlt
  obtain ⟨⟨j, fd⟩, hr⟩ := probe_hit h.pow h.len k t.size (hf k) d0 hd0
    (Or.inl (by rw [he0]; exact hi0))
  obtain ⟨d, hd, he, hc, hj⟩ := probe_ok h.pow k _ _ _ _ hr
  cases fd with
  | true => exact absurd (by simpa using hj) (hk j)
  | false =>
    refine ⟨j, ?_, by simpa using hj, d, hd, he.symm, ?_⟩
    · unfold find slotOf; rw [mask_eq h.pow]; exact hr
    · intro d' hd'
      obtain ⟨k', hk', _⟩ := hc d' hd'
      exact ⟨k', hk'⟩

theorem getElem?_set_same {α : Type} {l : List α} {i : Nat} {a : α} (h : i < l.length) :
    (l.set i a)[i]? = some a := by
  rw [List.getElem?_set]; simp [h]

theorem lt_of_getElem? {α : Type} {l : List α} {i : Nat} {a : α} (h : l[i]? = some a) :
    i < l.length := (List.getElem?_eq_some_iff.1 h).1

/-- Filling the free slot at the end of the probe chain keeps the structure. -/
theorem chain_set {hf : K → Nat} {size : Nat} {keys : List (Option K)} (h : Chain hf size keys)
    {i d : Nat} {k : K} (hi : keys[i]? = some none) (hd : d < size) (he : (hf k + d) % size = i)
    (hc : ∀ d', d' < d → ∃ k', keys[(hf k + d') % size]? = some (some k')) :
    Chain hf size (keys.set i (some k)) := by
  have hlt := lt_of_getElem? hi
  have keep : ∀ (j : Nat) k', keys[j]? = some (some k') →
      ∃ k'', (keys.set i (some k))[j]? = some (some k'') := by
    intro j k' hj
    by_cases c : i = j
    · subst c; exact ⟨k, getElem?_set_same hlt⟩
    · rw [List.getElem?_set_ne c]; exact ⟨k', hj⟩
  refine ⟨h.pow, by rw [List.length_set]; exact h.len, ?_⟩
  intro j k' hj
  by_cases c : i = j
  · subst c
    rw [getElem?_set_same hlt] at hj
    simp only [Option.some.injEq] at hj
    subst hj
    refine ⟨d, hd, he, fun d' hd' => ?_⟩
    obtain ⟨k'', hk''⟩ := hc d' hd'
    exact keep _ _ hk''
  · rw [List.getElem?_set_ne c] at hj
    obtain ⟨d1, h1, h2, h3⟩ := h.chain j k' hj
    refine ⟨d1, h1, h2, fun d' hd' => ?_⟩
    obtain ⟨k'', hk''⟩ := h3 d' hd'
    exact keep _ _ hk''

theorem uniq_set {keys : List (Option K)} (hu : Uniq keys) {i : Nat} {k : K} (hi : i < keys.length)
    (hk : ∀ i : Nat, keys[i]? ≠ some (some k)) : Uniq (keys.set i (some k)) := by
  intro a b k' ha hb
  by_cases c1 : i = a
  · subst c1
    rw [getElem?_set_same hi] at ha
    simp only [Option.some.injEq] at ha
    subst ha
    by_cases c2 : i = b
    · exact c2
    · rw [List.getElem?_set_ne c2] at hb; exact absurd hb (hk b)
  · rw [List.getElem?_set_ne c1] at ha
    by_cases c2 : i = b
    · subst c2
      rw [getElem?_set_same hi] at hb
      simp only [Option.some.injEq] at hb
      subst hb; exact absurd ha (hk a)
    · rw [List.getElem?_set_ne c2] at hb; exact hu a b k' ha hb

/-- Number of occupied slots. -/
def occ (keys : List (Option K)) : Nat := keys.countP Option.isSome

theorem occ_set {keys : List (Option K)} {i : Nat} {k : K} (hi : keys[i]? = some none) :
    occ (keys.set i (some k)) = occ keys + 1 := by
  unfold occ
  obtain ⟨hlt, he⟩ := List.getElem?_eq_some_iff.1 hi
  rw [List.countP_set hlt, he]
  simp

theorem free_of_occ {keys : List (Option K)} (h : occ keys < keys.length) :
    ∃ i : Nat, keys[i]? = some none := by
  unfold occ at h
  have : ∃ a ∈ keys, ¬ (a.isSome = true) := by
    apply Classical.byContradiction
    intro hc
    have hall : ∀ a ∈ keys, a.isSome = true := by
      intro a ha
      apply Classical.byContradiction
      intro hx; exact hc ⟨a, ha, hx⟩
    have := List.countP_eq_length.2 hall
    omega
  obtain ⟨a, ha, hn⟩ := this
  obtain ⟨i, hi⟩ := List.getElem?_of_mem ha
  refine ⟨i, ?_⟩
  rw [hi]
  cases a with
  | none => rfl
  | some x => simp at hn

/-- The table stores `v` (possibly null) under `k`. -/
def At (t : Tab K V) (k : K) (v : Option V) : Prop :=
  ∃ i : Nat, t.keys[i]? = some (some k) ∧ t.vals[i]? = some v

/-- The table represents the partial function `m` (a present key may have a null value). -/
structure Rep (hf : K → Nat) (t : Tab K V) (m : K → Option (Option V)) : Prop where
  chain : Chain hf t.size t.keys
  uniq : Uniq t.keys
  vlen : t.vals.length = t.size
  mem : t.members = occ t.keys
  rep : ∀ k v, m k = some v ↔ At t k v

theorem Rep.absent {hf : K → Nat} {t : Tab K V} {m} (h : Rep hf t m) {k : K} (hk : m k = none) :
    ∀ i : Nat, t.keys[i]? ≠ some (some k) := by
  intro i hi
  have hlt := lt_of_getElem? hi
  rw [h.chain.len, ← h.vlen] at hlt
  have : At t k t.vals[i] := ⟨i, hi, List.getElem?_eq_getElem hlt⟩
  rw [(h.rep k _).2 this] at hk; cases hk

theorem empty_rep (hf : K → Nat) (size : Nat) (hp : ∃ e, size = 2 ^ e) :
    Rep hf (empty size : Tab K V) (fun _ => none) := by
  have hno : ∀ (i : Nat) (k : K), (empty size : Tab K V).keys[i]? ≠ some (some k) := by
    intro i k h
    simp only [empty, List.getElem?_replicate] at h
    split at h <;> simp at h
  refine ⟨⟨hp, by simp [empty], fun i k h => absurd h (hno i k)⟩,
    fun i j k h => absurd h (hno i k), by simp [empty], ?_, ?_⟩
  · simp [empty, occ, List.countP_replicate]
  · intro k v
    constructor
    · intro h; cases h
    · rintro ⟨i, h, _⟩; exact absurd h (hno i k)

/-- Update of a partial function. -/
def fupd {β : Type} (m : K → β) (k : K) (b : β) : K → β := fun k' => if k' = k then b else m k'

/-- Insertion without growth, when a slot is free or the key is present. -/
theorem insert_rep {hf : K → Nat} {t : Tab K V} {m} (h : Rep hf t m) (k : K) (v : Option V)
    (hroom : t.members < t.size) :
    ∃ t', insert hf t k v = .ok (t', (m k).isSome) ∧ Rep hf t' (fupd m k (some v)) ∧
      t'.size = t.size ∧ t'.members = t.members + (if (m k).isSome then 0 else 1) := by
  cases hm : m k with
  | some v0 =>
    obtain ⟨i, hi, hv⟩ := (h.rep k v0).1 hm
    have hf' := find_present h.chain h.uniq hi
    have hlt := lt_of_getElem? hv
    refine ⟨{ t with vals := t.vals.set i v }, ?_, ?_, rfl, by simp⟩
    · unfold insert; rw [hf']; rfl
    · refine ⟨h.chain, h.uniq, by simp only [List.length_set]; exact h.vlen, h.mem, ?_⟩
      intro k' v'
      unfold fupd
      by_cases c : k' = k
      · subst c
        rw [if_pos rfl]
        constructor
        · intro e
          simp only [Option.some.injEq] at e
          subst e
          exact ⟨i, hi, getElem?_set_same hlt⟩
        · rintro ⟨j, hj, hjv⟩
          have : j = i := h.uniq _ _ _ hj hi
          subst this
          change (t.vals.set j v)[j]? = _ at hjv
          rw [getElem?_set_same hlt] at hjv
          exact hjv
      · rw [if_neg c, h.rep]
        constructor
        · rintro ⟨j, hj, hjv⟩
          refine ⟨j, hj, ?_⟩
          have hne : i ≠ j := by
            rintro rfl
            rw [hi] at hj
            simp only [Option.some.injEq] at hj
            exact c hj.symm
          show (t.vals.set i v)[j]? = _
          rw [List.getElem?_set_ne hne]; exact hjv
        · rintro ⟨j, hj, hjv⟩
          refine ⟨j, hj, ?_⟩
          have hne : i ≠ j := by
            rintro rfl
            have hj' : t.keys[i]? = some (some k') := hj
            rw [hi] at hj'
            simp only [Option.some.injEq] at hj'
            exact c hj'.symm
          change (t.vals.set i v)[j]? = _ at hjv
          rw [List.getElem?_set_ne hne] at hjv; exact hjv
  | none =>
    have hab := h.absent hm
    have hfree : ∃ i : Nat, t.keys[i]? = some none := by
      apply free_of_occ; rw [← h.mem, h.chain.len]; exact hroom
    obtain ⟨i, hfi, hi, d, hd, he, hc⟩ := find_absent h.chain hfree hab
    have hlt := lt_of_getElem? hi
    have hltv : i < t.vals.length := by rw [h.vlen, ← h.chain.len]; exact hlt
    refine ⟨{ t with keys := t.keys.set i (some k), vals := t.vals.set i v,
                     members := t.members + 1 }, ?_, ?_, rfl, by simp⟩
    · unfold insert; rw [hfi]; rfl
    · refine ⟨chain_set h.chain hi hd he hc, uniq_set h.uniq hlt hab,
        by simp only [List.length_set]; exact h.vlen, ?_, ?_⟩
      · show t.members + 1 = occ (t.keys.set i (some k))
        rw [occ_set hi, h.mem]
      · intro k' v'
        unfold fupd
        by_cases c : k' = k
        · subst c
          rw [if_pos rfl]
          constructor
          · intro e
            simp only [Option.some.injEq] at e
            subst e
            exact ⟨i, getElem?_set_same hlt, getElem?_set_same hltv⟩
          · rintro ⟨j, hj, hjv⟩
            have : i = j := by
              apply Classical.byContradiction
              intro hne
              change (t.keys.set i (some k'))[j]? = _ at hj
              rw [List.getElem?_set_ne hne] at hj
              exact hab j hj
            subst this
            change (t.vals.set i v)[i]? = _ at hjv
            rw [getElem?_set_same hltv] at hjv
            exact hjv
        · rw [if_neg c, h.rep]
          constructor
          · rintro ⟨j, hj, hjv⟩
            have hne : i ≠ j := by
              rintro rfl
              rw [hi] at hj; simp at hj
            refine ⟨j, ?_, ?_⟩
            · show (t.keys.set i (some k))[j]? = _
              rw [List.getElem?_set_ne hne]; exact hj
            · show (t.vals.set i v)[j]? = _
              rw [List.getElem?_set_ne hne]; exact hjv
          · rintro ⟨j, hj, hjv⟩
            have hne : i ≠ j := by
              rintro rfl
              change (t.keys.set i (some k))[i]? = _ at hj
              rw [getElem?_set_same hlt] at hj
              simp only [Option.some.injEq] at hj
              exact c hj.symm
            change (t.keys.set i (some k))[j]? = _ at hj
            change (t.vals.set i v)[j]? = _ at hjv
            rw [List.getElem?_set_ne hne] at hj hjv
            exact ⟨j, hj, hjv⟩

theorem get_rep {hf : K → Nat} {t : Tab K V} {m} (h : Rep hf t m) (k : K)
    (hroom : t.members < t.size ∨ (m k).isSome) : get hf t k = .ok (m k).join := by
  cases hm : m k with
  | some v0 =>
    obtain ⟨i, hi, hv⟩ := (h.rep k v0).1 hm
    unfold get
    rw [find_present h.chain h.uniq hi]
    simp only [hv]; rfl
  | none =>
    have hab := h.absent hm
    have hroom : t.members < t.size := by
      rcases hroom with h | h
      · exact h
      · rw [hm] at h; simp at h
    have hfree : ∃ i : Nat, t.keys[i]? = some none := by
      apply free_of_occ; rw [← h.mem, h.chain.len]; exact hroom
    obtain ⟨i, hfi, _⟩ := find_absent h.chain hfree hab
    unfold get
    rw [hfi]; rfl

theorem delete_rep {hf : K → Nat} {t : Tab K V} {m} (h : Rep hf t m) (k : K)
    (hroom : t.members < t.size) :
    ∃ t', delete hf t k = .ok t' ∧
      Rep hf t' (fun k' => if k' = k then (m k).map (fun _ => none) else m k') ∧
      t'.size = t.size ∧ t'.members = t.members := by
  cases hm : m k with
  | some v0 =>
    obtain ⟨t', h1, h2, h3, h4⟩ := insert_rep h k none hroom
    obtain ⟨i, hi, hv⟩ := (h.rep k v0).1 hm
    have hfp := find_present h.chain h.uniq hi
    unfold insert at h1
    rw [hfp] at h1
    simp only [Except.ok.injEq, Prod.mk.injEq] at h1
    refine ⟨t', ?_, ?_, h3, ?_⟩
    · unfold delete; rw [hfp]; simp only []; rw [h1.1]
    · exact h2
    · rw [h4, hm]; simp
  | none =>
    have hab := h.absent hm
    have hfree : ∃ i : Nat, t.keys[i]? = some none := by
      apply free_of_occ; rw [← h.mem, h.chain.len]; exact hroom
    obtain ⟨i, hfi, _⟩ := find_absent h.chain hfree hab
    refine ⟨t, by unfold delete; rw [hfi], ?_, rfl, rfl⟩
    have : (fun k' => if k' = k then (none : Option (Option V)).map (fun _ => none) else m k') = m := by
      funext k'
      by_cases c : k' = k
      · subst c; simp [hm]
      · simp [c]
    rw [this]; exact h

theorem occ_eq_filterMap_length (keys : List (Option K)) :
    occ keys = (keys.filterMap id).length := by
  unfold occ
  induction keys with
  | nil => rfl
  | cons a l ih => cases a <;> simp [ih]

end Verif.Hash
