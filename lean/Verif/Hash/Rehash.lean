import Verif.Hash.Lemmas

namespace Verif.Hash

variable {K V : Type} [DecidableEq K]

theorem except_bind_ok {ε α β : Type} (a : α) (f : α → Except ε β) :
    (Except.ok a >>= f) = f a := rfl

/-- `m` extended by a list of pairs with distinct keys. -/
def ext (m : K → Option (Option V)) (ps : List (K × Option V)) : K → Option (Option V) :=
  fun k => match ps.find? (fun p => p.1 = k) with
    | some p => some p.2
    | none => m k

theorem ext_cons (m : K → Option (Option V)) (k : K) (v : Option V) (ps : List (K × Option V))
    (h : k ∉ ps.map Prod.fst) : ext (fupd m k (some v)) ps = ext m ((k, v) :: ps) := by
  funext k'
  unfold ext fupd
  rw [List.find?_cons]
  by_cases c : k = k'
  · subst c
    have : ps.find? (fun p => p.1 = k) = none := by
      rw [List.find?_eq_none]
      intro p hp hk
      apply h
      simp only [decide_eq_true_eq] at hk
      exact List.mem_map.2 ⟨p, hp, hk⟩
    rw [this]; simp
  · have c' : ¬ k' = k := fun e => c e.symm
    simp only [c, c', decide_false, if_false]

/-- Inserting a list of new pairs. -/
theorem foldlM_insert (hf : K → Nat) (step : Tab K V → K × Option V → M (Tab K V))
    (hstep : ∀ t p t', insert hf t p.1 p.2 = .ok (t', false) → step t p = .ok t')
    (ps : List (K × Option V)) (t : Tab K V) (m : K → Option (Option V)) (h : Rep hf t m)
    (hn : (ps.map Prod.fst).Nodup) (hd : ∀ k ∈ ps.map Prod.fst, m k = none)
    (hroom : t.members + ps.length ≤ t.size) :
    ∃ t', ps.foldlM step t = .ok t' ∧ Rep hf t' (ext m ps) ∧ t'.size = t.size ∧
      t'.members = t.members + ps.length := by
  induction ps generalizing t m with
  | nil => exact ⟨t, rfl, h, rfl, rfl⟩
  | cons p ps ih =>
    obtain ⟨k, v⟩ := p
    simp only [List.map_cons, List.nodup_cons] at hn
    simp only [List.length_cons] at hroom
    have hk : m k = none := hd k (by simp)
    obtain ⟨t1, h1, h2, h3, h4⟩ := insert_rep h k v (by omega)
    rw [hk] at h1 h4
    simp only [Option.isSome_none, Bool.false_eq_true, if_false] at h1 h4
    obtain ⟨t', g1, g2, g3, g4⟩ := ih t1 (fupd m k (some v)) h2 hn.2 (by
      intro k' hk'
      unfold fupd
      have : k' ≠ k := by rintro rfl; exact hn.1 hk'
      rw [if_neg this]
      exact hd k' (by simp only [List.map_cons, List.mem_cons]; exact Or.inr hk')) (by omega)
    refine ⟨t', ?_, ?_, by omega, by simp only [List.length_cons]; omega⟩
    · rw [List.foldlM_cons, hstep t (k, v) t1 h1]
      exact g1
    · rw [← ext_cons m k v ps hn.1]; exact g2

/-- A fold that skips some entries is a fold over the remaining ones. -/
theorem foldlM_skip {α β : Type} {σ : Type} (f : α → Option β) (step : σ → α → M σ)
    (step' : σ → β → M σ) (h1 : ∀ s a, f a = none → step s a = .ok s)
    (h2 : ∀ s a b, f a = some b → step s a = step' s b) (l : List α) (s : σ) :
    l.foldlM step s = (l.filterMap f).foldlM step' s := by
  induction l generalizing s with
  | nil => rfl
  | cons a l ih =>
    rw [List.foldlM_cons]
    cases hf : f a with
    | none =>
      rw [h1 s a hf, List.filterMap_cons_none hf]
      exact ih s
    | some b =>
      rw [h2 s a b hf, List.filterMap_cons_some hf, List.foldlM_cons]
      cases step' s b with
      | error e => rfl
      | ok s' => exact ih s'

/-- All stored pairs. -/
def allPair : Option K × Option V → Option (K × Option V)
  | (some k, v) => some (k, v)
  | _ => none

/-- Stored pairs with a value that is not null. -/
def livePair : Option K × Option V → Option (K × Option V)
  | (some k, some v) => some (k, some v)
  | _ => none

theorem mem_zip_iff {α β : Type} (l1 : List α) (l2 : List β) (a : α) (b : β) :
    (a, b) ∈ l1.zip l2 ↔ ∃ i : Nat, l1[i]? = some a ∧ l2[i]? = some b := by
  rw [List.mem_iff_getElem?]
  constructor
  · rintro ⟨i, h⟩; exact ⟨i, List.getElem?_zip_eq_some.1 h⟩
  · rintro ⟨i, h⟩; exact ⟨i, List.getElem?_zip_eq_some.2 h⟩

theorem mem_allPair (t : Tab K V) (k : K) (v : Option V) :
    (k, v) ∈ (t.keys.zip t.vals).filterMap allPair ↔ At t k v := by
  rw [List.mem_filterMap]
  unfold At
  rw [← mem_zip_iff]
  constructor
  · rintro ⟨⟨a, b⟩, hm, he⟩
    cases a with
    | none => simp [allPair] at he
    | some k' =>
      simp only [allPair, Option.some.injEq, Prod.mk.injEq] at he
      obtain ⟨rfl, rfl⟩ := he
      exact hm
  · intro h; exact ⟨_, h, rfl⟩

theorem mem_livePair (t : Tab K V) (k : K) (v : Option V) :
    (k, v) ∈ (t.keys.zip t.vals).filterMap livePair ↔ At t k v ∧ v ≠ none := by
  rw [List.mem_filterMap]
  unfold At
  rw [← mem_zip_iff]
  constructor
  · rintro ⟨⟨a, b⟩, hm, he⟩
    cases a with
    | none => simp [livePair] at he
    | some k' =>
      cases b with
      | none => simp [livePair] at he
      | some v' =>
        simp only [livePair, Option.some.injEq, Prod.mk.injEq] at he
        obtain ⟨rfl, rfl⟩ := he
        exact ⟨hm, by simp⟩
  · rintro ⟨h, hv⟩
    cases v with
    | none => exact absurd rfl hv
    | some v' => exact ⟨_, h, rfl⟩

theorem uniq_nodup {keys : List (Option K)} (h : Uniq keys) : (keys.filterMap id).Nodup := by
  induction keys with
  | nil => simp
  | cons a l ih =>
    have hl : Uniq l := by
      intro i j k hi hj
      have := h (i + 1) (j + 1) k (by simpa using hi) (by simpa using hj)
      omega
    cases a with
    | none => simpa using ih hl
    | some k =>
      rw [show (some k :: l).filterMap id = k :: l.filterMap id from rfl, List.nodup_cons]
      refine ⟨?_, ih hl⟩
      intro hm
      rw [List.mem_filterMap] at hm
      obtain ⟨a, ha, he⟩ := hm
      simp only [id_eq] at he
      subst he
      obtain ⟨i, hi⟩ := List.getElem?_of_mem ha
      have := h 0 (i + 1) k (by simp) (by simpa using hi)
      omega

theorem allPair_keys (ks : List (Option K)) (vs : List (Option V)) (h : vs.length = ks.length) :
    ((ks.zip vs).filterMap allPair).map Prod.fst = ks.filterMap id := by
  induction ks generalizing vs with
  | nil => simp
  | cons a l ih =>
    cases vs with
    | nil => simp at h
    | cons b vs =>
      simp only [List.length_cons, Nat.add_right_cancel_iff] at h
      rw [List.zip_cons_cons]
      cases a with
      | none =>
        exact ih vs h
      | some k =>
        show k :: ((l.zip vs).filterMap allPair).map Prod.fst = k :: l.filterMap id
        rw [ih vs h]

theorem livePair_sublist (l : List (Option K × Option V)) :
    (l.filterMap livePair).Sublist (l.filterMap allPair) := by
  induction l with
  | nil => simp
  | cons a l ih =>
    obtain ⟨x, y⟩ := a
    cases x with
    | none => exact ih
    | some k =>
      cases y with
      | none =>
        exact List.Sublist.cons (k, none) ih
      | some v =>
        exact List.Sublist.cons_cons (k, some v) ih

theorem Rep.nodupAll {hf : K → Nat} {t : Tab K V} {m} (h : Rep hf t m) :
    (((t.keys.zip t.vals).filterMap allPair).map Prod.fst).Nodup := by
  rw [allPair_keys _ _ (by rw [h.vlen, h.chain.len])]
  exact uniq_nodup h.uniq

theorem Rep.nodupLive {hf : K → Nat} {t : Tab K V} {m} (h : Rep hf t m) :
    (((t.keys.zip t.vals).filterMap livePair).map Prod.fst).Nodup :=
  h.nodupAll.sublist ((livePair_sublist _).map _)

theorem Rep.lenAll {hf : K → Nat} {t : Tab K V} {m} (h : Rep hf t m) :
    ((t.keys.zip t.vals).filterMap allPair).length = t.members := by
  rw [h.mem, occ_eq_filterMap_length, ← allPair_keys t.keys t.vals (by rw [h.vlen, h.chain.len]),
    List.length_map]

theorem Rep.lenLive {hf : K → Nat} {t : Tab K V} {m} (h : Rep hf t m) :
    ((t.keys.zip t.vals).filterMap livePair).length ≤ t.members := by
  rw [← h.lenAll]
  exact (livePair_sublist _).length_le

theorem Rep.mem_le {hf : K → Nat} {t : Tab K V} {m} (h : Rep hf t m) : t.members ≤ t.size := by
  rw [h.mem, ← h.chain.len]; exact List.countP_le_length

theorem find_nodup {ps : List (K × Option V)} (hn : (ps.map Prod.fst).Nodup) (k : K) (v : Option V) :
    (ps.find? (fun p => p.1 = k)).map Prod.snd = some v ↔ (k, v) ∈ ps := by
  induction ps with
  | nil => simp
  | cons p ps ih =>
    obtain ⟨k', v'⟩ := p
    simp only [List.map_cons, List.nodup_cons] at hn
    rw [List.find?_cons]
    by_cases c : k' = k
    · subst c
      simp only [decide_true, Option.map_some, Option.some.injEq, List.mem_cons, Prod.mk.injEq,
        true_and]
      constructor
      · intro e; exact Or.inl e.symm
      · rintro (e | e)
        · exact e.symm
        · exact absurd (List.mem_map.2 ⟨_, e, rfl⟩) hn.1
    · simp only [c, decide_false]
      rw [ih hn.2]
      simp only [List.mem_cons, Prod.mk.injEq]
      constructor
      · intro e; exact Or.inr e
      · rintro (e | e)
        · exact absurd e.1.symm c
        · exact e

theorem ext_none (ps : List (K × Option V)) (k : K) :
    ext (fun _ => none) ps k = (ps.find? (fun p => p.1 = k)).map Prod.snd := by
  unfold ext
  cases ps.find? (fun p => p.1 = k) <;> rfl

theorem Rep.ext_all {hf : K → Nat} {t : Tab K V} {m} (h : Rep hf t m) :
    ext (fun _ => none) ((t.keys.zip t.vals).filterMap allPair) = m := by
  funext k
  apply Option.ext
  intro v
  rw [ext_none, find_nodup h.nodupAll, mem_allPair, h.rep]

theorem Rep.ext_live {hf : K → Nat} {t : Tab K V} {m} (h : Rep hf t m) (k : K) :
    (ext (fun _ => none) ((t.keys.zip t.vals).filterMap livePair) k).join = (m k).join := by
  apply Option.ext
  intro v
  rw [Option.join_eq_some_iff, Option.join_eq_some_iff, ext_none, find_nodup h.nodupLive,
    mem_livePair, h.rep]
  simp

theorem foldlM_onEntry {σ : Type} (f : σ → K → Option V → M σ) (l : List (Option K × Option V))
    (s : σ) : l.foldlM (onEntry f) s = (l.filterMap allPair).foldlM (fun s p => f s p.1 p.2) s := by
  apply foldlM_skip allPair
  · rintro s ⟨a, b⟩ hs
    cases a with
    | none => rfl
    | some k => simp [allPair] at hs
  · rintro s ⟨a, b⟩ p hs
    cases a with
    | none => simp [allPair] at hs
    | some k =>
      simp only [allPair, Option.some.injEq] at hs
      subst hs
      rfl

/-- Growth of `hash_t`. -/
theorem hash_grow {hf : K → Nat} {t : Tab K V} {m} (h : Rep hf t m) :
    ∃ t' m', (t.keys.zip t.vals).foldlM (hashRehashStep hf) (empty (t.size * 2)) = .ok t' ∧
      Rep hf t' m' ∧ (∀ k, (m' k).join = (m k).join) ∧ t'.size = t.size * 2 ∧
      t'.members ≤ t.size := by
  have hp : ∃ e, t.size * 2 = 2 ^ e := by
    obtain ⟨e, he⟩ := h.chain.pow
    exact ⟨e + 1, by rw [he, Nat.pow_succ]⟩
  have hlen := h.lenLive
  have hle := h.mem_le
  obtain ⟨t', h1, h2, h3, h4⟩ := foldlM_insert hf
    (fun t p => match insert hf t p.1 p.2 with
      | .error e => .error e
      | .ok (_, true) => .error .ub
      | .ok (t', false) => .ok t')
    (by intro t p t' h; simp only [h])
    ((t.keys.zip t.vals).filterMap livePair) (empty (t.size * 2)) (fun _ => none)
    (empty_rep hf _ hp) h.nodupLive (by intros; rfl) (by simp only [empty]; omega)
  refine ⟨t', _, ?_, h2, h.ext_live, h3, ?_⟩
  · rw [← h1]
    apply foldlM_skip livePair
    · rintro s ⟨a, b⟩ hs
      cases a with
      | none => rfl
      | some k =>
        cases b with
        | none => rfl
        | some v => simp [livePair] at hs
    · rintro s ⟨a, b⟩ p hs
      cases a with
      | none => simp [livePair] at hs
      | some k =>
        cases b with
        | none => simp [livePair] at hs
        | some v =>
          simp only [livePair, Option.some.injEq] at hs
          subst hs
          rfl
  · rw [h4]; simp only [empty]; omega

/-- Growth that keeps all entries, with any step that inserts. -/
theorem all_grow {hf : K → Nat} {t : Tab K V} {m} (h : Rep hf t m) :
    ∃ t', ((t.keys.zip t.vals).filterMap allPair).foldlM
        (fun t p => do let r ← insert hf t p.1 p.2; .ok r.1) (empty (t.size * 2)) = .ok t' ∧
      Rep hf t' m ∧ t'.size = t.size * 2 ∧ t'.members = t.members := by
  have hp : ∃ e, t.size * 2 = 2 ^ e := by
    obtain ⟨e, he⟩ := h.chain.pow
    exact ⟨e + 1, by rw [he, Nat.pow_succ]⟩
  have hlen := h.lenAll
  have hle := h.mem_le
  obtain ⟨t', h1, h2, h3, h4⟩ := foldlM_insert hf
    (fun t p => do let r ← insert hf t p.1 p.2; .ok r.1)
    (by intro t p t' h; simp only [h]; rfl)
    ((t.keys.zip t.vals).filterMap allPair) (empty (t.size * 2)) (fun _ => none)
    (empty_rep hf _ hp) h.nodupAll (by intros; rfl) (by simp only [empty]; omega)
  rw [h.ext_all] at h2
  refine ⟨t', h1, h2, h3, ?_⟩
  rw [h4, hlen]; simp [empty]

theorem hashPut_rep {hf : K → Nat} {t : Tab K V} {m} (h : Rep hf t m) (k : K) (v : Option V) :
    ∃ t' b m', hashPut hf t k v = .ok (t', b) ∧ Rep hf t' m' ∧
      (∀ k', (m' k').join = fupd (fun k => (m k).join) k v k') ∧
      t.size ≤ t'.size ∧ t'.members ≤ t'.size / 2 + 1 := by
  have fin : ∀ (t1 : Tab K V) (m1 : K → Option (Option V)), Rep hf t1 m1 →
      (∀ k, (m1 k).join = (m k).join) → t.size ≤ t1.size → t1.members ≤ t1.size / 2 →
      ∃ t' b m', insert hf t1 k v = .ok (t', b) ∧ Rep hf t' m' ∧
      (∀ k', (m' k').join = fupd (fun k => (m k).join) k v k') ∧
      t.size ≤ t'.size ∧ t'.members ≤ t'.size / 2 + 1 := by
    intro t1 m1 h1 hm hs hle
    have hpos := h1.chain.pos
    obtain ⟨t', g1, g2, g3, g4⟩ := insert_rep h1 k v (by omega)
    refine ⟨t', _, _, g1, g2, ?_, by omega, ?_⟩
    · intro k'
      unfold fupd
      by_cases c : k' = k
      · simp [c]
      · simp [c, hm]
    · rw [g4, g3]; split <;> omega
  unfold hashPut
  by_cases c : t.members > t.size / 2
  · rw [if_pos c]
    obtain ⟨t1, m1, h1, h2, h3, h4, h5⟩ := hash_grow h
    rw [h1, except_bind_ok]
    exact fin t1 m1 h2 h3 (by omega) (by omega)
  · rw [if_neg c, except_bind_ok]
    exact fin t m h (fun _ => rfl) (Nat.le_refl _) (by omega)

theorem shashPut_rep {hf : K → Nat} {t : Tab K V} {m} (h : Rep hf t m) (k : K) (v : Option V) :
    ∃ t', shashPut hf t k v = .ok t' ∧ Rep hf t' (fupd m k (some v)) ∧
      t.size ≤ t'.size ∧ t'.members ≤ t'.size / 2 + 1 := by
  have fin : ∀ (t1 : Tab K V), Rep hf t1 m → t.size ≤ t1.size → t1.members ≤ t1.size / 2 →
      ∃ t', (do let r ← insert hf t1 k v; Except.ok r.1 : M (Tab K V)) = .ok t' ∧
      Rep hf t' (fupd m k (some v)) ∧ t.size ≤ t'.size ∧ t'.members ≤ t'.size / 2 + 1 := by
    intro t1 h1 hs hle
    have hpos := h1.chain.pos
    obtain ⟨t', g1, g2, g3, g4⟩ := insert_rep h1 k v (by omega)
    refine ⟨t', by rw [g1]; rfl, g2, by omega, ?_⟩
    rw [g4, g3]; split <;> omega
  unfold shashPut
  by_cases c : t.members > t.size / 2
  · rw [if_pos c]
    obtain ⟨t1, h1, h2, h3, h4⟩ := all_grow h
    have hle := h.mem_le
    have e : (t.keys.zip t.vals).foldlM (onEntry (shashPutCopy hf)) (empty (t.size * 2))
        = .ok t1 := by
      rw [foldlM_onEntry]; exact h1
    rw [e, except_bind_ok]
    exact fin t1 h2 (by omega) (by omega)
  · rw [if_neg c, except_bind_ok]
    exact fin t h (Nat.le_refl _) (by omega)

end Verif.Hash
