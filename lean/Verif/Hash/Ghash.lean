import Verif.Hash.Rehash2

namespace Verif.Hash

variable {K V : Type} [DecidableEq K]

/-- Representation for the generic table: a key may be stored several times, always with the
same value. -/
structure GRep (hf : K → Nat) (t : Tab K V) (m : K → Option (Option V)) : Prop where
  chain : Chain hf t.size t.keys
  vlen : t.vals.length = t.size
  mem : t.members = occ t.keys
  sound : ∀ (i : Nat) k, t.keys[i]? = some (some k) → ∃ v, m k = some v ∧ t.vals[i]? = some v
  complete : ∀ k v, m k = some v → ∃ i : Nat, t.keys[i]? = some (some k)

theorem empty_grep (hf : K → Nat) (size : Nat) (hp : ∃ e, size = 2 ^ e) :
    GRep hf (empty size : Tab K V) (fun _ => none) := by
  have h := empty_rep (V := V) hf size hp
  refine ⟨h.chain, h.vlen, h.mem, ?_, by simp⟩
  intro i k hk
  exact absurd hk (h.absent rfl i)

theorem map_set_eq {α : Type} (l : List α) (i : Nat) (a : α) (j : Nat) (hl : j < l.length) :
    (l.set i a)[j]? = if i = j then some a else l[j]? := by
  by_cases c : i = j
  · subst c; rw [if_pos rfl, getElem?_set_same hl]
  · rw [if_neg c, List.getElem?_set_ne c]

/-- The insertion loop started at the home slot of `k` with `d` occupied slots behind it. -/
theorem ghashLoop_spec {hf : K → Nat} {t : Tab K V} (hch : Chain hf t.size t.keys)
    (hv : t.vals.length = t.size)
    (k : K) (v : Option V) (hfree : ∃ i : Nat, t.keys[i]? = some none) :
    ∀ (f b : Nat) (t0 : Tab K V), b + f = t.size → t0.keys = t.keys → t0.size = t.size →
      t0.members = t.members → t0.vals.length = t.size →
      (∀ d, d < b → ∃ k', t.keys[(hf k + d) % t.size]? = some (some k')) →
      (∀ j : Nat, j < t.size → t0.vals[j]? =
        if t.keys[j]? = some (some k) ∧ ∃ d, d < b ∧ (hf k + d) % t.size = j then some v
        else t.vals[j]?) →
      ∃ (i d : Nat) (t' : Tab K V), ghashLoop t.size k v f ((hf k + b) % t.size) t0 = .ok t' ∧
        d < t.size ∧ (hf k + d) % t.size = i ∧ t.keys[i]? = some none ∧
        (∀ d', d' < d → ∃ k', t.keys[(hf k + d') % t.size]? = some (some k')) ∧
        t'.size = t.size ∧ t'.members = t.members + 1 ∧ t'.keys = t.keys.set i (some k) ∧
        t'.vals.length = t.size ∧
        ∀ j : Nat, j < t.size → t'.vals[j]? =
          if j = i then some v
          else if t.keys[j]? = some (some k) ∧ ∃ d', d' < d ∧ (hf k + d') % t.size = j then some v
          else t.vals[j]? := by
  have hpos := hch.pos
  intro f
  induction f with
  | zero =>
    intro b t0 hb hk0 hs0 hm0 hl0 hocc hval
    obtain ⟨i, hi⟩ := hfree
    have hlt : i < t.size := by rw [← hch.len]; exact lt_of_getElem? hi
    obtain ⟨d, hd, he⟩ := exists_offset (hf k) i hlt
    obtain ⟨k', hk'⟩ := hocc d (by omega)
    rw [he, hi] at hk'
    cases hk'
  | succ f ih =>
    intro b t0 hb hk0 hs0 hm0 hl0 hocc hval
    have hmod : (hf k + b) % t.size < t.size := Nat.mod_lt _ hpos
    have hin : (hf k + b) % t.size < t.keys.length := by rw [hch.len]; exact hmod
    unfold ghashLoop
    rw [hk0]
    cases hx : t.keys[(hf k + b) % t.size] with
    | none =>
      have hx' : t.keys[(hf k + b) % t.size]? = some none := by
        rw [List.getElem?_eq_getElem hin, hx]
      rw [hx']
      refine ⟨(hf k + b) % t.size, b, _, rfl, by omega, rfl, hx', hocc, hs0, by rw [hm0], rfl,
        by simp [hl0], ?_⟩
      intro j hj
      simp only
      rw [map_set_eq _ _ _ _ (by omega)]
      by_cases c : (hf k + b) % t.size = j
      · rw [if_pos c, if_pos c.symm]
      · rw [if_neg c, if_neg (fun e => c e.symm)]
        exact hval j hj
    | some k' =>
      have hx' : t.keys[(hf k + b) % t.size]? = some (some k') := by
        rw [List.getElem?_eq_getElem hin, hx]
      rw [hx']
      simp only
      have hnext : ((hf k + b) % t.size + 1) &&& (t.size - 1) = (hf k + (b + 1)) % t.size := by
        rw [mask_eq hch.pow, Nat.mod_add_mod]; rfl
      rw [hnext]
      apply ih (b + 1) _ (by omega)
      · split
        · rfl
        · exact hk0
      · split <;> exact hs0
      · split <;> exact hm0
      · split
        · simp [hl0]
        · exact hl0
      · intro d hd
        by_cases c : d < b
        · exact hocc d c
        · have : d = b := by omega
          subst this; exact ⟨k', hx'⟩
      · intro j hj
        by_cases ck : k' = k
        · rw [if_pos ck]
          simp only
          rw [map_set_eq _ _ _ _ (by omega)]
          by_cases c : (hf k + b) % t.size = j
          · rw [if_pos c, if_pos ⟨by rw [← c, hx', ck], b, by omega, c⟩]
          · rw [if_neg c, hval j hj]
            congr 1
            apply propext
            constructor
            · rintro ⟨a1, d, a2, a3⟩; exact ⟨a1, d, by omega, a3⟩
            · rintro ⟨a1, d, a2, a3⟩
              refine ⟨a1, d, ?_, a3⟩
              have : d ≠ b := by rintro rfl; exact c a3
              omega
        · rw [if_neg ck, hval j hj]
          congr 1
          apply propext
          constructor
          · rintro ⟨a1, d, a2, a3⟩; exact ⟨a1, d, by omega, a3⟩
          · rintro ⟨a1, d, a2, a3⟩
            refine ⟨a1, d, ?_, a3⟩
            have : d ≠ b := by
              rintro rfl
              rw [← a3, hx'] at a1
              simp only [Option.some.injEq] at a1
              exact ck a1
            omega

theorem ghash_core {hf : K → Nat} {t : Tab K V} {m} (h : GRep hf t m) (k : K) (v : Option V)
    (hroom : t.members < t.size) :
    ∃ t', ghashLoop t.size k v t.size (slotOf hf t.size k) t = .ok t' ∧
      GRep hf t' (fupd m k (some v)) ∧ t'.size = t.size ∧ t'.members = t.members + 1 := by
  have hfree : ∃ i : Nat, t.keys[i]? = some none := by
    apply free_of_occ; rw [← h.mem, h.chain.len]; exact hroom
  obtain ⟨i, d, t', g1, hd, he, hi, hocc, g2, g3, g4, g5, g6⟩ := ghashLoop_spec h.chain h.vlen k v
    hfree t.size 0 t (by omega) rfl rfl rfl h.vlen (by intro d hd; omega) (by
      intro j hj; rw [if_neg]; rintro ⟨_, d, hd, _⟩; omega)
  have hil : i < t.keys.length := lt_of_getElem? hi
  have hvs : ∀ (j : Nat) k', t'.keys[j]? = some (some k') →
      ∃ w, fupd m k (some v) k' = some w ∧ t'.vals[j]? = some w := by
    intro j k' hj
    rw [g4] at hj
    have hjl : j < t.keys.length := by have := lt_of_getElem? hj; simpa using this
    rw [map_set_eq _ _ _ _ hjl] at hj
    rw [g6 j (by rw [← h.chain.len]; exact hjl)]
    by_cases c : i = j
    · rw [if_pos c] at hj
      simp only [Option.some.injEq] at hj
      rw [if_pos c.symm]
      exact ⟨v, by simp [fupd, hj], rfl⟩
    · rw [if_neg c] at hj
      rw [if_neg (fun e => c e.symm)]
      obtain ⟨w, hw1, hw2⟩ := h.sound j k' hj
      by_cases ck : k' = k
      · subst ck
        rw [if_pos]
        · exact ⟨v, by simp [fupd], rfl⟩
        · refine ⟨hj, ?_⟩
          obtain ⟨dj, hdj, hej, hcj⟩ := h.chain.chain j k' hj
          refine ⟨dj, ?_, hej⟩
          apply Classical.byContradiction
          intro hge
          by_cases heq : dj = d
          · subst heq; exact c (he.symm.trans hej)
          · obtain ⟨k2, hk2⟩ := hcj d (by omega)
            rw [he, hi] at hk2; cases hk2
      · rw [if_neg]
        · exact ⟨w, by simp [fupd, ck, hw1], hw2⟩
        · rintro ⟨a, _⟩
          rw [hj] at a
          simp only [Option.some.injEq] at a
          exact ck a
  refine ⟨t', ?_, ⟨?_, by rw [g5, g2], ?_, hvs, ?_⟩, g2, g3⟩
  · unfold slotOf
    rw [mask_eq h.chain.pow]
    exact g1
  · rw [g4, g2]
    exact chain_set h.chain hi hd he hocc
  · rw [g3, g4, occ_set hi, h.mem]
  · intro k' w hw
    rw [g4]
    by_cases ck : k' = k
    · subst ck; exact ⟨i, getElem?_set_same hil⟩
    · have : m k' = some w := by simpa [fupd, ck] using hw
      obtain ⟨j, hj⟩ := h.complete k' w this
      refine ⟨j, ?_⟩
      have : i ≠ j := by rintro rfl; rw [hi] at hj; cases hj
      rw [List.getElem?_set_ne this]; exact hj

theorem ghash_fold {hf : K → Nat} (n : Nat) (ps : List (K × Option V)) (t : Tab K V)
    (m : K → Option (Option V)) (h : GRep hf t m) (hroom : t.members + ps.length ≤ t.size / 2) :
    ∃ t', ps.foldlM (fun t p => ghashPut hf n t p.1 p.2) t = .ok t' ∧
      GRep hf t' (ps.foldl (fun m p => fupd m p.1 (some p.2)) m) ∧ t'.size = t.size ∧
      t'.members = t.members + ps.length := by
  induction ps generalizing t m with
  | nil => exact ⟨t, rfl, h, rfl, rfl⟩
  | cons p ps ih =>
    simp only [List.length_cons] at hroom
    have hpos := h.chain.pos
    obtain ⟨t1, h1, h2, h3, h4⟩ := ghash_core h p.1 p.2 (by omega)
    obtain ⟨t', g1, g2, g3, g4⟩ := ih t1 _ h2 (by omega)
    refine ⟨t', ?_, g2, by omega, by simp only [List.length_cons]; omega⟩
    have e : ghashPut hf n t p.1 p.2 = .ok t1 := by
      unfold ghashPut
      rw [if_neg (by omega), except_bind_ok]; exact h1
    rw [List.foldlM_cons, e]; exact g1

theorem foldl_upd (m : K → Option (Option V)) (ps : List (K × Option V)) (m0 : K → Option (Option V))
    (h : ∀ p ∈ ps, m p.1 = some p.2) (k : K) :
    ps.foldl (fun m p => fupd m p.1 (some p.2)) m0 k =
      if k ∈ ps.map Prod.fst then m k else m0 k := by
  induction ps generalizing m0 with
  | nil => simp
  | cons p ps ih =>
    rw [List.foldl_cons, ih _ (fun q hq => h q (by simp [hq]))]
    by_cases c : k ∈ ps.map Prod.fst
    · rw [if_pos c, if_pos (by simp only [List.map_cons, List.mem_cons]; exact Or.inr c)]
    · rw [if_neg c]
      by_cases e : k = p.1
      · subst e
        rw [if_pos (by simp), h p (by simp)]
        simp [fupd]
      · rw [if_neg (by simp only [List.map_cons, List.mem_cons, not_or]; exact ⟨e, c⟩)]
        simp [fupd, e]

theorem ghashPut_rep {hf : K → Nat} {t : Tab K V} {m} (h : GRep hf t m) (n : Nat) (k : K)
    (v : Option V) :
    ∃ t', ghashPut hf (n + 1) t k v = .ok t' ∧ GRep hf t' (fupd m k (some v)) ∧
      t.size ≤ t'.size ∧ t'.members ≤ t'.size / 2 + 1 := by
  have hle : t.members ≤ t.size := by
    rw [h.mem, ← h.chain.len]; exact List.countP_le_length
  have hpos := h.chain.pos
  by_cases c : t.members > t.size / 2
  · have hp : ∃ e, t.size * 2 = 2 ^ e := by
      obtain ⟨e, he⟩ := h.chain.pow
      exact ⟨e + 1, by rw [he, Nat.pow_succ]⟩
    have hlen : ((t.keys.zip t.vals).filterMap allPair).length = t.members := by
      rw [h.mem, occ_eq_filterMap_length,
        ← allPair_keys t.keys t.vals (by rw [h.vlen, h.chain.len]), List.length_map]
    obtain ⟨t1, g1, g2, g3, g4⟩ := ghash_fold (hf := hf) n
      ((t.keys.zip t.vals).filterMap allPair) _ _ (empty_grep (V := V) hf _ hp)
      (by simp only [empty]; omega)
    have em : ((t.keys.zip t.vals).filterMap allPair).foldl
        (fun m p => fupd m p.1 (some p.2)) (fun _ => none) = m := by
      funext k'
      rw [foldl_upd m]
      · rw [allPair_keys _ _ (by rw [h.vlen, h.chain.len])]
        split
        · rfl
        · rename_i hn
          cases hm : m k' with
          | none => rfl
          | some w =>
            obtain ⟨i, hi⟩ := h.complete k' w hm
            exact absurd (List.mem_filterMap.2 ⟨some k', List.mem_of_getElem? hi, (rfl : id (some k') = some k')⟩) hn
      · rintro ⟨k', w⟩ hmem
        rw [mem_allPair] at hmem
        obtain ⟨i, hi1, hi2⟩ := hmem
        obtain ⟨w', e1, e2⟩ := h.sound i k' hi1
        rw [hi2] at e2
        simp only [Option.some.injEq] at e2
        simp only [e1, e2]
    rw [em] at g2
    simp only [empty] at g3 g4
    obtain ⟨t', k1, k2, k3, k4⟩ := ghash_core g2 k v (by omega)
    refine ⟨t', ?_, k2, by omega, by omega⟩
    unfold ghashPut
    rw [if_pos c]
    simp only []
    rw [foldlM_onEntry, g1, except_bind_ok]
    exact k1
  · obtain ⟨t', k1, k2, k3, k4⟩ := ghash_core h k v (by omega)
    refine ⟨t', ?_, k2, by omega, by omega⟩
    unfold ghashPut
    rw [if_neg c, except_bind_ok]
    exact k1

theorem ghashGet_rep {hf : K → Nat} {t : Tab K V} {m} (h : GRep hf t m) (k : K)
    (hroom : t.members < t.size) : ghashGet hf t k = .ok (m k).join := by
  have hfree : ∃ i : Nat, t.keys[i]? = some none := by
    apply free_of_occ; rw [← h.mem, h.chain.len]; exact hroom
  unfold ghashGet get
  cases hm : m k with
  | none =>
    have hab : ∀ i : Nat, t.keys[i]? ≠ some (some k) := by
      intro i hi
      obtain ⟨v, hv, _⟩ := h.sound i k hi
      rw [hm] at hv; cases hv
    obtain ⟨i, hfi, _⟩ := find_absent h.chain hfree hab
    rw [hfi]; rfl
  | some w =>
    obtain ⟨i, hi⟩ := h.complete k w hm
    obtain ⟨d, hd, he, hc⟩ := h.chain.chain i k hi
    have e : find hf t k = probe t.keys t.size k t.size (hf k % t.size) := by
      unfold find slotOf; rw [mask_eq h.chain.pow]
    obtain ⟨⟨j, fd⟩, hr⟩ := probe_hit h.chain.pow h.chain.len k t.size (hf k) d hd
      (Or.inr (by rw [he]; exact hi))
    obtain ⟨d', hd', he', hc', hj⟩ := probe_ok h.chain.pow k _ _ _ _ hr
    rw [e, hr]
    cases fd with
    | true =>
      simp only [if_true] at hj
      obtain ⟨w', e1, e2⟩ := h.sound j k hj
      rw [hm] at e1
      simp only [Option.some.injEq] at e1
      simp only [e2, e1]; rfl
    | false =>
      exfalso
      simp only [Bool.false_eq_true, if_false] at hj
      by_cases c : d' < d
      · obtain ⟨k2, hk2⟩ := hc d' c
        rw [← he', hj] at hk2; cases hk2
      · by_cases c2 : d' = d
        · subst c2
          rw [he', he, hi] at hj; cases hj
        · obtain ⟨k2, hk2, hne⟩ := hc' d (by omega)
          rw [he, hi] at hk2
          simp only [Option.some.injEq] at hk2
          exact hne hk2.symm

end Verif.Hash
