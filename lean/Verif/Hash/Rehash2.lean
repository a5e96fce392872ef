import Verif.Hash.Rehash

namespace Verif.Hash

variable {K V : Type} [DecidableEq K]

theorem ihashPut_nogrow {hf : K → Nat} {it : ITab K V} {m} (h : Rep hf it.tab m) (d : Nat) (k : K)
    (v : Option V) (hle : it.tab.members ≤ it.tab.size / 2) :
    ∃ t', ihashPut hf d it k v = .ok ⟨t', some k, v⟩ ∧ Rep hf t' (fupd m k (some v)) ∧
      t'.size = it.tab.size ∧
      t'.members = it.tab.members + (if (m k).isSome then 0 else 1) := by
  have hpos := h.chain.pos
  obtain ⟨t', g1, g2, g3, g4⟩ := insert_rep h k v (by omega)
  refine ⟨t', ?_, g2, g3, g4⟩
  unfold ihashPut
  rw [if_neg (by omega), except_bind_ok]
  simp only [g1]
  rfl

theorem ihash_fold {hf : K → Nat} (ps : List (K × Option V)) (it : ITab K V)
    (m : K → Option (Option V)) (h : Rep hf it.tab m)
    (hn : (ps.map Prod.fst).Nodup) (hd : ∀ k ∈ ps.map Prod.fst, m k = none)
    (hroom : it.tab.members + ps.length ≤ it.tab.size / 2) :
    ∃ it', ps.foldlM (fun s p => ihashPut hf 0 s p.1 p.2) it = .ok it' ∧
      Rep hf it'.tab (ext m ps) ∧ it'.tab.size = it.tab.size ∧
      it'.tab.members = it.tab.members + ps.length := by
  induction ps generalizing it m with
  | nil => exact ⟨it, rfl, h, rfl, rfl⟩
  | cons p ps ih =>
    obtain ⟨k, v⟩ := p
    simp only [List.map_cons, List.nodup_cons] at hn
    simp only [List.length_cons] at hroom
    have hk : m k = none := hd k (by simp)
    obtain ⟨t1, h1, h2, h3, h4⟩ := ihashPut_nogrow h 0 k v (by omega)
    rw [hk] at h4
    simp only [Option.isSome_none, Bool.false_eq_true, if_false] at h4
    obtain ⟨it', g1, g2, g3, g4⟩ := ih ⟨t1, some k, v⟩ (fupd m k (some v)) h2 hn.2 (by
      intro k' hk'
      unfold fupd
      have : k' ≠ k := by rintro rfl; exact hn.1 hk'
      rw [if_neg this]
      exact hd k' (by simp only [List.map_cons, List.mem_cons]; exact Or.inr hk'))
      (by simp only; omega)
    simp only at g3 g4
    refine ⟨it', ?_, ?_, by omega, by simp only [List.length_cons]; omega⟩
    · rw [List.foldlM_cons]
      simp only [h1]
      exact g1
    · rw [← ext_cons m k v ps hn.1]; exact g2

/-- One level of recursion is enough: the rebuild loop never grows the table again. -/
theorem ihashPut_rep {hf : K → Nat} {it : ITab K V} {m} (h : Rep hf it.tab m) (d : Nat) (k : K)
    (v : Option V) :
    ∃ t', ihashPut hf (d + 1) it k v = .ok ⟨t', some k, v⟩ ∧ Rep hf t' (fupd m k (some v)) ∧
      it.tab.size ≤ t'.size ∧ t'.members ≤ t'.size / 2 + 1 ∧ 0 < t'.members := by
  have pos : ∀ t' : Tab K V, Rep hf t' (fupd m k (some v)) → 0 < t'.members := by
    intro t' hr
    obtain ⟨i, hi, _⟩ := (hr.rep k v).1 (by simp [fupd])
    rw [hr.mem]
    apply List.countP_pos_iff.2
    exact ⟨some k, List.mem_of_getElem? hi, rfl⟩
  have hle := h.mem_le
  by_cases c : it.tab.members > it.tab.size / 2
  · have hp : ∃ e, it.tab.size * 2 = 2 ^ e := by
      obtain ⟨e, he⟩ := h.chain.pow
      exact ⟨e + 1, by rw [he, Nat.pow_succ]⟩
    have hpos := h.chain.pos
    have hlen := h.lenAll
    obtain ⟨it1, g1, g2, g3, g4⟩ := ihash_fold (hf := hf)
      ((it.tab.keys.zip it.tab.vals).filterMap allPair)
      { it with tab := empty (it.tab.size * 2) } (fun _ => none) (empty_rep hf _ hp) h.nodupAll
      (by intros; rfl) (by simp only [empty]; omega)
    rw [h.ext_all] at g2
    simp only [empty] at g3 g4
    obtain ⟨t', k1, k2, k3, k4⟩ := insert_rep g2 k v (by omega)
    refine ⟨t', ?_, k2, by omega, by rw [k4]; split <;> omega, pos _ k2⟩
    unfold ihashPut
    rw [if_pos c]
    simp only []
    have e : (it.tab.keys.zip it.tab.vals).foldlM (onEntry (ihashPut hf 0))
        { it with tab := empty (it.tab.size * 2) } = .ok it1 := by
      rw [foldlM_onEntry]; exact g1
    have e' : (it.tab.keys.zip it.tab.vals).foldlM (onEntry (ihashPut hf d))
        { it with tab := empty (it.tab.size * 2) } = .ok it1 := by
      cases d with
      | zero => exact e
      | succ d =>
        rw [foldlM_onEntry]
        clear e
        revert g1
        -- deeper recursion behaves the same because no growth happens
        have gen : ∀ (ps : List (K × Option V)) (s : ITab K V) (m0 : K → Option (Option V)),
            Rep hf s.tab m0 → s.tab.members + ps.length ≤ s.tab.size / 2 →
            ps.foldlM (fun s p => ihashPut hf (d + 1) s p.1 p.2) s =
              ps.foldlM (fun s p => ihashPut hf 0 s p.1 p.2) s := by
          intro ps
          induction ps with
          | nil => intros; rfl
          | cons p ps ih =>
            intro s m0 hr hl
            simp only [List.length_cons] at hl
            obtain ⟨a, a1, a2, a3, a4⟩ := ihashPut_nogrow hr (d + 1) p.1 p.2 (by omega)
            obtain ⟨b, b1, b2, b3, b4⟩ := ihashPut_nogrow hr 0 p.1 p.2 (by omega)
            have eab : ihashPut hf (d + 1) s p.1 p.2 = ihashPut hf 0 s p.1 p.2 := by
              conv => lhs; unfold ihashPut
              conv => rhs; unfold ihashPut
              rw [if_neg (by omega), if_neg (by omega)]
            rw [List.foldlM_cons, List.foldlM_cons]
            simp only [eab, b1]
            exact ih ⟨b, some p.1, p.2⟩ _ b2 (by simp only; split at b4 <;> omega)
        rw [gen _ _ _ (empty_rep hf _ hp) (by simp only [empty]; omega)]
        exact fun h => h
    rw [e', except_bind_ok]
    simp only [k1]
    rfl
  · obtain ⟨t', k1, k2, k3, k4⟩ := ihashPut_nogrow h (d + 1) k v (by omega)
    refine ⟨t', k1, k2, by omega, ?_, pos _ k2⟩
    rw [k4, k3]; split <;> omega

/-! ## hset -/

theorem set_some_eq {vals : List (Option Unit)} {i : Nat} (h : vals[i]? = some (some ())) :
    vals.set i (some ()) = vals := by
  obtain ⟨h1, h2⟩ := List.getElem?_eq_some_iff.1 h
  rw [← h2]; exact List.set_getElem_self h1

/-- The abstract map of a set. -/
def setMap (s : K → Bool) : K → Option (Option Unit) := fun k => if s k then some (some ()) else none

theorem hset_core {hf : K → Nat} {t : Tab K Unit} {s : K → Bool} (h : Rep hf t (setMap s)) (k : K)
    (hroom : t.members < t.size) :
    ∃ t', (match find hf t k with
      | .error e => (.error e : M (Tab K Unit))
      | .ok (_, true) => .ok t
      | .ok (i, false) => .ok ⟨t.size, t.members + 1, t.keys.set i (some k), t.vals.set i (some ())⟩) = .ok t' ∧
      Rep hf t' (setMap (fupd s k true)) ∧ t'.size = t.size ∧ t'.members ≤ t.members + 1 := by
  obtain ⟨t', h1, h2, h3, h4⟩ := insert_rep h k (some ()) hroom
  have em : fupd (setMap s) k (some (some ())) = setMap (fupd s k true) := by
    funext k'
    unfold fupd setMap
    by_cases c : k' = k <;> simp [c]
  rw [em] at h2
  refine ⟨t', ?_, h2, h3, by rw [h4]; split <;> omega⟩
  unfold insert at h1
  cases hfd : find hf t k with
  | error e => rw [hfd] at h1; cases h1
  | ok r =>
    obtain ⟨i, b⟩ := r
    rw [hfd] at h1
    cases b with
    | false =>
      simp only [Except.ok.injEq, Prod.mk.injEq] at h1
      simp only [h1.1]
    | true =>
      simp only [Except.ok.injEq, Prod.mk.injEq] at h1
      have hi : t.keys[i]? = some (some k) := by
        unfold find slotOf at hfd
        rw [mask_eq h.chain.pow] at hfd
        obtain ⟨d, _, _, _, hh⟩ := probe_ok h.chain.pow k _ _ _ _ hfd
        simpa using hh
      have hlt : i < t.vals.length := by
        rw [h.vlen, ← h.chain.len]; exact lt_of_getElem? hi
      have hv : t.vals[i]? = some (some ()) := by
        have hat : At t k t.vals[i] := ⟨i, hi, List.getElem?_eq_getElem hlt⟩
        have := (h.rep k _).2 hat
        unfold setMap at this
        split at this
        · simp only [Option.some.injEq] at this
          rw [List.getElem?_eq_getElem hlt, ← this]
        · cases this
      have e := h1.1
      rw [set_some_eq hv] at e
      exact congrArg Except.ok e

theorem hsetInsert_nogrow {hf : K → Nat} {t : Tab K Unit} {s : K → Bool}
    (h : Rep hf t (setMap s)) (d : Nat) (k : K) (hle : t.members ≤ t.size / 2) :
    ∃ t', hsetInsert hf d t k = .ok t' ∧ Rep hf t' (setMap (fupd s k true)) ∧ t'.size = t.size ∧
      t'.members ≤ t.members + 1 := by
  have hpos := h.chain.pos
  obtain ⟨t', g⟩ := hset_core h k (by omega)
  refine ⟨t', ?_, g.2⟩
  unfold hsetInsert
  rw [if_neg (by omega), except_bind_ok]
  exact g.1

theorem hset_fold {hf : K → Nat} (d : Nat) (ps : List (K × Option Unit)) (t : Tab K Unit)
    (s : K → Bool) (h : Rep hf t (setMap s)) (hroom : t.members + ps.length ≤ t.size / 2) :
    ∃ t', ps.foldlM (fun t p => hsetInsert hf d t p.1) t = .ok t' ∧
      Rep hf t' (setMap (fun k => s k || ps.any (fun p => p.1 = k))) ∧ t'.size = t.size ∧
      t'.members ≤ t.members + ps.length := by
  induction ps generalizing t s with
  | nil => exact ⟨t, rfl, by simpa using h, rfl, Nat.le_refl _⟩
  | cons p ps ih =>
    simp only [List.length_cons] at hroom
    obtain ⟨t1, h1, h2, h3, h4⟩ := hsetInsert_nogrow h d p.1 (by omega)
    obtain ⟨t', g1, g2, g3, g4⟩ := ih t1 _ h2 (by omega)
    refine ⟨t', ?_, ?_, by omega, by simp only [List.length_cons]; omega⟩
    · rw [List.foldlM_cons, h1]; exact g1
    · have : (fun k => fupd s p.1 true k || ps.any (fun p => p.1 = k)) =
          fun k => s k || (p :: ps).any (fun p => p.1 = k) := by
        funext k
        unfold fupd
        by_cases c : k = p.1
        · subst c; simp
        · have c' : ¬ p.1 = k := fun e => c e.symm
          simp [c, c']
      rw [← this]; exact g2

theorem hsetInsert_rep {hf : K → Nat} {t : Tab K Unit} {s : K → Bool}
    (h : Rep hf t (setMap s)) (d : Nat) (k : K) :
    ∃ t', hsetInsert hf (d + 1) t k = .ok t' ∧ Rep hf t' (setMap (fupd s k true)) ∧
      t.size ≤ t'.size ∧ t'.members ≤ t'.size / 2 + 1 := by
  have hle := h.mem_le
  by_cases c : t.members > t.size / 2
  · have hp : ∃ e, t.size * 2 = 2 ^ e := by
      obtain ⟨e, he⟩ := h.chain.pow
      exact ⟨e + 1, by rw [he, Nat.pow_succ]⟩
    have hpos := h.chain.pos
    have hlen := h.lenAll
    have he : Rep hf (empty (t.size * 2) : Tab K Unit) (setMap fun _ => false) := by
      have := empty_rep (V := Unit) hf _ hp
      exact this
    obtain ⟨t1, g1, g2, g3, g4⟩ := hset_fold (hf := hf) d
      ((t.keys.zip t.vals).filterMap allPair) _ _ he (by simp only [empty]; omega)
    have es : (fun k => false || ((t.keys.zip t.vals).filterMap allPair).any
        (fun p => decide (p.1 = k))) = s := by
      funext k
      rw [Bool.false_or, Bool.eq_iff_iff, List.any_eq_true]
      constructor
      · rintro ⟨⟨k', v⟩, hm, hk⟩
        simp only [decide_eq_true_eq] at hk
        subst hk
        rw [mem_allPair, ← h.rep] at hm
        unfold setMap at hm
        by_cases c : s k' = true
        · exact c
        · rw [if_neg c] at hm; cases hm
      · intro hs
        refine ⟨(k, some ()), ?_, by simp⟩
        rw [mem_allPair, ← h.rep]
        unfold setMap
        rw [if_pos hs]
    rw [es] at g2
    simp only [empty] at g3 g4
    obtain ⟨t', k1, k2, k3, k4⟩ := hset_core g2 k (by omega)
    refine ⟨t', ?_, k2, by omega, by omega⟩
    unfold hsetInsert
    rw [if_pos c]
    simp only []
    rw [foldlM_onEntry, g1, except_bind_ok]
    exact k1
  · obtain ⟨t', k1, k2, k3, k4⟩ := hsetInsert_nogrow h (d + 1) k (by omega)
    exact ⟨t', k1, k2, by omega, by omega⟩

theorem hsetContains_rep {hf : K → Nat} {t : Tab K Unit} {s : K → Bool}
    (h : Rep hf t (setMap s)) (k : K) (hroom : t.members < t.size ∨ s k = true) :
    hsetContains hf t k = .ok (s k) := by
  unfold hsetContains
  cases hs : s k with
  | true =>
    obtain ⟨i, hi, _⟩ := (h.rep k (some ())).1 (by unfold setMap; rw [if_pos hs])
    rw [find_present h.chain h.uniq hi]
  | false =>
    have hm : setMap s k = none := by unfold setMap; simp [hs]
    have hab := h.absent hm
    have hfree : ∃ i : Nat, t.keys[i]? = some none := by
      apply free_of_occ; rw [← h.mem, h.chain.len]
      rcases hroom with h | h
      · exact h
      · rw [hs] at h; cases h
    obtain ⟨i, hfi, _⟩ := find_absent h.chain hfree hab
    rw [hfi]

end Verif.Hash
