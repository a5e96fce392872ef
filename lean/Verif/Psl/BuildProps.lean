import Verif.Psl.BuildSeq
import Verif.Psl.SimplifyProps

/-!
# The automaton of a sequence recognises the sequence
-/

namespace Verif.Psl

/-- A sequence describes a list of cycles: all of it, from the first to the last one. -/
def Describes (p : Psl) (ws : List (Nat → Bool)) : Prop :=
  Match (fun i => ws[i]?.getD fun _ => false) p 0 ws.length

/-! ## Paths and automata -/

/-- State `t` is the only accepting one and accepts always. -/
structure Final (f : Fsm) (t : Nat) : Prop where
  here : ∃ st, f.states[t]? = some st ∧ st.accept = true ∧ st.guard = .null
  only : ∀ (x : Nat) (st : State), f.states[x]? = some st → st.accept = true → x = t

theorem reaches_edge {f : Fsm} {x : Nat} {st : State} {eps : Bool} {d : Nat} {v : Nat → Bool}
    (hx : f.states[x]? = some st) (h : Reaches st.edges eps d v) :
    ∃ e, HasEdge f x e ∧ e.eps = eps ∧ e.dest = d ∧ e.guard.True v := by
  obtain ⟨e, he, h1, h2, h3⟩ := h
  exact ⟨e, ⟨st, hx, he⟩, h1, h2, h3⟩

theorem accepts_path {w : Nat → Nat → Bool} {f : Fsm} {t : Nat} (h : Final f t) {x j : Nat}
    (ha : Accepts f (w j) x) : Path w (HasEdge f) x j t j := by
  generalize hv : w j = v at ha
  induction ha with
  | here h1 h2 _ =>
    rw [h.only _ _ h1 h2]
    exact .refl
  | eps h1 h2 _ ih =>
    obtain ⟨e, he, e1, e2, e3⟩ := reaches_edge h1 h2
    subst e2
    have p1 := Path.step (w := w) (R := HasEdge f) (i := j) .refl he (by rw [hv]; exact e3)
    rw [e1] at p1
    exact p1.trans ih

theorem moves_path {w : Nat → Nat → Bool} {f : Fsm} {x y j : Nat} (h : Moves f (w j) x y) :
    Path w (HasEdge f) x j y (j + 1) := by
  generalize hv : w j = v at h
  induction h with
  | next h1 h2 =>
    obtain ⟨e, he, e1, e2, e3⟩ := reaches_edge h1 h2
    subst e2
    have p1 := Path.step (w := w) (R := HasEdge f) (i := j) .refl he (by rw [hv]; exact e3)
    rw [e1] at p1
    exact p1
  | eps h1 h2 _ ih =>
    obtain ⟨e, he, e1, e2, e3⟩ := reaches_edge h1 h2
    subst e2
    have p1 := Path.step (w := w) (R := HasEdge f) (i := j) .refl he (by rw [hv]; exact e3)
    rw [e1] at p1
    exact p1.trans ih

theorem recognises_path {w : Nat → Nat → Bool} {f : Fsm} {t : Nat} (h : Final f t) {x : Nat}
    {ws : List (Nat → Bool)} (hr : Recognises f x ws) :
    ∀ j, (∀ k (hk : k < ws.length), w (j + k) = ws[k]) →
      ∃ n, ws.length = n + 1 ∧ Path w (HasEdge f) x j t (j + n) := by
  induction hr with
  | last ha =>
    intro j hw
    have h0 := hw 0 (by simp)
    refine ⟨0, rfl, accepts_path h ?_⟩
    rw [Nat.add_zero] at h0
    rw [h0]
    exact ha
  | step hm _ ih =>
    rename_i x y v ws _
    intro j hw
    have h0 := hw 0 (by simp)
    rw [Nat.add_zero] at h0
    obtain ⟨n, h1, h2⟩ := ih (j + 1) (fun k hk => by
      have := hw (k + 1) (by simpa using hk)
      rw [Nat.add_right_comm, Nat.add_assoc]
      simpa using this)
    refine ⟨n + 1, by simp [h1], ?_⟩
    have hm' : Moves f (w j) x y := by rw [h0]; exact hm
    have := (moves_path hm').trans h2
    rw [Nat.add_assoc, Nat.add_comm 1 n] at this
    exact this

theorem path_recognises {w : Nat → Nat → Bool} {f : Fsm} {s i y j : Nat}
    (p : Path w (HasEdge f) s i y j) :
    ∀ vs, Recognises f y (w j :: vs) →
      Recognises f s ((List.range' i (j - i)).map w ++ w j :: vs) := by
  induction p with
  | refl =>
    intro vs h
    simpa using h
  | step q hr hg ih =>
    rename_i x j e
    intro vs h
    have hle := q.le
    obtain ⟨st, hst, he⟩ := hr
    cases hk : e.eps with
    | true =>
      rw [hk] at h
      have hre : Reaches st.edges true e.dest (w j) := ⟨e, he, hk, rfl, hg⟩
      simp only [cost, if_true, Nat.add_zero] at h ⊢
      refine ih vs ?_
      cases h with
      | last ha => exact .last (.eps hst hre ha)
      | step hm hr' => exact .step (.eps hst hre hm) hr'
    | false =>
      rw [hk] at h
      have hre : Reaches st.edges false e.dest (w j) := ⟨e, he, hk, rfl, hg⟩
      simp only [cost, Bool.false_eq_true, if_false] at h ⊢
      have := ih (w (j + 1) :: vs) (.step (.next hst hre) h)
      have hlen : j + 1 - i = (j - i) + 1 := by omega
      rw [hlen, List.range'_concat, List.map_append, List.append_assoc]
      simpa [Nat.add_sub_cancel' hle] using this

/-- The lists that are recognised are the paths to the final state. -/
theorem recognises_iff {f : Fsm} {t : Nat} (h : Final f t) (s : Nat) (ws : List (Nat → Bool)) :
    Recognises f s ws ↔ ∃ n, ws.length = n + 1 ∧
      Path (fun i => ws[i]?.getD fun _ => false) (HasEdge f) s 0 t n := by
  constructor
  · intro hr
    obtain ⟨n, h1, h2⟩ := recognises_path (w := fun i => ws[i]?.getD fun _ => false) h hr 0
      (fun k hk => by simp [List.getElem?_eq_getElem hk])
    rw [Nat.zero_add] at h2
    exact ⟨n, h1, h2⟩
  · rintro ⟨n, h1, h2⟩
    obtain ⟨st, hst, ha, hg⟩ := h.here
    have := path_recognises h2 [] (.last (.here hst ha (by rw [hg]; trivial)))
    have hws : ws = (List.range' 0 (n - 0)).map (fun i => ws[i]?.getD fun _ => false) ++
        [ws[n]?.getD fun _ => false] := by
      apply List.ext_getElem
      · simp [h1]
      · intro k hk1 hk2
        rw [List.getElem_append]
        split
        · simp [List.getElem?_eq_getElem hk1]
        · rename_i hlt
          simp only [Nat.sub_zero, List.length_map, List.length_range', Nat.not_lt] at hlt
          have hkn : k = n := by omega
          subst hkn
          simp [List.getElem?_eq_getElem hk1]
    rw [← hws] at this
    exact this

/-! ## The automaton of a sequence -/

theorem setAccept_edges (f : Fsm) (t x : Nat) (e : Edge) :
    HasEdge (setAccept f t) x e ↔ HasEdge f x e := by
  unfold HasEdge setAccept
  by_cases hx : x = t
  · subst hx
    cases h : f.states[x]? with
    | none =>
      have : f.modify x (fun st => { st with accept := true }) = f := by simp [Fsm.modify, h]
      rw [this, h]
    | some st =>
      rw [modify_self _ h]
      simp
  · rw [modify_ne _ _ hx]

/-- What the construction yields for a sequence: the edges are a part from state 0 to the final
state. -/
theorem newFsm_part {same : Guard → Guard → Bool} (hsame : SameOk same) (fuel : Nat) (p : Psl)
    (hr : Regular p) :
    ∃ f t r, newFsm same fuel p = some (f, t) ∧ Final f t ∧ Proper f r ∧
      ∀ w, Lang w (HasEdge f) 0 t (Match w p) := by
  have hempty : ∀ x e, ¬ HasEdge (addState Fsm.empty).1 x e := by
    intro x e h
    rw [addState_edges] at h
    obtain ⟨st, hst, _⟩ := h
    simp [Fsm.empty] at hst
  have hs : Start (addState Fsm.empty).1 0 := by
    refine ⟨addState_raw ?_, by simp [addState], hempty 0⟩
    intro x st hst
    simp [Fsm.empty] at hst
  obtain ⟨f', t, N, hb, hP, hL⟩ := build_builds hsame fuel p hr _ 0 hs
  obtain ⟨ht0, ht1⟩ := hP.fresh
  obtain ⟨r, B, _, hrank⟩ := hP.ranked
  have hed : ∀ x e, HasEdge f' x e ↔ N x e := by
    intro x e
    rw [hP.edges]
    constructor
    · rintro (h | h)
      · exact absurd h (hempty x e)
      · exact h
    · exact Or.inr
  obtain ⟨st, hst⟩ : ∃ st, f'.states[t]? = some st := ⟨_, List.getElem?_eq_getElem ht1⟩
  obtain ⟨hacc, hgd, hnd, hdst⟩ := hP.raw t st hst
  have hself : (setAccept f' t).states[t]? = some { st with accept := true } := modify_self _ hst
  have hne : ∀ x, x ≠ t → (setAccept f' t).states[x]? = f'.states[x]? := fun x hx => modify_ne _ _ hx
  have hlen : (setAccept f' t).states.length = f'.states.length := modify_length _ _ _
  have hback : ∀ (x : Nat) (sx : State), (setAccept f' t).states[x]? = some sx →
      ∃ sx', f'.states[x]? = some sx' ∧ sx.edges = sx'.edges ∧ sx.guard = sx'.guard ∧
        (x ≠ t → sx = sx') := by
    intro x sx hx
    by_cases hxt : x = t
    · subst hxt
      rw [hself] at hx
      cases hx
      exact ⟨st, hst, rfl, rfl, fun h => absurd rfl h⟩
    · rw [hne x hxt] at hx
      exact ⟨sx, hx, rfl, rfl, fun _ => rfl⟩
  refine ⟨setAccept f' t, t, r, ?_, ⟨⟨_, hself, rfl, hgd⟩, ?_⟩, ⟨?_, ?_, ?_, ?_⟩, ?_⟩
  · unfold newFsm
    rw [hb]
    rfl
  · intro x sx hx ha
    by_cases hxt : x = t
    · exact hxt
    · obtain ⟨sx', h1, _, _, h4⟩ := hback x sx hx
      rw [h4 hxt, (hP.raw x sx' h1).1] at ha
      cases ha
  · intro x sx hx e he
    obtain ⟨sx', h1, h2, _, _⟩ := hback x sx hx
    rw [h2] at he
    rw [hlen]
    exact (hP.raw x sx' h1).2.2.2 e he
  · intro x sx hx e he heps
    obtain ⟨sx', h1, h2, _, _⟩ := hback x sx hx
    rw [h2] at he
    exact hrank x e ((hed x e).mp ⟨sx', h1, he⟩) heps
  · intro x sx hx
    obtain ⟨sx', h1, h2, _, _⟩ := hback x sx hx
    rw [h2]
    by_cases hg : ∀ e ∈ sx'.edges, e.eps = true → e.guard ≠ .null
    · exact Or.inl hg
    · right
      have hex : ∃ e ∈ sx'.edges, e.eps = true ∧ e.guard = .null := by
        apply Classical.byContradiction
        intro hno
        apply hg
        intro e he heps hgn
        exact hno ⟨e, he, heps, hgn⟩
      obtain ⟨e, he, heps, hgn⟩ := hex
      have hnodup : (sx'.edges.filter fun e => e.eps).Nodup := (hP.raw x sx' h1).2.2.1.filter _
      have hall : ∀ e' ∈ sx'.edges.filter (fun e => e.eps), e' = e := by
        intro e' he'
        obtain ⟨m1, m2⟩ := List.mem_filter.mp he'
        exact (hP.alone x e e' ((hed x e).mp ⟨sx', h1, he⟩) ((hed x e').mp ⟨sx', h1, m1⟩)
          heps m2 hgn).symm
      generalize sx'.edges.filter (fun e => e.eps) = l at hnodup hall ⊢
      match l, hnodup, hall with
      | [], _, _ => simp
      | [_], _, _ => simp
      | a :: b :: l, hnodup, hall =>
        have ha := hall a (by simp)
        have hb := hall b (by simp)
        rw [ha, hb] at hnodup
        simp at hnodup
  · intro x sx hx hn
    obtain ⟨sx', h1, h2, h3, h4⟩ := hback x sx hx
    have hxt : x ≠ t := by
      rintro rfl
      apply hn
      intro e he
      rw [h2] at he
      exact hP.final e ((hed x e).mp ⟨sx', h1, he⟩)
    rw [h4 hxt]
    exact ⟨(hP.raw x sx' h1).1, (hP.raw x sx' h1).2.1⟩
  · intro w i j
    refine Iff.trans (Path.congr fun x e => ?_) (hL w i j)
    rw [setAccept_edges, hed]

theorem describes_iff {p : Psl} (hr : Regular p) {f : Fsm} {t : Nat} (h : Final f t)
    (hL : ∀ w, Lang w (HasEdge f) 0 t (Match w p)) (ws : List (Nat → Bool)) :
    Recognises f 0 ws ↔ Describes p ws := by
  rw [recognises_iff h]
  unfold Describes
  constructor
  · rintro ⟨n, h1, h2⟩
    rw [h1]
    exact (hL _ 0 n).mp h2
  · intro hm
    have := match_lt _ p hr 0 _ hm
    obtain ⟨n, hn⟩ : ∃ n, ws.length = n + 1 := ⟨ws.length - 1, by omega⟩
    refine ⟨n, hn, (hL _ 0 n).mpr ?_⟩
    rw [← hn]
    exact hm

/-- **C66.** The automaton that the program builds for a regular sequence has one accepting state, is
proper, so that its epsilon edges can be removed, and recognises exactly the lists of cycles that the
sequence describes. -/
theorem newFsm_recognises (fuel : Nat) (p : Psl) (hr : Regular p) :
    ∃ f t r, newFsm sameGuard fuel p = some (f, t) ∧ Final f t ∧ Proper f r ∧
      ∀ ws, Recognises f 0 ws ↔ Describes p ws := by
  obtain ⟨f, t, r, h1, h2, h3, h4⟩ := newFsm_part sameGuard_ok fuel p hr
  exact ⟨f, t, r, h1, h2, h3, describes_iff hr h2 h4⟩

/-- **C66.** Without epsilon edges the automaton of the program still recognises nothing that the
sequence does not describe. -/
theorem sequence_sound (fuel : Nat) (p : Psl) (hr : Regular p) :
    ∃ f t f', newFsm sameGuard fuel p = some (f, t) ∧ simplify sameGuard f = some f' ∧
      ∀ ws, Recognises f' 0 ws → Describes p ws := by
  obtain ⟨f, t, r, h1, _, h3, h4⟩ := newFsm_recognises fuel p hr
  obtain ⟨f', h5, h6⟩ := simplify_sound f r h3
  exact ⟨f, t, f', h1, h5, fun ws h => (h4 ws).mp (h6 0 ws h)⟩

/-- **C66.** With the repaired comparison of guards (finding 79) the automaton without epsilon edges
recognises exactly what the sequence describes. -/
theorem sequence_exact (fuel : Nat) (p : Psl) (hr : Regular p) :
    ∃ f t f', newFsm sameGuardRepaired fuel p = some (f, t) ∧
      simplify sameGuardRepaired f = some f' ∧
      ∀ ws, Recognises f' 0 ws ↔ Describes p ws := by
  obtain ⟨f, t, r, h1, h2, h3, h4⟩ := newFsm_part sameGuardRepaired_ok fuel p hr
  obtain ⟨f', h5, _, h6⟩ := simplify_repaired f r h3
  exact ⟨f, t, f', h1, h5, fun ws => (h6 0 ws).symm.trans (describes_iff hr h2 h4 ws)⟩

end Verif.Psl
