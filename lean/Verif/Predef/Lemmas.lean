import Verif.Predef.Model

/-
Lemmas about runs of the generated loops.
-/

namespace Verif.Predef

/-- More steps do not change a result. -/
theorem run_mono (f : σ → Step σ ρ) :
    ∀ (n m : Nat) (s : σ) (r : ρ), run f n s = some r → n ≤ m → run f m s = some r
  | 0, _, _, _, h, _ => by simp [run] at h
  | n + 1, 0, _, _, _, hm => by omega
  | n + 1, m + 1, s, r, h, hm => by
    simp only [run] at h ⊢
    cases hs : f s with
    | done r' => rw [hs] at h; exact h
    | next s' =>
      rw [hs] at h
      exact run_mono f n m s' r h (by omega)

/-- A program has one result. -/
theorem Yields.unique {f : σ → Step σ ρ} {s : σ} {r r' : ρ}
    (h : Yields f s r) (h' : Yields f s r') : r = r' := by
  obtain ⟨n, hn⟩ := h
  obtain ⟨m, hm⟩ := h'
  have a := run_mono f n (n + m) s r hn (by omega)
  have b := run_mono f m (n + m) s r' hm (by omega)
  rw [a] at b
  exact Option.some.inj b

/-- Memory agrees with a list below `i`. -/
def Filled (m : Mem α) (L : List α) (i : Nat) : Prop :=
  ∀ j : Nat, j < i → m (j : Int) = L[j]?

theorem Filled.store {m : Mem α} {L : List α} {i : Nat} {v : α}
    (h : Filled m L i) (hv : L[i]? = some v) : Filled (m.store (i : Int) v) L (i + 1) := by
  intro j hj
  unfold Mem.store
  by_cases hji : j = i
  · subst hji; rw [if_pos rfl, hv]
  · rw [if_neg (by omega)]; exact h j (by omega)

theorem slice_eq : ∀ (L : List α) (m : Mem α) (s : Int),
    (∀ j : Nat, j < L.length → m (s + j) = L[j]?) → m.slice L.length s = some L
  | [], _, _, _ => rfl
  | x :: t, m, s, h => by
    have h0 : m s = some x := by
      have := h 0 (by simp)
      simpa using this
    have ht : m.slice t.length (s + 1) = some t := slice_eq t m (s + 1) (fun j hj => by
      have := h (j + 1) (by simp; omega)
      have e : s + 1 + (j : Int) = s + ((j + 1 : Nat) : Int) := by omega
      rw [e, this]
      simp)
    show (Mem.slice m (t.length + 1) s) = _
    simp only [Mem.slice, h0, ht]

theorem wrap_eq {a : Arr α} {m : Mem β} {L : List β} (hl : (L.length : Int) = a.len)
    (h : Filled m L L.length) :
    wrap a m = .ok { left := a.left, right := a.right, down := a.down, data := L } := by
  unfold wrap
  have : a.len.toNat = L.length := by omega
  rw [this, slice_eq L m 0 (fun j hj => by rw [Int.zero_add]; exact h j hj)]

/-- A loop which tests before the body and stores one element per turn. -/
theorem fill_top {st : Int × Mem β → Step (Int × Mem β) ρ} {L : List β} {out : ρ}
    (hb : ∀ (i : Nat) (v : β) (m : Mem β), L[i]? = some v →
      st ((i : Int), m) = .next ((i : Int) + 1, m.store i v))
    (hd : ∀ m : Mem β, Filled m L L.length → st ((L.length : Int), m) = .done out) :
    Yields st (0, Mem.empty) out := by
  have aux : ∀ (k i : Nat) (m : Mem β), i + k = L.length → Filled m L i →
      run st (k + 1) ((i : Int), m) = some out := by
    intro k
    induction k with
    | zero =>
      intro i m hi hf
      have : i = L.length := by omega
      subst this
      simp only [run, hd m hf]
    | succ k ih =>
      intro i m hi hf
      have hlt : i < L.length := by omega
      have hv : L[i]? = some L[i] := List.getElem?_eq_getElem hlt
      rw [run, hb i L[i] m hv]
      have := ih (i + 1) (m.store i L[i]) (by omega) (hf.store hv)
      simpa using this
  exact ⟨L.length + 1, aux L.length 0 Mem.empty (by omega) (fun j hj => by omega)⟩

/-- A loop which tests after the body. -/
theorem fill_bottom {st : Int × Mem β → Step (Int × Mem β) ρ} {L : List β} {out : ρ}
    (hne : L ≠ [])
    (hb : ∀ (i : Nat) (v : β) (m : Mem β), L[i]? = some v → i + 1 ≠ L.length →
      st ((i : Int), m) = .next ((i : Int) + 1, m.store i v))
    (hd : ∀ (i : Nat) (v : β) (m : Mem β), L[i]? = some v → i + 1 = L.length →
      Filled (m.store (i : Int) v) L L.length → st ((i : Int), m) = .done out) :
    Yields st (0, Mem.empty) out := by
  have hpos : 0 < L.length := List.length_pos_iff.mpr hne
  have aux : ∀ (k i : Nat) (m : Mem β), i + k + 1 = L.length → Filled m L i →
      run st (k + 1) ((i : Int), m) = some out := by
    intro k
    induction k with
    | zero =>
      intro i m hi hf
      have hlt : i < L.length := by omega
      have hv : L[i]? = some L[i] := List.getElem?_eq_getElem hlt
      have hf' := hf.store hv
      have e : i + 1 = L.length := by omega
      rw [e] at hf'
      simp only [run, hd i L[i] m hv e hf']
    | succ k ih =>
      intro i m hi hf
      have hlt : i < L.length := by omega
      have hv : L[i]? = some L[i] := List.getElem?_eq_getElem hlt
      rw [run, hb i L[i] m hv (by omega)]
      have := ih (i + 1) (m.store i L[i]) (by omega) (hf.store hv)
      simpa using this
  exact ⟨L.length - 1 + 1,
    aux (L.length - 1) 0 Mem.empty (by omega) (fun j hj => by omega)⟩

/-- A loop which folds the elements and tests after the body. -/
theorem fold_bottom {st : Int × β → Step (Int × β) ρ} {g : β → α → β} {fin : β → ρ}
    (d : List α) (init : β) (hne : d ≠ [])
    (hb : ∀ (i : Nat) (x : α) (c : β), d[i]? = some x →
      st ((i : Int), c) = if i + 1 = d.length then .done (fin (g c x))
        else .next ((i : Int) + 1, g c x)) :
    Yields st (0, init) (fin (d.foldl g init)) := by
  have hpos : 0 < d.length := List.length_pos_iff.mpr hne
  have aux : ∀ (k i : Nat) (c : β), i + k + 1 = d.length →
      run st (k + 1) ((i : Int), c) = some (fin ((d.drop i).foldl g c)) := by
    intro k
    induction k with
    | zero =>
      intro i c hi
      have hlt : i < d.length := by omega
      have hv : d[i]? = some d[i] := List.getElem?_eq_getElem hlt
      have hdrop : d.drop i = [d[i]] := by
        rw [List.drop_eq_getElem_cons hlt, List.drop_of_length_le (by omega)]
      rw [run, hb i d[i] c hv, if_pos (by omega), hdrop]
      rfl
    | succ k ih =>
      intro i c hi
      have hlt : i < d.length := by omega
      have hv : d[i]? = some d[i] := List.getElem?_eq_getElem hlt
      have hdrop : d.drop i = d[i] :: d.drop (i + 1) := List.drop_eq_getElem_cons hlt
      rw [run, hb i d[i] c hv, if_neg (by omega), hdrop]
      have := ih (i + 1) (g c d[i]) (by omega)
      rw [List.foldl_cons]
      exact this
  have := aux (d.length - 1) 0 init (by omega)
  exact ⟨d.length - 1 + 1, by simpa using this⟩

theorem load_nat (d : List α) (i : Nat) : load d (i : Int) = d[i]? := by
  unfold load
  rw [if_neg (by omega)]
  simp

theorem Arr.null_iff {a : Arr α} (hw : a.wf) : a.null = true ↔ a.data = [] := by
  unfold Arr.wf Arr.len at hw
  unfold Arr.null
  rw [← List.length_eq_zero_iff]
  split at hw
  · rename_i hd
    rw [if_pos hd, decide_eq_true_iff]
    omega
  · rename_i hd
    rw [if_neg hd, decide_eq_true_iff]
    omega

theorem Arr.len_nonneg (a : Arr α) : 0 ≤ a.len := by
  unfold Arr.len; split <;> omega

theorem wrap_null {a : Arr α} (hw : a.wf) (hn : a.data = []) :
    wrap a (Mem.empty : Mem β) =
      .ok { left := a.left, right := a.right, down := a.down, data := [] } := by
  refine wrap_eq ?_ ?_
  · unfold Arr.wf at hw; rw [hn] at hw; exact hw
  · intro j hj; exact absurd hj (by simp)

end Verif.Predef
