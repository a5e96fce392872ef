import Verif.Thread.GlobalqModel
import Verif.Util.Props
/-!
# The global queue is a queue

`globalq_put` appends its tasks at the end and `globalq_take` removes some from the front, at least
one if there is any and not more than fit in a thread's queue; neither leaves the array nor reads a
slot that was not written.  This is what the steps `startPut`, `put` and `take` of
`Verif/Thread/WorkqModel` take for granted.
-/
namespace Verif.Thread.Globalq

/-! ## Specification -/

/-- The queue holds the tasks `l`, the first to be taken first. -/
def Holds (g : Gq α) (l : List α) : Prop :=
  g.wptr = g.rptr + l.length ∧ g.wptr ≤ g.tasks.length ∧
    ∀ (i : Nat) (x : α), l[i]? = some x → g.tasks[g.rptr + i]? = some (some x)

/-! ## Proofs -/

theorem holds_empty : Holds (empty : Gq α) [] :=
  ⟨rfl, Nat.le_refl _, fun i x h => by simp at h⟩

theorem holds_rewind {g : Gq α} (h : Holds g l) : Holds (rewind g) l := by
  obtain ⟨h₁, h₂, h₃⟩ := h
  unfold rewind
  split
  · next c =>
    have : l = [] := List.eq_nil_of_length_eq_zero (by omega)
    subst this
    exact ⟨rfl, Nat.zero_le _, fun i x h => by simp at h⟩
  · exact ⟨h₁, h₂, h₃⟩

theorem holds_grow {g : Gq α} (h : Holds g l) {n : Nat} (hn : g.wptr + n ≤ 2 ^ 30) :
    Holds (grow g n) l ∧ (grow g n).wptr = g.wptr ∧ g.wptr + n ≤ (grow g n).tasks.length := by
  obtain ⟨h₁, h₂, h₃⟩ := h
  unfold grow
  split
  · next c =>
    have hb : (BitVec.ofNat 32 (g.wptr + n)).toNat = g.wptr + n := by
      rw [BitVec.toNat_ofNat]; exact Nat.mod_eq_of_lt (by omega)
    obtain ⟨e, he₁, he₂, -⟩ := Util.next_power_of_2_spec (BitVec.ofNat 32 (g.wptr + n))
      (by omega) (by omega)
    rw [he₁]
    rw [hb] at he₂
    have hlen : (realloc g.tasks (2 ^ e)).length = 2 ^ e := by
      unfold realloc
      rw [List.length_append, List.length_take, List.length_replicate]
      omega
    refine ⟨⟨h₁, ?_, ?_⟩, rfl, ?_⟩
    · dsimp only; rw [hlen]; omega
    · intro i x hx
      have hi := (List.getElem?_eq_some_iff.1 hx).1
      have := h₃ i x hx
      have hj := (List.getElem?_eq_some_iff.1 this).1
      dsimp only
      unfold realloc
      rw [List.getElem?_append_left (by rw [List.length_take]; omega),
        List.getElem?_take_of_lt (by omega)]
      exact this
    · dsimp only; rw [hlen]; omega
  · exact ⟨⟨h₁, h₂, h₃⟩, rfl, by omega⟩

theorem holds_copyIn {g : Gq α} (h : Holds g l) {new : List α}
    (hn : g.wptr + new.length ≤ g.tasks.length) :
    ∃ t, copyIn g.tasks g.wptr new = some t ∧
      Holds { g with tasks := t, wptr := g.wptr + new.length } (l ++ new) := by
  obtain ⟨h₁, h₂, h₃⟩ := h
  unfold copyIn
  rw [if_pos hn]
  refine ⟨_, rfl, ?_, ?_, ?_⟩
  · dsimp only; rw [List.length_append]; omega
  · dsimp only
    simp only [List.length_append, List.length_take, List.length_map, List.length_drop]
    omega
  · intro i x hx
    dsimp only
    by_cases c : i < l.length
    · rw [List.getElem?_append_left c] at hx
      rw [List.append_assoc, List.getElem?_append_left (by rw [List.length_take]; omega),
        List.getElem?_take_of_lt (by omega)]
      exact h₃ i x hx
    · rw [List.getElem?_append_right (by omega)] at hx
      have hi := (List.getElem?_eq_some_iff.1 hx).1
      rw [List.getElem?_append_left
          (by rw [List.length_append, List.length_take, List.length_map]; omega),
        List.getElem?_append_right (by rw [List.length_take]; omega), List.length_take,
        List.getElem?_map]
      have : g.rptr + i - min g.wptr g.tasks.length = i - l.length := by omega
      rw [this, hx]
      rfl

/-- **C53**: `globalq_put` appends to the queue, within the array. -/
theorem put_appends {g : Gq α} (h : Holds g l) (new : List α)
    (hn : g.wptr + new.length ≤ 2 ^ 30) : ∃ g', put g new = some g' ∧ Holds g' (l ++ new) := by
  have hr := holds_rewind h
  have hw : (rewind g).wptr ≤ g.wptr := by unfold rewind; split <;> simp
  obtain ⟨h₁, h₂, h₃⟩ := holds_grow hr (n := new.length) (by omega)
  obtain ⟨t, h₄, h₅⟩ := holds_copyIn h₁ (new := new) (by omega)
  unfold put
  dsimp only
  rw [h₄]
  exact ⟨_, rfl, h₅⟩

theorem mapM_some {l : List (Option α)} {r : List α} (hlen : l.length = r.length)
    (h : ∀ (i : Nat) (x : α), r[i]? = some x → l[i]? = some (some x)) : l.mapM id = some r := by
  induction l generalizing r with
  | nil =>
    cases r with
    | nil => rfl
    | cons _ _ => simp at hlen
  | cons a l ih =>
    cases r with
    | nil => simp at hlen
    | cons b r =>
      have h₀ := h 0 b rfl
      simp at h₀
      subst h₀
      rw [List.mapM_cons, ih (by simpa using hlen) fun i x hx => by simpa using h (i + 1) x (by simpa using hx)]
      rfl

/-- **C53**: `globalq_take` takes tasks from the front, at least one if there is any, and not more
than a thread's queue can hold. -/
theorem take_front {g : Gq α} (h : Holds g l) {nthreads : Nat} (hn : 0 < nthreads) :
    ∃ n g', take g nthreads = some (l.take n, g') ∧ Holds g' (l.drop n) ∧ n ≤ l.length ∧ n ≤ 256 ∧
      (l ≠ [] → 1 ≤ n) ∧ (l.length ≤ 8 → n = l.length) := by
  obtain ⟨h₁, h₂, h₃⟩ := h
  unfold take
  split
  · next c =>
    have : l = [] := List.eq_nil_of_length_eq_zero (by omega)
    subst this
    exact ⟨0, g, rfl, ⟨h₁, h₂, h₃⟩, Nat.le_refl _, by omega, fun h => absurd rfl h, fun _ => rfl⟩
  · next c =>
    rw [if_neg (by omega)]
    have hs : share g nthreads ≤ l.length ∧ share g nthreads ≤ 256 ∧ 1 ≤ share g nthreads ∧
        (l.length ≤ 8 → share g nthreads = l.length) := by
      unfold share minTake threadqSize
      generalize g.wptr / nthreads = k
      simp only [Nat.min_def, Nat.max_def]
      repeat' split
      all_goals omega
    obtain ⟨s₁, s₂, s₃, s₄⟩ := hs
    have hc : copyOut g.tasks g.rptr (share g nthreads) = some (l.take (share g nthreads)) := by
      unfold copyOut
      rw [if_pos (by omega)]
      refine mapM_some ?_ ?_
      · simp only [List.length_take, List.length_drop]
        omega
      · intro i x hx
        have hi := (List.getElem?_eq_some_iff.1 hx).1
        rw [List.length_take] at hi
        rw [List.getElem?_take_of_lt (by omega)] at hx
        rw [List.getElem?_take_of_lt (by omega), List.getElem?_drop]
        exact h₃ i x hx
    rw [hc]
    refine ⟨share g nthreads, _, rfl, ⟨?_, ?_, ?_⟩, s₁, s₂, fun _ => s₃, s₄⟩
    · dsimp only; rw [List.length_drop]; omega
    · exact h₂
    · intro i x hx
      rw [List.getElem?_drop] at hx
      dsimp only
      rw [Nat.add_assoc]
      exact h₃ _ x hx

/-- Ten tasks put, eight of them taken, one put behind the other two. -/
example : ((put (empty : Gq Nat) (List.range 10)).bind fun g => (take g 4).bind fun r =>
    (put r.2 [99]).bind fun g => (take g 4).map fun r' => (r.1, r'.1)) =
      some ([0, 1, 2, 3, 4, 5, 6, 7], [8, 9, 99]) := by decide +kernel

end Verif.Thread.Globalq
