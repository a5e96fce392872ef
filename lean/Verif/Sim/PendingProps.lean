import Verif.Sim.PendingModel

/-!
# The objects that wait for an event are a set (C40)
-/

namespace Verif.Sim.Pending

/-! ## Specification -/

/-- Whether object `o` waits after the given history. -/
def waits (o : Nat) (w : Bool) : Op → Bool
  | .sched p => if p = o then true else w
  | .clear p => if p = o then false else w
  | .copied => w

def waiting (ops : List Op) (o : Nat) : Bool := ops.foldl (waits o) false

/-- How processes and watches use the functions: after an object has been added it may be added again
only before any object is removed (a `wait` statement may name several signals of one nexus). -/
inductive Used : List Op → Prop where
  | nil : Used []
  | first {ops o} : Used ops → waiting ops o = false → Used (ops ++ [.sched o])
  | again {ops o} : Used (ops ++ [.sched o]) → Used (ops ++ [.sched o] ++ [.sched o])
  | clear {ops o} : Used ops → Used (ops ++ [.clear o])
  | copied {ops} : Used ops → Used (ops ++ [.copied])

/-! ## Proof -/

/-- The number of slots is within the array. -/
def Fits : Pending → Prop
  | .arr max wake => wake.length ≤ max ∧ 0 < wake.length
  | _ => True

theorem reuse_length {o} : ∀ {l l'}, reuse o l = some l' → l'.length = l.length
  | [], l', h => nomatch h
  | x :: l, l', h => by
    unfold reuse at h
    split at h
    · cases h; rfl
    · obtain ⟨m, hm, rfl⟩ := Option.map_eq_some_iff.1 h
      simp [reuse_length hm]

theorem erase_length {o} : ∀ {l}, (erase o l).length = l.length
  | [] => rfl
  | x :: l => by
    unfold erase
    split
    · rfl
    · simp [erase_length]

theorem grow_gt {max count} (h : count ≤ max) (h0 : 0 < count) : count < grow max count := by
  unfold grow
  have : max * 2 ≤ Nat.max pendingMin (max * 2) := Nat.le_max_right _ _
  split <;> omega

theorem sched_fits {o p} (h : Fits p) : ∃ p', sched o p = some p' ∧ Fits p' := by
  cases p with
  | null => exact ⟨_, rfl, trivial⟩
  | one c =>
    simp only [sched]
    split
    · exact ⟨_, rfl, trivial⟩
    · exact ⟨_, rfl, by simp [Fits, pendingMin]⟩
  | arr max wake =>
    simp only [sched]
    obtain ⟨h1, h2⟩ := h
    cases hr : reuse o wake with
    | some l => exact ⟨_, rfl, by simp only [Fits, reuse_length hr]; exact ⟨h1, h2⟩⟩
    | none =>
      have := grow_gt h1 h2
      simp only [if_pos this]
      exact ⟨_, rfl, by simp only [Fits, List.length_append, List.length_singleton]; omega⟩

theorem step_fits {p op} (h : Fits p) : ∃ p', step p op = some p' ∧ Fits p' := by
  cases op with
  | sched o => exact sched_fits h
  | clear o =>
    refine ⟨_, rfl, ?_⟩
    cases p with
    | null => trivial
    | one c => simp only [clear]; split <;> trivial
    | arr max wake => simp only [clear, Fits, erase_length]; exact h
  | copied =>
    refine ⟨_, rfl, ?_⟩
    cases p with
    | null => trivial
    | one c => trivial
    | arr max wake => exact ⟨Nat.le_refl _, h.2⟩

theorem run_fits {p} : ∀ {ops}, Fits p → ∃ p', run p ops = some p' ∧ Fits p'
  | [], h => ⟨p, rfl, h⟩
  | op :: ops, h => by
    obtain ⟨q, hq, hf⟩ := step_fits (op := op) h
    obtain ⟨r, hr, hf⟩ := run_fits (p := q) (ops := ops) hf
    exact ⟨r, by simp only [run, List.foldlM_cons, hq]; exact hr, hf⟩

/-- **The array is never overrun**, whatever the history. -/
theorem in_bounds (ops : List Op) : ∃ p, run .null ops = some p ∧
    ∀ max wake, p = .arr max wake → wake.length ≤ max := by
  obtain ⟨p, hp, hf⟩ := run_fits (p := .null) (ops := ops) trivial
  exact ⟨p, hp, fun max wake h => by subst h; exact hf.1⟩

theorem run_append (p ops op) : run p (ops ++ [op]) = (run p ops).bind (step · op) := by
  simp [run, List.foldlM_append]

/-- Occurrences of an object. -/
def occ (o : Nat) (p : Pending) : Nat := (notified p).count o

theorem reuse_mem {o q} : ∀ {l l'}, reuse o l = some l' → q ≠ o →
    (l'.filterMap id).count q = (l.filterMap id).count q
  | [], l', h, _ => nomatch h
  | x :: l, l', h, hq => by
    unfold reuse at h
    split at h
    · rename_i hx
      cases h
      rcases hx with rfl | rfl
      · simp [List.count_cons, Ne.symm hq]
      · rfl
    · obtain ⟨m, hm, rfl⟩ := Option.map_eq_some_iff.1 h
      have ih := reuse_mem hm hq
      cases x <;> simp_all [List.count_cons]

theorem reuse_self {o} : ∀ {l l'}, reuse o l = some l' → (l.filterMap id).count o = 0 →
    (l'.filterMap id).count o = 1
  | [], l', h, _ => nomatch h
  | x :: l, l', h, h0 => by
    unfold reuse at h
    split at h
    · rename_i hx
      cases h
      rcases hx with rfl | rfl
      · simp at h0 ⊢; exact h0
      · simp at h0
    · rename_i hx
      obtain ⟨m, hm, rfl⟩ := Option.map_eq_some_iff.1 h
      cases x with
      | none => simp at hx
      | some y =>
        have hy : y ≠ o := by simpa using hx
        simp only [List.filterMap_cons, id, List.count_cons] at h0 ⊢
        have := reuse_self hm (by omega)
        simp [hy, this]

/-- Once an object has been stored, it is before the first free slot. -/
def Front (o : Nat) : Pending → Prop
  | .null => False
  | .one c => c = o
  | .arr _ wake => reuse o wake = some wake

theorem reuse_again {o} : ∀ {l l'}, reuse o l = some l' → reuse o l' = some l'
  | [], l', h => nomatch h
  | x :: l, l', h => by
    unfold reuse at h
    split at h
    · cases h; simp [reuse]
    · rename_i hx
      obtain ⟨m, hm, rfl⟩ := Option.map_eq_some_iff.1 h
      simp [reuse, hx, reuse_again hm]

theorem reuse_none {o} : ∀ {l}, reuse o l = none → reuse o (l ++ [some o]) = some (l ++ [some o]) ∧
    (l.filterMap id).count o = 0
  | [], _ => by simp [reuse]
  | x :: l, h => by
    unfold reuse at h
    split at h
    · cases h
    · rename_i hx
      have h := Option.map_eq_none_iff.1 h
      obtain ⟨h1, h2⟩ := reuse_none h
      cases x with
      | none => simp at hx
      | some y =>
        have hy : y ≠ o := by simpa using hx
        constructor
        · simp only [List.cons_append, reuse, if_neg hx, h1, Option.map_some]
        · simp [List.count_cons, hy, h2]

theorem sched_front {o p p'} (h : sched o p = some p') : Front o p' := by
  cases p with
  | null => cases h; rfl
  | one c =>
    simp only [sched] at h
    split at h
    · cases h; assumption
    · rename_i hc
      cases h
      have : ¬ (some c = none ∨ some c = some o) := by simpa using hc
      simp [Front, reuse, hc]
  | arr max wake =>
    simp only [sched] at h
    cases hr : reuse o wake with
    | some l => rw [hr] at h; cases h; exact reuse_again hr
    | none =>
      rw [hr] at h
      dsimp only at h
      split at h
      · cases h; exact (reuse_none hr).1
      · cases h

theorem front_sched {o p} (h : Front o p) : sched o p = some p := by
  cases p with
  | null => cases h
  | one c => simp only [sched, if_pos (show c = o from h)]
  | arr max wake =>
    have h : reuse o wake = some wake := h
    simp [sched, h]

theorem sched_occ_ne {o q p p'} (h : sched o p = some p') (hq : q ≠ o) : occ q p' = occ q p := by
  unfold occ
  cases p with
  | null => cases h; simp [notified, Ne.symm hq]
  | one c =>
    simp only [sched] at h
    split at h
    · cases h; rfl
    · cases h; simp [notified, List.count_cons, Ne.symm hq]
  | arr max wake =>
    simp only [sched] at h
    cases hr : reuse o wake with
    | some l => rw [hr] at h; cases h; exact reuse_mem hr hq
    | none =>
      rw [hr] at h
      dsimp only at h
      split at h
      · cases h; simp [notified, List.filterMap_append, List.count_append, List.count_cons, Ne.symm hq]
      · cases h

theorem sched_occ_new {o p p'} (h : sched o p = some p') (h0 : occ o p = 0) : occ o p' = 1 := by
  unfold occ at *
  cases p with
  | null => cases h; simp [notified]
  | one c =>
    have hc : c ≠ o := by
      intro e; subst e; simp [notified] at h0
    simp only [sched, if_neg hc] at h
    cases h; simp [notified, List.count_cons, hc]
  | arr max wake =>
    simp only [sched] at h
    cases hr : reuse o wake with
    | some l => rw [hr] at h; cases h; exact reuse_self hr h0
    | none =>
      rw [hr] at h
      dsimp only at h
      split at h
      · cases h
        have := (reuse_none hr).2
        simp [notified, List.filterMap_append, List.count_append, this]
      · cases h

theorem erase_count_self {o} : ∀ {l : List (Option Nat)},
    ((erase o l).filterMap id).count o = (l.filterMap id).count o - 1
  | [] => rfl
  | x :: l => by
    unfold erase
    split
    · rename_i hx; subst hx; simp
    · rename_i hx
      have ih := erase_count_self (o := o) (l := l)
      cases x with
      | none => simpa using ih
      | some y =>
        have hy : y ≠ o := by simpa using hx
        simp [List.count_cons, hy, ih]

theorem erase_count_ne {o q} (hq : q ≠ o) : ∀ {l : List (Option Nat)},
    ((erase o l).filterMap id).count q = (l.filterMap id).count q
  | [] => rfl
  | x :: l => by
    unfold erase
    split
    · rename_i hx; subst hx; simp [List.count_cons, Ne.symm hq]
    · have ih := erase_count_ne hq (l := l)
      cases x with
      | none => simpa using ih
      | some y => simp [List.count_cons, ih]

theorem clear_occ_self {o p} : occ o (clear o p) = occ o p - 1 := by
  unfold occ
  cases p with
  | null => rfl
  | one c => simp only [clear]; split <;> simp_all [notified]
  | arr max wake => exact erase_count_self

theorem clear_occ_ne {o q p} (hq : q ≠ o) : occ q (clear o p) = occ q p := by
  unfold occ
  cases p with
  | null => rfl
  | one c =>
    simp only [clear]
    split
    · rename_i h; subst h; simp [notified, Ne.symm hq]
    · rfl
  | arr max wake => exact erase_count_ne hq

theorem clone_occ {q p} : occ q (clone p) = occ q p := by cases p <;> rfl

theorem used_occ {ops} (h : Used ops) : ∃ p, run .null ops = some p ∧
    (∀ o, occ o p = if waiting ops o then 1 else 0) ∧
    ∀ ops' o, ops = ops' ++ [.sched o] → Front o p := by
  induction h with
  | nil => exact ⟨.null, rfl, fun o => rfl, fun ops' o h => by simp at h⟩
  | @first ops o hu hw ih =>
    obtain ⟨p, hp, ho, -⟩ := ih
    obtain ⟨p0, hp0, hf⟩ := run_fits (p := .null) (ops := ops ++ [.sched o]) trivial
    have hs : sched o p = some p0 := by
      rw [run_append, hp] at hp0; exact hp0
    refine ⟨p0, hp0, fun q => ?_, fun ops' o' h => ?_⟩
    · simp only [waiting, List.foldl_append, List.foldl_cons, List.foldl_nil, waits]
      have hq := ho q
      unfold waiting at hq
      by_cases h : o = q
      · subst h
        simp only [if_true]
        exact sched_occ_new hs (by rw [ho o, hw]; simp)
      · simp only [if_neg h]
        rw [sched_occ_ne hs (Ne.symm h), hq]
    · obtain ⟨_, h⟩ := List.append_inj' h rfl
      cases h
      exact sched_front hs
  | @again ops o hu ih =>
    obtain ⟨p, hp, ho, hfr⟩ := ih
    have hf := hfr ops o rfl
    refine ⟨p, by rw [run_append, hp]; exact front_sched hf, fun q => ?_, fun ops' o' h => ?_⟩
    · rw [ho q]
      simp only [waiting, List.foldl_append, List.foldl_cons, List.foldl_nil, waits]
      by_cases h : o = q <;> simp [h]
    · obtain ⟨_, h⟩ := List.append_inj' h rfl
      cases h
      exact hf
  | @clear ops o hu ih =>
    obtain ⟨p, hp, ho, -⟩ := ih
    refine ⟨clear o p, by rw [run_append, hp]; rfl, fun q => ?_, fun ops' o' h => ?_⟩
    · simp only [waiting, List.foldl_append, List.foldl_cons, List.foldl_nil, waits]
      have hq := ho q
      by_cases h : o = q
      · subst h
        simp only [if_true]
        rw [clear_occ_self, hq]
        split <;> rfl
      · simp only [if_neg h]
        rw [clear_occ_ne (Ne.symm h), hq]
        rfl
    · obtain ⟨_, h⟩ := List.append_inj' h rfl
      cases h
  | @copied ops hu ih =>
    obtain ⟨p, hp, ho, -⟩ := ih
    refine ⟨clone p, by rw [run_append, hp]; rfl, fun q => ?_, fun ops' o' h => ?_⟩
    · simp only [waiting, List.foldl_append, List.foldl_cons, List.foldl_nil, waits]
      rw [clone_occ, ho q]; rfl
    · obtain ⟨_, h⟩ := List.append_inj' h rfl
      cases h

/-- **The pending objects are a set**: after every history of the kind that processes and watches
produce, each object that waits is notified exactly once and no other is. -/
theorem notified_once_partial {ops} (h : Used ops) : ∃ p, run .null ops = some p ∧
    ∀ o, (notified p).count o = if waiting ops o then 1 else 0 := by
  obtain ⟨p, hp, ho, -⟩ := used_occ h
  exact ⟨p, hp, ho⟩

/-- **No object is missed**: whatever the history, an object that was added and not removed since is
notified. -/
theorem never_missed (ops : List Op) (o : Nat) (h : waiting ops o = true) :
    ∃ p, run .null ops = some p ∧ o ∈ notified p := by
  have key : ∀ rops : List Op, ∀ p, run .null rops.reverse = some p →
      waiting rops.reverse o = true → 0 < occ o p := by
    intro rops
    induction rops with
    | nil => intro p _ h; simp [waiting] at h
    | cons op rops ih =>
      intro p hp hw
      rw [List.reverse_cons] at hp hw
      rw [run_append] at hp
      obtain ⟨q, hq, hs⟩ := Option.bind_eq_some_iff.1 hp
      simp only [waiting, List.foldl_append, List.foldl_cons, List.foldl_nil] at hw
      cases op with
      | sched x =>
        by_cases hx : x = o
        · subst hx
          have hfr := sched_front hs
          unfold occ
          apply List.count_pos_iff.2
          cases p with
          | null => cases hfr
          | one c => have : c = x := hfr; subst this; simp [notified]
          | arr max wake =>
            have : reuse x wake = some wake := hfr
            rcases Nat.eq_zero_or_pos ((wake.filterMap id).count x) with h0 | h0
            · have := reuse_self this h0
              omega
            · exact List.count_pos_iff.1 h0
        · rw [sched_occ_ne hs (Ne.symm hx)]
          simp only [waits, if_neg hx] at hw
          exact ih q hq hw
      | clear x =>
        by_cases hx : x = o
        · subst hx; simp [waits] at hw
        · simp only [waits, if_neg hx] at hw
          cases hs
          rw [clear_occ_ne (Ne.symm hx)]
          exact ih q hq hw
      | copied =>
        cases hs
        rw [clone_occ]
        exact ih q hq hw
  obtain ⟨p, hp, -⟩ := run_fits (p := .null) (ops := ops) trivial
  refine ⟨p, hp, List.count_pos_iff.1 (key ops.reverse p (by simpa using hp) (by simpa using h))⟩

/-- **Counterexample**: adding an object that waits already takes the slot freed by another object,
so that the object is there twice, and one removal leaves it among the pending ones. -/
theorem twice_counterexample :
    ∃ ops o p, run .null ops = some p ∧ waiting ops o = false ∧ o ∈ notified p :=
  ⟨[.sched 1, .sched 2, .clear 1, .sched 2, .clear 2], 2, .arr 4 [none, some 2], by decide,
    by decide, by decide⟩

/-! ## Example -/

/-- Processes 1, 2 and 3 wait, 1 twice for the same nexus; 2 is resumed and waits again. -/
example : Used [.sched 1, .sched 1, .sched 2, .sched 3, .clear 2, .copied, .sched 2] := by
  have h1 : Used [.sched 1] := .first .nil rfl
  have h2 : Used [.sched 1, .sched 1] := .again (ops := []) h1
  have h3 : Used [.sched 1, .sched 1, .sched 2] := .first h2 rfl
  have h4 : Used [.sched 1, .sched 1, .sched 2, .sched 3] := .first h3 rfl
  have h5 : Used [.sched 1, .sched 1, .sched 2, .sched 3, .clear 2] := .clear h4
  have h6 : Used [.sched 1, .sched 1, .sched 2, .sched 3, .clear 2, .copied] := .copied h5
  exact .first h6 rfl

example : (run .null [.sched 1, .sched 1, .sched 2, .sched 3, .clear 2, .copied, .sched 2]).map
    notified = some [1, 2, 3] := by decide

end Verif.Sim.Pending
