import Verif.Sim.DriverModel

/-!
# Invariant of a driver
-/

namespace Verif.Sim

variable {V : Type} [DecidableEq V]

/-- The time at which a transaction takes effect: null transactions have the negated time. -/
def due (w : Txn V) : Nat := if w.whn < timeLimit then w.whn else 2 ^ 64 - w.whn

/-- What takes effect: the value, or `none` for a null transaction. -/
def entry (w : Txn V) : Option V := if w.whn < timeLimit then some w.value else none

structure Inv (s : Drv V) : Prop where
  order : s.pend.Pairwise (fun a b => a.whn < timeLimit ∧ a.whn < due b)
  range : ∀ w ∈ s.pend, s.now ≤ due w ∧ due w < timeLimit ∧ w.whn < 2 ^ 64
  cover : ∀ w ∈ s.pend, (due w = s.now → .upd ∈ s.delta ∨ .fast ∈ s.delta) ∧
    (s.now < due w → due w ∈ s.queue)
  fast : s.isFast = true → s.pend = [] ∧ s.delta = if s.fastq then [.fast] else []
  fastq : s.fastq = true ↔ .fast ∈ s.delta
  queue : ∀ t ∈ s.queue, s.now < t
  limit : s.now < timeLimit

theorem inv_new (v : V) (f : Bool) : Inv (newDriver v f) := by
  constructor <;> simp [newDriver, timeLimit]

theorem insertTxn_spec (w : Txn V) (whn reject : Nat) (l : List (Txn V)) :
    ∃ l', (insertTxn w whn reject l).1 = l' ++ [w] ∧ l'.Sublist l ∧ ∀ x ∈ l', x.whn < whn := by
  induction l with
  | nil => exact ⟨[], rfl, .slnil, by simp⟩
  | cons it rest ih =>
    obtain ⟨l', h1, h2, h3⟩ := ih
    unfold insertTxn
    split
    · rename_i hlt
      split
      · exact ⟨l', h1, h2.cons _, h3⟩
      · refine ⟨it :: l', by simp [h1], h2.cons_cons _, ?_⟩
        intro x hx
        rcases List.mem_cons.1 hx with rfl | hx
        · exact hlt
        · exact h3 x hx
    · exact ⟨[], rfl, List.nil_sublist _, by simp⟩

theorem insertTxn_flag (w : Txn V) (whn reject : Nat) (l : List (Txn V))
    (h : (insertTxn w whn reject l).2 = true) : ∃ x ∈ l, x.whn = whn := by
  induction l with
  | nil => simp [insertTxn] at h
  | cons it rest ih =>
    unfold insertTxn at h
    split at h
    · split at h
      · obtain ⟨x, h1, h2⟩ := ih h
        exact ⟨x, List.mem_cons_of_mem _ h1, h2⟩
      · obtain ⟨x, h1, h2⟩ := ih h
        exact ⟨x, List.mem_cons_of_mem _ h1, h2⟩
    · obtain ⟨x, h1, h2⟩ := List.any_eq_true.1 h
      exact ⟨x, h1, by simpa using h2⟩

/-- Insertion of a transaction that takes effect at `now + after`. -/
theorem inv_insert (s : Drv V) (after reject : Nat) (w : Txn V) (pend : List (Txn V))
    (hi : Inv { s with pend := pend }) (hf : s.isFast = false) (hd : due w = s.now + after)
    (hw : w.whn < 2 ^ 64) (ht : s.now + after < timeLimit) :
    Inv (insertOrWake after reject w pend s) := by
  obtain ⟨l', h1, h2, h3⟩ := insertTxn_spec w (s.now + after) reject pend
  have key : ∀ s' : Drv V, s'.pend = (insertTxn w (s.now + after) reject pend).1 →
      s'.now = s.now → s'.isFast = false → s'.fastq = s.fastq →
      (∀ j ∈ s.delta, j ∈ s'.delta) → (∀ t ∈ s.queue, t ∈ s'.queue) →
      (.fast ∈ s'.delta → .fast ∈ s.delta) → (∀ t ∈ s'.queue, s.now < t) →
      ((due w = s.now → .upd ∈ s'.delta ∨ .fast ∈ s'.delta) ∧ (s.now < due w → due w ∈ s'.queue)) →
      Inv s' := by
    intro s' e1 e2 e3 e4 e5 e6 e7 e8 e9
    constructor
    · rw [e1, h1, List.pairwise_append]
      refine ⟨(List.Pairwise.sublist h2 hi.order), by simp, ?_⟩
      intro a ha b hb
      simp at hb
      subst hb
      have := h3 a ha
      omega
    · intro x hx
      rw [e1, h1] at hx
      rw [e2]
      rcases List.mem_append.1 hx with hx | hx
      · exact hi.range x (h2.subset hx)
      · simp at hx
        subst hx
        omega
    · intro x hx
      rw [e1, h1] at hx
      rw [e2]
      rcases List.mem_append.1 hx with hx | hx
      · obtain ⟨c1, c2⟩ := hi.cover x (h2.subset hx)
        refine ⟨fun h => ?_, fun h => e6 _ (c2 h)⟩
        rcases c1 h with h | h
        · exact .inl (e5 _ h)
        · exact .inr (e5 _ h)
      · simp at hx
        subst hx
        exact e9
    · intro h
      rw [e3] at h
      cases h
    · rw [e4, hi.fastq]
      exact ⟨fun h => e5 _ h, e7⟩
    · intro t h
      rw [e2]
      exact e8 t h
    · rw [e2]; exact hi.limit
  unfold insertOrWake
  dsimp only
  split
  · rename_i hfl
    obtain ⟨x, hx1, hx2⟩ := insertTxn_flag _ _ _ _ hfl
    have hdx : due x = s.now + after := by
      unfold due
      rw [if_pos (by omega), hx2]
    refine key _ rfl rfl hf rfl (fun _ h => h) (fun _ h => h) (fun h => h) hi.queue ?_
    have := hi.cover x hx1
    rw [hdx] at this
    rw [hd]
    exact this
  · unfold wakeAfter
    split
    · rename_i h0
      refine key _ rfl rfl hf rfl (by simp +contextual) (fun _ h => h) (by simp) hi.queue ?_
      dsimp only
      refine ⟨fun _ => .inl (by simp), fun h => by omega⟩
    · refine key _ rfl rfl hf rfl (fun _ h => h) (by simp +contextual) (fun h => h) ?_ ?_
      · intro t h
        dsimp only at h
        rcases List.mem_append.1 h with h | h
        · exact hi.queue t h
        · simp at h; omega
      · dsimp only
        refine ⟨fun h => by omega, fun _ => by rw [hd]; simp⟩

theorem inv_assign (s : Drv V) (after reject : Nat) (v : V) (hi : Inv s)
    (ht : s.now + after < timeLimit) : Inv (assign after reject v s) := by
  unfold assign
  split
  · rename_i h
    split
    · exact ⟨hi.order, hi.range, hi.cover, hi.fast, hi.fastq, hi.queue, hi.limit⟩
    · rename_i hq
      split
      · exact hi
      · obtain ⟨f1, f2⟩ := hi.fast h.2
        simp only [hq] at f2
        have hnil : s.delta = [] := by simpa using f2
        refine ⟨hi.order, hi.range, ?_, ?_, ?_, hi.queue, hi.limit⟩
        · intro w hw; rw [f1] at hw; simp at hw
        · intro _; exact ⟨f1, by simp [hnil]⟩
        · simp
  · rename_i h
    dsimp only
    have hdue : due (⟨s.now + after, v⟩ : Txn V) = s.now + after := by
      unfold due; rw [if_pos ht]
    have hlt : s.now + after < 2 ^ 64 := by unfold timeLimit at ht; omega
    split
    · rename_i hq
      obtain ⟨q1, q2⟩ := hq
      obtain ⟨f1, f2⟩ := hi.fast q1
      rw [if_pos q2] at f2
      refine inv_insert { s with isFast := false } after reject _ _ ?_ rfl hdue hlt ht
      have hd0 : due (⟨s.now, s.cur⟩ : Txn V) = s.now := by
        unfold due; rw [if_pos hi.limit]
      have hl := hi.limit
      refine ⟨by simp, ?_, ?_, by simp, ?_, hi.queue, hi.limit⟩
      · intro w hw
        simp at hw
        subst hw
        dsimp only
        rw [hd0]
        unfold timeLimit at *
        omega
      · intro w hw
        simp at hw
        subst hw
        dsimp only
        rw [hd0, f2]
        exact ⟨fun _ => .inr (by simp), fun h => by omega⟩
      · dsimp only; exact hi.fastq
    · refine inv_insert { s with isFast := false } after reject _ _ ?_ rfl hdue hlt ht
      exact ⟨hi.order, hi.range, hi.cover, by simp, hi.fastq, hi.queue, hi.limit⟩

theorem inv_disconnect (zero : V) (s : Drv V) (after reject : Nat) (hi : Inv s)
    (ht : s.now + after < timeLimit) (h0 : 0 < s.now + after) :
    Inv (disconnect zero after reject s) := by
  unfold disconnect
  have e : neg64 (s.now + after) = 2 ^ 64 - (s.now + after) := by
    unfold neg64; exact Nat.mod_eq_of_lt (by omega)
  refine inv_insert { s with isFast := false } after reject _ _ ?_ rfl ?_ ?_ ht
  · exact ⟨hi.order, hi.range, hi.cover, by simp, hi.fastq, hi.queue, hi.limit⟩
  · dsimp only
    unfold due
    dsimp only
    rw [e]
    unfold timeLimit at *
    rw [if_neg (by omega)]
    omega
  · dsimp only
    rw [e]
    omega

/-! ## Cycles -/

/-- The part of the invariant that concerns the list only. -/
structure Ready (s : Drv V) : Prop where
  order : s.pend.Pairwise (fun a b => a.whn < timeLimit ∧ a.whn < due b)
  range : ∀ w ∈ s.pend, s.now ≤ due w ∧ due w < timeLimit ∧ w.whn < 2 ^ 64
  limit : s.now < timeLimit

theorem due_of_match (s : Drv V) (w : Txn V) (hl : s.now < timeLimit)
    (h : w.whn = s.now ∨ w.whn = neg64 s.now) : due w = s.now := by
  unfold due
  rcases h with h | h
  · rw [if_pos (by omega), h]
  · by_cases hz : s.now = 0
    · rw [h, hz]; simp [neg64, timeLimit]
    · have e : neg64 s.now = 2 ^ 64 - s.now := by
        unfold neg64; exact Nat.mod_eq_of_lt (by omega)
      unfold timeLimit at *
      rw [if_neg (by omega), h, e]
      omega

theorem upd_noop (s : Drv V) (hl : s.now < timeLimit) (h : ∀ w ∈ s.pend, due w ≠ s.now) :
    updateDriver s = s := by
  unfold updateDriver
  split
  · rfl
  · rename_i w rest e
    have hw := h w (by rw [e]; simp)
    rw [if_neg (fun h => hw (due_of_match s w hl (.inl h))),
      if_neg (fun h => hw (due_of_match s w hl (.inr h)))]

/-- State after the transaction `w` took effect. -/
def fire (w : Txn V) (rest : List (Txn V)) (s : Drv V) : Drv V :=
  { s with cur := w.value, pend := rest, disc := decide (timeLimit ≤ w.whn),
           log := s.log ++ [(s.now, entry w)] }

theorem upd_due (s : Drv V) (hr : Ready s) (w : Txn V) (rest : List (Txn V))
    (e : s.pend = w :: rest) (h : due w = s.now) : updateDriver s = fire w rest s := by
  have hw := (hr.range w (by rw [e]; simp)).2.2
  have hl := hr.limit
  unfold updateDriver
  rw [e]
  dsimp only
  unfold due at h
  unfold fire entry
  split at h
  · rename_i hlt
    rw [if_pos h, if_pos hlt, decide_eq_false (by omega)]
  · rename_i hlt
    have hz : s.now ≠ 0 := by omega
    have en : neg64 s.now = 2 ^ 64 - s.now := by
      unfold neg64; exact Nat.mod_eq_of_lt (by omega)
    rw [if_neg (by omega), if_pos (by rw [en]; omega), if_neg hlt, decide_eq_true (by omega)]

theorem rest_later (s : Drv V) (hr : Ready s) (w : Txn V) (rest : List (Txn V))
    (e : s.pend = w :: rest) (h : due w = s.now) : ∀ x ∈ rest, due x ≠ s.now := by
  intro x hx
  have ho := hr.order
  rw [e, List.pairwise_cons] at ho
  have h1 := ho.1 x hx
  have : due w = w.whn := by unfold due; rw [if_pos h1.1]
  omega

theorem head_due (s : Drv V) (hr : Ready s) (w : Txn V) (rest : List (Txn V))
    (e : s.pend = w :: rest) (x : Txn V) (hx : x ∈ s.pend) (h : due x = s.now) : x = w := by
  rw [e] at hx
  rcases List.mem_cons.1 hx with hx | hx
  · exact hx
  · have ho := hr.order
    rw [e, List.pairwise_cons] at ho
    have h1 := ho.1 x hx
    have h2 := hr.range w (by rw [e]; simp)
    have : due w = w.whn := by unfold due; rw [if_pos h1.1]
    omega

/-- What a cycle should do: all transactions that are due take effect, in order, and disappear. -/
def settled (s : Drv V) (s' : Drv V) : Prop :=
  s'.pend = s.pend.filter (fun w => due w ≠ s.now) ∧
    s'.log = s.log ++ (s.pend.filter (fun w => due w = s.now)).map (fun w => (s.now, entry w))

theorem settled_noop (s s' : Drv V) (h : ∀ w ∈ s.pend, due w ≠ s.now) (h1 : s'.pend = s.pend)
    (h2 : s'.log = s.log) : settled s s' := by
  unfold settled
  have a : s.pend.filter (fun w => due w ≠ s.now) = s.pend :=
    List.filter_eq_self.2 (fun w hw => by simpa using h w hw)
  have b : s.pend.filter (fun w => due w = s.now) = [] :=
    List.filter_eq_nil_iff.2 (fun w hw => by simpa using h w hw)
  rw [a, b, h1, h2]
  simp

theorem settled_fire (s : Drv V) (hr : Ready s) (w : Txn V) (rest : List (Txn V))
    (e : s.pend = w :: rest) (h : due w = s.now) (s' : Drv V) (h1 : s'.pend = rest)
    (h2 : s'.log = s.log ++ [(s.now, entry w)]) : settled s s' := by
  have hl := rest_later s hr w rest e h
  unfold settled
  have a : rest.filter (fun w => due w ≠ s.now) = rest :=
    List.filter_eq_self.2 (fun w hw => by simpa using hl w hw)
  have b : rest.filter (fun w => due w = s.now) = [] :=
    List.filter_eq_nil_iff.2 (fun w hw => by simpa using hl w hw)
  rw [e, List.filter_cons_of_neg (by simp [h]), List.filter_cons_of_pos (by simp [h]), a, b, h1, h2]
  exact ⟨rfl, rfl⟩

theorem upd_settled (s : Drv V) (hr : Ready s) : settled s (updateDriver s) := by
  cases e : s.pend with
  | nil =>
    refine settled_noop s _ (by rw [e]; simp) ?_ ?_ <;>
      rw [upd_noop s hr.limit (by rw [e]; simp)]
  | cons w rest =>
    by_cases h : due w = s.now
    · rw [upd_due s hr w rest e h]
      exact settled_fire s hr w rest e h _ rfl rfl
    · have hall : ∀ x ∈ s.pend, due x ≠ s.now := by
        intro x hx hd
        exact h (head_due s hr w rest e x hx hd ▸ hd)
      rw [upd_noop s hr.limit hall]
      exact settled_noop s _ hall rfl rfl

theorem upd_frame (s : Drv V) : (updateDriver s).now = s.now ∧ (updateDriver s).isFast = s.isFast ∧
    (updateDriver s).fastq = s.fastq ∧ (updateDriver s).delta = s.delta ∧
    (updateDriver s).queue = s.queue := by
  unfold updateDriver
  split
  · simp
  · split
    · simp
    · split <;> simp

/-- One job of a driver in the slow mode. -/
theorem job_slow (s : Drv V) (hf : s.isFast = false) (j : Job) :
    (runJob s j).pend = (updateDriver s).pend ∧ (runJob s j).log = (updateDriver s).log ∧
    (runJob s j).now = s.now ∧ (runJob s j).isFast = false ∧
    (runJob s j).fastq = (s.fastq && decide (j ≠ .fast)) ∧
    (runJob s j).delta = s.delta ∧ (runJob s j).queue = s.queue := by
  obtain ⟨a, b, c, d, e⟩ := upd_frame s
  cases j with
  | upd => simp [runJob, a, b, c, d, e, hf]
  | fast => simp [runJob, fastUpdate, hf, a, b, c, d, e]

theorem ready_upd (s : Drv V) (hr : Ready s) : Ready (updateDriver s) := by
  obtain ⟨h1, _⟩ := upd_settled s hr
  obtain ⟨a, _⟩ := upd_frame s
  refine ⟨?_, ?_, by rw [a]; exact hr.limit⟩
  · rw [h1]; exact hr.order.filter _
  · intro w hw
    rw [h1] at hw
    rw [a]
    exact hr.range w (List.mem_filter.1 hw).1

theorem jobs_slow (js : List Job) : ∀ s : Drv V, s.isFast = false → Ready s →
    ((∃ w ∈ s.pend, due w = s.now) → js ≠ []) →
    settled s (runJobs s js) ∧ (runJobs s js).now = s.now ∧ (runJobs s js).isFast = false ∧
    (runJobs s js).fastq = (s.fastq && decide (.fast ∉ js)) ∧
    (runJobs s js).delta = s.delta ∧ (runJobs s js).queue = s.queue := by
  induction js with
  | nil =>
    intro s hf hr hw
    refine ⟨settled_noop s _ (fun w h1 h2 => hw ⟨w, h1, h2⟩ rfl) rfl rfl, rfl, hf, ?_, rfl, rfl⟩
    simp [runJobs]
  | cons j js ih =>
    intro s hf hr _
    obtain ⟨j1, j2, j3, j4, j5, j6, j7⟩ := job_slow s hf j
    have hset := upd_settled s hr
    have hr' : Ready (runJob s j) := by
      have := ready_upd s hr
      obtain ⟨a, _⟩ := upd_frame s
      refine ⟨by rw [j1]; exact this.order, ?_, by rw [j3]; exact hr.limit⟩
      intro w hw
      rw [j1] at hw
      rw [j3, ← a]
      exact this.range w hw
    have hno : ∀ w ∈ (runJob s j).pend, due w ≠ (runJob s j).now := by
      intro w hw
      rw [j1, hset.1] at hw
      rw [j3]
      simpa using (List.mem_filter.1 hw).2
    obtain ⟨k1, k2, k3, k4, k5, k6⟩ := ih (runJob s j) j4 hr'
      (fun ⟨w, h1, h2⟩ => absurd h2 (hno w h1))
    have e : runJobs s (j :: js) = runJobs (runJob s j) js := rfl
    rw [e]
    refine ⟨?_, by rw [k2, j3], k3, ?_, by rw [k5, j6], by rw [k6, j7]⟩
    · obtain ⟨m1, m2⟩ := k1
      rw [List.filter_eq_self.2 (fun w hw => by simpa using hno w hw), j1] at m1
      rw [List.filter_eq_nil_iff.2 (fun w hw => by simpa using hno w hw), j2] at m2
      simp at m2
      exact ⟨m1.trans hset.1, m2.trans hset.2⟩
    · rw [k4, j5]
      cases j <;> simp

/-- The transactions that a driver in the fast mode would have: the value queued for the next delta
cycle is kept as the current one. -/
def view (s : Drv V) : List (Txn V) :=
  if s.isFast = true ∧ s.fastq = true then [⟨s.now, s.cur⟩] else s.pend

theorem delta_cycle (s : Drv V) (hi : Inv s) : Inv (deltaCycle s) ∧ (deltaCycle s).now = s.now ∧
    view (deltaCycle s) = (view s).filter (fun w => due w ≠ s.now) ∧
    (deltaCycle s).log =
      s.log ++ ((view s).filter (fun w => due w = s.now)).map (fun w => (s.now, entry w)) := by
  cases hf : s.isFast with
  | true =>
    obtain ⟨f1, f2⟩ := hi.fast hf
    have hn : due (⟨s.now, s.cur⟩ : Txn V) = s.now := by unfold due; rw [if_pos hi.limit]
    have he : entry (⟨s.now, s.cur⟩ : Txn V) = some s.cur := by unfold entry; rw [if_pos hi.limit]
    cases hq : s.fastq with
    | true =>
      rw [hq] at f2
      have e : deltaCycle s =
          { s with delta := [], fastq := false, log := s.log ++ [(s.now, some s.cur)] } := by
        unfold deltaCycle
        rw [f2]
        simp [runJobs, runJob, fastUpdate, hf]
      rw [e]
      refine ⟨⟨?_, ?_, ?_, ?_, ?_, ?_, ?_⟩, rfl, ?_, ?_⟩
      · rw [f1]; exact List.Pairwise.nil
      · rw [f1]; simp
      · rw [f1]; simp
      · intro _; exact ⟨f1, by simp⟩
      · simp
      · exact hi.queue
      · exact hi.limit
      · simp [view, hf, hq, hn, f1]
      · simp [view, hf, hq, hn, he]
    | false =>
      rw [hq] at f2
      have e : deltaCycle s = s := by
        unfold deltaCycle
        rw [f2]
        simp [runJobs]
        have : s.delta = [] := by simpa using f2
        rw [← this]
      rw [e]
      exact ⟨hi, rfl, by simp [view, hq, f1], by simp [view, hq, f1]⟩
  | false =>
    obtain ⟨j1, j2, j3, j4, j5, j6⟩ := jobs_slow s.delta { s with delta := [] } hf
      ⟨hi.order, hi.range, hi.limit⟩ (by
        rintro ⟨w, h1, h2⟩ h
        rcases (hi.cover w h1).1 h2 with h' | h' <;> rw [h] at h' <;> simp at h')
    obtain ⟨s1, s2⟩ := j1
    dsimp only at s1 s2 j2 j4 j5 j6
    have e : deltaCycle s = runJobs { s with delta := [] } s.delta := rfl
    have hv : view (deltaCycle s) = (deltaCycle s).pend := by
      unfold view; rw [e, j3]; simp
    have hv' : view s = s.pend := by unfold view; rw [hf]; simp
    rw [hv, hv', e]
    refine ⟨⟨?_, ?_, ?_, ?_, ?_, ?_, ?_⟩, j2, s1, s2⟩
    · rw [s1]; exact hi.order.filter _
    · intro w hw
      rw [s1] at hw
      rw [j2]
      exact hi.range w (List.mem_filter.1 hw).1
    · intro w hw
      rw [s1] at hw
      obtain ⟨h1, h2⟩ := List.mem_filter.1 hw
      rw [j2, j6]
      refine ⟨fun h => ?_, fun h => (hi.cover w h1).2 h⟩
      simp [h] at h2
    · intro h; rw [j3] at h; cases h
    · rw [j4, j5]
      cases hq : s.fastq with
      | false => simp
      | true => simp [hi.fastq.1 hq]
    · rw [j6, j2]; exact hi.queue
    · rw [j2]; exact hi.limit

theorem time_cycle (s : Drv V) (hi : Inv s) (t : Nat) (h1 : s.now < t) (h2 : t < timeLimit)
    (h3 : s.delta = []) (h4 : ∀ q ∈ s.queue, t ≤ q) :
    Inv (timeCycle t s) ∧ (timeCycle t s).now = t ∧
    view (timeCycle t s) = (view s).filter (fun w => due w ≠ t) ∧
    (timeCycle t s).log = s.log ++ ((view s).filter (fun w => due w = t)).map
      (fun w => (t, entry w)) := by
  have hq : s.fastq = false := by
    cases h : s.fastq with
    | false => rfl
    | true => have := hi.fastq.1 h; rw [h3] at this; simp at this
  have hv : view s = s.pend := by simp [view, hq]
  have later : ∀ w ∈ s.pend, t ≤ due w := by
    intro w hw
    have hr := (hi.range w hw).1
    have hc := hi.cover w hw
    rw [h3] at hc
    have : s.now ≠ due w := fun h => by have := hc.1 h.symm; simp at this
    exact h4 _ (hc.2 (by omega))
  cases hf : s.isFast with
  | true =>
    obtain ⟨f1, f2⟩ := hi.fast hf
    have noop : ∀ k (s : Drv V), s.pend = [] → runJobs s (List.replicate k .upd) = s := by
      intro k
      induction k with
      | zero => intro s _; rfl
      | succ k ih =>
        intro s h
        have e : runJobs s (List.replicate (k + 1) .upd) =
          runJobs (updateDriver s) (List.replicate k .upd) := rfl
        have e2 : updateDriver s = s := by unfold updateDriver; rw [h]
        rw [e, e2, ih s h]
    have e : timeCycle t s = { s with now := t, queue := s.queue.filter (· ≠ t) } := by
      unfold timeCycle
      rw [h3, List.nil_append]
      exact noop _ _ f1
    rw [hv, e]
    refine ⟨⟨?_, ?_, ?_, ?_, ?_, ?_, ?_⟩, rfl, ?_, ?_⟩
    · rw [f1]; exact List.Pairwise.nil
    · rw [f1]; simp
    · rw [f1]; simp
    · exact hi.fast
    · exact hi.fastq
    · intro q hq'
      obtain ⟨q1, q2⟩ := List.mem_filter.1 hq'
      have := h4 q q1
      simp at q2
      dsimp only
      omega
    · exact h2
    · simp [view, hq, f1]
    · simp [f1]
  | false =>
    obtain ⟨j1, j2, j3, j4, j5, j6⟩ := jobs_slow (s.delta ++ List.replicate (s.queue.count t) .upd)
      { s with now := t, queue := s.queue.filter (· ≠ t) } hf
      ⟨hi.order, fun w hw => ⟨later w hw, (hi.range w hw).2⟩, h2⟩ (by
        rintro ⟨w, w1, w2⟩ h
        dsimp only at w1 w2
        have hc := (hi.cover w w1).2 (by omega)
        rw [w2] at hc
        have := List.count_pos_iff.2 hc
        have h5 := (List.append_eq_nil_iff.1 h).2
        rw [List.replicate_eq_nil_iff] at h5
        omega)
    obtain ⟨s1, s2⟩ := j1
    dsimp only at s1 s2 j2 j4 j5 j6
    have e : timeCycle t s = runJobs { s with now := t, queue := s.queue.filter (· ≠ t) }
      (s.delta ++ List.replicate (s.queue.count t) .upd) := rfl
    have hv2 : view (timeCycle t s) = (timeCycle t s).pend := by
      unfold view; rw [e, j3]; simp
    rw [hv2, hv, e]
    refine ⟨⟨?_, ?_, ?_, ?_, ?_, ?_, ?_⟩, j2, s1, s2⟩
    · rw [s1]; exact hi.order.filter _
    · intro w hw
      rw [s1] at hw
      have hw := (List.mem_filter.1 hw).1
      rw [j2]
      exact ⟨later w hw, (hi.range w hw).2⟩
    · intro w hw
      rw [s1] at hw
      obtain ⟨w1, w2⟩ := List.mem_filter.1 hw
      simp at w2
      rw [j2, j6]
      refine ⟨fun h => absurd h w2, fun h => ?_⟩
      exact List.mem_filter.2 ⟨(hi.cover w w1).2 (by omega), by simpa using w2⟩
    · intro h; rw [j3] at h; cases h
    · rw [j4, j5, hq, h3]; simp
    · rw [j6, j2]
      intro q hq'
      obtain ⟨q1, q2⟩ := List.mem_filter.1 hq'
      have := h4 q q1
      simp at q2
      omega
    · rw [j2]; exact h2

end Verif.Sim
