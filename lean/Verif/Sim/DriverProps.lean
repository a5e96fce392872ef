import Verif.Sim.DriverLemmas

/-!
# Projected waveforms (C35, C36) and their wake-ups (C37)
-/

namespace Verif.Sim

variable {V : Type} [DecidableEq V]

/-! ## Reachable states -/

/-- No disconnection takes effect at time zero, where a null transaction cannot be told from
another one, and none is made while a fast update is queued. -/
def Safe (e : Ev V) (s : Drv V) : Prop :=
  match e with
  | .disconnect after _ => 0 < s.now + after ∧ ¬ (s.isFast = true ∧ s.fastq = true)
  | _ => True

instance (e : Ev V) (s : Drv V) : Decidable (e.Valid s) := by
  cases e <;> unfold Ev.Valid <;> infer_instance

instance (e : Ev V) (s : Drv V) : Decidable (Safe e s) := by
  cases e <;> unfold Safe <;> infer_instance

theorem inv_apply (zero : V) (e : Ev V) (s : Drv V) (hi : Inv s) (hv : e.Valid s) (hs : Safe e s) :
    Inv (e.apply zero s) := by
  cases e with
  | assign a r v => exact inv_assign s a r v hi hv.2
  | disconnect a r => exact inv_disconnect zero s a r hi hv.2 hs.1
  | delta => exact (delta_cycle s hi).1
  | time t => exact (time_cycle s hi t hv.1 hv.2.1 hv.2.2.1 hv.2.2.2).1

theorem reach_inv (zero v : V) (f : Bool) (s : Drv V) (h : Reach zero Safe (newDriver v f) s) :
    Inv s := by
  induction h with
  | start => exact inv_new v f
  | step _ hv hs ih => exact inv_apply zero _ _ ih hv hs

theorem due_lt (w : Txn V) (h : w.whn < timeLimit) : due w = w.whn := by unfold due; rw [if_pos h]

theorem view_due (s : Drv V) (hi : Inv s) : (view s).Pairwise (fun a b => due a < due b) ∧
    ∀ w ∈ view s, s.now ≤ due w ∧ due w < timeLimit := by
  unfold view
  split
  · refine ⟨by simp, ?_⟩
    intro w hw
    simp at hw
    subst hw
    rw [due_lt _ hi.limit]
    exact ⟨Nat.le_refl _, hi.limit⟩
  · refine ⟨hi.order.imp (fun ⟨h1, h2⟩ => by rw [due_lt _ h1]; exact h2), fun w hw => ?_⟩
    have := hi.range w hw
    exact ⟨this.1, this.2.1⟩

/-! ## C35 -/

/-- The transactions of a driver are in strictly increasing time order and none is in the past. -/
theorem waveform_ordered_partial (zero v : V) (f : Bool) (s : Drv V)
    (h : Reach zero Safe (newDriver v f) s) :
    (view s).Pairwise (fun a b => due a < due b) ∧ ∀ w ∈ view s, s.now ≤ due w :=
  ⟨(view_due s (reach_inv zero v f s h)).1, fun w hw => ((view_due s (reach_inv zero v f s h)).2 w hw).1⟩

/-- IEEE 1076 10.5.2.2 for transport delay: transactions at or after the new one are deleted, the
new one is appended. -/
def transport (old : List (Txn V)) (w : Txn V) : List (Txn V) :=
  old.filter (fun x => due x < due w) ++ [w]

theorem insert_filter (w : Txn V) (whn reject : Nat) (l : List (Txn V)) (hw : whn < timeLimit)
    (hs : l.Pairwise (fun a b => due a < due b)) (hn : ∀ x ∈ l, x.whn < timeLimit) :
    (insertTxn w whn reject l).1 = l.filter (fun x => due x < whn ∧
      ¬ (whn - reject ≤ due x ∧ x.value ≠ w.value)) ++ [w] := by
  induction l with
  | nil => rfl
  | cons it rest ih =>
    rw [List.pairwise_cons] at hs
    have ih := ih hs.2 (fun x hx => hn x (List.mem_cons_of_mem _ hx))
    have hd := due_lt it (hn it (by simp))
    unfold insertTxn
    split
    · rename_i hlt
      split
      · rename_i hc
        rw [List.filter_cons_of_neg (by rw [hd]; simp only [decide_eq_true_eq]; exact fun h => h.2 hc),
          ih]
      · rename_i hc
        rw [List.filter_cons_of_pos (by rw [hd]; simp only [decide_eq_true_eq]; exact ⟨hlt, hc⟩),
          List.cons_append, ← ih]
    · rename_i hge
      have : (it :: rest).filter (fun x => decide (due x < whn ∧
          ¬ (whn - reject ≤ due x ∧ x.value ≠ w.value))) = [] := by
        rw [List.filter_eq_nil_iff]
        intro x hx
        have : whn ≤ due x := by
          rcases List.mem_cons.1 hx with rfl | hx
          · omega
          · have := hs.1 x hx; omega
        simp
        omega
      rw [this]
      rfl

theorem insertOrWake_frame (after reject : Nat) (w : Txn V) (pend : List (Txn V)) (s : Drv V) :
    (insertOrWake after reject w pend s).pend = (insertTxn w (s.now + after) reject pend).1 ∧
    (insertOrWake after reject w pend s).isFast = s.isFast := by
  unfold insertOrWake wakeAfter
  dsimp only
  split
  · simp
  · split <;> simp

/-- The effect of an assignment on the waveform.  In the fast mode an assignment of the current
value does not queue anything. -/
theorem assign_view (s : Drv V) (hi : Inv s) (after reject : Nat) (v : V) :
    (s.isFast = true ∧ s.fastq = false ∧ after = 0 ∧ v = s.cur ∧ assign after reject v s = s) ∨
    view (assign after reject v s) =
      (insertTxn ⟨s.now + after, v⟩ (s.now + after) reject (view s)).1 := by
  unfold assign
  split
  · rename_i h
    obtain ⟨h0, hf⟩ := h
    subst h0
    split
    · rename_i hq
      right
      simp [view, hf, hq, insertTxn]
    · rename_i hq
      have hq : s.fastq = false := by simpa using hq
      split
      · rename_i hv
        exact .inl ⟨hf, hq, rfl, hv, rfl⟩
      · right
        obtain ⟨f1, _⟩ := hi.fast hf
        simp [view, hf, hq, f1, insertTxn]
  · right
    dsimp only
    obtain ⟨e1, e2⟩ := insertOrWake_frame after reject ⟨s.now + after, v⟩
      (if s.isFast = true ∧ s.fastq = true then [⟨s.now, s.cur⟩] else s.pend)
      { s with isFast := false }
    unfold view
    rw [e2, e1]
    simp

/-- A transport assignment deletes exactly the pending transactions at or after its time and appends
the new one, unless it is an assignment of the current value in the fast mode, which has no
effect.  Restricted to waveforms without null transactions. -/
theorem transport_partial (zero v0 : V) (f : Bool) (s : Drv V)
    (h : Reach zero Safe (newDriver v0 f) s) (after : Nat) (v : V)
    (ht : s.now + after < timeLimit) (hn : ∀ w ∈ view s, entry w ≠ none) :
    (after = 0 ∧ v = s.cur ∧ view s = [] ∧ assign after 0 v s = s) ∨
    view (assign after 0 v s) = transport (view s) ⟨s.now + after, v⟩ := by
  have hi := reach_inv zero v0 f s h
  rcases assign_view s hi after 0 v with ⟨h1, h2, h3, h4, h5⟩ | h1
  · exact .inl ⟨h3, h4, by simp [view, h2, (hi.fast h1).1], h5⟩
  · right
    have hd : due (⟨s.now + after, v⟩ : Txn V) = s.now + after := due_lt _ ht
    rw [h1, insert_filter _ _ _ _ ht (view_due s hi).1, transport, hd]
    · congr 1
      apply List.filter_congr
      intro x hx
      simp only [Nat.sub_zero, decide_eq_decide]
      constructor
      · exact fun h => h.1
      · exact fun h => ⟨h, fun h' => by omega⟩
    · intro x hx
      have := hn x hx
      unfold entry at this
      split at this
      · assumption
      · exact absurd rfl this

/-- `s <= '1' after 3, null after 5, '0' after 7`: the null transaction is dropped although its time
is before that of the last one. -/
theorem null_counterexample : ∃ s : Drv Nat, Reach 0 Safe (newDriver 0 false) s ∧
    ∃ after v, s.now + after < timeLimit ∧
    view (assign after 0 v s) ≠ transport (view s) ⟨s.now + after, v⟩ := by
  have r1 : Reach 0 Safe (newDriver 0 false) _ :=
    .step (e := .assign 3 0 1) .start (by decide) trivial
  have r2 := r1.step (e := .disconnect 5 0) (by decide) (by decide)
  exact ⟨_, r2, 7, 0, by decide, by decide⟩

/-! ## C36 -/

/-- IEEE 1076 10.5.2.2, marking of the old transactions, by position; `limit` is the time of the new
transaction minus the pulse rejection limit. -/
inductive Marked (old : List (Txn V)) (w : Txn V) (limit : Nat) : Nat → Prop where
  /-- all of the new transactions are marked -/
  | new : Marked old w limit old.length
  /-- an old transaction is marked if its time is less than the limit -/
  | early {i : Nat} {x : Txn V} (h : old[i]? = some x) (hl : due x < limit) : Marked old w limit i
  /-- an old transaction is marked if it immediately precedes a marked one with the same value -/
  | same {i : Nat} {x y : Txn V} (h : old[i]? = some x) (hy : (old ++ [w])[i + 1]? = some y)
      (hm : Marked old w limit (i + 1)) (he : entry x = entry y) : Marked old w limit i

open Classical in
/-- IEEE 1076 10.5.2.2 for inertial delay: first as for transport delay, then all unmarked old
transactions are deleted. -/
noncomputable def inertial (old : List (Txn V)) (w : Txn V) (reject : Nat) : List (Txn V) :=
  let old := old.filter (fun x => due x < due w)
  (old.zipIdx.filter (fun p => Marked old w (due w - reject) p.2)).map (·.1) ++ [w]

theorem marked_old (old : List (Txn V)) (w : Txn V) (limit : Nat)
    (hl : limit ≤ due w) (ho : old.Pairwise (fun a b => due a < due b)) (i : Nat) (hm : Marked old w limit i)
    (x : Txn V) (hx : (old ++ [w])[i]? = some x) : due x < limit ∨ entry x = entry w := by
  induction hm generalizing x with
  | new => simp at hx; subst hx; exact .inr rfl
  | early h hl =>
    rw [List.getElem?_append_left (List.getElem?_eq_some_iff.1 h).1, h] at hx
    injection hx with hx
    subst hx
    exact .inl hl
  | @same i a b h hy hm he ih =>
    obtain ⟨hlt, hge⟩ := List.getElem?_eq_some_iff.1 h
    rw [List.getElem?_append_left hlt, h] at hx
    injection hx with hx
    subst hx
    rcases ih b hy with h1 | h1
    · left
      by_cases hl : i + 1 < old.length
      · rw [List.getElem?_append_left hl] at hy
        obtain ⟨hl', hge'⟩ := List.getElem?_eq_some_iff.1 hy
        have := List.pairwise_iff_getElem.1 ho i (i + 1) hlt hl (by omega)
        rw [hge, hge'] at this
        omega
      · have : i + 1 = old.length := by omega
        rw [this] at hy
        simp at hy
        subst hy
        omega
    · exact .inr (he.trans h1)

/-- The transactions that nvc keeps: those before the rejection interval and those with the value of
the new transaction. -/
def nvcKept (w : Txn V) (reject : Nat) (old : List (Txn V)) : List (Txn V) :=
  old.filter (fun x => due x < due w - reject ∨ entry x = entry w)

theorem insert_inertial (w : Txn V) (reject : Nat) (l : List (Txn V)) (hw : w.whn < timeLimit)
    (hs : l.Pairwise (fun a b => due a < due b)) (hn : ∀ x ∈ l, entry x ≠ none) :
    (insertTxn w w.whn reject l).1 =
      nvcKept w reject (l.filter (fun x => due x < due w)) ++ [w] := by
  have hn' : ∀ x ∈ l, x.whn < timeLimit := by
    intro x hx
    have := hn x hx
    unfold entry at this
    split at this
    · assumption
    · exact absurd rfl this
  rw [insert_filter w w.whn reject l hw hs hn', nvcKept, List.filter_filter, due_lt w hw]
  congr 1
  apply List.filter_congr
  intro x hx
  have e1 : entry x = some x.value := by unfold entry; rw [if_pos (hn' x hx)]
  have e2 : entry w = some w.value := by unfold entry; rw [if_pos hw]
  rw [e1, e2, ← Bool.decide_and, decide_eq_decide]
  simp only [Option.some.injEq]
  constructor
  · rintro ⟨h1, h2⟩
    refine ⟨?_, h1⟩
    by_cases h : x.value = w.value
    · exact .inr h
    · exact .inl (Nat.lt_of_not_le (fun h' => h2 ⟨h', h⟩))
  · rintro ⟨h1, h2⟩
    refine ⟨h2, fun ⟨h3, h4⟩ => ?_⟩
    rcases h1 with h1 | h1
    · omega
    · exact h4 h1

open Classical in
theorem filter_zip (l : List (Txn V)) (p : Txn V → Bool) :
    l.filter p = (l.zipIdx.filter (fun q => p q.1)).map (·.1) := by
  have := List.filter_map (f := fun q : Txn V × Nat => q.1) (p := p) (l := l.zipIdx)
  rw [List.zipIdx_map_fst] at this
  rw [this]
  rfl

theorem filter_le {α : Type} (l : List α) (p q : α → Bool) (h : ∀ x ∈ l, p x = true → q x = true) :
    (l.filter p).Sublist (l.filter q) := by
  induction l with
  | nil => exact .slnil
  | cons x l ih =>
    have ih := ih (fun y hy => h y (List.mem_cons_of_mem _ hy))
    by_cases hp : p x = true
    · rw [List.filter_cons_of_pos hp, List.filter_cons_of_pos (h x (by simp) hp)]
      exact ih.cons_cons _
    · rw [List.filter_cons_of_neg hp]
      by_cases hq : q x = true
      · rw [List.filter_cons_of_pos hq]; exact ih.cons _
      · rw [List.filter_cons_of_neg hq]; exact ih

theorem filter_length_eq {α : Type} (l : List α) (p q : α → Bool)
    (h : ∀ x ∈ l, p x = true → q x = true) (hl : (l.filter p).length = (l.filter q).length) :
    ∀ x ∈ l, q x = true → p x = true := by
  induction l with
  | nil => simp
  | cons x l ih =>
    have hle := (filter_le l p q (fun y hy => h y (List.mem_cons_of_mem _ hy))).length_le
    have ih := ih (fun y hy => h y (List.mem_cons_of_mem _ hy))
    by_cases hp : p x = true
    · rw [List.filter_cons_of_pos hp, List.filter_cons_of_pos (h x (by simp) hp)] at hl
      simp only [List.length_cons, Nat.add_right_cancel_iff] at hl
      intro y hy
      rcases List.mem_cons.1 hy with rfl | hy
      · exact fun _ => hp
      · exact ih hl y hy
    · rw [List.filter_cons_of_neg hp] at hl
      by_cases hq : q x = true
      · rw [List.filter_cons_of_pos hq, List.length_cons] at hl; omega
      · rw [List.filter_cons_of_neg hq] at hl
        intro y hy
        rcases List.mem_cons.1 hy with rfl | hy
        · exact fun h => absurd h hq
        · exact ih hl y hy

theorem marked_kept (old : List (Txn V)) (w : Txn V) (reject : Nat)
    (ho : old.Pairwise (fun a b => due a < due b)) (p : Txn V × Nat) (hp : p ∈ old.zipIdx)
    (hm : Marked old w (due w - reject) p.2) : due p.1 < due w - reject ∨ entry p.1 = entry w := by
  have h := List.mem_zipIdx_iff_getElem?.1 hp
  exact marked_old old w _ (Nat.sub_le _ _) ho p.2 hm p.1 (by
    rw [List.getElem?_append_left (List.getElem?_eq_some_iff.1 h).1, h])

open Classical in
theorem inertial_eq (l : List (Txn V)) (w : Txn V) (reject : Nat)
    (hs : l.Pairwise (fun a b => due a < due b)) :
    let old := l.filter (fun x => due x < due w)
    (inertial l w reject).Sublist (nvcKept w reject old ++ [w]) ∧
    (nvcKept w reject old ++ [w] = inertial l w reject ↔
      ∀ i x, old[i]? = some x → entry x = entry w → Marked old w (due w - reject) i) := by
  intro old
  have ho : old.Pairwise (fun a b => due a < due b) := hs.filter _
  have hsub : ∀ p ∈ old.zipIdx, decide (Marked old w (due w - reject) p.2) = true →
      decide (due p.1 < due w - reject ∨ entry p.1 = entry w) = true := by
    intro p hp hm
    simp only [decide_eq_true_eq] at hm ⊢
    exact marked_kept old w reject ho p hp hm
  have e1 : nvcKept w reject old = (old.zipIdx.filter
      (fun p => decide (due p.1 < due w - reject ∨ entry p.1 = entry w))).map (·.1) :=
    filter_zip old _
  have e2 : inertial l w reject = (old.zipIdx.filter
      (fun p => decide (Marked old w (due w - reject) p.2))).map (·.1) ++ [w] := rfl
  rw [e1, e2]
  refine ⟨((filter_le _ _ _ hsub).map _).append (List.Sublist.refl _), ?_, ?_⟩
  · intro h i x hx he
    have hlen := congrArg List.length h
    simp only [List.length_append, List.length_map] at hlen
    have := filter_length_eq _ _ _ hsub (by omega) (x, i) (List.mem_zipIdx_iff_getElem?.2 hx)
      (by simp [he])
    simpa using this
  · intro h
    congr 2
    apply List.filter_congr
    intro p hp
    rw [decide_eq_decide]
    have hx := List.mem_zipIdx_iff_getElem?.1 hp
    constructor
    · rintro (h1 | h1)
      · exact .early hx h1
      · exact h _ _ hx h1
    · exact marked_kept old w reject ho p hp

/-- Assignments with a rejection limit, without null transactions: nvc keeps all the transactions
that the standard keeps, in the same order, and keeps no others iff all old transactions with the
value of the new one are marked. -/
theorem inertial_partial (zero v0 : V) (f : Bool) (s : Drv V)
    (h : Reach zero Safe (newDriver v0 f) s) (after reject : Nat) (v : V)
    (ht : s.now + after < timeLimit) (hn : ∀ w ∈ view s, entry w ≠ none) :
    (after = 0 ∧ v = s.cur ∧ view s = [] ∧ assign after reject v s = s) ∨
    (inertial (view s) ⟨s.now + after, v⟩ reject).Sublist (view (assign after reject v s)) ∧
    (view (assign after reject v s) = inertial (view s) ⟨s.now + after, v⟩ reject ↔
      ∀ i x, ((view s).filter (fun x => due x < s.now + after))[i]? = some x → entry x = some v →
        Marked ((view s).filter (fun x => due x < s.now + after)) ⟨s.now + after, v⟩
          (s.now + after - reject) i) := by
  have hi := reach_inv zero v0 f s h
  rcases assign_view s hi after reject v with ⟨h1, h2, h3, h4, h5⟩ | h1
  · exact .inl ⟨h3, h4, by simp [view, h2, (hi.fast h1).1], h5⟩
  · right
    have hd : due (⟨s.now + after, v⟩ : Txn V) = s.now + after := due_lt _ ht
    have he : entry (⟨s.now + after, v⟩ : Txn V) = some v := by unfold entry; rw [if_pos ht]
    have hs := (view_due s hi).1
    have e := insert_inertial (⟨s.now + after, v⟩ : Txn V) reject (view s) ht hs hn
    obtain ⟨k1, k2⟩ := inertial_eq (view s) (⟨s.now + after, v⟩ : Txn V) reject hs
    rw [h1]
    dsimp only at e
    rw [e]
    refine ⟨k1, ?_⟩
    rw [hd, he] at k2
    simp only [hd]
    exact k2

theorem marked_suffix (old : List (Txn V)) (w : Txn V) (limit : Nat)
    (h : ∀ (i j : Nat) x y, i < j → old[i]? = some x → old[j]? = some y → limit ≤ due x →
      entry x = entry w → entry y = entry w)
    (i : Nat) (x : Txn V) (hx : old[i]? = some x) (he : entry x = entry w) :
    Marked old w limit i := by
  by_cases hl : due x < limit
  · exact .early hx hl
  · have hlt := (List.getElem?_eq_some_iff.1 hx).1
    -- downwards from the end
    have key : ∀ k, ∀ j, i ≤ j → j + k = old.length → Marked old w limit j := by
      intro k
      induction k with
      | zero => intro j _ hj; rw [Nat.add_zero] at hj; rw [hj]; exact .new
      | succ k ih =>
        intro j hij hj
        have hm := ih (j + 1) (by omega) (by omega)
        have hjlt : j < old.length := by omega
        have entry_at : ∀ m (hm : m < old.length), i ≤ m → entry old[m] = entry w := by
          intro m hm him
          by_cases e : i = m
          · subst e
            have := (List.getElem?_eq_some_iff.1 hx).2
            rw [this]; exact he
          · exact h i m x _ (by omega) hx (List.getElem?_eq_getElem hm) (by omega) he
        by_cases hj1 : j + 1 < old.length
        · refine .same (List.getElem?_eq_getElem hjlt) (y := old[j + 1]) ?_ hm ?_
          · rw [List.getElem?_append_left hj1, List.getElem?_eq_getElem hj1]
          · rw [entry_at j hjlt hij, entry_at (j + 1) hj1 (by omega)]
        · refine .same (List.getElem?_eq_getElem hjlt) (y := w) ?_ hm (entry_at j hjlt hij)
          rw [(by omega : j + 1 = old.length)]
          simp
    exact key (old.length - i) i (Nat.le_refl _) (by omega)

/-- If in the rejection interval no transaction with the value of the new one is followed by one
with another value, the waveform is the one of the standard. -/
theorem inertial_suffix_partial (zero v0 : V) (f : Bool) (s : Drv V)
    (h : Reach zero Safe (newDriver v0 f) s) (after reject : Nat) (v : V)
    (ht : s.now + after < timeLimit) (hn : ∀ w ∈ view s, entry w ≠ none)
    (hs : ∀ x ∈ view s, ∀ y ∈ view s, due x < due y → due y < s.now + after →
      s.now + after - reject ≤ due x → entry x = some v → entry y = some v) :
    (after = 0 ∧ v = s.cur ∧ view s = [] ∧ assign after reject v s = s) ∨
    view (assign after reject v s) = inertial (view s) ⟨s.now + after, v⟩ reject := by
  have hi := reach_inv zero v0 f s h
  rcases inertial_partial zero v0 f s h after reject v ht hn with h1 | ⟨_, h1⟩
  · exact .inl h1
  · right
    rw [h1]
    have he : entry (⟨s.now + after, v⟩ : Txn V) = some v := by unfold entry; rw [if_pos ht]
    intro i x hx hxe
    refine marked_suffix _ _ _ ?_ i x hx (by rw [he]; exact hxe)
    intro i j x y hij hx hy hl hxe
    rw [he] at hxe ⊢
    obtain ⟨ix, ex⟩ := List.getElem?_eq_some_iff.1 hx
    obtain ⟨iy, ey⟩ := List.getElem?_eq_some_iff.1 hy
    have mx := List.mem_filter.1 (ex ▸ List.getElem_mem ix)
    have my := List.mem_filter.1 (ey ▸ List.getElem_mem iy)
    have hlt := List.pairwise_iff_getElem.1 ((view_due s hi).1.filter
      (fun x => decide (due x < s.now + after))) i j ix iy hij
    rw [ex, ey] at hlt
    exact hs x mx.1 y my.1 hlt (by simpa using my.2) hl hxe

theorem not_marked (k : Nat) (hm : Marked [⟨5, 1⟩, ⟨6, 0⟩] (⟨7, 1⟩ : Txn Nat) 0 k) : k ≠ 0 := by
  intro hk
  cases hm with
  | new => simp at hk
  | early h hl => omega
  | same h hy hm he =>
    subst hk
    simp at h hy
    subst h hy
    revert he
    decide

/-- Pending are 1 at 5 and 0 at 6; the inertial assignment of 1 after 7 (rejection limit 7) should
leave 1 at 7 only; nvc keeps 1 at 5 also. -/
theorem inertial_counterexample : ∃ s : Drv Nat, Reach 0 Safe (newDriver 0 false) s ∧
    (∀ w ∈ view s, entry w ≠ none) ∧ ∃ after reject v, reject ≤ after ∧ s.now + after < timeLimit ∧
    view (assign after reject v s) ≠ inertial (view s) ⟨s.now + after, v⟩ reject := by
  have r1 : Reach 0 Safe (newDriver 0 false) _ :=
    .step (e := .assign 5 0 1) .start (by decide) trivial
  have r2 := r1.step (e := .assign 6 0 0) (by decide) trivial
  refine ⟨_, r2, by decide, 7, 7, 1, by decide, by decide, ?_⟩
  intro h
  rcases inertial_partial 0 0 false _ r2 7 7 1 (by decide) (by decide) with h1 | ⟨_, h1⟩
  · exact absurd h1.1 (by decide)
  · have hm := h1.1 h 0 ⟨5, 1⟩ (by decide) (by decide)
    exact not_marked 0 hm rfl

/-! ## C37 -/

/-- Every pending transaction has a wake-up at its time: in the queue of the next delta cycle if it
is due now, otherwise in the event heap. -/
theorem pending_covered_partial (zero v0 : V) (f : Bool) (s : Drv V)
    (h : Reach zero Safe (newDriver v0 f) s) (w : Txn V) (hw : w ∈ view s) :
    s.now ≤ due w ∧ (due w = s.now → s.delta ≠ []) ∧ (s.now < due w → due w ∈ s.queue) := by
  have hi := reach_inv zero v0 f s h
  refine ⟨((view_due s hi).2 w hw).1, ?_⟩
  unfold view at hw
  split at hw
  · rename_i hq
    simp at hw
    subst hw
    rw [due_lt _ hi.limit]
    refine ⟨fun _ h0 => ?_, fun h => absurd h (Nat.lt_irrefl _)⟩
    have := hi.fastq.1 hq.2
    rw [h0] at this
    simp at this
  · obtain ⟨h1, h2⟩ := hi.cover w hw
    refine ⟨fun h h0 => ?_, h2⟩
    rw [h0] at h1
    simpa using h1 h

/-- Each cycle applies exactly the transactions that are due at its time, each once, and leaves the
others. -/
theorem cycle_applies_partial (zero v0 : V) (f : Bool) (s : Drv V)
    (h : Reach zero Safe (newDriver v0 f) s) (e : Ev V) (he : e = .delta ∨ ∃ t, e = .time t)
    (hv : e.Valid s) :
    let s' := e.apply zero s
    view s' = (view s).filter (fun w => due w ≠ s'.now) ∧
    s'.log = s.log ++ ((view s).filter (fun w => due w = s'.now)).map (fun w => (s'.now, entry w)) := by
  have hi := reach_inv zero v0 f s h
  rcases he with rfl | ⟨t, rfl⟩
  · obtain ⟨_, h2, h3, h4⟩ := delta_cycle s hi
    dsimp only [Ev.apply]
    rw [h2]
    exact ⟨h3, h4⟩
  · obtain ⟨_, h2, h3, h4⟩ := time_cycle s hi t hv.1 hv.2.1 hv.2.2.1 hv.2.2.2
    dsimp only [Ev.apply]
    rw [h2]
    exact ⟨h3, h4⟩

/-- An assignment does not apply anything by itself. -/
theorem assign_log (zero : V) (e : Ev V) (s : Drv V) (he : e ≠ .delta) (ht : ∀ t, e ≠ .time t) :
    (e.apply zero s).log = s.log ∧ (e.apply zero s).now = s.now := by
  have key : ∀ a r w p (s : Drv V), (insertOrWake a r w p s).log = s.log ∧
      (insertOrWake a r w p s).now = s.now := by
    intro a r w p s
    unfold insertOrWake wakeAfter
    dsimp only
    split
    · simp
    · split <;> simp
  cases e with
  | delta => exact absurd rfl he
  | time t => exact absurd rfl (ht t)
  | disconnect a r => exact key _ _ _ _ _
  | assign a r v =>
    dsimp only [Ev.apply]
    unfold assign
    split
    · split
      · simp
      · split <;> simp
    · exact key _ _ _ _ _

/-- `s <= '1', null after 5` on a driver in the fast mode at time 1: the value 1 is not applied in
the delta cycle that follows. -/
theorem disconnect_counterexample : ∃ s : Drv Nat, Reach 0 Safe (newDriver 0 true) s ∧
    (⟨s.now, 1⟩ : Txn Nat) ∈ view s ∧ (Ev.disconnect 5 0).Valid s ∧
    (deltaCycle (disconnect 0 5 0 s)).log = s.log := by
  have r1 : Reach 0 Safe (newDriver 0 true) _ :=
    .step (e := .time 1) .start (by decide) trivial
  have r2 := r1.step (e := .assign 0 0 1) (by decide) trivial
  exact ⟨_, r2, by decide, by decide, by decide⟩

/-- `s <= null` at time zero: the driver is not disconnected but gets the value with all bits
zero. -/
theorem null_zero_counterexample : ∃ s : Drv Nat, Reach 0 (fun _ _ => True) (newDriver 7 true) s ∧
    s.log = [(0, some 0)] ∧ s.disc = false := by
  have r1 : Reach 0 (fun _ _ => True) (newDriver 7 true) _ :=
    .step (e := .disconnect 0 0) .start (by decide) trivial
  have r2 := r1.step (e := .delta) (by decide) trivial
  exact ⟨_, r2, by decide, by decide⟩

/-- `s <= '1'; s <= '0' after 5` in the fast mode: the driver's current value becomes 1, although
this transaction is deleted and never applied. -/
theorem fast_value_counterexample : ∃ s : Drv Nat, Reach 0 Safe (newDriver 0 true) s ∧
    s.log = [] ∧ s.delta = [] ∧ s.cur = 1 := by
  have r1 : Reach 0 Safe (newDriver 0 true) _ :=
    .step (e := .assign 0 0 1) .start (by decide) trivial
  have r2 := r1.step (e := .assign 5 5 0) (by decide) trivial
  have r3 := r2.step (e := .delta) (by decide) trivial
  exact ⟨_, r3, by decide, by decide, by decide⟩

/-! ## Examples -/

/-- Two assignments in the fast mode, then delayed ones, with pulse rejection; then the time passes. -/
example : ∃ s : Drv Nat, Reach 0 Safe (newDriver 0 true) s ∧
    s.log = [(0, some 2), (4, some 7), (6, some 9)] ∧ view s = [⟨12, 1⟩] := by
  have r1 : Reach 0 Safe (newDriver 0 true) _ :=
    .step (e := .assign 0 0 1) .start (by decide) trivial
  have r2 := r1.step (e := .assign 0 0 2) (by decide) trivial
  have r3 := r2.step (e := .delta) (by decide) trivial
  have r4 := r3.step (e := .assign 4 0 7) (by decide) trivial
  have r5 := r4.step (e := .assign 6 0 9) (by decide) trivial
  have r6 := r5.step (e := .assign 9 0 8) (by decide) trivial
  have r7 := r6.step (e := .time 4) (by decide) trivial
  have r8 := r7.step (e := .time 6) (by decide) trivial
  have r9 := r8.step (e := .assign 6 4 1) (by decide) trivial
  exact ⟨_, r9, by decide, by decide⟩

end Verif.Sim
