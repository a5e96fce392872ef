import Verif.Seq.SimAll

/-
From the simulation of statements to whole bodies.
-/

namespace Verif.Seq

open Spec

variable {S : Type} {leave : S → S} {G : Nat → Blk S}

/-- The code stops with an outcome. -/
def Halts (leave : S → S) (G : Nat → Blk S) (m : M S) (o : MOut S) : Prop :=
  (∀ x, o ≠ .run x) ∧ ∃ k m', Steps leave G k m m' ∧ mstep leave G m' = o

theorem steps_stop {k j : Nat} {m m1 m2 : M S} {o : MOut S} (h : Steps leave G k m m1)
    (ho : ∀ x, o ≠ .run x) (e : mstep leave G m1 = o) (h2 : Steps leave G j m m2) : j ≤ k := by
  induction h generalizing j with
  | refl m =>
    cases h2 with
    | refl => exact Nat.le_refl _
    | step e2 _ => exact absurd (e.symm.trans e2) (ho _)
  | step e1 _ ih =>
    cases h2 with
    | refl => exact Nat.zero_le _
    | step e2 t =>
      rw [e1] at e2
      cases e2
      exact Nat.succ_le_succ (ih e t)

theorem halts_det {m : M S} {o o' : MOut S} (h : Halts leave G m o) (h' : Halts leave G m o') :
    o = o' := by
  obtain ⟨ho, k, m1, h1, e1⟩ := h
  obtain ⟨ho', k', m2, h2, e2⟩ := h'
  induction h1 generalizing k' with
  | refl m =>
    cases h2 with
    | refl => exact e1.symm.trans e2
    | step e _ => exact absurd (e1.symm.trans e) (ho _)
  | step e h ih =>
    cases h2 with
    | refl => exact absurd (e2.symm.trans e) (ho' _)
    | step e' t =>
      rw [e] at e'
      cases e'
      exact ih e1 _ t

theorem Returns.halts {m : M S} {v : Int} {s : S} (h : Returns leave G m v s) :
    Halts leave G m (.ret v s) :=
  ⟨(fun _ h => by cases h), h⟩

theorem start_wf : WF (start : B S) where
  cur := Nat.zero_lt_one
  fresh := fun _ _ => rfl
  lz := fun _ _ h => by cases h
  inj := fun _ _ _ h => by cases h
  nodup := .nil
  fr := fun _ h => by cases h

theorem start_up {body : Sq S} {b : B S} (h : lowerQ [] [] body start = some b) : Up start b :=
  lowerQ_up body [] [] _ _ start_wf (fun _ h => by cases h) h

/-- The body of a unit: where it ends in the normal case. -/
theorem body_sim {body : Sq S} {b : B S} (n : Nat) (h : lowerQ [] [] body start = some b)
    (hx : Ext b.blk G) (ok : body.ok leave) (s : S) (m : M S) (ha : At (start : B S) m)
    (hs : m.s = s) :
    match execQ leave n [] body s with
    | none => ∃ k m', n ≤ k ∧ Steps leave G k m m'
    | some (.norm s') => ∃ k m', Steps leave G k m m' ∧ b.fin = false ∧ At b m' ∧ m'.s = s'
    | some (.ret v s') => Returns leave G m v s'
    | some _ => False := by
  have r := simQ (leave := leave) (G := G) n body [] [] [] start b m start_wf
    (fun _ h => by cases h) rfl h hx ok ha rfl (fun _ h => by cases h)
    (fun _ _ h => by cases h)
  rw [hs] at r
  match execQ leave n [] body s, r with
  | none, r => exact r
  | some (.norm s'), ⟨k, m', h1, h2, h3, _⟩ => exact ⟨k, m', h1, h2.1, h2.2, h3⟩
  | some (.ret v s'), r => exact r
  | some (.exit l s'), ⟨_, h, _⟩ => cases h
  | some (.next l s'), ⟨_, _, h, _⟩ => cases h

theorem at_init (s : S) : At (start : B S) (M.init s) := ⟨rfl, rfl⟩

/-- How a body of a function ends. -/
def funcEnd : Out S → Option (MOut S)
  | .norm s => some (.fail s)
  | .ret v s => some (.ret v s)
  | _ => none

/-- How a body of a procedure ends. -/
def procEnd (leave : S → S) : Out S → Option (MOut S)
  | .norm s => some (.ret 0 (leave s))
  | .ret v s => some (.ret v s)
  | _ => none

theorem func_sim {body : Sq S} {b : B S} (n : Nat) (h : lowerFunc body = some b)
    (ok : body.ok leave) (s : S) :
    match execQ leave n [] body s with
    | none => ∃ k m', n ≤ k ∧ Steps leave b.blk k (.init s) m'
    | some o => ∃ r, funcEnd o = some r ∧ Halts leave b.blk (.init s) r := by
  unfold lowerFunc at h
  simp only [Option.bind_eq_bind, Option.bind_eq_some_iff] at h
  obtain ⟨c, h1, h2⟩ := h
  have u := start_up h1
  have hx : Ext c.blk b.blk := by
    unfold endFunc at h2
    split at h2
    · obtain rfl := Option.some.inj h2; exact .refl _
    · exact ((Up.refl u.1).close h2).2.ext
  have r := body_sim (leave := leave) n h1 hx ok s _ (at_init s) rfl
  match execQ leave n [] body s, r with
  | none, r => exact r
  | some (.ret v s'), r => exact ⟨_, rfl, r.halts⟩
  | some (.norm s'), ⟨k, m', h3, h4, h5, h6⟩ =>
    refine ⟨_, rfl, (fun _ h => by cases h), k, m', h3, ?_⟩
    unfold endFunc at h2
    rw [h4] at h2
    obtain ⟨p, q⟩ := close_at h2 (.refl _) h5
    unfold mstep
    simp only [p, q, h6]

theorem proc_sim {body : Sq S} {b : B S} (n : Nat) (h : lowerProc body = some b)
    (ok : body.ok leave) (s : S) :
    match execQ leave n [] body s with
    | none => ∃ k m', n ≤ k ∧ Steps leave b.blk k (.init s) m'
    | some o => ∃ r, procEnd leave o = some r ∧ Halts leave b.blk (.init s) r := by
  unfold lowerProc at h
  simp only [Option.bind_eq_bind, Option.bind_eq_some_iff] at h
  obtain ⟨c, h1, h2⟩ := h
  have u := start_up h1
  have hx : Ext c.blk b.blk := by
    unfold endProc at h2
    split at h2
    · obtain rfl := Option.some.inj h2; exact .refl _
    · simp only [Option.bind_eq_bind, Option.bind_eq_some_iff] at h2
      obtain ⟨d, h3, h4⟩ := h2
      exact (((Up.refl u.1).emit h3).close h4).2.ext
  have r := body_sim (leave := leave) n h1 hx ok s _ (at_init s) rfl
  match execQ leave n [] body s, r with
  | none, r => exact r
  | some (.ret v s'), r => exact ⟨_, rfl, r.halts⟩
  | some (.norm s'), ⟨k, m', h3, h4, h5, h6⟩ =>
    unfold endProc at h2
    rw [h4] at h2
    simp only [Bool.false_eq_true, if_false, Option.bind_eq_bind, Option.bind_eq_some_iff] at h2
    obtain ⟨d, h7, h8⟩ := h2
    have hd : Ext d.blk b.blk := ((Up.refl ((Up.refl u.1).emit h7).1).close h8).2.ext
    obtain ⟨s1, a1⟩ := emit_step (leave := leave) (m1 := m'.setS (leave m'.s)) h7 hd h5 rfl rfl rfl
    obtain ⟨p, q⟩ := close_at h8 (.refl _) a1
    refine ⟨_, rfl, (fun _ h => by cases h), k + 1, _, h3.trans (.one s1), ?_⟩
    unfold mstep
    rw [p, q]
    show MOut.ret _ _ = _
    rw [← h6]
    rfl

/-- Some number of turns of a process. -/
def turns (leave : S → S) (n : Nat) (body : Sq S) : Nat → S → Option S
  | 0, s => some s
  | k + 1, s =>
    match execQ leave n [] body s with
    | some (.norm s') => turns leave n body k s'
    | _ => none

theorem process_turns {body : Sq S} {b : B S} (n : Nat) (h : lowerProcess body = some b)
    (ok : body.ok leave) : ∀ (k : Nat) (s s' : S) (m : M S), AtB 0 m → m.s = s →
      turns leave n body k s = some s' →
      ∃ j m', Steps leave b.blk j m m' ∧ AtB 0 m' ∧ m'.s = s' ∧ k ≤ j := by
  unfold lowerProcess at h
  simp only [Option.bind_eq_bind, Option.bind_eq_some_iff] at h
  obtain ⟨c, h1, h2⟩ := h
  have u := start_up h1
  have hx : Ext c.blk b.blk := (jumpIf_up u.1 h2).1.2.ext
  intro k
  induction k with
  | zero =>
    intro s s' m ha hs ht
    obtain rfl := Option.some.inj ht
    exact ⟨0, m, .refl _, ha, hs, Nat.le_refl _⟩
  | succ k ih =>
    intro s s' m ha hs ht
    unfold turns at ht
    have r := body_sim (leave := leave) n h1 hx ok s m ⟨ha.1, ha.2⟩ hs
    match e : execQ leave n [] body s, r with
    | none, _ => rw [e] at ht; cases ht
    | some (.ret v s''), _ => rw [e] at ht; cases ht
    | some (.norm s''), ⟨j, m', h3, h4, h5, h6⟩ =>
      rw [e] at ht
      unfold endProcess jumpIf at h2
      rw [h4] at h2
      have st := close_jump (leave := leave) h2 (.refl _) h5
      obtain ⟨i, m2, g1, g2, g3, g4⟩ := ih s'' s' (m'.go 0) ⟨rfl, rfl⟩ h6 ht
      exact ⟨_, m2, (h3.trans (.one st)).trans g1, g2, g3, by omega⟩

end Verif.Seq
