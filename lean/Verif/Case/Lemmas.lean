import Verif.Case.Model

/-! Lemmas about the construction and execution of blocks. -/
namespace Verif.Case

theorem To.trans {P : Nat → Blk} {R : Run} {b c : Nat} {es es' : List Ev} {f : Option Nat}
    (h : To P R b es (some c)) (h' : To P R c es' f) : To P R b (es ++ es') f := by
  generalize hg : some c = g at h
  induction h with
  | here b => cases hg; simpa using h'
  | leave _ => cases hg
  | jump ht _ ih => rw [List.append_assoc]; exact .jump ht (ih hg)
  | cond ht _ ih => rw [List.append_assoc]; exact .cond ht (ih hg)
  | switch ht _ ih => rw [List.append_assoc]; exact .switch ht (ih hg)

/-- `P'` has the finished blocks of `P`. -/
def Ext (P P' : Nat → Blk) : Prop := ∀ b, (P b).term ≠ none → P' b = P b

theorem Ext.refl (P : Nat → Blk) : Ext P P := fun _ _ => rfl

theorem Ext.trans {P P' P'' : Nat → Blk} (h : Ext P P') (h' : Ext P' P'') : Ext P P'' := by
  intro b hb
  have := h b hb
  rw [h' b (by rw [this]; exact hb), this]

theorem To.mono {P P' : Nat → Blk} {R : Run} (he : Ext P P') {b : Nat} {es : List Ev}
    {f : Option Nat} (h : To P R b es f) : To P' R b es f := by
  induction h with
  | here b => exact .here b
  | @leave b ht =>
    have e := he b (by rw [ht]; simp)
    rw [← e]; exact .leave (by rw [e]; exact ht)
  | @jump b _ _ _ ht _ ih =>
    have e := he b (by rw [ht]; simp)
    rw [← e]; exact .jump (by rw [e]; exact ht) ih
  | @cond b _ _ _ _ _ ht _ ih =>
    have e := he b (by rw [ht]; simp)
    rw [← e]; exact .cond (by rw [e]; exact ht) ih
  | @switch b _ _ _ _ ht _ ih =>
    have e := he b (by rw [ht]; simp)
    rw [← e]; exact .switch (by rw [e]; exact ht) ih

/-- The end of an execution: a block that is not finished, or the statement is left. -/
def AtEnd (P : Nat → Blk) : Option Nat → Prop
  | some b => (P b).term = none
  | none => True

/-- An execution has one course only. -/
theorem To.det {P : Nat → Blk} {R : Run} {b : Nat} {es es' : List Ev} {f f' : Option Nat}
    (h : To P R b es f) (h' : To P R b es' f') (e : AtEnd P f) (e' : AtEnd P f') :
    es = es' ∧ f = f' := by
  induction h generalizing es' with
  | here b =>
    have e : (P b).term = none := e
    cases h' with
    | here => exact ⟨rfl, rfl⟩
    | leave ht => rw [e] at ht; cases ht
    | jump ht => rw [e] at ht; cases ht
    | cond ht => rw [e] at ht; cases ht
    | switch ht => rw [e] at ht; cases ht
  | leave ht =>
    cases h' with
    | here => have e' : _ = none := e'; rw [ht] at e'; cases e'
    | leave ht' => exact ⟨rfl, rfl⟩
    | jump ht' => rw [ht] at ht'; cases ht'
    | cond ht' => rw [ht] at ht'; cases ht'
    | switch ht' => rw [ht] at ht'; cases ht'
  | jump ht _ ih =>
    cases h' with
    | here => have e' : _ = none := e'; rw [ht] at e'; cases e'
    | leave ht' => rw [ht] at ht'; cases ht'
    | jump ht' h2 => 
      rw [ht] at ht'; cases ht'
      obtain ⟨h1, h2⟩ := ih h2 e
      exact ⟨by rw [h1], h2⟩
    | cond ht' => rw [ht] at ht'; cases ht'
    | switch ht' => rw [ht] at ht'; cases ht'
  | cond ht _ ih =>
    cases h' with
    | here => have e' : _ = none := e'; rw [ht] at e'; cases e'
    | leave ht' => rw [ht] at ht'; cases ht'
    | jump ht' => rw [ht] at ht'; cases ht'
    | cond ht' h2 =>
      rw [ht] at ht'; cases ht'
      obtain ⟨h1, h2⟩ := ih h2 e
      exact ⟨by rw [h1], h2⟩
    | switch ht' => rw [ht] at ht'; cases ht'
  | switch ht _ ih =>
    cases h' with
    | here => have e' : _ = none := e'; rw [ht] at e'; cases e'
    | leave ht' => rw [ht] at ht'; cases ht'
    | jump ht' => rw [ht] at ht'; cases ht'
    | cond ht' => rw [ht] at ht'; cases ht'
    | switch ht' h2 =>
      rw [ht] at ht'; cases ht'
      obtain ⟨h1, h2⟩ := ih h2 e
      exact ⟨by rw [h1], h2⟩

/-- Blocks that have not been made are empty, and nothing was added to a finished block. -/
structure Good (s : St) : Prop where
  fresh : ∀ b, s.next ≤ b → s.blk b = {}
  ok : s.ok = true

/-- What a choice has executed, and where it ends. -/
def covEvs (E : Env) (i j : Nat) : List Ev := if E.cover then [.cover i j] else []
def evsOf (E : Env) (i j : Nat) : List Ev := covEvs E i j ++ [.run i]
def finOf (E : Env) (exit i : Nat) : Option Nat := if E.falls i then some exit else none

/-- The block after `lowerBody`. -/
def bodyBlk (E : Env) (i exit : Nat) (k : Blk) : Blk :=
  ⟨k.evs ++ [.run i], some (if E.falls i then .jump exit else .leave)⟩

theorem emitEv_blk (s : St) (e : Ev) (b : Nat) :
    (emitEv s e).blk b = if b = s.cur then { s.blk s.cur with evs := (s.blk s.cur).evs ++ [e] }
      else s.blk b := rfl

theorem emitTerm_blk (s : St) (t : Term) (b : Nat) :
    (emitTerm s t).blk b = if b = s.cur then { s.blk s.cur with term := some t } else s.blk b := rfl

theorem lowerBody_blk (E : Env) (i exit : Nat) (s : St) (b : Nat) :
    (lowerBody E i exit s).blk b = if b = s.cur then bodyBlk E i exit (s.blk s.cur) else s.blk b := by
  unfold lowerBody
  rw [emitTerm_blk]
  by_cases h : b = s.cur
  · subst h
    simp [emitEv, St.setBlk, bodyBlk]
  · have : b ≠ (emitEv s (.run i)).cur := h
    rw [if_neg this, if_neg h, emitEv_blk, if_neg h]

theorem lowerBody_next (E : Env) (i exit : Nat) (s : St) : (lowerBody E i exit s).next = s.next := rfl

theorem lowerBody_cur (E : Env) (i exit : Nat) (s : St) : (lowerBody E i exit s).cur = s.cur := rfl

theorem lowerBody_ok (E : Env) (i exit : Nat) (s : St) (h : s.ok = true)
    (ht : (s.blk s.cur).term = none) : (lowerBody E i exit s).ok = true := by
  simp [lowerBody, emitTerm, emitEv, St.setBlk, finished, h, ht]

theorem lowerBody_good (E : Env) (i exit : Nat) (s : St) (g : Good s) (hc : s.cur < s.next)
    (ht : (s.blk s.cur).term = none) : Good (lowerBody E i exit s) := by
  refine ⟨fun b hb => ?_, lowerBody_ok E i exit s g.ok ht⟩
  have hb : s.next ≤ b := hb
  rw [lowerBody_blk, if_neg (by omega)]
  exact g.fresh b hb

theorem bodyBlk_to {P : Nat → Blk} {R : Run} {E : Env} {i exit b : Nat} {k : Blk}
    (h : P b = bodyBlk E i exit k) : To P R b (k.evs ++ [.run i]) (finOf E exit i) := by
  have he : (P b).evs = k.evs ++ [.run i] := by rw [h]; rfl
  unfold finOf
  by_cases hf : E.falls i = true
  · rw [if_pos hf]
    have ht : (P b).term = some (.jump exit) := by rw [h]; simp [bodyBlk, hf]
    have := To.jump (R := R) ht (.here exit)
    rw [he, List.append_nil] at this
    exact this
  · rw [if_neg hf]
    have ht : (P b).term = some .leave := by rw [h]; simp [bodyBlk, hf]
    rw [← he]
    exact .leave ht

theorem ifCover_blk (E : Env) (i j b : Nat) (s : St) (c : Nat) :
    (ifCover E i j b s).blk c =
      if c = b then { s.blk b with evs := (s.blk b).evs ++ covEvs E i j } else s.blk c := by
  unfold ifCover covEvs
  by_cases hc : E.cover = true
  · simp only [if_pos hc]
    unfold branchCoverage
    rw [emitEv_blk]
    rfl
  · simp only [if_neg hc, List.append_nil]
    by_cases h : c = b
    · subst h; simp
    · rw [if_neg h]

theorem ifCover_next (E : Env) (i j b : Nat) (s : St) : (ifCover E i j b s).next = s.next := by
  unfold ifCover; split <;> rfl

theorem ifCover_ok (E : Env) (i j b : Nat) (s : St) (h : s.ok = true)
    (ht : (s.blk b).term = none) : (ifCover E i j b s).ok = true := by
  unfold ifCover; split
  · simp [branchCoverage, emitEv, select, finished, h, ht]
  · exact h

theorem ifCover_good (E : Env) (i j b : Nat) (s : St) (g : Good s) (hc : b < s.next)
    (ht : (s.blk b).term = none) : Good (ifCover E i j b s) := by
  refine ⟨fun c hb => ?_, ifCover_ok E i j b s g.ok ht⟩
  rw [ifCover_next] at hb
  rw [ifCover_blk, if_neg (by omega)]
  exact g.fresh c hb

theorem emitTerm_good (s : St) (t : Term) (g : Good s) (hc : s.cur < s.next)
    (ht : (s.blk s.cur).term = none) : Good (emitTerm s t) := by
  refine ⟨fun b hb => ?_, by simp [emitTerm, finished, g.ok, ht]⟩
  have hb : s.next ≤ b := hb
  rw [emitTerm_blk, if_neg (by omega)]
  exact g.fresh b hb

theorem select_good {s : St} (g : Good s) (b : Nat) : Good (select s b) := ⟨g.fresh, g.ok⟩

theorem emitBlock_good {s : St} (g : Good s) : Good (emitBlock s).2 :=
  ⟨fun b hb => g.fresh b (by have : s.next + 1 ≤ b := hb; omega), g.ok⟩

/-- Where a multi-way branch goes to. -/
theorem target_mem (d : Nat) (cs : List (Int × Nat)) (v : Int) :
    (v, target d cs v) ∈ cs ∨ ((∀ b, (v, b) ∉ cs) ∧ target d cs v = d) := by
  induction cs with
  | nil => exact Or.inr ⟨by simp, rfl⟩
  | cons p cs ih =>
    obtain ⟨x, b⟩ := p
    unfold target
    by_cases h : v = x
    · rw [if_pos h]; subst h; exact Or.inl (by simp)
    · rw [if_neg h]
      rcases ih with h1 | ⟨h1, h2⟩
      · exact Or.inl (by simp [h1])
      · refine Or.inr ⟨fun b' hb => ?_, h2⟩
        simp only [List.mem_cons, Prod.mk.injEq] at hb
        rcases hb with ⟨h3, _⟩ | h3
        · exact h h3
        · exact h1 b' h3

/-- The branch, whether it has been folded or not. -/
theorem emitCase_to (R : Run) (known : Option Int) (hk : ∀ k, known = some k → R.sel = k)
    (d : Nat) (cs : List (Int × Nat)) (s : St) (h0 : s.blk s.cur = {}) :
    To (emitCase known d cs s).blk R s.cur [] (some (target d cs R.sel)) := by
  unfold emitCase
  cases known with
  | none =>
    have ht : ((emitTerm s (.switch d cs)).blk s.cur).term = some (.switch d cs) := by
      rw [emitTerm_blk, if_pos rfl]
    have he : ((emitTerm s (.switch d cs)).blk s.cur).evs = [] := by
      rw [emitTerm_blk, if_pos rfl, h0]
    have := To.switch (R := R) ht (.here _)
    rw [he] at this
    exact this
  | some k =>
    have ht : ((emitTerm s (.jump (target d cs k))).blk s.cur).term = some (.jump (target d cs k)) := by
      rw [emitTerm_blk, if_pos rfl]
    have he : ((emitTerm s (.jump (target d cs k))).blk s.cur).evs = [] := by
      rw [emitTerm_blk, if_pos rfl, h0]
    have := To.jump (R := R) ht (.here _)
    rw [he, ← hk k rfl] at this
    rw [hk k rfl] at this ⊢
    exact this

theorem emitCase_blk (known : Option Int) (d : Nat) (cs : List (Int × Nat)) (s : St) (b : Nat)
    (h : b ≠ s.cur) : (emitCase known d cs s).blk b = s.blk b := by
  unfold emitCase
  cases known <;> exact (emitTerm_blk s _ b).trans (if_neg h)

theorem emitCase_good (known : Option Int) (d : Nat) (cs : List (Int × Nat)) (s : St) (g : Good s)
    (hc : s.cur < s.next) (ht : (s.blk s.cur).term = none) : Good (emitCase known d cs s) := by
  unfold emitCase
  cases known <;> exact emitTerm_good s _ g hc ht

end Verif.Case
