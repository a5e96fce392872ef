import Verif.Seq.SimAll

/-
When lowering fails: only at a for loop which may wait and whose body is left
behind its last statement.
-/

namespace Verif.Seq

open Spec

variable {S : Type}

mutual
/-- The labels of exit and next statements are those of enclosing loops, and
loops have labels of their own. -/
def scopedS (sc : List Nat) : Stmt S → Prop
  | .exit l _ => l ∈ sc
  | .next l _ => l ∈ sc
  | .whil l _ b => l ∉ sc ∧ scopedQ (l :: sc) b
  | .loop l b => l ∉ sc ∧ scopedQ (l :: sc) b
  | .forL l _ _ _ b => l ∉ sc ∧ scopedQ (l :: sc) b
  | .ite cs => scopedC sc cs
  | _ => True
def scopedQ (sc : List Nat) : Sq S → Prop
  | .nil => True
  | .cons s t => scopedS sc s ∧ scopedQ sc t
def scopedC (sc : List Nat) : Conds S → Prop
  | .els b => scopedQ sc b
  | .last _ b => scopedQ sc b
  | .cons _ b t => scopedQ sc b ∧ scopedC sc t
end

mutual
/-- All branches end in a return statement. -/
def endsS : Stmt S → Bool
  | .ret _ => true
  | .ite cs => endsC cs
  | _ => false
def endsQ : Sq S → Bool
  | .nil => false
  | .cons s t => endsS s || endsQ t
def endsC : Conds S → Bool
  | .els b => endsQ b
  | .last _ _ => false
  | .cons _ b t => endsQ b && endsC t
end

mutual
/-- There is a next statement for the label which is not behind a return
statement. -/
def nextsS (l : Nat) : Stmt S → Bool
  | .next l' _ => l' == l
  | .whil _ _ b => nextsQ l b
  | .loop _ b => nextsQ l b
  | .forL _ _ _ _ b => nextsQ l b
  | .ite cs => nextsC l cs
  | _ => false
def nextsQ (l : Nat) : Sq S → Bool
  | .nil => false
  | .cons s t => nextsS l s || (!endsS s && nextsQ l t)
def nextsC (l : Nat) : Conds S → Bool
  | .els b => nextsQ l b
  | .last _ b => nextsQ l b
  | .cons _ b t => nextsQ l b || nextsC l t
end

mutual
/-- No for loop whose body may wait has a body that always ends in a return
statement without a next statement for the loop; code behind a return statement
does not count. -/
def safeS : Stmt S → Bool
  | .whil _ _ b => safeQ b
  | .loop _ b => safeQ b
  | .forL l _ _ _ b => safeQ b && !(susQ b && endsQ b && !nextsQ l b)
  | .ite cs => safeC cs
  | _ => true
def safeQ : Sq S → Bool
  | .nil => true
  | .cons s t => safeS s && (endsS s || safeQ t)
def safeC : Conds S → Bool
  | .els b => safeQ b
  | .last _ b => safeQ b
  | .cons _ b t => safeQ b && safeC t
end

/-- Loops are known by their names and numbers. -/
def Uniq (ls : List Loop) : Prop :=
  ∀ L L', L ∈ ls → L' ∈ ls → (L.name = L'.name ∨ L.id = L'.id) → L = L'

theorem Uniq.push {ls : List Loop} {b : B S} {L : Loop} (u : Uniq ls) (h : LsOk ls b)
    (hi : L.id = b.nid) (hn : L.name ∉ ls.map Loop.name) : Uniq (L :: ls) := by
  have key : ∀ L', L' ∈ ls → ¬ (L.name = L'.name ∨ L.id = L'.id) := by
    rintro L' hm (e | e)
    · exact hn (e ▸ List.mem_map_of_mem hm)
    · have := h L' hm
      omega
  intro A A' hA hA' e
  rcases List.mem_cons.mp hA with e1 | g <;> rcases List.mem_cons.mp hA' with e2 | g'
  · rw [e1, e2]
  · subst e1; exact absurd e (key _ g')
  · subst e2; exact absurd (e.imp Eq.symm Eq.symm) (key _ g)
  · exact u _ _ g g' e

theorem findLoop_of_mem {ls : List Loop} {l : Nat} (h : l ∈ ls.map Loop.name) :
    ∃ L, findLoop ls l = some L := by
  unfold findLoop
  cases e : ls.find? (fun L => L.name == l) with
  | some L => exact ⟨L, rfl⟩
  | none =>
    obtain ⟨L, hL, rfl⟩ := List.mem_map.mp h
    have := List.find?_eq_none.mp e L hL
    simp at this

theorem emit_ok {b : B S} (h : b.fin = false) (i : Instr S) :
    ∃ b', b.emit i = some b' := by
  unfold B.emit; rw [h]; exact ⟨_, rfl⟩

theorem emitR_ok {b : B S} (h : b.fin = false) (i : Instr S) :
    ∃ b', b.emitR i = some b' := by
  unfold B.emitR
  obtain ⟨c, e⟩ := emit_ok h i
  rw [e]; exact ⟨_, rfl⟩

theorem emit_fin {b : B S} (h : b.fin = true) (i : Instr S) : b.emit i = none := by
  unfold B.emit; rw [h]; rfl

theorem emitR_fin {b : B S} (h : b.fin = true) (i : Instr S) : b.emitR i = none := by
  unfold B.emitR; rw [emit_fin h]; rfl

theorem close_ok {b : B S} (h : b.fin = false) (t : Term S) :
    ∃ b', b.close t = some b' := by
  unfold B.close; rw [h]; exact ⟨_, rfl⟩

theorem jumpIf_ok (t : Nat) (b : B S) : ∃ b', jumpIf t b = some b' := by
  unfold jumpIf
  cases h : b.fin with
  | true => exact ⟨_, rfl⟩
  | false => exact close_ok h _

theorem sel_fin {b : B S} {i : Nat} (h : b.blk i = {}) : (b.sel i).fin = false := by
  show ((b.blk i).term).isSome = false
  rw [h]; rfl

theorem when_ok (env : List Loc) (c : Option (List Int → S → Bool)) {b : B S} (w : WF b)
    (h : b.fin = false) : ∃ b', lowerWhen env c b = some b' ∧ b'.fin = false := by
  have hc := w.cur
  unfold lowerWhen
  cases c with
  | none => exact ⟨_, rfl, h⟩
  | some c =>
    obtain ⟨c1, h1⟩ := emitR_ok (b := b.more.more) h
      (.eval b.nreg (fun e s => boolInt (c e s)) env)
    obtain ⟨s1, _, f1⟩ := emitR_small h1
    obtain ⟨c2, h2⟩ := close_ok f1 (.cond b.nreg (b.n + 1) b.n)
    obtain ⟨s2, _, _⟩ := close_small h2
    refine ⟨c2.sel (b.n + 1), ?_, sel_fin ?_⟩
    · simp only [h1, h2, Option.bind_eq_bind, Option.bind_some]
    · have e1 : c1.cur = b.cur := s1.cur
      rw [s2.blk _ (by omega), s1.blk _ (by show _ ≠ b.cur; omega)]
      exact w.fresh _ (Nat.le_succ _)

/-- What lowering gives: an error if not safe; otherwise the block is finished
if all branches return, and blocks for "next" are made as needed. -/
def Tot (ls : List Loop) (b : B S) (safe ends : Bool) (nx : Nat → Bool) : Option (B S) → Prop
  | none => safe = false
  | some b' => safe = true ∧ b'.fin = ends ∧
    ∀ L, L ∈ ls → L.test = none →
      (b'.lazyT L.id).isSome = ((b.lazyT L.id).isSome || nx L.name)

theorem ctl_tot (x : Bool) (l : Nat) (env : List Loc) (ls : List Loop)
    (c : Option (List Int → S → Bool)) {b : B S} (w : WF b) (hls : LsOk ls b) (u : Uniq ls)
    (h : b.fin = false) (hs : l ∈ ls.map Loop.name) :
    Tot ls b true false (fun i => !x && (l == i)) (lowerCtl x l env ls c b) := by
  obtain ⟨b1, h1, f1⟩ := when_ok env c w h
  obtain ⟨u1, n1, l1, i1, e1, c1⟩ := lowerWhen_up w h1
  obtain ⟨L, hL⟩ := findLoop_of_mem hs
  obtain ⟨hm, hn⟩ := findLoop_mem hL
  have hid : L.id < b1.nid := by rw [i1]; exact hls L hm
  have key : ∃ b2, lowerCtl x l env ls c b = some b2 ∧ b2.cur = b.n ∧
      b2.lazyT = (if x then b1 else (nextTarget L b1).2).lazyT := by
    unfold lowerCtl
    simp only [h1, hL, Option.bind_eq_bind, Option.bind_some]
    cases x with
    | true =>
      obtain ⟨b2, h2⟩ := close_ok f1 (.jump L.exit)
      exact ⟨b2.sel b.n, by simp [h2], rfl, (close_small h2).1.lz⟩
    | false =>
      obtain ⟨_, _, p3, p4, _⟩ := nextTarget_up u1.1 hid
      have f2 : (nextTarget L b1).2.fin = false := by
        unfold B.fin at *
        rw [p3, p4]; exact f1
      obtain ⟨b2, h2⟩ := close_ok f2 (.jump (nextTarget L b1).1)
      exact ⟨b2.sel b.n, by simp [h2], rfl, (close_small h2).1.lz⟩
  obtain ⟨b2, h2, hcur, hlz⟩ := key
  obtain ⟨_, _, q⟩ := lowerCtl_up w hls h2
  rw [h2]
  refine ⟨rfl, ?_, fun A hA ht => ?_⟩
  · unfold B.fin; rw [hcur, q]; rfl
  · rw [hlz, ← l1]
    cases x with
    | true => simp
    | false =>
      simp only [Bool.false_eq_true, if_false, Bool.not_false, Bool.true_and]
      by_cases e : A = L
      · subst e
        have hb : (l == A.name) = true := by simp [hn]
        rw [hb, Bool.or_true]
        unfold nextTarget
        rw [ht]
        cases hz : b1.lazyT A.id with
        | some t => simp [hz]
        | none => simp
      · have h1 : A.name ≠ L.name := fun hh => e (u _ _ hA hm (.inl hh))
        have h2 : A.id ≠ L.id := fun hh => e (u _ _ hA hm (.inr hh))
        have hb : (l == A.name) = false := by
          rw [beq_eq_false_iff_ne, ← hn]; exact h1.symm
        rw [hb, Bool.or_false]
        unfold nextTarget
        cases L.test with
        | some t => rfl
        | none =>
          cases hz : b1.lazyT L.id with
          | some t => rfl
          | none => simp [h2]

/-- The body of a loop. -/
theorem Tot.body {ls : List Loop} {L : Loop} {b b3 : B S} {safe ends : Bool} {nx : Nat → Bool}
    {c : B S} (t : Tot (L :: ls) b3 safe ends nx (some c)) (hl : b3.lazyT = b.lazyT) :
    safe = true ∧ c.fin = ends ∧ (∀ A, A ∈ ls → A.test = none →
      (c.lazyT A.id).isSome = ((b.lazyT A.id).isSome || nx A.name)) ∧
      (L.test = none → (c.lazyT L.id).isSome = ((b.lazyT L.id).isSome || nx L.name)) := by
  obtain ⟨h1, h2, h3⟩ := t
  refine ⟨h1, h2, fun A hA ht => ?_, fun ht => ?_⟩
  · rw [h3 A (List.mem_cons_of_mem _ hA) ht, hl]
  · rw [h3 L List.mem_cons_self ht, hl]

theorem head_ok (env : List Loc) (lo hi : List Int → S → Int) (dn : List Int → S → Bool)
    {b : B S} (w : WF b) (h : b.fin = false) : ∃ b', forHead env lo hi dn b = some b' := by
  have hc := w.cur
  obtain ⟨c1, h1⟩ := emitR_ok h (.eval b.nreg lo env)
  obtain ⟨s1, _, f1⟩ := emitR_small h1
  obtain ⟨c2, h2⟩ := emitR_ok f1 (.eval (b.nreg + 1) hi env)
  obtain ⟨s2, _, f2⟩ := emitR_small h2
  obtain ⟨c3, h3⟩ := emitR_ok f2 (.eval (b.nreg + 2) (fun e s => boolInt (dn e s)) env)
  obtain ⟨s3, _, f3⟩ := emitR_small h3
  obtain ⟨c4, h4⟩ := emitR_ok f3 (.rnull (b.nreg + 3) b.nreg (b.nreg + 1) (b.nreg + 2))
  obtain ⟨s4, _, f4⟩ := emitR_small h4
  obtain ⟨c5, h5⟩ := close_ok (b := c4.more.more) f4 (.cond (b.nreg + 3) (c4.n + 1) c4.n)
  obtain ⟨s5, _, _⟩ := close_small h5
  have w4 := (((((Up.refl w).emitR h1).emitR h2).emitR h3).emitR h4).1
  have hc4 := w4.cur
  have f5 : (c5.sel c4.n).fin = false := sel_fin (by
    rw [s5.blk _ (by show _ ≠ c4.cur; omega)]
    exact w4.fresh _ (Nat.le_refl _))
  obtain ⟨c6, h6⟩ := emitR_ok f5 (.sel (b.nreg + 4) (b.nreg + 2))
  refine ⟨c6, ?_⟩
  unfold forHead
  simp only [h1, h2, h3, h4, h5, h6, Option.bind_eq_bind, Option.bind_some]

theorem save_ok (sus : Bool) (right step : Nat) {b : B S} (h : b.fin = false) :
    ∃ p, forSave sus right step b = some p := by
  unfold forSave
  cases sus with
  | false => exact ⟨_, rfl⟩
  | true =>
    have t1 := temp_same (b := b)
    have f1 : b.temp.2.fin = false := by unfold B.fin at *; rw [t1.2.1, t1.2.2.1]; exact h
    obtain ⟨c1, h1⟩ := emit_ok f1 (.store b.temp.1 right)
    have g1 := (emit_small h1).2.2
    have t2 := temp_same (b := c1)
    have f2 : c1.temp.2.fin = false := by unfold B.fin at *; rw [t2.2.1, t2.2.2.1]; exact g1
    obtain ⟨c2, h2⟩ := emit_ok f2 (.store c1.temp.1 step)
    refine ⟨((b.temp.1, c1.temp.1), c2), ?_⟩
    simp only [if_true, h1, h2, Option.bind_eq_bind, Option.bind_some]

theorem body_ok (sus : Bool) (left : Nat) {b : B S} (w : WF b) (h : b.fin = false) :
    ∃ p, forBody sus left b = some p := by
  have hc := w.cur
  obtain ⟨c1, h1⟩ := emit_ok (b := { b with nvar := b.nvar + 1 }) h (.store b.nvar left)
  obtain ⟨s1, _, f1⟩ := emit_small h1
  obtain ⟨c2, h2⟩ := close_ok (b := c1.more) f1 (.jump c1.n)
  obtain ⟨s2, _, _⟩ := close_small h2
  have n1 : c1.n = b.n := s1.n
  have k1 : c1.cur = b.cur := s1.cur
  have f2 : (c2.sel c1.n).fin = false := sel_fin (by
    rw [s2.blk _ (by show _ ≠ c1.cur; omega), show c1.more.blk = c1.blk from rfl,
      s1.blk _ (by show _ ≠ b.cur; omega)]
    exact w.fresh _ (Nat.le_of_eq n1.symm))
  unfold forBody
  cases sus with
  | true =>
    refine ⟨((b.nvar, c1.n, .var b.nvar), c2.sel c1.n), ?_⟩
    simp only [h1, h2, Option.bind_eq_bind, Option.bind_some, if_true]
  | false =>
    obtain ⟨c3, h3⟩ := emitR_ok f2 (.load (c2.sel c1.n).nreg b.nvar)
    refine ⟨((b.nvar, c1.n, .reg (c2.sel c1.n).nreg), c3), ?_⟩
    simp only [h1, h2, h3, Option.bind_eq_bind, Option.bind_some, Bool.false_eq_true, if_false]

theorem step_ok (ivar i right step exit body : Nat) (b : B S) :
    ∃ b', forStep ivar i right step exit body b = some b' := by
  unfold forStep
  cases h : b.fin with
  | true => exact ⟨_, rfl⟩
  | false =>
    obtain ⟨c1, h1⟩ := emitR_ok h (.add b.nreg i step)
    obtain ⟨c2, h2⟩ := emit_ok (emitR_small h1).2.2 (.store ivar b.nreg)
    obtain ⟨c3, h3⟩ := emitR_ok (emit_small h2).2.2 (.eq (b.nreg + 1) i right)
    obtain ⟨c4, h4⟩ := close_ok (emitR_small h3).2.2 (.cond (b.nreg + 1) exit body)
    refine ⟨c4, ?_⟩
    simp only [h1, h2, h3, h4, Option.bind_eq_bind, Option.bind_some, Bool.false_eq_true, if_false]

theorem load_ok (sus : Bool) (v : Nat) {b : B S} (h : b.fin = false) :
    ∃ b', loadIf sus v b = some b' ∧ b'.fin = false := by
  unfold loadIf
  cases sus with
  | false => exact ⟨_, rfl, h⟩
  | true =>
    obtain ⟨c, e⟩ := emitR_ok h (.load b.nreg v)
    exact ⟨c, e, (emitR_small e).2.2⟩

/-- The end of a for loop fails only in a finished block. -/
theorem tail_ok (sus : Bool) (rvar svar ivar right step : Nat) (ip : Loc) (exit body : Nat)
    {b : B S} (h : (sus && b.fin) = false) :
    ∃ b', forTail sus rvar svar ivar right step ip exit body b = some b' := by
  unfold forTail
  cases sus with
  | false =>
    simp only [loadIf, Bool.false_eq_true, if_false, Option.bind_eq_bind, Option.bind_some]
    exact step_ok _ _ _ _ _ _ _
  | true =>
    obtain ⟨c1, h1, f1⟩ := load_ok true rvar (by simpa using h)
    obtain ⟨c2, h2, f2⟩ := load_ok true svar f1
    obtain ⟨c3, h3, f3⟩ := load_ok true ivar f2
    simp only [h1, h2, h3, Option.bind_eq_bind, Option.bind_some]
    exact step_ok _ _ _ _ _ _ _

theorem tail_fin (rvar svar ivar right step : Nat) (ip : Loc) (exit body : Nat)
    {b : B S} (h : b.fin = true) :
    forTail true rvar svar ivar right step ip exit body b = none := by
  unfold forTail loadIf
  simp only [if_true, emitR_fin h, Option.bind_eq_bind, Option.bind_none]

theorem fnext_ok (t : Option Nat) (b : B S) : ∃ b', forNext t b = some b' := by
  unfold forNext
  cases t with
  | none => exact ⟨_, rfl⟩
  | some t =>
    cases h : b.fin with
    | true => exact ⟨_, rfl⟩
    | false =>
      obtain ⟨c, e⟩ := close_ok h (.jump t)
      exact ⟨_, by simp only [e, Option.bind_eq_bind, Option.bind_some, Bool.false_eq_true, if_false]; rfl⟩

theorem join_ok (ex : Option Nat) (b : B S) :
    ∃ p, joinExit ex b = some p := by
  unfold joinExit
  cases h : b.fin with
  | true => exact ⟨_, rfl⟩
  | false =>
    have f : (needExit ex b).2.fin = false := by
      unfold needExit
      cases ex <;> exact h
    obtain ⟨c, e⟩ := close_ok f (.jump (needExit ex b).1)
    exact ⟨_, by simp only [e, Option.bind_eq_bind, Option.bind_some, Bool.false_eq_true, if_false]; rfl⟩

/-- The result for the branches of an if statement. -/
def TotC (ls : List Loop) (b : B S) (ex : Option Nat) (safe ends : Bool) (nx : Nat → Bool) :
    Option (B S × Option Nat) → Prop
  | none => safe = false
  | some (b', ex') => safe = true ∧ (ex' = none ↔ ex = none ∧ ends = true) ∧
    (ends = true → b'.fin = true) ∧
    ∀ L, L ∈ ls → L.test = none →
      (b'.lazyT L.id).isSome = ((b.lazyT L.id).isSome || nx L.name)

theorem join_tot {ls : List Loop} {b b1 : B S} {ex : Option Nat} {safe ends : Bool}
    {nx : Nat → Bool} (w : WF b1) (t : Tot ls b safe ends nx (some b1)) :
    ∃ b2 ex2, joinExit ex b1 = some (b2, ex2) ∧ TotC ls b ex safe ends nx (some (b2, ex2)) := by
  obtain ⟨t1, t2, t3⟩ := t
  obtain ⟨⟨b2, ex2⟩, hj⟩ := join_ok ex b1
  obtain ⟨u, e, l, c⟩ := joinExit_up w hj
  refine ⟨b2, ex2, hj, t1, ?_, ?_, fun A hA ht => by rw [l]; exact t3 A hA ht⟩
  · unfold joinExit at hj
    rw [t2] at hj
    cases ends with
    | true =>
      obtain ⟨_, rfl⟩ := Prod.mk.inj (Option.some.inj hj)
      simp
    | false =>
      simp only [Bool.false_eq_true, if_false, Option.bind_eq_bind, Option.bind_eq_some_iff] at hj
      obtain ⟨x, _, hx⟩ := hj
      obtain ⟨_, rfl⟩ := Prod.mk.inj (Option.some.inj hx)
      simp
  · intro h
    unfold joinExit at hj
    rw [t2, h] at hj
    obtain ⟨rfl, _⟩ := Prod.mk.inj (Option.some.inj hj)
    rw [t2, h]

/-- Statements behind a finished block are skipped. -/
theorem skipQ : ∀ (st : Sq S) (env : List Loc) (ls : List Loop) (b : B S), b.fin = true →
    lowerQ env ls st b = some b
  | .nil, _, _, _, _ => rfl
  | .cons s t, env, ls, b, h => by
    unfold lowerQ
    have : lowerS env ls s b = some b := by
      unfold lowerS
      rw [h]; rfl
    rw [this]
    exact skipQ t env ls b h

mutual
theorem totS : ∀ (st : Stmt S) (env : List Loc) (ls : List Loop) (b : B S), WF b → LsOk ls b →
    Uniq ls → b.fin = false → scopedS (ls.map Loop.name) st →
    Tot ls b (safeS st) (endsS st) (fun l => nextsS l st) (lowerS env ls st b) := by
  intro st env ls b w hls hu hf hsc
  have hc := w.cur
  unfold lowerS
  rw [hf]
  simp only [Bool.false_eq_true, if_false]
  cases st with
  | op f =>
    obtain ⟨c, h⟩ := emit_ok hf (.op f env)
    obtain ⟨s, _, g⟩ := emit_small h
    simp only [h]
    exact ⟨rfl, g, fun A _ _ => by simp [s.lz, nextsS]⟩
  | susp f =>
    obtain ⟨c, h⟩ := close_ok (b := b.more) hf (.wait f env b.n)
    obtain ⟨s, _, g⟩ := close_small h
    simp only [h, Option.bind_eq_bind, Option.bind_some]
    refine ⟨rfl, sel_fin ?_, fun A _ _ => ?_⟩
    · rw [s.blk _ (by show _ ≠ b.cur; omega)]
      exact w.fresh _ (Nat.le_refl _)
    · show (c.lazyT _).isSome = _
      rw [s.lz]; simp [nextsS, B.more]
  | ret f =>
    obtain ⟨c, h⟩ := emit_ok hf .leave
    obtain ⟨s, _, g⟩ := emit_small h
    obtain ⟨c2, h2⟩ := close_ok g (.ret f env)
    obtain ⟨s2, _, g2⟩ := close_small h2
    simp only [h, h2, Option.bind_eq_bind, Option.bind_some]
    exact ⟨rfl, g2, fun A _ _ => by simp [s2.lz, s.lz, nextsS]⟩
  | exit l c =>
    have := ctl_tot true l env ls c w hls hu hf hsc
    exact this
  | next l c =>
    have := ctl_tot false l env ls c w hls hu hf hsc
    exact this
  | whil l c bd =>
    obtain ⟨hl, hsc⟩ := hsc
    obtain ⟨c1, h1⟩ := close_ok (b := b.more.more.more) hf (.jump b.n)
    obtain ⟨s1, _, _⟩ := close_small h1
    have um : Up b b.more.more.more := (Up.refl w).more.more.more
    have n1 : c1.n = b.n + 3 := s1.n
    have e1 : ∀ i, b.n ≤ i → c1.blk i = {} := fun i hi => by
      rw [s1.blk _ (by show _ ≠ b.cur; omega)]
      exact w.fresh _ hi
    have f1 : (c1.sel b.n).fin = false := sel_fin (e1 _ (Nat.le_refl _))
    obtain ⟨c2, h2⟩ := emitR_ok f1
      (.eval (c1.sel b.n).nreg (fun e s => boolInt (c e s)) env)
    obtain ⟨s2, _, f2⟩ := emitR_small h2
    obtain ⟨c3, h3⟩ := close_ok f2 (.cond (c1.sel b.n).nreg (b.n + 1) (b.n + 2))
    obtain ⟨s3, _, _⟩ := close_small h3
    have a1 : Up b (c1.sel b.n) := up_blk um rfl (Nat.le_refl _) (by show _ < b.n + 3; omega)
      ((Up.refl um.1).close h1)
    have u3 := (a1.emitR h2).close h3
    have l3 : c3.lazyT = b.lazyT := by rw [s3.lz, s2.lz]; exact s1.lz
    have n3 : c3.n = b.n + 3 := by rw [s3.n, s2.n]; exact n1
    have k2 : c2.cur = b.n := s2.cur
    have e3 : ∀ i, b.n < i → c3.blk i = {} := fun i hi => by
      rw [s3.blk _ (by omega), s2.blk _ (by show _ ≠ b.n; omega)]
      exact e1 _ (by omega)
    have a3 : Up b (c3.sel (b.n + 1)) := u3.sel (by omega) u3 l3 .refl (by omega)
    have a4 := a3.trans (nid_grow a3.1)
    have f4 : ({ c3.sel (b.n + 1) with nid := (c3.sel (b.n + 1)).nid + 1 } : B S).fin = false := by
      have : (c3.sel (b.n + 1)).fin = false := sel_fin (e3 _ (by omega))
      exact this
    have hls' := (hls.grow a3.2)
    have hpush := hls'.push (L := ⟨l, (c3.sel (b.n + 1)).nid, some b.n, b.n + 2⟩) rfl
    have t := totQ bd env _ _ a4.1 hpush
      (hu.push (b := c3.sel (b.n + 1)) hls' rfl hl) f4 hsc
    simp only [h1, h2, h3, Option.bind_eq_bind, Option.bind_some]
    cases hq : lowerQ env (⟨l, (c3.sel (b.n + 1)).nid, some b.n, b.n + 2⟩ :: ls) bd
      { c3.sel (b.n + 1) with nid := (c3.sel (b.n + 1)).nid + 1 } with
    | none =>
      rw [hq] at t
      exact t
    | some c4 =>
      rw [hq] at t
      have u4 := lowerQ_up bd env _ _ _ a4.1 hpush hq
      obtain ⟨p1, p2, p3, _⟩ := t.body (b := b) l3
      obtain ⟨c5, h5⟩ := jumpIf_ok b.n c4
      obtain ⟨u5, s5⟩ := jumpIf_up u4.1 h5
      simp only [h5, Option.bind_some]
      refine ⟨p1, sel_fin ?_, fun A hA ht => ?_⟩
      · have g := (u4.trans u5).2
        rw [g.frame (b.n + 2) (by show _ < c3.n; omega) (by show _ ≠ b.n + 1; omega)]
        exact e3 _ (by omega)
      · show (c5.lazyT _).isSome = _
        rw [s5.lz]
        exact p3 A hA ht
  | loop l bd =>
    obtain ⟨hl, hsc⟩ := hsc
    obtain ⟨c1, h1⟩ := close_ok (b := b.more.more) hf (.jump b.n)
    obtain ⟨s1, _, _⟩ := close_small h1
    have um : Up b b.more.more := (Up.refl w).more.more
    have n1 : c1.n = b.n + 2 := s1.n
    have e1 : ∀ i, b.n ≤ i → c1.blk i = {} := fun i hi => by
      rw [s1.blk _ (by show _ ≠ b.cur; omega)]
      exact w.fresh _ hi
    have a3 : Up b (c1.sel b.n) := up_blk um rfl (Nat.le_refl _) (by show _ < b.n + 2; omega)
      ((Up.refl um.1).close h1)
    have l3 : c1.lazyT = b.lazyT := s1.lz
    have a4 := a3.trans (nid_grow a3.1)
    have f4 : ({ c1.sel b.n with nid := (c1.sel b.n).nid + 1 } : B S).fin = false := by
      have : (c1.sel b.n).fin = false := sel_fin (e1 _ (Nat.le_refl _))
      exact this
    have hls' := (hls.grow a3.2)
    have hpush := hls'.push (L := ⟨l, (c1.sel b.n).nid, some b.n, b.n + 1⟩) rfl
    have t := totQ bd env _ _ a4.1 hpush (hu.push (b := c1.sel b.n) hls' rfl hl) f4 hsc
    simp only [h1, Option.bind_eq_bind, Option.bind_some]
    cases hq : lowerQ env (⟨l, (c1.sel b.n).nid, some b.n, b.n + 1⟩ :: ls) bd
      { c1.sel b.n with nid := (c1.sel b.n).nid + 1 } with
    | none =>
      rw [hq] at t
      exact t
    | some c4 =>
      rw [hq] at t
      have u4 := lowerQ_up bd env _ _ _ a4.1 hpush hq
      obtain ⟨p1, p2, p3, _⟩ := t.body (b := b) l3
      obtain ⟨c5, h5⟩ := jumpIf_ok b.n c4
      obtain ⟨u5, s5⟩ := jumpIf_up u4.1 h5
      simp only [h5, Option.bind_some]
      refine ⟨p1, sel_fin ?_, fun A hA ht => ?_⟩
      · have g := (u4.trans u5).2
        rw [g.frame (b.n + 1) (by show _ < c1.n; omega) (by show _ ≠ b.n; omega)]
        exact e1 _ (by omega)
      · show (c5.lazyT _).isSome = _
        rw [s5.lz]
        exact p3 A hA ht
  | forL l lo hi dn bd =>
    obtain ⟨hl, hsc⟩ := hsc
    obtain ⟨c1, h1⟩ := head_ok env lo hi dn w hf
    obtain ⟨u1, n1, k1, e1, z1, i1, r1, v1, fr1, f1⟩ := forHead_up w h1
    obtain ⟨⟨p, c2⟩, h2⟩ := save_ok (susQ bd) (b.nreg + 1) (b.nreg + 4) f1
    obtain ⟨u2, n2, k2, b2, z2, i2, r2, f2, _⟩ := forSave_up u1.1 h2
    obtain ⟨⟨q, c3⟩, h3⟩ := body_ok (susQ bd) b.nreg u2.1 (f2.trans f1)
    obtain ⟨u3, _, _, n3, k3, b3, z3, i3, v3, fr3, f3, _, _⟩ := forBody_up u2.1 h3
    have u := (u1.trans u2).trans u3
    have l3 : c3.lazyT = b.lazyT := by rw [z3, z2, z1]
    have e3 : c3.blk (b.n + 1) = {} := by
      rw [b3 _ (by omega) (by omega), b2 _ (by omega)]; exact e1
    have a4 := u.trans (nid_grow u.1)
    have hls' := hls.grow u.2
    have hpush := hls'.push (L := ⟨l, c3.nid, none, b.n + 1⟩) rfl
    have t := totQ bd (q.2.2 :: env) _ _ a4.1 hpush (hu.push (b := c3) hls' rfl hl) f3 hsc
    simp only [h1, h2, h3, Option.bind_eq_bind, Option.bind_some]
    cases hq : lowerQ (q.2.2 :: env) (⟨l, c3.nid, none, b.n + 1⟩ :: ls) bd
      { c3 with nid := c3.nid + 1 } with
    | none =>
      rw [hq] at t
      have t : safeQ bd = false := t
      show safeS _ = false
      unfold safeS
      rw [t]; rfl
    | some c4 =>
      rw [hq] at t
      have u4 := lowerQ_up bd _ _ _ _ a4.1 hpush hq
      obtain ⟨p1, p2, p3, p4⟩ := t.body (b := b) l3
      have p4 : (c4.lazyT c3.nid).isSome = ((b.lazyT c3.nid).isSome || nextsQ l bd) := p4 rfl
      have hz : b.lazyT c3.nid = none := by
        cases hz : b.lazyT c3.nid with
        | none => rfl
        | some t =>
          have := (w.lz _ _ hz).2
          have := u.2.nid
          omega
      rw [hz] at p4
      have p4 : (c4.lazyT c3.nid).isSome = nextsQ l bd := p4
      obtain ⟨c5, h5⟩ := fnext_ok (c4.lazyT c3.nid) c4
      obtain ⟨u5, z5, _, _, _, q5, q6, q7⟩ := forNext_up u.1 rfl u4 h5
      have hfin : c5.fin = (endsQ bd && !nextsQ l bd) := by
        cases hn : c4.lazyT c3.nid with
        | none =>
          rw [hn] at p4
          rw [q6 hn, p2, ← p4]; simp
        | some t =>
          rw [hn] at p4
          obtain ⟨x1, _, x3⟩ := q5 t hn
          rw [← p4]
          unfold B.fin
          rw [x1, x3]; simp
      have hcur : c5.cur ≠ b.n + 1 := by
        cases hn : c4.lazyT c3.nid with
        | none =>
          rw [q6 hn]
          rcases u4.2.cur with e | e
          · have e : c4.cur = c3.cur := e
            omega
          · have e : c3.n ≤ c4.cur := e
            omega
        | some t =>
          obtain ⟨x1, x2, _⟩ := q5 t hn
          omega
      simp only [h5, Option.bind_some]
      cases hs : susQ bd && c5.fin with
      | true =>
        obtain ⟨hs1, hs2⟩ := Bool.and_eq_true_iff.mp hs
        rw [hs1, tail_fin _ _ _ _ _ _ _ _ hs2]
        show safeS _ = false
        unfold safeS
        rw [hfin] at hs2
        rw [hs1, Bool.true_and, hs2]
        simp
      | false =>
        obtain ⟨c6, h6⟩ := tail_ok (susQ bd) p.1 p.2 q.1 (b.nreg + 1) (b.nreg + 4) q.2.2
          (b.n + 1) q.2.1 hs
        obtain ⟨u6, s6⟩ := forTail_up u5.1 h6
        simp only [h6, Option.bind_some]
        have hb : c6.blk (b.n + 1) = {} := by
          rw [s6.blk _ hcur.symm, q7 _ (by omega) (by omega)]
          exact e3
        have hz6 : ∀ A, A ∈ ls → A.test = none →
            (c6.lazyT A.id).isSome = ((b.lazyT A.id).isSome || nextsQ A.name bd) := by
          intro A hA ht
          rw [s6.lz, z5]
          exact p3 A hA ht
        refine ⟨?_, ?_, fun A hA ht => ?_⟩
        · unfold safeS
          rw [p1, Bool.true_and, Bool.and_assoc, ← hfin, hs]
          rfl
        · show B.fin _ = false
          split
          · exact sel_fin hb
          · exact sel_fin hb
        · rw [show ∀ x : B S, (if susQ bd = true then
              ((x.sel (b.n + 1)).release p.1).release p.2 else x.sel (b.n + 1)).lazyT = x.lazyT from
            fun x => by split <;> rfl]
          exact hz6 A hA ht
  | ite cs =>
    have t := totC cs env ls none b w hls hu hf (fun e h => by cases h) hsc
    cases hq : lowerC env ls cs none b with
    | none =>
      rw [hq] at t
      simp only [hq, Option.bind_eq_bind, Option.bind_none]
      exact t
    | some be =>
      obtain ⟨c, ex⟩ := be
      rw [hq] at t
      obtain ⟨u1, x1⟩ := lowerC_up cs env ls none b c ex w hls (fun e h => by cases h) hq
      obtain ⟨t1, t2, t3, t4⟩ := t
      simp only [hq, Option.bind_eq_bind, Option.bind_some]
      cases ex with
      | none => exact ⟨t1, (t3 (t2.mp rfl).2).trans (t2.mp rfl).2.symm, t4⟩
      | some e =>
        have he : endsC cs = false := by
          cases hh : endsC cs with
          | false => rfl
          | true => cases t2.mpr ⟨rfl, hh⟩
        refine ⟨t1, ?_, t4⟩
        show _ = endsC cs
        rw [he]
        exact sel_fin (x1.new rfl e rfl).2.2.1
theorem totQ : ∀ (st : Sq S) (env : List Loc) (ls : List Loop) (b : B S), WF b → LsOk ls b →
    Uniq ls → b.fin = false → scopedQ (ls.map Loop.name) st →
    Tot ls b (safeQ st) (endsQ st) (fun l => nextsQ l st) (lowerQ env ls st b) := by
  intro st env ls b w hls hu hf hsc
  cases st with
  | nil => exact ⟨rfl, hf, fun A _ _ => by simp [nextsQ]⟩
  | cons s t =>
    unfold lowerQ
    have h1 := totS s env ls b w hls hu hf hsc.1
    cases hq : lowerS env ls s b with
    | none =>
      rw [hq] at h1
      have h1 : safeS s = false := h1
      show safeQ _ = false
      unfold safeQ
      rw [h1]; rfl
    | some c =>
      rw [hq] at h1
      obtain ⟨p1, p2, p3⟩ := h1
      have u := lowerS_up s env ls b c w hls hq
      simp only [Option.bind_eq_bind, Option.bind_some]
      cases he : endsS s with
      | true =>
        rw [he] at p2
        have : lowerQ env ls t c = some c := skipQ t env ls c p2
        rw [this]
        refine ⟨by unfold safeQ; rw [p1, he]; rfl, by unfold endsQ; rw [p2, he]; rfl,
          fun A hA ht => ?_⟩
        rw [p3 A hA ht]
        show _ = (_ || (nextsS _ s || (!endsS s && nextsQ _ t)))
        rw [he]; simp
      | false =>
        rw [he] at p2
        have h2 := totQ t env ls c u.1 (hls.grow u.2) hu p2 hsc.2
        cases hq2 : lowerQ env ls t c with
        | none =>
          rw [hq2] at h2
          have h2 : safeQ t = false := h2
          show safeQ _ = false
          unfold safeQ
          rw [p1, he, h2]; rfl
        | some d =>
          rw [hq2] at h2
          obtain ⟨r1, r2, r3⟩ := h2
          refine ⟨by unfold safeQ; rw [p1, he, r1]; rfl, by unfold endsQ; rw [r2, he]; rfl,
            fun A hA ht => ?_⟩
          rw [r3 A hA ht, p3 A hA ht]
          show _ = (_ || (nextsS _ s || (!endsS s && nextsQ _ t)))
          rw [he, Bool.not_false, Bool.true_and, Bool.or_assoc]
theorem totC : ∀ (cs : Conds S) (env : List Loc) (ls : List Loop) (ex : Option Nat) (b : B S),
    WF b → LsOk ls b → Uniq ls → b.fin = false → ExIn b ex →
    scopedC (ls.map Loop.name) cs →
    TotC ls b ex (safeC cs) (endsC cs) (fun l => nextsC l cs) (lowerC env ls cs ex b) := by
  intro cs env ls ex b w hls hu hf hex hsc
  have hc := w.cur
  cases cs with
  | els bd =>
    unfold lowerC
    have t := totQ bd env ls b w hls hu hf hsc
    cases hq : lowerQ env ls bd b with
    | none => rw [hq] at t; exact t
    | some c =>
      rw [hq] at t
      obtain ⟨b2, ex2, hj, ht⟩ := join_tot (ex := ex) (lowerQ_up bd env ls b c w hls hq).1 t
      simp only [Option.bind_eq_bind, Option.bind_some, hj]
      exact ht
  | last c bd =>
    unfold lowerC
    obtain ⟨c1, h1⟩ := emitR_ok hf (.eval b.nreg (fun e s => boolInt (c e s)) env)
    obtain ⟨s1, _, f1⟩ := emitR_small h1
    have u1 := (Up.refl w).emitR h1
    have um := u1.more
    obtain ⟨u2, ok2, l2, k2, _, bl2⟩ := needExit_up (ex := ex) um.1
    have f2 : (needExit ex c1.more).2.fin = false := by
      unfold B.fin at *
      rw [k2, bl2]; exact f1
    obtain ⟨c2, h2⟩ := close_ok f2 (.cond b.nreg c1.n (needExit ex c1.more).1)
    have a2 := (um.trans u2).close h2
    have s2 := (close_small h2).1
    have uc : Up (needExit ex c1.more).2 c2 := (Up.refl u2.1).close h2
    have hn1 : c1.n = b.n := s1.n
    have k1 : c1.cur = b.cur := s1.cur
    have l : c2.lazyT = b.lazyT := by rw [s2.lz, l2]; exact s1.lz
    have hlt : c1.n < c2.n := Nat.lt_of_lt_of_le (Nat.lt_succ_self c1.n)
      (Nat.le_trans u2.2.n uc.2.n)
    have a3 : Up b (c2.sel c1.n) := a2.sel (by omega) a2 l .refl hlt
    have f3 : (c2.sel c1.n).fin = false := sel_fin (by
      rw [s2.blk _ (by rw [k2]; show _ ≠ c1.cur; omega), bl2]
      show c1.blk _ = _
      rw [s1.blk _ (by omega)]
      exact w.fresh _ (by omega))
    have t := totQ bd env ls _ a3.1 (hls.grow a3.2) hu f3 hsc
    simp only [h1, h2, Option.bind_eq_bind, Option.bind_some]
    cases hq : lowerQ env ls bd (c2.sel c1.n) with
    | none => rw [hq] at t; exact t
    | some c3 =>
      rw [hq] at t
      have u3 := lowerQ_up bd env ls _ _ a3.1 (hls.grow a3.2) hq
      obtain ⟨b2, ex2, hj, t1, t2, t3, t4⟩ :=
        join_tot (ex := some (needExit ex c1.more).1) u3.1 t
      simp only [Option.bind_some, hj]
      refine ⟨t1, ?_, ?_, fun A hA ht => ?_⟩
      · constructor
        · intro h
          cases (t2.mp h).1
        · rintro ⟨_, h⟩
          cases h
      · intro h
        cases h
      · rw [t4 A hA ht]
        show ((c2.lazyT _).isSome || _) = _
        rw [l]
        rfl
  | cons c bd t =>
    unfold lowerC
    obtain ⟨c1, h1⟩ := emitR_ok hf (.eval b.nreg (fun e s => boolInt (c e s)) env)
    obtain ⟨s1, _, f1⟩ := emitR_small h1
    have u1 := (Up.refl w).emitR h1
    have um := u1.more.more
    obtain ⟨c2, h2⟩ := close_ok (b := c1.more.more) f1 (.cond b.nreg c1.n (c1.n + 1))
    have a2 := um.close h2
    have s2 := (close_small h2).1
    have hn1 : c1.n = b.n := s1.n
    have k1 : c1.cur = b.cur := s1.cur
    have n2 : c2.n = b.n + 2 := by rw [s2.n]; show c1.n + 2 = _; omega
    have l : c2.lazyT = b.lazyT := by rw [s2.lz]; exact s1.lz
    have e2 : ∀ i, b.n ≤ i → c2.blk i = {} := fun i hi => by
      rw [s2.blk _ (by show _ ≠ c1.cur; omega)]
      show c1.blk _ = _
      rw [s1.blk _ (by omega)]
      exact w.fresh _ hi
    have a3 : Up b (c2.sel c1.n) := a2.sel (by omega) a2 l .refl (by omega)
    have f3 : (c2.sel c1.n).fin = false := sel_fin (e2 _ (by omega))
    have tb := totQ bd env ls _ a3.1 (hls.grow a3.2) hu f3 hsc.1
    simp only [h1, h2, Option.bind_eq_bind, Option.bind_some]
    cases hq : lowerQ env ls bd (c2.sel c1.n) with
    | none =>
      rw [hq] at tb
      have tb : safeQ bd = false := tb
      show safeC _ = false
      unfold safeC
      rw [tb]; rfl
    | some c3 =>
      rw [hq] at tb
      have u3 := lowerQ_up bd env ls _ _ a3.1 (hls.grow a3.2) hq
      obtain ⟨c4, ex4, hj, t1, t2, t3, t4⟩ := join_tot (ex := ex) u3.1 tb
      obtain ⟨u4, ok4, l4, k4⟩ := joinExit_up u3.1 hj
      have u34 := u3.trans u4
      have a5 : Up b (c4.sel (c1.n + 1)) := up_blk a3 l (by omega)
        (show c1.n + 1 < c2.n by omega) u34
      have hok : ExOk b c4 ex ex4 := ok4.before (a3.trans u3) u4.2
      have ok5 : ExOk b (c4.sel (c1.n + 1)) ex ex4 := ⟨hok.old, fun hx e he => by
        obtain ⟨p1, p2, p3, _, p5⟩ := hok.new hx e he
        obtain ⟨q1, _⟩ := ok4.new hx e he
        have := u3.2.n
        have : c2.n ≤ c3.n := this
        refine ⟨p1, p2, p3, ?_, p5⟩
        show e ≠ c1.n + 1
        omega⟩
      have f5 : (c4.sel (c1.n + 1)).fin = false := sel_fin (by
        rw [u34.2.frame _ (by show _ < c2.n; omega) (by show _ ≠ c1.n; omega)]
        exact e2 _ (by omega))
      have tt := totC t env ls ex4 _ a5.1 (hls.grow a5.2) hu f5 (hex.next (c := b) a5 ok5) hsc.2
      simp only [Option.bind_some, hj]
      cases hq2 : lowerC env ls t ex4 (c4.sel (c1.n + 1)) with
      | none =>
        rw [hq2] at tt
        have tt : safeC t = false := tt
        show safeC _ = false
        unfold safeC
        rw [tt, Bool.and_false]
      | some r =>
        obtain ⟨c6, ex6⟩ := r
        rw [hq2] at tt
        obtain ⟨r1, r2, r3, r4⟩ := tt
        refine ⟨by unfold safeC; rw [t1, r1]; rfl, ?_, ?_, fun A hA ht => ?_⟩
        · rw [r2, t2]
          show _ ↔ _ ∧ (endsQ bd && endsC t) = true
          rw [Bool.and_eq_true_iff, and_assoc]
        · intro h
          have h : (endsQ bd && endsC t) = true := h
          exact r3 (Bool.and_eq_true_iff.mp h).2
        · rw [r4 A hA ht]
          show ((c4.lazyT _).isSome || _) = _
          rw [t4 A hA ht]
          show ((c2.lazyT _).isSome || _ || _) = (_ || (nextsQ _ bd || nextsC _ t))
          rw [l, Bool.or_assoc]
end

end Verif.Seq
