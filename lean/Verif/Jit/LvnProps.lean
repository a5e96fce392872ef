import Verif.Jit.LvnLoop

/-!
# Local value numbering keeps the meaning of functions

Property C51, for functions to which none of the rewritings that are known to be wrong is applied.
-/

namespace Verif.Code

variable {W : Type}

/-! ## jumps -/

/-- Where an unconditional jump, or a chain of them, leads. -/
inductive Thread (f : Func) : Nat → Nat → Prop where
  | one {l l' : Nat} {ir : Ir} : f.irs[l]? = some ir → ir.op = .jump → ir.cc = .none → ir.arg1 = .label l' → Thread f l l'
  | more {l m l' : Nat} {ir : Ir} : f.irs[l]? = some ir → ir.op = .jump → ir.cc = .none → ir.arg1 = .label m →
    Thread f m l' → Thread f l l'

/-- The position is marked as the target of a jump. -/
def MarkedAt (f : Func) (l : Nat) : Prop := ∀ t, f.irs[l]? = some t → t.target = true

/-- The state at another position. -/
def State.at (s : State W) (l : Nat) : State W := { s with pc := l }

theorem exec_jump (env : Env W) (ir : Ir) (s : State W) (l : Nat) (h : ir.op = .jump) (ha : ir.arg1 = .label l)
    (hl : l < 2 ^ 32) : execIr env ir s =
      match ir.cc with
      | .none => some (.next (s.at l))
      | .t => some (.next (s.at (if s.flags then l else s.pc + 1)))
      | .f => some (.next (s.at (if s.flags then s.pc + 1 else l)))
      | _ => none := by
  have e : (BitVec.ofNat 64 l).toNat = l := by rw [BitVec.toNat_ofNat]; omega
  unfold execIr oldValue
  rw [h]
  simp only [Op.readsResult, effect, ha, eval]
  rcases s with ⟨regs, flags, pc, w⟩
  cases ir.cc <;> cases flags <;> simp [jumpTo, apply, writeReg, State.at, e] <;> omega

theorem Thread.run {env : Env W} {f : Func} (hm : TargetsMarked f) {l l' : Nat} (h : Thread f l l') :
    ∃ m, ∀ k (s : State W), run env f (m + k) (s.at l) = run env f k (s.at l') := by
  have one : ∀ (l l' : Nat) (ir : Ir), f.irs[l]? = some ir → ir.op = .jump → ir.cc = .none → ir.arg1 = .label l' →
      ∀ s : State W, step env f (s.at l) = some (.next (s.at l')) := by
    intro l l' ir h1 h2 h3 h4 s
    obtain ⟨l2, e, hl, _⟩ := (hm l ir h1).1 h2
    rw [h4] at e; injection e with e; subst e
    unfold step
    show f.irs[l]?.bind _ = _
    rw [h1, Option.bind_some, exec_jump env ir _ l' h2 h4 hl, h3]
    rfl
  induction h with
  | one h1 h2 h3 h4 =>
    refine ⟨1, fun k s => ?_⟩
    rw [Nat.add_comm]
    show (match step env f _ with | some (.next s') => Code.run env f k s' | r => r) = _
    rw [one _ _ _ h1 h2 h3 h4]
  | more h1 h2 h3 h4 _ ih =>
    obtain ⟨m, ih⟩ := ih
    refine ⟨m + 1, fun k s => ?_⟩
    rw [Nat.add_right_comm]
    show (match step env f _ with | some (.next s') => Code.run env f (m + k) s' | r => r) = _
    rw [one _ _ _ h1 h2 h3 h4]
    exact ih k s

theorem Thread.marked {f : Func} (hm : TargetsMarked f) {l l' : Nat} (h : Thread f l l') : MarkedAt f l' := by
  induction h with
  | one h1 h2 h3 h4 =>
    obtain ⟨l2, e, _, ht⟩ := (hm _ _ h1).1 h2
    rw [h4] at e; injection e with e; subst e
    exact ht
  | more _ _ _ _ _ ih => exact ih

/-- What becomes of a jump to `l` at position `i`. -/
inductive JumpTo (irs : List Ir) (i : Nat) (ir : Ir) (l : Nat) : Ir → Prop where
  | same : JumpTo irs i ir l ir
  | nop : l = i + 1 → JumpTo irs i ir l ir.toNop
  | thread {dest : Ir} : irs[l]? = some dest → dest.op = .jump → dest.cc = .none →
    JumpTo irs i ir l { ir with arg1 := dest.arg1 }

theorem lvnJumpDest_spec {irs i ir l ir'} (h : lvnJumpDest irs i ir l = some ir') : JumpTo irs i ir l ir' := by
  unfold lvnJumpDest at h
  rw [Option.map_eq_some_iff] at h
  obtain ⟨dest, hd, rfl⟩ := h
  split
  · exact .nop ‹_›
  · split
    · rename_i hj; exact .thread hd hj.1 hj.2
    · exact .same

/-- A jump before or after: the same result, or the end of the chain at once. -/
theorem jump_step {env : Env W} {f : Func} {irs i ir l ir'} {s : State W} (hop : ir.op = .jump) (ha : ir.arg1 = .label l)
    (hl : l < 2 ^ 32) (hpc : s.pc = i)
    (hth : ∀ dest, irs[l]? = some dest → dest.op = .jump → dest.cc = .none →
      ∃ l', dest.arg1 = .label l' ∧ l' < 2 ^ 32 ∧ Thread f l l')
    (J : JumpTo irs i ir l ir') {r} (h : execIr env ir s = some r) :
    execIr env ir' s = some r ∨ r = .next (s.at l) ∧ ∃ l', Thread f l l' ∧ execIr env ir' s = some (.next (s.at l')) := by
  cases J with
  | same => exact Or.inl h
  | nop e =>
    refine Or.inl ?_
    rw [exec_toNop, ← h, exec_jump env ir s l hop ha hl]
    have hn : s.nop = s.at (s.pc + 1) := rfl
    have hl' : l = s.pc + 1 := by omega
    rw [exec_jump env ir s l hop ha hl] at h
    cases hcc : ir.cc <;> rw [hcc] at h <;> simp only [reduceCtorEq] at h <;> simp only [hn, hl', ite_self]
  | @thread dest hd hj hc =>
    obtain ⟨l', e, hl', T⟩ := hth _ hd hj hc
    rw [exec_jump env ir s l hop ha hl] at h
    rw [exec_jump env { ir with arg1 := dest.arg1 } s l' hop e hl']
    dsimp only
    cases hcc : ir.cc <;> rw [hcc] at h <;> simp only [reduceCtorEq, Option.some.injEq] at h <;> dsimp only
    · exact Or.inr ⟨h.symm, l', T, rfl⟩
    all_goals
      cases hf : s.flags <;> rw [hf] at h <;> simp only [if_true, if_false, Bool.false_eq_true] at h ⊢
      first
        | exact Or.inr ⟨h.symm, l', T, rfl⟩
        | exact Or.inl (congrArg some h)
      first
        | exact Or.inr ⟨h.symm, l', T, rfl⟩
        | exact Or.inl (congrArg some h)

/-- `jit_lvn_jump`: without its condition if the flags are known. -/
theorem lvnJumpTo_spec {irs i fl ir l ir'} (h : lvnJumpTo irs i fl ir l = some ir') :
    JumpTo irs i ir l ir' ∨ ir.cc ≠ .none ∧ ∃ v, fl = some v ∧
      (v = (if ir.cc = .t then 1 else 0) ∧ JumpTo irs i { ir with cc := .none } l ir' ∨
       v ≠ (if ir.cc = .t then 1 else 0) ∧ ir' = ir.toNop) := by
  unfold lvnJumpTo at h
  split at h
  · split at h
    · exact Or.inl (lvnJumpDest_spec h)
    · rename_i v hc
      by_cases hv : v = (if ir.cc = .t then 1 else 0)
      · rw [if_pos hv] at h
        exact Or.inr ⟨hc, v, rfl, Or.inl ⟨hv, lvnJumpDest_spec h⟩⟩
      · rw [if_neg hv, Option.some.injEq] at h
        exact Or.inr ⟨hc, v, rfl, Or.inr ⟨hv, h.symm⟩⟩
  · exact Or.inl (lvnJumpDest_spec h)

/-! ## where control goes -/

theorem exec_next_pc {env : Env W} {f : Func} (hm : TargetsMarked f) {ir : Ir} {s s' : State W}
    (hi : f.irs[s.pc]? = some ir) (h : execIr env ir s = some (.next s')) :
    s'.pc = s.pc + 1 ∨ MarkedAt f s'.pc := by
  have hlab : ∀ l : Nat, l < 2 ^ 32 → (BitVec.ofNat 64 l).toNat = l := by
    intro l hl; rw [BitVec.toNat_ofNat]; omega
  unfold execIr at h
  rw [Option.bind_eq_some_iff] at h
  obtain ⟨old, _, h⟩ := h
  rw [Option.bind_eq_some_iff] at h
  obtain ⟨e, he, h⟩ := h
  unfold apply at h
  rw [Option.map_eq_some_iff] at h
  obtain ⟨regs, hw, h⟩ := h
  dsimp only at h
  cases hc : e.ctl with
  | next => rw [hc] at h; injection h with h; subst h; exact Or.inl rfl
  | stop b => rw [hc] at h; cases h
  | goto l =>
    rw [hc] at h
    injection h with h
    subst h
    right
    intro t ht
    dsimp only at ht
    rcases effect_goto he hc with ⟨hop, rfl⟩ | ⟨hop, rfl⟩
    · obtain ⟨l, e, hl, H⟩ := (hm _ _ hi).1 hop
      simp only [e, eval, hlab l hl] at ht
      exact H t ht
    · obtain ⟨l, e, hl, H⟩ := (hm _ _ hi).2 hop
      simp only [e, eval, hlab l hl] at ht
      exact H t ht

/-! ## the whole function -/

/-- One run of the pass. -/
structure LvnRun (pool : Word → Size → Word) (psize : Nat) (f : Func) (out : List Ir) (sts : Nat → Lvn) (rs : Nat → Bool) :
    Prop where
  ok : LvnOk psize f
  len : out.length = f.irs.length
  start : sts 0 = lvnStart f
  reset : rs 0 = true
  pos : ∀ k, k < f.irs.length → LvnPos pool f.irs out sts rs k
  out : ∀ (k : Nat) (ir ir' : Ir), f.irs[k]? = some ir → out[k]? = some ir' → OutOk ir ir'

section
variable {pool : Word → Size → Word} {psize : Nat} {f : Func} {out : List Ir} {sts : Nat → Lvn} {rs : Nat → Bool}

theorem stat_start (f : Func) : Stat f 0 (lvnStart f) := by
  refine ⟨rfl, Nat.le_refl _, Nat.zero_le _, ?_, ?_, ?_, ?_⟩
  · intro q v h; cases h
  · intro v h; cases h
  · intro r v _ h; cases h
  · intro k e evn h; cases h

/-- Jumps do not change the state. -/
theorem lvnIr_jump {irs i st ir ir' st'} (hop : ir.op = .jump) (h : lvnIr pool irs i st ir = some (ir', st')) :
    st' = st ∧ ∃ l, ir.arg1 = .label l ∧ lvnJumpTo irs i (st.regvn st.nregs) ir l = some ir' := by
  unfold lvnIr at h
  rw [hop] at h
  dsimp only at h
  unfold lvnJump at h
  rw [Option.bind_eq_some_iff] at h
  obtain ⟨l, hl, h⟩ := h
  rw [Option.map_eq_some_iff] at h
  obtain ⟨a, h, e⟩ := h
  simp only [Prod.mk.injEq] at e
  obtain ⟨rfl, rfl⟩ := e
  refine ⟨rfl, l, ?_, h⟩
  unfold Val.labelOf at hl
  split at hl
  · injection hl with hl; subst hl; assumption
  · cases hl

theorem LvnRun.stat (R : LvnRun pool psize f out sts rs) : ∀ k, k ≤ f.irs.length → Stat f k (sts k) := by
  intro k
  induction k with
  | zero => intro _; rw [R.start]; exact stat_start f
  | succ k ih =>
    intro hk
    have S := ih (by omega)
    obtain ⟨ir, ir', h1, h2, h3⟩ := R.pos k (by omega)
    by_cases hj : ir.op = .jump
    · rw [(lvnIr_jump hj h3).1]
      exact S.entered h1
    · exact (lvnIr_rewr (W := Unit) (psize := psize) (LvnCtx.entered R.ok S h1) (R.ok.irs ir (List.mem_of_getElem? h1))
        (R.out k ir ir' h1 h2) hj h3).stat

/-- Unconditional jumps at marked positions, before and after they have been rewritten. -/
theorem LvnRun.thread (R : LvnRun pool psize f out sts rs) : ∀ k, k ≤ f.irs.length → ∀ (l : Nat) (dest : Ir),
    (midway f.irs out k)[l]? = some dest → dest.op = .jump → dest.cc = .none → MarkedAt f l →
    ∃ l', dest.arg1 = .label l' ∧ l' < 2 ^ 32 ∧ Thread f l l' := by
  have orig : ∀ (l : Nat) (dest : Ir), f.irs[l]? = some dest → dest.op = .jump → dest.cc = .none →
      ∃ l', dest.arg1 = .label l' ∧ l' < 2 ^ 32 ∧ Thread f l l' := by
    intro l dest h1 h2 h3
    obtain ⟨l', e, hl, _⟩ := (R.ok.marks l dest h1).1 h2
    exact ⟨l', e, hl, .one h1 h2 h3 e⟩
  intro k
  induction k with
  | zero =>
    intro _ l dest hd hj hc _
    rw [midway_get R.len (Nat.zero_le _), if_neg (by omega)] at hd
    exact orig l dest hd hj hc
  | succ k ih =>
    intro hk l dest hd hj hc hm
    rw [midway_get R.len hk] at hd
    by_cases hl : l < k + 1
    · rw [if_pos hl] at hd
      by_cases hlk : l < k
      · refine ih (by omega) l dest ?_ hj hc hm
        rw [midway_get R.len (by omega), if_pos hlk]; exact hd
      · have : l = k := by omega
        subst this
        obtain ⟨ir, ir', h1, h2, h3⟩ := R.pos l (by omega)
        rw [h2] at hd; injection hd with hd; subst hd
        have S := R.stat l (by omega)
        by_cases hjmp : ir.op = .jump
        · obtain ⟨_, t, ht, hjt⟩ := lvnIr_jump hjmp h3
          obtain ⟨t', et, htl, htm⟩ := (R.ok.marks l ir h1).1 hjmp
          rw [ht] at et; injection et with et; subst et
          have hnone : ((sts l).entered (rs l) ir).regvn ((sts l).entered (rs l) ir).nregs = none := by
            unfold Lvn.entered
            rw [hm ir h1, Bool.or_true, if_pos rfl]
            show (sts l).reset.regvn (sts l).nregs = none
            exact reset_reg (by omega)
          rw [hnone] at hjt
          rcases lvnJumpTo_spec hjt with J | ⟨_, v, hv, _⟩
          · cases J with
            | same => exact orig l ir h1 hj hc
            | nop _ => exact absurd hj (by simp [Ir.toNop])
            | thread hd2 hj2 hc2 =>
              obtain ⟨l', e, hl', T⟩ := ih (by omega) t _ hd2 hj2 hc2 htm
              exact ⟨l', e, hl', .more h1 hjmp hc ht T⟩
          · cases hv
        · exact absurd hj (lvnIr_rewr (W := Unit) (psize := psize) (LvnCtx.entered R.ok S h1)
            (R.ok.irs ir (List.mem_of_getElem? h1)) (R.out l ir ir' h1 h2) hjmp h3).jump
    · rw [if_neg hl] at hd
      exact orig l dest hd hj hc

/-- What is known when control reaches `s`. -/
def LvnHere (env : Env W) (f : Func) (sts : Nat → Lvn) (rs : Nat → Bool) (s : State W) : Prop :=
  ∀ ir, f.irs[s.pc]? = some ir → (rs s.pc || ir.target) = false →
    ∃ val, Dyn env (Sent f s.pc) (sts s.pc) val s.regs s.flags s.world

theorem lvnHere_marked {env : Env W} {s : State W} (h : MarkedAt f s.pc) : LvnHere env f sts rs s := by
  intro ir hi hr
  rw [h ir hi, Bool.or_true] at hr
  cases hr

/-- One step: the same, or a jump that arrives further on. -/
theorem LvnRun.step (R : LvnRun pool psize f out sts rs) {env : Env W} (L : LvnLaws env pool psize) {s : State W}
    (H : LvnHere env f sts rs s) {r : Res W} (h : step env f s = some r) :
    (step env { f with irs := out } s = some r ∧ ∀ s', r = .next s' → LvnHere env f sts rs s') ∨
    ∃ l l', r = .next (s.at l) ∧ Thread f l l' ∧ step env { f with irs := out } s = some (.next (s.at l')) := by
  unfold Code.step at h
  rw [Option.bind_eq_some_iff] at h
  obtain ⟨ir, hi, h⟩ := h
  obtain ⟨hpc, _⟩ := List.getElem?_eq_some_iff.mp hi
  obtain ⟨ir0, ir', h1, h2, h3⟩ := R.pos s.pc hpc
  rw [hi] at h1; injection h1 with h1; subst h1
  have S := R.stat s.pc (by omega)
  have hstep : Code.step env { f with irs := out } s = execIr env ir' s := by
    unfold Code.step
    show out[s.pc]?.bind _ = _
    rw [h2, Option.bind_some]
  rw [hstep]
  -- what is known on entry
  have hD : ∃ val, Dyn env (fun n => Sent f s.pc n ∧ ir.target = false) ((sts s.pc).entered (rs s.pc) ir) val
      s.regs s.flags s.world := by
    unfold Lvn.entered
    split
    · exact Dyn.reset _ S _ _ _
    · rename_i hr
      simp only [Bool.not_eq_true] at hr
      obtain ⟨val, D⟩ := H ir hi hr
      exact ⟨val, D.mono fun n hn => ⟨hn, by simp only [Bool.or_eq_false_iff] at hr; exact hr.2⟩⟩
  obtain ⟨val, D⟩ := hD
  -- what is known after it
  have here : ∀ s', r = .next s' → (∃ val', Dyn env (Sent f (s.pc + 1)) (sts (s.pc + 1)) val' s'.regs s'.flags s'.world) →
      LvnHere env f sts rs s' := by
    rintro s' rfl hd
    rcases exec_next_pc R.ok.marks hi h with e | hm
    · intro _ _ _; rw [e]; exact hd
    · exact lvnHere_marked hm
  by_cases hj : ir.op = .jump
  · obtain ⟨est, l, hl, hjt⟩ := lvnIr_jump hj h3
    obtain ⟨l2, e, hlt, hmark⟩ := (R.ok.marks s.pc ir hi).1 hj
    rw [hl] at e; injection e with e; subst e
    have hth := fun dest h1 h2 h3 => R.thread s.pc (by omega) l dest h1 h2 h3 hmark
    have D' : ∃ val', Dyn env (Sent f (s.pc + 1)) (sts (s.pc + 1)) val' s.regs s.flags s.world := by
      rw [est]
      exact ⟨val, D.mono ((sentOk R.ok hi).pass (by simp [hj]) (by simp [hj]))⟩
    have hsame : ∀ s', r = .next s' → s'.regs = s.regs ∧ s'.flags = s.flags ∧ s'.world = s.world := by
      rintro s' rfl
      rw [exec_jump env ir s l hj hl hlt] at h
      cases hcc : ir.cc <;> rw [hcc] at h <;> simp only [reduceCtorEq, Option.some.injEq, Res.next.injEq] at h <;>
        subst h <;> exact ⟨rfl, rfl, rfl⟩
    have hn : ∀ s', r = .next s' → LvnHere env f sts rs s' := by
      intro s' e
      obtain ⟨e1, e2, e3⟩ := hsame s' e
      refine here s' e ?_
      rw [e1, e2, e3]; exact D'
    have fin : ∀ ir1 : Ir, ir1.op = .jump → ir1.arg1 = .label l → execIr env ir1 s = some r →
        JumpTo (midway f.irs out s.pc) s.pc ir1 l ir' →
        (execIr env ir' s = some r ∧ ∀ s', r = .next s' → LvnHere env f sts rs s') ∨
          ∃ l l', r = .next (s.at l) ∧ Thread f l l' ∧ execIr env ir' s = some (.next (s.at l')) := by
      intro ir1 a1 a2 a3 J
      rcases jump_step a1 a2 hlt rfl hth J a3 with h | ⟨e, l', T, h⟩
      · exact Or.inl ⟨h, hn⟩
      · exact Or.inr ⟨l, l', e, T, h⟩
    rcases lvnJumpTo_spec hjt with J | ⟨hcc, v, hv, J⟩
    · exact fin ir hj hl h J
    · have hfl := D.flag v hv
      rw [exec_jump env ir s l hj hl hlt] at h
      rcases J with ⟨ev, J⟩ | ⟨ev, rfl⟩
      · refine fin { ir with cc := .none } hj hl ?_ J
        rw [exec_jump env { ir with cc := .none } s l hj hl hlt]
        dsimp only
        cases hc : ir.cc <;> rw [hc] at h ev <;> simp only [reduceCtorEq] at h
        · exact absurd hc hcc
        · simp at ev; rw [hfl, ev] at h; simpa using h
        · simp at ev; rw [hfl, ev] at h; simpa using h
      · refine Or.inl ⟨?_, hn⟩
        rw [exec_toNop]
        have hvle := (S.entered (reset := rs s.pc) hi).flag v hv
        have hnop : s.nop = s.at (s.pc + 1) := rfl
        rw [hnop]
        cases hc : ir.cc <;> rw [hc] at h ev <;> simp only [reduceCtorEq] at h
        · exact absurd hc hcc
        · have : v = 0 := by simp at ev; omega
          rw [hfl, this] at h; simpa using h
        · have : v = 1 := by simp at ev; omega
          rw [hfl, this] at h; simpa using h
  · have RW := lvnIr_rewr (W := W) (psize := psize) (LvnCtx.entered R.ok S hi) (R.ok.irs ir (List.mem_of_getElem? hi))
      (R.out s.pc ir ir' hi h2) hj h3
    obtain ⟨e, hnext⟩ := RW.dyn env _ _ val s r L (sentOk R.ok hi) D h
    exact Or.inl ⟨e, fun s' hs => here s' hs (hnext s' hs)⟩

theorem LvnRun.sim (R : LvnRun pool psize f out sts rs) {env : Env W} (L : LvnLaws env pool psize) :
    ∀ (n : Nat) (s : State W), LvnHere env f sts rs s → ∃ m, n ≤ m ∧
      (run env f m s = none ∨ run env f m s = run env { f with irs := out } n s) := by
  intro n
  induction n with
  | zero => intro s _; exact ⟨0, Nat.le_refl _, Or.inr rfl⟩
  | succ n ih =>
    intro s H
    have hrun : ∀ (g : Func) m, run env g (m + 1) s =
        match Code.step env g s with | some (.next s') => run env g m s' | r => r := fun _ _ => rfl
    cases hs : Code.step env f s with
    | none => exact ⟨n + 1, Nat.le_refl _, Or.inl (by rw [hrun, hs])⟩
    | some r =>
      rcases R.step L H hs with ⟨e, hn⟩ | ⟨l, l', er, T, e⟩
      · cases r with
        | halt b s' => exact ⟨n + 1, Nat.le_refl _, Or.inr (by rw [hrun, hrun, hs, e])⟩
        | next s' =>
          obtain ⟨m, hm, h⟩ := ih s' (hn s' rfl)
          exact ⟨m + 1, by omega, by rw [hrun, hrun, hs, e]; exact h⟩
      · subst er
        obtain ⟨m, hm, h⟩ := ih (s.at l') (lvnHere_marked (T.marked R.ok.marks))
        obtain ⟨k, hk⟩ := T.run (env := env) R.ok.marks
        exact ⟨k + m + 1, by omega, by rw [hrun, hrun, hs, e]; dsimp only; rw [hk m s]; exact h⟩

end

/-- **C51.**  For every function that satisfies `LvnOk` and none of whose instructions was rewritten in a way
known to be wrong (`OutOk`), in every environment where memory and the constant pool behave (`LvnLaws`), for
all contents of the registers, flags and world, and every number of steps `n`: the function after local
value numbering is, after `n` steps, in exactly the state in which the original function is after some
number of steps, at least `n`; or else the original function does something undefined.

Partial: the full property, without `OutOk` and the conditions `single`, `order` and `args` in `LvnOk`, is
false, see `LvnBugs`. -/
theorem lvn_correct_partial (env : Env W) (pool : Word → Size → Word) (psize : Nat) (L : LvnLaws env pool psize)
    (f f' : Func) (ok : LvnOk psize f) (h : lvn pool f = some f')
    (out : ∀ (k : Nat) (ir ir' : Ir), f.irs[k]? = some ir → f'.irs[k]? = some ir' → OutOk ir ir')
    (n : Nat) (s : State W) (h0 : s.pc = 0) :
    ∃ m, n ≤ m ∧ (run env f m s = none ∨ run env f m s = run env f' n s) := by
  unfold lvn at h
  rw [Option.map_eq_some_iff] at h
  obtain ⟨irs, h, rfl⟩ := h
  obtain ⟨sts, rs, e1, e2, e3, _, hpos⟩ := lvnLoop_pos pool f.nregs _ 0 true f.irs (lvnStart f) irs h (by omega)
  have R : LvnRun pool psize f irs sts rs :=
    ⟨ok, e3, e1, e2, fun k hk => hpos k (Nat.zero_le _) (by omega), out⟩
  refine R.sim L n s ?_
  intro ir hi hr
  rw [h0, e2, Bool.true_or] at hr
  cases hr

theorem run_halt_le (env : Env W) (f : Func) : ∀ (n m : Nat) (s t : State W) (b : Bool), n ≤ m →
    run env f n s = some (.halt b t) → run env f m s = some (.halt b t) := by
  intro n
  induction n with
  | zero => intro m s t b _ h; cases h
  | succ n ih =>
    intro m s t b hm h
    obtain ⟨m, rfl⟩ : ∃ k, m = k + 1 := ⟨m - 1, by omega⟩
    unfold run at h ⊢
    split at h
    · exact ih m _ t b (by omega) h
    · exact h

/-- **C51.**  If the original function ends after `n` steps, the optimised function has ended by then, in the
same way and in the same state. -/
theorem lvn_halts_partial (env : Env W) (pool : Word → Size → Word) (psize : Nat) (L : LvnLaws env pool psize)
    (f f' : Func) (ok : LvnOk psize f) (h : lvn pool f = some f')
    (out : ∀ (k : Nat) (ir ir' : Ir), f.irs[k]? = some ir → f'.irs[k]? = some ir' → OutOk ir ir')
    (n : Nat) (s t : State W) (b : Bool) (h0 : s.pc = 0) (hr : run env f n s = some (.halt b t)) :
    run env f' n s = some (.halt b t) := by
  obtain ⟨m, hm, h⟩ := lvn_correct_partial env pool psize L f f' ok h out n s h0
  rw [run_halt_le env f n m s t b hm hr] at h
  rcases h with h | h
  · cases h
  · exact h.symm

end Verif.Code
