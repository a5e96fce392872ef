import Verif.Jit.CpropModel
import Verif.Jit.ArithProps

/-!
# Copy propagation preserves behaviour

Property C32.
-/

namespace Verif.Code

variable {W : Type}

/-! ## what the property assumes -/

/-- Every jump and every case names a label, and the instruction there is marked as a target. -/
def TargetsMarked (f : Func) : Prop :=
  ∀ (i : Nat) (ir : Ir), f.irs[i]? = some ir →
    (ir.op = .jump → ∃ l, ir.arg1 = .label l ∧ l < 2 ^ 32 ∧
      ∀ t, f.irs[l]? = some t → t.target = true) ∧
    (ir.op = .case → ∃ l, ir.arg2 = .label l ∧ l < 2 ^ 32 ∧
      ∀ t, f.irs[l]? = some t → t.target = true)

/-- No address relative to a register is moved (such addresses are computed by LEA). -/
def NoAddressMoved (f : Func) : Prop :=
  ∀ ir ∈ f.irs, ir.op = .mov → ∀ r d, ir.arg1 ≠ .addrReg r d

/-! ## the map is right at every instruction -/

/-- The entries of the map are equal to the registers they stand for. -/
structure MapOk (env : Env W) (m : CopyMap) (regs : Nat → Word) : Prop where
  value : ∀ j, m j ≠ .invalid → eval env regs (m j) = regs j
  closed : ∀ j r, m j = .reg r → m r = .reg r
  noaddr : ∀ j r d, m j ≠ .addrReg r d

theorem mapOk_empty (env : Env W) (regs : Nat → Word) : MapOk env CopyMap.empty regs := by
  constructor <;> simp [CopyMap.empty]

theorem eval_propVal {env : Env W} {m regs} (h : MapOk env m regs) (v : Val) :
    eval env regs (propVal m v) = eval env regs v := by
  cases v <;> simp only [propVal]
  case reg r =>
    split
    · rfl
    · exact h.value r ‹_›

theorem propVal_closed {env : Env W} {m regs r v} (h : MapOk env m regs) (e : propVal m v = .reg r) :
    m r = .invalid ∨ m r = .reg r := by
  cases v <;> simp only [propVal] at e <;> try cases e
  case reg q =>
    split at e
    · injection e with e; subst e; exact Or.inl ‹_›
    · exact Or.inr (h.closed q r e)

theorem propVal_noaddr {env : Env W} {m regs} (h : MapOk env m regs) {v : Val}
    (hv : ∀ r d, v ≠ .addrReg r d) : ∀ r d, propVal m v ≠ .addrReg r d := by
  intro r d e
  cases v <;> simp only [propVal] at e <;> try cases e
  case reg q =>
    split at e
    · cases e
    · exact h.noaddr q r d e
  case addrReg => exact hv _ _ rfl

/-- A value that does not mention the register. -/
theorem eval_setReg (env : Env W) (regs : Nat → Word) (d : Nat) (x : Word) (v : Val)
    (h1 : v ≠ .reg d) (h2 : ∀ r o, v ≠ .addrReg r o) :
    eval env (setReg regs d x) v = eval env regs v := by
  cases v <;> simp only [eval, setReg]
  case reg r =>
    have : r ≠ d := fun c => h1 (by rw [c])
    simp [this]
  case addrReg r o => exact absurd rfl (h2 r o)

theorem dropCopies_ne {env : Env W} {m regs} (h : MapOk env m regs) (d j : Nat) :
    dropCopies m d j ≠ .reg d := by
  unfold dropCopies
  split
  · intro c
    have := h.closed j d c
    simp_all
  · dsimp only
    split
    · simp
    · assumption

theorem dropCopies_sub (m : CopyMap) (d j : Nat) : dropCopies m d j = .invalid ∨ dropCopies m d j = m j := by
  unfold dropCopies
  split
  · exact Or.inr rfl
  · dsimp only
    split
    · exact Or.inl rfl
    · exact Or.inr rfl

/-- After dropping its copies the register may get a new value. -/
theorem mapOk_write {env : Env W} {m regs} (h : MapOk env m regs) (d : Nat) (x : Word) :
    MapOk env ((dropCopies m d).set d .invalid) (setReg regs d x) := by
  have key : ∀ j, j ≠ d → dropCopies m d j ≠ .invalid → dropCopies m d j = m j := by
    intro j _ hj
    rcases dropCopies_sub m d j with c | c
    · exact absurd c hj
    · exact c
  constructor
  · intro j hj
    unfold CopyMap.set at *
    split at hj
    · simp at hj
    · rename_i hjd
      rw [if_neg hjd] at *
      rw [key j hjd hj]
      rw [eval_setReg env regs d x _ (by rw [← key j hjd hj]; exact dropCopies_ne h d j) (h.noaddr j),
        h.value j (by rw [← key j hjd hj]; exact hj)]
      simp [setReg, hjd]
  · intro j r hj
    unfold CopyMap.set at *
    split at hj
    · simp at hj
    · rename_i hjd
      have hr : r ≠ d := by
        intro c; subst c
        exact dropCopies_ne h r j hj
      rw [if_neg hr]
      have hmj : m j = .reg r := by rw [← key j hjd (by rw [hj]; simp)]; exact hj
      have hmr := h.closed j r hmj
      unfold dropCopies at hj ⊢
      split
      · exact hmr
      · dsimp only
        rw [if_neg (by rw [hmr]; simp; exact hr)]
        exact hmr
  · intro j r o c
    unfold CopyMap.set at c
    split at c
    · simp at c
    · rcases dropCopies_sub m d j with e | e
      · rw [e] at c; simp at c
      · rw [e] at c; exact h.noaddr j r o c

/-- Nothing is written. -/
theorem mapOk_drop {env : Env W} {m regs} (h : MapOk env m regs) (d : Nat) :
    MapOk env ((dropCopies m d).set d .invalid) regs := by
  have := mapOk_write h d (regs d)
  have e : setReg regs d (regs d) = regs := by
    funext q; unfold setReg; split <;> simp_all
  rwa [e] at this

/-- The register becomes a copy of a value that is not itself. -/
theorem mapOk_set {env : Env W} {m regs} {d : Nat} {v : Val} (h : MapOk env m regs)
    (hd : m d = .invalid) (hv : eval env regs v = regs d) (ha : ∀ r o, v ≠ .addrReg r o)
    (hr : ∀ r, v = .reg r → m r = .reg r) : MapOk env (m.set d v) regs := by
  constructor
  · intro j hj
    unfold CopyMap.set at *
    split
    · rename_i c; rw [c]; exact hv
    · rename_i c; rw [if_neg c] at hj; exact h.value j hj
  · intro j r hj
    unfold CopyMap.set at *
    have aux : m r = .reg r → (if r = d then v else m r) = .reg r := by
      intro e
      split
      · rename_i c; subst c; rw [hd] at e; simp at e
      · exact e
    split at hj
    · exact aux (hr r hj)
    · exact aux (h.closed j r hj)
  · intro j r o c
    unfold CopyMap.set at c
    split at c
    · exact ha r o c
    · exact h.noaddr j r o c

/-- A register is a copy of itself. -/
theorem mapOk_self {env : Env W} {m regs} {r : Nat} (h : MapOk env m regs)
    (hr : m r = .invalid ∨ m r = .reg r) : MapOk env (m.set r (.reg r)) regs := by
  have e : ∀ j, j ≠ r → (m.set r (.reg r)) j = m j := by
    intro j hj; unfold CopyMap.set; simp [hj]
  have e' : (m.set r (.reg r)) r = .reg r := by unfold CopyMap.set; simp
  constructor
  · intro j hj
    by_cases c : j = r
    · subst c; rw [e']; rfl
    · rw [e j c] at hj ⊢; exact h.value j hj
  · intro j q hj
    by_cases c : j = r
    · subst c; rw [e'] at hj; injection hj with hj; subst hj; exact e'
    · rw [e j c] at hj
      have := h.closed j q hj
      by_cases c' : q = r
      · subst c'; exact e'
      · rw [e q c']; exact this
  · intro j q o hj
    by_cases c : j = r
    · subst c; rw [e'] at hj; cases hj
    · rw [e j c] at hj; exact h.noaddr j q o hj

/-- What an instruction leaves in the result register. -/
theorem effect_mov {env : Env W} {size cc a b old fl w e} (h : effect env .mov size cc a b old fl w = some e) :
    e.result = some a := by
  simp only [effect, give, Option.map_some] at h
  injection h with h
  rw [← h]

theorem effect_keeps {env : Env W} {op : Op} {size cc a b old fl w e}
    (h : effect env op size cc a b old fl w = some e) (hk : op.keepsResult = true) : e.result = none := by
  cases op <;> simp [Op.keepsResult] at hk <;> simp only [effect, act, Option.map_eq_some_iff] at h <;>
    obtain ⟨w, _, rfl⟩ := h <;> rfl

theorem set_set (m : CopyMap) (d : Nat) (u v : Val) : (m.set d u).set d v = m.set d v := by
  funext j; unfold CopyMap.set; split <;> rfl

/-- The map after an instruction is right for the registers after it. -/
theorem mapOk_after {env : Env W} {m : CopyMap} {ir : Ir} {s : State W} {old : Word} {e : Eff W}
    {regs' : Nat → Word} (h : MapOk env m s.regs)
    (hm : ir.op = .mov → ∀ r d, ir.arg1 ≠ .addrReg r d)
    (he : effect env ir.op ir.size ir.cc (eval env s.regs ir.arg1) (eval env s.regs ir.arg2) old s.flags
      s.world = some e) (hw : writeReg s.regs ir.result e.result = some regs') :
    MapOk env (afterIr m (propIr m ir)) regs' := by
  unfold afterIr
  have e1 : (propIr m ir).result = ir.result := rfl
  have e2 : (propIr m ir).op = ir.op := rfl
  have e3 : (propIr m ir).arg1 = propVal m ir.arg1 := rfl
  rw [e1, e2, e3]
  cases hres : ir.result with
  | none =>
    rw [hres] at hw
    unfold writeReg at hw
    split at hw
    · injection hw with hw; rw [← hw]; exact h
    · rename_i c; cases c
    · cases hw
  | some d =>
    rw [hres] at hw
    dsimp only
    have hregs : regs' = s.regs ∧ e.result = none ∨ ∃ x, e.result = some x ∧ regs' = setReg s.regs d x := by
      unfold writeReg at hw
      split at hw
      · injection hw with hw; exact Or.inl ⟨hw.symm, ‹_›⟩
      · rename_i x r' hx hr
        injection hr with hr; subst hr
        injection hw with hw; exact Or.inr ⟨x, by assumption, hw.symm⟩
      · cases hw
    by_cases hk : ir.op.keepsResult = true
    · rw [if_pos hk]
      rcases hregs with ⟨rfl, _⟩ | ⟨x, hx, _⟩
      · exact h
      · rw [effect_keeps he hk] at hx; cases hx
    · rw [if_neg hk]
      by_cases hmov : ir.op = .mov
      · rw [if_pos hmov]
        rw [hmov] at he
        have hx := effect_mov he
        rcases hregs with ⟨_, c⟩ | ⟨x, hx', rfl⟩
        · rw [c] at hx; cases hx
        have hxe : x = eval env s.regs (propVal m ir.arg1) := by
          rw [eval_propVal h]; rw [hx] at hx'; injection hx' with hx'; exact hx'.symm
        have hbase := mapOk_write h d x
        have hna := propVal_noaddr h (hm hmov)
        have hcl := fun r e => propVal_closed (r := r) (v := ir.arg1) h e
        generalize hv : propVal m ir.arg1 = v at *
        subst hxe
        rw [← set_set (dropCopies m d) d .invalid v]
        generalize hb : (dropCopies m d).set d .invalid = mb at *
        have hbd : mb d = .invalid := by rw [← hb]; unfold CopyMap.set; simp
        have hbr : ∀ r, r ≠ d → (m r = .invalid ∨ m r = .reg r) → (mb r = .invalid ∨ mb r = .reg r) := by
          intro r hr c
          rw [← hb]
          unfold CopyMap.set
          rw [if_neg hr]
          rcases dropCopies_sub m d r with c' | c'
          · exact Or.inl c'
          · rw [c']; exact c
        by_cases hself : v = .reg d
        · subst hself
          have : (mb.set d (.reg d)).set d (.reg d) = mb.set d (.reg d) := set_set ..
          simp only [this]
          exact mapOk_self hbase (Or.inl hbd)
        · have hval : eval env (setReg s.regs d (eval env s.regs v)) v =
              setReg s.regs d (eval env s.regs v) d := by
            rw [eval_setReg env s.regs d _ v hself hna]; simp [setReg]
          cases v
          case reg r =>
            have hrd : r ≠ d := fun c => hself (by rw [c])
            dsimp only
            -- first the source, then the result
            have hcomm : (mb.set d (.reg r)).set r (.reg r) = (mb.set r (.reg r)).set d (.reg r) := by
              funext j; unfold CopyMap.set; grind
            rw [hcomm]
            apply mapOk_set
            · exact mapOk_self hbase (hbr r hrd (hcl r rfl))
            · unfold CopyMap.set; rw [if_neg (Ne.symm hrd)]; exact hbd
            · exact hval
            · exact hna
            · intro q hq; injection hq with hq; subst hq; unfold CopyMap.set; simp
          all_goals
            refine mapOk_set hbase hbd hval hna ?_
            intro q hq
            cases hq
      · rw [if_neg hmov]
        rcases hregs with ⟨rfl, _⟩ | ⟨x, _, rfl⟩
        · exact mapOk_drop h d
        · exact mapOk_write h d x

/-! ## the map at each instruction -/

/-- The map before the reset at the `i`th instruction, and whether it is reset. -/
def mapAt (f : Func) : Nat → Bool × CopyMap
  | 0 => (true, CopyMap.empty)
  | i + 1 =>
    match f.irs[i]? with
    | none => (true, CopyMap.empty)
    | some ir =>
      let m := if (mapAt f i).1 || ir.target then CopyMap.empty else (mapAt f i).2
      (isTerminator f i (propIr m ir), afterIr m (propIr m ir))

/-- The map used at an instruction. -/
def mapFor (f : Func) (i : Nat) (ir : Ir) : CopyMap :=
  if (mapAt f i).1 || ir.target then CopyMap.empty else (mapAt f i).2

theorem cpropLoop_get (f : Func) (l : List Ir) (i k : Nat) (reset : Bool) (m : CopyMap)
    (hl : ∀ k, l[k]? = f.irs[i + k]?) (hm : mapAt f i = (reset, m)) :
    (cpropLoop f i reset m l)[k]? = f.irs[i + k]?.map fun ir => propIr (mapFor f (i + k) ir) ir := by
  induction l generalizing i k reset m with
  | nil =>
    have := hl k
    rw [← this]
    simp [cpropLoop]
  | cons ir rest ih =>
    have h0 : f.irs[i]? = some ir := by have := hl 0; simpa using this.symm
    have hmf : (if reset || ir.target then CopyMap.empty else m) = mapFor f i ir := by
      unfold mapFor; rw [hm]
    rw [cpropLoop]
    rw [hmf]
    cases k with
    | zero => simp [h0]
    | succ k =>
      rw [List.getElem?_cons_succ, ih (i + 1) k]
      · have : i + 1 + k = i + (k + 1) := by omega
        rw [this]
      · intro k
        have := hl (k + 1)
        rw [List.getElem?_cons_succ] at this
        rw [this]; congr 1; omega
      · conv => lhs; rw [mapAt, h0]
        dsimp only
        rw [hm]; dsimp only; rw [hmf]

theorem cprop_get (f : Func) (i : Nat) :
    (cprop f).irs[i]? = f.irs[i]?.map fun ir => propIr (mapFor f i ir) ir := by
  have := cpropLoop_get f f.irs 0 i true CopyMap.empty (by simp) rfl
  rw [Nat.zero_add] at this
  exact this

/-! ## the theorem -/

/-- The state agrees with the map of the instruction that is next. -/
def Agrees (env : Env W) (f : Func) (s : State W) : Prop :=
  ∀ ir, f.irs[s.pc]? = some ir → MapOk env (mapFor f s.pc ir) s.regs

/-- An instruction with replaced operands does the same. -/
theorem exec_prop {env : Env W} {m : CopyMap} {ir : Ir} {s : State W} (h : MapOk env m s.regs) :
    execIr env (propIr m ir) s = execIr env ir s := by
  have e1 : eval env s.regs (propIr m ir).arg1 = eval env s.regs ir.arg1 := eval_propVal h _
  have e2 : eval env s.regs (propIr m ir).arg2 = eval env s.regs ir.arg2 := eval_propVal h _
  unfold execIr
  rw [e1, e2]
  rfl

/-- Where an instruction goes. -/
theorem effect_goto {env : Env W} {op : Op} {size cc a b old fl w e l}
    (h : effect env op size cc a b old fl w = some e) (hg : e.ctl = .goto l) :
    op = .jump ∧ l = a.toNat ∨ op = .case ∧ l = b.toNat := by
  cases op <;>
    simp only [effect, actGive, act, give, giveFlags, jumpTo, Option.map_eq_some_iff, Option.some.injEq,
      reduceCtorEq] at h
  all_goals first
    | (obtain ⟨_, _, rfl⟩ := h; simp at hg; done)
    | (subst h; simp at hg; done)
    | skip
  case jump =>
    split at h <;> try (simp at h; subst h) <;> try (split at hg <;> simp at hg)
    all_goals first
      | (exact Or.inl ⟨rfl, hg.symm⟩)
      | (cases h)
      | (simp at hg; exact Or.inl ⟨rfl, hg.symm⟩)
  case case =>
    subst h
    dsimp only at hg
    split at hg
    · simp at hg; exact Or.inr ⟨rfl, hg.symm⟩
    · cases hg
  all_goals
    obtain ⟨⟨r, w⟩, _, rfl⟩ := h
    dsimp only at hg
    split at hg <;> cases hg

theorem agrees_step {env : Env W} {f : Func} (ht : TargetsMarked f) (hm : NoAddressMoved f)
    {s s' : State W} (h : Agrees env f s) (hs : step env f s = some (.next s')) : Agrees env f s' := by
  unfold step at hs
  rw [Option.bind_eq_some_iff] at hs
  obtain ⟨ir, hir, hs⟩ := hs
  unfold execIr at hs
  rw [Option.bind_eq_some_iff] at hs
  obtain ⟨old, _, hs⟩ := hs
  rw [Option.bind_eq_some_iff] at hs
  obtain ⟨e, he, hs⟩ := hs
  unfold apply at hs
  rw [Option.map_eq_some_iff] at hs
  obtain ⟨regs', hw, hs⟩ := hs
  have hmok := mapOk_after (h ir hir) (hm ir (List.mem_of_getElem? hir)) he hw
  intro ir' hir'
  cases hctl : e.ctl with
  | stop r => rw [hctl] at hs; cases hs
  | next =>
    rw [hctl] at hs
    injection hs with hs
    subst hs
    dsimp only at hir' ⊢
    unfold mapFor
    split
    · exact mapOk_empty ..
    · rw [mapAt, hir]
      exact hmok
  | goto l =>
    rw [hctl] at hs
    injection hs with hs
    subst hs
    dsimp only at hir' ⊢
    have htar : ir'.target = true := by
      obtain ⟨h1, h2⟩ := ht s.pc ir hir
      rcases effect_goto he hctl with ⟨ho, hl⟩ | ⟨ho, hl⟩
      · obtain ⟨l', ha, hb, hc⟩ := h1 ho
        rw [ha] at hl
        simp only [eval, BitVec.toNat_ofNat] at hl
        apply hc
        rw [← hir']; congr 1; rw [hl]; omega
      · obtain ⟨l', ha, hb, hc⟩ := h2 ho
        rw [ha] at hl
        simp only [eval, BitVec.toNat_ofNat] at hl
        apply hc
        rw [← hir']; congr 1; rw [hl]; omega
    unfold mapFor
    rw [htar, Bool.or_true, if_pos rfl]
    exact mapOk_empty ..

theorem step_cprop {env : Env W} {f : Func} {s : State W} (h : Agrees env f s) :
    step env (cprop f) s = step env f s := by
  unfold step
  rw [cprop_get]
  cases hir : f.irs[s.pc]? with
  | none => rfl
  | some ir => exact exec_prop (h ir hir)

theorem run_cprop {env : Env W} {f : Func} (ht : TargetsMarked f) (hm : NoAddressMoved f) (n : Nat)
    (s : State W) (h : Agrees env f s) : run env (cprop f) n s = run env f n s := by
  induction n generalizing s with
  | zero => rfl
  | succ n ih =>
    unfold run
    rw [step_cprop h]
    split
    · exact ih _ (agrees_step ht hm h ‹_›)
    · rfl

/-- **C32.**  For every function whose jump targets are marked and that moves no register-relative
address, for every world and behaviour of memory and run-time system, all contents of the registers and
every number of steps, the function after copy propagation is in exactly the same state: same registers,
flags, position and world, same end. -/
theorem cprop_correct_partial (env : Env W) (f : Func) (ht : TargetsMarked f) (hm : NoAddressMoved f) (n : Nat)
    (s : State W) (h0 : s.pc = 0) : run env (cprop f) n s = run env f n s := by
  apply run_cprop ht hm
  intro ir _
  unfold mapFor
  rw [h0]
  exact mapOk_empty ..

/-- The pass keeps everything but operands that are plain registers. -/
theorem cprop_shape (f : Func) (i : Nat) :
    (cprop f).nregs = f.nregs ∧ ((cprop f).irs[i]?.map fun ir => (ir.op, ir.size, ir.target, ir.cc, ir.result)) =
      f.irs[i]?.map fun ir => (ir.op, ir.size, ir.target, ir.cc, ir.result) := by
  refine ⟨rfl, ?_⟩
  rw [cprop_get]
  cases f.irs[i]? <;> rfl

/-! ## tests -/

/-- An instruction without size, condition or mark. -/
def mk (op : Op) (result : Option Nat) (a b : Val := .invalid) (cc : CC := .none) (target := false) : Ir :=
  ⟨op, .unspec, target, cc, result, a, b⟩

/-- Move, change the source, use the copy, jump back. -/
def copyTest : Func :=
  { irs := [mk .mov (some 1) (.reg 0), mk .add (some 2) (.reg 1) (.reg 0), mk .add (some 0) (.reg 0) (.int 1),
      mk .mov (some 3) (.reg 1) .invalid .none true, mk .mov (some 0) (.reg 3), mk .sub (some 4) (.reg 0) (.reg 3),
      mk .jump none (.label 3)], nregs := 5 }

example : cprop copyTest =
  { irs := [mk .mov (some 1) (.reg 0), mk .add (some 2) (.reg 0) (.reg 0), mk .add (some 0) (.reg 0) (.int 1),
      mk .mov (some 3) (.reg 1) .invalid .none true, mk .mov (some 0) (.reg 1), mk .sub (some 4) (.reg 1) (.reg 1),
      mk .jump none (.label 3)], nregs := 5 } := by decide +kernel

example : TargetsMarked copyTest ∧ NoAddressMoved copyTest := by
  constructor
  · intro i ir h
    have hi : i < 7 := by
      have := (List.getElem?_eq_some_iff.1 h).1
      simpa [copyTest] using this
    match i, hi with
    | 0, _ | 1, _ | 2, _ | 3, _ | 4, _ | 5, _ => simp [copyTest] at h; subst h; simp [mk]
    | 6, _ =>
      simp [copyTest] at h; subst h
      refine ⟨fun _ => ⟨3, rfl, by decide, ?_⟩, by simp [mk]⟩
      intro t ht; simp [copyTest] at ht; subst ht; rfl
  · intro ir h hm r d
    simp [copyTest] at h
    rcases h with rfl | rfl | rfl | rfl | rfl | rfl | rfl <;> simp [mk]

/-- An address relative to a register that is moved is not dropped when the register is overwritten: here
`r2` should be the old value of `r0` plus 8, and is the new one plus 8. -/
def staleTest : Func :=
  { irs := [mk .mov (some 1) (.addrReg 0 8), mk .mov (some 0) (.int 100), mk .mov (some 2) (.reg 1)],
    nregs := 3 }

def valueOf (r : Nat) : Option (Res Unit) → Option Word
  | some (.next s) => some (s.regs r)
  | some (.halt _ s) => some (s.regs r)
  | none => none

theorem cprop_stale_counterexample :
    valueOf 2 (run noEnv staleTest 3 ⟨fun _ => 0, false, 0, ()⟩) = some 8 ∧
      valueOf 2 (run noEnv (cprop staleTest) 3 ⟨fun _ => 0, false, 0, ()⟩) = some 108 := by
  decide +kernel

/-! ## kinds of operands -/

/-- A register or a number. -/
def Val.isPlain : Val → Bool
  | .reg _ | .int _ | .dbl _ => true
  | _ => false

/-- Moves are of registers and numbers, and pointer operands are never plain registers. -/
def KindsSafe (f : Func) : Prop :=
  ∀ ir ∈ f.irs,
    (ir.op = .mov → ir.arg1.isPlain = true) ∧
    (ir.op.access.1 = .pointer → ∀ r, ir.arg1 ≠ .reg r) ∧
    (ir.op.access.2 = .pointer → ∀ r, ir.arg2 ≠ .reg r)

/-- The entries of the map have a property. -/
def MapAll (P : Val → Prop) (m : CopyMap) : Prop := ∀ j, m j = .invalid ∨ P (m j)

theorem mapAll_empty (P : Val → Prop) : MapAll P CopyMap.empty := fun _ => Or.inl rfl

theorem propVal_all {P : Val → Prop} {m : CopyMap} (h : MapAll P m) {v : Val} (hv : P v) : P (propVal m v) := by
  cases v <;> simp only [propVal] <;> try exact hv
  case reg r =>
    split
    · exact hv
    · exact (h r).resolve_left ‹_›

theorem mapAll_set {P : Val → Prop} {m : CopyMap} (h : MapAll P m) (d : Nat) {v : Val}
    (hv : v = .invalid ∨ P v) : MapAll P (m.set d v) := by
  intro j
  unfold CopyMap.set
  by_cases c : j = d
  · simp only [if_pos c]; exact hv
  · simp only [if_neg c]; exact h j

theorem mapAll_drop {P : Val → Prop} {m : CopyMap} (h : MapAll P m) (d : Nat) : MapAll P (dropCopies m d) := by
  intro j
  rcases dropCopies_sub m d j with c | c
  · exact Or.inl c
  · rw [c]; exact h j

theorem mapAll_after {P : Val → Prop} {m : CopyMap} {ir : Ir} (h : MapAll P m)
    (hm : ir.op = .mov → P ir.arg1) : MapAll P (afterIr m (propIr m ir)) := by
  unfold afterIr
  split
  · exact h
  · split
    · exact h
    · split
      · have := propVal_all h (hm ‹_›)
        have e3 : (propIr m ir).arg1 = propVal m ir.arg1 := rfl
        rw [e3]
        generalize propVal m ir.arg1 = v at *
        have hb := mapAll_set (mapAll_drop h ‹_›) ‹_› (Or.inr this)
        cases v <;> try exact hb
        exact mapAll_set hb _ (Or.inr this)
      · exact mapAll_set (mapAll_drop h _) _ (Or.inl rfl)

/-- If all values that are moved have a property, then all entries of the map have it. -/
theorem mapAll_for {P : Val → Prop} (f : Func) (hk : ∀ ir ∈ f.irs, ir.op = .mov → P ir.arg1) (i : Nat) (ir : Ir) :
    MapAll P (mapFor f i ir) := by
  have hat : ∀ i, MapAll P (mapAt f i).2 := by
    intro i
    induction i with
    | zero => exact mapAll_empty P
    | succ i ih =>
      unfold mapAt
      split
      · exact mapAll_empty P
      · rename_i ir hir
        dsimp only
        apply mapAll_after
        · split
          · exact mapAll_empty P
          · exact ih
        · exact hk ir (List.mem_of_getElem? hir)
  unfold mapFor
  split
  · exact mapAll_empty P
  · exact hat i

theorem accepts_prop {m : CopyMap} (h : MapAll (fun v => v.isPlain = true) m) (a : Access) (v : Val)
    (hp : a = .pointer → ∀ r, v ≠ .reg r) (ha : a.accepts v = true) : a.accepts (propVal m v) = true := by
  cases v <;> try exact ha
  case reg r =>
    simp only [propVal]
    split
    · exact ha
    · have := (h r).resolve_left ‹_›
      cases a
      case pointer => exact absurd rfl (hp rfl r)
      all_goals cases hm : m r <;> simp_all [Access.accepts, Val.isPlain]

/-- **C32 (operands).**  The pass gives no instruction an operand of a kind the interpreter does not handle,
if only registers and numbers are moved and pointer operands are not plain registers. -/
theorem cprop_accepted_partial (f : Func) (hk : KindsSafe f) (ha : ∀ ir ∈ f.irs, ir.accepted = true) :
    ∀ ir ∈ (cprop f).irs, ir.accepted = true := by
  intro ir hir
  obtain ⟨i, hi⟩ := List.mem_iff_getElem?.1 hir
  rw [cprop_get, Option.map_eq_some_iff] at hi
  obtain ⟨ir0, h0, rfl⟩ := hi
  have hmem := List.mem_of_getElem? h0
  have hpm := mapAll_for (P := fun v => v.isPlain = true) f (fun ir h => (hk ir h).1) i ir0
  have h1 := ha ir0 hmem
  unfold Ir.accepted at h1 ⊢
  rw [Bool.and_eq_true] at h1 ⊢
  exact ⟨accepts_prop hpm _ _ (hk ir0 hmem).2.1 h1.1, accepts_prop hpm _ _ (hk ir0 hmem).2.2 h1.2⟩

example : KindsSafe copyTest ∧ ∀ ir ∈ copyTest.irs, ir.accepted = true := by
  constructor
  · intro ir h
    simp [copyTest] at h
    rcases h with rfl | rfl | rfl | rfl | rfl | rfl | rfl <;> simp [mk, Op.access, Val.isPlain]
  · decide +kernel

/-- A number that is moved to a register and then used as a plain pointer: handled before the pass, a fatal
error after it. -/
theorem cprop_kinds_counterexample :
    let f : Func := { irs := [mk .mov (some 0) (.int 0), mk .putpriv none (.handle 1) (.reg 0)], nregs := 1 }
    (∀ ir ∈ f.irs, ir.accepted = true) ∧ ¬ ∀ ir ∈ (cprop f).irs, ir.accepted = true := by
  decide +kernel

end Verif.Code
