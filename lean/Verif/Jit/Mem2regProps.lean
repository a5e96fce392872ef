import Verif.Jit.Mem2regModel
import Verif.Jit.CpropProps
import Verif.Jit.LvnSim

/-!
# Promotion of stack variables to registers

Property C62.  A variable in the frame is a cell of its own, beside the world: what a load from it gives is
what the last store wrote, and a load before any store is a fault (the frame is not initialised,
jit-interp.c 1084-1088).  Blocks of memory that are copied or filled are never part of the cell.
-/

namespace Verif.Code

variable {W : Type}

/-! ## a variable in the frame -/

/-- The value that is left of a number in a variable of that size. -/
def narrow (signed : Bool) (size : Size) (v : Word) : Option Word :=
  size.bits.map fun n => BitVec.ofInt 64 (wrap signed n v.toInt)

/-- The environment with one more variable, at the address `A`. -/
def withCell (env : Env W) (A : Word) (sz : Size) : Env (W × Option Word) where
  cpool := env.cpool
  cover := env.cover
  recv := fun w => env.recv w.1
  send := fun w a b => (env.send w.1 a b).map (·, w.2)
  load := fun w size signed a =>
    if a = A ∧ size = sz then w.2.bind (narrow signed size) else env.load w.1 size signed a
  store := fun w size x a =>
    if a = A ∧ size = sz then size.bits.map fun _ => (w.1, some x) else (env.store w.1 size x a).map (·, w.2)
  copy := fun w a b c => (env.copy w.1 a b c).map (·, w.2)
  move := fun w a b c => (env.move w.1 a b c).map (·, w.2)
  bzero := fun w a b => (env.bzero w.1 a b).map (·, w.2)
  memset := fun w size a b c => (env.memset w.1 size a b c).map (·, w.2)
  sadd := fun w size a b => (env.sadd w.1 size a b).map (·, w.2)
  galloc := fun w a => (env.galloc w.1 a).map fun (x, w') => (x, w', w.2)
  lalloc := fun w a => (env.lalloc w.1 a).map fun (x, w') => (x, w', w.2)
  salloc := env.salloc
  call := fun w a => (env.call w.1 a).map (·, w.2)
  exit := fun w a => (env.exit w.1 a).map fun (r, w') => (r, w', w.2)
  getpriv := fun w => env.getpriv w.1
  putpriv := fun w a b => (env.putpriv w.1 a b).map (·, w.2)
  trim := fun w => (env.trim w.1).map (·, w.2)
  reexec := fun w => (env.reexec w.1).map (·, w.2)
  farith := env.farith
  fcompare := env.fcompare

theorem eval_withCell (env : Env W) (A : Word) (sz : Size) (regs : Nat → Word) (v : Val) :
    eval (withCell env A sz) regs v = eval env regs v := by cases v <;> rfl

/-- The effect on the world with the cell. -/
def Eff.beside (c : Option Word) (e : Eff W) : Eff (W × Option Word) := ⟨e.result, e.flags, (e.world, c), e.ctl⟩

/-- An instruction that does not touch the cell. -/
theorem effect_apart (env : Env W) (A : Word) (sz : Size) (op : Op) (size : Size) (cc : CC) (a b old : Word)
    (fl : Bool) (w : W × Option Word) (hl : op = .load ∨ op = .uload → a ≠ A) (hs : op = .store → b ≠ A) :
    effect (withCell env A sz) op size cc a b old fl w =
      (effect env op size cc a b old fl w.1).map (Eff.beside w.2) := by
  obtain ⟨w, c⟩ := w
  cases op
  case load => have := hl (Or.inl rfl); simp [effect, withCell, this, give, Eff.beside, Function.comp_def]
  case uload => have := hl (Or.inr rfl); simp [effect, withCell, this, give, Eff.beside, Function.comp_def]
  case store => have := hs rfl; simp [effect, withCell, this, act, Eff.beside, Function.comp_def]
  case jump => cases cc <;> simp [effect, jumpTo, Eff.beside]
  all_goals
    simp [effect, withCell, give, giveFlags, act, actGive, Eff.beside, Function.comp_def]

/-! ## one promotion -/

/-- A variable: the index of its allocation, the register for its address, the address, the size. -/
structure Cell where
  alloc : Nat
  reg : Nat
  addr : Word
  size : Size

/-- What is known about the variable.  That its address is not stored elsewhere is not checked by the code
(`mem2reg_escape_counterexample`); that nothing comes before the allocation holds for the code generated,
as `irgen_locals`, jit-irgen.c 4101-4138, is called for the start of the function. -/
structure CellOk (env : Env W) (f : Func) (c : Cell) : Prop where
  /-- the address that the allocation returns -/
  alloc : ∀ ir, f.irs[c.alloc]? = some ir → ∀ off n, ir.arg1 = .int off → ir.arg2 = .int n →
    env.salloc off n = some c.addr
  /-- the address of the allocation is a constant -/
  const : ∀ ir, f.irs[c.alloc]? = some ir → ∃ off, ir.arg1 = .int off
  /-- the address is not stored elsewhere -/
  kept : ∀ (j : Nat) ir, f.irs[j]? = some ir →
    (ir.op = .store → ir.arg2.regOf ≠ some c.reg → ir.arg1.regOf ≠ some c.reg) ∧
    (ir.op = .load → ir.arg2.regOf ≠ some c.reg)
  /-- there is no access before the allocation -/
  order : ∀ (j : Nat) ir, j < c.alloc → f.irs[j]? = some ir → ir.accessesReg c.reg = false

/-- What the code has checked. -/
structure Checked (f : Func) (c : Cell) : Prop where
  alloc : ∃ ir n, f.irs[c.alloc]? = some ir ∧ ir.op = .salloc ∧ ir.result = some c.reg ∧ ir.arg2 = .int n ∧
    allocSize n = some c.size
  allow : allAllow f c.alloc c.reg c.size = true
  first : ∀ (j : Nat) ir, j < c.alloc → f.irs[j]? = some ir → isTerminator f j ir = false

/-- The instruction that comes next treats the variable well: a number stored in it fits, and no other load
or store has its address. -/
def CellGood (env : Env W) (f : Func) (c : Cell) (regs : Nat → Word) (pc : Nat) : Prop :=
  ∀ ir, f.irs[pc]? = some ir →
    if ir.accessesReg c.reg then ir.op = .store → narrow true c.size (eval env regs ir.arg1) = some (eval env regs ir.arg1)
    else (ir.op = .load ∨ ir.op = .uload → eval env regs ir.arg1 ≠ c.addr) ∧
      (ir.op = .store → eval env regs ir.arg2 ≠ c.addr)

/-- States with the variable in memory and in a register. -/
structure CellRel (c : Cell) (s : State (W × Option Word)) (s' : State W) : Prop where
  pc : s'.pc = s.pc
  flags : s'.flags = s.flags
  world : s'.world = s.world.1
  regs : ∀ q, q ≠ c.reg → s'.regs q = s.regs q
  placed : s.regs c.reg = c.addr ∨ s.pc ≤ c.alloc
  value : ∀ v, s.world.2 = some v → s'.regs c.reg = v ∧ narrow true c.size v = some v

/-- Results of a step or a run. -/
def CellRes (c : Cell) : Res (W × Option Word) → Res W → Prop
  | .next s, .next s' => CellRel c s s'
  | .halt b s, .halt b' s' => b' = b ∧ s'.flags = s.flags ∧ s'.world = s.world.1 ∧ ∀ q, q ≠ c.reg → s'.regs q = s.regs q
  | _, _ => False

theorem eval_agree {env : Env W} {regs regs' : Nat → Word} {r : Nat} (h : ∀ q, q ≠ r → regs' q = regs q) {v : Val}
    (hv : v.regOf ≠ some r) : eval env regs' v = eval env regs v := by
  cases v <;> simp_all [eval, Val.regOf]

/-- The address of an access. -/
theorem eval_addr {env : Env W} {regs : Nat → Word} {v : Val} {r : Nat} (h : v.regOf = some r) (hd : v.disp = 0) :
    eval env regs v = regs r := by
  cases v <;> simp_all [eval, Val.regOf, Val.disp]

theorem allAllow_at {f : Func} {i reg : Nat} {sz : Size} (h : allAllow f i reg sz = true) {j : Nat} {ir : Ir}
    (hj : f.irs[j]? = some ir) : allows reg sz (j == i) ir = true := by
  unfold allAllow at h
  rw [List.all_eq_true] at h
  have hlt : j < f.irs.length := by
    rcases Nat.lt_or_ge j f.irs.length with c | c
    · exact c
    · rw [List.getElem?_eq_none c] at hj; cases hj
  have := h j (List.mem_range.mpr hlt)
  rw [hj] at this
  exact this

theorem promoted_at (f : Func) (i reg j : Nat) : (promoted f i reg).irs[j]? =
    if i = j then f.irs[j]?.map (fun ir => (promoteIr reg ir).toNop) else f.irs[j]?.map (promoteIr reg) := by
  unfold promoted
  dsimp only
  rw [List.getElem?_modify, List.getElem?_map]
  split <;> cases f.irs[j]? <;> rfl

/-- No choice comes before an allocation in the first block. -/
theorem no_case_before {f : Func} {i : Nat} {a : Ir} (ha : f.irs[i]? = some a) (hop : a.op ≠ .case)
    (hf : ∀ (j : Nat) ir, j < i → f.irs[j]? = some ir → isTerminator f j ir = false) :
    ∀ (d j : Nat) ir, j + d + 1 = i → f.irs[j]? = some ir → ir.op ≠ .case := by
  intro d
  induction d with
  | zero =>
    intro j ir hj hir hc
    have := hf j ir (by omega) hir
    unfold isTerminator at this
    rw [hc] at this
    have e : j + 1 = i := by omega
    simp [e, ha] at this
    exact hop this
  | succ d ih =>
    intro j ir hj hir hc
    have := hf j ir (by omega) hir
    unfold isTerminator at this
    rw [hc] at this
    have hlt : j + 1 < f.irs.length := by
      have : i < f.irs.length := by
        rcases Nat.lt_or_ge i f.irs.length with c | c
        · exact c
        · rw [List.getElem?_eq_none c] at ha; cases ha
      omega
    rw [List.getElem?_eq_getElem hlt] at this
    simp at this
    exact ih (j + 1) _ (by omega) (List.getElem?_eq_getElem hlt) this

theorem writeReg_agree {regs regs' : Nat → Word} {r : Nat} (h : ∀ q, q ≠ r → regs' q = regs q) {res : Option Nat}
    {x : Option Word} {regs1 : Nat → Word} (hw : writeReg regs res x = some regs1) (hr : res ≠ some r) :
    ∃ regs1', writeReg regs' res x = some regs1' ∧ (∀ q, q ≠ r → regs1' q = regs1 q) ∧ regs1 r = regs r ∧
      regs1' r = regs' r := by
  unfold writeReg at hw ⊢
  cases x with
  | none =>
    injection hw with hw
    subst hw
    exact ⟨regs', rfl, h, rfl, rfl⟩
  | some x =>
    cases res with
    | none => cases hw
    | some d =>
      injection hw with hw
      have hd : r ≠ d := by intro c; subst c; exact hr rfl
      subst hw
      refine ⟨_, rfl, ?_, ?_, ?_⟩
      · intro q hq
        unfold setReg
        split
        · rfl
        · exact h q hq
      · unfold setReg; rw [if_neg hd]
      · unfold setReg; rw [if_neg hd]

theorem exec_load {env : Env W} {ir : Ir} {s : State W} (h : ir.op = .load) : execIr env ir s =
    (env.load s.world ir.size true (eval env s.regs ir.arg1)).bind fun x =>
      (writeReg s.regs ir.result (some x)).map fun regs => .next { s with regs := regs, pc := s.pc + 1 } := by
  unfold execIr oldValue
  rw [h]
  simp only [Op.readsResult, effect, give]
  cases env.load s.world ir.size true (eval env s.regs ir.arg1) <;> rfl

theorem exec_mov {env : Env W} {ir : Ir} {s : State W} (h : ir.op = .mov) : execIr env ir s =
    (writeReg s.regs ir.result (some (eval env s.regs ir.arg1))).map fun regs =>
      .next { s with regs := regs, pc := s.pc + 1 } := by
  unfold execIr oldValue
  rw [h]
  rfl

theorem exec_stored {env : Env W} {ir : Ir} {s : State W} (h : ir.op = .store) : execIr env ir s =
    (env.store s.world ir.size (eval env s.regs ir.arg1) (eval env s.regs ir.arg2)).map fun w =>
      .next { s with world := w, pc := s.pc + 1 } := by
  unfold execIr oldValue
  rw [h]
  simp only [Op.readsResult, effect, act]
  cases env.store s.world ir.size (eval env s.regs ir.arg1) (eval env s.regs ir.arg2) <;> rfl

theorem exec_salloc {env : Env W} {ir : Ir} {s : State W} (h : ir.op = .salloc) : execIr env ir s =
    (env.salloc (eval env s.regs ir.arg1) (eval env s.regs ir.arg2)).bind fun x =>
      (writeReg s.regs ir.result (some x)).map fun regs => .next { s with regs := regs, pc := s.pc + 1 } := by
  unfold execIr oldValue
  rw [h]
  simp only [Op.readsResult, effect, give]
  cases env.salloc (eval env s.regs ir.arg1) (eval env s.regs ir.arg2) <;> rfl

theorem promote_step {env : Env W} {f : Func} {c : Cell} (K : CellOk env f c) (C : Checked f c)
    {s : State (W × Option Word)} {s' : State W} (R : CellRel c s s') (G : CellGood env f c s.regs s.pc)
    {r : Res (W × Option Word)} (h : step (withCell env c.addr c.size) f s = some r) :
    ∃ r', step env (promoted f c.alloc c.reg) s' = some r' ∧ CellRes c r r' := by
  unfold step at h ⊢
  rw [Option.bind_eq_some_iff] at h
  obtain ⟨ir, hir, h⟩ := h
  rw [R.pc, promoted_at, hir]
  have hA := allAllow_at C.allow hir
  by_cases hi : c.alloc = s.pc
  · -- the allocation
    rw [if_pos hi, Option.map_some, Option.bind_some]
    obtain ⟨a, n, ha, hop, hres, hn, _⟩ := C.alloc
    rw [hi, hir] at ha
    injection ha with ha
    subst ha
    obtain ⟨off, hoff⟩ := K.const ir (by rw [hi]; exact hir)
    have hs := K.alloc ir (by rw [hi]; exact hir) off n hoff hn
    rw [exec_salloc hop, hoff, hn] at h
    simp only [eval] at h
    change (env.salloc off n).bind _ = _ at h
    rw [hs, Option.bind_some, hres] at h
    simp only [writeReg, Option.map_some] at h
    injection h with h
    subst h
    refine ⟨_, exec_nop env (promoteIr c.reg ir) s', ?_, ?_, ?_, ?_, ?_, ?_⟩
    · show s'.pc + 1 = s.pc + 1
      rw [R.pc]
    · exact R.flags
    · exact R.world
    · intro q hq
      show s'.regs q = setReg s.regs c.reg c.addr q
      unfold setReg
      rw [if_neg hq]
      exact R.regs q hq
    · left
      show setReg s.regs c.reg c.addr c.reg = _
      unfold setReg
      rw [if_pos rfl]
    · exact R.value
  · rw [if_neg hi, Option.map_some, Option.bind_some]
    have hb : (s.pc == c.alloc) = false := by simp; omega
    rw [hb] at hA
    have G := G ir hir
    unfold allows at hA
    split at hA
    · cases hA
    rename_i hres
    have hres : ir.result ≠ some c.reg := fun e => hres ⟨e, rfl⟩
    by_cases hacc : ir.accessesReg c.reg = true
    · -- an access
      have hacc' := hacc
      unfold Ir.accessesReg at hacc'
      rw [Bool.and_eq_true] at hacc'
      obtain ⟨h1, h2⟩ := hacc'
      rw [if_pos h1] at hA
      have h2 : ir.addr.regOf = some c.reg := by simpa using h2
      rw [if_neg (by rw [h2]; simp)] at hA
      split at hA
      · cases hA
      rename_i hds
      rw [not_or] at hds
      have hd : ir.addr.disp = 0 := by
        have := hds.1; simpa using this
      have hsz : ir.size = c.size := by
        have := hds.2; simpa using this
      have hplaced : s.regs c.reg = c.addr := by
        rcases R.placed with p | p
        · exact p
        · have := K.order s.pc ir (by omega) hir
          rw [hacc] at this; cases this
      rw [if_pos hacc] at G
      unfold Op.accesses at h1
      rw [Bool.or_eq_true] at h1
      rcases h1 with h1 | h1
      · have h1 : ir.op = .load := by simpa using h1
        have ea : ir.addr = ir.arg1 := by unfold Ir.addr; rw [if_pos h1]
        rw [ea] at h2 hd
        rw [exec_load h1] at h
        have e : eval (withCell env c.addr c.size) s.regs ir.arg1 = c.addr := by
          rw [eval_addr h2 hd, hplaced]
        rw [e] at h
        change (if c.addr = c.addr ∧ ir.size = c.size then s.world.2.bind (narrow true ir.size)
          else env.load s.world.1 ir.size true c.addr).bind _ = _ at h
        rw [if_pos ⟨rfl, hsz⟩, Option.bind_eq_some_iff] at h
        obtain ⟨x, hx, h⟩ := h
        rw [Option.bind_eq_some_iff] at hx
        obtain ⟨v, hv, hx⟩ := hx
        obtain ⟨v1, v2⟩ := R.value v hv
        rw [hsz, v2] at hx
        injection hx with hx
        subst hx
        rw [Option.map_eq_some_iff] at h
        obtain ⟨regs1, hw, h⟩ := h
        obtain ⟨regs1', hw', e1, e2, e3⟩ := writeReg_agree R.regs hw hres
        have ep : promoteIr c.reg ir =
            { ir with op := .mov, size := .unspec, cc := .none, arg1 := .reg c.reg } := by
          unfold promoteIr
          rw [if_neg (by rw [h1]; simp), if_pos ⟨h1, h2⟩]
        rw [ep, exec_mov rfl]
        simp only [eval]
        rw [v1, hw']
        refine ⟨_, rfl, ?_⟩
        subst h
        refine ⟨?_, R.flags, R.world, e1, ?_, ?_⟩
        · show s'.pc + 1 = s.pc + 1
          rw [R.pc]
        · left; show regs1 c.reg = _; rw [e2, hplaced]
        · intro u hu
          show regs1' c.reg = u ∧ _
          rw [e3]
          exact R.value u hu
      · have h1 : ir.op = .store := by simpa using h1
        have ea : ir.addr = ir.arg2 := by unfold Ir.addr; rw [if_neg (by rw [h1]; simp)]
        rw [ea] at h2 hd
        rw [exec_stored h1] at h
        have e : eval (withCell env c.addr c.size) s.regs ir.arg2 = c.addr := by
          rw [eval_addr h2 hd, hplaced]
        rw [e, eval_withCell] at h
        change (if c.addr = c.addr ∧ ir.size = c.size then ir.size.bits.map fun _ => (s.world.1, some (eval env s.regs ir.arg1))
          else (env.store s.world.1 ir.size (eval env s.regs ir.arg1) c.addr).map (·, s.world.2)).map _ = _ at h
        rw [if_pos ⟨rfl, hsz⟩, Option.map_eq_some_iff] at h
        obtain ⟨w, hw, h⟩ := h
        rw [Option.map_eq_some_iff] at hw
        obtain ⟨n, hn, hw⟩ := hw
        have ep : promoteIr c.reg ir =
            { ir with op := .mov, size := .unspec, cc := .none, result := some c.reg, arg2 := .invalid } := by
          unfold promoteIr
          rw [if_pos ⟨h1, h2⟩]
        rw [ep, exec_mov rfl]
        dsimp only
        have hk : ir.arg1.regOf ≠ some c.reg := by
          split at hA
          · cases hA
          · next hk => exact fun e => hk ⟨h1, e⟩
        rw [eval_agree R.regs hk]
        refine ⟨_, rfl, ?_⟩
        subst h
        subst hw
        refine ⟨?_, R.flags, R.world, ?_, ?_, ?_⟩
        · show s'.pc + 1 = s.pc + 1
          rw [R.pc]
        · intro q hq
          show setReg s'.regs c.reg _ q = _
          unfold setReg
          rw [if_neg hq]
          exact R.regs q hq
        · exact Or.inl hplaced
        · intro u hu
          have hu : eval env s.regs ir.arg1 = u := by injection hu
          show setReg s'.regs c.reg _ c.reg = u ∧ _
          unfold setReg
          rw [if_pos rfl, hu]
          refine ⟨rfl, ?_⟩
          have := G h1
          rw [hu] at this
          exact this
    · -- anything else
      rw [if_neg hacc] at G
      have hkept : ir.arg1.regOf ≠ some c.reg ∧ ir.arg2.regOf ≠ some c.reg := by
        by_cases hop : ir.op.accesses = true
        · have hna : ir.addr.regOf ≠ some c.reg := by
            intro e
            apply hacc
            unfold Ir.accessesReg
            rw [hop, e]
            simp
          obtain ⟨k1, k2⟩ := K.kept s.pc ir hir
          unfold Op.accesses at hop
          rw [Bool.or_eq_true] at hop
          rcases hop with hop | hop
          · have hop : ir.op = .load := by simpa using hop
            unfold Ir.addr at hna
            rw [if_pos hop] at hna
            exact ⟨hna, k2 hop⟩
          · have hop : ir.op = .store := by simpa using hop
            unfold Ir.addr at hna
            rw [if_neg (by rw [hop]; simp)] at hna
            exact ⟨k1 hop hna, hna⟩
        · rw [if_neg hop] at hA
          split at hA
          · cases hA
          split at hA
          · cases hA
          · exact ⟨‹_›, ‹_›⟩
      have ep : promoteIr c.reg ir = ir := by
        unfold promoteIr
        rw [if_neg (fun e => hkept.2 e.2), if_neg (fun e => hkept.1 e.2)]
      rw [ep]
      obtain ⟨old, e, regs1, ho, he, hw, hr⟩ := execIr_inv h
      rw [eval_withCell, eval_withCell, effect_apart _ _ _ _ _ _ _ _ _ _ _ G.1 G.2, Option.map_eq_some_iff] at he
      obtain ⟨e0, he0, he⟩ := he
      subst he
      obtain ⟨regs1', hw', e1, e2, e3⟩ := writeReg_agree R.regs hw hres
      have ho' : oldValue s'.regs ir = some old := by
        rw [← ho]
        unfold oldValue
        split
        · cases hd : ir.result with
          | none => rfl
          | some d =>
            rw [Option.map_some, Option.map_some, R.regs d (fun c' => hres (by rw [hd, c']))]
        · rfl
      have hx : execIr env ir s' = some (match e0.ctl with
          | .next => .next { regs := regs1', flags := e0.flags.getD s'.flags, pc := s'.pc + 1, world := e0.world }
          | .goto l => .next { regs := regs1', flags := e0.flags.getD s'.flags, pc := l, world := e0.world }
          | .stop b => .halt b { regs := regs1', flags := e0.flags.getD s'.flags, pc := s'.pc, world := e0.world }) := by
        unfold execIr
        rw [ho', Option.bind_some, eval_agree R.regs hkept.1, eval_agree R.regs hkept.2, R.flags, R.world, he0,
          Option.bind_some]
        unfold apply
        have hw' : writeReg s'.regs ir.result e0.result = some regs1' := hw'
        rw [hw', Option.map_some]
        cases e0.ctl <;> simp [R.flags]
      have hval : ∀ v, s.world.2 = some v → regs1' c.reg = v ∧ narrow true c.size v = some v := by
        intro v hv
        rw [e3]
        exact R.value v hv
      refine ⟨_, hx, ?_⟩
      rw [hr]
      show CellRes c (match e0.ctl with | .next => _ | .goto l => _ | .stop b => _) _
      have hfl : e0.flags.getD s'.flags = e0.flags.getD s.flags := by rw [R.flags]
      cases hctl : e0.ctl with
      | next =>
        refine ⟨?_, hfl, rfl, e1, ?_, hval⟩
        · show s'.pc + 1 = s.pc + 1
          rw [R.pc]
        · rcases R.placed with p | p
          · left; show regs1 c.reg = _; rw [e2, p]
          · right; show s.pc + 1 ≤ _; omega
      | goto l =>
        refine ⟨rfl, hfl, rfl, e1, ?_, hval⟩
        rcases R.placed with p | p
        · left; show regs1 c.reg = _; rw [e2, p]
        · exfalso
          have hlt : s.pc < c.alloc := by omega
          have hterm := C.first s.pc ir hlt hir
          rcases effect_goto he0 hctl with ⟨g, _⟩ | ⟨g, _⟩
          · unfold isTerminator at hterm
            rw [g] at hterm
            cases hterm
          · obtain ⟨a, n, ha, hop, _⟩ := C.alloc
            exact no_case_before ha (by rw [hop]; simp) C.first (c.alloc - s.pc - 1) s.pc ir (by omega) hir g
      | stop b => exact ⟨rfl, hfl, rfl, e1⟩

/-! ## runs -/

theorem run_succ {env : Env W} {f : Func} {n : Nat} {s s1 : State W} (h : step env f s = some (.next s1)) :
    run env f (n + 1) s = run env f n s1 := by
  show (match step env f s with | some (.next s') => run env f n s' | r => r) = _
  rw [h]

theorem run_fault {env : Env W} {f : Func} {n : Nat} {s : State W} (h : step env f s = none) :
    run env f (n + 1) s = none := by
  show (match step env f s with | some (.next s') => run env f n s' | r => r) = _
  rw [h]

theorem run_stop {env : Env W} {f : Func} {n : Nat} {s s1 : State W} {b : Bool}
    (h : step env f s = some (.halt b s1)) : run env f (n + 1) s = some (.halt b s1) := by
  show (match step env f s with | some (.next s') => run env f n s' | r => r) = _
  rw [h]

theorem run_prefix {env : Env W} {f : Func} : ∀ (n k : Nat) (s : State W) (r : Res W), k ≤ n →
    run env f n s = some r → ∃ r', run env f k s = some r'
  | _, 0, s, _, _, _ => ⟨.next s, rfl⟩
  | n + 1, k + 1, s, r, hk, h => by
    cases hs : step env f s with
    | none =>
      rw [run_fault hs] at h; cases h
    | some x =>
      cases x with
      | next s1 =>
        rw [run_succ hs] at h ⊢
        exact run_prefix n k s1 r (by omega) h
      | halt b s1 =>
        exact ⟨.halt b s1, run_stop hs⟩

/-- A run after one promotion. -/
theorem promote_run {env : Env W} {f : Func} {c : Cell} (K : CellOk env f c) (C : Checked f c) : ∀ (n : Nat)
    (s : State (W × Option Word)) (s' : State W) (r : Res (W × Option Word)), CellRel c s s' →
    (∀ k t, k < n → run (withCell env c.addr c.size) f k s = some (.next t) → CellGood env f c t.regs t.pc) →
    run (withCell env c.addr c.size) f n s = some r →
    ∃ r', run env (promoted f c.alloc c.reg) n s' = some r' ∧ CellRes c r r'
  | 0, s, s', r, R, _, h => by
    injection h with h
    subst h
    exact ⟨_, rfl, R⟩
  | n + 1, s, s', r, R, G, h => by
    have g0 := G 0 s (by omega) rfl
    cases hs : step (withCell env c.addr c.size) f s with
    | none =>
      rw [run_fault hs] at h; cases h
    | some x =>
      obtain ⟨x', hx', hr⟩ := promote_step K C R g0 hs
      cases x with
      | next s1 =>
        cases x' with
        | halt b s1' => exact hr.elim
        | next s1' =>
          rw [run_succ hs] at h
          rw [run_succ hx']
          refine promote_run K C n s1 s1' r hr (fun k t hk ht => G (k + 1) t (by omega) ?_) h
          rw [run_succ hs]; exact ht
      | halt b s1 =>
        cases x' with
        | next s1' => exact hr.elim
        | halt b' s1' =>
          rw [run_stop hs] at h
          injection h with h
          subst h
          exact ⟨.halt b' s1', run_stop hx', hr⟩

/-! ## several variables -/

/-- The world and the variables. -/
def Cells (W : Type) : List Cell → Type
  | [] => W
  | _ :: cs => Cells W cs × Option Word

/-- The environment with all the variables. -/
def cellsEnv (env : Env W) : (cs : List Cell) → Env (Cells W cs)
  | [] => env
  | c :: cs => withCell (cellsEnv env cs) c.addr c.size

/-- The world without the variables. -/
def Cells.base : (cs : List Cell) → Cells W cs → W
  | [], w => w
  | _ :: cs, w => Cells.base cs w.1

/-- No variable has a value. -/
def Cells.init (w : W) : (cs : List Cell) → Cells W cs
  | [] => w
  | _ :: cs => (Cells.init w cs, none)

theorem eval_cells (env : Env W) (regs : Nat → Word) (v : Val) : ∀ cs : List Cell,
    eval (cellsEnv env cs) regs v = eval env regs v
  | [] => rfl
  | c :: cs => by
    show eval (withCell (cellsEnv env cs) c.addr c.size) regs v = _
    rw [eval_withCell, eval_cells env regs v cs]

theorem cells_salloc (env : Env W) : ∀ cs : List Cell, (cellsEnv env cs).salloc = env.salloc
  | [] => rfl
  | _ :: cs => cells_salloc env cs

theorem CellOk.cells {env : Env W} {f : Func} {c : Cell} (K : CellOk env f c) (cs : List Cell) :
    CellOk (cellsEnv env cs) f c :=
  ⟨by rw [cells_salloc]; exact K.alloc, K.const, K.kept, K.order⟩

theorem CellGood.cells {env : Env W} {f : Func} {c : Cell} {regs pc} (G : CellGood env f c regs pc) (cs : List Cell) :
    CellGood (cellsEnv env cs) f c regs pc := by
  intro ir hir
  rw [eval_cells, eval_cells]
  exact G ir hir

/-- The promotions one after the other. -/
inductive Promotes : Func → List Cell → Func → Prop where
  | nil {f : Func} : Promotes f [] f
  | cons {f g : Func} {c : Cell} {cs : List Cell} : Checked f c → Promotes (promoted f c.alloc c.reg) cs g →
    Promotes f (c :: cs) g

/-- An instruction that is still a load or store, or another of the original. -/
theorem promoted_same {f : Func} {i reg j : Nat} {ir' : Ir} (h : (promoted f i reg).irs[j]? = some ir')
    (hn : ir'.op ≠ .nop) (hm : ir'.op ≠ .mov) : f.irs[j]? = some ir' ∧ j ≠ i := by
  rw [promoted_at] at h
  split at h
  · rw [Option.map_eq_some_iff] at h
    obtain ⟨ir, _, rfl⟩ := h
    exact absurd rfl hn
  · rename_i hij
    rw [Option.map_eq_some_iff] at h
    obtain ⟨ir, hir, h⟩ := h
    unfold promoteIr at h
    split at h
    · subst h; exact absurd rfl hm
    · split at h
      · subst h; exact absurd rfl hm
      · subst h; exact ⟨hir, fun e => hij e.symm⟩

/-- The allocations are still there. -/
theorem Promotes.alloc {f g : Func} {cs : List Cell} (P : Promotes f cs g) :
    ∀ c ∈ cs, ∃ ir, f.irs[c.alloc]? = some ir ∧ ir.op = .salloc := by
  induction P with
  | nil => intro c hc; cases hc
  | @cons f g c cs C P ih =>
    intro c' hc'
    cases hc' with
    | head =>
      obtain ⟨ir, n, h1, h2, _⟩ := C.alloc
      exact ⟨ir, h1, h2⟩
    | tail _ hc' =>
      obtain ⟨ir, h1, h2⟩ := ih c' hc'
      exact ⟨ir, (promoted_same h1 (by rw [h2]; simp) (by rw [h2]; simp)).1, h2⟩

theorem Checked.reg_ne {f : Func} {c c' : Cell} (C : Checked f c) (C' : Checked (promoted f c.alloc c.reg) c') :
    c'.reg ≠ c.reg := by
  obtain ⟨ir, n, hir, hop, hres, _⟩ := C'.alloc
  obtain ⟨h1, h2⟩ := promoted_same hir (by rw [hop]; simp) (by rw [hop]; simp)
  have := allAllow_at C.allow h1
  have hb : (c'.alloc == c.alloc) = false := by simp; exact h2
  rw [hb] at this
  unfold allows at this
  intro e
  rw [if_pos ⟨by rw [hres, e], rfl⟩] at this
  cases this

theorem accesses_op {ir : Ir} {r : Nat} (h : ir.accessesReg r = true) : ir.op = .load ∨ ir.op = .store := by
  unfold Ir.accessesReg Op.accesses at h
  rw [Bool.and_eq_true, Bool.or_eq_true] at h
  simpa using h.1

theorem CellOk.promoted {env : Env W} {f : Func} {c c' : Cell} (K : CellOk env f c')
    (hs : ∃ ir, (promoted f c.alloc c.reg).irs[c'.alloc]? = some ir ∧ ir.op = .salloc) :
    CellOk env (promoted f c.alloc c.reg) c' := by
  have key : ∀ ir, (Code.promoted f c.alloc c.reg).irs[c'.alloc]? = some ir → f.irs[c'.alloc]? = some ir := by
    intro ir hir
    obtain ⟨ir', h1, h2⟩ := hs
    rw [h1] at hir
    injection hir with hir
    subst hir
    exact (promoted_same h1 (by rw [h2]; simp) (by rw [h2]; simp)).1
  refine ⟨fun ir hir => K.alloc ir (key ir hir), fun ir hir => K.const ir (key ir hir), ?_, ?_⟩
  · intro j ir hir
    refine ⟨fun hop => ?_, fun hop => ?_⟩
    · exact (K.kept j ir (promoted_same hir (by rw [hop]; simp) (by rw [hop]; simp)).1).1 hop
    · exact (K.kept j ir (promoted_same hir (by rw [hop]; simp) (by rw [hop]; simp)).1).2 hop
  · intro j ir hj hir
    cases hacc : ir.accessesReg c'.reg with
    | false => rfl
    | true =>
      have : f.irs[j]? = some ir := by
        rcases accesses_op hacc with e | e
        · exact (promoted_same hir (by rw [e]; simp) (by rw [e]; simp)).1
        · exact (promoted_same hir (by rw [e]; simp) (by rw [e]; simp)).1
      rw [K.order j ir hj this] at hacc
      cases hacc

/-- An instruction that is left does not read the register. -/
theorem promoted_args {env : Env W} {f : Func} {c : Cell} (K : CellOk env f c) (C : Checked f c) {j : Nat} {ir : Ir}
    (h : (promoted f c.alloc c.reg).irs[j]? = some ir) (hn : ir.op ≠ .nop) (hm : ir.op ≠ .mov) :
    ir.arg1.regOf ≠ some c.reg ∧ ir.arg2.regOf ≠ some c.reg := by
  obtain ⟨h1, h2⟩ := promoted_same h hn hm
  have hA := allAllow_at C.allow h1
  have hb : (j == c.alloc) = false := by simp; exact h2
  rw [hb] at hA
  have hp : promoteIr c.reg ir = ir := by
    rw [promoted_at, if_neg (fun e => h2 e.symm), h1, Option.map_some] at h
    injection h
  obtain ⟨k1, k2⟩ := K.kept j ir h1
  unfold allows at hA
  split at hA
  · cases hA
  by_cases hop : ir.op.accesses = true
  · unfold Op.accesses at hop
    rw [Bool.or_eq_true] at hop
    rcases hop with hop | hop
    · have hop : ir.op = .load := by simpa using hop
      refine ⟨fun e => ?_, k2 hop⟩
      unfold promoteIr at hp
      rw [if_neg (by rw [hop]; simp), if_pos ⟨hop, e⟩] at hp
      exact hm (by rw [← hp])
    · have hop : ir.op = .store := by simpa using hop
      have hna : ir.arg2.regOf ≠ some c.reg := by
        intro e
        unfold promoteIr at hp
        rw [if_pos ⟨hop, e⟩] at hp
        exact hm (by rw [← hp])
      exact ⟨k1 hop hna, hna⟩
  · rw [if_neg hop] at hA
    split at hA
    · cases hA
    split at hA
    · cases hA
    · exact ⟨‹_›, ‹_›⟩

theorem CellGood.promoted {env : Env W} {f : Func} {c c' : Cell} (K : CellOk env f c) (C : Checked f c)
    {regs regs' : Nat → Word} (hr : ∀ q, q ≠ c.reg → regs' q = regs q) {pc : Nat} (G : CellGood env f c' regs pc) :
    CellGood env (promoted f c.alloc c.reg) c' regs' pc := by
  intro ir hir
  by_cases hn : ir.op = .nop ∨ ir.op = .mov
  · have : ir.accessesReg c'.reg = false := by
      cases h : ir.accessesReg c'.reg with
      | false => rfl
      | true =>
        rcases accesses_op h with e | e <;> rw [e] at hn <;> simp at hn
    rw [if_neg (by rw [this]; simp)]
    rcases hn with e | e <;> rw [e] <;> simp
  · rw [not_or] at hn
    obtain ⟨a1, a2⟩ := promoted_args K C hir hn.1 hn.2
    rw [eval_agree hr a1, eval_agree hr a2]
    exact G ir (promoted_same hir hn.1 hn.2).1

/-- The same outcome, up to the registers of the variables. -/
def SameButCells (cs : List Cell) : Res (Cells W cs) → Res W → Prop
  | .next s, .next s' => s'.pc = s.pc ∧ s'.flags = s.flags ∧ s'.world = s.world.base cs ∧
    ∀ q, (∀ c ∈ cs, q ≠ c.reg) → s'.regs q = s.regs q
  | .halt b s, .halt b' s' => b' = b ∧ s'.flags = s.flags ∧ s'.world = s.world.base cs ∧
    ∀ q, (∀ c ∈ cs, q ≠ c.reg) → s'.regs q = s.regs q
  | _, _ => False

theorem promotes_run {env : Env W} {f g : Func} {cs : List Cell} (P : Promotes f cs g) :
    (∀ c ∈ cs, CellOk env f c) → ∀ (n : Nat) (regs : Nat → Word) (fl : Bool) (w : W) (r : Res (Cells W cs)),
    (∀ c ∈ cs, ∀ k t, k < n → run (cellsEnv env cs) f k ⟨regs, fl, 0, Cells.init w cs⟩ = some (.next t) →
      CellGood env f c t.regs t.pc) →
    run (cellsEnv env cs) f n ⟨regs, fl, 0, Cells.init w cs⟩ = some r →
    ∃ r', run env g n ⟨regs, fl, 0, w⟩ = some r' ∧ SameButCells cs r r' := by
  induction P with
  | nil =>
    intro _ n regs fl w r _ h
    refine ⟨r, h, ?_⟩
    cases r with
    | next s => exact ⟨rfl, rfl, rfl, fun _ _ => rfl⟩
    | halt b s => exact ⟨rfl, rfl, rfl, fun _ _ => rfl⟩
  | @cons f g c cs C P ih =>
    intro K n regs fl w r G h
    have Kc := (K c (List.mem_cons_self ..)).cells cs
    have R0 : CellRel c (⟨regs, fl, 0, Cells.init w (c :: cs)⟩ : State (Cells W (c :: cs)))
        (⟨regs, fl, 0, Cells.init w cs⟩ : State (Cells W cs)) :=
      ⟨rfl, rfl, rfl, fun _ _ => rfl, Or.inr (Nat.zero_le _), fun v hv => nomatch hv⟩
    have Gc := fun k t hk ht => (G c (List.mem_cons_self ..) k t hk ht).cells cs
    obtain ⟨r1, hr1, h1⟩ := promote_run Kc C n _ _ r R0 Gc h
    have K' : ∀ c' ∈ cs, CellOk env (promoted f c.alloc c.reg) c' := by
      intro c' hc'
      refine (K c' (List.mem_cons_of_mem _ hc')).promoted ?_
      exact P.alloc c' hc'
    have G' : ∀ c' ∈ cs, ∀ k t, k < n →
        run (cellsEnv env cs) (promoted f c.alloc c.reg) k ⟨regs, fl, 0, Cells.init w cs⟩ = some (.next t) →
        CellGood env (promoted f c.alloc c.reg) c' t.regs t.pc := by
      intro c' hc' k t1 hk ht1
      obtain ⟨rk, hrk⟩ := run_prefix n k _ r (by omega) h
      obtain ⟨rk', hrk', hres⟩ := promote_run Kc C k _ _ rk R0 (fun j t hj ht => Gc j t (by omega) ht) hrk
      rw [ht1] at hrk'
      injection hrk' with hrk'
      subst hrk'
      cases rk with
      | halt b t => exact hres.elim
      | next t =>
        have := G c' (List.mem_cons_of_mem _ hc') k t hk hrk
        rw [hres.pc]
        exact this.promoted (K c (List.mem_cons_self ..)) C hres.regs
    obtain ⟨r2, hr2, h2⟩ := ih K' n regs fl w r1 G' hr1
    refine ⟨r2, hr2, ?_⟩
    cases r with
    | next s =>
      cases r1 with
      | halt b s1 => exact h1.elim
      | next s1 =>
        cases r2 with
        | halt b s2 => exact h2.elim
        | next s2 =>
          obtain ⟨a1, a2, a3, a4⟩ := h2
          refine ⟨by rw [a1, h1.pc], by rw [a2, h1.flags], ?_, ?_⟩
          · rw [a3, h1.world]; rfl
          · intro q hq
            rw [a4 q fun c' hc' => hq c' (List.mem_cons_of_mem _ hc'), h1.regs q (hq c (List.mem_cons_self ..))]
    | halt b s =>
      cases r1 with
      | next s1 => exact h1.elim
      | halt b1 s1 =>
        cases r2 with
        | next s2 => exact h2.elim
        | halt b2 s2 =>
          obtain ⟨a1, a2, a3, a4⟩ := h2
          obtain ⟨b1', b2', b3, b4⟩ := h1
          refine ⟨by rw [a1, b1'], by rw [a2, b2'], ?_, ?_⟩
          · rw [a3, b3]; rfl
          · intro q hq
            rw [a4 q fun c' hc' => hq c' (List.mem_cons_of_mem _ hc'), b4 q (hq c (List.mem_cons_self ..))]

end Verif.Code
