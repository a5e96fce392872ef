import Verif.Jit.LvnOps
import Verif.Jit.MemEnv

/-!
# What local value numbering does to an instruction

Property C51: the instruction after the pass does the same as before it.
-/

namespace Verif.Code

variable {W : Type}

/-! ## assumptions about memory and arguments -/

/-- Same arguments. -/
def SameArgs (env : Env W) (w w' : W) : Prop :=
  ∀ n, n < trackArgs → env.recv w' (BitVec.ofNat 64 n) = env.recv w (BitVec.ofNat 64 n)

/-- What the pass relies on.  Where an operation is undefined nothing is assumed. -/
structure LvnLaws (env : Env W) (pool : Word → Size → Word) (psize : Nat) : Prop where
  store : ∀ w size v p w', env.store w size v p = some w' → SameArgs env w w'
  copy : ∀ w n d s w', env.copy w n d s = some w' → SameArgs env w w'
  move : ∀ w n d s w', env.move w n d s = some w' → SameArgs env w w'
  bzero : ∀ w n d w', env.bzero w n d = some w' → SameArgs env w w'
  memset : ∀ w size n d v w', env.memset w size n d v = some w' → SameArgs env w w'
  sadd : ∀ w size d v w', env.sadd w size d v = some w' → SameArgs env w w'
  galloc : ∀ w n p w', env.galloc w n = some (p, w') → SameArgs env w w'
  lalloc : ∀ w n p w', env.lalloc w n = some (p, w') → SameArgs env w w'
  putpriv : ∀ w h p w', env.putpriv w h p = some w' → SameArgs env w w'
  trim : ∀ w w', env.trim w = some w' → SameArgs env w w'
  reexec : ∀ w w', env.reexec w = some w' → SameArgs env w w'
  /-- sending an argument does not change the others -/
  sendOther : ∀ w a v w' n, env.send w a v = some w' → n < trackArgs → BitVec.ofNat 64 n ≠ a →
    env.recv w' (BitVec.ofNat 64 n) = env.recv w (BitVec.ofNat 64 n)
  /-- sending an argument that has this value already changes nothing -/
  sendSame : ∀ w a v w', env.send w a v = some w' → env.recv w a = some v → w' = w
  /-- no bytes -/
  copy0 : ∀ w d s w', env.copy w 0 d s = some w' → w' = w
  move0 : ∀ w d s w', env.move w 0 d s = some w' → w' = w
  bzero0 : ∀ w d w', env.bzero w 0 d = some w' → w' = w
  memset0 : ∀ w size d v w', env.memset w size 0 d v = some w' → w' = w
  /-- nothing that is written overlaps the constant pool, of `psize` bytes -/
  movePool : ∀ w n d off w', off.toNat < psize → env.move w n d (env.cpool + off) = some w' → env.copy w n d (env.cpool + off) = some w'
  /-- the contents of the constant pool -/
  copyPool : ∀ w n d off w' size, off.toNat < psize → storeSize n = some size → env.copy w n d (env.cpool + off) = some w' →
    env.store w size (pool off size) d = some w'
  bzeroStore : ∀ w n d w' size, storeSize n = some size → env.bzero w n d = some w' → env.store w size 0 d = some w'
  memsetZero : ∀ w size n d w', env.memset w size n d 0 = some w' → env.bzero w n d = some w'
  /-- the same byte again and again -/
  memsetByte : ∀ w size n d v m w', compress size = some m → v = (v &&& 0xff) * m →
    env.memset w size n d v = some w' → env.memset w .s8 n d (v &&& 0xff) = some w'
  memsetStore : ∀ w size n d v m b w' size', storeSize n = some size' → expand size = some m → size.bits = some b →
    v.toNat < 2 ^ b → env.memset w size n d v = some w' → env.store w size' ((v * m) &&& sizeMask size') d = some w'

/-! ## after an instruction -/

/-- Which arguments have been overwritten, before and after the instruction. -/
structure SentOk (ir : Ir) (sent sent' : Nat → Prop) : Prop where
  pass : ir.op ≠ .call → ir.op ≠ .exit → ∀ n, sent n → sent' n
  new : ir.op = .send → ∀ n, argSlot ir.arg1 = some n → sent' n
  fresh : ir.op = .send ∨ ir.op = .recv → ∀ n, argSlot ir.arg1 = some n → ¬ sent n

/-- What an instruction leaves alone. -/
structure After (env : Env W) (ir : Ir) (s s' : State W) : Prop where
  regs : s'.regs = s.regs ∨ ∃ res x, ir.defines res ∧ s'.regs = setReg s.regs res x
  flags : ir.writesFlags = false → s'.flags = s.flags
  world : ir.op ≠ .send → ir.op ≠ .call → ir.op ≠ .exit → SameArgs env s.world s'.world

theorem sameArgs_refl (env : Env W) (w : W) : SameArgs env w w := fun _ _ => rfl

theorem effect_sameArgs {env : Env W} {pool psize} (L : LvnLaws env pool psize) {op size cc a b old fl w e}
    (h : effect env op size cc a b old fl w = some e) (h1 : op ≠ .send) (h2 : op ≠ .call) (h3 : op ≠ .exit) :
    SameArgs env w e.world := by
  have same : ∀ e : Eff W, e.world = w → SameArgs env w e.world := by
    intro e h; rw [h]; exact sameArgs_refl env w
  cases op <;> simp only [effect, give, giveFlags, act, actGive, Option.map_eq_some_iff, Option.some.injEq] at h
  case send => exact absurd rfl h1
  case call => exact absurd rfl h2
  case exit => exact absurd rfl h3
  case jump =>
    cases cc <;> simp only [jumpTo, Option.some.injEq] at h <;> first | cases h; done | (subst h; exact sameArgs_refl env w)
  case store => obtain ⟨w', h, rfl⟩ := h; exact L.store _ _ _ _ _ h
  case copy => obtain ⟨w', h, rfl⟩ := h; exact L.copy _ _ _ _ _ h
  case move => obtain ⟨w', h, rfl⟩ := h; exact L.move _ _ _ _ _ h
  case bzero => obtain ⟨w', h, rfl⟩ := h; exact L.bzero _ _ _ _ h
  case memset => obtain ⟨w', h, rfl⟩ := h; exact L.memset _ _ _ _ _ _ h
  case sadd => obtain ⟨w', h, rfl⟩ := h; exact L.sadd _ _ _ _ _ h
  case galloc => obtain ⟨w', h, rfl⟩ := h; exact L.galloc _ _ _ _ h
  case lalloc => obtain ⟨w', h, rfl⟩ := h; exact L.lalloc _ _ _ _ h
  case putpriv => obtain ⟨w', h, rfl⟩ := h; exact L.putpriv _ _ _ _ h
  case trim => obtain ⟨w', h, rfl⟩ := h; exact L.trim _ _ h
  case reexec => obtain ⟨w', h, rfl⟩ := h; exact L.reexec _ _ h
  case trap => cases h
  all_goals first
    | (obtain ⟨_, _, rfl⟩ := h; exact sameArgs_refl env w)
    | (subst h; exact sameArgs_refl env w)

theorem effect_noFlags {env : Env W} {op size cc a b old fl w} {e : Eff W}
    (h : effect env op size cc a b old fl w = some e)
    (hf : op ≠ .cmp ∧ op ≠ .fcmp ∧ op ≠ .ccmp ∧ op ≠ .fccmp ∧ (cc ≠ .none → op ≠ .add ∧ op ≠ .sub ∧ op ≠ .mul ∧ op ≠ .exp)) :
    e.flags = none := by
  have gen : ∀ op : Op, op.generic = true → (cc ≠ .none → op ≠ .add ∧ op ≠ .sub ∧ op ≠ .mul ∧ op ≠ .exp) →
      effect env op size cc a b old fl w = some e → e.flags = none := by
    intro op hg hc h
    rw [effect_generic _ _ _ _ _ _ _ _ _ hg] at h
    simp only [giveFlags, Option.map_eq_some_iff] at h
    obtain ⟨⟨x, fl'⟩, hp, rfl⟩ := h
    dsimp only
    apply Classical.byContradiction
    intro c
    obtain ⟨h1, h2⟩ := pureRes_flags hp c
    have := hc h2
    rcases h1 with e | e | e | e <;> rw [e] at this <;> simp at this
  obtain ⟨f1, f2, f3, f4, f5⟩ := hf
  cases op
  case add | sub | mul | exp | div | neg | xor | asr | shl | mov | clamp => exact gen _ rfl f5 h
  case cmp => exact absurd rfl f1
  case fcmp => exact absurd rfl f2
  case ccmp => exact absurd rfl f3
  case fccmp => exact absurd rfl f4
  all_goals simp only [effect, give, giveFlags, act, actGive, Option.map_eq_some_iff, Option.some.injEq] at h
  case trap => cases h
  case jump =>
    cases cc <;> simp only [jumpTo, Option.some.injEq] at h <;> first | cases h; done | (subst h; rfl)
  all_goals first
    | (obtain ⟨_, _, rfl⟩ := h; rfl)
    | (subst h; rfl)

theorem effect_old {env : Env W} {op size cc a b old fl w} {e : Eff W}
    (h : effect env op size cc a b old fl w = some e) (hr : op.readsResult = true) : e.result = none := by
  cases op <;> simp only [Op.readsResult, Bool.false_eq_true] at hr <;>
    simp only [effect, act, Option.map_eq_some_iff, Option.some.injEq] at h
  case case => subst h; rfl
  all_goals (obtain ⟨_, _, rfl⟩ := h; rfl)

theorem writesFlags_false {ir : Ir} (h : ir.writesFlags = false) :
    ir.op ≠ .cmp ∧ ir.op ≠ .fcmp ∧ ir.op ≠ .ccmp ∧ ir.op ≠ .fccmp ∧
      (ir.cc ≠ .none → ir.op ≠ .add ∧ ir.op ≠ .sub ∧ ir.op ≠ .mul ∧ ir.op ≠ .exp) := by
  unfold Ir.writesFlags at h
  cases hop : ir.op <;> rw [hop] at h <;> simp_all

/-- Taking an execution apart. -/
theorem execIr_inv {env : Env W} {ir : Ir} {s : State W} {r : Res W} (h : execIr env ir s = some r) :
    ∃ old e regs, oldValue s.regs ir = some old ∧
      effect env ir.op ir.size ir.cc (eval env s.regs ir.arg1) (eval env s.regs ir.arg2) old s.flags s.world = some e ∧
      writeReg s.regs ir.result e.result = some regs ∧
      r = (match e.ctl with
        | .next => .next { regs := regs, flags := e.flags.getD s.flags, pc := s.pc + 1, world := e.world }
        | .goto l => .next { regs := regs, flags := e.flags.getD s.flags, pc := l, world := e.world }
        | .stop b => .halt b { regs := regs, flags := e.flags.getD s.flags, pc := s.pc, world := e.world }) := by
  unfold execIr at h
  rw [Option.bind_eq_some_iff] at h
  obtain ⟨old, ho, h⟩ := h
  rw [Option.bind_eq_some_iff] at h
  obtain ⟨e, he, h⟩ := h
  unfold apply at h
  rw [Option.map_eq_some_iff] at h
  obtain ⟨regs, hw, h⟩ := h
  exact ⟨old, e, regs, ho, he, hw, by rw [← h]; cases e.ctl <;> rfl⟩

theorem after_exec {env : Env W} {pool psize} (L : LvnLaws env pool psize) {ir : Ir} {s s' : State W}
    (h : execIr env ir s = some (.next s')) : After env ir s s' := by
  obtain ⟨old, e, regs, ho, he, hw, hr⟩ := execIr_inv h
  have hs : s'.regs = regs ∧ s'.flags = e.flags.getD s.flags ∧ s'.world = e.world := by
    split at hr
    · injection hr with hr; rw [hr]; exact ⟨rfl, rfl, rfl⟩
    · injection hr with hr; rw [hr]; exact ⟨rfl, rfl, rfl⟩
    · cases hr
  obtain ⟨h1, h2, h3⟩ := hs
  refine ⟨?_, ?_, ?_⟩
  · rw [h1]
    unfold writeReg at hw
    split at hw
    · injection hw with hw; exact Or.inl hw.symm
    · rename_i x res hx hres
      injection hw with hw
      refine Or.inr ⟨_, _, ⟨hres, ?_⟩, hw.symm⟩
      cases hrr : ir.op.readsResult with
      | false => rfl
      | true => rw [effect_old he hrr] at hx; cases hx
    · cases hw
  · intro hf
    rw [h2, effect_noFlags he (writesFlags_false hf)]
    rfl
  · intro c1 c2 c3
    rw [h3]
    exact effect_sameArgs L he c1 c2 c3

theorem Dyn.mono {env : Env W} {sent sent' : Nat → Prop} {st val regs flags w} (D : Dyn env sent st val regs flags w)
    (h : ∀ n, sent n → sent' n) : Dyn env sent' st val regs flags w :=
  ⟨D.small, D.consts, D.reg, D.flag, fun n v hn hv => (D.slot n v hn hv).imp (h n) id, D.eqn⟩

theorem Dyn.world {env : Env W} {sent st val regs flags w w'} (D : Dyn env sent st val regs flags w)
    (h : SameArgs env w w') : Dyn env sent st val regs flags w' :=
  ⟨D.small, D.consts, D.reg, D.flag, fun n v hn hv => (D.slot n v hn hv).imp id (by intro e; rw [h n hn]; exact e), D.eqn⟩

/-- What holds when the instruction is looked at. -/
structure LvnCtx (f : Func) (i : Nat) (st : Lvn) (ir : Ir) : Prop where
  at_ : f.irs[i]? = some ir
  reg : ∀ r, (ir.arg1.regOf = some r ∨ ir.arg2.regOf = some r ∨ ir.result = some r) → r < f.nregs
  stat : Stat f (i + 1) st
  free : ∀ r, ir.defines r → Free st r
  self : ∀ r, ir.defines r → ¬ ir.reads r

/-- What the pass makes of an instruction. -/
structure Rewr (W : Type) (pool : Word → Size → Word) (psize : Nat) (f : Func) (i : Nat) (st : Lvn) (ir : Ir) (st' : Lvn) (ir' : Ir) :
    Prop where
  stat : Stat f (i + 1) st'
  jump : ir'.op ≠ .jump
  dyn : ∀ (env : Env W) sent sent' val (s : State W) r, LvnLaws env pool psize → SentOk ir sent sent' →
    Dyn env sent st val s.regs s.flags s.world → execIr env ir s = some r →
    execIr env ir' s = some r ∧ ∀ s', r = .next s' → ∃ val', Dyn env sent' st' val' s'.regs s'.flags s'.world

/-- The state, with all numbers of the result and the flags forgotten, after any instruction. -/
theorem Stat.killResult {f i st ir} (C : LvnCtx f i st ir) : Stat f (i + 1) (lvnOther st ir) := by
  unfold lvnOther
  dsimp only
  have S1 : Stat f (i + 1) (if ir.writesFlags then st.killFlags else st) := by
    split
    · exact C.stat.kill (st' := st.killFlags) rfl rfl rfl rfl (killFlags_or st)
    · exact C.stat
  split
  · exact S1.kill (st' := Lvn.setVn _ _ _) rfl rfl rfl rfl (setVn_none_or _ _)
  · exact S1

theorem Dyn.other {env : Env W} {sent st val f i ir} {s s' : State W} (C : LvnCtx f i st ir)
    (D : Dyn env sent st val s.regs s.flags s.world) (A : After env ir s s') (hw : SameArgs env s.world s'.world) :
    Dyn env sent (lvnOther st ir) val s'.regs s'.flags s'.world := by
  have D1 : Dyn env sent (if ir.writesFlags then st.killFlags else st) val s.regs s'.flags s'.world := by
    split
    · exact (((D.kill (st' := st.killFlags) rfl rfl rfl (killFlags_or st)).anyFlags (killFlags_dead st) _)).world hw
    · rename_i hf
      rw [A.flags (by simpa using hf)]
      exact D.world hw
  have S1 : Stat f (i + 1) (if ir.writesFlags then st.killFlags else st) := by
    split
    · exact C.stat.kill (st' := st.killFlags) rfl rfl rfl rfl (killFlags_or st)
    · exact C.stat
  unfold lvnOther
  dsimp only
  rcases A.regs with e | ⟨res, x, hd, e⟩
  · rw [e]
    split
    · exact D1.kill (st' := Lvn.setVn _ _ _) rfl rfl rfl (setVn_none_or _ _)
    · exact D1
  · rw [hd.1, e]
    dsimp only
    have F1 : Free (if ir.writesFlags then st.killFlags else st) res := by
      split
      · exact (C.free res hd).kill (st' := st.killFlags) rfl (killFlags_or st)
      · exact C.free res hd
    exact D1.write S1 F1 (C.reg res (Or.inr (Or.inr hd.1))) (by simp)

/-- An instruction without a rule. -/
theorem other_rewr {pool psize f i st ir} (C : LvnCtx f i st ir) (h1 : ir.op ≠ .jump) (h2 : ir.op ≠ .send) (h3 : ir.op ≠ .call)
    (h4 : ir.op ≠ .exit) : Rewr W pool psize f i st ir (lvnOther st ir) ir := by
  refine ⟨Stat.killResult C, h1, ?_⟩
  intro env sent sent' val s r L H D hr
  refine ⟨hr, ?_⟩
  rintro s' rfl
  have A := after_exec L hr
  exact ⟨val, (D.other C A (A.world h2 h3 h4)).mono (H.pass h3 h4)⟩

theorem killArgs_or (st : Lvn) (q : Nat) : st.killArgs.regvn q = none ∨ st.killArgs.regvn q = st.regvn q := by
  unfold Lvn.killArgs
  dsimp only
  split
  · exact Or.inl rfl
  · exact Or.inr rfl

/-- Calls and exits. -/
theorem call_rewr {pool psize f i st ir} (C : LvnCtx f i st ir) (h : ir.op = .call ∨ ir.op = .exit) :
    Rewr W pool psize f i st ir (lvnOther st.killArgs ir) ir := by
  have C' : LvnCtx f i st.killArgs ir :=
    ⟨C.at_, C.reg, C.stat.kill (st' := st.killArgs) rfl rfl rfl rfl (killArgs_or st),
      fun r hr => (C.free r hr).kill (st' := st.killArgs) rfl (killArgs_or st), C.self⟩
  refine ⟨Stat.killResult C', by rcases h with h | h <;> rw [h] <;> simp, ?_⟩
  intro env sent sent' val s r L H D hr
  refine ⟨hr, ?_⟩
  rintro s' rfl
  have A := after_exec L hr
  have D1 := D.kill (st' := st.killArgs) rfl rfl rfl (killArgs_or st)
  have dead : ∀ n, n < trackArgs → st.killArgs.regvn (st.killArgs.nregs + 1 + n) = none := by
    intro n hn
    unfold Lvn.killArgs
    dsimp only
    rw [if_pos (by omega)]
  have D2 : Dyn env sent' st.killArgs val s.regs s.flags s'.world :=
    ⟨D1.small, D1.consts, D1.reg, D1.flag, fun n v hn hv => (by rw [dead n hn] at hv; cases hv), D1.eqn⟩
  have := D2.other (s := { s with world := s'.world }) (s' := s') C' ⟨A.regs, A.flags, fun _ _ _ => sameArgs_refl _ _⟩ (sameArgs_refl _ _)
  exact ⟨val, this⟩

/-- An instruction without an effect besides its result. -/
theorem Numbered.rewr {pool psize f i st ir st' ir' res} (C : LvnCtx f i st ir) (hg : ir.op.generic = true)
    (hr : ir.result = some res)
    (keep : ir.op = .add ∨ ir.op = .sub ∨ ir.op = .mul ∨ ir.op = .exp → Kept ir ir') (N : Numbered W f i res none st ir st' ir') :
    Rewr W pool psize f i st ir st' ir' := by
  refine ⟨N.stat, ?_, ?_⟩
  · intro c; have := N.gen; rw [c] at this; cases this
  · intro env sent sent' val s r L H D h
    rw [exec_pure _ _ _ res hg hr, Option.map_eq_some_iff] at h
    obtain ⟨⟨x, fl⟩, hp, rfl⟩ := h
    obtain ⟨⟨val', D'⟩, fl', hp', hf⟩ := N.dyn env sent val s.regs s.flags s.world x fl D hp (by simp)
    have e : fl' = fl := by
      rcases hf with e | ⟨e, hne⟩
      · exact e
      · rw [e]
        apply Classical.byContradiction
        intro c
        obtain ⟨h1, h2⟩ := pureRes_flags hp (fun h => c h.symm)
        rw [← keep h1 h2] at h1
        rcases h1 with e | e | e | e <;> simp [e] at hne
    refine ⟨?_, ?_⟩
    · rw [exec_pure _ _ _ res N.gen N.result, hp', e]; rfl
    · intro s' hs
      injection hs with hs
      subst hs
      refine ⟨val', ?_⟩
      have D' := D'.mono (H.pass (by intro c; rw [c] at hg; cases hg) (by intro c; rw [c] at hg; cases hg))
      exact D'

end Verif.Code
