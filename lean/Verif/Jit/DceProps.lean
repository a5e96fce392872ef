import Verif.Jit.DceModel
import Verif.Jit.CpropProps

/-!
# Dead code elimination preserves behaviour

Property C52, first part.
-/

namespace Verif.Code

variable {W : Type}

/-! ## what the property speaks about -/

/-- The instruction reads the register, or writes it in an instruction that is kept for its flags. -/
def Uses (ir : Ir) (r : Nat) : Prop :=
  ir.arg1.regOf = some r ∨ ir.arg2.regOf = some r ∨
    (ir.result = some r ∧ (ir.op.readsResult = true ∨ ir.writesFlags = true))

def Used (f : Func) (r : Nat) : Prop := ∃ ir ∈ f.irs, Uses ir r

/-- Instructions that only compute a value (and perhaps flags). -/
def Op.isPure : Op → Bool
  | .recv | .and | .or | .xor | .add | .sub | .mul | .div | .rem | .fadd | .fsub | .fmul | .fdiv | .fexp
  | .fneg | .scvtf | .fcvtns | .shl | .asr | .uload | .load | .cset | .mov | .lea | .csel | .neg | .not
  | .clamp | .salloc | .exp | .getpriv => true
  | _ => false

/-- An instruction whose result is not used only computes a value: it is no allocation. -/
def DeadPure (f : Func) : Prop :=
  ∀ ir ∈ f.irs, ∀ d, ir.result = some d → ¬ Used f d → ir.op.isPure = true

/-- Arithmetic is without check, or checks for overflow or carry. -/
def ChecksOk (f : Func) : Prop :=
  ∀ ir ∈ f.irs, ir.op = .add ∨ ir.op = .sub ∨ ir.op = .mul ∨ ir.op = .exp →
    ir.cc = .none ∨ ir.cc = .o ∨ ir.cc = .c

/-! ## the first loop -/

structure DceInv (st : Dce) : Prop where
  lt : ∀ r, st.count r ≠ 0 → st.renumber r < st.next
  inj : ∀ r q, st.count r ≠ 0 → st.count q ≠ 0 → st.renumber r = st.renumber q → r = q

theorem touch_count (st : Dce) (r q : Nat) : (st.touch r).count q ≠ 0 ↔ st.count q ≠ 0 ∨ q = r := by
  unfold Dce.touch updNat
  split <;> dsimp only <;> grind

theorem touch_inv {st : Dce} (h : DceInv st) (r : Nat) : DceInv (st.touch r) := by
  obtain ⟨h1, h2⟩ := h
  unfold Dce.touch updNat
  constructor
  · intro q; have := h1 q; grind
  · intro q p; have := h1 q; have := h1 p; have := h2 q p; grind

theorem countUse_count (st : Dce) (v : Val) (q : Nat) :
    (st.countUse v).count q ≠ 0 ↔ st.count q ≠ 0 ∨ v.regOf = some q := by
  unfold Dce.countUse
  split
  · rename_i r h; rw [touch_count, h]; simp [eq_comm]
  · rename_i h; rw [h]; simp

theorem countUse_inv {st : Dce} (h : DceInv st) (v : Val) : DceInv (st.countUse v) := by
  unfold Dce.countUse
  split
  · exact touch_inv h _
  · exact h

theorem countIr_count (st : Dce) (ir : Ir) (q : Nat) :
    (st.countIr ir).count q ≠ 0 ↔ st.count q ≠ 0 ∨ Uses ir q := by
  unfold Dce.countIr Uses
  dsimp only
  split
  · rename_i r h
    split
    · rename_i hk
      rw [touch_count, countUse_count, countUse_count, h]
      simp only [Bool.or_eq_true] at hk
      simp only [Option.some.injEq]
      grind
    · rename_i hk
      rw [countUse_count, countUse_count, h]
      simp only [Bool.or_eq_true] at hk
      simp only [Option.some.injEq]
      grind
  · rename_i h
    rw [countUse_count, countUse_count, h]
    simp
    grind

theorem countIr_inv {st : Dce} (h : DceInv st) (ir : Ir) : DceInv (st.countIr ir) := by
  unfold Dce.countIr
  have := countUse_inv (countUse_inv h ir.arg1) ir.arg2
  dsimp only
  split
  · split
    · exact touch_inv this _
    · exact this
  · exact this

theorem foldl_count (l : List Ir) (st : Dce) (q : Nat) :
    (l.foldl Dce.countIr st).count q ≠ 0 ↔ st.count q ≠ 0 ∨ ∃ ir ∈ l, Uses ir q := by
  induction l generalizing st with
  | nil => simp
  | cons ir l ih =>
    rw [List.foldl_cons, ih, countIr_count]
    simp only [List.mem_cons, exists_eq_or_imp]
    grind

theorem foldl_inv (l : List Ir) {st : Dce} (h : DceInv st) : DceInv (l.foldl Dce.countIr st) := by
  induction l generalizing st with
  | nil => exact h
  | cons ir l ih => exact ih (countIr_inv h ir)

/-- The registers counted are those used. -/
theorem dceCount_used (f : Func) (r : Nat) : (dceCount f).count r ≠ 0 ↔ Used f r := by
  unfold dceCount Used
  rw [foldl_count]
  simp

/-- The new numbers of used registers are different, and below the new number of registers. -/
theorem dceCount_inv (f : Func) : DceInv (dceCount f) :=
  foldl_inv _ ⟨by simp, by simp⟩

/-! ## the second loop -/

/-- A comparison at `c` whose flags nothing reads before `i`. -/
def Open (f : Func) (c i : Nat) : Prop :=
  c < i ∧ (∃ ir, f.irs[c]? = some ir ∧ (ir.op = .cmp ∨ ir.op = .fcmp)) ∧
    ∀ (j : Nat) (ir : Ir), c < j → j < i → f.irs[j]? = some ir →
      ir.readsFlags = false ∧ isTerminator f j ir = false ∧ ir.writesFlags = false

/-- ... and then the flags are written without being read. -/
def Killed (f : Func) (c : Nat) : Prop :=
  ∃ k ir, Open f c k ∧ f.irs[k]? = some ir ∧ ir.writesFlags = true ∧ ir.readsFlags = false

structure LoopInv (f : Func) (st : Dce) (i : Nat) (cmp : Option Nat) (out : List Ir) : Prop where
  len : out.length = i
  each : ∀ (j : Nat) (ir : Ir), j < i → f.irs[j]? = some ir →
    out[j]? = some (dceIr st ir) ∨ (out[j]? = some ir.toNop ∧ Killed f j)
  cmp : ∀ c, cmp = some c → Open f c i

theorem dceIr_toNop (st : Dce) (ir : Ir) : (dceIr st ir).toNop = ir.toNop := by
  unfold dceIr
  dsimp only
  split
  · rfl
  · split <;> rfl

theorem loopInv_step {f : Func} {st : Dce} {i : Nat} {cmp : Option Nat} {out : List Ir} {ir : Ir}
    (h : LoopInv f st i cmp out) (hir : f.irs[i]? = some ir) :
    LoopInv f st (i + 1) (cmpStep f i ir cmp).2
      ((match (cmpStep f i ir cmp).1 with
        | some c => out.modify c Ir.toNop
        | none => out) ++ [dceIr st ir]) := by
  have hout : ∀ c, (cmpStep f i ir cmp).1 = some c → Killed f c := by
    intro c hc
    unfold cmpStep at hc
    split at hc
    · cases hc
    · rename_i hr
      split at hc
      · rename_i hw
        simp only [Bool.or_eq_true, not_or, Bool.not_eq_true] at hr
        exact ⟨i, ir, h.cmp c hc, hir, hw, hr.1⟩
      · cases hc
  have hlen : ∀ o : Option Nat, (match o with
        | some c => out.modify c Ir.toNop
        | none => out).length = i := by
    intro o
    cases o <;> simp [h.len]
  constructor
  · rw [List.length_append, hlen]; rfl
  · intro j ir' hj hir'
    by_cases c : j = i
    · subst c
      rw [hir] at hir'; injection hir' with hir'; subst hir'
      left
      rw [List.getElem?_append_right (by rw [hlen]; exact Nat.le_refl _), hlen]
      simp
    · rw [List.getElem?_append_left (by rw [hlen]; omega)]
      cases hk : (cmpStep f i ir cmp).1 with
      | none => exact h.each j ir' (by omega) hir'
      | some k =>
        dsimp only
        rw [List.getElem?_modify]
        rcases h.each j ir' (by omega) hir' with e | ⟨e, hkill⟩
        · rw [e]
          by_cases c' : k = j
          · subst c'
            right
            refine ⟨?_, hout k hk⟩
            simp [dceIr_toNop]
          · left; simp [c']
        · right
          refine ⟨?_, hkill⟩
          rw [e]
          by_cases c' : k = j
          · simp [c', Ir.toNop]
          · simp [c']
  · intro c hc
    unfold cmpStep at hc
    split at hc
    · cases hc
    · rename_i hr
      simp only [Bool.or_eq_true, not_or, Bool.not_eq_true] at hr
      split at hc
      · dsimp only at hc
        split at hc
        · injection hc with hc
          subst hc
          refine ⟨by omega, ⟨ir, hir, by assumption⟩, ?_⟩
          intro j _ h1 h2 _; omega
        · cases hc
      · rename_i hw
        obtain ⟨o1, o2, o3⟩ := h.cmp c hc
        refine ⟨by omega, o2, ?_⟩
        intro j ir' h1 h2 h3
        by_cases c' : j = i
        · subst c'
          rw [hir] at h3; injection h3 with h3; subst h3
          exact ⟨hr.1, hr.2, by simpa using hw⟩
        · exact o3 j ir' h1 (by omega) h3

theorem dceLoop_spec (f : Func) (st : Dce) (rest : List Ir) (i : Nat) (cmp : Option Nat) (out : List Ir)
    (h : LoopInv f st i cmp out) (hrest : ∀ k, rest[k]? = f.irs[i + k]?) :
    ∃ cmp', LoopInv f st (i + rest.length) cmp' (dceLoop f st i cmp out rest) := by
  induction rest generalizing i cmp out with
  | nil => exact ⟨cmp, by simpa [dceLoop] using h⟩
  | cons ir rest ih =>
    have h0 : f.irs[i]? = some ir := by have := hrest 0; simpa using this.symm
    have hs := loopInv_step h h0
    obtain ⟨cmp', h'⟩ := ih (i + 1) _ _ hs (by
      intro k
      have := hrest (k + 1)
      rw [List.getElem?_cons_succ] at this
      rw [this]; congr 1; omega)
    refine ⟨cmp', ?_⟩
    rw [dceLoop]
    have e : i + (ir :: rest).length = i + 1 + rest.length := by simp; omega
    rw [e]
    exact h'

/-- The instruction is removed: its result is not used. -/
def Dead (f : Func) (ir : Ir) : Prop := ∃ d, ir.result = some d ∧ ¬ Used f d ∧ ir.writesFlags = false

/-- What becomes of each instruction. -/
theorem dce_get (f : Func) (i : Nat) (ir : Ir) (h : f.irs[i]? = some ir) :
    ((dce f).irs[i]? = some ir.toNop ∧ (Dead f ir ∨ Killed f i)) ∨
    ((dce f).irs[i]? = some ⟨ir.op, ir.size, ir.target, ir.cc, ir.result.map (dceCount f).renumber,
        renVal (dceCount f).renumber ir.arg1, renVal (dceCount f).renumber ir.arg2⟩ ∧
      ∀ d, ir.result = some d → Used f d) := by
  have hi : i < f.irs.length := (List.getElem?_eq_some_iff.1 h).1
  obtain ⟨cmp', hinv⟩ := dceLoop_spec f (dceCount f) f.irs 0 none []
    ⟨rfl, by simp, by simp⟩ (by simp)
  rw [Nat.zero_add] at hinv
  rcases hinv.each i ir hi h with e | ⟨e, hk⟩
  · have e' : (dce f).irs[i]? = some (dceIr (dceCount f) ir) := e
    rw [e']
    unfold dceIr
    dsimp only
    split
    · rename_i hr
      right
      rw [hr]
      exact ⟨rfl, by simp⟩
    · rename_i r hr
      split
      · rename_i hc
        left
        refine ⟨rfl, Or.inl ⟨r, hr, ?_, hc.2⟩⟩
        rw [← dceCount_used]
        simpa using hc.1
      · rename_i hc
        right
        rw [hr]
        refine ⟨rfl, ?_⟩
        intro d hd
        injection hd with hd; subst hd
        by_cases hw : ir.writesFlags = true
        · exact ⟨ir, List.mem_of_getElem? h, Or.inr (Or.inr ⟨hr, Or.inr hw⟩)⟩
        · rw [← dceCount_used]
          intro c
          exact hc ⟨c, by simpa using hw⟩
  · left
    exact ⟨e, Or.inr hk⟩

theorem dce_length (f : Func) : (dce f).irs.length = f.irs.length := by
  obtain ⟨cmp', hinv⟩ := dceLoop_spec f (dceCount f) f.irs 0 none []
    ⟨rfl, by simp, by simp⟩ (by simp)
  rw [Nat.zero_add] at hinv
  exact hinv.len

/-! ## effects -/

theorem effect_pure {env : Env W} {op : Op} {size cc a b old fl w e} (hp : op.isPure = true)
    (h : effect env op size cc a b old fl w = some e) :
    e.world = w ∧ e.ctl = .next := by
  cases op <;> simp [Op.isPure] at hp <;>
    simp only [effect, give, giveFlags, Option.map_eq_some_iff] at h <;>
    obtain ⟨_, _, rfl⟩ := h <;> exact ⟨rfl, rfl⟩

theorem effect_noflags {env : Env W} {ir : Ir} {a b old fl w e} (hw : ir.writesFlags = false)
    (h : effect env ir.op ir.size ir.cc a b old fl w = some e) : e.flags = none := by
  unfold Ir.writesFlags at hw
  generalize ir.op = op at *
  cases op <;> simp at hw <;>
    simp only [effect, actGive, act, give, giveFlags, jumpTo, Option.map_eq_some_iff,
      Option.some.injEq, reduceCtorEq] at h
  all_goals first
    | (obtain ⟨_, _, rfl⟩ := h; rfl)
    | (subst h; rfl)
    | skip
  case jump =>
    split at h <;> first | (injection h with h; subst h; rfl) | cases h
  case exp =>
    rw [hw] at h
    obtain ⟨⟨x, fl⟩, h, rfl⟩ := h
    simp only [power, Option.bind_eq_some_iff] at h
    obtain ⟨⟨x', o⟩, _, h⟩ := h
    dsimp only at h
    split at h
    · cases h
    · injection h with h; injection h with h1 h2; exact h2.symm
  all_goals
    rw [hw] at h
    obtain ⟨⟨x, fl⟩, h, rfl⟩ := h
    simp only [arith, Option.map_eq_some_iff] at h
    obtain ⟨_, _, h⟩ := h
    injection h with h1 h2
    exact h2.symm

theorem effect_flags {env : Env W} {ir : Ir} {a b old fl w e} (hw : ir.writesFlags = true)
    (hc : ir.op = .add ∨ ir.op = .sub ∨ ir.op = .mul ∨ ir.op = .exp → ir.cc = .none ∨ ir.cc = .o ∨ ir.cc = .c)
    (h : effect env ir.op ir.size ir.cc a b old fl w = some e) : ∃ v, e.flags = some v := by
  unfold Ir.writesFlags at hw
  generalize ir.op = op at *
  generalize ir.cc = cc at *
  cases op <;> simp at hw hc <;> simp only [effect, giveFlags, Option.map_eq_some_iff, Option.some.injEq] at h
  case cmp | ccmp | fcmp | fccmp => subst h; exact ⟨_, rfl⟩
  case exp =>
    obtain ⟨⟨x, fl⟩, h, rfl⟩ := h
    rcases hc with rfl | rfl | rfl
    · exact absurd rfl hw
    all_goals
      simp only [power, Option.bind_eq_some_iff, Option.map_eq_some_iff] at h
      obtain ⟨_, _, _, _, h⟩ := h
      injection h with h1 h2
      exact ⟨_, h2.symm⟩
  all_goals
    obtain ⟨⟨x, fl⟩, h, rfl⟩ := h
    rcases hc with rfl | rfl | rfl
    · exact absurd rfl hw
    all_goals
      simp only [arith, Option.map_eq_some_iff] at h
      obtain ⟨_, _, h⟩ := h
      injection h with h1 h2
      exact ⟨_, h2.symm⟩

theorem effect_indep {env : Env W} {ir : Ir} {a b old w} (fl fl' : Bool) (hr : ir.readsFlags = false) :
    effect env ir.op ir.size ir.cc a b old fl w = effect env ir.op ir.size ir.cc a b old fl' w := by
  unfold Ir.readsFlags at hr
  generalize ir.op = op at *
  generalize ir.cc = cc at *
  cases op <;> simp at hr <;> try rfl
  case jump => subst hr; rfl

theorem effect_compare {env : Env W} {op : Op} {size cc a b old fl w e} (hp : op = .cmp ∨ op = .fcmp)
    (h : effect env op size cc a b old fl w = some e) : e.world = w ∧ e.ctl = .next ∧ e.result = none := by
  rcases hp with rfl | rfl <;> simp only [effect, Option.some.injEq] at h <;> subst h <;>
    exact ⟨rfl, rfl, rfl⟩

/-! ## simulation -/

/-- The flags are written before they are read. -/
def FlagsDead (f : Func) (p : Nat) : Prop :=
  ∃ k ir, p ≤ k ∧ f.irs[k]? = some ir ∧ ir.writesFlags = true ∧ ir.readsFlags = false ∧
    ∀ (j : Nat) (ir : Ir), p ≤ j → j < k → f.irs[j]? = some ir →
      ir.readsFlags = false ∧ isTerminator f j ir = false

/-- The used registers have the same values under their new numbers. -/
def SameRegs (f : Func) (regs regs' : Nat → Word) : Prop :=
  ∀ r, Used f r → regs' ((dceCount f).renumber r) = regs r

structure DceRel (f : Func) (s s' : State W) : Prop where
  pc : s'.pc = s.pc
  world : s'.world = s.world
  regs : SameRegs f s.regs s'.regs
  flags : s'.flags = s.flags ∨ FlagsDead f s.pc

/-- The outcome is the same. -/
inductive SameOutcome (f : Func) : Res W → Res W → Prop where
  | next {s s'} : DceRel f s s' → SameOutcome f (.next s) (.next s')
  | halt {b s s'} : s'.world = s.world → s'.pc = s.pc → SameOutcome f (.halt b s) (.halt b s')

theorem killed_dead {f : Func} {c : Nat} (h : Killed f c) : FlagsDead f (c + 1) := by
  obtain ⟨k, ir, ho, h1, h2, h3⟩ := h
  refine ⟨k, ir, ho.1, h1, h2, h3, ?_⟩
  intro j ir' hj hk hir
  have := ho.2.2 j ir' (by omega) hk hir
  exact ⟨this.1, this.2.1⟩

/-- In a row of CASE instructions that ends before `k`, the last one is a terminator. -/
theorem no_case {f : Func} {k : Nat} {irk : Ir} (hk : f.irs[k]? = some irk) (hc : irk.op ≠ .case)
    (d : Nat) : ∀ j ir, j + d + 1 = k → f.irs[j]? = some ir → ir.op = .case →
      (∀ (q : Nat) (ir : Ir), j ≤ q → q < k → f.irs[q]? = some ir → isTerminator f q ir = false) → False := by
  induction d with
  | zero =>
    intro j ir hj hir ho ht
    have := ht j ir (Nat.le_refl _) (by omega) hir
    unfold isTerminator at this
    rw [ho] at this
    have e : j + 1 = k := by omega
    simp only [e, hk] at this
    simp at this
    exact hc this
  | succ d ih =>
    intro j ir hj hir ho ht
    have := ht j ir (Nat.le_refl _) (by omega) hir
    unfold isTerminator at this
    rw [ho] at this
    have hlt : k < f.irs.length := (List.getElem?_eq_some_iff.1 hk).1
    have hn : f.irs[j + 1]? = some f.irs[j + 1] := List.getElem?_eq_getElem (by omega)
    simp only [hn] at this
    simp at this
    exact ih (j + 1) _ (by omega) hn this (fun q ir h1 h2 => ht q ir (by omega) h2)

theorem eval_ren {f : Func} {env : Env W} {regs regs' : Nat → Word} (h : SameRegs f regs regs') (v : Val)
    (hv : ∀ r, v.regOf = some r → Used f r) :
    eval env regs' (renVal (dceCount f).renumber v) = eval env regs v := by
  cases v <;> simp only [renVal, eval]
  · exact h _ (hv _ rfl)
  · rw [h _ (hv _ rfl)]

theorem sameRegs_set {f : Func} {regs regs' : Nat → Word} (h : SameRegs f regs regs') {d : Nat}
    (hd : Used f d) (x : Word) :
    SameRegs f (setReg regs d x) (setReg regs' ((dceCount f).renumber d) x) := by
  intro r hr
  unfold setReg
  have inj := (dceCount_inv f).inj r d ((dceCount_used f r).2 hr) ((dceCount_used f d).2 hd)
  by_cases c : r = d
  · subst c; simp
  · rw [if_neg (fun e => c (inj e)), if_neg c]
    exact h r hr

theorem sameRegs_dead {f : Func} {regs regs' : Nat → Word} (h : SameRegs f regs regs') {d : Nat}
    (hd : ¬ Used f d) (x : Word) : SameRegs f (setReg regs d x) regs' := by
  intro r hr
  have hne : r ≠ d := fun c => hd (c ▸ hr)
  unfold setReg
  rw [if_neg hne]
  exact h r hr

/-- A no-op. -/
theorem exec_nop (env : Env W) (ir : Ir) (s : State W) :
    execIr env ir.toNop s = some (.next { s with pc := s.pc + 1 }) := rfl

theorem flagsDead_next {f : Func} {p : Nat} {ir : Ir} (h : FlagsDead f p) (hir : f.irs[p]? = some ir)
    (hw : ir.writesFlags = false) : FlagsDead f (p + 1) := by
  obtain ⟨k, irk, h1, h2, h3, h4, h5⟩ := h
  have : p ≠ k := by
    intro c; subst c
    rw [hir] at h2; injection h2 with h2; subst h2
    rw [hw] at h3; cases h3
  exact ⟨k, irk, by omega, h2, h3, h4, fun j ir' hj => h5 j ir' (by omega)⟩

theorem step_dce {env : Env W} {f : Func} (hp : DeadPure f) (hc : ChecksOk f) {s s' : State W}
    (h : DceRel f s s') {r : Res W} (hs : step env f s = some r) :
    ∃ r', step env (dce f) s' = some r' ∧ SameOutcome f r r' := by
  unfold step at hs ⊢
  rw [Option.bind_eq_some_iff] at hs
  obtain ⟨ir, hir, hs⟩ := hs
  have hmem := List.mem_of_getElem? hir
  rw [h.pc]
  unfold execIr at hs
  rw [Option.bind_eq_some_iff] at hs
  obtain ⟨old, hold, hs⟩ := hs
  rw [Option.bind_eq_some_iff] at hs
  obtain ⟨e, he, hs⟩ := hs
  unfold apply at hs
  rw [Option.map_eq_some_iff] at hs
  obtain ⟨regs1, hwr, hs⟩ := hs
  rcases dce_get f s.pc ir hir with ⟨hget, hwhy⟩ | ⟨hget, hused⟩
  · -- removed
    rw [hget]
    refine ⟨_, exec_nop env ir s', ?_⟩
    rcases hwhy with ⟨d, hd, hun, hnf⟩ | hk
    · obtain ⟨hw, hctl⟩ := effect_pure (hp ir hmem d hd hun) he
      have hfl := effect_noflags hnf he
      rw [hctl] at hs
      dsimp only at hs
      subst hs
      apply SameOutcome.next
      refine ⟨by simp [h.pc], ?_, ?_, ?_⟩
      · rw [hw]; exact h.world
      · dsimp only
        rw [hd] at hwr
        unfold writeReg at hwr
        split at hwr
        · injection hwr with hwr; subst hwr; exact h.regs
        · rename_i x r' hx hr
          injection hr with hr; subst hr
          injection hwr with hwr; subst hwr
          exact sameRegs_dead h.regs hun x
        · cases hwr
      · dsimp only
        rw [hfl]
        rcases h.flags with e | e
        · exact Or.inl e
        · exact Or.inr (flagsDead_next e hir hnf)
    · obtain ⟨k, irk, ho, _⟩ := id hk
      obtain ⟨ir', hir', hop⟩ := ho.2.1
      rw [hir] at hir'; injection hir' with hir'; subst hir'
      obtain ⟨hw, hctl, hres⟩ := effect_compare hop he
      rw [hctl] at hs
      dsimp only at hs
      subst hs
      apply SameOutcome.next
      refine ⟨by simp [h.pc], ?_, ?_, Or.inr (killed_dead hk)⟩
      · rw [hw]; exact h.world
      · rw [hres] at hwr
        simp only [writeReg] at hwr
        injection hwr with hwr; subst hwr
        exact h.regs
  · -- kept
    rw [hget]
    have u1 : ∀ r, ir.arg1.regOf = some r → Used f r := fun r hr => ⟨ir, hmem, Or.inl hr⟩
    have u2 : ∀ r, ir.arg2.regOf = some r → Used f r := fun r hr => ⟨ir, hmem, Or.inr (Or.inl hr)⟩
    have hnr : FlagsDead f s.pc → ir.readsFlags = false := by
      rintro ⟨k, irk, h1, h2, h3, h4, h5⟩
      by_cases c : s.pc = k
      · rw [← c, hir] at h2; injection h2 with h2; subst h2; exact h4
      · exact (h5 s.pc ir (Nat.le_refl _) (by omega) hir).1
    have hold' : oldValue s'.regs ⟨ir.op, ir.size, ir.target, ir.cc, ir.result.map (dceCount f).renumber,
        renVal (dceCount f).renumber ir.arg1, renVal (dceCount f).renumber ir.arg2⟩ = some old := by
      unfold oldValue at hold ⊢
      dsimp only
      split at hold
      · rename_i hrr
        rw [if_pos hrr]
        rw [Option.map_eq_some_iff] at hold
        obtain ⟨d, hd, rfl⟩ := hold
        rw [hd]
        simp [h.regs d (hused d hd)]
      · rename_i hrr
        rw [if_neg hrr]
        exact hold
    have he' : effect env ir.op ir.size ir.cc (eval env s'.regs (renVal (dceCount f).renumber ir.arg1))
        (eval env s'.regs (renVal (dceCount f).renumber ir.arg2)) old s'.flags s'.world = some e := by
      rw [eval_ren h.regs _ u1, eval_ren h.regs _ u2, h.world]
      rcases h.flags with c | c
      · rw [c]; exact he
      · rw [effect_indep s'.flags s.flags (hnr c)]; exact he
    have hwr' : ∃ regs2, writeReg s'.regs (ir.result.map (dceCount f).renumber) e.result = some regs2 ∧
        SameRegs f regs1 regs2 := by
      unfold writeReg at hwr
      split at hwr
      · rename_i hx
        injection hwr with hwr; subst hwr
        rw [hx]
        exact ⟨s'.regs, rfl, h.regs⟩
      · rename_i x d hx hd
        injection hwr with hwr; subst hwr
        rw [hx, hd]
        exact ⟨_, rfl, sameRegs_set h.regs (hused d hd) x⟩
      · cases hwr
    obtain ⟨regs2, hw2, hsame⟩ := hwr'
    have hflag : ∀ q, (e.ctl = .next → q = s.pc + 1) → (∀ l, e.ctl = .goto l → q = l) →
        (e.ctl = .next ∨ ∃ l, e.ctl = .goto l) →
        e.flags.getD s'.flags = e.flags.getD s.flags ∨ FlagsDead f q := by
      intro q hq1 hq2 hq3
      rcases h.flags with c | c
      · rw [c]; exact Or.inl rfl
      · by_cases hwf : ir.writesFlags = true
        · obtain ⟨v, hv⟩ := effect_flags hwf (hc ir hmem) he
          rw [hv]; exact Or.inl rfl
        · have hwf' : ir.writesFlags = false := by simpa using hwf
          right
          rcases hq3 with hn | ⟨l, hl⟩
          · rw [hq1 hn]; exact flagsDead_next c hir hwf'
          · exfalso
            obtain ⟨k, irk, h1, h2, h3, h4, h5⟩ := c
            have hne : s.pc ≠ k := by
              intro cc; rw [← cc, hir] at h2; injection h2 with h2; subst h2
              rw [hwf'] at h3; cases h3
            have ht := (h5 s.pc ir (Nat.le_refl _) (by omega) hir).2
            rcases effect_goto he hl with ⟨ho, _⟩ | ⟨ho, _⟩
            · unfold isTerminator at ht
              rw [ho] at ht
              cases ht
            · have hkc : irk.op ≠ .case := by
                intro cc
                unfold Ir.writesFlags at h3
                rw [cc] at h3
                cases h3
              exact no_case h2 hkc (k - s.pc - 1) s.pc ir (by omega) hir ho
                (fun q ir' a b c => (h5 q ir' a b c).2)
    show ∃ r', execIr env _ s' = some r' ∧ _
    unfold execIr
    rw [hold']
    dsimp only [Option.bind_some]
    rw [he']
    dsimp only [Option.bind_some]
    unfold apply
    dsimp only
    rw [hw2]
    refine ⟨_, rfl, ?_⟩
    rw [h.pc]
    subst hs
    cases hctl : e.ctl with
    | next => exact .next ⟨rfl, rfl, hsame, hflag _ (fun _ => rfl) (by rw [hctl]; simp) (Or.inl hctl)⟩
    | goto l =>
      refine .next ⟨rfl, rfl, hsame, hflag _ (by rw [hctl]; simp) ?_ (Or.inr ⟨l, hctl⟩)⟩
      intro l' hl'; rw [hctl] at hl'; injection hl'
    | stop b => exact .halt rfl rfl

/-- **C52 (dead code).**  For every function in which unused results are only those of instructions that
compute a value, every world and behaviour of memory and run-time system, and registers that agree on the
used ones: whatever the function does in any number of steps without a fault, the function after dead code
elimination does too: it is at the same instruction, or has ended in the same way, with the same world. -/
theorem dce_correct_partial (env : Env W) (f : Func) (hp : DeadPure f) (hc : ChecksOk f) (n : Nat)
    (s s' : State W) (h : DceRel f s s') (r : Res W) (hr : run env f n s = some r) :
    ∃ r', run env (dce f) n s' = some r' ∧ SameOutcome f r r' := by
  induction n generalizing s s' with
  | zero =>
    simp only [run, Option.some.injEq] at hr ⊢
    subst hr
    exact ⟨_, rfl, .next h⟩
  | succ n ih =>
    unfold run at hr ⊢
    cases hs : step env f s with
    | none => rw [hs] at hr; cases hr
    | some r1 =>
      obtain ⟨r1', hs', ho⟩ := step_dce hp hc h hs
      rw [hs] at hr
      rw [hs']
      cases ho with
      | next hrel => exact ih _ _ hrel hr
      | halt hw hpc =>
        injection hr with hr
        subst hr
        exact ⟨_, rfl, .halt hw hpc⟩

open Classical in
/-- For all contents of the registers there are such contents under the new numbers. -/
theorem dce_start (f : Func) (s : State W) : ∃ s', DceRel f s s' := by
  refine ⟨{ s with regs := fun q =>
    if h : ∃ r, Used f r ∧ (dceCount f).renumber r = q then s.regs (Classical.choose h) else 0 },
    rfl, rfl, ?_, Or.inl rfl⟩
  intro r hr
  have hex : ∃ q, Used f q ∧ (dceCount f).renumber q = (dceCount f).renumber r := ⟨r, hr, rfl⟩
  dsimp only
  rw [dif_pos hex]
  obtain ⟨h1, h2⟩ := Classical.choose_spec hex
  rw [(dceCount_inv f).inj _ _ ((dceCount_used f _).2 h1) ((dceCount_used f _).2 hr) h2]

/-- The new numbers are below the new number of registers. -/
theorem dce_regs_lt (f : Func) (r : Nat) (h : Used f r) : (dceCount f).renumber r < (dce f).nregs :=
  (dceCount_inv f).lt r ((dceCount_used f r).2 h)

/-! ## tests -/

/-- An unused sum, a comparison whose flags are overwritten, and registers 3, 5, 7. -/
def dceTest : Func :=
  { irs := [mk .recv (some 3) (.int 0), mk .add (some 4) (.reg 3) (.int 1), mk .cmp none (.reg 3) (.int 5) .eq,
      mk .cmp none (.reg 3) (.int 7) .lt, mk .cset (some 5), mk .send none (.int 0) (.reg 5), mk .ret none],
    nregs := 8 }

example : dce dceTest =
  { irs := [mk .recv (some 0) (.int 0), mk .nop none, mk .nop none,
      mk .cmp none (.reg 0) (.int 7) .lt, mk .cset (some 1), mk .send none (.int 0) (.reg 1), mk .ret none],
    nregs := 2 } := by decide +kernel

example : DeadPure dceTest ∧ ChecksOk dceTest := by
  constructor
  · intro ir h d hd _
    simp [dceTest] at h
    rcases h with rfl | rfl | rfl | rfl | rfl | rfl | rfl <;> simp [mk] at hd <;> rfl
  · intro ir h _
    simp [dceTest] at h
    rcases h with rfl | rfl | rfl | rfl | rfl | rfl | rfl <;> simp_all [mk]

/-- A fault may be lost: an unused quotient with divisor 0. -/
theorem dce_fault_counterexample :
    let f : Func := { irs := [mk .div (some 0) (.int 1) (.int 0), mk .ret none], nregs := 1 }
    (run noEnv f 2 ⟨fun _ => 0, false, 0, ()⟩).isNone = true ∧
      (run noEnv (dce f) 2 ⟨fun _ => 0, false, 0, ()⟩).isSome = true := by
  decide +kernel

end Verif.Code
