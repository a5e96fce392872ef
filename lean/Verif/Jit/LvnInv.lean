import Verif.Jit.LvnModel
import Verif.Jit.LivenessProps

/-!
# What is true of the numbers during local value numbering

Property C51: the invariant and the operations on the state.
-/

namespace Verif.Code

variable {W : Type}

/-! ## results of instructions without other effects -/

/-- The instructions that go into the table. -/
def Op.generic : Op → Bool
  | .add | .sub | .mul | .div | .neg | .xor | .asr | .shl | .mov | .clamp | .exp => true
  | _ => false

/-- The result of such an instruction, and the flags if it writes them. -/
def pureRes (op : Op) (size : Size) (cc : CC) (a b : Word) : Option (Word × Option Bool) :=
  match op with
  | .add => arith .add size cc a b
  | .sub => arith .sub size cc a b
  | .mul => arith .mul size cc a b
  | .exp => power size cc a b
  | .div => (divide a b).map fun x => (x, none)
  | .neg => (plain (-a.toInt)).map fun x => (x, none)
  | .xor => some (a ^^^ b, none)
  | .asr => (shift BitVec.sshiftRight a b).map fun x => (x, none)
  | .shl => (shift (· <<< ·) a b).map fun x => (x, none)
  | .mov => some (a, none)
  | .clamp => some (if a.toInt < 0 then 0 else a, none)
  | _ => none

/-- The result of the instruction with these registers. -/
def Ir.pure (env : Env W) (regs : Nat → Word) (ir : Ir) : Option (Word × Option Bool) :=
  pureRes ir.op ir.size ir.cc (eval env regs ir.arg1) (eval env regs ir.arg2)

theorem effect_generic (env : Env W) (op : Op) (size : Size) (cc : CC) (a b old : Word) (fl : Bool) (w : W)
    (h : op.generic = true) :
    effect env op size cc a b old fl w = giveFlags w (pureRes op size cc a b) := by
  cases op <;> simp only [Op.generic, Bool.false_eq_true] at h <;>
    simp only [effect, pureRes, give, giveFlags, Option.map_some, Option.map_map]
  all_goals rfl

/-- The state after such an instruction. -/
def State.give (s : State W) (r : Nat) (x : Word) (fl : Option Bool) : State W :=
  { regs := setReg s.regs r x, flags := fl.getD s.flags, pc := s.pc + 1, world := s.world }

theorem exec_pure (env : Env W) (ir : Ir) (s : State W) (r : Nat) (h : ir.op.generic = true)
    (hr : ir.result = some r) :
    execIr env ir s = (ir.pure env s.regs).map fun p => Res.next (s.give r p.1 p.2) := by
  have ho : oldValue s.regs ir = some 0 := by
    unfold oldValue
    rw [if_neg]
    cases hop : ir.op <;> rw [hop] at h <;> simp_all [Op.generic, Op.readsResult]
  unfold execIr Ir.pure
  rw [ho, Option.bind_some, effect_generic _ _ _ _ _ _ _ _ _ h]
  cases pureRes ir.op ir.size ir.cc (eval env s.regs ir.arg1) (eval env s.regs ir.arg2) with
  | none => rfl
  | some p => simp [giveFlags, apply, writeReg, hr, State.give]

theorem arith_comm (k : Arith) (hk : k ≠ .sub) (size : Size) (cc : CC) (a b : Word) :
    arith k size cc a b = arith k size cc b a := by
  have h : ∀ x y, k.eval x y = k.eval y x := by
    intro x y
    cases k <;> simp_all [Arith.eval, Int.add_comm, Int.mul_comm]
  unfold arith checked
  simp only [h]

theorem pureRes_comm (op : Op) (h : op.commutative = true) (size : Size) (cc : CC) (a b : Word) :
    pureRes op size cc a b = pureRes op size cc b a := by
  cases op <;> simp only [Op.commutative, Bool.false_eq_true] at h <;> simp only [pureRes]
  · exact arith_comm _ (by simp) _ _ _ _
  · exact arith_comm _ (by simp) _ _ _ _

/-- Only a checked instruction writes the flags. -/
theorem pureRes_flags {op : Op} {size : Size} {cc : CC} {a b x : Word} {fl : Option Bool}
    (h : pureRes op size cc a b = some (x, fl)) (hf : fl ≠ none) :
    (op = .add ∨ op = .sub ∨ op = .mul ∨ op = .exp) ∧ cc ≠ .none := by
  cases op <;> simp only [pureRes, Option.map_eq_some_iff, Prod.mk.injEq, Option.some.injEq] at h
  case add | sub | mul =>
    refine ⟨by simp, ?_⟩
    rintro rfl
    simp only [arith, Option.map_eq_some_iff, Prod.mk.injEq] at h
    obtain ⟨_, _, _, h⟩ := h
    exact hf h.symm
  case exp =>
    refine ⟨by simp, ?_⟩
    rintro rfl
    simp only [power, Option.bind_eq_some_iff] at h
    obtain ⟨⟨r, o⟩, _, h⟩ := h
    split at h <;> simp at h
    exact hf h.2.symm
  case div | neg | asr | shl =>
    obtain ⟨_, _, _, h⟩ := h
    exact absurd h.symm hf
  case xor | mov | clamp => exact absurd h.2.symm hf
  all_goals cases h

/-! ## the code in the tuple determines the instruction -/

theorem Op.ctorIdx_inj {a b : Op} (h : a.ctorIdx = b.ctorIdx) : a = b := by
  have ha := Op.ofNat_ctorIdx a
  have hb := Op.ofNat_ctorIdx b
  rw [← ha, ← hb, h]

theorem Op.ctorIdx_lt (a : Op) : a.ctorIdx < 55 := by cases a <;> decide

theorem Op.code_inj {a b : Op} (h : a.code = b.code) : a = b := by
  apply Op.ctorIdx_inj
  have ha := Op.ctorIdx_lt a
  have hb := Op.ctorIdx_lt b
  unfold Op.code at h
  have : Op.copy.ctorIdx = 39 := rfl
  rw [this] at h
  split at h <;> split at h <;> omega

theorem Op.code_lt (a : Op) : a.code < 256 := by cases a <;> decide

theorem Size.code_inj {a b : Size} (h : a.code = b.code) : a = b := by
  cases a <;> cases b <;> simp_all [Size.code]

theorem Size.code_lt (a : Size) : a.code < 8 := by cases a <;> decide

theorem CC.code_inj {a b : CC} (h : a.code = b.code) : a = b := by
  cases a <;> cases b <;> first | rfl | (exact absurd h (by decide))

theorem code_inj {a b : Ir}
    (h : a.op.code + a.size.code * 256 + a.cc.code * 2048 = b.op.code + b.size.code * 256 + b.cc.code * 2048) :
    a.op = b.op ∧ a.size = b.size ∧ a.cc = b.cc := by
  have h1 := a.op.code_lt
  have h2 := b.op.code_lt
  have h3 := a.size.code_lt
  have h4 := b.size.code_lt
  exact ⟨Op.code_inj (by omega), Size.code_inj (by omega), CC.code_inj (by omega)⟩

/-! ## the invariant -/

/-- A number that has been given to a value. -/
def Valid (st : Lvn) (v : Nat) : Prop :=
  v < smallConst ∨ (smallConst ≤ v ∧ v < smallConst + st.consts.length) ∨ (firstVn ≤ v ∧ v < st.next)

/-- No mark strictly between two positions. -/
def NoTarget (f : Func) (j i : Nat) : Prop :=
  ∀ (k : Nat) (t : Ir), j < k → k < i → f.irs[k]? = some t → t.target = false

/-- The register has been read since the last mark. -/
def ReadSince (f : Func) (i r : Nat) : Prop :=
  ∃ (j : Nat) (ir : Ir), j < i ∧ f.irs[j]? = some ir ∧ ir.reads r ∧ NoTarget f j i

/-- The register has got a value since the last mark. -/
def DefinedSince (f : Func) (i r : Nat) : Prop :=
  ∃ (j : Nat) (ir : Ir), j < i ∧ f.irs[j]? = some ir ∧ ir.defines r ∧ NoTarget f j i

/-- Whether an operand is the register. -/
def Ir.readsArg (r : Nat) (ir : Ir) : Prop := ir.arg1.regOf = some r ∨ ir.arg2.regOf = some r

/-- The part of the invariant that does not depend on the contents of the registers. -/
structure Stat (f : Func) (i : Nat) (st : Lvn) : Prop where
  nregs : st.nregs = f.nregs
  next : firstVn ≤ st.next
  clen : st.consts.length ≤ maxConsts
  valid : ∀ q v, st.regvn q = some v → Valid st v
  flag : ∀ v, st.regvn st.nregs = some v → v ≤ 1
  seen : ∀ r v, r < f.nregs → st.regvn r = some v → ReadSince f i r ∨ DefinedSince f i r
  tab : ∀ (k : Nat) (e : Ir) (evn : Nat), st.tab k = some (e, evn) → Valid st evn ∧ e.op.generic = true ∧
    ∃ (eres j : Nat) (ir : Ir), e.result = some eres ∧ eres < f.nregs ∧ j < i ∧ f.irs[j]? = some ir ∧ ir.defines eres ∧
      (∀ r, e.readsArg r → ir.reads r ∧ r < f.nregs) ∧ (st.regvn eres = some evn → NoTarget f j i)

/-- The part that does.  The values that belong to the numbers are `val`; `sent` are the arguments that have
been overwritten. -/
structure Dyn (env : Env W) (sent : Nat → Prop) (st : Lvn) (val : Nat → Word) (regs : Nat → Word) (flags : Bool)
    (w : W) : Prop where
  small : ∀ v, v < smallConst → val v = BitVec.ofNat 64 v
  consts : ∀ (k : Nat) (c : Word), st.consts[k]? = some c → val (smallConst + k) = c
  reg : ∀ r v, r < st.nregs → st.regvn r = some v → val v = regs r
  flag : ∀ v, st.regvn st.nregs = some v → flags = decide (v = 1)
  slot : ∀ n v, n < trackArgs → st.regvn (st.nregs + 1 + n) = some v →
    sent n ∨ env.recv w (BitVec.ofNat 64 n) = some (val v)
  eqn : ∀ (k : Nat) (e : Ir) (evn eres : Nat), st.tab k = some (e, evn) → e.result = some eres →
    st.regvn eres = some evn → ∃ fl, e.pure env regs = some (regs eres, fl)

/-- The register may be written: nothing in the table or in the numbers depends on it. -/
structure Free (st : Lvn) (res : Nat) : Prop where
  none : st.regvn res = none
  tab : ∀ (k : Nat) (e : Ir) (evn : Nat), st.tab k = some (e, evn) → e.result ≠ some res ∧
    ∀ eres, e.result = some eres → st.regvn eres = some evn → ¬ e.readsArg res

/-- A value for one more number. -/
def updVal (val : Nat → Word) (n : Nat) (x : Word) : Nat → Word := fun m => if m = n then x else val m

/-- More numbers. -/
structure Grow (st st' : Lvn) : Prop where
  nregs : st'.nregs = st.nregs
  tab : st'.tab = st.tab
  tabsz : st'.tabsz = st.tabsz
  next : st.next ≤ st'.next
  consts : ∃ l, st'.consts = st.consts ++ l
  clen : st'.consts.length ≤ maxConsts
  regvn : ∀ q, st'.regvn q = st.regvn q ∨
    (q < st.nregs ∧ st.regvn q = none ∧ ∃ v, st'.regvn q = some v ∧ st.next ≤ v ∧ v < st'.next)

theorem Valid.grow {st st' : Lvn} {v : Nat} (h : Valid st v) (g : Grow st st') : Valid st' v := by
  obtain ⟨l, hl⟩ := g.consts
  have := g.next
  have hlen : st.consts.length ≤ st'.consts.length := by rw [hl]; simp
  unfold Valid at *
  omega

theorem Valid.lt {st : Lvn} {v : Nat} (h : Valid st v) (hn : firstVn ≤ st.next) (hc : st.consts.length ≤ maxConsts) :
    v < st.next := by
  unfold Valid firstVn smallConst maxConsts at *
  omega

theorem Grow.refl {st : Lvn} (hc : st.consts.length ≤ maxConsts) : Grow st st :=
  ⟨rfl, rfl, rfl, Nat.le_refl _, ⟨[], by simp⟩, hc, fun _ => Or.inl rfl⟩

theorem Grow.trans {a b c : Lvn} (h1 : Grow a b) (h2 : Grow b c) : Grow a c := by
  obtain ⟨l1, e1⟩ := h1.consts
  obtain ⟨l2, e2⟩ := h2.consts
  refine ⟨h2.nregs.trans h1.nregs, h2.tab.trans h1.tab, h2.tabsz.trans h1.tabsz, Nat.le_trans h1.next h2.next,
    ⟨l1 ++ l2, by rw [e2, e1, List.append_assoc]⟩, h2.clen, ?_⟩
  intro q
  have n1 := h1.next
  have n2 := h2.next
  rcases h2.regvn q with e | ⟨hq, hn, v, hv, hl, hu⟩
  · rcases h1.regvn q with e' | ⟨hq, hn, v, hv, hl, hu⟩
    · exact Or.inl (e.trans e')
    · exact Or.inr ⟨hq, hn, v, e.trans hv, hl, by omega⟩
  · rcases h1.regvn q with e' | ⟨hq', hn', v', hv', _⟩
    · refine Or.inr ⟨h1.nregs ▸ hq, e' ▸ hn, v, hv, by omega, hu⟩
    · rw [hv'] at hn; cases hn

/-- An entry that is in force after more numbers was so before. -/
theorem Grow.live {st st' : Lvn} (g : Grow st st') (hn : firstVn ≤ st.next) (hc : st.consts.length ≤ maxConsts)
    {q v : Nat} (hv : Valid st v) (h : st'.regvn q = some v) : st.regvn q = some v := by
  have := hv.lt hn hc
  rcases g.regvn q with e | ⟨_, _, v', hv', hl, _⟩
  · rw [← e, h]
  · rw [hv'] at h; injection h with h; omega

theorem Grow.keep {st st' : Lvn} (g : Grow st st') {q v : Nat} (h : st.regvn q = some v) : st'.regvn q = some v := by
  rcases g.regvn q with e | ⟨_, hn, _⟩
  · rw [e, h]
  · rw [h] at hn; cases hn

theorem Stat.grow {f : Func} {i : Nat} {st st' : Lvn} (S : Stat f i st) (g : Grow st st')
    (hs : ∀ r v, st.regvn r = none → st'.regvn r = some v → ReadSince f i r) : Stat f i st' := by
  constructor
  · rw [g.nregs, S.nregs]
  · exact Nat.le_trans S.next g.next
  · exact g.clen
  · intro q v h
    rcases g.regvn q with e | ⟨_, _, v', hv', hl, hu⟩
    · exact (S.valid q v (e ▸ h)).grow g
    · rw [hv'] at h; injection h with h; subst h
      have := S.next
      exact Or.inr (Or.inr ⟨by omega, hu⟩)
  · intro v h
    rw [g.nregs] at h
    rcases g.regvn st.nregs with e | ⟨hq, _⟩
    · exact S.flag v (e ▸ h)
    · exact absurd hq (Nat.lt_irrefl _)
  · intro r v hr h
    cases h' : st.regvn r with
    | none => exact Or.inl (hs r v h' h)
    | some v' => exact S.seen r v' hr h'
  · intro k e evn h
    rw [g.tab] at h
    obtain ⟨hv, hg, eres, j, ir, h1, h2, h3, h4, h5, h6, h7⟩ := S.tab k e evn h
    exact ⟨hv.grow g, hg, eres, j, ir, h1, h2, h3, h4, h5, h6, fun h => h7 (g.live S.next S.clen hv h)⟩

theorem Dyn.grow {env : Env W} {sent st val regs flags w f i} {st' : Lvn} {val' : Nat → Word}
    (D : Dyn env sent st val regs flags w) (S : Stat f i st) (g : Grow st st')
    (hval : ∀ v, Valid st v → val' v = val v)
    (hc : ∀ (k : Nat) (c : Word), st'.consts[k]? = some c → val' (smallConst + k) = c)
    (hn : ∀ r v, st.regvn r = none → st'.regvn r = some v → val' v = regs r) :
    Dyn env sent st' val' regs flags w := by
  constructor
  · intro v hv
    rw [hval v (Or.inl hv), D.small v hv]
  · exact hc
  · intro r v hr h
    cases h' : st.regvn r with
    | none => exact hn r v h' h
    | some v' =>
      have := g.keep h'
      rw [this] at h; injection h with h; subst h
      rw [hval _ (S.valid r _ h')]
      exact D.reg r _ (g.nregs ▸ hr) h'
  · intro v h
    rw [g.nregs] at h
    rcases g.regvn st.nregs with e | ⟨hq, _⟩
    · exact D.flag v (e ▸ h)
    · exact absurd hq (Nat.lt_irrefl _)
  · intro n v hn h
    rw [g.nregs] at h
    rcases g.regvn (st.nregs + 1 + n) with e | ⟨hq, _⟩
    · rw [e] at h
      rw [hval _ (S.valid _ _ h)]
      exact D.slot n v hn h
    · omega
  · intro k e evn eres hk he h
    rw [g.tab] at hk
    exact D.eqn k e evn eres hk he (g.live S.next S.clen (S.tab k e evn hk).1 h)

theorem Free.grow {st st' : Lvn} {res f i} (F : Free st res) (S : Stat f i st) (g : Grow st st')
    (hr : st'.regvn res = Option.none) : Free st' res := by
  refine ⟨hr, ?_⟩
  intro k e evn h
  rw [g.tab] at h
  refine ⟨(F.tab k e evn h).1, ?_⟩
  intro eres he hl
  exact (F.tab k e evn h).2 eres he (g.live S.next S.clen (S.tab k e evn h).1 hl)

/-! ## numbers of operands -/

/-- What a number says about a value. -/
def Means (val : Nat → Word) (vn : Option Nat) (x : Word) : Prop :=
  (vn = none → x = 0) ∧ ∀ n, vn = some n → val n = x

theorem Means.eq {val : Nat → Word} {vn : Option Nat} {x y : Word} (h1 : Means val vn x) (h2 : Means val vn y) :
    x = y := by
  cases vn with
  | none => rw [h1.1 rfl, h2.1 rfl]
  | some n => rw [← h1.2 n rfl, ← h2.2 n rfl]

theorem int_small {x : Word} (h0 : 0 ≤ x.toInt) (h1 : x.toInt < smallConst) : x.toNat < smallConst := by
  have hx := x.isLt
  have e := BitVec.toInt_eq_toNat_cond x
  generalize x.toInt = y at *
  generalize x.toNat = z at *
  generalize smallConst = c at *
  split at e
  · omega
  · simp only [Nat.reducePow] at *
    omega

/-- What the number of an operand must satisfy. -/
structure NumSpec (W : Type) (f : Func) (i : Nat) (st st' : Lvn) (v : Val) (vn : Option Nat) : Prop where
  grow : Grow st st'
  stat : Stat f i st'
  valid : ∀ n, vn = some n → Valid st' n
  none : vn = Option.none → v = .invalid
  keep : ∀ r, v ≠ .reg r → st.regvn r = Option.none → st'.regvn r = Option.none
  dyn : ∀ (env : Env W) sent val regs flags w, Dyn env sent st val regs flags w →
    ∃ val', (∀ n, Valid st n → val' n = val n) ∧ Dyn env sent st' val' regs flags w ∧
      Means val' vn (eval env regs v)

/-- Nothing changes. -/
theorem numSpec_same {f : Func} {i : Nat} {st st' : Lvn} {v : Val} {vn : Option Nat} (S : Stat f i st) :
    ∀ n, vn = some n → st' = st → Valid st n →
      (∀ (env : Env W) sent val regs flags w, Dyn env sent st val regs flags w → val n = eval env regs v) →
      NumSpec W f i st st' v vn := by
  rintro n rfl rfl hva hm
  refine ⟨Grow.refl S.clen, S, ?_, by simp, fun _ _ h => h, ?_⟩
  · intro m hm'; injection hm' with e; subst e; exact hva
  · intro env sent val regs flags w D
    refine ⟨val, fun _ _ => rfl, D, by simp, ?_⟩
    intro m hm'; injection hm' with e; subst e; exact hm env sent val regs flags w D

/-- A new number that is not given to a register. -/
theorem numSpec_fresh {f : Func} {i : Nat} {st st' : Lvn} {v : Val} {vn : Option Nat} (S : Stat f i st) :
    vn = some st.next → st' = { st with next := st.next + 1 } → NumSpec W f i st st' v vn := by
  rintro rfl rfl
  have g : Grow st { st with next := st.next + 1 } :=
    ⟨rfl, rfl, rfl, Nat.le_succ _, ⟨[], by simp⟩, S.clen, fun _ => Or.inl rfl⟩
  refine ⟨g, S.grow g (by intro r v h1 h2; dsimp only at h2; rw [h1] at h2; cases h2), ?_, by simp, fun _ _ h => h, ?_⟩
  · intro n hn; injection hn with e; subst e
    have := S.next
    exact Or.inr (Or.inr ⟨this, Nat.lt_succ_self _⟩)
  · intro env sent val regs flags w D
    have hval : ∀ n, Valid st n → updVal val st.next (eval env regs v) n = val n := by
      intro n hn
      have := hn.lt S.next S.clen
      unfold updVal; rw [if_neg (by omega)]
    refine ⟨updVal val st.next (eval env regs v), hval, ?_, by simp, ?_⟩
    · refine D.grow S g hval ?_ (by intro r v h1 h2; dsimp only at h2; rw [h1] at h2; cases h2)
      intro k c hk
      rw [hval _ (Or.inr (Or.inl ⟨by omega, ?_⟩))]
      · exact D.consts k c hk
      · have := (List.getElem?_eq_some_iff.1 hk).1; dsimp only at this; omega
    · intro n hn; injection hn with e; subst e; unfold updVal; rw [if_pos rfl]

theorem setVn_regvn (st : Lvn) (r q : Nat) (v : Option Nat) :
    (st.setVn r v).regvn q = if q = r then v else st.regvn q := rfl

/-- The number of a register. -/
theorem regNum_spec {f : Func} {i : Nat} {st : Lvn} {r : Nat} (S : Stat f i st)
    (hv : r < f.nregs ∧ ReadSince f i r) : NumSpec W f i st (st.regNum r).2 (.reg r) (st.regNum r).1 := by
  unfold Lvn.regNum
  split
  · rename_i n hr
    refine numSpec_same S n rfl rfl (S.valid r n hr) ?_
    intro env sent val regs flags w D
    exact D.reg r n (by rw [S.nregs]; exact hv.1) hr
  · rename_i hr
    dsimp only
    have hrn := hv.1
    have g : Grow st ({ st with next := st.next + 1 }.setVn r (some st.next)) := by
      refine ⟨rfl, rfl, rfl, Nat.le_succ _, ⟨[], by simp [Lvn.setVn]⟩, S.clen, ?_⟩
      intro q
      rw [setVn_regvn]
      dsimp only
      split
      · rename_i e; subst e
        exact Or.inr ⟨by rw [S.nregs]; exact hrn, hr, _, rfl, Nat.le_refl _, Nat.lt_succ_self _⟩
      · exact Or.inl rfl
    have hnew : ∀ q v, st.regvn q = none → ({ st with next := st.next + 1 }.setVn r (some st.next)).regvn q = some v →
        q = r ∧ v = st.next := by
      intro q v h1 h2
      rw [setVn_regvn] at h2
      dsimp only at h2
      split at h2
      · injection h2 with e; exact ⟨‹_›, e.symm⟩
      · rw [h1] at h2; cases h2
    refine ⟨g, S.grow g ?_, ?_, by simp, ?_, ?_⟩
    · intro q v h1 h2
      obtain ⟨rfl, _⟩ := hnew q v h1 h2
      exact hv.2
    · intro n hn; injection hn with e; subst e
      have := S.next
      exact Or.inr (Or.inr ⟨this, Nat.lt_succ_self _⟩)
    · intro q hq h1
      rw [setVn_regvn, if_neg (by rintro rfl; exact hq rfl)]
      exact h1
    · intro env sent val regs flags w D
      have hval : ∀ n, Valid st n → updVal val st.next (regs r) n = val n := by
        intro n hn
        have := hn.lt S.next S.clen
        unfold updVal; rw [if_neg (by omega)]
      refine ⟨updVal val st.next (regs r), hval, ?_, by simp, ?_⟩
      · refine D.grow S g hval ?_ ?_
        · intro k c hk
          rw [hval _ (Or.inr (Or.inl ⟨by omega, ?_⟩))]
          · exact D.consts k c hk
          · have := (List.getElem?_eq_some_iff.1 hk).1
            simp only [Lvn.setVn] at this; omega
        · intro q v h1 h2
          obtain ⟨rfl, rfl⟩ := hnew q v h1 h2
          unfold updVal; rw [if_pos rfl]
      · intro n hn; injection hn with e; subst e; unfold updVal; rw [if_pos rfl]; rfl

/-- The number of a constant that is not small. -/
theorem bigNum_spec {f : Func} {i : Nat} {st : Lvn} {x : Word} (S : Stat f i st) :
    NumSpec W f i st (st.bigNum x).2 (.int x) (st.bigNum x).1 := by
  unfold Lvn.bigNum
  split
  · rename_i k hk
    rw [List.findIdx?_eq_some_iff_getElem] at hk
    obtain ⟨hlt, heq, _⟩ := hk
    have heq : st.consts[k] = x := by simpa using heq
    refine numSpec_same S _ rfl rfl (Or.inr (Or.inl ⟨by omega, by omega⟩)) ?_
    intro env sent val regs flags w D
    rw [D.consts k x (by rw [List.getElem?_eq_getElem hlt, heq])]
    rfl
  · split
    · rename_i hlen
      have g : Grow st { st with consts := st.consts ++ [x] } := by
        refine ⟨rfl, rfl, rfl, Nat.le_refl _, ⟨[x], rfl⟩, ?_, fun _ => Or.inl rfl⟩
        simp; omega
      refine ⟨g, S.grow g (by intro r v h1 h2; dsimp only at h2; rw [h1] at h2; cases h2), ?_, by simp, fun _ _ h => h, ?_⟩
      · intro n hn; injection hn with e; subst e
        exact Or.inr (Or.inl ⟨by omega, by simp⟩)
      · intro env sent val regs flags w D
        have hval : ∀ n, Valid st n → updVal val (smallConst + st.consts.length) x n = val n := by
          intro n hn
          unfold updVal; rw [if_neg]
          unfold Valid firstVn smallConst maxConsts at *
          omega
        refine ⟨updVal val (smallConst + st.consts.length) x, hval, ?_, by simp, ?_⟩
        · refine D.grow S g hval ?_ (by intro r v h1 h2; dsimp only at h2; rw [h1] at h2; cases h2)
          intro k c hk
          dsimp only at hk
          rw [List.getElem?_append] at hk
          split at hk
          · rename_i hk'
            rw [hval _ (Or.inr (Or.inl ⟨by omega, by omega⟩))]
            exact D.consts k c hk
          · have : k - st.consts.length = 0 := by
              have := (List.getElem?_eq_some_iff.1 hk).1
              simp at this; omega
            rw [this] at hk
            simp at hk
            unfold updVal; rw [if_pos (by omega)]; exact hk
        · intro n hn; injection hn with e; subst e; unfold updVal; rw [if_pos rfl]; rfl
    · exact numSpec_fresh S rfl rfl

/-- The number of a constant. -/
theorem intNum_spec {f : Func} {i : Nat} {st : Lvn} {x : Word} (S : Stat f i st) :
    NumSpec W f i st (st.intNum x).2 (.int x) (st.intNum x).1 := by
  unfold Lvn.intNum
  split
  · rename_i hx
    have := int_small hx.1 hx.2
    refine numSpec_same S x.toNat rfl rfl (Or.inl this) ?_
    intro env sent val regs flags w D
    rw [D.small _ this]
    simp [eval]
  · exact bigNum_spec S

/-- The number of an operand. -/
theorem valueNum_spec {f : Func} {i : Nat} {st st' : Lvn} {v : Val} {vn : Option Nat} (S : Stat f i st)
    (hv : ∀ r, v = .reg r → r < f.nregs ∧ ReadSince f i r) (h : st.valueNum v = some (vn, st')) :
    NumSpec W f i st st' v vn := by
  have other : st.otherNum v = some (vn, st') → NumSpec W f i st st' v vn := by
    intro h
    unfold Lvn.otherNum at h
    split at h
    · rename_i hi
      subst hi
      obtain ⟨rfl, rfl⟩ := h
      refine ⟨Grow.refl S.clen, S, by simp, fun _ => rfl, fun _ _ h => h, ?_⟩
      intro env sent val regs flags w D
      exact ⟨val, fun _ _ => rfl, D, fun _ => rfl, by simp⟩
    · split at h
      · simp only [Option.some.injEq, Prod.mk.injEq] at h
        exact numSpec_fresh S h.1.symm h.2.symm
      · simp only [Option.some.injEq, Prod.mk.injEq] at h
        exact numSpec_fresh S h.1.symm h.2.symm
      · cases h
  cases v with
  | reg r =>
    simp only [Lvn.valueNum, Option.some.injEq] at h
    have := regNum_spec (W := W) S (hv r rfl)
    rw [h] at this
    exact this
  | int x =>
    simp only [Lvn.valueNum, Option.some.injEq] at h
    have := intNum_spec (W := W) (x := x) S
    rw [h] at this
    exact this
  | _ => exact other (by simpa only [Lvn.valueNum] using h)

end Verif.Code
