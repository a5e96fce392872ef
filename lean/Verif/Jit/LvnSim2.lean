import Verif.Jit.LvnSim

/-!
# Comparisons, arguments and memory in local value numbering

Property C51: the instructions with rules of their own.
-/

namespace Verif.Code

variable {W : Type}

/-! ## setting single numbers -/

/-- A number for the flags or for an argument. -/
theorem Stat.setHigh {f : Func} {i : Nat} {st : Lvn} {q v : Nat} (S : Stat f i st) (hq : f.nregs ≤ q) (hv : Valid st v)
    (hf : q = f.nregs → v ≤ 1) : Stat f i (st.setVn q (some v)) := by
  refine ⟨S.nregs, S.next, S.clen, ?_, ?_, ?_, ?_⟩
  · intro p u h
    rw [setVn_regvn] at h
    split at h
    · injection h with h; subst h; exact hv
    · exact S.valid p u h
  · intro u h
    rw [setVn_regvn] at h
    split at h
    · rename_i e
      injection h with h; subst h
      exact hf (by rw [← e]; exact S.nregs)
    · exact S.flag u h
  · intro r u hr h
    rw [setVn_regvn, if_neg (by omega)] at h
    exact S.seen r u hr h
  · intro k e evn h
    obtain ⟨hv, hg, eres, j, ir, h1, h2, h3, h4, h5, h6, h7⟩ := S.tab k e evn h
    refine ⟨hv, hg, eres, j, ir, h1, h2, h3, h4, h5, h6, ?_⟩
    intro h8
    rw [setVn_regvn, if_neg (by omega)] at h8
    exact h7 h8

theorem Dyn.setFlag {env : Env W} {sent st val regs flags w f i} {v : Nat} (D : Dyn env sent st val regs flags w)
    (S : Stat f i st) (b : Bool) (hb : b = decide (v = 1)) :
    Dyn env sent (st.setVn st.nregs (some v)) val regs b w := by
  refine ⟨D.small, D.consts, ?_, ?_, ?_, ?_⟩
  · intro r u hr h
    have hr : r < st.nregs := hr
    rw [setVn_regvn, if_neg (by omega)] at h
    exact D.reg r u hr h
  · intro u h
    have : (st.setVn st.nregs (some v)).nregs = st.nregs := rfl
    rw [this, setVn_regvn, if_pos rfl] at h
    injection h with h; subst h; exact hb
  · intro n u hn h
    have : (st.setVn st.nregs (some v)).nregs = st.nregs := rfl
    rw [this, setVn_regvn, if_neg (by omega)] at h
    exact D.slot n u hn h
  · intro k e evn eres hk he h
    obtain ⟨_, _, eres', _, _, h1, h2, _⟩ := S.tab k e evn hk
    rw [he] at h1; injection h1 with h1; subst h1
    rw [setVn_regvn, if_neg (by have := S.nregs; omega)] at h
    exact D.eqn k e evn eres hk he h

theorem Dyn.setSlot {env : Env W} {sent st val regs flags w f i} {v n : Nat} (D : Dyn env sent st val regs flags w)
    (S : Stat f i st) (hr : env.recv w (BitVec.ofNat 64 n) = some (val v)) :
    Dyn env sent (st.setVn (st.nregs + 1 + n) (some v)) val regs flags w := by
  refine ⟨D.small, D.consts, ?_, ?_, ?_, ?_⟩
  · intro r u hr h
    have hr : r < st.nregs := hr
    rw [setVn_regvn, if_neg (by omega)] at h
    exact D.reg r u hr h
  · intro u h
    have : (st.setVn (st.nregs + 1 + n) (some v)).nregs = st.nregs := rfl
    rw [this, setVn_regvn, if_neg (by omega)] at h
    exact D.flag u h
  · intro m u hm h
    have : (st.setVn (st.nregs + 1 + n) (some v)).nregs = st.nregs := rfl
    rw [this, setVn_regvn] at h
    split at h
    · rename_i e
      injection h with h; subst h
      have : m = n := by omega
      subst this
      exact Or.inr hr
    · exact D.slot m u hm h
  · intro k e evn eres hk he h
    obtain ⟨_, _, eres', _, _, h1, h2, _⟩ := S.tab k e evn hk
    rw [he] at h1; injection h1 with h1; subst h1
    rw [setVn_regvn, if_neg (by have := S.nregs; omega)] at h
    exact D.eqn k e evn eres hk he h

/-- A register gets a new number although its value stays the same. -/
theorem Stat.renumber {f : Func} {i : Nat} {st : Lvn} {res : Nat} (S : Stat f i st) (hr : res < f.nregs)
    (hs : ReadSince f i res) : Stat f i ({ st with next := st.next + 1 }.setVn res (some st.next)) := by
  have g : Grow st { st with next := st.next + 1 } :=
    ⟨rfl, rfl, rfl, Nat.le_succ _, ⟨[], by simp⟩, S.clen, fun _ => Or.inl rfl⟩
  refine ⟨S.nregs, Nat.le_succ_of_le S.next, S.clen, ?_, ?_, ?_, ?_⟩
  · intro p u h
    rw [setVn_regvn] at h
    split at h
    · injection h with h; subst h; exact Or.inr (Or.inr ⟨S.next, Nat.lt_succ_self _⟩)
    · exact (show Valid { st with next := st.next + 1 } u from (S.valid p u h).grow g)
  · intro u h
    have : ({ st with next := st.next + 1 }.setVn res (some st.next)).nregs = st.nregs := rfl
    rw [this, setVn_regvn, if_neg (by have := S.nregs; omega)] at h
    exact S.flag u h
  · intro r u hr h
    rw [setVn_regvn] at h
    split at h
    · rename_i e; subst e; exact Or.inl hs
    · exact S.seen r u hr h
  · intro k e evn h
    obtain ⟨hv, hg, eres, j, ir, h1, h2, h3, h4, h5, h6, h7⟩ := S.tab k e evn h
    refine ⟨show Valid { st with next := st.next + 1 } evn from hv.grow g, hg, eres, j, ir, h1, h2, h3, h4, h5, h6, ?_⟩
    intro h8
    rw [setVn_regvn] at h8
    split at h8
    · injection h8 with h8
      have := hv.lt S.next S.clen
      omega
    · exact h7 h8

theorem Dyn.renumber {env : Env W} {sent st val regs flags w f i} {res : Nat} (D : Dyn env sent st val regs flags w)
    (S : Stat f i st) (hr : res < f.nregs) :
    Dyn env sent ({ st with next := st.next + 1 }.setVn res (some st.next)) (updVal val st.next (regs res)) regs flags w := by
  have hval : ∀ n, Valid st n → updVal val st.next (regs res) n = val n := by
    intro n hn
    have := hn.lt S.next S.clen
    unfold updVal; rw [if_neg (by omega)]
  have hn := S.nregs
  refine ⟨?_, ?_, ?_, ?_, ?_, ?_⟩
  · intro v hv; rw [hval v (Or.inl hv)]; exact D.small v hv
  · intro k c hk
    rw [hval _ (Or.inr (Or.inl ⟨by omega, ?_⟩))]
    · exact D.consts k c hk
    · have := (List.getElem?_eq_some_iff.1 hk).1
      simp only [Lvn.setVn] at this; omega
  · intro r v hr h
    have hr : r < st.nregs := hr
    rw [setVn_regvn] at h
    split at h
    · rename_i e; injection h with h; subst h; subst e
      unfold updVal; rw [if_pos rfl]
    · rw [hval v (S.valid r v h)]; exact D.reg r v hr h
  · intro v h
    have : ({ st with next := st.next + 1 }.setVn res (some st.next)).nregs = st.nregs := rfl
    rw [this, setVn_regvn, if_neg (by omega)] at h
    exact D.flag v h
  · intro n v hn h
    have : ({ st with next := st.next + 1 }.setVn res (some st.next)).nregs = st.nregs := rfl
    rw [this, setVn_regvn, if_neg (by omega)] at h
    rw [hval v (S.valid _ v h)]
    exact D.slot n v hn h
  · intro k e evn eres hk he h
    rw [setVn_regvn] at h
    split at h
    · injection h with h
      have := (S.tab k e evn hk).1.lt S.next S.clen
      omega
    · exact D.eqn k e evn eres hk he h

/-! ## executing single instructions -/

def State.flag (s : State W) (b : Bool) : State W := { s with flags := b, pc := s.pc + 1 }
def State.act (s : State W) (w : W) : State W := { s with world := w, pc := s.pc + 1 }
def State.nop (s : State W) : State W := { s with pc := s.pc + 1 }

section
variable (env : Env W) (ir : Ir) (s : State W)

theorem exec_toNop : execIr env ir.toNop s = some (.next s.nop) := exec_nop env ir s

theorem exec_cmp (h : ir.op = .cmp) : execIr env ir s =
    some (.next (s.flag (compare ir.cc (eval env s.regs ir.arg1) (eval env s.regs ir.arg2)))) := by
  unfold execIr oldValue
  rw [h]
  simp [Op.readsResult, effect, apply, writeReg, State.flag]

theorem exec_ccmp (h : ir.op = .ccmp) : execIr env ir s =
    some (.next (s.flag (s.flags && compare ir.cc (eval env s.regs ir.arg1) (eval env s.regs ir.arg2)))) := by
  unfold execIr oldValue
  rw [h]
  simp [Op.readsResult, effect, apply, writeReg, State.flag]

theorem exec_csel {res : Nat} (h : ir.op = .csel) (hr : ir.result = some res) : execIr env ir s =
    some (.next (s.give res (if s.flags then eval env s.regs ir.arg1 else eval env s.regs ir.arg2) none)) := by
  unfold execIr oldValue
  rw [h, hr]
  simp [Op.readsResult, effect, give, apply, writeReg, State.give]

theorem exec_cset {res : Nat} (h : ir.op = .cset) (hr : ir.result = some res) : execIr env ir s =
    some (.next (s.give res (if s.flags then 1 else 0) none)) := by
  unfold execIr oldValue
  rw [h, hr]
  simp [Op.readsResult, effect, give, apply, writeReg, State.give]

theorem exec_recv {res : Nat} (h : ir.op = .recv) (hr : ir.result = some res) : execIr env ir s =
    (env.recv s.world (eval env s.regs ir.arg1)).map fun x => .next (s.give res x none) := by
  unfold execIr oldValue
  rw [h, hr]
  simp only [Op.readsResult, effect, give, Bool.false_eq_true, if_false, Option.bind_some]
  cases env.recv s.world (eval env s.regs ir.arg1) <;> simp [apply, writeReg, State.give]

theorem exec_send (h : ir.op = .send) : execIr env ir s =
    (env.send s.world (eval env s.regs ir.arg1) (eval env s.regs ir.arg2)).map fun w => .next (s.act w) := by
  unfold execIr oldValue
  rw [h]
  simp only [Op.readsResult, effect, Verif.Code.act, Bool.false_eq_true, if_false, Option.bind_some]
  cases env.send s.world (eval env s.regs ir.arg1) (eval env s.regs ir.arg2) <;> simp [apply, writeReg, State.act]

theorem exec_store (h : ir.op = .store) : execIr env ir s =
    (env.store s.world ir.size (eval env s.regs ir.arg1) (eval env s.regs ir.arg2)).map fun w => .next (s.act w) := by
  unfold execIr oldValue
  rw [h]
  simp only [Op.readsResult, effect, Verif.Code.act, Bool.false_eq_true, if_false, Option.bind_some]
  cases env.store s.world ir.size (eval env s.regs ir.arg1) (eval env s.regs ir.arg2) <;> simp [apply, writeReg, State.act]

theorem exec_copy {res : Nat} (h : ir.op = .copy) (hr : ir.result = some res) : execIr env ir s =
    (env.copy s.world (s.regs res) (eval env s.regs ir.arg1) (eval env s.regs ir.arg2)).map fun w => .next (s.act w) := by
  unfold execIr oldValue
  rw [h, hr]
  simp only [Op.readsResult, effect, Verif.Code.act, if_true, Option.map_some, Option.bind_some]
  cases env.copy s.world (s.regs res) (eval env s.regs ir.arg1) (eval env s.regs ir.arg2) <;>
    simp [apply, writeReg, State.act]

theorem exec_move {res : Nat} (h : ir.op = .move) (hr : ir.result = some res) : execIr env ir s =
    (env.move s.world (s.regs res) (eval env s.regs ir.arg1) (eval env s.regs ir.arg2)).map fun w => .next (s.act w) := by
  unfold execIr oldValue
  rw [h, hr]
  simp only [Op.readsResult, effect, Verif.Code.act, if_true, Option.map_some, Option.bind_some]
  cases env.move s.world (s.regs res) (eval env s.regs ir.arg1) (eval env s.regs ir.arg2) <;>
    simp [apply, writeReg, State.act]

theorem exec_bzero {res : Nat} (h : ir.op = .bzero) (hr : ir.result = some res) : execIr env ir s =
    (env.bzero s.world (s.regs res) (eval env s.regs ir.arg1)).map fun w => .next (s.act w) := by
  unfold execIr oldValue
  rw [h, hr]
  simp only [Op.readsResult, effect, Verif.Code.act, if_true, Option.map_some, Option.bind_some]
  cases env.bzero s.world (s.regs res) (eval env s.regs ir.arg1) <;> simp [apply, writeReg, State.act]

theorem exec_memset {res : Nat} (h : ir.op = .memset) (hr : ir.result = some res) : execIr env ir s =
    (env.memset s.world ir.size (s.regs res) (eval env s.regs ir.arg1) (eval env s.regs ir.arg2)).map
      fun w => .next (s.act w) := by
  unfold execIr oldValue
  rw [h, hr]
  simp only [Op.readsResult, effect, Verif.Code.act, if_true, Option.map_some, Option.bind_some]
  cases env.memset s.world ir.size (s.regs res) (eval env s.regs ir.arg1) (eval env s.regs ir.arg2) <;>
    simp [apply, writeReg, State.act]

end

/-! ## comparisons and selections -/

section
variable {pool : Word → Size → Word} {psize : Nat} {f : Func} {i : Nat} {st st' : Lvn} {ir ir' : Ir}

theorem LvnCtx.argReg (C : LvnCtx f i st ir) (r : Nat) (h : ir.readsArg r) : r < f.nregs :=
  C.reg r (h.elim Or.inl fun h => Or.inr (Or.inl h))

/-- The flags get the result of the comparison. -/
theorem cmp_flag (S : Stat f (i + 1) st) (ha : ∀ r, ir.readsArg r → r < f.nregs) (h : lvnCmp st ir = some (ir', st')) :
    Stat f (i + 1) st' ∧ ir' = ir ∧ ∀ (env : Env W) sent val regs flags w, Dyn env sent st val regs flags w →
      Dyn env sent st' val regs (compare ir.cc (eval env regs ir.arg1) (eval env regs ir.arg2)) w := by
  unfold lvnCmp at h
  split at h
  · rename_i a b hc
    split at h
    · simp only [Option.some.injEq, Prod.mk.injEq] at h
      obtain ⟨rfl, rfl⟩ := h
      refine ⟨?_, rfl, ?_⟩
      · refine S.setHigh (by rw [S.nregs]; exact Nat.le_refl _) (Or.inl ?_) ?_
        · split <;> decide
        · intro _; split <;> decide
      · intro env sent val regs flags w D
        obtain ⟨e1, e2⟩ := canFold_spec D S ha hc
        rw [e1, e2]
        refine D.setFlag S _ ?_
        cases compare ir.cc a b <;> rfl
    · cases h
  · simp only [Option.some.injEq, Prod.mk.injEq] at h
    obtain ⟨rfl, rfl⟩ := h
    refine ⟨S.kill (st' := st.killFlags) rfl rfl rfl rfl (killFlags_or st), rfl, ?_⟩
    intro env sent val regs flags w D
    exact (D.kill (st' := st.killFlags) rfl rfl rfl (killFlags_or st)).anyFlags (killFlags_dead st) _

theorem cmp_rewr (C : LvnCtx f i st ir) (hop : ir.op = .cmp) (h : lvnCmp st ir = some (ir', st')) :
    Rewr W pool psize f i st ir st' ir' := by
  obtain ⟨hS, rfl, hD⟩ := cmp_flag (W := W) C.stat C.argReg h
  refine ⟨hS, by rw [hop]; simp, ?_⟩
  intro env sent sent' val s r L H D hr
  refine ⟨hr, ?_⟩
  rintro s' rfl
  rw [exec_cmp _ _ _ hop] at hr
  injection hr with hr; injection hr with hr; subst hr
  exact ⟨val, (hD env sent val s.regs s.flags s.world D).mono (H.pass (by rw [hop]; simp) (by rw [hop]; simp))⟩

theorem ccmp_rewr (C : LvnCtx f i st ir) (hop : ir.op = .ccmp) (h : lvnCcmp st ir = some (ir', st')) :
    Rewr W pool psize f i st ir st' ir' := by
  have pass : ∀ {sent sent' : Nat → Prop}, SentOk ir sent sent' → ∀ n, sent n → sent' n :=
    fun H => H.pass (by rw [hop]; simp) (by rw [hop]; simp)
  unfold lvnCcmp at h
  split at h
  · rename_i hv
    simp only [Option.some.injEq, Prod.mk.injEq] at h
    obtain ⟨rfl, rfl⟩ := h
    refine ⟨C.stat, by simp [Ir.toNop], ?_⟩
    intro env sent sent' val s r L H D hr
    have hf : s.flags = false := D.flag 0 hv
    rw [exec_ccmp _ _ _ hop, hf] at hr
    injection hr with hr
    subst hr
    have e : s.flag false = s.nop := by unfold State.flag State.nop; rw [← hf]
    refine ⟨?_, ?_⟩
    · rw [exec_toNop, Bool.false_and, e]
    · intro s' hs
      injection hs with hs; subst hs
      rw [Bool.false_and, e]
      exact ⟨val, D.mono (pass H)⟩
  · rename_i v hn hv
    have hv1 : v = 1 := by
      have := C.stat.flag v hv
      have : v ≠ 0 := by rintro rfl; exact hn rfl
      omega
    subst hv1
    have key := cmp_flag (W := W) (ir := { ir with op := .cmp }) C.stat C.argReg h
    obtain ⟨hS, rfl, hD⟩ := key
    refine ⟨hS, by simp, ?_⟩
    intro env sent sent' val s r L H D hr
    have hf : s.flags = true := D.flag 1 hv
    rw [exec_ccmp _ _ _ hop, hf, Bool.true_and] at hr
    injection hr with hr
    subst hr
    refine ⟨by rw [exec_cmp _ _ _ rfl], ?_⟩
    intro s' hs
    injection hs with hs; subst hs
    exact ⟨val, (hD env sent val s.regs s.flags s.world D).mono (pass H)⟩
  · simp only [Option.some.injEq, Prod.mk.injEq] at h
    obtain ⟨rfl, rfl⟩ := h
    refine ⟨C.stat.kill (st' := st.killFlags) rfl rfl rfl rfl (killFlags_or st), by rw [hop]; simp, ?_⟩
    intro env sent sent' val s r L H D hr
    refine ⟨hr, ?_⟩
    rintro s' rfl
    rw [exec_ccmp _ _ _ hop] at hr
    injection hr with hr; injection hr with hr; subst hr
    exact ⟨val, ((D.kill (st' := st.killFlags) rfl rfl rfl (killFlags_or st)).anyFlags (killFlags_dead st) _).mono (pass H)⟩

/-- The result of an instruction that becomes a move. -/
theorem mov_rewr {res : Nat} {v : Val} (C : LvnCtx f i st ir) (hr : ir.result = some res) (hd : ir.op.readsResult = false)
    (hc : ir.op ≠ .call ∧ ir.op ≠ .exit) (hv : ∀ r, v.regOf = some r → ir.readsArg r) (hi : v ≠ .invalid)
    (hx : ∀ (env : Env W) sent val (s : State W) , Dyn env sent st val s.regs s.flags s.world →
      execIr env ir s = some (.next (s.give res (eval env s.regs v) none)))
    (h : convertMov st ir v = some (ir', st')) : Rewr W pool psize f i st ir st' ir' := by
  have hdef : ir.defines res := ⟨hr, hd⟩
  have C1 : LvnAt f i ir (asMov ir v) res := by
    refine ⟨C.at_, hdef, hr, C.reg res (Or.inr (Or.inr hr)), ?_, C.self res hdef, rfl⟩
    intro r h
    have : ir.readsArg r := by
      rcases h with h | h
      · exact hv r h
      · cases h
    exact ⟨this.elim Or.inl fun h => Or.inr (Or.inl h), C.argReg r this⟩
  obtain ⟨N, ho⟩ := lvnMov_spec (W := W) C1 rfl hi C.stat (C.free res hdef) h
  refine ⟨N.stat, by rw [ho]; simp, ?_⟩
  intro env sent sent' val s r L H D h
  have hp : (asMov ir v).pure env s.regs = some (eval env s.regs v, none) := rfl
  obtain ⟨⟨val', D'⟩, fl', hp', hf⟩ := N.dyn env sent val s.regs s.flags s.world _ _ D hp (by simp)
  have e : fl' = none := by
    rcases hf with e | ⟨e, _⟩ <;> exact e
  rw [hx env sent val s D] at h
  injection h with h
  subst h
  refine ⟨?_, ?_⟩
  · rw [exec_pure _ _ _ res N.gen N.result, hp', e]; rfl
  · intro s' hs
    injection hs with hs
    subst hs
    exact ⟨val', D'.mono (H.pass hc.1 hc.2)⟩

/-- The state stays the same although there is a result: its number was unknown. -/
theorem lvnOther_same (C : LvnCtx f i st ir) (hf : ir.writesFlags = false) (hd : ir.op.readsResult = false) :
    lvnOther st ir = st := by
  unfold lvnOther
  rw [hf]
  simp only [Bool.false_eq_true, if_false]
  split
  · rename_i r hr
    exact setVn_none (C.free r ⟨hr, hd⟩).none
  · rfl

theorem csel_rewr {res : Nat} (C : LvnCtx f i st ir) (hop : ir.op = .csel) (hr : ir.result = some res)
    (hi : ir.arg1 ≠ .invalid ∧ ir.arg2 ≠ .invalid) (h : lvnCsel st ir = some (ir', st')) :
    Rewr W pool psize f i st ir st' ir' := by
  unfold lvnCsel at h
  split at h
  · rename_i v hv
    refine mov_rewr C hr (by rw [hop]; rfl) (by rw [hop]; simp) ?_ ?_ ?_ h
    · intro r h
      split at h
      · exact Or.inr h
      · exact Or.inl h
    · split
      · exact hi.2
      · exact hi.1
    · intro env sent val s D
      have := D.flag v hv
      rw [exec_csel _ _ _ hop hr, this]
      have hle := C.stat.flag v hv
      by_cases h0 : v = 0
      · subst h0; rfl
      · have h1 : v = 1 := by omega
        subst h1; rfl
  · simp only [Option.some.injEq, Prod.mk.injEq] at h
    obtain ⟨rfl, rfl⟩ := h
    have := other_rewr (W := W) (pool := pool) (psize := psize) C (by rw [hop]; simp) (by rw [hop]; simp) (by rw [hop]; simp) (by rw [hop]; simp)
    rw [lvnOther_same C (by unfold Ir.writesFlags; rw [hop]) (by rw [hop]; rfl)] at this
    exact this

theorem cset_rewr {res : Nat} (C : LvnCtx f i st ir) (hop : ir.op = .cset) (hr : ir.result = some res)
    (h : lvnCset st ir = some (ir', st')) : Rewr W pool psize f i st ir st' ir' := by
  unfold lvnCset at h
  split at h
  · rename_i v hv
    refine mov_rewr C hr (by rw [hop]; rfl) (by rw [hop]; simp) (by intro r h; cases h) (by simp) ?_ h
    intro env sent val s D
    have := D.flag v hv
    rw [exec_cset _ _ _ hop hr, this]
    have hle := C.stat.flag v hv
    by_cases h0 : v = 0
    · subst h0; rfl
    · have h1 : v = 1 := by omega
      subst h1; rfl
  · simp only [Option.some.injEq, Prod.mk.injEq] at h
    obtain ⟨rfl, rfl⟩ := h
    have := other_rewr (W := W) (pool := pool) (psize := psize) C (by rw [hop]; simp) (by rw [hop]; simp) (by rw [hop]; simp) (by rw [hop]; simp)
    rw [lvnOther_same C (by unfold Ir.writesFlags; rw [hop]) (by rw [hop]; rfl)] at this
    exact this

/-! ## arguments -/

/-- The number of an argument is below 2^32. -/
def SlotOk (v : Val) : Prop := ∃ a : Word, v = .int a ∧ a.toNat < 2 ^ 32

theorem slotOk_spec {v : Val} (h : SlotOk v) {n : Nat} (hn : argSlot v = some n) : v = .int (BitVec.ofNat 64 n) := by
  obtain ⟨a, rfl, ha⟩ := h
  simp only [argSlot, Option.some.injEq] at hn
  rw [Nat.mod_eq_of_lt ha] at hn
  subst hn
  simp

theorem recv_rewr (C : LvnCtx f i st ir) (hop : ir.op = .recv) (hs : SlotOk ir.arg1)
    (h : lvnRecv st ir = some (ir', st')) : Rewr W pool psize f i st ir st' ir' := by
  unfold lvnRecv at h
  rw [Option.bind_eq_some_iff] at h
  obtain ⟨n, hn, h⟩ := h
  split at h
  · simp only [Option.some.injEq, Prod.mk.injEq] at h
    obtain ⟨rfl, rfl⟩ := h
    have := other_rewr (W := W) (pool := pool) (psize := psize) C (by rw [hop]; simp) (by rw [hop]; simp) (by rw [hop]; simp) (by rw [hop]; simp)
    rw [lvnOther_same C (by unfold Ir.writesFlags; rw [hop]) (by rw [hop]; rfl)] at this
    exact this
  · rename_i hlt
    rw [Option.map_eq_some_iff] at h
    obtain ⟨res, hr, h⟩ := h
    have hdef : ir.defines res := ⟨hr, by rw [hop]; rfl⟩
    have hlr := C.reg res (Or.inr (Or.inr hr))
    have hds : DefinedSince f (i + 1) res := ⟨i, ir, Nat.lt_succ_self _, C.at_, hdef, noTarget_succ f i⟩
    have F := C.free res hdef
    have harg := slotOk_spec hs hn
    have pass : ∀ {sent sent' : Nat → Prop}, SentOk ir sent sent' → ∀ n, sent n → sent' n :=
      fun H => H.pass (by rw [hop]; simp) (by rw [hop]; simp)
    split at h
    · rename_i v hv
      simp only [Prod.mk.injEq] at h
      obtain ⟨rfl, rfl⟩ := h
      refine ⟨C.stat.write F hlr hds (by intro u hu; injection hu with e; subst e; exact C.stat.valid _ _ hv),
        by rw [hop]; simp, ?_⟩
      intro env sent sent' val s r L H D hx
      refine ⟨hx, ?_⟩
      rintro s' rfl
      rw [exec_recv _ _ _ hop hr, Option.map_eq_some_iff] at hx
      obtain ⟨x, hx, he⟩ := hx
      injection he with he; subst he
      refine ⟨val, Dyn.mono (D.write C.stat F hlr ?_) (pass H)⟩
      intro u hu; injection hu with e; subst e
      rcases D.slot n v (by omega) hv with c | c
      · exact absurd c (H.fresh (Or.inr hop) n hn)
      · rw [harg] at hx
        have hx : env.recv s.world (BitVec.ofNat 64 n) = some x := hx
        rw [c] at hx; injection hx
    · rename_i hv
      simp only [Lvn.newValue, Prod.mk.injEq] at h
      obtain ⟨rfl, rfl⟩ := h
      have n1 : ∀ u, NumSpec W f (i + 1) st { st with next := st.next + 1 } u (some st.next) :=
        fun u => numSpec_fresh C.stat rfl rfl
      have V1 : Valid { st with next := st.next + 1 } st.next := Or.inr (Or.inr ⟨C.stat.next, Nat.lt_succ_self _⟩)
      have hN := C.stat.nregs
      have S2 := (n1 .invalid).stat.setHigh (q := st.nregs + 1 + n) (v := st.next) (by omega) V1 (by omega)
      have F1 : Free { st with next := st.next + 1 } res := F.grow C.stat (n1 .invalid).grow F.none
      have F2 : Free ({ st with next := st.next + 1 }.setVn (st.nregs + 1 + n) (some st.next)) res := by
        refine ⟨?_, ?_⟩
        · rw [setVn_regvn, if_neg (by omega)]; exact F.none
        · intro k e evn hk
          refine ⟨(F1.tab k e evn hk).1, ?_⟩
          intro eres he hl
          obtain ⟨_, _, eres', _, _, h1, h2, _⟩ := C.stat.tab k e evn hk
          rw [he] at h1; injection h1 with h1; subst h1
          rw [setVn_regvn, if_neg (by omega)] at hl
          exact (F1.tab k e evn hk).2 eres he hl
      refine ⟨S2.write F2 hlr hds (by intro u hu; injection hu with e; subst e; exact V1), by rw [hop]; simp, ?_⟩
      intro env sent sent' val s r L H D hx
      refine ⟨hx, ?_⟩
      rintro s' rfl
      rw [exec_recv _ _ _ hop hr, Option.map_eq_some_iff] at hx
      obtain ⟨x, hx, he⟩ := hx
      injection he with he; subst he
      obtain ⟨val1, _, D1, m1⟩ := (n1 (.int x)).dyn env sent val s.regs s.flags s.world D
      have hval : val1 st.next = x := m1.2 _ rfl
      rw [harg] at hx
      have hx : env.recv s.world (BitVec.ofNat 64 n) = some x := hx
      have D2 := D1.setSlot (n1 .invalid).stat (v := st.next) (n := n) (by rw [hval]; exact hx)
      refine ⟨val1, Dyn.mono (D2.write S2 F2 hlr ?_) (pass H)⟩
      intro u hu; injection hu with e; subst e; exact hval

theorem send_rewr (C : LvnCtx f i st ir) (hop : ir.op = .send) (hs : SlotOk ir.arg1)
    (h : lvnSend st ir = some (ir', st')) : Rewr W pool psize f i st ir st' ir' := by
  unfold lvnSend at h
  rw [Option.bind_eq_some_iff] at h
  obtain ⟨n, hn, h⟩ := h
  have harg := slotOk_spec hs hn
  have pass : ∀ {sent sent' : Nat → Prop}, SentOk ir sent sent' → ∀ n, sent n → sent' n :=
    fun H => H.pass (by rw [hop]; simp) (by rw [hop]; simp)
  -- the instruction stays, and the arguments are at most renumbered
  have keepIr : ∀ st1, Stat f (i + 1) st1 → (∀ (env : Env W) sent val regs flags w, Dyn env sent st val regs flags w →
      ∃ val', Dyn env sent st1 val' regs flags w) → Rewr W pool psize f i st ir st1 ir := by
    intro st1 S1 hD
    refine ⟨S1, by rw [hop]; simp, ?_⟩
    intro env sent sent' val s r L H D hx
    refine ⟨hx, ?_⟩
    rintro s' rfl
    obtain ⟨val', D'⟩ := hD env sent val _ _ _ D
    rw [exec_send _ _ _ hop, Option.map_eq_some_iff] at hx
    obtain ⟨w, hx, he⟩ := hx
    injection he with he; subst he
    refine ⟨val', D'.small, D'.consts, D'.reg, D'.flag, ?_, D'.eqn⟩
    intro m v hm hv
    by_cases hmn : m = n
    · subst hmn; exact Or.inl (H.new hop m hn)
    · refine (D'.slot m v hm hv).imp (pass H m) ?_
      intro e
      rw [harg] at hx
      show env.recv w _ = _
      rw [L.sendOther _ _ _ _ m hx hm ?_]
      · exact e
      · intro c
        obtain ⟨a, ha, hlt⟩ := hs
        rw [ha] at harg
        injection harg with harg
        simp only [eval] at c
        have h1 : n < 2 ^ 32 := by
          rw [ha] at hn
          simp only [argSlot, Option.some.injEq] at hn
          omega
        have c := congrArg BitVec.toNat c
        rw [BitVec.toNat_ofNat, BitVec.toNat_ofNat, Nat.mod_eq_of_lt (by unfold trackArgs at hm; omega), Nat.mod_eq_of_lt (by omega)] at c
        exact hmn c
  split at h
  · simp only [Option.some.injEq, Prod.mk.injEq] at h
    obtain ⟨rfl, rfl⟩ := h
    exact keepIr st C.stat fun env sent val _ _ _ D => ⟨val, D⟩
  · split at h
    · rename_i r0 ha2
      rw [Option.map_eq_some_iff] at h
      obtain ⟨⟨vn, st1⟩, hv, h⟩ := h
      dsimp only at h
      have n1 := valueNum_spec (W := W) C.stat (v := ir.arg2) (vn := vn) (st' := st1) (by
        intro r e
        refine ⟨C.argReg r (Or.inr (by rw [e]; rfl)), i, ir, Nat.lt_succ_self _, C.at_, ?_, noTarget_succ f i⟩
        exact Or.inr (Or.inl (by rw [e]; rfl))) hv
      split at h
      · rename_i hc
        simp only [Prod.mk.injEq] at h
        obtain ⟨rfl, rfl⟩ := h
        obtain ⟨hne, hc⟩ := hc
        refine ⟨n1.stat, by simp [Ir.toNop], ?_⟩
        intro env sent sent' val s r L H D hx
        obtain ⟨val', _, D', m1⟩ := n1.dyn env sent val s.regs s.flags s.world D
        rw [exec_send _ _ _ hop, Option.map_eq_some_iff] at hx
        obtain ⟨w, hx, rfl⟩ := hx
        have hw : w = s.world := by
          obtain ⟨v, rfl⟩ : ∃ v, vn = some v := by
            cases vn with
            | none => exact absurd rfl hne
            | some v => exact ⟨v, rfl⟩
          rcases D'.slot n v (by omega) hc with c | c
          · exact absurd c (H.fresh (Or.inl hop) n hn)
          · refine L.sendSame _ _ _ _ hx ?_
            rw [m1.2 v rfl] at c
            rw [harg]; exact c
        have e : s.act w = s.nop := by unfold State.act State.nop; rw [hw]
        rw [e]
        refine ⟨exec_toNop env ir s, ?_⟩
        intro s' hs'
        injection hs' with hs'; subst hs'
        exact ⟨val', D'.mono (pass H)⟩
      · simp only [Prod.mk.injEq] at h
        obtain ⟨rfl, rfl⟩ := h
        refine keepIr st1 n1.stat ?_
        intro env sent val _ _ _ D
        obtain ⟨val', _, D', _⟩ := n1.dyn env sent val _ _ _ D
        exact ⟨val', D'⟩
    · simp only [Option.some.injEq, Prod.mk.injEq] at h
      obtain ⟨rfl, rfl⟩ := h
      exact keepIr st C.stat fun env sent val _ _ _ D => ⟨val, D⟩

/-! ## memory -/

/-- Instructions on memory whose result register holds the number of bytes. -/
def Op.block : Op → Bool
  | .copy | .move | .bzero | .memset => true
  | _ => false

theorem exec_block {env : Env W} {ir : Ir} {s : State W} {r : Res W} (hb : ir.op.block = true)
    (h : execIr env ir s = some r) : ∃ w, r = .next (s.act w) := by
  obtain ⟨old, e, regs, ho, he, hw, hr⟩ := execIr_inv h
  have hres := effect_old he (by cases hop : ir.op <;> rw [hop] at hb <;> simp_all [Op.block, Op.readsResult])
  rw [hres] at hw
  simp only [writeReg, Option.some.injEq] at hw
  subst hw
  have : e.ctl = .next ∧ e.flags = none := by
    cases hop : ir.op <;> rw [hop] at hb he <;> simp only [Op.block, Bool.false_eq_true] at hb <;>
      simp only [effect, act, Option.map_eq_some_iff] at he <;> obtain ⟨_, _, rfl⟩ := he <;> exact ⟨rfl, rfl⟩
  rw [this.1, this.2] at hr
  exact ⟨e.world, hr⟩

theorem countConst_spec {env : Env W} {sent val} {s : State W} {c : Word} (C : LvnCtx f i st ir)
    (D : Dyn env sent st val s.regs s.flags s.world) (h : countConst st ir = some c) :
    ∃ res, ir.result = some res ∧ s.regs res = c := by
  unfold countConst at h
  rw [Option.bind_eq_some_iff] at h
  obtain ⟨res, hr, h⟩ := h
  exact ⟨res, hr, regConst_spec D C.stat (C.reg res (Or.inr (Or.inr hr))) h⟩

/-- The instruction `ir1` remains. -/
theorem clobber_rewr {ir1 : Ir} (C : LvnCtx f i st ir) (hb : ir.op.block = true) (hres : ir1.result = ir.result)
    (hj : ir1.op ≠ .jump)
    (hx : ∀ (env : Env W) sent val (s : State W) r, LvnLaws env pool psize → Dyn env sent st val s.regs s.flags s.world →
      execIr env ir s = some r → execIr env ir1 s = some r)
    (h : clobber st ir1 = some (ir', st')) : Rewr W pool psize f i st ir st' ir' := by
  unfold clobber at h
  rw [Option.map_eq_some_iff] at h
  obtain ⟨res, hr, h⟩ := h
  rw [hres] at hr
  simp only [Lvn.newValue, Prod.mk.injEq] at h
  obtain ⟨rfl, rfl⟩ := h
  have hlr := C.reg res (Or.inr (Or.inr hr))
  have hop : ir.op.readsResult = true ∧ ir.op ≠ .call ∧ ir.op ≠ .exit ∧ ir.op ≠ .send := by
    cases hop : ir.op <;> rw [hop] at hb <;> simp_all [Op.block, Op.readsResult]
  refine ⟨C.stat.renumber hlr ⟨i, ir, Nat.lt_succ_self _, C.at_, Or.inr (Or.inr ⟨hop.1, hr⟩), noTarget_succ f i⟩, hj, ?_⟩
  intro env sent sent' val s r L H D h
  refine ⟨hx env sent val s r L D h, ?_⟩
  rintro s' rfl
  have A := after_exec L h
  obtain ⟨w, e⟩ := exec_block hb h
  injection e with e
  subst e
  have D1 := D.world (A.world hop.2.2.2 hop.2.1 hop.2.2.1)
  exact ⟨_, (D1.renumber C.stat hlr).mono (H.pass hop.2.1 hop.2.2.1)⟩

/-- The state does not change. -/
theorem block_rewr (C : LvnCtx f i st ir) (hb : ir.op.block = true) (hj : ir'.op ≠ .jump)
    (hx : ∀ (env : Env W) sent val (s : State W) r, LvnLaws env pool psize → Dyn env sent st val s.regs s.flags s.world →
      execIr env ir s = some r → execIr env ir' s = some r) : Rewr W pool psize f i st ir st ir' := by
  refine ⟨C.stat, hj, ?_⟩
  intro env sent sent' val s r L H D h
  refine ⟨hx env sent val s r L D h, ?_⟩
  rintro s' rfl
  have A := after_exec L h
  have hop : ir.op ≠ .call ∧ ir.op ≠ .exit ∧ ir.op ≠ .send := by
    cases hop : ir.op <;> rw [hop] at hb <;> simp_all [Op.block]
  obtain ⟨w, e⟩ := exec_block hb h
  injection e with e
  subst e
  exact ⟨val, (D.world (A.world hop.2.2 hop.1 hop.2.1)).mono (H.pass hop.1 hop.2.1)⟩

theorem act_same {s : State W} {w : W} (h : w = s.world) : s.act w = s.nop := by
  unfold State.act State.nop; rw [h]

/-- No bytes. -/
theorem zero_exec {env : Env W} {sent val} {s : State W} {r : Res W} (C : LvnCtx f i st ir) (L : LvnLaws env pool psize)
    (hb : ir.op.block = true) (D : Dyn env sent st val s.regs s.flags s.world) (hc : countConst st ir = some 0)
    (h : execIr env ir s = some r) : execIr env ir.toNop s = some r := by
  obtain ⟨res, hr, h0⟩ := countConst_spec C D hc
  rw [exec_toNop]
  cases hop : ir.op <;> rw [hop] at hb <;> simp only [Op.block, Bool.false_eq_true] at hb
  · rw [exec_copy _ _ _ hop hr, h0, Option.map_eq_some_iff] at h
    obtain ⟨w, h, rfl⟩ := h
    rw [act_same (L.copy0 _ _ _ _ h)]
  · rw [exec_bzero _ _ _ hop hr, h0, Option.map_eq_some_iff] at h
    obtain ⟨w, h, rfl⟩ := h
    rw [act_same (L.bzero0 _ _ _ h)]
  · rw [exec_move _ _ _ hop hr, h0, Option.map_eq_some_iff] at h
    obtain ⟨w, h, rfl⟩ := h
    rw [act_same (L.move0 _ _ _ _ h)]
  · rw [exec_memset _ _ _ hop hr, h0, Option.map_eq_some_iff] at h
    obtain ⟨w, h, rfl⟩ := h
    rw [act_same (L.memset0 _ _ _ _ _ h)]

theorem asStore_exec {env : Env W} {s : State W} {size : Size} {v : Word} (ir : Ir) :
    execIr env (asStore ir size v) s = (env.store s.world size v (eval env s.regs ir.arg1)).map fun w => .next (s.act w) :=
  exec_store env (asStore ir size v) s rfl

theorem copy_rewr (C : LvnCtx f i st ir) (hop : ir.op = .copy ∨ ir.op = .move)
    (hp : ∀ off, ir.arg2 = .cpool off → off.toNat < psize) (h : lvnCopy pool st ir = some (ir', st')) :
    Rewr W pool psize f i st ir st' ir' := by
  have hb : ir.op.block = true := by rcases hop with e | e <;> rw [e] <;> rfl
  have hj : ir.op ≠ .jump := by rcases hop with e | e <;> rw [e] <;> simp
  unfold lvnCopy at h
  split at h
  · rename_i off ha
    dsimp only at h
    -- moving from the constant pool is copying
    have hcopy : ∀ (env : Env W) sent val (s : State W) r, LvnLaws env pool psize → Dyn env sent st val s.regs s.flags s.world →
        execIr env ir s = some r → execIr env { ir with op := .copy } s = some r := by
      intro env sent val s r L D h
      rcases hop with e | e
      · rw [← h]; congr 1; rw [← e]
      · cases hr : ir.result with
        | none =>
          unfold execIr oldValue at h
          rw [e, hr] at h
          simp [Op.readsResult] at h
        | some res =>
          rw [exec_move _ _ _ e hr, ha, Option.map_eq_some_iff] at h
          obtain ⟨w, h, rfl⟩ := h
          rw [exec_copy (res := res) _ _ _ rfl rfl]
          simp only [ha]
          show Option.map _ (env.copy _ _ _ (env.cpool + off)) = _
          rw [L.movePool _ _ _ _ _ (hp off ha) h]; rfl
    have hcount : countConst st { ir with op := .copy } = countConst st ir := rfl
    rw [hcount] at h
    split at h
    · rename_i count hc
      split at h
      · rename_i h0
        simp only [Option.some.injEq, Prod.mk.injEq] at h
        obtain ⟨rfl, rfl⟩ := h
        refine block_rewr C hb (by simp [Ir.toNop]) ?_
        intro env sent val s r L D h
        rw [h0] at hc
        rw [exec_toNop, ← exec_toNop env ir]
        exact zero_exec C L hb D hc h
      · split at h
        · rename_i size hsz
          simp only [Option.some.injEq, Prod.mk.injEq] at h
          obtain ⟨rfl, rfl⟩ := h
          refine block_rewr C hb (by simp [asStore]) ?_
          intro env sent val s r L D h
          obtain ⟨res, hr, h0⟩ := countConst_spec C D hc
          have h := hcopy env sent val s r L D h
          rw [exec_copy _ { ir with op := .copy } _ rfl hr, Option.map_eq_some_iff] at h
          obtain ⟨w, h', rfl⟩ := h
          simp only [ha, h0] at h'
          rw [asStore_exec]
          rw [L.copyPool _ _ _ _ _ _ (hp off ha) hsz h']; rfl
        · exact clobber_rewr (ir1 := { ir with op := .copy }) C hb rfl (by simp) hcopy h
    · exact clobber_rewr (ir1 := { ir with op := .copy }) C hb rfl (by simp) hcopy h
  · split at h
    · rename_i hc
      simp only [Option.some.injEq, Prod.mk.injEq] at h
      obtain ⟨rfl, rfl⟩ := h
      refine block_rewr C hb (by simp [Ir.toNop]) ?_
      intro env sent val s r L D h
      exact zero_exec C L hb D hc h
    · exact clobber_rewr C hb rfl hj (fun _ _ _ _ _ _ _ h => h) h

/-- Filling with zeros; `ir1` is the present form. -/
theorem bzero_rewr {ir1 : Ir} (C : LvnCtx f i st ir) (hb : ir.op.block = true) (hop : ir1.op = .bzero)
    (hres : ir1.result = ir.result)
    (hx : ∀ (env : Env W) sent val (s : State W) r, LvnLaws env pool psize → Dyn env sent st val s.regs s.flags s.world →
      execIr env ir s = some r → execIr env ir1 s = some r)
    (h : lvnBzero st ir1 = some (ir', st')) : Rewr W pool psize f i st ir st' ir' := by
  unfold lvnBzero at h
  have hcount : countConst st ir1 = countConst st ir := by unfold countConst; rw [hres]
  rw [hcount] at h
  split at h
  · rename_i count hc
    split at h
    · rename_i h0
      simp only [Option.some.injEq, Prod.mk.injEq] at h
      obtain ⟨rfl, rfl⟩ := h
      refine block_rewr C hb (by simp [Ir.toNop]) ?_
      intro env sent val s r L D h
      rw [h0] at hc
      rw [exec_toNop, ← exec_toNop env ir]
      exact zero_exec C L hb D hc h
    · split at h
      · rename_i size hsz
        simp only [Option.some.injEq, Prod.mk.injEq] at h
        obtain ⟨rfl, rfl⟩ := h
        refine block_rewr C hb (by simp [asStore]) ?_
        intro env sent val s r L D h
        obtain ⟨res, hr, h0⟩ := countConst_spec C D hc
        have h := hx env sent val s r L D h
        rw [exec_bzero _ _ _ hop (hres.trans hr), Option.map_eq_some_iff] at h
        obtain ⟨w, h', rfl⟩ := h
        rw [h0] at h'
        rw [asStore_exec, L.bzeroStore _ _ _ _ _ hsz h']; rfl
      · exact clobber_rewr C hb hres (by rw [hop]; simp) hx h
  · exact clobber_rewr C hb hres (by rw [hop]; simp) hx h

/-- The end of the rule for MEMSET. -/
theorem memsetCount_rewr {ir1 : Ir} {v : Word} (C : LvnCtx f i st ir) (hb : ir.op.block = true) (hop : ir1.op = .memset)
    (hres : ir1.result = ir.result)
    (hx : ∀ (env : Env W) sent val (s : State W) r, LvnLaws env pool psize → Dyn env sent st val s.regs s.flags s.world →
      execIr env ir s = some r → execIr env ir1 s = some r ∧ eval env s.regs ir1.arg2 = v)
    (hfit : ir'.op = .store → ∃ b, ir1.size.bits = some b ∧ v.toNat < 2 ^ b)
    (h : lvnMemsetCount st ir1 v = some (ir', st')) : Rewr W pool psize f i st ir st' ir' := by
  unfold lvnMemsetCount at h
  have hcount : countConst st ir1 = countConst st ir := by unfold countConst; rw [hres]
  rw [hcount] at h
  have hx1 := fun env sent val s r L D h => (hx env sent val s r L D h).1
  split at h
  · rename_i count hc
    split at h
    · rename_i h0
      simp only [Option.some.injEq, Prod.mk.injEq] at h
      obtain ⟨rfl, rfl⟩ := h
      refine block_rewr C hb (by simp [Ir.toNop]) ?_
      intro env sent val s r L D h
      rw [h0] at hc
      rw [exec_toNop, ← exec_toNop env ir]
      exact zero_exec C L hb D hc h
    · split at h
      · rename_i size hsz
        rw [Option.map_eq_some_iff] at h
        obtain ⟨m, hm, h⟩ := h
        simp only [Prod.mk.injEq] at h
        obtain ⟨rfl, rfl⟩ := h
        obtain ⟨b, hb1, hb2⟩ := hfit rfl
        refine block_rewr C hb (by simp [asStore]) ?_
        intro env sent val s r L D h
        obtain ⟨res, hr, h0⟩ := countConst_spec C D hc
        obtain ⟨h', hv⟩ := hx env sent val s r L D h
        rw [exec_memset _ _ _ hop (hres.trans hr), Option.map_eq_some_iff] at h'
        obtain ⟨w, h', rfl⟩ := h'
        rw [h0, hv] at h'
        rw [asStore_exec, L.memsetStore _ _ _ _ _ _ _ _ _ hsz hm hb1 hb2 h']; rfl
      · exact clobber_rewr C hb hres (by rw [hop]; simp) hx1 h
  · exact clobber_rewr C hb hres (by rw [hop]; simp) hx1 h

/-- The value fits in the elements. -/
def MemsetFits (ir ir' : Ir) : Prop :=
  ir'.op = .store → ∃ v b, ir.arg2 = .int v ∧ ir.size.bits = some b ∧ v.toNat < 2 ^ b

theorem memset_rewr (C : LvnCtx f i st ir) (hop : ir.op = .memset) (fit : MemsetFits ir ir')
    (h : lvnMemset st ir = some (ir', st')) : Rewr W pool psize f i st ir st' ir' := by
  have hb : ir.op.block = true := by rw [hop]; rfl
  unfold lvnMemset at h
  split at h
  · rename_i v hv
    have ev : ∀ {env : Env W} {sent val} {s : State W}, Dyn env sent st val s.regs s.flags s.world →
        eval env s.regs ir.arg2 = v := fun D => isConst_spec D C.stat (fun r h => C.argReg r (Or.inr h)) hv
    have hres : ∀ {env : Env W} {s : State W} {r : Res W}, execIr env ir s = some r → ∃ res, ir.result = some res := by
      intro env s r h
      cases hr : ir.result with
      | some res => exact ⟨res, rfl⟩
      | none =>
        unfold execIr oldValue at h
        rw [hop, hr] at h
        simp [Op.readsResult] at h
    split at h
    · rename_i h0
      refine bzero_rewr (ir1 := { ir with op := .bzero, size := .unspec, arg2 := .invalid }) C hb rfl rfl ?_ h
      intro env sent val s r L D h
      obtain ⟨res, hr⟩ := hres h
      rw [exec_memset _ _ _ hop hr, ev D, h0, Option.map_eq_some_iff] at h
      obtain ⟨w, h, rfl⟩ := h
      rw [exec_bzero _ { ir with op := .bzero, size := .unspec, arg2 := .invalid } _ rfl hr]
      simp only
      rw [L.memsetZero _ _ _ _ _ h]; rfl
    · rw [Option.bind_eq_some_iff] at h
      obtain ⟨m, hm, h⟩ := h
      split at h
      · rename_i hc
        refine memsetCount_rewr (ir1 := { ir with size := .s8, arg2 := .int (v &&& 0xff) }) C hb ?_ rfl ?_ ?_ h
        · exact hop
        · intro env sent val s r L D h
          obtain ⟨res, hr⟩ := hres h
          rw [exec_memset _ _ _ hop hr, ev D, Option.map_eq_some_iff] at h
          obtain ⟨w, h, rfl⟩ := h
          refine ⟨?_, rfl⟩
          rw [exec_memset _ { ir with size := .s8, arg2 := .int (v &&& 0xff) } _ hop hr]
          show Option.map _ (env.memset _ .s8 _ (eval env s.regs ir.arg1) (v &&& 0xff)) = _
          rw [L.memsetByte _ _ _ _ _ _ _ hm hc h]; rfl
        · intro _
          refine ⟨8, rfl, ?_⟩
          rw [BitVec.toNat_and]
          have : (255 : Word).toNat = 255 := rfl
          rw [this]
          exact Nat.lt_of_le_of_lt Nat.and_le_right (by decide)
      · refine memsetCount_rewr C hb hop rfl ?_ ?_ h
        · intro env sent val s r L D h
          exact ⟨h, ev D⟩
        · intro hs
          obtain ⟨v', b, h1, h2, h3⟩ := fit hs
          rw [h1] at hv
          injection hv with hv
          subst hv
          exact ⟨b, h2, h3⟩
  · exact clobber_rewr C hb rfl (by rw [hop]; simp) (fun _ _ _ _ _ _ _ h => h) h

end

end Verif.Code
