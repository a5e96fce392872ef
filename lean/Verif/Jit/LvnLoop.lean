import Verif.Jit.LvnSim2
import Verif.Jit.CpropProps

/-!
# The loop of local value numbering

Property C51: every instruction, and the invariant at every position.
-/

namespace Verif.Code

variable {W : Type}

/-! ## assumptions about the function -/

/-- A well-formed instruction. -/
structure IrOk (psize : Nat) (ir : Ir) : Prop where
  accepted : ir.accepted = true
  result : ir.op.generic = true ∨ ir.op = .csel ∨ ir.op = .cset → ∃ res, ir.result = some res
  div : ir.op = .div → ir.size = .unspec
  slot : ir.op = .send ∨ ir.op = .recv → SlotOk ir.arg1
  /-- the constant pool has `psize` bytes -/
  pool : ir.op = .copy ∨ ir.op = .move → ∀ off, ir.arg2 = .cpool off → off.toNat < psize

/-- Rewritings that are known to be wrong did not happen. -/
structure OutOk (ir ir' : Ir) : Prop where
  /-- an instruction with an overflow check keeps its operation -/
  checked : ir.op = .add ∨ ir.op = .sub ∨ ir.op = .mul ∨ ir.op = .exp → Kept ir ir'
  /-- so does a power of a register -/
  base : ir.op = .exp → ∀ r, ir.arg1 = .reg r → ir'.op = .exp
  memset : ir.op = .memset → MemsetFits ir ir'

/-- What is assumed about the function. -/
structure LvnOk (psize : Nat) (f : Func) : Prop where
  reg : RegsOk f
  marks : TargetsMarked f
  irs : ∀ ir ∈ f.irs, IrOk psize ir
  /-- each register has one definition -/
  single : ∀ (i j r : Nat) (a b : Ir), f.irs[i]? = some a → f.irs[j]? = some b → a.defines r → b.defines r → i = j
  /-- and is not used before it in straight code -/
  order : ∀ (i j r : Nat) (a b : Ir), i ≤ j → f.irs[i]? = some a → f.irs[j]? = some b → a.reads r → b.defines r →
    ¬ NoTarget f i (j + 1)
  /-- an argument that was overwritten is not used before the call -/
  args : ∀ (i j n : Nat) (a b : Ir), i < j → f.irs[i]? = some a → f.irs[j]? = some b → a.op = .send →
    argSlot a.arg1 = some n → b.op = .send ∨ b.op = .recv → argSlot b.arg1 = some n → NoTarget f i (j + 1) →
    ∃ (k : Nat) (c : Ir), i < k ∧ k < j ∧ f.irs[k]? = some c ∧ (c.op = .call ∨ c.op = .exit)

/-- The argument has been overwritten since the last mark and the last call. -/
def Sent (f : Func) (k n : Nat) : Prop :=
  ∃ (j : Nat) (a : Ir), j < k ∧ f.irs[j]? = some a ∧ a.op = .send ∧ argSlot a.arg1 = some n ∧ NoTarget f j k ∧
    ∀ (m : Nat) (c : Ir), j < m → m < k → f.irs[m]? = some c → c.op ≠ .call ∧ c.op ≠ .exit

/-! ## one instruction -/

theorem accepted_int2 {ir : Ir} (h : ir.accepted = true) (ho : ir.op.access = (.int, .int)) :
    ir.arg1 ≠ .invalid ∧ ir.arg2 ≠ .invalid := by
  unfold Ir.accepted at h
  rw [ho] at h
  simp only [Bool.and_eq_true] at h
  refine ⟨?_, ?_⟩ <;> intro c <;> rw [c] at h <;> simp [Access.accepts] at h

theorem lvnIr_rewr {pool psize irs f i st st' ir ir'} (C : LvnCtx f i st ir) (ok : IrOk psize ir) (out : OutOk ir ir')
    (hj : ir.op ≠ .jump) (h : lvnIr pool irs i st ir = some (ir', st')) : Rewr W pool psize f i st ir st' ir' := by
  have gen : ∀ (hg : ir.op.generic = true),
      (∀ res, LvnAt f i ir ir res → Free st res → Numbered W f i res none st ir st' ir') →
      Rewr W pool psize f i st ir st' ir' := by
    intro hg hN
    obtain ⟨res, hr⟩ := ok.result (Or.inl hg)
    have hdef : ir.defines res := ⟨hr, by cases hop : ir.op <;> rw [hop] at hg <;> simp_all [Op.generic, Op.readsResult]⟩
    have A : LvnAt f i ir ir res := ⟨C.at_, hdef, hr, C.reg res (Or.inr (Or.inr hr)),
      fun r h => ⟨h.elim Or.inl fun h => Or.inr (Or.inl h), C.argReg r h⟩, C.self res hdef, hg⟩
    exact (hN res A (C.free res hdef)).rewr C hg hr out.checked
  unfold lvnIr at h
  cases hop : ir.op <;> rw [hop] at h <;> dsimp only at h
  case mul => exact gen (by rw [hop]; rfl) fun res A F => lvnMul_spec A hop (out.checked (by simp [hop])) C.stat F h
  case div => exact gen (by rw [hop]; rfl) fun res A F => lvnDiv_spec A hop (ok.div hop) C.stat F h
  case add => exact gen (by rw [hop]; rfl) fun res A F => lvnAdd_spec A hop (out.checked (by simp [hop])) C.stat F h
  case sub => exact gen (by rw [hop]; rfl) fun res A F => lvnSub_spec A hop (out.checked (by simp [hop])) C.stat F h
  case neg => exact gen (by rw [hop]; rfl) fun res A F => lvnNeg_spec A hop C.stat F h
  case xor => exact gen (by rw [hop]; rfl) fun res A F => lvnXor_spec A hop (accepted_int2 ok.accepted (by rw [hop]; rfl)) C.stat F h
  case asr => exact gen (by rw [hop]; rfl) fun res A F => lvnAsr_spec A hop C.stat F h
  case mov =>
    refine gen (by rw [hop]; rfl) fun res A F => (lvnMov_spec A hop ?_ C.stat F h).1
    have := ok.accepted
    unfold Ir.accepted at this
    rw [hop] at this
    intro c
    rw [c] at this
    simp [Op.access, Access.accepts] at this
  case clamp => exact gen (by rw [hop]; rfl) fun res A F => lvnClamp_spec A hop C.stat F h
  case exp =>
    exact gen (by rw [hop]; rfl) fun res A F => lvnExp_spec A hop (out.checked (by simp [hop])) (out.base hop) C.stat F h
  case cmp => exact cmp_rewr C hop h
  case ccmp => exact ccmp_rewr C hop h
  case csel =>
    obtain ⟨res, hr⟩ := ok.result (by simp [hop])
    exact csel_rewr C hop hr (accepted_int2 ok.accepted (by rw [hop]; rfl)) h
  case cset =>
    obtain ⟨res, hr⟩ := ok.result (by simp [hop])
    exact cset_rewr C hop hr h
  case jump => exact absurd hop hj
  case recv => exact recv_rewr C hop (ok.slot (by simp [hop])) h
  case send => exact send_rewr C hop (ok.slot (by simp [hop])) h
  case move => exact copy_rewr C (Or.inr hop) (ok.pool (by simp [hop])) h
  case copy => exact copy_rewr C (Or.inl hop) (ok.pool (by simp [hop])) h
  case bzero => exact bzero_rewr C (by rw [hop]; rfl) hop rfl (fun _ _ _ _ _ _ _ h => h) h
  case memset => exact memset_rewr C hop (out.memset hop) h
  case exit | call =>
    simp only [Option.some.injEq, Prod.mk.injEq] at h
    obtain ⟨rfl, rfl⟩ := h
    exact call_rewr C (by simp [hop])
  all_goals
    simp only [Option.some.injEq, Prod.mk.injEq] at h
    obtain ⟨rfl, rfl⟩ := h
    exact other_rewr C (by simp [hop]) (by simp [hop]) (by simp [hop]) (by simp [hop])

/-! ## entering an instruction -/

theorem reset_reg {st : Lvn} {q : Nat} (h : q < st.nregs + 1 + trackArgs) : st.reset.regvn q = none := by
  unfold Lvn.reset
  dsimp only
  rw [if_pos h]

theorem reset_or (st : Lvn) (q : Nat) : st.reset.regvn q = none ∨ st.reset.regvn q = st.regvn q := by
  unfold Lvn.reset
  dsimp only
  split
  · exact Or.inl rfl
  · exact Or.inr rfl

/-- The state with which the instruction is looked at. -/
def Lvn.entered (st : Lvn) (reset : Bool) (ir : Ir) : Lvn := if reset || ir.target then st.reset else st

theorem NoTarget.next {f : Func} {j k : Nat} {ir : Ir} (h : NoTarget f j k) (hk : f.irs[k]? = some ir)
    (ht : ir.target = false) : NoTarget f j (k + 1) := by
  intro m t h1 h2 h3
  by_cases e : m = k
  · subst e; rw [hk] at h3; injection h3 with h3; subst h3; exact ht
  · exact h m t h1 (by omega) h3

theorem Stat.entered {f : Func} {k : Nat} {st : Lvn} {reset : Bool} {ir : Ir} (S : Stat f k st) (hk : f.irs[k]? = some ir) :
    Stat f (k + 1) (st.entered reset ir) := by
  have hn := S.nregs
  unfold Lvn.entered
  split
  · refine ⟨S.nregs, S.next, S.clen, ?_, ?_, ?_, ?_⟩
    · intro q v h
      rcases reset_or st q with e | e
      · rw [e] at h; cases h
      · rw [e] at h; exact S.valid q v h
    · intro v h
      have : st.reset.nregs = st.nregs := rfl
      rw [this, reset_reg (by omega)] at h; cases h
    · intro r v hr h
      rw [reset_reg (by omega)] at h; cases h
    · intro j e evn h
      obtain ⟨hv, hg, eres, j, a, h1, h2, h3, h4, h5, h6, h7⟩ := S.tab j e evn h
      refine ⟨hv, hg, eres, j, a, h1, h2, by omega, h4, h5, h6, ?_⟩
      intro h8
      rw [reset_reg (by omega)] at h8; cases h8
  · rename_i hr
    simp only [Bool.or_eq_true, not_or, Bool.not_eq_true] at hr
    refine ⟨S.nregs, S.next, S.clen, S.valid, S.flag, ?_, ?_⟩
    · intro r v hr' h
      rcases S.seen r v hr' h with ⟨j, a, h1, h2, h3, h4⟩ | ⟨j, a, h1, h2, h3, h4⟩
      · exact Or.inl ⟨j, a, by omega, h2, h3, h4.next hk hr.2⟩
      · exact Or.inr ⟨j, a, by omega, h2, h3, h4.next hk hr.2⟩
    · intro j e evn h
      obtain ⟨hv, hg, eres, j, a, h1, h2, h3, h4, h5, h6, h7⟩ := S.tab j e evn h
      exact ⟨hv, hg, eres, j, a, h1, h2, by omega, h4, h5, h6, fun h8 => (h7 h8).next hk hr.2⟩

theorem Free.entered {psize : Nat} {f : Func} (ok : LvnOk psize f) {k : Nat} {st : Lvn} {reset : Bool} {ir : Ir} {r : Nat} (S : Stat f k st)
    (hk : f.irs[k]? = some ir) (hr : r < f.nregs) (hd : ir.defines r) : Free (st.entered reset ir) r := by
  have hn := S.nregs
  have hres : ∀ (j : Nat) (e : Ir) (evn : Nat), st.tab j = some (e, evn) → e.result ≠ some r := by
    intro j e evn h c
    obtain ⟨hv, hg, eres, j, a, h1, h2, h3, h4, h5, h6, h7⟩ := S.tab j e evn h
    rw [c] at h1; injection h1 with h1; subst h1
    have := ok.single j k r a ir h4 hk h5 hd
    omega
  unfold Lvn.entered
  split
  · refine ⟨reset_reg (by omega), ?_⟩
    intro j e evn h
    refine ⟨hres j e evn h, ?_⟩
    intro eres he hl
    obtain ⟨_, _, eres', _, _, h1, h2, _⟩ := S.tab j e evn h
    rw [he] at h1; injection h1 with h1; subst h1
    rw [reset_reg (by omega)] at hl; cases hl
  · rename_i hre
    simp only [Bool.or_eq_true, not_or, Bool.not_eq_true] at hre
    refine ⟨?_, ?_⟩
    · cases hv : st.regvn r with
      | none => rfl
      | some v =>
        exfalso
        rcases S.seen r v hr hv with ⟨j, a, h1, h2, h3, h4⟩ | ⟨j, a, h1, h2, h3, h4⟩
        · exact ok.order j k r a ir (by omega) h2 hk h3 hd (h4.next hk hre.2)
        · have := ok.single j k r a ir h2 hk h3 hd
          omega
    · intro j e evn h
      refine ⟨hres j e evn h, ?_⟩
      intro eres he hl c
      obtain ⟨_, _, eres', j', a, h1, h2, h3, h4, h5, h6, h7⟩ := S.tab j e evn h
      rw [he] at h1; injection h1 with h1; subst h1
      exact ok.order j' k r a ir (by omega) h4 hk (h6 r c).1 hd ((h7 hl).next hk hre.2)

theorem LvnCtx.entered {psize : Nat} {f : Func} (ok : LvnOk psize f) {k : Nat} {st : Lvn} {reset : Bool} {ir : Ir} (S : Stat f k st)
    (hk : f.irs[k]? = some ir) : LvnCtx f k (st.entered reset ir) ir := by
  have hreg := ok.reg ir (List.mem_of_getElem? hk)
  refine ⟨hk, hreg, S.entered hk, ?_, ?_⟩
  · intro r hd
    exact Free.entered ok S hk (hreg r (Or.inr (Or.inr hd.1))) hd
  · intro r hd hrd
    exact ok.order k k r ir ir (Nat.le_refl _) hk hk hrd hd (noTarget_succ f k)

/-- Nothing is known about the registers. -/
theorem Dyn.reset {env : Env W} {f k st} (sent : Nat → Prop) (S : Stat f k st) (regs : Nat → Word) (flags : Bool) (w : W) :
    ∃ val, Dyn env sent st.reset val regs flags w := by
  have hn := S.nregs
  refine ⟨fun v => if v < smallConst then BitVec.ofNat 64 v else st.consts.getD (v - smallConst) 0, ?_⟩
  refine ⟨?_, ?_, ?_, ?_, ?_, ?_⟩
  · intro v hv; exact if_pos hv
  · intro j c hj
    show (if _ then _ else _) = _
    rw [if_neg (by omega), Nat.add_sub_cancel_left, List.getD_eq_getElem?_getD]
    have hj : st.consts[j]? = some c := hj
    rw [hj]; rfl
  · intro r v hr h
    have hr : r < st.nregs := hr
    rw [reset_reg (by omega)] at h; cases h
  · intro v h
    have : st.reset.nregs = st.nregs := rfl
    rw [this, reset_reg (by omega)] at h; cases h
  · intro n v hn h
    have : st.reset.nregs = st.nregs := rfl
    rw [this, reset_reg (by omega)] at h; cases h
  · intro j e evn eres hj he h
    obtain ⟨_, _, eres', _, _, h1, h2, _⟩ := S.tab j e evn hj
    rw [he] at h1; injection h1 with h1; subst h1
    rw [reset_reg (by omega)] at h; cases h

theorem sentOk {psize : Nat} {f : Func} (ok : LvnOk psize f) {k : Nat} {ir : Ir} (hk : f.irs[k]? = some ir) :
    SentOk ir (fun n => Sent f k n ∧ ir.target = false) (Sent f (k + 1)) := by
  refine ⟨?_, ?_, ?_⟩
  · rintro h1 h2 n ⟨⟨j, a, hj, ha, ho, hs, hn, hc⟩, ht⟩
    refine ⟨j, a, by omega, ha, ho, hs, hn.next hk ht, ?_⟩
    intro m c hm1 hm2 hc'
    by_cases e : m = k
    · subst e; rw [hk] at hc'; injection hc' with hc'; subst hc'; exact ⟨h1, h2⟩
    · exact hc m c hm1 (by omega) hc'
  · intro ho n hs
    refine ⟨k, ir, Nat.lt_succ_self _, hk, ho, hs, noTarget_succ f k, ?_⟩
    intro m c h1 h2; omega
  · rintro ho n hs ⟨⟨j, a, hj, ha, ho', hs', hn, hc⟩, ht⟩
    obtain ⟨m, c, h1, h2, h3, h4⟩ := ok.args j k n a ir hj ha hk ho' hs' ho hs (hn.next hk ht)
    have := hc m c h1 h2 h3
    rcases h4 with e | e
    · exact this.1 e
    · exact this.2 e

/-! ## the loop -/

/-- The instructions when position `k` is reached. -/
def midway (irs out : List Ir) (k : Nat) : List Ir := out.take k ++ irs.drop k

theorem midway_get {irs out : List Ir} {k j : Nat} (hl : out.length = irs.length) (hk : k ≤ irs.length) :
    (midway irs out k)[j]? = if j < k then out[j]? else irs[j]? := by
  unfold midway
  rw [List.getElem?_append, List.length_take, Nat.min_eq_left (by omega)]
  split
  · rw [List.getElem?_take, if_pos (by assumption)]
  · rw [List.getElem?_drop]; congr 1; omega

/-- What happened at position `k`. -/
def LvnPos (pool : Word → Size → Word) (irs out : List Ir) (sts : Nat → Lvn) (rs : Nat → Bool) (k : Nat) : Prop :=
  ∃ ir ir', irs[k]? = some ir ∧ out[k]? = some ir' ∧
    lvnIr pool (midway irs out k) k ((sts k).entered (rs k) ir) ir = some (ir', sts (k + 1))

theorem lvnLoop_pos (pool : Word → Size → Word) (nregs : Nat) : ∀ (n i : Nat) (reset : Bool) (irs : List Ir) (st : Lvn)
    (out : List Ir), lvnLoop pool nregs n i reset irs st = some out → irs.length = i + n →
    ∃ sts rs, sts i = st ∧ rs i = reset ∧ out.length = irs.length ∧ out.take i = irs.take i ∧
      ∀ k, i ≤ k → k < i + n → LvnPos pool irs out sts rs k := by
  intro n
  induction n with
  | zero =>
    intro i reset irs st out h hl
    simp only [lvnLoop, Option.some.injEq] at h
    subst h
    exact ⟨fun _ => st, fun _ => reset, rfl, rfl, rfl, rfl, by intro k h1 h2; omega⟩
  | succ n ih =>
    intro i reset irs st out h hl
    unfold lvnLoop at h
    rw [Option.bind_eq_some_iff] at h
    obtain ⟨ir, hir, h⟩ := h
    rw [Option.bind_eq_some_iff] at h
    obtain ⟨⟨ir', st1⟩, hx, h⟩ := h
    dsimp only at h
    obtain ⟨sts, rs, e1, e2, e3, e4, hpos⟩ := ih _ _ _ _ _ h (by rw [List.length_set]; omega)
    have hlt : i < irs.length := by omega
    have hout : out.take i = irs.take i := by
      have := congrArg (List.take i) e4
      rw [List.take_take, List.take_take, Nat.min_eq_left (by omega)] at this
      rw [this, List.take_set_of_le (Nat.le_refl _)]
    refine ⟨fun k => if k = i then st else sts k, fun k => if k = i then reset else rs k, by simp, by simp,
      by rw [e3, List.length_set], hout, ?_⟩
    intro k hk1 hk2
    by_cases hki : k = i
    · subst hki
      refine ⟨ir, ir', hir, ?_, ?_⟩
      · have := congrArg (fun l => l[k]?) e4
        simp only [List.getElem?_take] at this
        rw [if_pos (by omega), if_pos (by omega)] at this
        rw [this, List.getElem?_set_self hlt]
      · have hm : midway irs out k = irs := by
          unfold midway; rw [hout, List.take_append_drop]
        simp only [if_true]
        rw [hm, if_neg (by omega), e1]
        exact hx
    · obtain ⟨a, a', h1, h2, h3⟩ := hpos k (by omega) (by omega)
      refine ⟨a, a', ?_, h2, ?_⟩
      · rw [← h1, List.getElem?_set_ne (by omega)]
      · simp only [hki, if_false]
        rw [if_neg (by omega)]
        have hm : midway irs out k = midway (irs.set i ir') out k := by
          unfold midway
          rw [List.drop_set_of_lt (by omega)]
        rw [hm]
        exact h3

end Verif.Code
