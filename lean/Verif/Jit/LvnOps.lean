import Verif.Jit.LvnTable
import Verif.Jit.LvnArith

/-!
# Local value numbering of one instruction

Property C51: instructions that only compute a value.
-/

namespace Verif.Code

variable {W : Type}

/-! ## constants -/

theorem getConst_spec {env : Env W} {sent st val regs flags w f i} (D : Dyn env sent st val regs flags w)
    (S : Stat f i st) {v : Nat} {c : Word} (hv : Valid st v) (h : st.getConst v = some c) : val v = c := by
  have hc := S.clen
  unfold Lvn.getConst at h
  split at h
  · rename_i hs
    injection h with h
    rw [D.small v hs, h]
  · split at h
    · rename_i hs hs2
      injection h with h
      have hlt : v - smallConst < st.consts.length := by
        unfold Valid firstVn smallConst maxConsts at *
        omega
      have := D.consts (v - smallConst) c (by
        rw [List.getElem?_eq_getElem hlt]
        rw [List.getD_eq_getElem?_getD, List.getElem?_eq_getElem hlt] at h
        simpa using h)
      rw [← this]
      congr 1
      omega
    · cases h

theorem regConst_spec {env : Env W} {sent st val regs flags w f i} (D : Dyn env sent st val regs flags w)
    (S : Stat f i st) {r : Nat} {c : Word} (hr : r < f.nregs) (h : st.regConst r = some c) : regs r = c := by
  unfold Lvn.regConst at h
  rw [Option.bind_eq_some_iff] at h
  obtain ⟨v, hv, h⟩ := h
  rw [← D.reg r v (by rw [S.nregs]; exact hr) hv]
  exact getConst_spec D S (S.valid r v hv) h

theorem isConst_spec {env : Env W} {sent st val regs flags w f i} (D : Dyn env sent st val regs flags w)
    (S : Stat f i st) {v : Val} {c : Word} (hr : ∀ r, v.regOf = some r → r < f.nregs) (h : st.isConst v = some c) :
    eval env regs v = c := by
  cases v <;> simp only [Lvn.isConst] at h <;> try cases h
  case reg r => exact regConst_spec D S (hr r rfl) h
  case int => rfl

theorem canFold_spec {env : Env W} {sent st val regs flags w f i} (D : Dyn env sent st val regs flags w)
    (S : Stat f i st) {ir : Ir} {a b : Word} (hr : ∀ r, ir.readsArg r → r < f.nregs) (h : st.canFold ir = some (a, b)) :
    eval env regs ir.arg1 = a ∧ eval env regs ir.arg2 = b := by
  unfold Lvn.canFold at h
  rw [Option.bind_eq_some_iff] at h
  obtain ⟨x, hx, h⟩ := h
  rw [Option.map_eq_some_iff] at h
  obtain ⟨y, hy, h⟩ := h
  injection h with h1 h2
  subst h1; subst h2
  exact ⟨isConst_spec D S (fun r h => hr r (Or.inl h)) hx, isConst_spec D S (fun r h => hr r (Or.inr h)) hy⟩

/-! ## changing the form of an instruction -/

/-- The flags have no number if the instruction may write them. -/
def FlagDead (st : Lvn) (ir : Ir) : Prop :=
  ir.cc ≠ .none → ir.op = .add ∨ ir.op = .sub ∨ ir.op = .mul ∨ ir.op = .exp → st.regvn st.nregs = none

theorem Numbered.conv {f : Func} {i res : Nat} {st st' : Lvn} {ir ir1 ir' : Ir}
    (N : Numbered W f i res none st ir1 st' ir')
    (hop : ir'.op ≠ .add ∧ ir'.op ≠ .sub ∧ ir'.op ≠ .mul ∧ ir'.op ≠ .exp) (hk : FlagDead st ir)
    (hx : ∀ (env : Env W) sent val regs flags w x fl, Dyn env sent st val regs flags w →
      ir.pure env regs = some (x, fl) → ir1.pure env regs = some (x, none)) :
    Numbered W f i res none st ir st' ir' := by
  refine ⟨N.stat, N.gen, N.result, ?_⟩
  intro env sent val regs flags w x fl D hp _
  have D' : Dyn env sent st val regs (fl.getD flags) w := by
    cases hfl : fl with
    | none => exact D
    | some b =>
      have := pureRes_flags hp (by rw [hfl]; simp)
      exact D.anyFlags (hk this.2 this.1) b
  obtain ⟨h1, fl', h2, h3⟩ := N.dyn env sent val regs (fl.getD flags) w x none D' (hx env sent val regs flags w x fl D hp)
    (by simp)
  refine ⟨h1, none, ?_, Or.inr ⟨rfl, hop⟩⟩
  rcases h3 with e | ⟨e, _⟩
  · rw [← e]; exact h2
  · rw [← e]; exact h2

theorem Numbered.congr {f : Func} {i res : Nat} {st st' : Lvn} {ir ir1 ir' : Ir}
    (N : Numbered W f i res none st ir1 st' ir')
    (hx : ∀ (env : Env W) regs, ir.pure env regs = ir1.pure env regs) :
    Numbered W f i res none st ir st' ir' := by
  refine ⟨N.stat, N.gen, N.result, ?_⟩
  intro env sent val regs flags w x fl D hp
  rw [hx] at hp
  exact N.dyn env sent val regs flags w x fl D hp

/-! ## killing numbers -/

theorem Stat.kill {f : Func} {i : Nat} {st st' : Lvn} (S : Stat f i st) (hn : st'.nregs = st.nregs)
    (hx : st'.next = st.next) (ht : st'.tab = st.tab) (hc : st'.consts = st.consts)
    (hr : ∀ q, st'.regvn q = none ∨ st'.regvn q = st.regvn q) : Stat f i st' := by
  have old : ∀ q v, st'.regvn q = some v → st.regvn q = some v := by
    intro q v h
    rcases hr q with e | e
    · rw [e] at h; cases h
    · rw [← e]; exact h
  have vld : ∀ v, Valid st v → Valid st' v := by
    intro v h; unfold Valid at *; rw [hx, hc]; exact h
  refine ⟨hn.trans S.nregs, hx ▸ S.next, hc ▸ S.clen, fun q v h => vld v (S.valid q v (old q v h)), ?_, ?_, ?_⟩
  · intro v h; rw [hn] at h; exact S.flag v (old _ v h)
  · intro r v hr h; exact S.seen r v hr (old r v h)
  · intro k e evn h
    rw [ht] at h
    obtain ⟨hv, hg, eres, j, ir, h1, h2, h3, h4, h5, h6, h7⟩ := S.tab k e evn h
    exact ⟨vld _ hv, hg, eres, j, ir, h1, h2, h3, h4, h5, h6, fun h => h7 (old _ _ h)⟩

theorem Dyn.kill {env : Env W} {sent st val regs flags w} {st' : Lvn} (D : Dyn env sent st val regs flags w)
    (hn : st'.nregs = st.nregs) (ht : st'.tab = st.tab) (hc : st'.consts = st.consts)
    (hr : ∀ q, st'.regvn q = none ∨ st'.regvn q = st.regvn q) : Dyn env sent st' val regs flags w := by
  have old : ∀ q v, st'.regvn q = some v → st.regvn q = some v := by
    intro q v h
    rcases hr q with e | e
    · rw [e] at h; cases h
    · rw [← e]; exact h
  refine ⟨D.small, ?_, ?_, ?_, ?_, ?_⟩
  · intro k c h; rw [hc] at h; exact D.consts k c h
  · intro r v h1 h; rw [hn] at h1; exact D.reg r v h1 (old _ _ h)
  · intro v h; rw [hn] at h; exact D.flag v (old _ _ h)
  · intro n v h1 h; rw [hn] at h; exact D.slot n v h1 (old _ _ h)
  · intro k e evn eres hk he h
    rw [ht] at hk
    exact D.eqn k e evn eres hk he (old _ _ h)

theorem Free.kill {st st' : Lvn} {res : Nat} (F : Free st res) (ht : st'.tab = st.tab)
    (hr : ∀ q, st'.regvn q = Option.none ∨ st'.regvn q = st.regvn q) : Free st' res := by
  refine ⟨?_, ?_⟩
  · rcases hr res with e | e
    · exact e
    · rw [e]; exact F.none
  · intro k e evn h
    rw [ht] at h
    refine ⟨(F.tab k e evn h).1, ?_⟩
    intro eres he hl
    rcases hr eres with e' | e'
    · rw [e'] at hl; cases hl
    · rw [e'] at hl; exact (F.tab k e evn h).2 eres he hl

theorem setVn_none_or (st : Lvn) (r q : Nat) : (st.setVn r none).regvn q = none ∨ (st.setVn r none).regvn q = st.regvn q := by
  rw [setVn_regvn]; split
  · exact Or.inl rfl
  · exact Or.inr rfl

theorem killFlags_or (st : Lvn) (q : Nat) : st.killFlags.regvn q = none ∨ st.killFlags.regvn q = st.regvn q :=
  setVn_none_or st st.nregs q

theorem killFlags_dead (st : Lvn) : st.killFlags.regvn st.killFlags.nregs = none := by
  show (st.setVn st.nregs none).regvn st.nregs = none
  rw [setVn_regvn, if_pos rfl]

theorem killIfChecked_or (st : Lvn) (ir : Ir) (q : Nat) :
    (killIfChecked st ir).regvn q = none ∨ (killIfChecked st ir).regvn q = st.regvn q := by
  unfold killIfChecked
  split
  · exact killFlags_or st q
  · exact Or.inr rfl

theorem killIfChecked_same (st : Lvn) (ir : Ir) : (killIfChecked st ir).nregs = st.nregs ∧
    (killIfChecked st ir).next = st.next ∧ (killIfChecked st ir).tab = st.tab ∧
    (killIfChecked st ir).consts = st.consts := by
  unfold killIfChecked
  split <;> exact ⟨rfl, rfl, rfl, rfl⟩

theorem killIfChecked_dead (st : Lvn) (ir : Ir) : FlagDead (killIfChecked st ir) ir := by
  intro hc _
  unfold killIfChecked
  rw [if_pos (by simpa using hc)]
  exact killFlags_dead st

theorem Stat.checked {f : Func} {i : Nat} {st : Lvn} (S : Stat f i st) (ir : Ir) : Stat f i (killIfChecked st ir) :=
  S.kill (killIfChecked_same st ir).1 (killIfChecked_same st ir).2.1 (killIfChecked_same st ir).2.2.1
    (killIfChecked_same st ir).2.2.2 (killIfChecked_or st ir)

theorem Free.checked {st : Lvn} {res : Nat} (F : Free st res) (ir : Ir) : Free (killIfChecked st ir) res :=
  F.kill (killIfChecked_same st ir).2.2.1 (killIfChecked_or st ir)

theorem Numbered.checked {f : Func} {i res : Nat} {st st' : Lvn} {ir0 ir ir' : Ir}
    (N : Numbered W f i res none (killIfChecked st ir0) ir st' ir') : Numbered W f i res none st ir st' ir' := by
  refine ⟨N.stat, N.gen, N.result, ?_⟩
  intro env sent val regs flags w x fl D
  exact N.dyn env sent val regs flags w x fl
    (D.kill (killIfChecked_same st ir0).1 (killIfChecked_same st ir0).2.2.1 (killIfChecked_same st ir0).2.2.2
      (killIfChecked_or st ir0))

theorem Numbered.killed {f : Func} {i res : Nat} {st st' : Lvn} {ir ir' : Ir}
    (N : Numbered W f i res none st.killFlags ir st' ir') : Numbered W f i res none st ir st' ir' := by
  refine ⟨N.stat, N.gen, N.result, ?_⟩
  intro env sent val regs flags w x fl D
  exact N.dyn env sent val regs flags w x fl (D.kill rfl rfl rfl (killFlags_or st))

/-- The operation afterwards, whatever the state. -/
theorem probe_op {ir ir' : Ir} {res : Nat} {t : Tuple} {vn : Option Nat} : ∀ (n idx : Nat) (stale : Option Nat) (st st' : Lvn),
    probe ir res t vn n idx stale st = some (ir', st') → ir'.op = ir.op ∨ ir'.op = .mov := by
  intro n
  induction n with
  | zero =>
    intro idx stale st st' h
    simp only [probe, Option.some.injEq, Prod.mk.injEq] at h
    exact Or.inl (by rw [h.1])
  | succ n ih =>
    intro idx stale st st' h
    unfold probe at h
    split at h
    · simp only [Option.some.injEq, Prod.mk.injEq] at h
      exact Or.inl (by rw [h.1])
    · split at h
      · cases h
      · split at h
        · split at h
          · cases h
          · split at h
            · simp only [Option.some.injEq] at h
              have h1 : (useEntry _ ir res _ _).1 = ir' := congrArg Prod.fst h
              exact Or.inr (by rw [← h1]; rfl)
            · exact ih _ _ _ _ h
        · exact ih _ _ _ _ h

theorem lvnGeneric_op {ir ir' : Ir} {vn : Option Nat} {st st' : Lvn} (h : lvnGeneric st ir vn = some (ir', st')) :
    ir'.op = ir.op ∨ ir'.op = .mov := by
  unfold lvnGeneric at h
  split at h
  · cases h
  · rw [Option.bind_eq_some_iff] at h
    obtain ⟨p, _, h⟩ := h
    exact probe_op _ _ _ _ _ h

/-! ## moves -/

theorem lvnMov_spec {f : Func} {i res : Nat} {ir0 ir ir' : Ir} {st st' : Lvn} (C : LvnAt f i ir0 ir res)
    (hop : ir.op = .mov) (hi : ir.arg1 ≠ .invalid) (S : Stat f (i + 1) st) (F : Free st res)
    (h : lvnMov st ir = some (ir', st')) : Numbered W f i res none st ir st' ir' ∧ ir'.op = .mov := by
  unfold lvnMov at h
  rw [C.result] at h
  dsimp only at h
  have hne : ir.arg1 ≠ .reg res := by
    intro c; exact C.notArg (Or.inl (by rw [c]; rfl))
  rw [if_neg hne, Option.bind_eq_some_iff] at h
  obtain ⟨⟨vn, st1⟩, hv, h⟩ := h
  dsimp only at h
  have n1 := valueNum_spec (W := W) S (fun r e => C.readSince r (Or.inl (by rw [e]; rfl))) hv
  have F1 : Free st1 res := F.grow S n1.grow (n1.keep res hne F.none)
  split at h
  · rename_i c
    rw [F1.none] at c
    exact absurd (n1.none c.symm) hi
  · obtain ⟨N, ho⟩ := lvnGeneric_spec (W := W) C n1.stat F1 n1.valid (by rw [hop]; intro _ h; simp at h) h
    refine ⟨⟨N.stat, N.gen, N.result, ?_⟩, by rw [hop] at ho; simpa using ho⟩
    intro env sent val regs flags w x fl D hx _
    obtain ⟨val1, a1, D1, m1⟩ := n1.dyn env sent val regs flags w D
    refine N.dyn env sent val1 regs flags w x fl D1 hx ?_
    intro n hn
    rw [m1.2 n hn]
    unfold Ir.pure at hx
    rw [hop] at hx
    simp only [pureRes, Option.some.injEq, Prod.mk.injEq] at hx
    exact hx.1

theorem asMov_at {f : Func} {i res : Nat} {ir0 ir : Ir} {v : Val} (C : LvnAt f i ir0 ir res)
    (hv : ∀ r, v.regOf = some r → ir.readsArg r) : LvnAt f i ir0 (asMov ir v) res := by
  refine ⟨C.at_, C.defs, C.result, C.lt, ?_, C.self, rfl⟩
  intro r hr
  rcases hr with hr | hr
  · exact C.reads r (hv r hr)
  · cases hr

/-- `lvn_convert_mov`.  What must be shown about the value can be shown under the assumption that the
instruction is not checked. -/
theorem convertMov_spec {f : Func} {i res : Nat} {ir0 ir ir' : Ir} {st st' : Lvn} {v : Val} (C : LvnAt f i ir0 ir res)
    (hv : ∀ r, v.regOf = some r → ir.readsArg r) (hi : v ≠ .invalid) (S : Stat f (i + 1) st) (F : Free st res)
    (hk : FlagDead st ir)
    (hx : ir'.op = .mov → ∀ (env : Env W) sent val regs flags w x fl, Dyn env sent st val regs flags w →
      ir.pure env regs = some (x, fl) → eval env regs v = x)
    (h : convertMov st ir v = some (ir', st')) : Numbered W f i res none st ir st' ir' := by
  unfold convertMov at h
  obtain ⟨N, ho⟩ := lvnMov_spec (W := W) (asMov_at C hv) rfl hi S F h
  refine N.conv (by rw [ho]; simp) hk ?_
  intro env sent val regs flags w x fl D hp
  have := hx ho env sent val regs flags w x fl D hp
  unfold Ir.pure asMov
  simp only [pureRes, this]

theorem convertMovReg_spec {f : Func} {i res : Nat} {ir0 ir ir' : Ir} {st st' : Lvn} {v : Val} (C : LvnAt f i ir0 ir res)
    (hv : ∀ r, v.regOf = some r → ir.readsArg r) (S : Stat f (i + 1) st) (F : Free st res)
    (hk : FlagDead st ir)
    (hx : ir'.op = .mov → ∀ (env : Env W) sent val regs flags w x fl, Dyn env sent st val regs flags w →
      ir.pure env regs = some (x, fl) → eval env regs v = x)
    (h : convertMovReg st ir v = some (ir', st')) : Numbered W f i res none st ir st' ir' := by
  cases v <;> simp only [convertMovReg] at h <;> try cases h
  exact convertMov_spec C hv (by simp) S F hk hx h

/-! ## arithmetic -/

theorem arith_none {k : Arith} {size : Size} {a b x : Word} {fl : Option Bool}
    (h : arith k size .none a b = some (x, fl)) : plain (k.eval a.toInt b.toInt) = some x ∧ fl = none := by
  simp only [arith, Option.map_eq_some_iff, Prod.mk.injEq] at h
  obtain ⟨_, h, rfl, h2⟩ := h
  exact ⟨h, h2.symm⟩

/-- A checked instruction keeps its operation. -/
def Kept (ir ir' : Ir) : Prop := ir.cc ≠ .none → ir'.op = ir.op

theorem Kept.unchecked {ir ir' : Ir} (h : Kept ir ir') (ho : ir'.op ≠ ir.op) : ir.cc = .none := by
  apply Classical.byContradiction
  intro c
  exact ho (h c)

theorem LvnAt.swap {f i ir0 ir res} (C : LvnAt f i ir0 ir res) :
    LvnAt f i ir0 { ir with arg1 := ir.arg2, arg2 := ir.arg1 } res :=
  ⟨C.at_, C.defs, C.result, C.lt, fun r h => C.reads r (h.elim Or.inr Or.inl), C.self, C.gen⟩

theorem commuteConst_at {f i ir0 ir res} (st : Lvn) (C : LvnAt f i ir0 ir res) :
    LvnAt f i ir0 (commuteConst st ir) res := by
  unfold commuteConst
  split
  · exact C.swap
  · exact C

theorem commuteConst_op (st : Lvn) (ir : Ir) : (commuteConst st ir).op = ir.op ∧ (commuteConst st ir).cc = ir.cc ∧
    (commuteConst st ir).size = ir.size := by
  unfold commuteConst
  split <;> exact ⟨rfl, rfl, rfl⟩

theorem commuteConst_pure (st : Lvn) (ir : Ir) (h : ir.op.commutative = true) (env : Env W) (regs : Nat → Word) :
    ir.pure env regs = (commuteConst st ir).pure env regs := by
  unfold commuteConst
  split
  · exact pureRes_comm _ h _ _ _ _
  · rfl

section
variable {f : Func} {i res : Nat} {ir0 ir ir' : Ir} {st st' : Lvn}

/-- Both operands are known. -/
theorem foldArith_spec {k : Arith} {x : Word} (C : LvnAt f i ir0 ir res) (S : Stat f (i + 1) st) (F : Free st res)
    (hk : FlagDead st ir) (keep : Kept ir ir') (hop : ir.op = k.op)
    (hc : ((st.canFold ir).bind fun (a, b) => foldArith k ir.size a b) = some x)
    (h : convertMov st ir (.int x) = some (ir', st')) : Numbered W f i res none st ir st' ir' := by
  refine convertMov_spec C (by intro r h; cases h) (by simp) S F hk ?_ h
  intro hm env sent val regs flags w y fl D hp
  rw [Option.bind_eq_some_iff] at hc
  obtain ⟨⟨a, b⟩, hc, hf⟩ := hc
  obtain ⟨e1, e2⟩ := canFold_spec D S (fun r h => (C.reads r h).2) hc
  have hcc := keep.unchecked (by rw [hm, hop]; cases k <;> simp [Arith.op])
  have hp' : arith k ir.size .none a b = some (y, fl) := by
    unfold Ir.pure at hp
    rw [hop, hcc, e1, e2] at hp
    cases k <;> exact hp
  exact foldArith_eq hf (arith_none hp').1

theorem lvnAdd_spec (C : LvnAt f i ir0 ir res) (hop : ir.op = .add) (keep : Kept ir ir') (S : Stat f (i + 1) st)
    (F : Free st res) (h : lvnAdd st ir = some (ir', st')) : Numbered W f i res none st ir st' ir' := by
  unfold lvnAdd at h
  dsimp only at h
  refine Numbered.checked (ir0 := ir) ?_
  have S := S.checked ir
  have F := F.checked ir
  have hk := killIfChecked_dead st ir
  generalize killIfChecked st ir = st at *
  split at h
  · exact foldArith_spec (k := .add) C S F hk keep hop (by assumption) h
  · refine Numbered.congr ?_ (commuteConst_pure st ir (by rw [hop]; rfl))
    have C := commuteConst_at st C
    obtain ⟨o1, o2, _⟩ := commuteConst_op st ir
    have hk : FlagDead st (commuteConst st ir) := by unfold FlagDead; rw [o1, o2]; exact hk
    have keep : Kept (commuteConst st ir) ir' := by unfold Kept; rw [o1, o2]; exact keep
    rw [← o1] at hop
    generalize commuteConst st ir = ir at *
    unfold lvnAddReg at h
    split at h
    · rename_i hz
      refine convertMovReg_spec C (fun r h => Or.inl h) S F hk ?_ h
      intro hm env sent val regs flags w x fl D hp
      have e := isConst_spec D S (fun r h => (C.reads r (Or.inr h)).2) hz
      have hcc := keep.unchecked (by rw [hm, hop]; simp)
      unfold Ir.pure at hp
      rw [hop, hcc, e] at hp
      have hp := (arith_none (size := ir.size) hp).1
      simp only [Arith.eval, BitVec.toInt_zero, Int.add_zero] at hp
      have h0 : (0 : Word).toInt = 0 := rfl
      rw [h0, Int.add_zero, plain_toInt] at hp
      injection hp
    · exact (lvnGeneric_spec (W := W) C S F (by simp) hk h).1

theorem lvnSub_spec (C : LvnAt f i ir0 ir res) (hop : ir.op = .sub) (keep : Kept ir ir') (S : Stat f (i + 1) st)
    (F : Free st res) (h : lvnSub st ir = some (ir', st')) : Numbered W f i res none st ir st' ir' := by
  unfold lvnSub at h
  dsimp only at h
  refine Numbered.checked (ir0 := ir) ?_
  have S := S.checked ir
  have F := F.checked ir
  have hk := killIfChecked_dead st ir
  generalize killIfChecked st ir = st at *
  have h0 : (0 : Word).toInt = 0 := rfl
  split at h
  · exact foldArith_spec (k := .sub) C S F hk keep hop (by assumption) h
  · split at h
    · rename_i hz
      refine convertMovReg_spec C (fun r h => Or.inl h) S F hk ?_ h
      intro hm env sent val regs flags w x fl D hp
      have e := isConst_spec D S (fun r h => (C.reads r (Or.inr h)).2) hz
      have hcc := keep.unchecked (by rw [hm, hop]; simp)
      unfold Ir.pure at hp
      rw [hop, hcc, e] at hp
      have hp := (arith_none (size := ir.size) hp).1
      simp only [Arith.eval] at hp
      rw [h0, Int.sub_zero, plain_toInt] at hp
      injection hp
    · split at h
      · rename_i hz
        obtain ⟨hz, hcc, hsz⟩ := hz
        have C1 : LvnAt f i ir0 { ir with op := .neg, arg1 := ir.arg2, arg2 := .invalid } res :=
          ⟨C.at_, C.defs, C.result, C.lt, fun r h => C.reads r (h.elim Or.inr (by intro h; cases h)), C.self, rfl⟩
        obtain ⟨N, ho⟩ := lvnGeneric_spec (W := W) C1 S F (by simp) (by intro _ h; simp at h) h
        refine N.conv (by rcases ho with e | e <;> rw [e] <;> simp) hk ?_
        intro env sent val regs flags w x fl D hp
        have e := isConst_spec D S (fun r h => (C.reads r (Or.inl h)).2) hz
        unfold Ir.pure at hp
        rw [hop, hcc, e] at hp
        have hp := (arith_none (size := ir.size) hp).1
        simp only [Arith.eval] at hp
        rw [h0, Int.zero_sub] at hp
        unfold Ir.pure
        simp only [pureRes, hp, Option.map_some]
      · exact (lvnGeneric_spec (W := W) C S F (by simp) hk h).1

theorem lvnMul_spec (C : LvnAt f i ir0 ir res) (hop : ir.op = .mul) (keep : Kept ir ir') (S : Stat f (i + 1) st)
    (F : Free st res) (h : lvnMul st ir = some (ir', st')) : Numbered W f i res none st ir st' ir' := by
  unfold lvnMul at h
  dsimp only at h
  refine Numbered.checked (ir0 := ir) ?_
  have S := S.checked ir
  have F := F.checked ir
  have hk := killIfChecked_dead st ir
  generalize killIfChecked st ir = st at *
  split at h
  · exact foldArith_spec (k := .mul) C S F hk keep hop (by assumption) h
  · refine Numbered.congr ?_ (commuteConst_pure st ir (by rw [hop]; rfl))
    have C := commuteConst_at st C
    obtain ⟨o1, o2, _⟩ := commuteConst_op st ir
    have hk : FlagDead st (commuteConst st ir) := by unfold FlagDead; rw [o1, o2]; exact hk
    have keep : Kept (commuteConst st ir) ir' := by unfold Kept; rw [o1, o2]; exact keep
    rw [← o1] at hop
    generalize commuteConst st ir = ir at *
    unfold lvnMulReg at h
    split at h
    · rename_i rhs hz
      have e : ∀ {env : Env W} {sent val regs flags w}, Dyn env sent st val regs flags w → eval env regs ir.arg2 = rhs :=
        fun D => isConst_spec D S (fun r h => (C.reads r (Or.inr h)).2) hz
      split at h
      · rename_i h0
        refine convertMov_spec C (by intro r h; cases h) (by simp) S F hk ?_ h
        intro hm env sent val regs flags w x fl D hp
        have hcc := keep.unchecked (by rw [hm, hop]; simp)
        unfold Ir.pure at hp
        rw [hop, hcc, e D, h0] at hp
        have hp := (arith_none (size := ir.size) hp).1
        simp only [Arith.eval] at hp
        have h0 : (0 : Word).toInt = 0 := rfl
        rw [h0, Int.mul_zero, ← h0, plain_toInt] at hp
        injection hp
      · split at h
        · rename_i h1
          refine convertMovReg_spec C (fun r h => Or.inl h) S F hk ?_ h
          intro hm env sent val regs flags w x fl D hp
          have hcc := keep.unchecked (by rw [hm, hop]; simp)
          unfold Ir.pure at hp
          rw [hop, hcc, e D, h1] at hp
          have hp := (arith_none (size := ir.size) hp).1
          simp only [Arith.eval] at hp
          have h1 : (1 : Word).toInt = 1 := rfl
          rw [h1, Int.mul_one, plain_toInt] at hp
          injection hp
        · split at h
          · rename_i hz
            obtain ⟨hpos, hpow, hsz⟩ := hz
            obtain ⟨n, hn, hi, _, hl⟩ := isPow2_spec hpos hpow
            rw [hl, Option.bind_some] at h
            have C1 : LvnAt f i ir0 { ir with op := .shl, arg2 := .int (BitVec.ofNat 64 n) } res :=
              ⟨C.at_, C.defs, C.result, C.lt, fun r h => C.reads r (h.elim Or.inl (by intro h; cases h)), C.self, rfl⟩
            obtain ⟨N, ho⟩ := lvnGeneric_spec (W := W) C1 S F (by simp) (by intro _ h; simp at h) h
            refine N.conv (by rcases ho with e | e <;> rw [e] <;> simp) hk ?_
            intro env sent val regs flags w x fl D hp
            unfold Ir.pure at hp
            rw [hop, e D] at hp
            have := (mul_pow2 hsz hp hn hi).1
            show (shift _ (eval env regs ir.arg1) _).map _ = _
            exact (congrArg (Option.map fun x => (x, none)) this)
          · exact (lvnGeneric_spec (W := W) C S F (by simp) hk h).1
    · exact (lvnGeneric_spec (W := W) C S F (by simp) hk h).1

theorem flagDead_of {st : Lvn} {ir : Ir} (h : ir.op ≠ .add ∧ ir.op ≠ .sub ∧ ir.op ≠ .mul ∧ ir.op ≠ .exp) :
    FlagDead st ir := by
  intro _ h'
  rcases h' with e | e | e | e <;> simp_all

theorem divide_one (a : Word) : divide a 1 = some a := by
  unfold divide
  rw [if_neg (by decide)]
  have h1 : (1 : Word).toInt = 1 := rfl
  rw [h1, Int.tdiv_one, plain_toInt]

theorem lvnDiv_spec (C : LvnAt f i ir0 ir res) (hop : ir.op = .div) (hs : ir.size = .unspec) (S : Stat f (i + 1) st)
    (F : Free st res) (h : lvnDiv st ir = some (ir', st')) : Numbered W f i res none st ir st' ir' := by
  unfold lvnDiv at h
  dsimp only at h
  refine Numbered.checked (ir0 := ir) ?_
  have S := S.checked ir
  have F := F.checked ir
  have hk : FlagDead (killIfChecked st ir) ir := flagDead_of (by rw [hop]; simp)
  generalize killIfChecked st ir = st at *
  split at h
  · rename_i a b hf
    rw [Option.bind_eq_some_iff] at h hf
    obtain ⟨x, hx, h⟩ := h
    obtain ⟨⟨a', b'⟩, hc, hf⟩ := hf
    refine convertMov_spec C (by intro r h; cases h) (by simp) S F hk ?_ h
    intro hm env sent val regs flags w y fl D hp
    obtain ⟨e1, e2⟩ := canFold_spec D S (fun r h => (C.reads r h).2) hc
    unfold nonZero at hf
    split at hf
    · cases hf
    · injection hf with hf; injection hf with h1 h2; subst h1; subst h2
      unfold Ir.pure at hp
      rw [hop, e1, e2] at hp
      simp only [pureRes, Option.map_eq_some_iff, Prod.mk.injEq] at hp
      obtain ⟨z, hz, rfl, _⟩ := hp
      rw [hs] at hx
      exact foldDiv_eq hx hz
  · split at h
    · rename_i h1
      refine convertMovReg_spec C (fun r h => Or.inl h) S F hk ?_ h
      intro hm env sent val regs flags w x fl D hp
      have e := isConst_spec D S (fun r h => (C.reads r (Or.inr h)).2) h1
      unfold Ir.pure at hp
      rw [hop, e] at hp
      simp only [pureRes, divide_one, Option.map_some, Option.some.injEq, Prod.mk.injEq] at hp
      exact hp.1
    · exact (lvnGeneric_spec (W := W) C S F (by simp) hk h).1

theorem lvnNeg_spec (C : LvnAt f i ir0 ir res) (hop : ir.op = .neg) (S : Stat f (i + 1) st)
    (F : Free st res) (h : lvnNeg st ir = some (ir', st')) : Numbered W f i res none st ir st' ir' := by
  have hk : FlagDead st ir := flagDead_of (by rw [hop]; simp)
  unfold lvnNeg at h
  split at h
  · rename_i a hc
    rw [Option.bind_eq_some_iff] at h
    obtain ⟨x, hx, h⟩ := h
    refine convertMov_spec C (by intro r h; cases h) (by simp) S F hk ?_ h
    intro hm env sent val regs flags w y fl D hp
    have e := isConst_spec D S (fun r h => (C.reads r (Or.inl h)).2) hc
    unfold Ir.pure at hp
    rw [hop, e] at hp
    simp only [pureRes, hx, Option.map_some, Option.some.injEq, Prod.mk.injEq] at hp
    exact hp.1
  · exact (lvnGeneric_spec (W := W) C S F (by simp) hk h).1

theorem lvnXor_spec (C : LvnAt f i ir0 ir res) (hop : ir.op = .xor) (hi : ir.arg1 ≠ .invalid ∧ ir.arg2 ≠ .invalid)
    (S : Stat f (i + 1) st) (F : Free st res) (h : lvnXor st ir = some (ir', st')) :
    Numbered W f i res none st ir st' ir' := by
  have hk : FlagDead st ir := flagDead_of (by rw [hop]; simp)
  unfold lvnXor at h
  split at h
  · rename_i a b hc
    refine convertMov_spec C (by intro r h; cases h) (by simp) S F hk ?_ h
    intro hm env sent val regs flags w y fl D hp
    obtain ⟨e1, e2⟩ := canFold_spec D S (fun r h => (C.reads r h).2) hc
    unfold Ir.pure at hp
    rw [hop, e1, e2] at hp
    simp only [pureRes, Option.some.injEq, Prod.mk.injEq] at hp
    exact hp.1
  · split at h
    · rename_i h0
      refine convertMov_spec C (fun r h => Or.inr h) hi.2 S F hk ?_ h
      intro hm env sent val regs flags w y fl D hp
      have e := isConst_spec D S (fun r h => (C.reads r (Or.inl h)).2) h0
      unfold Ir.pure at hp
      rw [hop, e] at hp
      simp only [pureRes, Option.some.injEq, Prod.mk.injEq] at hp
      rw [← hp.1]; exact (BitVec.zero_xor).symm
    · split at h
      · rename_i h0
        refine convertMov_spec C (fun r h => Or.inl h) hi.1 S F hk ?_ h
        intro hm env sent val regs flags w y fl D hp
        have e := isConst_spec D S (fun r h => (C.reads r (Or.inr h)).2) h0
        unfold Ir.pure at hp
        rw [hop, e] at hp
        simp only [pureRes, Option.some.injEq, Prod.mk.injEq] at hp
        rw [← hp.1]; exact (BitVec.xor_zero).symm
      · exact (lvnGeneric_spec (W := W) C S F (by simp) hk h).1

theorem lvnAsr_spec (C : LvnAt f i ir0 ir res) (hop : ir.op = .asr) (S : Stat f (i + 1) st)
    (F : Free st res) (h : lvnAsr st ir = some (ir', st')) : Numbered W f i res none st ir st' ir' := by
  have hk : FlagDead st ir := flagDead_of (by rw [hop]; simp)
  unfold lvnAsr at h
  split at h
  · rename_i x hc
    rw [Option.bind_eq_some_iff] at hc
    obtain ⟨⟨a, b⟩, hc, hx⟩ := hc
    refine convertMov_spec C (by intro r h; cases h) (by simp) S F hk ?_ h
    intro hm env sent val regs flags w y fl D hp
    obtain ⟨e1, e2⟩ := canFold_spec D S (fun r h => (C.reads r h).2) hc
    unfold Ir.pure at hp
    rw [hop, e1, e2] at hp
    simp only [pureRes, hx, Option.map_some, Option.some.injEq, Prod.mk.injEq] at hp
    exact hp.1
  · exact (lvnGeneric_spec (W := W) C S F (by simp) hk h).1

theorem lvnClamp_spec (C : LvnAt f i ir0 ir res) (hop : ir.op = .clamp) (S : Stat f (i + 1) st)
    (F : Free st res) (h : lvnClamp st ir = some (ir', st')) : Numbered W f i res none st ir st' ir' := by
  have hk : FlagDead st ir := flagDead_of (by rw [hop]; simp)
  unfold lvnClamp at h
  split at h
  · rename_i a hc
    refine convertMov_spec C (by intro r h; cases h) (by simp) S F hk ?_ h
    intro hm env sent val regs flags w y fl D hp
    have e := isConst_spec D S (fun r h => (C.reads r (Or.inl h)).2) hc
    unfold Ir.pure at hp
    rw [hop, e] at hp
    simp only [pureRes, Option.some.injEq, Prod.mk.injEq] at hp
    exact hp.1
  · exact (lvnGeneric_spec (W := W) C S F (by simp) hk h).1

theorem lvnExp_spec (C : LvnAt f i ir0 ir res) (hop : ir.op = .exp) (keep : Kept ir ir')
    (base : ∀ r, ir.arg1 = .reg r → ir'.op = .exp) (S : Stat f (i + 1) st)
    (F : Free st res) (h : lvnExp st ir = some (ir', st')) : Numbered W f i res none st ir st' ir' := by
  unfold lvnExp at h
  split at h
  · refine Numbered.killed ?_
    exact (lvnGeneric_spec (W := W) (st := st.killFlags) C (S.kill rfl rfl rfl rfl (killFlags_or st))
      (F.kill rfl (killFlags_or st)) (by simp) (fun _ _ => killFlags_dead st) h).1
  · rename_i hcc
    have hcc : ir.cc = .none := by simpa using hcc
    have hk : FlagDead st ir := fun h => absurd hcc h
    split at h
    · rename_i a b hc
      rw [Option.bind_eq_some_iff] at h
      obtain ⟨⟨x, o⟩, hx, h⟩ := h
      refine convertMov_spec C (by intro r h; cases h) (by simp) S F hk ?_ h
      intro hm env sent val regs flags w y fl D hp
      obtain ⟨e1, e2⟩ := canFold_spec D S (fun r h => (C.reads r h).2) hc
      unfold Ir.pure at hp
      rw [hop, e1, e2, hcc] at hp
      have hp : power ir.size .none a b = some (y, fl) := hp
      have : power ir.size .none a b = power .unspec .none a b := rfl
      rw [this, hx] at hp
      injection hp with hp; injection hp
    · split at h
      · rename_i h2
        rw [Option.bind_eq_some_iff] at h
        obtain ⟨v, hv, h⟩ := h
        have hreg : ∀ r, ir.arg1 ≠ .reg r := by
          intro r e
          have ho := base r e
          rw [e] at hv
          rcases lvnGeneric_op h with c | c <;> rw [c] at ho <;> cases ho
        have hint : ∃ c, ir.arg1 = .int c ∧ v = .int 1 := by
          cases ha : ir.arg1 <;> rw [ha] at hv h2 <;> simp only [storeInt64] at hv <;> try cases hv
          · exact absurd ha (hreg _)
          · exact ⟨_, rfl, rfl⟩
        obtain ⟨c, ha, rfl⟩ := hint
        rw [ha] at h2
        simp only [Lvn.isConst, Option.some.injEq] at h2
        subst h2
        have C1 : LvnAt f i ir0 { ir with op := .shl, arg1 := .int 1 } res :=
          ⟨C.at_, C.defs, C.result, C.lt, fun r h => C.reads r (h.elim (by intro h; cases h) Or.inr), C.self, rfl⟩
        obtain ⟨N, ho⟩ := lvnGeneric_spec (W := W) C1 S F (by simp) (by intro _ h; simp at h) h
        refine N.conv (by rcases ho with e | e <;> rw [e] <;> simp) hk ?_
        intro env sent val regs flags w x fl D hp
        unfold Ir.pure at hp
        rw [hop, hcc, ha] at hp
        have := (exp_two (size := ir.size) hp).1
        show (shift _ _ (eval env regs ir.arg2)).map _ = _
        exact (congrArg (Option.map fun x => (x, none)) this)
      · exact (lvnGeneric_spec (W := W) C S F (by simp) hk h).1

end

end Verif.Code
