import Verif.Jit.LlvmSim

/-!
# One step of the interpreter and the LLVM function
-/

namespace Verif.Code.Llvm

variable {W : Type} {x : LEnv W} {f : Func} {blocks : List Block} {live : Nat → Mask} {l : List LBlock}

/-! ## runs -/

theorem lrun_add (m n : Nat) : ∀ (L L' : LState W), lrun x l m L = some (.next L') →
    lrun x l (m + n) L = lrun x l n L' := by
  induction m with
  | zero =>
    intro L L' h
    cases h
    rw [Nat.zero_add]
  | succ m ih =>
    intro L L' h
    rw [lrun] at h
    rw [show m + 1 + n = m + n + 1 by omega, lrun]
    cases hs : lstep x l L with
    | none => rw [hs] at h; cases h
    | some r =>
      rw [hs] at h
      cases r with
      | next L1 => exact ih L1 L' h
      | halt r w => cases h

theorem lrun_one {L : LState W} {r : LRes W} (h : lstep x l L = some r) : lrun x l 1 L = some r := by
  rw [lrun, h]
  cases r <;> rfl

theorem lrun_more (n : Nat) : ∀ (m : Nat) (L : LState W) (r : Bool) (w : W), lrun x l m L = some (.halt r w) →
    lrun x l (m + n) L = some (.halt r w) := by
  intro m
  induction m with
  | zero => intro L r w h; cases h
  | succ m ih =>
    intro L r w h
    rw [lrun] at h
    rw [show m + 1 + n = m + n + 1 by omega, lrun]
    cases hs : lstep x l L with
    | none => rw [hs] at h; cases h
    | some q =>
      rw [hs] at h
      cases q with
      | next L1 => exact ih L1 r w h
      | halt r w => exact h

/-! ## instructions within a block -/

theorem reads_none {op : Op} {env : Env W} {size cc a b old fl w e} (hr : op.readsResult = true)
    (h : effect env op size cc a b old fl w = some e) : e.result = none := by
  cases op <;> simp [Op.readsResult] at hr <;>
    simp only [effect, act, Option.map_eq_some_iff, Option.some.injEq] at h
  all_goals first
    | (obtain ⟨_, _, rfl⟩ := h; rfl)
    | (subst h; rfl)

/-- What is live after an instruction has its new value. -/
theorem holds_next (S : Setup x f blocks live l) {k i : Nat} {ir : Ir} {g g1 : Gen} {σ σ' : Ref → Option Word}
    {regs regs' : Nat → Word} {fl : Bool} {w : W} {c : Code} {e : Eff W} {a b old : Word}
    (hir : f.irs[i]? = some ir) (h : Holds x f g k i σ i regs fl) (hs : Succ f i (i + 1))
    (hp : Post x (ptrMask f) i σ w ir.result g c g1 e (ir.op == .exp))
    (he : effect x.env ir.op ir.size ir.cc a b old fl w = some e)
    (hw : writeReg regs ir.result e.result = some regs')
    (hsame : ∀ ρ, ρ ≠ .res i → ρ ≠ .flag i → σ' ρ = σ ρ)
    (hval : ∀ v, e.result = some v → σ' (.res i) = some v)
    (hflag : ∀ v, e.flags = some v → σ' (.flag i) = some (ofBool v)) :
    Holds x f g1 k (i + 1) σ' (i + 1) regs' (e.flags.getD fl) := by
  have hmem := List.mem_of_getElem? hir
  have keep : ∀ ex : Expr, Old k i ex → ex.eval x σ' = ex.eval x σ := by
    intro ex ho
    apply eval_congr
    intro ρ hρ
    have hold := ho ρ hρ
    apply hsame
    · rintro rfl; exact Nat.lt_irrefl i hold
    · rintro rfl; exact Nat.lt_irrefl i hold
  refine ⟨⟨fun r ex hex => ?_, ?_⟩, fun r hr => ?_, fun hr => ?_⟩
  · -- types of registers
    cases hres : e.result with
    | none => rw [hp.none hres] at hex; exact h.typed.regs r ex hex
    | some v =>
      obtain ⟨r1, t, h1, h2, h3⟩ := hp.some v hres
      rw [h3] at hex
      dsimp only at hex
      by_cases hrr : r = r1
      · rw [if_pos hrr] at hex
        cases hex
        rcases h2 with h2 | h2
        · exact Or.inl (congrArg some h2)
        · exact Or.inr ⟨congrArg some h2.1, by rw [hrr]; exact h2.2⟩
      · rw [if_neg hrr] at hex; exact h.typed.regs r ex hex
  · cases hfl : e.flags with
    | none =>
      rcases hp.noflags hfl with h1 | h1
      · rw [h1]; exact h.typed.flags
      · rw [h1.2]; rfl
    | some v => rw [hp.flags (by rw [hfl]; rfl)]; rfl
  · -- a live register
    cases hres : e.result with
    | none =>
      rw [hres] at hw
      cases hw
      rw [hp.none hres]
      have hnd : ¬ ir.defines r := by
        rintro ⟨h1, h2⟩
        rcases S.results ir hmem (by rw [h1]; exact fun h => by cases h) with h3 | h3
        · rw [h2] at h3; cases h3
        · obtain ⟨v, hv⟩ := effect_gives h3 he
          rw [hres] at hv; cases hv
      obtain ⟨ex, h1, h2, h3⟩ := h.regs r (.later hir hnd hs hr)
      exact ⟨ex, h1, h2.mono (Nat.le_refl _) (Nat.le_succ _), by rw [keep ex h2]; exact h3⟩
    | some v =>
      obtain ⟨r1, t, h1, h2, h3⟩ := hp.some v hres
      rw [hres, h1] at hw
      cases hw
      rw [h3]
      by_cases hrr : r = r1
      · subst hrr
        refine ⟨.ref (.res i) t, by dsimp only; rw [if_pos rfl], ?_, ?_⟩
        · intro ρ hρ
          simp only [Expr.refs, List.mem_singleton] at hρ
          subst hρ
          exact Nat.lt_succ_self i
        · show σ' (.res i) = some (Code.setReg regs r v r)
          rw [hval v hres, Code.setReg, if_pos rfl]
      · have hnd : ¬ ir.defines r := by
          rintro ⟨h4, -⟩
          rw [h1] at h4; cases h4
          exact hrr rfl
        obtain ⟨ex, h4, h5, h6⟩ := h.regs r (.later hir hnd hs hr)
        refine ⟨ex, by dsimp only; rw [if_neg hrr]; exact h4, h5.mono (Nat.le_refl _) (Nat.le_succ _), ?_⟩
        rw [keep ex h5, h6, Code.setReg, if_neg hrr]
  · -- the flags
    cases hfl : e.flags with
    | none =>
      have hnw : ir.writesFlags = false := by
        cases hwf : ir.writesFlags with
        | false => rfl
        | true =>
          obtain ⟨v, hv⟩ := effect_flags hwf (S.checks ir hmem) he
          rw [hfl] at hv; cases hv
      have hlive := h.flags (.later hir (by rw [hnw]; exact Bool.false_ne_true) hs hr)
      rcases hp.noflags hfl with h1 | h1
      · rw [h1]
        exact ⟨hlive.1.mono (Nat.le_refl _) (Nat.le_succ _), by rw [keep _ hlive.1]; exact hlive.2⟩
      · exact absurd hr (S.exps i ir hir (by simpa using h1.1) hnw)
    | some v =>
      rw [hp.flags (by rw [hfl]; rfl)]
      refine ⟨?_, ?_⟩
      · intro ρ hρ
        simp only [Expr.refs, List.mem_singleton] at hρ
        subst hρ
        exact Nat.lt_succ_self i
      · show σ' (.flag i) = _
        rw [hflag v hfl]; rfl

/-- A state in which the interpreter is `w` cases ahead. -/
def Match (x : LEnv W) (f : Func) (blocks : List Block) (live : Nat → Mask) (l : List LBlock) (s : State W) (L : LState W)
    (w : Nat) : Prop :=
  ∃ b lb g gin gout, Sim x f blocks live l s L b lb g gin gout ∧ s.pc = b.first + L.pos + w

/-- The function of LLVM does the same as the interpreter in the next step. -/
def Safe (x : LEnv W) (f : Func) (s : State W) : Prop :=
  ∀ ir old, f.irs[s.pc]? = some ir → oldValue s.regs ir = some old →
    SafeOp x (ptrMask f) ir (eval x.env s.regs ir.arg1) (eval x.env s.regs ir.arg2) old s.world

/-- What comes of a step of the interpreter. -/
def Follows (x : LEnv W) (f : Func) (blocks : List Block) (live : Nat → Mask) (l : List LBlock) (L : LState W) (w : Nat) :
    Res W → Prop
  | .next s' => s'.pc < f.irs.length → ∃ m L' w', lrun x l m L = some (.next L') ∧ Match x f blocks live l s' L' w' ∧
      ((m = 0 ∧ w' = w + 1) ∨ (1 ≤ m ∧ w' = 0))
  | .halt r s' => ∃ m, lrun x l m L = some (.halt r s'.world)

theorem step_split {env : Env W} {s : State W} {r : Res W} (h : step env f s = some r) :
    ∃ ir old e, f.irs[s.pc]? = some ir ∧ oldValue s.regs ir = some old ∧
      effect env ir.op ir.size ir.cc (eval env s.regs ir.arg1) (eval env s.regs ir.arg2) old s.flags s.world = some e ∧
      apply s ir.result e = some r := by
  unfold step at h
  obtain ⟨ir, h1, h⟩ := bind_split h
  unfold execIr at h
  obtain ⟨old, h2, h⟩ := bind_split h
  obtain ⟨e, h3, h⟩ := bind_split h
  exact ⟨ir, old, e, h1, h2, h3, h⟩

/-- Control enters a block from its start, or stays. -/
theorem match_enter (S : Setup x f blocks live l) {k c : Nat} {b d : Block} {lb : LBlock} {gin gout : Gen} {p : Nat}
    {σ : Ref → Option Word} {s : State W} (hb : blocks[k]? = some b) (hd : blocks[c]? = some d)
    (hB : IsBlock f blocks live l k b lb gin gout) (hedge : c ∈ b.out) (hpc : s.pc = d.first)
    (hp : p ≤ b.last + 1) (h : Holds x f gout k p σ s.pc s.regs s.flags) :
    Match x f blocks live l s ⟨c, 0, enter x l k c σ, s.world⟩ 0 := by
  obtain ⟨d', lc, g, gc, gc', hS⟩ := enter_sim S hb hd hB hedge hpc hp h
  have hd' : blocks[c]? = some d' := hS.get
  rw [hd] at hd'; cases hd'
  exact ⟨d, lc, g, gc, gc', hS, hpc⟩

theorem sim_plain (S : Setup x f blocks live l) {s : State W} {L : LState W} {b : Block} {lb : LBlock} {g gin gout : Gen}
    (hS : Sim x f blocks live l s L b lb g gin gout) {ir : Ir} (hir : f.irs[s.pc]? = some ir) (hop : ir.op ≠ .case) :
    b.first + L.pos = s.pc := by
  obtain ⟨hcov, -⟩ := cfg_edges S.nonempty S.labels S.cfg
  obtain ⟨h1, h2⟩ := hS.waits
  rcases Nat.lt_or_ge (b.first + L.pos) s.pc with c | c
  · exfalso
    obtain ⟨jr, r, v, h3, h4, -⟩ := h2 _ (Nat.le_refl _) c
    obtain ⟨kr, h5, h6⟩ := case_run hcov hS.get (s.pc - (b.first + L.pos)) _ jr (by omega) (by have := hS.has.2; omega) h3 h4
    rw [show b.first + L.pos + (s.pc - (b.first + L.pos)) = s.pc by omega, hir] at h5
    cases h5
    exact hop h6
  · omega

/-- An instruction that does not end a block. -/
theorem step_body (S : Setup x f blocks live l) {s : State W} {L : LState W} {w : Nat} {r : Res W} {ir : Ir}
    (hM : Match x f blocks live l s L w) (hsafe : Safe x f s) (hst : step x.env f s = some r)
    (hir : f.irs[s.pc]? = some ir) (hop : Op.ends ir.op = false) : Follows x f blocks live l L w r := by
  obtain ⟨hcov, hed⟩ := cfg_edges S.nonempty S.labels S.cfg
  obtain ⟨b, lb, g, gin, gout, hS, hw⟩ := hM
  have hnc : ir.op ≠ .case := by intro h; rw [h] at hop; cases hop
  have hpc := sim_plain S hS hir hnc
  obtain ⟨ir', old, e, hir', hold, he, happ⟩ := step_split hst
  rw [hir] at hir'; cases hir'
  have hmem := List.mem_of_getElem? hir
  have hrest0 := hS.rest
  rw [hpc, irsFrom_cons hir hS.has.2, genRest, if_neg (by rw [hop]; exact Bool.false_ne_true)] at hrest0
  obtain ⟨⟨c, g1⟩, hgen, hrest1⟩ := bind_split hrest0
  rw [Option.map_eq_some_iff] at hrest1
  obtain ⟨⟨cs, t, g2⟩, hrest, heq⟩ := hrest1
  simp only [Prod.mk.injEq] at heq
  obtain ⟨hdrop, ht, hg2⟩ := heq
  subst ht hg2
  have hholds := hS.holds
  rw [hpc] at hholds
  have reg : ∀ q, ir.reads q → ∃ ex, g.regs q = some ex ∧ ex.eval x L.vals = some (s.regs q) := by
    intro q hq
    obtain ⟨ex, h1, -, h3⟩ := hholds.regs q (.use hir hq)
    exact ⟨ex, h1, h3⟩
  have hpre : Pre x (ptrMask f) L.vals g ir s.regs s.flags := by
    refine ⟨hholds.typed, (S.small ir hmem).1, (S.small ir hmem).2, fun q hq => reg q (Or.inl hq),
      fun q hq => reg q (Or.inr (Or.inl hq)), fun hr q hq => reg q (Or.inr (Or.inr ⟨hr, hq⟩)), fun hr => ?_⟩
    exact (hholds.flags (.use hir hr)).2
  have hpost := genIr_ok (w := s.world) S.env hpre hgen hold (hsafe ir old hir hold) he
  obtain ⟨go, σ', hrun, hctl, hsame, hval, hflag⟩ := hpost.run
  have hbody : lb.body[L.pos]? = some c := by
    have := congrArg (fun q => q[0]?) hdrop
    simp only [List.getElem?_cons_zero, List.getElem?_drop, Nat.add_zero] at this
    exact this.symm
  have htail : cs = lb.body.drop (L.pos + 1) := by
    have := congrArg (List.drop 1) hdrop
    rw [List.drop_drop] at this
    exact this
  have hlstep : lstep x l L = some (if go then .next ⟨L.blk, L.pos + 1, σ', e.world⟩ else .halt false e.world) := by
    unfold lstep
    rw [hS.isBlock.get, Option.bind_some, hbody]
    dsimp only
    rw [hS.isBlock.first, hpc, hS.world, hrun]
    rfl
  unfold apply at happ
  rw [Option.map_eq_some_iff] at happ
  obtain ⟨regs', hwr, happ⟩ := happ
  rw [hctl] at happ
  cases go with
  | false =>
    subst happ
    exact ⟨1, lrun_one hlstep⟩
  | true =>
    have happ : Res.next { regs := regs', flags := e.flags.getD s.flags, pc := s.pc + 1, world := e.world } = r := happ
    have hlstep : lstep x l L = some (.next ⟨L.blk, L.pos + 1, σ', e.world⟩) := hlstep
    subst happ
    intro hlt
    have hlt : s.pc + 1 < f.irs.length := hlt
    have hsucc : Succ f s.pc (s.pc + 1) := step_succ S.noret S.targets hst hlt
    have hclean := succ_clean hcov hed S.labels S.targets hsucc hS.clean
    have hh := holds_next S hir hholds hsucc hpost he hwr hsame hval hflag
    rcases Nat.lt_or_ge s.pc b.last with hin | hout
    · -- the next instruction is in the block
      refine ⟨1, _, 0, lrun_one hlstep, ?_, Or.inr ⟨Nat.le_refl _, rfl⟩⟩
      refine ⟨b, lb, g1, gin, g2, ?_, by show s.pc + 1 = b.first + (L.pos + 1) + 0; omega⟩
      refine ⟨hS.get, hS.isBlock, ⟨?_, ?_⟩, hclean, rfl, (List.getElem?_eq_some_iff.1 hbody).1, ?_, ?_, ?_⟩
      · show b.first ≤ s.pc + 1; omega
      · show s.pc + 1 ≤ b.last; omega
      · show genRest _ _ L.blk b (irsFrom f b (b.first + (L.pos + 1))) (b.first + (L.pos + 1)) g1 = _
        rw [show b.first + (L.pos + 1) = s.pc + 1 by omega, ← htail]
        exact hrest
      · show Holds x f g1 L.blk (b.first + (L.pos + 1)) σ' (s.pc + 1) regs' (e.flags.getD s.flags)
        rw [show b.first + (L.pos + 1) = s.pc + 1 by omega]
        exact hh
      · refine ⟨?_, fun j h1 h2 => ?_⟩
        · show b.first + (L.pos + 1) ≤ s.pc + 1; omega
        · have h1 : b.first + (L.pos + 1) ≤ j := h1
          have h2 : j < s.pc + 1 := h2
          omega
    · -- the end of the block
      have hlast : s.pc = b.last := Nat.le_antisymm hS.has.2 hout
      rw [irsFrom_nil (by omega), genRest, Option.map_eq_some_iff] at hrest
      obtain ⟨t, hfall, heq⟩ := hrest
      simp only [Prod.mk.injEq] at heq
      obtain ⟨hcs, ht, hg⟩ := heq
      subst hg
      have hnab : b.aborts = false := by
        cases hab : b.aborts with
        | false => rfl
        | true =>
          obtain ⟨j, jr, h1, h2, h3⟩ := (hcov.good _ _ hS.get).aborts.1 hab
          rcases Nat.lt_or_ge j s.pc with c | c
          · have := hS.clean _ _ hS.get hS.has j jr h1.1 c h2
            rw [h3] at this; cases this
          · have hj : j = s.pc := by have := h1.2; omega
            subst hj
            rw [hir] at h2; cases h2
            obtain ⟨-, ir2, h4, h5⟩ := hsucc
            rw [hir] at h4; cases h4
            rcases h5 with h5 | h5
            · unfold Ir.label at h5
              split at h5
              · rename_i ho _; rw [ho] at hop; cases hop
              · rename_i ho _; exact absurd ho hnc
              · cases h5
            · have h6 := h5.2
              unfold Ir.canFall at h6
              split at h6
              · rename_i ho; rw [ho] at hop; cases hop
              · cases h6
              · cases h6
              · rw [h3] at h6; cases h6
      have hterm : t = .br (L.blk + 1) := by
        unfold fallTerm at hfall
        rw [if_neg (by rw [hnab]; exact Bool.false_ne_true)] at hfall
        split at hfall
        · cases hfall; rfl
        · cases hfall
      have hedge : L.blk + 1 ∈ b.out ∧ ∃ d, blocks[L.blk + 1]? = some d ∧ d.first = s.pc + 1 := by
        rcases succ_edge hcov hed S.labels S.targets hsucc hS.clean hS.get hS.has with h1 | ⟨c', d, h1, h2, h3⟩
        · have := h1.2.2; omega
        · have hgd := hcov.good _ _ h2
          have : c' = L.blk + 1 := by
            have hk1 : L.blk + 1 < blocks.length := by
              have := hcov.final _ _ hS.get
              have hk := (List.getElem?_eq_some_iff.1 hS.get).1
              rcases Nat.lt_or_ge (L.blk + 1) blocks.length with c | c
              · exact c
              · have := this.1 (by omega); omega
            have hd : blocks[L.blk + 1]? = some blocks[L.blk + 1] := List.getElem?_eq_some_iff.2 ⟨hk1, rfl⟩
            have hn := hcov.next _ _ _ hS.get hd
            have hg2 := hcov.good _ _ hd
            exact covers_unique hcov h2 hd (i := s.pc + 1) ⟨by omega, by have := hgd.le; omega⟩
              ⟨by omega, by have := hg2.le; omega⟩
          subst this
          exact ⟨h1, d, h2, h3⟩
      obtain ⟨hedge, d, hd, hdf⟩ := hedge
      have hl2 : lstep x l ⟨L.blk, L.pos + 1, σ', e.world⟩ =
          some (.next ⟨L.blk + 1, 0, enter x l L.blk (L.blk + 1) σ', e.world⟩) := by
        unfold lstep
        have hnb : lb.body[L.pos + 1]? = none := by
          rw [List.getElem?_eq_none_iff]
          have : lb.body.drop (L.pos + 1) = [] := by rw [← htail, ← hcs]
          rwa [List.drop_eq_nil_iff] at this
        rw [hS.isBlock.get, Option.bind_some, hnb]
        dsimp only
        rw [← ht, hterm]
        rfl
      refine ⟨1 + 1, _, 0, by rw [lrun_add 1 1 _ _ (lrun_one hlstep)]; exact lrun_one hl2, ?_, Or.inr ⟨by omega, rfl⟩⟩
      have hgoal := match_enter (s := { regs := regs', flags := e.flags.getD s.flags, pc := s.pc + 1, world := e.world })
        S hS.get hd hS.isBlock hedge hdf.symm (p := s.pc + 1) (by omega) hh
      exact hgoal

end Verif.Code.Llvm
