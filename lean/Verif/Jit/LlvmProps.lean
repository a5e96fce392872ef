import Verif.Jit.LlvmTerm
import Verif.Jit.LvnBugs

/-!
# The function that LLVM compiles does what the interpreter does
-/

namespace Verif.Code.Llvm

section
variable {W : Type} {x : LEnv W} {f : Func} {blocks : List Block} {live : Nat → Mask} {l : List LBlock}

/-- Conditions on the intermediate code and on what is outside it. -/
structure FuncOk (x : LEnv W) (f : Func) : Prop where
  nonempty : f.irs ≠ []
  labels : LabelsOk f
  targets : TargetsMarked f
  regs : RegsOk f
  checks : ChecksOk f
  results : ResultsOk f
  chains : ChainsOk f
  noret : NoReturn x.env
  env : EnvOk x.env
  small : ∀ ir ∈ f.irs, SmallVal ir.arg1 ∧ SmallVal ir.arg2
  exps : ExpOk f
  tests : SameTest f

/-- The LLVM function for `f`, from its graph and what is live at the ends of blocks. -/
structure Compiled (f : Func) (l : List LBlock) : Prop where
  gen : ∃ blocks fuel live, getCfg f = some blocks ∧ blocks.length * (f.nregs + 1) < fuel ∧
    liveOut f blocks fuel = some live ∧ cgen f blocks live = some l

theorem Compiled.setup (hc : Compiled f l) (ho : FuncOk x f) : ∃ blocks live, Setup x f blocks live l := by
  obtain ⟨blocks, fuel, live, h1, h2, h3, h4⟩ := hc.gen
  refine ⟨blocks, live, ho.nonempty, ho.labels, ho.targets, ho.regs, ho.checks, ho.results, ho.chains, ho.noret, ho.env,
    ho.small, ho.exps, ho.tests, h1, h4, ?_⟩
  obtain ⟨M, h5, h6⟩ := liveIn_bit ho.nonempty ho.labels ho.targets ho.regs h1 fuel h2
  rw [h3] at h5; cases h5
  intro k b hb q hq hlive
  exact (h6 k b hb q hq).1 hlive

/-- One step, whatever the instruction. -/
theorem step_follows (S : Setup x f blocks live l) {s : State W} {L : LState W} {w : Nat} {r : Res W}
    (hM : Match x f blocks live l s L w) (hsafe : Safe x f s) (hst : step x.env f s = some r) :
    Follows x f blocks live l L w r := by
  obtain ⟨ir, -, -, hir, -⟩ := step_split hst
  cases hop : Op.ends ir.op with
  | false => exact step_body S hM hsafe hst hir hop
  | true =>
    have h : ir.op = .jump ∨ ir.op = .case ∨ ir.op = .ret ∨ ir.op = .reexec := by
      revert hop
      cases ir.op <;> simp [Op.ends]
    rcases h with h | h | h | h
    · exact step_jump S hM hst hir h
    · exact step_case S hM hst hir h
    · exact step_return S hM hst hir (Or.inl h)
    · exact step_return S hM hst hir (Or.inr h)

theorem match_lt (S : Setup x f blocks live l) {s : State W} {L : LState W} {w : Nat} (hM : Match x f blocks live l s L w) :
    w < f.irs.length := by
  obtain ⟨hcov, -⟩ := cfg_edges S.nonempty S.labels S.cfg
  obtain ⟨b, lb, g, gin, gout, hS, hw⟩ := hM
  have h1 := (hcov.good _ _ hS.get).lt
  have h2 := hS.has.2
  omega

/-- Many steps; the LLVM function is not far behind. -/
theorem run_follows (S : Setup x f blocks live l) : ∀ (n : Nat) (s s' : State W) (L : LState W) (w : Nat),
    Match x f blocks live l s L w → (∀ n t, run x.env f n s = some (.next t) → Safe x f t) →
    run x.env f n s = some (.next s') → s'.pc < f.irs.length →
    ∃ m L' w', lrun x l m L = some (.next L') ∧ Match x f blocks live l s' L' w' ∧ n + w ≤ m * f.irs.length + w' := by
  intro n
  induction n with
  | zero =>
    intro s s' L w hM _ hr _
    cases hr
    exact ⟨0, L, w, rfl, hM, by omega⟩
  | succ n ih =>
    intro s s' L w hM hsafe hr hlt
    rw [run] at hr
    cases hs : step x.env f s with
    | none => rw [hs] at hr; cases hr
    | some r =>
      rw [hs] at hr
      cases r with
      | halt r t => cases hr
      | next t =>
        have hlt1 : t.pc < f.irs.length := by
          cases n with
          | zero => cases hr; exact hlt
          | succ n =>
            have hr' : run x.env f (n + 1) t = some (.next s') := hr
            rw [run] at hr'
            rcases Nat.lt_or_ge t.pc f.irs.length with c | c
            · exact c
            · have hnone : step x.env f t = none := by
                unfold step
                rw [List.getElem?_eq_none c]; rfl
              rw [hnone] at hr'; cases hr'
        obtain ⟨m1, L1, w1, h1, h2, h3⟩ := step_follows S hM (hsafe 0 s rfl) hs hlt1
        obtain ⟨m2, L2, w2, h4, h5, h6⟩ := ih t s' L1 w1 h2 (fun k u hu => hsafe (k + 1) u (by rw [run, hs]; exact hu)) hr hlt
        refine ⟨m1 + m2, L2, w2, by rw [lrun_add _ _ _ _ h1]; exact h4, h5, ?_⟩
        have hwl := match_lt S hM
        rw [Nat.add_mul]
        rcases h3 with ⟨rfl, rfl⟩ | ⟨h7, rfl⟩
        · omega
        · have := Nat.mul_le_mul_right f.irs.length h7
          omega

/-- The last step of a run that ends. -/
theorem run_last {env : Env W} : ∀ (n : Nat) (s : State W) (r : Bool) (s' : State W), run env f n s = some (.halt r s') →
    ∃ k t, run env f k s = some (.next t) ∧ step env f t = some (.halt r s') := by
  intro n
  induction n with
  | zero => intro s r s' h; cases h
  | succ n ih =>
    intro s r s' h
    rw [run] at h
    cases hs : step env f s with
    | none => rw [hs] at h; cases h
    | some q =>
      rw [hs] at h
      cases q with
      | halt r1 t => cases h; exact ⟨0, s, rfl, hs⟩
      | next t =>
        obtain ⟨k, u, h1, h2⟩ := ih t r s' h
        exact ⟨k + 1, u, by rw [run, hs]; exact h1, h2⟩

/-- The state in which the interpreter starts. -/
structure Starts (f : Func) (s : State W) : Prop where
  pc : s.pc = 0
  regs : ∀ r, LiveReg f r 0 → s.regs r = 0
  flags : LiveFlags f 0 → s.flags = false

/-- Every step that the interpreter takes from `s` is one in which the code of LLVM does the same. -/
def SafeRun (x : LEnv W) (f : Func) (s : State W) : Prop := ∀ n t, run x.env f n s = some (.next t) → Safe x f t

theorem start_match (S : Setup x f blocks live l) {s : State W} (hs : Starts f s) :
    Match x f blocks live l s (lstart s.world) 0 := by
  obtain ⟨b, lb, g, gin, gout, hS⟩ := start_sim S hs.pc hs.regs hs.flags
  refine ⟨b, lb, g, gin, gout, hS, ?_⟩
  have h1 := hS.waits.1
  rw [hs.pc] at h1 ⊢
  omega

/-- If the interpreter ends, so does the LLVM function, in the same way and in the same world. -/
theorem llvm_halts_partial (x : LEnv W) (f : Func) (l : List LBlock) (ho : FuncOk x f) (hc : Compiled f l) (s : State W)
    (hs : Starts f s) (hsafe : SafeRun x f s) (n : Nat) (r : Bool) (s' : State W)
    (hr : run x.env f n s = some (.halt r s')) : ∃ m, lrun x l m (lstart s.world) = some (.halt r s'.world) := by
  obtain ⟨blocks, live, S⟩ := hc.setup ho
  obtain ⟨k, t, h1, h2⟩ := run_last n s r s' hr
  have hlt : t.pc < f.irs.length := by
    obtain ⟨ir, -, -, hir, -⟩ := step_split h2
    exact (List.getElem?_eq_some_iff.1 hir).1
  obtain ⟨m, L', w', h3, h4, -⟩ := run_follows S k s t _ _ (start_match S hs) hsafe h1 hlt
  obtain ⟨m2, h5⟩ := step_follows S h4 (hsafe k t h1) h2
  exact ⟨m + m2, by rw [lrun_add _ _ _ _ h3]; exact h5⟩

/-- If the LLVM function ends, then the interpreter ends in the same way, unless it cannot go on. -/
theorem llvm_halts_only_partial (x : LEnv W) (f : Func) (l : List LBlock) (ho : FuncOk x f) (hc : Compiled f l) (s : State W)
    (hs : Starts f s) (hsafe : SafeRun x f s) (hgo : ∀ n, run x.env f n s ≠ none) (m : Nat) (r : Bool) (w : W)
    (hr : lrun x l m (lstart s.world) = some (.halt r w)) :
    ∃ n s', run x.env f n s = some (.halt r s') ∧ s'.world = w := by
  have hboth : ∀ n r' s', run x.env f n s = some (.halt r' s') → r' = r ∧ s'.world = w := by
    intro n r' s' h
    obtain ⟨m', hm'⟩ := llvm_halts_partial x f l ho hc s hs hsafe n r' s' h
    have h1 := lrun_more m _ _ _ _ hm'
    have h2 := lrun_more m' _ _ _ _ hr
    rw [Nat.add_comm, h2] at h1
    cases h1
    exact ⟨rfl, rfl⟩
  obtain ⟨blocks, live, S⟩ := hc.setup ho
  cases hn : run x.env f ((m + 1) * f.irs.length + 1) s with
  | none => exact absurd hn (hgo _)
  | some q =>
    cases q with
    | halt r' s' =>
      obtain ⟨rfl, h2⟩ := hboth _ r' s' hn
      exact ⟨_, s', hn, h2⟩
    | next t =>
      exfalso
      -- the interpreter was still in the code a step before
      have hprev : ∀ (k : Nat) (u v : State W), run x.env f (k + 1) u = some (.next v) →
          ∃ y, run x.env f k u = some (.next y) ∧ y.pc < f.irs.length := by
        intro k
        induction k with
        | zero =>
          intro u v h
          refine ⟨u, rfl, ?_⟩
          rw [run] at h
          rcases Nat.lt_or_ge u.pc f.irs.length with c | c
          · exact c
          · have hnone : step x.env f u = none := by
              unfold step
              rw [List.getElem?_eq_none c]; rfl
            rw [hnone] at h; cases h
        | succ k ih =>
          intro u v h
          rw [run] at h
          cases hst : step x.env f u with
          | none => rw [hst] at h; cases h
          | some q =>
            rw [hst] at h
            cases q with
            | halt _ _ => cases h
            | next u1 =>
              obtain ⟨y, h1, h2⟩ := ih u1 v h
              exact ⟨y, by rw [run, hst]; exact h1, h2⟩
      obtain ⟨y, h1, h2⟩ := hprev _ s t hn
      obtain ⟨m1, L1, w1, h3, h4, h5⟩ := run_follows S _ s y _ _ (start_match S hs) hsafe h1 h2
      have hwl := match_lt S h4
      have hlt : m < m1 := by
        rcases Nat.lt_or_ge m m1 with c | c
        · exact c
        · exfalso
          have := Nat.mul_le_mul_right f.irs.length c
          rw [Nat.add_mul] at h5
          omega
      have h6 := lrun_more (m1 - m) m _ _ _ hr
      rw [show m + (m1 - m) = m1 by omega, h3] at h6
      cases h6

/-- As long as the interpreter goes on, the LLVM function comes to a state in the same world in which it
has not ended. -/
theorem llvm_follows_partial (x : LEnv W) (f : Func) (l : List LBlock) (ho : FuncOk x f) (hc : Compiled f l) (s : State W)
    (hs : Starts f s) (hsafe : SafeRun x f s) (n : Nat) (s' : State W)
    (hr : run x.env f n s = some (.next s')) (hlt : s'.pc < f.irs.length) :
    ∃ m L, lrun x l m (lstart s.world) = some (.next L) ∧ L.world = s'.world := by
  obtain ⟨blocks, live, S⟩ := hc.setup ho
  obtain ⟨m, L, w, h1, ⟨b, lb, g, gin, gout, hS, -⟩, -⟩ := run_follows S n s s' _ _ (start_match S hs) hsafe hr hlt
  exact ⟨m, L, h1, hS.world⟩

end

/-! ## an example -/

/-- The world is the argument, and then the result. -/
def wordEnv : Env Word where
  cpool := 0
  cover := id
  recv := fun w _ => some w
  send := fun _ _ v => some v
  load := fun _ _ _ _ => none
  store := fun _ _ _ _ => none
  copy := fun _ _ _ _ => none
  move := fun _ _ _ _ => none
  bzero := fun _ _ _ => none
  memset := fun _ _ _ _ _ => none
  sadd := fun _ _ _ _ => none
  galloc := fun _ _ => none
  lalloc := fun _ _ => none
  salloc := fun _ _ => none
  call := fun _ _ => none
  exit := fun _ _ => none
  getpriv := fun _ _ => none
  putpriv := fun _ _ _ => none
  trim := fun _ => none
  reexec := fun _ => none
  farith := fun _ _ _ => none
  fcompare := fun _ a b => !isNaN a && !isNaN b

def wordX : LEnv Word :=
  ⟨wordEnv, fun _ _ v => some (low 32 v), fun _ _ _ _ _ => none, fun _ _ _ _ => none, fun _ _ => none, fun _ => none⟩

/-- A loop with a switch: the argument is counted down, and at every odd number below four eleven is added,
at the others one. -/
def countFunc : Func :=
  { irs := [mk .recv (some 0) (.int 0), mk .mov (some 1) (.int 0),
      mk .cmp none (.reg 0) (.int 0) .eq true, mk .jump none (.label 10) .invalid .t,
      mk .case (some 0) (.int 1) (.label 7), mk .case (some 0) (.int 3) (.label 7), mk .jump none (.label 8),
      mk .add (some 1) (.reg 1) (.int 10) .none true,
      mk .add (some 1) (.reg 1) (.int 1) .none true, mk .jump none (.label 12),
      mk .send none (.int 0) (.reg 1) .none true, mk .ret none,
      { mkSize .sub .s32 (some 0) (.reg 0) (.int 1) .o with target := true }, mk .jump none (.label 2)],
    nregs := 2 }

/-- The code of LLVM for a function, or nothing. -/
def compile (f : Func) : List LBlock :=
  match getCfg f with
  | some blocks =>
    match liveOut f blocks (blocks.length * (f.nregs + 1) + 1) with
    | some live => (cgen f blocks live).getD []
    | none => []
  | none => []

/-- Whether there is any. -/
def compiles (f : Func) : Bool :=
  match getCfg f with
  | some blocks =>
    match liveOut f blocks (blocks.length * (f.nregs + 1) + 1) with
    | some live => (cgen f blocks live).isSome
    | none => false
  | none => false

theorem compile_ok {f : Func} (h : compiles f = true) : Compiled f (compile f) := by
  unfold compiles at h
  cases hg : getCfg f with
  | none => rw [hg] at h; cases h
  | some blocks =>
    rw [hg] at h
    dsimp only at h
    cases hl : liveOut f blocks (blocks.length * (f.nregs + 1) + 1) with
    | none => rw [hl] at h; cases h
    | some live =>
      rw [hl] at h
      obtain ⟨l, hc⟩ := Option.isSome_iff_exists.1 h
      refine ⟨blocks, _, live, hg, Nat.lt_succ_self _, hl, ?_⟩
      simp only [compile, hg, hl, hc, Option.getD_some]

/-- How a run ends. -/
def lend (r : Option (LRes Word)) : Option (Bool × Word) :=
  match r with
  | some (.halt r w) => some (r, w)
  | _ => none

def iend (r : Option (Res Word)) : Option (Bool × Word) :=
  match r with
  | some (.halt r s) => some (r, s.world)
  | _ => none

def istart (w : Word) : State Word := ⟨fun _ => 0, false, 0, w⟩

example : compiles countFunc = true := by decide +kernel

example : iend (run wordEnv countFunc 60 (istart 3)) = some (true, 23) ∧
    lend (lrun wordX (compile countFunc) 60 (lstart 3)) = some (true, 23) := by decide +kernel

example : iend (run wordEnv countFunc 60 (istart 5)) = some (true, 25) ∧
    lend (lrun wordX (compile countFunc) 60 (lstart 5)) = some (true, 25) := by decide +kernel

theorem wordX_ok : EnvOk wordX.env ∧ NoReturn wordX.env := by
  refine ⟨⟨fun _ _ _ _ _ _ => rfl, fun _ _ _ _ => rfl⟩, ?_⟩
  intro w e _ w' h
  cases h

theorem countFunc_ok : FuncOk wordX countFunc := by
  refine ⟨by decide +kernel, ?_, ?_, ?_, by unfold ChecksOk; decide +kernel, by unfold ResultsOk; decide +kernel, ?_,
    wordX_ok.2, wordX_ok.1, ?_, ?_, ?_⟩
  · intro ir h
    simp [countFunc] at h
    rcases h with rfl | rfl | rfl | rfl | rfl | rfl | rfl | rfl | rfl | rfl | rfl | rfl | rfl | rfl <;>
      simp [mk, mkSize, countFunc]
  · apply mem_index
    intro p h
    simp [countFunc] at h
    rcases h with rfl | rfl | rfl | rfl | rfl | rfl | rfl | rfl | rfl | rfl | rfl | rfl | rfl | rfl <;>
      simp [mk, mkSize, countFunc]
  · intro ir h
    simp [countFunc] at h
    rcases h with rfl | rfl | rfl | rfl | rfl | rfl | rfl | rfl | rfl | rfl | rfl | rfl | rfl | rfl <;>
      simp [mk, mkSize, countFunc, Val.regOf] <;> omega
  · intro i ir h h1 h2
    have := mem_index (l := countFunc.irs) (P := fun i ir => ir.readsFlags = true → ir.writesFlags = true → False)
      (by decide +kernel) i ir h h1 h2
    exact this.elim
  · intro ir h
    simp [countFunc] at h
    rcases h with rfl | rfl | rfl | rfl | rfl | rfl | rfl | rfl | rfl | rfl | rfl | rfl | rfl | rfl <;>
      simp [mk, mkSize, SmallVal]
  · intro i ir h h1
    have := mem_index (l := countFunc.irs) (P := fun i ir => ir.op = .exp → False) (by decide +kernel) i ir h h1
    exact this.elim
  · intro i ir nx h hn h1 h2 _
    have := mem_index (l := countFunc.irs)
      (P := fun i ir => ir.op = .case → (countFunc.irs[i + 1]?).all (fun nx => nx.op != .case || nx.result == ir.result) = true)
      (by decide +kernel) i ir h h1
    rw [hn] at this
    simpa [h2] using this

/-- For every argument. -/
example (w : Word) (n : Nat) (r : Bool) (s' : State Word) (hr : run wordX.env countFunc n (istart w) = some (.halt r s')) :
    ∃ m, lrun wordX (compile countFunc) m (lstart w) = some (.halt r s'.world) := by
  refine llvm_halts_partial wordX countFunc _ countFunc_ok (compile_ok (by decide +kernel)) (istart w)
    ⟨rfl, fun _ _ => rfl, fun _ => rfl⟩ ?_ n r s' hr
  intro n t _ ir old hir _
  have h := mem_index (l := countFunc.irs)
    (P := fun _ ir => (ir.op != .fcmp && ir.op != .fccmp && ir.op != .exp && ir.op != .memset && ir.op != .sadd &&
      ir.op != .lalloc && ir.op != .trim && ir.op != .store && ir.op != .load && !isShort ir.arg2) = true)
    (by decide +kernel) t.pc ir hir
  simp only [Bool.and_eq_true, bne_iff_ne, ne_eq, Bool.not_eq_true'] at h
  unfold SafeOp
  split <;> simp_all

end Verif.Code.Llvm
