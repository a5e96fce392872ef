import Verif.Jit.LlvmInstr
import Verif.Jit.LlvmEdges

/-!
# The code that LLVM makes follows the interpreter

A relation between the states of the interpreter and those of the LLVM function.  Every register that is
live has an expression, whose value is that of the register.  The interpreter takes a step for every case
of a switch, where the LLVM function takes one for all.
-/

namespace Verif.Code.Llvm

/-! ## expressions that do not change -/

/-- The values that an expression uses. -/
def Expr.refs : Expr → List Ref
  | .ref r _ => [r]
  | .const _ _ | .cpool _ | .cover _ => []
  | .bin _ a b | .gep a b | .icmp _ a b | .fcmp _ a b | .and a b | .ovf _ _ _ a b | .ovfFlag _ _ _ a b
  | .exp _ _ a b | .expFlag _ _ a b | .real _ a b => a.refs ++ b.refs
  | .neg a | .toPtr a | .toInt a | .cast _ a | .trunc _ a | .sext _ a | .zext _ a | .not a | .real1 _ a => a.refs
  | .select c a b => c.refs ++ (a.refs ++ b.refs)

section
variable {W : Type}

theorem eval_congr {x : LEnv W} {σ τ : Ref → Option Word} (e : Expr) (h : ∀ ρ ∈ e.refs, σ ρ = τ ρ) :
    e.eval x σ = e.eval x τ := by
  have two : ∀ (a b : Expr), ((∀ ρ ∈ a.refs, σ ρ = τ ρ) → a.eval x σ = a.eval x τ) →
      ((∀ ρ ∈ b.refs, σ ρ = τ ρ) → b.eval x σ = b.eval x τ) → (∀ ρ ∈ a.refs ++ b.refs, σ ρ = τ ρ) →
      a.eval x σ = a.eval x τ ∧ b.eval x σ = b.eval x τ := by
    intro a b ha hb hr
    exact ⟨ha fun ρ hρ => hr ρ (List.mem_append_left _ hρ), hb fun ρ hρ => hr ρ (List.mem_append_right _ hρ)⟩
  induction e with
  | ref r t => exact h r (by simp [Expr.refs])
  | const | cpool | cover => rfl
  | bin _ a b iha ihb | gep a b iha ihb | icmp _ a b iha ihb | fcmp _ a b iha ihb | and a b iha ihb
  | ovf _ _ _ a b iha ihb | ovfFlag _ _ _ a b iha ihb | exp _ _ a b iha ihb | expFlag _ _ a b iha ihb
  | real _ a b iha ihb =>
    obtain ⟨h1, h2⟩ := two a b iha ihb h
    simp only [Expr.eval, h1, h2]
  | neg a ih | toPtr a ih | toInt a ih | cast _ a ih | trunc _ a ih | sext _ a ih | zext _ a ih | not a ih
  | real1 _ a ih =>
    have h1 := ih h
    simp only [Expr.eval, h1]
  | select c a b ihc iha ihb =>
    have h1 := ihc fun ρ hρ => h ρ (List.mem_append_left _ hρ)
    obtain ⟨h2, h3⟩ := two a b iha ihb fun ρ hρ => h ρ (List.mem_append_right _ hρ)
    simp only [Expr.eval, h1, h2, h3]

end

/-- A value that was computed before position `p` of block `k`. -/
def Ref.old (k p : Nat) : Ref → Prop
  | .phi b _ => b ≤ k
  | .phiFlag b => b ≤ k
  | .res i => i < p
  | .flag i => i < p

def Old (k p : Nat) (e : Expr) : Prop := ∀ ρ ∈ e.refs, ρ.old k p

theorem Old.mono {k p k' p' : Nat} {e : Expr} (h : Old k p e) (hk : k ≤ k') (hp : p ≤ p') : Old k' p' e := by
  intro ρ hρ
  have := h ρ hρ
  cases ρ <;> simp only [Ref.old] at this ⊢ <;> omega

/-! ## assumptions -/

/-- An exponentiation without a check, for which the generator writes the flags although the interpreter
does not, is not followed by a reader of the flags. -/
def ExpOk (f : Func) : Prop :=
  ∀ (i : Nat) (ir : Ir), f.irs[i]? = some ir → ir.op = .exp → ir.writesFlags = false → ¬ LiveFlags f (i + 1)

/-- Cases that follow each other test the same register. -/
def SameTest (f : Func) : Prop :=
  ∀ (i : Nat) (ir nx : Ir), f.irs[i]? = some ir → f.irs[i + 1]? = some nx → ir.op = .case → nx.op = .case →
    nx.target = false → nx.result = ir.result

/-- The assumptions about a function, its graph and the code for it. -/
structure Setup {W : Type} (x : LEnv W) (f : Func) (blocks : List Block) (live : Nat → Mask) (l : List LBlock) : Prop where
  nonempty : f.irs ≠ []
  labels : LabelsOk f
  targets : TargetsMarked f
  regs : RegsOk f
  checks : ChecksOk f
  results : ResultsOk f
  chains : ChainsOk f
  noret : NoReturn x.env
  env : EnvOk x.env
  small : ∀ ir ∈ f.irs, SmallVal ir.arg1 ∧ SmallVal ir.arg2
  exps : ExpOk f
  tests : SameTest f
  cfg : getCfg f = some blocks
  gen : cgen f blocks live = some l
  livein : ∀ (k : Nat) (b : Block), blocks[k]? = some b → ∀ q < f.nregs + 1,
    LiveBit f q b.first → liveIn f b (live k) q = true

/-! ## the blocks of the function -/

theorem genBlocks_get {f : Func} {m : Mask} {blocks : List Block} {live : Nat → Mask} : ∀ (rest : List Block)
    (done l : List LBlock), genBlocks f m blocks live rest done = some l →
    l.take done.length = done ∧ ∀ (c : Nat) (d : Block), rest[c]? = some d → ∃ lb, l[done.length + c]? = some lb ∧
      genBlock f m blocks live (l.take (done.length + c)) (done.length + c) d = some lb := by
  intro rest
  induction rest with
  | nil =>
    intro done l h
    cases h
    exact ⟨List.take_length, fun c d h => by cases h⟩
  | cons b rest ih =>
    intro done l h
    rw [genBlocks] at h
    obtain ⟨lb, hlb, h⟩ := bind_split h
    obtain ⟨h1, h2⟩ := ih _ _ h
    have hlen : (done ++ [lb]).length = done.length + 1 := by simp
    rw [hlen] at h1
    have htake : l.take done.length = done := by
      have := congrArg (List.take done.length) h1
      rw [List.take_take, Nat.min_eq_left (by omega), List.take_left] at this
      exact this
    refine ⟨htake, fun c d hc => ?_⟩
    cases c with
    | zero =>
      cases hc
      refine ⟨lb, ?_, ?_⟩
      · have := congrArg (fun q => q[done.length]?) h1
        simp only [List.getElem?_take, if_pos (Nat.lt_succ_self done.length)] at this
        rw [Nat.add_zero, this]
        simp
      · rw [Nat.add_zero, htake]; exact hlb
    | succ c =>
      obtain ⟨lb', g1, g2⟩ := h2 c d hc
      rw [hlen] at g1 g2
      rw [show done.length + (c + 1) = done.length + 1 + c by omega]
      exact ⟨lb', g1, g2⟩

/-- What is known of a block of the LLVM function. -/
structure IsBlock (f : Func) (blocks : List Block) (live : Nat → Mask) (l : List LBlock) (k : Nat) (b : Block)
    (lb : LBlock) (gin gout : Gen) : Prop where
  get : l[k]? = some lb
  input : genIn (ptrMask f) f.nregs blocks (l.take k) k (liveIn f b (live k)) = some gin
  rest : genRest (ptrMask f) blocks.length k b (blockIrs f b) b.first gin = some (lb.body, lb.term, gout)
  first : lb.first = b.first
  phi : lb.phi = ((domOf blocks k).isNone && !(preds blocks k).isEmpty)
  out : lb.out = fixLiveout (ptrMask f) (live k) gout

theorem isBlock_exists {f : Func} {blocks : List Block} {live : Nat → Mask} {l : List LBlock}
    (h : cgen f blocks live = some l) {k : Nat} {b : Block} (hb : blocks[k]? = some b) :
    ∃ lb gin gout, IsBlock f blocks live l k b lb gin gout := by
  unfold cgen at h
  obtain ⟨l', hl, h⟩ := bind_split h
  split at h
  · cases h
    obtain ⟨lb, h1, h2⟩ := (genBlocks_get _ _ _ hl).2 k b hb
    simp only [List.length_nil, Nat.zero_add] at h1 h2
    unfold genBlock at h2
    obtain ⟨gin, hgin, h2⟩ := bind_split h2
    rw [Option.map_eq_some_iff] at h2
    obtain ⟨⟨cs, t, g2⟩, hr, h2⟩ := h2
    subst h2
    exact ⟨_, gin, g2, h1, hgin, hr, rfl, rfl, rfl⟩
  · cases h

theorem cgen_phi {f : Func} {blocks : List Block} {live : Nat → Mask} {l : List LBlock}
    (h : cgen f blocks live = some l) {k : Nat} (hk : k < blocks.length) : phiOk f (ptrMask f) blocks live l k = true := by
  unfold cgen at h
  obtain ⟨l', hl, h⟩ := bind_split h
  split at h
  · rename_i hall
    cases h
    rw [List.all_eq_true] at hall
    exact hall k (List.mem_range.2 hk)
  · cases h

/-! ## the relation -/

section
variable {W : Type}

/-- Every live register has an expression with its value, and the flags have one. -/
structure Holds (x : LEnv W) (f : Func) (g : Gen) (k p : Nat) (σ : Ref → Option Word) (pc : Nat) (regs : Nat → Word)
    (fl : Bool) : Prop where
  typed : Typed (ptrMask f) g
  regs : ∀ r, LiveReg f r pc → ∃ e, g.regs r = some e ∧ Old k p e ∧ e.eval x σ = some (regs r)
  flags : LiveFlags f pc → Old k p g.flags ∧ g.flags.eval x σ = some (ofBool fl)

/-- The interpreter is at `pc` and the LLVM function at the code for `p`: the same instruction, or the
first of some cases of which those before `pc` do not match. -/
def Waits (f : Func) (p pc : Nat) (regs : Nat → Word) : Prop :=
  p ≤ pc ∧ ∀ j, p ≤ j → j < pc → ∃ (ir : Ir) (r : Nat) (v : Word), f.irs[j]? = some ir ∧ ir.op = .case ∧ ir.result = some r ∧
    ir.arg1 = .int v ∧ regs r ≠ v

structure Sim (x : LEnv W) (f : Func) (blocks : List Block) (live : Nat → Mask) (l : List LBlock)
    (s : State W) (L : LState W) (b : Block) (lb : LBlock) (g gin gout : Gen) : Prop where
  get : blocks[L.blk]? = some b
  isBlock : IsBlock f blocks live l L.blk b lb gin gout
  has : b.has s.pc
  clean : Clean f blocks s.pc
  world : L.world = s.world
  pos : L.pos ≤ lb.body.length
  rest : genRest (ptrMask f) blocks.length L.blk b (irsFrom f b (b.first + L.pos)) (b.first + L.pos) g =
    some (lb.body.drop L.pos, lb.term, gout)
  holds : Holds x f g L.blk (b.first + L.pos) L.vals s.pc s.regs s.flags
  waits : Waits f (b.first + L.pos) s.pc s.regs

/-! ## entering a block -/

theorem live_lt {f : Func} (hr : RegsOk f) {r i : Nat} (h : LiveReg f r i) : r < f.nregs := by
  induction h with
  | use hir h =>
    apply hr _ (List.mem_of_getElem? hir)
    rcases h with h | h | h
    · exact Or.inl h
    · exact Or.inr (Or.inl h)
    · exact Or.inr (Or.inr h.2)
  | later _ _ _ _ ih => exact ih

theorem fix_typed {m : Mask} {g : Gen} (h : Typed m g) (live : Mask) : Typed m (fixLiveout m live g) := by
  refine ⟨fun r e he => ?_, h.flags⟩
  simp only [fixLiveout, Option.map_eq_some_iff] at he
  obtain ⟨e0, h0, he⟩ := he
  split at he
  · rename_i hc
    subst he
    right
    rcases h.regs r e0 h0 with h1 | h1
    · exact ⟨by simp only [Expr.ty, h1, if_true], hc.2.1⟩
    · exact absurd h1.1 hc.2.2
  · subst he; exact h.regs r e0 h0

theorem fix_holds {x : LEnv W} {f : Func} {g : Gen} {k p : Nat} {σ : Ref → Option Word} {pc : Nat} {regs : Nat → Word}
    {fl : Bool} (h : Holds x f g k p σ pc regs fl) (live : Mask) :
    Holds x f (fixLiveout (ptrMask f) live g) k p σ pc regs fl := by
  refine ⟨fix_typed h.typed live, fun r hr => ?_, h.flags⟩
  obtain ⟨e, h1, h2, h3⟩ := h.regs r hr
  by_cases hc : live r = true ∧ ptrMask f r = true ∧ e.ty ≠ some .ptr
  · exact ⟨.toPtr e, by simp only [fixLiveout, h1, Option.map_some, if_pos hc], h2, h3⟩
  · exact ⟨e, by simp only [fixLiveout, h1, Option.map_some, if_neg hc], h2, h3⟩

theorem mem_preds {blocks : List Block} {k c : Nat} {b : Block} (hb : blocks[k]? = some b) (hc : c ∈ b.out) :
    k ∈ preds blocks c := by
  unfold preds
  rw [List.mem_flatMap]
  refine ⟨(b, k), ?_, ?_⟩
  · rw [List.mem_zipIdx_iff_getElem?]; exact hb
  · rw [List.mem_map]
    exact ⟨c, by rw [List.mem_filter]; exact ⟨hc, by simp⟩, rfl⟩

theorem regTy_typed (m : Mask) (j : Nat) (t : Ty) (h : t = if m j then .ptr else .i64) : t = .i64 ∨ (t = .ptr ∧ m j = true) := by
  by_cases hm : m j = true
  · rw [if_pos hm] at h; exact Or.inr ⟨h, hm⟩
  · rw [if_neg hm] at h; exact Or.inl h

/-- The generator's values at the start of a block that control enters along an edge. -/
theorem enter_holds {x : LEnv W} {f : Func} {blocks : List Block} {live : Nat → Mask} {l : List LBlock}
    (S : Setup x f blocks live l) {k c : Nat} {b d : Block} {lb lc : LBlock} {gin gout gc gc' : Gen} {p : Nat}
    {σ : Ref → Option Word} {regs : Nat → Word} {fl : Bool} (hb : blocks[k]? = some b) (hd : blocks[c]? = some d)
    (hB : IsBlock f blocks live l k b lb gin gout) (hC : IsBlock f blocks live l c d lc gc gc') (hedge : c ∈ b.out)
    (hp : p ≤ b.last + 1) (h : Holds x f gout k p σ d.first regs fl) :
    Holds x f gc c d.first (enter x l k c σ) d.first regs fl := by
  obtain ⟨hcov, -⟩ := cfg_edges S.nonempty S.labels S.cfg
  have hfix := fix_holds h (live k)
  rw [← hB.out] at hfix
  have hpred := mem_preds hb hedge
  have hlive : ∀ r, LiveReg f r d.first → r < f.nregs ∧ liveIn f d (live c) r = true := by
    intro r hr
    have hlt := live_lt S.regs hr
    exact ⟨hlt, S.livein c d hd r (by omega) ((live_reg r hlt _).2 hr)⟩
  have hliveF : LiveFlags f d.first → liveIn f d (live c) f.nregs = true := by
    intro hr
    exact S.livein c d hd _ (by omega) ((live_flags S.regs S.targets S.chains _ (first_plain hcov S.chains hd)).2 hr)
  have hin := hC.input
  unfold genIn at hin
  cases hdom : domOf blocks c with
  | some q =>
    -- the only edge
    have hq : preds blocks c = [q] ∧ q < c := by
      unfold domOf at hdom
      split at hdom
      · rename_i q' hq'
        split at hdom
        · cases hdom; rename_i hlt; exact ⟨hq', hlt⟩
        · cases hdom
      · cases hdom
    have hkq : k = q := by rw [hq.1] at hpred; simpa using hpred
    subst hkq
    rw [hdom] at hin
    dsimp only at hin
    rw [List.getElem?_take, if_pos hq.2, hB.get, Option.bind_some] at hin
    split at hin
    · cases hin
      have hkc : b.last < d.first := covers_lt hcov hb hd hq.2
      have hsame : ∀ e : Expr, Old k p e → e.eval x (enter x l k c σ) = e.eval x σ := by
        intro e he
        apply eval_congr
        intro ρ hρ
        have ho := he ρ hρ
        unfold enter
        split
        · rename_i c' j kb cb _ _
          simp only [Ref.old] at ho
          rw [if_neg]
          rintro ⟨h1, -⟩
          omega
        · rename_i c' kb cb _ _
          simp only [Ref.old] at ho
          rw [if_neg]
          rintro ⟨h1, -⟩
          omega
        · rfl
      refine ⟨⟨fun r e he => ?_, ?_⟩, fun r hr => ?_, fun hr => ?_⟩
      · dsimp only at he
        split at he
        · exact hfix.typed.regs r e he
        · cases he
      · dsimp only
        split
        · exact hfix.typed.flags
        · rfl
      · obtain ⟨e, h1, h2, h3⟩ := hfix.regs r hr
        refine ⟨e, ?_, h2.mono (by omega) (by omega), ?_⟩
        · dsimp only; rw [if_pos (hlive r hr)]; exact h1
        · rw [hsame e h2]; exact h3
      · dsimp only
        rw [if_pos (hliveF hr)]
        obtain ⟨h1, h2⟩ := hfix.flags hr
        exact ⟨h1.mono (by omega) (by omega), by rw [hsame _ h1]; exact h2⟩
    · cases hin
  | none =>
    rw [hdom] at hin
    dsimp only at hin
    have hne : preds blocks c ≠ [] := by intro he; rw [he] at hpred; cases hpred
    rw [if_neg hne] at hin
    cases hin
    have hphi : lc.phi = true := by
      rw [hC.phi, hdom]
      cases hpr : preds blocks c with
      | nil => exact absurd hpr hne
      | cons _ _ => rfl
    refine ⟨⟨fun r e he => ?_, ?_⟩, fun r hr => ?_, fun hr => ?_⟩
    · dsimp only at he
      split at he
      · cases he
        rcases regTy_typed (ptrMask f) r _ rfl with h1 | h1
        · exact Or.inl (congrArg some h1)
        · exact Or.inr ⟨congrArg some h1.1, h1.2⟩
      · cases he
    · dsimp only
      split <;> rfl
    · obtain ⟨e, h1, h2, h3⟩ := hfix.regs r hr
      refine ⟨_, by dsimp only; rw [if_pos (hlive r hr)], ?_, ?_⟩
      · intro ρ hρ
        simp only [Expr.refs, List.mem_singleton] at hρ
        subst hρ
        exact Nat.le_refl c
      · simp only [Expr.eval, enter, hB.get, hC.get, hphi, and_self, if_true, h1, Option.bind_some]
        exact h3
    · dsimp only
      rw [if_pos (hliveF hr)]
      obtain ⟨h1, h2⟩ := hfix.flags hr
      refine ⟨?_, ?_⟩
      · intro ρ hρ
        simp only [Expr.refs, List.mem_singleton] at hρ
        subst hρ
        exact Nat.le_refl c
      · simp only [Expr.eval, enter, hB.get, hC.get, hphi, and_self, if_true]
        exact h2

/-- Control enters a block. -/
theorem enter_sim {x : LEnv W} {f : Func} {blocks : List Block} {live : Nat → Mask} {l : List LBlock}
    (S : Setup x f blocks live l) {k c : Nat} {b d : Block} {lb : LBlock} {gin gout : Gen} {p : Nat}
    {σ : Ref → Option Word} {s : State W} (hb : blocks[k]? = some b) (hd : blocks[c]? = some d)
    (hB : IsBlock f blocks live l k b lb gin gout) (hedge : c ∈ b.out) (hpc : s.pc = d.first)
    (hp : p ≤ b.last + 1) (h : Holds x f gout k p σ s.pc s.regs s.flags) :
    ∃ d lc g gc gc', Sim x f blocks live l s ⟨c, 0, enter x l k c σ, s.world⟩ d lc g gc gc' := by
  obtain ⟨lc, gc, gc', hC⟩ := isBlock_exists S.gen hd
  obtain ⟨hcov, -⟩ := cfg_edges S.nonempty S.labels S.cfg
  rw [hpc] at h
  have hh := enter_holds S hb hd hB hC hedge hp h
  refine ⟨d, lc, gc, gc, gc', hd, hC, ?_, ?_, rfl, Nat.zero_le _, ?_, ?_, ?_⟩
  · rw [hpc]; exact ⟨Nat.le_refl _, (hcov.good c d hd).le⟩
  · rw [hpc]; exact clean_first hcov hd
  · exact hC.rest
  · show Holds x f gc c (d.first + 0) (enter x l k c σ) s.pc s.regs s.flags
    rw [hpc]; exact hh
  · rw [hpc]
    exact ⟨Nat.le_refl _, fun j h1 h2 => absurd h1 (by have h2 : j < d.first := h2; show ¬ d.first + 0 ≤ j; omega)⟩

/-- Everything is zero at the start of the function, or not live. -/
theorem start_sim {x : LEnv W} {f : Func} {blocks : List Block} {live : Nat → Mask} {l : List LBlock}
    (S : Setup x f blocks live l) {s : State W} (hpc : s.pc = 0) (hregs : ∀ r, LiveReg f r 0 → s.regs r = 0)
    (hfl : LiveFlags f 0 → s.flags = false) :
    ∃ b lb g gin gout, Sim x f blocks live l s (lstart s.world) b lb g gin gout := by
  obtain ⟨hcov, -⟩ := cfg_edges S.nonempty S.labels S.cfg
  obtain ⟨b, hb, hb0⟩ := hcov.zero
  obtain ⟨lb, gin, gout, hB⟩ := isBlock_exists S.gen hb
  have hlive : ∀ r, LiveReg f r b.first → r < f.nregs ∧ liveIn f b (live 0) r = true := by
    intro r hr
    have hlt := live_lt S.regs hr
    exact ⟨hlt, S.livein 0 b hb r (by omega) ((live_reg r hlt _).2 hr)⟩
  have hliveF : LiveFlags f b.first → liveIn f b (live 0) f.nregs = true := by
    intro hr
    exact S.livein 0 b hb _ (by omega) ((live_flags S.regs S.targets S.chains _ (first_plain hcov S.chains hb)).2 hr)
  have hh : Holds x f gin 0 b.first (fun _ => none) b.first s.regs s.flags := by
    have hin := hB.input
    unfold genIn at hin
    have hdom : domOf blocks 0 = none := by
      unfold domOf
      split
      · rw [if_neg (Nat.not_lt_zero _)]
      · rfl
    rw [hdom] at hin
    dsimp only at hin
    by_cases he : preds blocks 0 = []
    · rw [if_pos he] at hin
      cases hin
      refine ⟨⟨fun r e he => ?_, rfl⟩, fun r hr => ?_, fun hr => ?_⟩
      · dsimp only at he
        split at he
        · cases he
          rcases regTy_typed (ptrMask f) r _ rfl with h1 | h1
          · exact Or.inl (congrArg some h1)
          · exact Or.inr ⟨congrArg some h1.1, h1.2⟩
        · cases he
      · refine ⟨_, by dsimp only; rw [if_pos (hlive r hr)], (fun ρ hρ => by cases hρ), ?_⟩
        rw [hregs r (hb0 ▸ hr)]
        simp only [Expr.eval, low]
        congr 1
        apply BitVec.eq_of_toNat_eq
        simp
      · refine ⟨(fun ρ hρ => by cases hρ), ?_⟩
        rw [hfl (hb0 ▸ hr)]
        rfl
    · rw [if_neg he] at hin
      cases hin
      have hphi : lb.phi = true := by
        rw [hB.phi, hdom]
        cases hpr : preds blocks 0 with
        | nil => exact absurd hpr he
        | cons _ _ => rfl
      have hk : 0 < blocks.length := (List.getElem?_eq_some_iff.1 hb).1
      have hok := cgen_phi S.gen hk
      unfold phiOk at hok
      rw [hb, hB.get] at hok
      simp only [hphi, Bool.not_true, Bool.false_or, bne_self_eq_false, Bool.false_and, Bool.or_false, Bool.and_eq_true,
        List.all_eq_true, List.mem_range, Bool.not_eq_true'] at hok
      refine ⟨⟨fun r e he => ?_, ?_⟩, fun r hr => ?_, fun hr => ?_⟩
      · dsimp only at he
        split at he
        · rename_i h1; rw [hok.1 r h1.1] at h1; cases h1.2
        · cases he
      · dsimp only
        split <;> rfl
      · have h1 := hlive r hr
        rw [hok.1 r h1.1] at h1; cases h1.2
      · have h1 := hliveF hr
        rw [hok.2] at h1; cases h1
  refine ⟨b, lb, gin, gin, gout, hb, hB, ?_, ?_, rfl, Nat.zero_le _, hB.rest, ?_, ?_⟩
  · rw [hpc]; exact ⟨by omega, Nat.zero_le _⟩
  · rw [hpc, ← hb0]; exact clean_first hcov hb
  · show Holds x f gin 0 (b.first + 0) (fun _ => none) s.pc s.regs s.flags
    rw [hpc]
    rw [hb0] at hh ⊢
    exact hh
  · rw [hpc]
    exact ⟨by show b.first + 0 ≤ 0; omega, fun j _ h2 => absurd h2 (Nat.not_lt_zero j)⟩

end

end Verif.Code.Llvm
