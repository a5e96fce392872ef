import Verif.Jit.LscanProps

/-!
# Code with allocated registers behaves like the original

Property C33, second part: the intervals found in the code cover the liveness of the registers, and
the code with the slots in place of the registers does the same.
-/

namespace Verif.Code

/-! ## growing intervals -/

/-- Position `p` is in the interval of register `r`. -/
def Cov (li : Nat → Interval) (r p : Nat) : Prop := (li r).first ≤ p ∧ p ≤ (li r).last

theorem grow_ok {nregs : Nat} (li : Nat → Interval) (g : Nat × Nat) (h : g.1 < nregs) :
    ∃ li', grow nregs li g = some li' ∧ (∀ r p, Cov li r p → Cov li' r p) ∧ Cov li' g.1 g.2 ∧
      ∀ r, (li' r).reg = (li r).reg := by
  unfold grow
  rw [if_pos h]
  refine ⟨_, rfl, ?_, ?_, ?_⟩
  · intro r p ⟨h1, h2⟩
    unfold Cov
    dsimp only
    split
    · rename_i c; subst c; dsimp only; omega
    · exact ⟨h1, h2⟩
  · unfold Cov
    dsimp only
    rw [if_pos rfl]
    constructor
    · exact Nat.min_le_right _ _
    · exact Nat.le_max_right _ _
  · intro r
    split
    · rename_i c; rw [c]
    · rfl

theorem growAll_ok {nregs : Nat} (gs : List (Nat × Nat)) (li : Nat → Interval) (h : ∀ g ∈ gs, g.1 < nregs) :
    ∃ li', gs.foldlM (grow nregs) li = some li' ∧ (∀ r p, Cov li r p → Cov li' r p) ∧
      (∀ g ∈ gs, Cov li' g.1 g.2) ∧ ∀ r, (li' r).reg = (li r).reg := by
  induction gs generalizing li with
  | nil => exact ⟨li, rfl, fun _ _ h => h, by simp, fun _ => rfl⟩
  | cons g gs ih =>
    obtain ⟨l1, h1, h2, h3, h4⟩ := grow_ok li g (h g List.mem_cons_self)
    obtain ⟨l2, g1, g2, g3, g4⟩ := ih l1 (fun x hx => h x (List.mem_cons_of_mem _ hx))
    refine ⟨l2, ?_, fun r p hc => g2 r p (h2 r p hc), ?_, fun r => (g4 r).trans (h4 r)⟩
    · rw [List.foldlM_cons, h1]; exact g1
    · intro x hx
      rcases List.mem_cons.1 hx with rfl | hx
      · exact g2 _ _ h3
      · exact g3 x hx

/-! ## the walk -/

section
variable {f : Func} {blocks : List Block} {out : Nat → Mask}

/-- The intervals cover everything in the block. -/
def Covered (f : Func) (blocks : List Block) (out : Nat → Mask) (li : Nat → Interval) (c : Nat) : Prop :=
  ∀ b, blocks[c]? = some b → ∀ g ∈ blockGrows f b (out c), Cov li g.1 g.2

def unvisited (blocks : List Block) (v : Nat → Bool) : Nat := (List.range blocks.length).countP fun c => !v c

/-- What is known after a part of the walk. -/
structure WalkOk (f : Func) (blocks : List Block) (out : Nat → Mask) (st st' : Walk) : Prop where
  more : ∀ c, st.2 c = true → st'.2 c = true
  keep : ∀ r p, Cov st.1 r p → Cov st'.1 r p
  new : ∀ c, st'.2 c = true → st.2 c = true ∨ (Covered f blocks out st'.1 c ∧
    ∀ b, blocks[c]? = some b → ∀ d ∈ b.out, st'.2 d = true)
  reg : ∀ r, (st'.1 r).reg = (st.1 r).reg

theorem covered_mono {li li' : Nat → Interval} (h : ∀ r p, Cov li r p → Cov li' r p) {c : Nat}
    (hc : Covered f blocks out li c) : Covered f blocks out li' c :=
  fun b hb g hg => h _ _ (hc b hb g hg)

theorem walkOk_trans {a b c : Walk} (h1 : WalkOk f blocks out a b) (h2 : WalkOk f blocks out b c) :
    WalkOk f blocks out a c := by
  refine ⟨fun x hx => h2.more x (h1.more x hx), fun r p hc => h2.keep r p (h1.keep r p hc), ?_,
    fun r => (h2.reg r).trans (h1.reg r)⟩
  intro x hx
  rcases h2.new x hx with h | h
  · rcases h1.new x h with h | ⟨h3, h4⟩
    · exact Or.inl h
    · exact Or.inr ⟨covered_mono h2.keep h3, fun b hb d hd => h2.more d (h4 b hb d hd)⟩
  · exact Or.inr h

theorem unvisited_mono {v w : Nat → Bool} (h : ∀ c, v c = true → w c = true) : unvisited blocks w ≤ unvisited blocks v := by
  apply List.countP_mono_left
  intro c _ hc
  cases hv : v c
  · rfl
  · rw [h c hv] at hc; cases hc

/-- Everything in a block is a register. -/
def GrowsOk (f : Func) (blocks : List Block) (out : Nat → Mask) : Prop :=
  ∀ (k : Nat) (b : Block), blocks[k]? = some b → ∀ g ∈ blockGrows f b (out k), g.1 < f.nregs

def EdgesIn (blocks : List Block) : Prop := ∀ (k : Nat) (b : Block), blocks[k]? = some b → ∀ c ∈ b.out, c < blocks.length

theorem walk_ok (hg : GrowsOk f blocks out) (he : EdgesIn blocks) (depth bi : Nat) (st : Walk)
    (hb : bi < blocks.length) (hd : unvisited blocks st.2 < depth) :
    ∃ st', walk f blocks out depth bi st = some st' ∧ WalkOk f blocks out st st' ∧ st'.2 bi = true := by
  induction depth generalizing bi st with
  | zero => omega
  | succ depth ih =>
    rw [walk]
    split
    · rename_i hv
      exact ⟨st, rfl, ⟨fun _ h => h, fun _ _ h => h, fun _ h => Or.inl h, fun _ => rfl⟩, hv⟩
    · rename_i hv
      have hbb : blocks[bi]? = some blocks[bi] := List.getElem?_eq_some_iff.2 ⟨hb, rfl⟩
      rw [hbb]
      dsimp only
      obtain ⟨li, h1, h2, h3, h4⟩ := growAll_ok (blockGrows f blocks[bi] (out bi)) st.1 (hg bi _ hbb)
      rw [h1]
      dsimp only [Option.bind_some]
      have hu : unvisited blocks (fun c => if c = bi then true else st.2 c) + 1 = unvisited blocks st.2 := by
        have := countP_clear (List.range blocks.length) List.nodup_range (fun c => !st.2 c) bi (by simpa using hb)
          (by simpa using hv)
        unfold unvisited
        rw [← this]
        congr 1
        apply List.countP_congr
        intro c _
        by_cases e : c = bi <;> simp [e]
      -- the edges
      have fold : ∀ (cs : List Nat) (s : Walk), (∀ c ∈ cs, c < blocks.length) → unvisited blocks s.2 < depth →
          ∃ s', cs.foldlM (fun st c => walk f blocks out depth c st) s = some s' ∧ WalkOk f blocks out s s' ∧
            ∀ c ∈ cs, s'.2 c = true := by
        intro cs
        induction cs with
        | nil => intro s _ _; exact ⟨s, rfl, ⟨fun _ h => h, fun _ _ h => h, fun _ h => Or.inl h, fun _ => rfl⟩, by simp⟩
        | cons c cs ihc =>
          intro s hcs hs
          obtain ⟨s1, a1, a2, a3⟩ := ih c s (hcs c List.mem_cons_self) hs
          obtain ⟨s2, b1, b2, b3⟩ := ihc s1 (fun x hx => hcs x (List.mem_cons_of_mem _ hx))
            (Nat.lt_of_le_of_lt (unvisited_mono a2.more) hs)
          refine ⟨s2, ?_, walkOk_trans a2 b2, ?_⟩
          · rw [List.foldlM_cons, a1]; exact b1
          · intro x hx
            rcases List.mem_cons.1 hx with rfl | hx
            · exact b2.more _ a3
            · exact b3 x hx
      obtain ⟨st', g1, g2, g3⟩ := fold blocks[bi].out (li, fun c => if c = bi then true else st.2 c) (he bi _ hbb)
        (by dsimp only; omega)
      refine ⟨st', g1, ⟨?_, ?_, ?_, ?_⟩, ?_⟩
      · intro c hc
        apply g2.more
        dsimp only
        split
        · rfl
        · exact hc
      · exact fun r p hc => g2.keep r p (h2 r p hc)
      · intro c hc
        rcases g2.new c hc with h | h
        · dsimp only at h
          split at h
          · rename_i e; subst e
            right
            constructor
            · intro b hb' g hgm
              rw [hbb] at hb'; cases hb'
              exact g2.keep _ _ (h3 g hgm)
            · intro b hb' d hd'
              rw [hbb] at hb'; cases hb'
              exact g3 d hd'
          · exact Or.inl h
        · exact Or.inr h
      · exact fun r => (g2.reg r).trans (h4 r)
      · apply g2.more
        dsimp only
        rw [if_pos rfl]

end

/-! ## intervals and liveness -/

theorem mem_blockGrows (f : Func) (b : Block) (out : Mask) (g : Nat × Nat) :
    g ∈ blockGrows f b out ↔
      (g.1 < f.nregs + 1 ∧ liveIn f b out g.1 = true ∧ g.2 = b.first) ∨
      (∃ ir, f.irs[g.2]? = some ir ∧ b.first ≤ g.2 ∧ g.2 ≤ b.last ∧ g.1 ∈ ir.regs) ∨
      (g.1 < f.nregs + 1 ∧ out g.1 = true ∧ g.2 = b.last) := by
  obtain ⟨r, p⟩ := g
  unfold blockGrows maskBits blockIrs
  simp only [List.mem_append, List.mem_map, List.mem_filter, List.mem_range, Prod.mk.injEq, List.mem_flatMap]
  rw [or_assoc]
  apply or_congr
  · constructor
    · rintro ⟨a, ⟨h1, h2⟩, rfl, rfl⟩; exact ⟨h1, h2, rfl⟩
    · rintro ⟨h1, h2, h3⟩; exact ⟨r, ⟨h1, h2⟩, rfl, h3.symm⟩
  · apply or_congr
    · constructor
      · rintro ⟨⟨ir, i⟩, h1, a, h2, rfl, rfl⟩
        rw [List.mem_zipIdx_iff_le_and_getElem?_sub] at h1
        obtain ⟨h3, h4⟩ := h1
        dsimp only at h3 h4 h2 ⊢
        rw [List.getElem?_drop, List.getElem?_take] at h4
        split at h4
        · rename_i c
          rw [show b.first + (i - b.first) = i by omega] at h4
          exact ⟨ir, h4, h3, by omega, h2⟩
        · cases h4
      · rintro ⟨ir, h1, h2, h3, h4⟩
        refine ⟨(ir, p), ?_, r, h4, rfl, rfl⟩
        rw [List.mem_zipIdx_iff_le_and_getElem?_sub]
        refine ⟨h2, ?_⟩
        dsimp only
        rw [List.getElem?_drop, List.getElem?_take, show b.first + (p - b.first) = p by omega, if_pos (by omega)]
        exact h1
    · constructor
      · rintro ⟨a, ⟨h1, h2⟩, rfl, rfl⟩; exact ⟨h1, h2, rfl⟩
      · rintro ⟨h1, h2, h3⟩; exact ⟨r, ⟨h1, h2⟩, rfl, h3.symm⟩

theorem liveReg_lt {f : Func} (hr : RegsOk f) (r i : Nat) (h : LiveReg f r i) : r < f.nregs := by
  induction h with
  | use hir h =>
    apply hr _ (List.mem_of_getElem? hir)
    rcases h with h | h | h
    · exact Or.inl h
    · exact Or.inr (Or.inl h)
    · exact Or.inr (Or.inr h.2)
  | later _ _ _ _ ih => exact ih

theorem mem_regs (ir : Ir) (r : Nat) :
    r ∈ ir.regs ↔ ir.result = some r ∨ ir.arg1.regOf = some r ∨ ir.arg2.regOf = some r := by
  unfold Ir.regs
  simp [or_assoc]

theorem exposed_use {f : Func} {b : Block} {q : Nat} (hl : b.last < f.irs.length) (d i : Nat) (hd : b.last + 1 = i + d)
    (h : exposed f.nregs q (irsFrom f b i) = true) :
    ∃ (j : Nat) (ir : Ir), i ≤ j ∧ j ≤ b.last ∧ f.irs[j]? = some ir ∧ useBit f.nregs q ir = true := by
  induction d generalizing i with
  | zero => rw [irsFrom_nil (by omega)] at h; simp [exposed] at h
  | succ d ih =>
    have hi : f.irs[i]? = some f.irs[i] := List.getElem?_eq_some_iff.2 ⟨by omega, rfl⟩
    rw [irsFrom_cons hi (by omega), exposed] at h
    simp only [Bool.or_eq_true, Bool.and_eq_true] at h
    rcases h with h | ⟨_, h⟩
    · exact ⟨i, _, Nat.le_refl _, by omega, hi, h⟩
    · obtain ⟨j, ir, h1, h2⟩ := ih (i + 1) (by omega) h
      exact ⟨j, ir, by omega, h2⟩

/-- What the code must look like. -/
structure CodeOk (f : Func) : Prop where
  some : f.irs ≠ []
  labels : LabelsOk f
  targets : TargetsMarked f
  regs : RegsOk f
  aborts : AbortEnds f
  chains : ChainsOk f

/-- The flags are not live at the start of any block. -/
def FlagsLocal (f : Func) (blocks : List Block) : Prop := ∀ b ∈ blocks, ¬ LiveFlags f b.first

/-- The result of the walk over the graph: a set of positions that control does not leave, in which
everything live is covered. -/
theorem walk_covers (f : Func) (h : CodeOk f) (blocks : List Block) (hg : getCfg f = some blocks)
    (hfl : FlagsLocal f blocks) (fuel : Nat) (hfu : blocks.length * (f.nregs + 1) < fuel) :
    ∃ M st, liveOut f blocks fuel = some M ∧
      walk f blocks M (blocks.length + 1) 0 (noIntervals, fun _ => false) = some st ∧
      (∀ r, (st.1 r).reg = r) ∧
      ∃ V : Nat → Prop, V 0 ∧ (∀ i j, V i → Succ f i j → V j) ∧
        (∀ i r, V i → LiveReg f r i → Cov st.1 r i) ∧
        (∀ i ir r, V i → f.irs[i]? = some ir → ir.result = some r → Cov st.1 r i) := by
  obtain ⟨h0, hl, ht, hr, ha, hch⟩ := h
  obtain ⟨hc, he⟩ := cfg_edges h0 hl hg
  obtain ⟨M, h1, h2, h3⟩ := loop_fixed f blocks fuel (fun _ _ => false) (by intro k q h; cases h) (by omega)
  obtain ⟨M', g1, g2⟩ := liveness_exact_partial f blocks h0 hl ht hr ha hch hg fuel hfu
  have h1' : liveOut f blocks fuel = some M := h1
  rw [h1'] at g1; cases g1
  -- flags are in no mask
  have hin : ∀ (k : Nat) (b : Block), blocks[k]? = some b → liveIn f b (M k) f.nregs = false := by
    intro k b hb
    cases hx : liveIn f b (M k) f.nregs
    · rfl
    · exact absurd ((g2 k b hb).2.1 hx) (hfl b (List.mem_of_getElem? hb))
  have hedge : EdgesIn blocks := by
    intro k b hb c hcm
    obtain ⟨_, d, _, hd, _⟩ := edge_succ hc he hl ht hb hcm
    exact (List.getElem?_eq_some_iff.1 hd).1
  have hout : ∀ (k : Nat) (b : Block), blocks[k]? = some b → M k f.nregs = false := by
    intro k b hb
    rw [← h3 k b hb f.nregs (by omega)]
    unfold liveNew
    rw [List.any_eq_false]
    intro c hcm
    have hclt := hedge k b hb c hcm
    have hd : blocks[c]? = some blocks[c] := List.getElem?_eq_some_iff.2 ⟨hclt, rfl⟩
    have := hin c _ hd
    unfold liveIn at this
    unfold scanOf
    rw [hd]
    simp only [Option.map_some, Option.getD_some]
    rw [Bool.or_comm, this]; simp
  have hgr : GrowsOk f blocks M := by
    intro k b hb g hgm
    rw [mem_blockGrows] at hgm
    rcases hgm with ⟨a1, a2, _⟩ | ⟨ir, a1, _, _, a2⟩ | ⟨a1, a2, _⟩
    · rcases Nat.lt_or_ge g.1 f.nregs with c | c
      · exact c
      · have : g.1 = f.nregs := by omega
        rw [this, hin k b hb] at a2; cases a2
    · rw [mem_regs] at a2
      apply hr ir (List.mem_of_getElem? a1)
      rcases a2 with a2 | a2 | a2
      · exact Or.inr (Or.inr a2)
      · exact Or.inl a2
      · exact Or.inr (Or.inl a2)
    · rcases Nat.lt_or_ge g.1 f.nregs with c | c
      · exact c
      · have : g.1 = f.nregs := by omega
        rw [this, hout k b hb] at a2; cases a2
  obtain ⟨b0, hb0, hb0f⟩ := hc.zero
  obtain ⟨st, w1, w2, w3⟩ := walk_ok hgr hedge (blocks.length + 1) 0 (noIntervals, fun _ => false)
    (List.getElem?_eq_some_iff.1 hb0).1 (by
      have : unvisited blocks (fun _ => false) ≤ (List.range blocks.length).length := List.countP_le_length
      rw [List.length_range] at this
      dsimp only; omega)
  refine ⟨M, st, h1', w1, fun r => w2.reg r, ?_⟩
  have new : ∀ c, st.2 c = true → Covered f blocks M st.1 c ∧ ∀ b, blocks[c]? = some b → ∀ d ∈ b.out, st.2 d = true := by
    intro c hcv
    rcases w2.new c hcv with h | h
    · cases h
    · exact h
  refine ⟨fun i => Clean f blocks i ∧ ∃ (k : Nat) (b : Block), blocks[k]? = some b ∧ b.has i ∧ st.2 k = true, ?_, ?_, ?_, ?_⟩
  · refine ⟨hb0f ▸ clean_first hc hb0, 0, b0, hb0, ⟨by omega, by omega⟩, w3⟩
  · rintro i j ⟨hcl, k, b, hb, hbi, hv⟩ hs
    refine ⟨succ_clean hc he hl ht hs hcl, ?_⟩
    rcases succ_edge hc he hl ht hs hcl hb hbi with ⟨_, hbj⟩ | ⟨c, d, ho, hd, rfl⟩
    · exact ⟨k, b, hb, hbj, hv⟩
    · exact ⟨c, d, hd, ⟨Nat.le_refl _, (hc.good _ _ hd).le⟩, (new k hv).2 b hb c ho⟩
  · rintro i r ⟨hcl, k, b, hb, hbi, hv⟩ hlive
    have hlt := liveReg_lt hr r i hlive
    have hcov := (new k hv).1 b hb
    have hgd := hc.good k b hb
    -- something not before
    have upper : ∃ p, i ≤ p ∧ Cov st.1 r p := by
      rcases live_found hc he hl ht hr M h3 r (by omega) ((live_reg r hlt i).2 hlive) hcl k b hb hbi with h | ⟨_, h⟩
      · obtain ⟨j, ir, q1, q2, q3, q4⟩ := exposed_use hgd.lt (b.last + 1 - i) i (by have := hbi.2; omega) h
        refine ⟨j, q1, hcov (r, j) ?_⟩
        rw [mem_blockGrows]
        refine Or.inr (Or.inl ⟨ir, q3, by have := hbi.1; dsimp only; omega, q2, ?_⟩)
        rw [mem_regs]
        unfold useBit at q4
        have hrn : (r == f.nregs) = false := by simp; omega
        rw [hrn] at q4
        simp at q4
        grind
      · refine ⟨b.last, hbi.2, hcov (r, b.last) ?_⟩
        rw [mem_blockGrows]
        exact Or.inr (Or.inr ⟨by dsimp only; omega, h, rfl⟩)
    -- something not after
    have lower : ∀ d p, p = b.first + d → p ≤ b.last → LiveReg f r p → ∃ q, q ≤ p ∧ Cov st.1 r q := by
      intro d
      induction d with
      | zero =>
        intro p hp _ hlv
        have hp : p = b.first := by omega
        subst hp
        refine ⟨b.first, Nat.le_refl _, hcov (r, b.first) ?_⟩
        rw [mem_blockGrows]
        exact Or.inl ⟨by dsimp only; omega, ((g2 k b hb).1 r hlt).2 hlv, rfl⟩
      | succ d ih =>
        intro p hp hple hlv
        obtain ⟨p', rfl⟩ : ∃ p', p = p' + 1 := ⟨p - 1, by omega⟩
        have hl' := hgd.lt
        have hir : f.irs[p']? = some f.irs[p'] := List.getElem?_eq_some_iff.2 ⟨by omega, rfl⟩
        by_cases hres : f.irs[p'].result = some r
        · refine ⟨p', by omega, hcov (r, p') ?_⟩
          rw [mem_blockGrows]
          refine Or.inr (Or.inl ⟨_, hir, by dsimp only; omega, by dsimp only; omega, ?_⟩)
          rw [mem_regs]; exact Or.inl hres
        · obtain ⟨q, hq, hcq⟩ := ih p' (by omega) (by omega)
            (.later hir (fun hd => hres hd.1) (inner_succ hc ha hb (by omega) (by omega)) hlv)
          exact ⟨q, by omega, hcq⟩
    obtain ⟨p, hp, hcp⟩ := upper
    obtain ⟨q, hq, hcq⟩ := lower (i - b.first) i (by have := hbi.1; omega) hbi.2 hlive
    unfold Cov at *
    omega
  · rintro i ir r ⟨hcl, k, b, hb, hbi, hv⟩ hir hres
    apply (new k hv).1 b hb (r, i)
    rw [mem_blockGrows]
    refine Or.inr (Or.inl ⟨ir, hir, hbi.1, hbi.2, ?_⟩)
    rw [mem_regs]; exact Or.inl hres

/-! ## code with slots -/

/-- Put the slot of a register in its place. -/
def Val.withSlots (σ : Nat → Nat) : Val → Val
  | .reg r => .reg (σ r)
  | .addrReg r d => .addrReg (σ r) d
  | v => v

def Ir.withSlots (σ : Nat → Nat) (ir : Ir) : Ir :=
  { ir with result := ir.result.map σ, arg1 := ir.arg1.withSlots σ, arg2 := ir.arg2.withSlots σ }

def Func.withSlots (σ : Nat → Nat) (f : Func) : Func := { f with irs := f.irs.map (Ir.withSlots σ) }

section
variable {W : Type}

/-- The slots of the live registers have their values. -/
structure InSlots (f : Func) (σ : Nat → Nat) (s s' : State W) : Prop where
  pc : s'.pc = s.pc
  world : s'.world = s.world
  flags : s'.flags = s.flags
  regs : ∀ r, LiveReg f r s.pc → s'.regs (σ r) = s.regs r

def SameInSlots (f : Func) (σ : Nat → Nat) : Option (Res W) → Option (Res W) → Prop
  | none, none => True
  | some (.next s), some (.next s') => InSlots f σ s s'
  | some (.halt b s), some (.halt b' s') => b' = b ∧ s'.pc = s.pc ∧ s'.world = s.world
  | _, _ => False

/-- A register that is written does not share its slot with one that is live afterwards. -/
def NoClash (f : Func) (σ : Nat → Nat) (V : Nat → Prop) : Prop :=
  ∀ i j ir d r, V i → f.irs[i]? = some ir → ir.result = some d → Succ f i j → LiveReg f r j → r ≠ d → σ r ≠ σ d

theorem eval_slots {env : Env W} {σ : Nat → Nat} {regs regs' : Nat → Word} (v : Val)
    (h : ∀ r, v.regOf = some r → regs' (σ r) = regs r) : eval env regs' (v.withSlots σ) = eval env regs v := by
  cases v <;> simp only [Val.withSlots, eval]
  · rw [h _ rfl]
  · rw [h _ rfl]

theorem step_slots {env : Env W} {f : Func} {σ : Nat → Nat} {V : Nat → Prop} (hn : NoReturn env)
    (ht : TargetsMarked f) (hres : ResultsOk f) (hcl : NoClash f σ V) {s s' : State W} (hV : V s.pc) (h : InSlots f σ s s') :
    SameInSlots f σ (step env f s) (step env (f.withSlots σ) s') := by
  obtain ⟨hpc, hw, hfl, hregs⟩ := h
  have hget : ∀ i, (f.withSlots σ).irs[i]? = f.irs[i]?.map (Ir.withSlots σ) := fun i => List.getElem?_map
  cases hir : f.irs[s.pc]? with
  | none =>
    have e1 : step env f s = none := by unfold step; rw [hir]; rfl
    have e2 : step env (f.withSlots σ) s' = none := by unfold step; rw [hpc, hget, hir]; rfl
    rw [e1, e2]; trivial
  | some ir =>
    have e1 : step env f s = execIr env ir s := by unfold step; rw [hir]; rfl
    have e2 : step env (f.withSlots σ) s' = execIr env (ir.withSlots σ) s' := by unfold step; rw [hpc, hget, hir]; rfl
    have hmem := List.mem_of_getElem? hir
    have rd : ∀ r, ir.reads r → s'.regs (σ r) = s.regs r := fun r hr => hregs r (.use hir hr)
    have ev1 := eval_slots (env := env) ir.arg1 (fun r hr => rd r (Or.inl hr))
    have ev2 := eval_slots (env := env) ir.arg2 (fun r hr => rd r (Or.inr (Or.inl hr)))
    have hold : oldValue s'.regs (ir.withSlots σ) = oldValue s.regs ir := by
      unfold oldValue
      simp only [Ir.withSlots]
      by_cases c : ir.op.readsResult = true
      · simp only [c, if_true]
        cases hd : ir.result with
        | none => rfl
        | some d => simp only [Option.map_some]; rw [rd d (Or.inr (Or.inr ⟨c, hd⟩))]
      · simp only [c]; rfl
    have key : ∀ s1, step env f s = some (.next s1) → s1.pc < f.irs.length → Succ f s.pc s1.pc :=
      fun s1 h1 h2 => step_succ hn ht h1 h2
    rw [e1] at key
    rw [e1, e2]
    unfold execIr at key ⊢
    rw [hold]
    simp only [Ir.withSlots]
    rw [ev1, ev2, hw, hfl]
    cases ho : oldValue s.regs ir with
    | none => trivial
    | some old =>
      rw [ho] at key
      simp only [Option.bind_some] at key ⊢
      cases he : effect env ir.op ir.size ir.cc (eval env s.regs ir.arg1) (eval env s.regs ir.arg2) old s.flags s.world with
      | none => trivial
      | some e =>
        rw [he] at key
        simp only [Option.bind_some] at key ⊢
        unfold apply at key ⊢
        -- the registers afterwards
        have hwr : (writeReg s.regs ir.result e.result = none ∧ writeReg s'.regs (ir.result.map σ) e.result = none) ∨
            ∃ q q', writeReg s.regs ir.result e.result = some q ∧ writeReg s'.regs (ir.result.map σ) e.result = some q' ∧
              ∀ j, Succ f s.pc j → ∀ r, LiveReg f r j → q' (σ r) = q r := by
          have old_live : ∀ j, Succ f s.pc j → ∀ r, LiveReg f r j → ¬ ir.defines r → s'.regs (σ r) = s.regs r :=
            fun j hs r hl hd => hregs r (.later hir hd hs hl)
          cases hx : e.result with
          | none =>
            refine Or.inr ⟨s.regs, s'.regs, rfl, rfl, fun j hs r hl => old_live j hs r hl ?_⟩
            rintro ⟨hd1, hd2⟩
            rcases hres ir hmem (by rw [hd1]; simp) with h | h
            · rw [hd2] at h; cases h
            · obtain ⟨y, hy⟩ := effect_gives h he
              rw [hx] at hy; cases hy
          | some x =>
            cases hd : ir.result with
            | none => exact Or.inl ⟨rfl, rfl⟩
            | some d =>
              refine Or.inr ⟨_, _, rfl, rfl, fun j hs r hl => ?_⟩
              unfold setReg
              by_cases c : r = d
              · subst c; simp
              · have := hcl s.pc j ir d r hV hir hd hs hl c
                rw [if_neg this, if_neg c]
                refine old_live j hs r hl ?_
                rintro ⟨hd1, _⟩
                rw [hd] at hd1; cases hd1; exact c rfl
        rcases hwr with ⟨w1, w2⟩ | ⟨q, q', w1, w2, w3⟩
        · rw [w1, w2]; trivial
        · rw [w1] at key
          rw [w1, w2]
          simp only [Option.map_some] at key ⊢
          have main : ∀ (p : Nat), (p < f.irs.length → Succ f s.pc p) →
              InSlots f σ { regs := q, flags := e.flags.getD s.flags, pc := p, world := e.world }
                { regs := q', flags := e.flags.getD s.flags, pc := p, world := e.world } := by
            intro p hp
            refine ⟨rfl, rfl, rfl, ?_⟩
            intro r hl
            refine w3 p (hp ?_) r hl
            cases hl with
            | use h _ => exact (List.getElem?_eq_some_iff.1 h).1
            | later h _ _ _ => exact (List.getElem?_eq_some_iff.1 h).1
          cases hctl : e.ctl with
          | next =>
            rw [hctl] at key
            dsimp only [SameInSlots]
            rw [hpc, hfl]
            exact main (s.pc + 1) (fun h => key _ rfl h)
          | goto l =>
            rw [hctl] at key
            dsimp only [SameInSlots]
            rw [hfl]
            exact main l (fun h => key _ rfl h)
          | stop b => exact ⟨rfl, hpc, rfl⟩

theorem run_slots {env : Env W} {f : Func} {σ : Nat → Nat} {V : Nat → Prop} (hn : NoReturn env)
    (ht : TargetsMarked f) (hres : ResultsOk f) (hcl : NoClash f σ V) (hVs : ∀ i j, V i → Succ f i j → V j) (n : Nat)
    (s s' : State W) (hV : V s.pc) (h : InSlots f σ s s') :
    SameInSlots f σ (run env f n s) (run env (f.withSlots σ) n s') := by
  induction n generalizing s s' with
  | zero => exact h
  | succ n ih =>
    have := step_slots hn ht hres hcl hV h
    unfold run
    cases h1 : step env f s with
    | none =>
      rw [h1] at this
      cases h2 : step env (f.withSlots σ) s' with
      | none => trivial
      | some r => rw [h2] at this; exact this.elim
    | some r =>
      rw [h1] at this
      cases h2 : step env (f.withSlots σ) s' with
      | none => rw [h2] at this; cases r <;> exact this.elim
      | some r' =>
        rw [h2] at this
        cases r with
        | halt b t => cases r' with
          | next _ => exact this.elim
          | halt _ _ => exact this
        | next t => cases r' with
          | halt _ _ => exact this.elim
          | next t' =>
            dsimp only
            by_cases c : t.pc < f.irs.length
            · exact ih t t' (hVs _ _ hV (step_succ hn ht h1 c)) this
            · have e1 : step env f t = none := by unfold step; rw [List.getElem?_eq_none (by omega)]; rfl
              have e2 : step env (f.withSlots σ) t' = none := by
                unfold step
                rw [this.pc, List.getElem?_eq_none (by simp [Func.withSlots]; omega)]; rfl
              cases n with
              | zero => exact this
              | succ n => rw [run, run, e1, e2]; trivial

end

/-! ## the property -/

/-- Register allocation on code: it succeeds, and the code with the slots in place of the registers behaves
like the original one. -/
theorem lscan_correct_partial (f : Func) (h : CodeOk f) (hres : ResultsOk f) (blocks : List Block)
    (hg : getCfg f = some blocks) (hfl : FlagsLocal f blocks) (bad : Nat → Bool) (hr : ∃ i < nmachine, bad i = false)
    (fuel : Nat) (hfu : blocks.length * (f.nregs + 1) < fuel) :
    ∃ M li, liveOut f blocks fuel = some M ∧ intervals f blocks M = some li ∧
      ∀ sorted, SortedBy li sorted → ∃ st, allocate bad sorted = some st ∧
        (∀ r < f.nregs, (st.slots r < nmachine ∧ bad (st.slots r) = false) ∨
          (stackBase ≤ st.slots r ∧ st.slots r < stackBase + st.spills)) ∧
        ∀ {W : Type} (env : Env W), NoReturn env → ∀ (n : Nat) (s s' : State W), s.pc = 0 →
          InSlots f st.slots s s' →
          SameInSlots f st.slots (run env f n s) (run env (f.withSlots st.slots) n s') := by
  obtain ⟨M, wk, h1, h2, h3, V, v1, v2, v3, v4⟩ := walk_covers f h blocks hg hfl fuel hfu
  refine ⟨M, (List.range f.nregs).map wk.1, h1, by unfold intervals; rw [h2]; rfl, ?_⟩
  rintro sorted ⟨hperm, hs⟩
  have hmem : ∀ r < f.nregs, wk.1 r ∈ sorted := by
    intro r hlt
    rw [hperm.mem_iff, List.mem_map]
    exact ⟨r, by simpa using hlt, rfl⟩
  have hnd : (sorted.map (·.reg)).Nodup := by
    rw [(hperm.map _).nodup_iff, List.map_map]
    have : ((·.reg) ∘ wk.1) = id := funext h3
    rw [this, List.map_id]
    exact List.nodup_range
  obtain ⟨st, a1, a2, a3, _⟩ := alloc_correct bad hr sorted hs hnd
  refine ⟨st, a1, ?_, ?_⟩
  · intro r hlt
    have := a3 _ (hmem r hlt)
    rw [h3 r] at this
    exact this
  · intro W env hn n s s' hpc hin
    refine run_slots hn h.targets hres (V := V) ?_ v2 n s s' (hpc ▸ v1) hin
    intro i j ir d r hV hir hd hsu hlive hne
    have hdlt : d < f.nregs := h.regs ir (List.mem_of_getElem? hir) d (Or.inr (Or.inr hd))
    have hrlt := liveReg_lt h.regs r j hlive
    have c1 : Cov wk.1 d i := v4 i ir d hV hir hd
    have c2 : Cov wk.1 r i := by
      apply v3 i r hV
      exact .later hir (fun hdef => hne (Option.some.inj (hdef.1.symm.trans hd))) hsu hlive
    have := a2 _ (hmem r hrlt) _ (hmem d hdlt) (by rw [h3, h3]; exact hne) ⟨i, c2.1, c2.2, c1.1, c1.2⟩
    rw [h3, h3] at this
    exact this

/-! ## tests -/

/-- A loop with four registers. -/
def lscanFunc : Func :=
  { irs := [
      mk .recv (some 0) (.int 0),
      mk .mov (some 1) (.int 1),
      mk .cmp none (.reg 0) (.int 0) .eq true,
      mk .jump none (.label 8) .invalid .t,
      mk .mov (some 2) (.reg 0),
      mk .mul (some 1) (.reg 1) (.reg 2),
      mk .sub (some 0) (.reg 2) (.int 1),
      mk .jump none (.label 2),
      mk .mov (some 3) (.reg 1) .invalid .none true,
      mk .send none (.int 0) (.reg 3),
      mk .ret none],
    nregs := 4 }

example : ((getCfg lscanFunc).bind fun B => (liveOut lscanFunc B 100).bind fun M => intervals lscanFunc B M) =
    some [⟨0, 0, 7⟩, ⟨1, 1, 8⟩, ⟨2, 4, 6⟩, ⟨3, 8, 9⟩] := by decide +kernel

example : (allocate (fun i => decide (2 ≤ i)) [⟨0, 0, 7⟩, ⟨1, 1, 8⟩, ⟨2, 4, 6⟩, ⟨3, 8, 9⟩]).map
    (fun st => ((List.range 4).map st.slots, st.spills)) = some ([0, 100, 1, 0], 1) := by decide +kernel

theorem lscanFunc_ok : CodeOk lscanFunc ∧ ResultsOk lscanFunc := by
  refine ⟨⟨by decide +kernel, ?_, ?_, ?_, ?_, ?_⟩, by unfold ResultsOk; decide +kernel⟩
  · intro ir h
    simp [lscanFunc] at h
    rcases h with rfl | rfl | rfl | rfl | rfl | rfl | rfl | rfl | rfl | rfl | rfl <;> simp [mk, lscanFunc]
  · apply mem_index
    intro p h
    simp [lscanFunc] at h
    rcases h with rfl | rfl | rfl | rfl | rfl | rfl | rfl | rfl | rfl | rfl | rfl <;> simp [mk, lscanFunc]
  · intro ir h
    simp [lscanFunc] at h
    rcases h with rfl | rfl | rfl | rfl | rfl | rfl | rfl | rfl | rfl | rfl | rfl <;>
      simp [mk, lscanFunc, Val.regOf] <;> omega
  · intro i ir nx h h' _
    exact (mem_index (l := lscanFunc.irs) (P := fun i ir => ir.willAbort = true → False) (by decide +kernel) i ir h h').elim
  · intro i ir h h1 h2
    exact (mem_index (l := lscanFunc.irs) (P := fun i ir => ir.readsFlags = true → ir.writesFlags = true → False)
      (by decide +kernel) i ir h h1 h2).elim

/-- The hypotheses of `lscan_correct_partial` hold for the loop. -/
example : CodeOk lscanFunc ∧ ResultsOk lscanFunc ∧ ∃ blocks, getCfg lscanFunc = some blocks ∧ FlagsLocal lscanFunc blocks ∧
    blocks.length * (lscanFunc.nregs + 1) < 100 ∧ NoReturn noEnv := by
  refine ⟨lscanFunc_ok.1, lscanFunc_ok.2, ?_⟩
  have hg : ∃ B, getCfg lscanFunc = some B ∧ B.length = 4 ∧ ∀ b ∈ B, b.first ∈ [0, 2, 4, 8] := by
    cases h : getCfg lscanFunc with
    | none => revert h; decide +kernel
    | some B =>
      refine ⟨B, rfl, ?_, ?_⟩
      · have : (getCfg lscanFunc).map (·.length) = some 4 := by decide +kernel
        rw [h] at this; simpa using this
      · have : (getCfg lscanFunc).map (·.all fun b => decide (b.first ∈ [0, 2, 4, 8])) = some true := by decide +kernel
        rw [h] at this; simpa using this
  obtain ⟨B, h1, h2, h3⟩ := hg
  refine ⟨B, h1, ?_, by rw [h2]; decide, ?_⟩
  · obtain ⟨⟨h0, hl, ht, hr, ha, hch⟩, _⟩ := lscanFunc_ok
    obtain ⟨M, g1, g2⟩ := liveness_exact_partial lscanFunc B h0 hl ht hr ha hch h1 100 (by rw [h2]; decide)
    intro b hb hlive
    obtain ⟨k, hk, rfl⟩ := List.mem_iff_getElem.1 hb
    have hbit := (g2 k _ (List.getElem?_eq_some_iff.2 ⟨hk, rfl⟩)).2.2 hlive
    have hall : ((getCfg lscanFunc).bind fun B => (liveOut lscanFunc B 100).map fun M =>
        (List.range 4).all fun k => (B[k]?.map fun b => !liveIn lscanFunc b (M k) 4).getD true) = some true := by
      decide +kernel
    rw [h1] at hall
    simp only [Option.bind_some, g1, Option.map_some, Option.some.injEq, List.all_eq_true, List.mem_range] at hall
    have := hall k (by omega)
    rw [List.getElem?_eq_some_iff.2 ⟨hk, rfl⟩] at this
    simp only [Option.map_some, Option.getD_some, Bool.not_eq_true'] at this
    rw [show lscanFunc.nregs = 4 from rfl, this] at hbit
    cases hbit
  · intro w e _ w' h
    simp [noEnv] at h

/-- If the flags are live at the start of a block then the bit after those of the registers is set in the
mask, and `lscan_walk_cfg` grows an interval outside the array. -/
theorem lscan_flags_counterexample : ∃ f blocks M, f.irs ≠ [] ∧ LabelsOk f ∧ TargetsMarked f ∧ RegsOk f ∧
    getCfg f = some blocks ∧ liveOut f blocks 100 = some M ∧ intervals f blocks M = none := by
  let f : Func :=
    { irs := [
        mk .cmp none (.int 0) (.int 1) .eq,
        mk .cset (some 0) .invalid .invalid .none true,
        mk .send none (.int 0) (.reg 0),
        mk .ret none],
      nregs := 1 }
  have hex : ((getCfg f).bind fun B => (liveOut f B 100).map fun M => (intervals f B M).isNone) = some true := by
    decide +kernel
  cases hB : getCfg f with
  | none => rw [hB] at hex; cases hex
  | some B =>
    rw [hB] at hex
    simp only [Option.bind_some] at hex
    cases hM : liveOut f B 100 with
    | none => rw [hM] at hex; cases hex
    | some M =>
      rw [hM] at hex
      simp only [Option.map_some, Option.some.injEq, Option.isNone_iff_eq_none] at hex
      refine ⟨f, B, M, by decide +kernel, ?_, ?_, ?_, hB, hM, hex⟩
      · intro ir h
        simp [f] at h
        rcases h with rfl | rfl | rfl | rfl <;> simp [mk, f]
      · apply mem_index
        intro p h
        simp [f] at h
        rcases h with rfl | rfl | rfl | rfl <;> simp [mk, f]
      · intro ir h
        simp [f] at h
        rcases h with rfl | rfl | rfl | rfl <;> simp [mk, f, Val.regOf]

end Verif.Code
