import Verif.Jit.CfgProps
import Verif.Jit.LivenessProps

/-!
# The order of the edges out of a block

The generator takes the targets of jumps and cases from the list of edges by their position
(`cgen_op_jump`, `cgen_macro_case`), so that their order matters: the edge to the next block, if there is
one, comes before those to the labels, which are in the order of the instructions.
-/

namespace Verif.Code.Llvm

theorem blockLoop_same {A B : List Block} (h : SameBlocks A B) (pos : Nat) : ∀ rounds low high,
    blockLoop A pos rounds low high = blockLoop B pos rounds low high := by
  intro rounds
  induction rounds with
  | zero => intro low high; rfl
  | succ rounds ih =>
    intro low high
    simp only [blockLoop]
    by_cases hlt : low < high
    · rw [if_pos hlt, if_pos hlt]
      have := h ((low + (high - 1)) / 2)
      cases hA : A[(low + (high - 1)) / 2]? <;> cases hB : B[(low + (high - 1)) / 2]? <;> rw [hA, hB] at this
      · cases this
      · cases this
      · simp only [Option.map_some, Option.some.injEq, Block.mk.injEq] at this
        simp only [this.1, this.2.1, ih]
    · rw [if_neg hlt, if_neg hlt]

theorem same_length {A B : List Block} (h : SameBlocks A B) : A.length = B.length := by
  have h1 : ∀ (X Y : List Block), SameBlocks X Y → X.length ≤ Y.length := by
    intro X Y hXY
    rcases Nat.lt_or_ge Y.length X.length with c | c
    · have := hXY Y.length
      rw [List.getElem?_eq_none (Nat.le_refl _), List.getElem?_eq_getElem c] at this
      cases this
    · exact c
  have h2 : SameBlocks B A := fun k => (h k).symm
  have := h1 A B h
  have := h1 B A h2
  omega

theorem blockFor_same {A B : List Block} (h : SameBlocks A B) (i : Nat) : blockFor A i = blockFor B i := by
  unfold blockFor
  rw [same_length h]
  exact blockLoop_same h i _ _ _

/-- Where the label of an instruction leads. -/
def targetOf (blocks : List Block) (ir : Ir) : Option Nat := ir.label.bind (blockFor blocks)

/-- The targets of the instructions of block `k`. -/
def labelsFrom (blocks : List Block) (k : Nat) : List Ir → Nat → List Nat
  | [], _ => []
  | ir :: rest, i =>
    (if blockFor blocks i = some k then (targetOf blocks ir).toList else []) ++ labelsFrom blocks k rest (i + 1)

theorem labelsFrom_same {A B : List Block} (h : SameBlocks A B) (k : Nat) : ∀ (irs : List Ir) (i : Nat),
    labelsFrom A k irs i = labelsFrom B k irs i := by
  intro irs
  induction irs with
  | nil => intro i; rfl
  | cons ir rest ih =>
    intro i
    have e : blockFor A = blockFor B := funext (blockFor_same h)
    simp only [labelsFrom, targetOf, e, ih]

theorem edges_order (rest : List Ir) : ∀ (i : Nat) (blocks B : List Block), addEdges rest i blocks = some B →
    SameBlocks B blocks ∧ ∀ (k : Nat) (b : Block), blocks[k]? = some b → ∃ b', B[k]? = some b' ∧
      b'.out = b.out ++ labelsFrom blocks k rest i := by
  induction rest with
  | nil =>
    intro i blocks B h
    cases h
    exact ⟨fun _ => rfl, fun k b hb => ⟨b, hb, by simp [labelsFrom]⟩⟩
  | cons ir rest ih =>
    intro i blocks B h
    rw [addEdges] at h
    rw [Option.bind_eq_some_iff] at h
    obtain ⟨M, hM, h⟩ := h
    obtain ⟨h1, h2⟩ := ih (i + 1) M B h
    unfold addEdge at hM
    cases hl : ir.label with
    | none =>
      rw [hl] at hM
      cases hM
      refine ⟨h1, fun k b hb => ?_⟩
      obtain ⟨b', g1, g2⟩ := h2 k b hb
      refine ⟨b', g1, ?_⟩
      rw [g2, labelsFrom]
      simp [targetOf, hl]
    | some lab =>
      rw [hl] at hM
      dsimp only at hM
      cases ha : blockFor blocks i with
      | none => rw [ha] at hM; cases hM
      | some a =>
        cases hd : blockFor blocks lab with
        | none => rw [ha, hd] at hM; cases hM
        | some d =>
          rw [ha, hd] at hM
          cases hM
          have hs := same_modify blocks a d
          refine ⟨fun k => (h1 k).trans (hs k), fun k b hb => ?_⟩
          obtain ⟨b', g1, g2⟩ := h2 k _ ((modify_get _ _ _ _ _).2 ⟨b, hb, rfl⟩)
          refine ⟨b', g1, ?_⟩
          rw [g2, labelsFrom_same hs, labelsFrom, ha]
          by_cases hak : a = k
          · rw [if_pos hak, if_pos (by rw [hak])]
            simp [Block.addOut, targetOf, hl, hd]
          · rw [if_neg hak, if_neg (fun h => hak (Option.some.inj h))]
            simp

/-- Instructions before the block do not count. -/
theorem labels_before {f : Func} {blocks : List Block} (hc : Covers f blocks) {k : Nat} {b : Block}
    (hb : blocks[k]? = some b) : ∀ (d i : Nat), i + d = b.first →
    labelsFrom blocks k (f.irs.drop i) i = labelsFrom blocks k (f.irs.drop b.first) b.first := by
  have hg := hc.good k b hb
  intro d
  induction d with
  | zero => intro i hi; have : i = b.first := by omega
            rw [this]
  | succ d ih =>
    intro i hi
    have hlt : i < f.irs.length := by have := hg.le; have := hg.lt; omega
    rw [← ih (i + 1) (by omega), List.drop_eq_getElem_cons hlt, labelsFrom, if_neg, List.nil_append]
    intro he
    obtain ⟨b', h1, h2⟩ := (blockFor_ok hc i hlt k).1 he
    rw [hb] at h1; cases h1
    have := h2.1
    omega

/-- Those of the block, and nothing after it. -/
theorem labels_block {f : Func} {blocks : List Block} (hc : Covers f blocks) {k : Nat} {b : Block}
    (hb : blocks[k]? = some b) : ∀ (d i : Nat), f.irs.length = i + d → b.first ≤ i →
    labelsFrom blocks k (f.irs.drop i) i = (irsFrom f b i).filterMap (targetOf blocks) := by
  have hg := hc.good k b hb
  intro d
  induction d with
  | zero =>
    intro i hi h1
    rw [List.drop_eq_nil_of_le (by omega), irsFrom_nil (by have := hg.lt; omega)]
    rfl
  | succ d ih =>
    intro i hi h1
    have hlt : i < f.irs.length := by omega
    rw [List.drop_eq_getElem_cons hlt, labelsFrom, ih (i + 1) (by omega) (by omega)]
    rcases Nat.lt_or_ge b.last i with c | c
    · rw [irsFrom_nil (by omega), irsFrom_nil c, if_neg]
      · rfl
      · intro he
        obtain ⟨b', h2, h3⟩ := (blockFor_ok hc i hlt k).1 he
        rw [hb] at h2; cases h2
        have := h3.2
        omega
    · rw [if_pos ((blockFor_ok hc i hlt k).2 ⟨b, hb, h1, c⟩),
        irsFrom_cons (List.getElem?_eq_some_iff.2 ⟨hlt, rfl⟩) c, List.filterMap_cons]
      cases targetOf blocks f.irs[i] <;> simp

/-- The edges of a block: first that to the next block, if any, and then those to the labels. -/
theorem out_order {f : Func} {blocks : List Block} (h0 : f.irs ≠ []) (hl : LabelsOk f) (hg : getCfg f = some blocks)
    (k : Nat) (b : Block) (hb : blocks[k]? = some b) :
    ∃ pre, b.out = pre ++ (irsFrom f b b.first).filterMap (targetOf blocks) ∧ ∀ c ∈ pre, c = k + 1 := by
  obtain ⟨hc, -⟩ := cfg_edges h0 hl hg
  obtain ⟨hs, ho⟩ := edges_order f.irs 0 (blocksOf f) blocks hg
  obtain ⟨-, h2⟩ := blocks_covers f h0
  have hk := (List.getElem?_eq_some_iff.1 hb).1
  have hb0 : (blocksOf f)[k]? = some ((blocksOf f)[k]'(by rw [← same_length hs]; exact hk)) :=
    List.getElem?_eq_some_iff.2 ⟨by rw [← same_length hs]; exact hk, rfl⟩
  obtain ⟨b', g1, g2⟩ := ho k _ hb0
  rw [hb] at g1; cases g1
  refine ⟨_, ?_, fun c hcm => ((h2 k _ hb0 c).1 hcm).1⟩
  rw [g2]
  congr 1
  rw [labelsFrom_same (fun k => (hs k).symm)]
  have h3 := labels_before hc hb b.first 0 (by omega)
  rw [List.drop_zero] at h3
  have hgd := hc.good k b hb
  rw [h3]
  exact labels_block hc hb (f.irs.length - b.first) b.first (by have := hgd.le; have := hgd.lt; omega) (Nat.le_refl _)

/-- After a case in a block there are only cases. -/
theorem case_run {f : Func} {blocks : List Block} (hc : Covers f blocks) {k : Nat} {b : Block}
    (hb : blocks[k]? = some b) : ∀ (d i : Nat) (ir : Ir), b.first ≤ i → i + d ≤ b.last → f.irs[i]? = some ir → ir.op = .case →
    ∃ jr, f.irs[i + d]? = some jr ∧ jr.op = .case := by
  have hg := hc.good k b hb
  have hlt := hg.lt
  intro d
  induction d with
  | zero => intro i ir _ _ hir hop; exact ⟨ir, hir, hop⟩
  | succ d ih =>
    intro i ir h1 h2 hir hop
    have hn : f.irs[i + 1]? = some f.irs[i + 1] := List.getElem?_eq_some_iff.2 ⟨by omega, rfl⟩
    have hterm := hg.inner i ir h1 (by omega) hir
    unfold isTerminator at hterm
    rw [hop, hn] at hterm
    have hop' : f.irs[i + 1].op = .case := by simpa using hterm
    obtain ⟨jr, h3, h4⟩ := ih (i + 1) _ (by omega) (by omega) hn hop'
    exact ⟨jr, by rw [show i + (d + 1) = i + 1 + d by omega]; exact h3, h4⟩

/-- Instructions of a block before the first that ends it lead nowhere else. -/
theorem no_labels {f : Func} {blocks : List Block} (hc : Covers f blocks) {k : Nat} {b : Block}
    (hb : blocks[k]? = some b) (p : Nat) (hp2 : p ≤ b.last)
    (hno : ∀ (j : Nat) (ir : Ir), b.first ≤ j → j < p → f.irs[j]? = some ir → ir.op ≠ .case) :
    ∀ (d i : Nat), i + d = p → b.first ≤ i →
      (irsFrom f b i).filterMap (targetOf blocks) = (irsFrom f b p).filterMap (targetOf blocks) := by
  have hg := hc.good k b hb
  have hlt := hg.lt
  intro d
  induction d with
  | zero => intro i hi _; have : i = p := by omega
            rw [this]
  | succ d ih =>
    intro i hi h1
    have hir : f.irs[i]? = some f.irs[i] := List.getElem?_eq_some_iff.2 ⟨by omega, rfl⟩
    rw [irsFrom_cons hir (by omega), List.filterMap_cons]
    have hl : targetOf blocks f.irs[i] = none := by
      have hterm := hg.inner i _ h1 (by omega) hir
      have hnc := hno i _ h1 (by omega) hir
      unfold targetOf Ir.label
      split
      · rename_i ho _; unfold isTerminator at hterm; rw [ho] at hterm; cases hterm
      · rename_i ho _; exact absurd ho hnc
      · rfl
    rw [hl]
    exact ih (i + 1) (by omega) (by omega)

end Verif.Code.Llvm
