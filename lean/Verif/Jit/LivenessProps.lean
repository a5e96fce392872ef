import Verif.Jit.CfgProps

/-!
# Liveness is exact

Property C50.
-/

namespace Verif.Code

/-! ## specification -/

/-- Whether an instruction reads a register. -/
def Ir.reads (r : Nat) (ir : Ir) : Prop :=
  ir.arg1.regOf = some r ∨ ir.arg2.regOf = some r ∨ (ir.op.readsResult = true ∧ ir.result = some r)

/-- Whether an instruction gives a register a new value. -/
def Ir.defines (r : Nat) (ir : Ir) : Prop := ir.result = some r ∧ ir.op.readsResult = false

/-- From instruction `i` on there is a path to a reader on which no instruction before it writes. -/
inductive LiveAt (f : Func) (rd wr : Ir → Prop) : Nat → Prop
  | use {i : Nat} {ir : Ir} : f.irs[i]? = some ir → rd ir → LiveAt f rd wr i
  | later {i j : Nat} {ir : Ir} : f.irs[i]? = some ir → ¬ wr ir → Succ f i j → LiveAt f rd wr j → LiveAt f rd wr i

/-- Registers are below their number. -/
def RegsOk (f : Func) : Prop :=
  ∀ ir ∈ f.irs, ∀ r, (ir.arg1.regOf = some r ∨ ir.arg2.regOf = some r ∨ ir.result = some r) → r < f.nregs

/-- Only a mark or the end follows an instruction that ends the function. -/
def AbortEnds (f : Func) : Prop :=
  ∀ (i : Nat) (ir nx : Ir), f.irs[i]? = some ir → ir.willAbort = true → f.irs[i + 1]? = some nx → nx.target = true

/-- A comparison that combines its result with the flags follows an instruction that writes them. -/
def ChainsOk (f : Func) : Prop :=
  ∀ (i : Nat) (ir : Ir), f.irs[i]? = some ir → ir.readsFlags = true → ir.writesFlags = true →
    ir.target = false ∧ ∃ (j : Nat) (pr : Ir), i = j + 1 ∧ f.irs[j]? = some pr ∧ pr.writesFlags = true

/-! ## one instruction and one block -/

/-- What the scan takes for a use of a bit. -/
def useBit (n : Nat) (q : Nat) (ir : Ir) : Bool :=
  ir.arg1.regOf == some q || ir.arg2.regOf == some q || (ir.op.readsResult && ir.result == some q) ||
    (q == n && !ir.writesFlags && ir.readsFlags)

/-- What the scan takes for a write of a bit. -/
def killBit (n : Nat) (q : Nat) (ir : Ir) : Bool :=
  (ir.op != .case && ir.result == some q) || (q == n && ir.writesFlags)

theorem useReg_use (s : Scan) (r : Option Nat) (q : Nat) :
    (s.useReg r).use q = (s.use q || (!s.kill q && r == some q)) ∧ (s.useReg r).kill = s.kill := by
  unfold Scan.useReg
  cases r with
  | none => simp
  | some r =>
    dsimp only
    split
    · rename_i c
      refine ⟨?_, rfl⟩
      by_cases e : r = q
      · subst e; simp [c]
      · simp [e]
    · rename_i c
      refine ⟨?_, rfl⟩
      by_cases e : r = q
      · subst e; simp [c, Mask.set]
      · simp [e, Mask.set, Ne.symm e]

theorem killResult_eq (s : Scan) (ir : Ir) (q : Nat) :
    (s.killResult ir).use = s.use ∧
    (s.killResult ir).kill q = (s.kill q || (ir.op != .case && ir.result == some q)) := by
  unfold Scan.killResult Ir.writesResult
  cases hr : ir.result with
  | none => simp
  | some r =>
    by_cases c : ir.op = .case
    · simp [c]
    · simp [c, Mask.set]
      by_cases e : q = r
      · simp [e, c]
      · simp [e, Ne.symm e]

theorem scanIr_eq {n : Nat} (s : Scan) (ir : Ir)
    (hr : ∀ r, (ir.arg1.regOf = some r ∨ ir.arg2.regOf = some r ∨ ir.result = some r) → r < n) (q : Nat) :
    (scanIr n s ir).use q = (s.use q || (!s.kill q && useBit n q ir)) ∧
    (scanIr n s ir).kill q = (s.kill q || killBit n q ir) := by
  unfold scanIr
  generalize h1 : s.useReg ir.arg1.regOf = s1
  generalize h2 : s1.useReg ir.arg2.regOf = s2
  generalize h3 : s2.useReg (if ir.op.readsResult then ir.result else none) = s3
  generalize h4 : s3.killResult ir = s4
  have a1 := useReg_use s ir.arg1.regOf q
  have a2 := useReg_use s1 ir.arg2.regOf q
  have a3 := useReg_use s2 (if ir.op.readsResult then ir.result else none) q
  have a4 := killResult_eq s3 ir q
  have a4n := killResult_eq s3 ir n
  rw [h1] at a1; rw [h2] at a2; rw [h3] at a3; rw [h4] at a4 a4n
  have hk3 : s3.kill = s.kill := by rw [a3.2, a2.2, a1.2]
  have hn : (ir.result == some n) = false := by
    cases hres : ir.result with
    | none => rfl
    | some r =>
      have := hr r (by simp [hres])
      simp; omega
  have hk4n : s4.kill n = s.kill n := by rw [a4n.2, hn, hk3]; simp
  have hk4 : s4.kill q = (s.kill q || (ir.op != .case && ir.result == some q)) := by rw [a4.2, hk3]
  have hu4 : s4.use q = (s.use q || (!s.kill q && (ir.arg1.regOf == some q || ir.arg2.regOf == some q ||
      (ir.op.readsResult && ir.result == some q)))) := by
    rw [a4.1, a3.1, a2.1, a1.1, a2.2, a1.2]
    have : ((if ir.op.readsResult = true then ir.result else none) == some q) =
        (ir.op.readsResult && ir.result == some q) := by
      cases ir.op.readsResult <;> simp
    rw [this]
    cases s.use q <;> cases s.kill q <;> simp
  unfold Scan.flags useBit killBit
  by_cases hq : q = n
  · subst hq
    split
    · rename_i c
      simp only [hu4, Mask.set, if_pos, c]
      simp
    · rename_i c
      have c' : ir.writesFlags = false := by simpa using c
      split
      · rename_i d
        simp only [Bool.and_eq_true, hk4n, Bool.not_eq_true'] at d
        simp only [hk4, Mask.set, if_pos, c', d]
        simp
      · rename_i d
        simp only [hk4n, Bool.and_eq_true, Bool.not_eq_true', not_and, Bool.not_eq_false] at d
        rw [hk4, hu4, c']
        refine ⟨?_, by simp⟩
        cases hrf : ir.readsFlags
        · simp
        · rw [d hrf]; simp
  · have hqn : (q == n) = false := by simpa using hq
    rw [hqn]
    split
    · simp only [hu4, hk4, Mask.set, if_neg hq]; simp
    · split
      · simp only [hu4, hk4, Mask.set, if_neg hq]; simp
      · rw [hu4, hk4]; simp

/-- Used before it is written. -/
def exposed (n q : Nat) : List Ir → Bool
  | [] => false
  | ir :: l => useBit n q ir || (!killBit n q ir && exposed n q l)

theorem scan_foldl {n : Nat} (l : List Ir) (s : Scan)
    (hr : ∀ ir ∈ l, ∀ r, (ir.arg1.regOf = some r ∨ ir.arg2.regOf = some r ∨ ir.result = some r) → r < n) (q : Nat) :
    (l.foldl (scanIr n) s).use q = (s.use q || (!s.kill q && exposed n q l)) ∧
    (l.foldl (scanIr n) s).kill q = (s.kill q || l.any (killBit n q)) := by
  induction l generalizing s with
  | nil => simp [exposed]
  | cons ir l ih =>
    rw [List.foldl_cons]
    obtain ⟨h1, h2⟩ := ih (scanIr n s ir) (fun x hx => hr x (List.mem_cons_of_mem _ hx))
    obtain ⟨h3, h4⟩ := scanIr_eq s ir (hr ir List.mem_cons_self) q
    rw [h1, h2, h3, h4, exposed, List.any_cons]
    constructor
    · cases s.use q <;> cases s.kill q <;> cases useBit n q ir <;> simp
    · rw [Bool.or_assoc]

/-- The instructions of a block from `i` on. -/
def irsFrom (f : Func) (b : Block) (i : Nat) : List Ir := (f.irs.take (b.last + 1)).drop i

theorem irsFrom_cons {f : Func} {b : Block} {i : Nat} {ir : Ir} (h : f.irs[i]? = some ir) (hi : i ≤ b.last) :
    irsFrom f b i = ir :: irsFrom f b (i + 1) := by
  have hlt := (List.getElem?_eq_some_iff.1 h)
  unfold irsFrom
  have hl : i < (f.irs.take (b.last + 1)).length := by
    rw [List.length_take]; have := hlt.1; omega
  rw [List.drop_eq_getElem_cons hl]
  congr 1
  rw [List.getElem_take]
  exact hlt.2

theorem irsFrom_nil {f : Func} {b : Block} {i : Nat} (hi : b.last < i) : irsFrom f b i = [] := by
  unfold irsFrom
  apply List.drop_eq_nil_of_le
  rw [List.length_take]; omega

theorem scanBlock_eq (f : Func) (hr : RegsOk f) (b : Block) (q : Nat) :
    (scanBlock f b).use q = exposed f.nregs q (irsFrom f b b.first) ∧
    (scanBlock f b).kill q = (irsFrom f b b.first).any (killBit f.nregs q) := by
  unfold scanBlock
  obtain ⟨h1, h2⟩ := scan_foldl (n := f.nregs) (blockIrs f b) ⟨fun _ => false, fun _ => false⟩ (by
    intro ir hir
    apply hr
    exact List.mem_of_mem_take (List.mem_of_mem_drop hir)) q
  rw [h1, h2]
  simp [irsFrom, blockIrs]

/-! ## the outer loop -/

section
variable (f : Func) (blocks : List Block)

/-- The scan of block `c`. -/
def scanOf (c : Nat) : Scan := (blocks[c]?.map (scanBlock f)).getD ⟨fun _ => false, fun _ => false⟩

/-- Everything reported will be reported again. -/
def Grows (L : Nat → Mask) : Prop :=
  ∀ (k : Nat) (q : Nat), L k q = true → ∃ b, blocks[k]? = some b ∧ liveNew (scanOf f blocks) b L q = true

def Below (L M : Nat → Mask) : Prop := ∀ (k q : Nat), L k q = true → M k q = true

theorem liveNew_mono {L M : Nat → Mask} (h : Below L M) (b : Block) (q : Nat) (h1 : liveNew (scanOf f blocks) b L q = true) :
    liveNew (scanOf f blocks) b M q = true := by
  unfold liveNew at h1 ⊢
  rw [List.any_eq_true] at h1 ⊢
  obtain ⟨c, hc, h1⟩ := h1
  refine ⟨c, hc, ?_⟩
  simp only [Bool.or_eq_true, Bool.and_eq_true] at h1 ⊢
  rcases h1 with ⟨h1, h2⟩ | h1
  · exact Or.inl ⟨h c q h1, h2⟩
  · exact Or.inr h1

theorem maskEq_iff (n : Nat) (a b : Mask) : maskEq n a b = true ↔ ∀ q < n, a q = b q := by
  simp [maskEq]

/-- One block. -/
theorem liveBlock_step (L : Nat → Mask) (ch : Bool) (i : Nat) (hg : Grows f blocks L) :
    Grows f blocks (liveBlock f blocks (L, ch) i).1 ∧ Below L (liveBlock f blocks (L, ch) i).1 ∧
    (ch = true → (liveBlock f blocks (L, ch) i).2 = true) ∧
    (((liveBlock f blocks (L, ch) i).1 = L ∧ (liveBlock f blocks (L, ch) i).2 = ch ∧
        ∀ b, blocks[i]? = some b → ∀ q < f.nregs + 1, liveNew (scanOf f blocks) b L q = L i q) ∨
      ((liveBlock f blocks (L, ch) i).2 = true ∧ i < blocks.length ∧
        ∃ q < f.nregs + 1, (liveBlock f blocks (L, ch) i).1 i q = true ∧ L i q = false)) := by
  unfold liveBlock
  cases hb : blocks[i]? with
  | none => exact ⟨hg, fun _ _ h => h, fun h => h, Or.inl ⟨rfl, rfl, by simp⟩⟩
  | some b =>
    have hsc : (fun c => (blocks[c]?.map (scanBlock f)).getD ⟨fun _ => false, fun _ => false⟩) = scanOf f blocks := rfl
    dsimp only
    rw [hsc]
    split
    · rename_i c
      rw [maskEq_iff] at c
      refine ⟨hg, fun _ _ h => h, fun h => h, Or.inl ⟨rfl, rfl, ?_⟩⟩
      intro b' e; cases e; exact c
    · rename_i c
      have hbelow : Below L (fun c => if c = i then liveNew (scanOf f blocks) b L else L c) := by
        intro k q h
        dsimp only
        split
        · rename_i e; subst e
          obtain ⟨b', h1, h2⟩ := hg k q h
          rw [hb] at h1; cases h1; exact h2
        · exact h
      refine ⟨?_, hbelow, fun _ => rfl, Or.inr ⟨rfl, (List.getElem?_eq_some_iff.1 hb).1, ?_⟩⟩
      · intro k q h
        dsimp only at h
        split at h
        · rename_i e; subst e
          exact ⟨b, hb, liveNew_mono f blocks hbelow b q h⟩
        · obtain ⟨b', h1, h2⟩ := hg k q h
          exact ⟨b', h1, liveNew_mono f blocks hbelow b' q h2⟩
      · rw [maskEq_iff] at c
        simp only [Classical.not_forall] at c
        obtain ⟨q, hq, hne⟩ := c
        refine ⟨q, hq, ?_⟩
        dsimp only
        rw [if_pos rfl]
        cases hl : L i q
        · refine ⟨?_, rfl⟩
          rw [hl] at hne
          simpa using hne
        · exfalso
          obtain ⟨b', h1, h2⟩ := hg i q hl
          rw [hb] at h1; cases h1
          exact hne (by rw [h2, hl])

/-- A round: unchanged and nothing new, or something new. -/
theorem pass_step (l : List Nat) (L : Nat → Mask) (ch : Bool) (hg : Grows f blocks L) :
    Grows f blocks (l.foldl (liveBlock f blocks) (L, ch)).1 ∧ Below L (l.foldl (liveBlock f blocks) (L, ch)).1 ∧
    (ch = true → (l.foldl (liveBlock f blocks) (L, ch)).2 = true) ∧
    (((l.foldl (liveBlock f blocks) (L, ch)).1 = L ∧ (l.foldl (liveBlock f blocks) (L, ch)).2 = ch ∧
        ∀ i ∈ l, ∀ b, blocks[i]? = some b → ∀ q < f.nregs + 1, liveNew (scanOf f blocks) b L q = L i q) ∨
      ((l.foldl (liveBlock f blocks) (L, ch)).2 = true ∧
        ∃ i q, i < blocks.length ∧ q < f.nregs + 1 ∧ (l.foldl (liveBlock f blocks) (L, ch)).1 i q = true ∧
          L i q = false)) := by
  induction l generalizing L ch with
  | nil => exact ⟨hg, fun _ _ h => h, fun h => h, Or.inl ⟨rfl, rfl, by simp⟩⟩
  | cons i l ih =>
    rw [List.foldl_cons]
    obtain ⟨h1, h2, h3, h4⟩ := liveBlock_step f blocks L ch i hg
    generalize hst : liveBlock f blocks (L, ch) i = st at *
    obtain ⟨L1, ch1⟩ := st
    dsimp only at h1 h2 h3 h4
    obtain ⟨g1, g2, g3, g4⟩ := ih L1 ch1 h1
    refine ⟨g1, fun k q h => g2 k q (h2 k q h), fun h => g3 (h3 h), ?_⟩
    rcases h4 with ⟨rfl, rfl, h6⟩ | ⟨h5, h6, q, hq, h7, h8⟩
    · rcases g4 with ⟨g5, g6, g7⟩ | g4
      · refine Or.inl ⟨g5, g6, ?_⟩
        intro i' hi'
        rcases List.mem_cons.1 hi' with rfl | hi'
        · exact h6
        · exact g7 i' hi'
      · exact Or.inr g4
    · exact Or.inr ⟨g3 h5, i, q, h6, hq, g2 i q h7, h8⟩

/-- Nothing changes any more. -/
def Fixed (L : Nat → Mask) : Prop :=
  ∀ (k : Nat) (b : Block), blocks[k]? = some b → ∀ q < f.nregs + 1, liveNew (scanOf f blocks) b L q = L k q

/-- The pairs of a block and a bit. -/
def cells : List (Nat × Nat) :=
  (List.range blocks.length).flatMap fun k => (List.range (f.nregs + 1)).map fun q => (k, q)

theorem mem_cells (k q : Nat) : (k, q) ∈ cells f blocks ↔ k < blocks.length ∧ q < f.nregs + 1 := by
  simp only [cells, List.mem_flatMap, List.mem_range, List.mem_map, Prod.mk.injEq]
  constructor
  · rintro ⟨a, ha, b, hb, rfl, rfl⟩; exact ⟨ha, hb⟩
  · rintro ⟨h1, h2⟩; exact ⟨k, h1, q, h2, rfl, rfl⟩

theorem length_flatMap_const {α β} (l : List α) (g : α → List β) (n : Nat) (h : ∀ a, (g a).length = n) :
    (l.flatMap g).length = l.length * n := by
  induction l with
  | nil => simp
  | cons a l ih => rw [List.flatMap_cons, List.length_append, h, ih, List.length_cons, Nat.succ_mul]; omega

theorem length_cells : (cells f blocks).length = blocks.length * (f.nregs + 1) := by
  unfold cells
  rw [length_flatMap_const _ _ (f.nregs + 1) (by simp)]
  simp

theorem countP_lt {α} (l : List α) (p q : α → Bool) (h : ∀ a ∈ l, p a = true → q a = true)
    (he : ∃ a ∈ l, q a = true ∧ p a = false) : l.countP p < l.countP q := by
  induction l with
  | nil => simp at he
  | cons x l ih =>
    have hle : l.countP p ≤ l.countP q := List.countP_mono_left (fun a ha => h a (List.mem_cons_of_mem _ ha))
    rw [List.countP_cons, List.countP_cons]
    obtain ⟨a, ha, h1, h2⟩ := he
    rcases List.mem_cons.1 ha with rfl | ha
    · rw [if_neg (by simp [h2]), if_pos h1]; omega
    · have := ih (fun a ha => h a (List.mem_cons_of_mem _ ha)) ⟨a, ha, h1, h2⟩
      have hx := h x List.mem_cons_self
      cases hp : p x
      · simp only [Bool.false_eq_true, if_false]; omega
      · rw [hx hp]; omega

def reported (L : Nat → Mask) : Nat := (cells f blocks).countP fun p => L p.1 p.2

/-- The loop ends in a fixed point, if it is allowed as many rounds as there are bits, and one more. -/
theorem loop_fixed (fuel : Nat) (L : Nat → Mask) (hg : Grows f blocks L)
    (hf : blocks.length * (f.nregs + 1) < fuel + reported f blocks L) :
    ∃ M, liveLoop f blocks fuel L = some M ∧ Grows f blocks M ∧ Fixed f blocks M := by
  induction fuel generalizing L with
  | zero =>
    exfalso
    have : reported f blocks L ≤ (cells f blocks).length := List.countP_le_length
    rw [length_cells] at this
    omega
  | succ fuel ih =>
    rw [liveLoop]
    unfold livePass
    obtain ⟨h1, h2, h3, h4⟩ := pass_step f blocks (List.range blocks.length).reverse L false hg
    generalize (List.range blocks.length).reverse.foldl (liveBlock f blocks) (L, false) = st at *
    obtain ⟨M, ch⟩ := st
    dsimp only at h1 h2 h4 ⊢
    rcases h4 with ⟨rfl, rfl, h6⟩ | ⟨rfl, i, q, hi, hq, h7, h8⟩
    · rw [if_neg (by simp)]
      refine ⟨M, rfl, h1, ?_⟩
      intro k b hb
      exact h6 k (by simp [(List.getElem?_eq_some_iff.1 hb).1]) b hb
    · rw [if_pos rfl]
      apply ih M h1
      have : reported f blocks L < reported f blocks M := by
        apply countP_lt
        · intro a _ h; exact h2 _ _ h
        · exact ⟨(i, q), (mem_cells f blocks i q).2 ⟨hi, hq⟩, h7, h8⟩
      omega

/-- What holds of everything newly reported if it holds of everything reported before, holds of the
result. -/
theorem loop_ind (P : Nat → Nat → Prop)
    (hP : ∀ L : Nat → Mask, (∀ k q, L k q = true → P k q) → ∀ (k : Nat) (b : Block) (q : Nat),
      blocks[k]? = some b → liveNew (scanOf f blocks) b L q = true → P k q)
    (fuel : Nat) (L M : Nat → Mask) (hL : ∀ k q, L k q = true → P k q) (h : liveLoop f blocks fuel L = some M) :
    ∀ k q, M k q = true → P k q := by
  have step : ∀ (L : Nat → Mask) (ch : Bool) (i : Nat), (∀ k q, L k q = true → P k q) →
      ∀ k q, (liveBlock f blocks (L, ch) i).1 k q = true → P k q := by
    intro L ch i hL k q h
    unfold liveBlock at h
    split at h
    · exact hL k q h
    · rename_i b hb
      dsimp only at h
      split at h
      · exact hL k q h
      · dsimp only at h
        split at h
        · rename_i e; subst e
          exact hP L hL k b q hb h
        · exact hL k q h
  have pass : ∀ (l : List Nat) (L : Nat → Mask) (ch : Bool), (∀ k q, L k q = true → P k q) →
      ∀ k q, (l.foldl (liveBlock f blocks) (L, ch)).1 k q = true → P k q := by
    intro l
    induction l with
    | nil => intro L ch hL; exact hL
    | cons i l ih =>
      intro L ch hL
      rw [List.foldl_cons]
      exact ih _ _ (step L ch i hL)
  induction fuel generalizing L with
  | zero => simp [liveLoop] at h
  | succ fuel ih =>
    rw [liveLoop] at h
    unfold livePass at h
    have := pass (List.range blocks.length).reverse L false hL
    generalize (List.range blocks.length).reverse.foldl (liveBlock f blocks) (L, false) = st at *
    obtain ⟨M', ch⟩ := st
    dsimp only at this h
    split at h
    · exact ih M' this h
    · cases h; exact this

end

/-! ## paths -/

/-- A path of bits, as the scan sees them. -/
abbrev LiveBit (f : Func) (q : Nat) : Nat → Prop :=
  LiveAt f (fun ir => useBit f.nregs q ir = true) (fun ir => killBit f.nregs q ir = true)

/-- Inside a block control goes on, but for cases that leave it. -/
theorem inner_succ {f : Func} {blocks : List Block} (hc : Covers f blocks) (ha : AbortEnds f) {k : Nat} {b : Block}
    (hb : blocks[k]? = some b) {i : Nat} (h1 : b.first ≤ i) (h2 : i < b.last) : Succ f i (i + 1) := by
  have hg := hc.good k b hb
  have hl := hg.lt
  refine ⟨by omega, f.irs[i], List.getElem?_eq_some_iff.2 ⟨by omega, rfl⟩, Or.inr ⟨rfl, ?_⟩⟩
  have hi : f.irs[i]? = some f.irs[i] := List.getElem?_eq_some_iff.2 ⟨by omega, rfl⟩
  have hn : f.irs[i + 1]? = some f.irs[i + 1] := List.getElem?_eq_some_iff.2 ⟨by omega, rfl⟩
  have hterm := hg.inner i _ h1 h2 hi
  have htar := hg.target (i + 1) _ (by omega) (by omega) hn
  have hab : f.irs[i].willAbort = false := by
    cases c : f.irs[i].willAbort
    · rfl
    · rw [ha i _ _ hi c hn] at htar; cases htar
  unfold isTerminator at hterm
  unfold Ir.canFall
  cases hop : f.irs[i].op <;> rw [hop] at hterm <;> simp at hterm ⊢ <;> exact hab

/-- A use that the scan found. -/
theorem exposed_live {f : Func} {blocks : List Block} (hc : Covers f blocks) (ha : AbortEnds f) {k : Nat} {b : Block}
    (hb : blocks[k]? = some b) (q d i : Nat) (hd : b.last + 1 = i + d) (h1 : b.first ≤ i)
    (h : exposed f.nregs q (irsFrom f b i) = true) : LiveBit f q i := by
  have hl := (hc.good k b hb).lt
  induction d generalizing i with
  | zero => rw [irsFrom_nil (by omega)] at h; simp [exposed] at h
  | succ d ih =>
    have hi : f.irs[i]? = some f.irs[i] := List.getElem?_eq_some_iff.2 ⟨by omega, rfl⟩
    rw [irsFrom_cons hi (by omega), exposed] at h
    simp only [Bool.or_eq_true, Bool.and_eq_true, Bool.not_eq_true'] at h
    rcases h with h | ⟨h3, h4⟩
    · exact .use hi h
    · rcases Nat.lt_or_ge i b.last with c | c
      · exact .later hi (by rw [h3]; simp) (inner_succ hc ha hb h1 c) (ih (i + 1) (by omega) (by omega) h4)
      · rw [irsFrom_nil (by omega)] at h4; simp [exposed] at h4

/-- What is live after an edge is live before the block if the block does not write it. -/
theorem through_live {f : Func} {blocks : List Block} (hc : Covers f blocks) (ha : AbortEnds f) {k : Nat} {b : Block}
    (hb : blocks[k]? = some b) (q : Nat) {i j : Nat} (hbi : b.has i) (hs : Succ f i j) (hj : LiveBit f q j)
    (hk : (irsFrom f b b.first).any (killBit f.nregs q) = false) : LiveBit f q b.first := by
  have hl := (hc.good k b hb).lt
  unfold Block.has at hbi
  have nokill : ∀ p, b.first ≤ p → p ≤ b.last → ∀ ir, f.irs[p]? = some ir → killBit f.nregs q ir = false := by
    intro p h1 h2 ir hir
    have hm : ir ∈ irsFrom f b b.first := by
      unfold irsFrom
      apply List.mem_of_getElem? (i := p - b.first)
      rw [List.getElem?_drop, show b.first + (p - b.first) = p by omega, List.getElem?_take, if_pos (by omega)]
      exact hir
    rw [List.any_eq_false] at hk
    simpa using hk ir hm
  have main : ∀ d p, p + d = i → b.first ≤ p → LiveBit f q p := by
    intro d
    induction d with
    | zero =>
      intro p h1 h2
      have : p = i := by omega
      subst this
      have hi : f.irs[p]? = some f.irs[p] := List.getElem?_eq_some_iff.2 ⟨by omega, rfl⟩
      exact .later hi (by rw [nokill p h2 hbi.2 _ hi]; simp) hs hj
    | succ d ih =>
      intro p h1 h2
      have hi : f.irs[p]? = some f.irs[p] := List.getElem?_eq_some_iff.2 ⟨by omega, rfl⟩
      exact .later hi (by rw [nokill p h2 (by omega) _ hi]; simp) (inner_succ hc ha hb h2 (by omega))
        (ih (p + 1) (by omega) (by omega))
  exact main (i - b.first) b.first (by omega) (Nat.le_refl _)

/-- After an instruction of a block from which control may leave it, nothing is written. -/
theorem leave_nokill {f : Func} {blocks : List Block} (hc : Covers f blocks) {k : Nat} {b : Block}
    (hb : blocks[k]? = some b) (q d i : Nat) (hd : b.last = i + d) (h1 : b.first ≤ i) {ir : Ir}
    (hir : f.irs[i]? = some ir) (hop : ir.op = .case) : (irsFrom f b (i + 1)).any (killBit f.nregs q) = false := by
  have hg := hc.good k b hb
  have hl := hg.lt
  induction d generalizing i ir with
  | zero => rw [irsFrom_nil (by omega)]; rfl
  | succ d ih =>
    have hn : f.irs[i + 1]? = some f.irs[i + 1] := List.getElem?_eq_some_iff.2 ⟨by omega, rfl⟩
    have hterm := hg.inner i ir h1 (by omega) hir
    unfold isTerminator at hterm
    rw [hop, hn] at hterm
    have hop' : f.irs[i + 1].op = .case := by simpa using hterm
    rw [irsFrom_cons hn (by omega), List.any_cons, ih (i + 1) (by omega) (by omega) hn hop']
    simp [killBit, hop', Ir.writesFlags]

/-- Every path is found: what is live at an instruction is used in the rest of the block, or not
written there and reported as live at the end of the block. -/
theorem live_found {f : Func} {blocks : List Block} (hc : Covers f blocks) (he : EdgesOk f blocks)
    (hl : LabelsOk f) (ht : TargetsMarked f) (hr : RegsOk f) (M : Nat → Mask) (hm : Fixed f blocks M) (q : Nat)
    (hq : q < f.nregs + 1) {i : Nat} (h : LiveBit f q i) (hcl : Clean f blocks i) (k : Nat) (b : Block)
    (hb : blocks[k]? = some b) (hbi : b.has i) :
    exposed f.nregs q (irsFrom f b i) = true ∨
      ((irsFrom f b i).any (killBit f.nregs q) = false ∧ M k q = true) := by
  induction h generalizing k b with
  | use hir hu =>
    left
    rw [irsFrom_cons hir hbi.2, exposed, hu]; rfl
  | @later i j ir hir hw hs hj ih =>
    have hw' : killBit f.nregs q ir = false := by simpa using hw
    rw [irsFrom_cons hir hbi.2, exposed, List.any_cons, hw']
    have hclj := succ_clean hc he hl ht hs hcl
    rcases succ_edge hc he hl ht hs hcl hb hbi with ⟨rfl, hbj⟩ | ⟨c, d, ho, hd, rfl⟩
    · rcases ih hclj k b hb hbj with h | ⟨h1, h2⟩
      · exact Or.inl (by rw [h]; simp)
      · exact Or.inr ⟨by rw [h1]; simp, h2⟩
    · have hg := hc.good k b hb
      -- the rest of the block writes nothing
      have hrest : (irsFrom f b (i + 1)).any (killBit f.nregs q) = false := by
        obtain ⟨_, ir', hir', h⟩ := hs
        rw [hir] at hir'; cases hir'
        rcases Nat.lt_or_ge i b.last with c' | c'
        · have hterm := hg.inner i ir hbi.1 c' hir
          rcases h with h | ⟨h, _⟩
          · unfold Ir.label at h
            split at h
            · rename_i ho _; unfold isTerminator at hterm; rw [ho] at hterm; cases hterm
            · rename_i ho _; exact leave_nokill hc hb q (b.last - i) i (by omega) hbi.1 hir ho
            · cases h
          · exfalso
            have := covers_unique hc hd hb (i := d.first) ⟨Nat.le_refl _, (hc.good _ _ hd).le⟩
              ⟨by have := hbi.1; omega, by omega⟩
            subst this; rw [hb] at hd; cases hd
            have := hbi.1; omega
        · rw [irsFrom_nil (by omega)]; rfl
      right
      refine ⟨by rw [hrest]; rfl, ?_⟩
      have hlt : d.first ≤ d.last := (hc.good _ _ hd).le
      have hsc : scanOf f blocks c = scanBlock f d := by unfold scanOf; rw [hd]; rfl
      rw [← hm k b hb q hq]
      unfold liveNew
      rw [List.any_eq_true]
      refine ⟨c, ho, ?_⟩
      rw [hsc, (scanBlock_eq f hr d q).1, (scanBlock_eq f hr d q).2]
      rcases ih hclj c d hd ⟨Nat.le_refl _, hlt⟩ with h | ⟨h1, h2⟩
      · rw [h]; simp
      · rw [h1, h2]; simp

/-- Everything reported is live. -/
theorem found_live {f : Func} {blocks : List Block} (hc : Covers f blocks) (he : EdgesOk f blocks)
    (hl : LabelsOk f) (ht : TargetsMarked f) (hr : RegsOk f) (ha : AbortEnds f) (fuel : Nat) (M : Nat → Mask)
    (h : liveOut f blocks fuel = some M) (k : Nat) (b : Block) (q : Nat) (hb : blocks[k]? = some b)
    (hq : M k q = true) : ∃ (i j : Nat), b.has i ∧ Succ f i j ∧ LiveBit f q j := by
  have hP := loop_ind f blocks (fun k q => ∀ b, blocks[k]? = some b → ∃ (i j : Nat), b.has i ∧ Succ f i j ∧ LiveBit f q j)
    (by
      intro L hL k b q hb hnew b' hb'
      rw [hb] at hb'; cases hb'
      unfold liveNew at hnew
      rw [List.any_eq_true] at hnew
      obtain ⟨c, ho, hnew⟩ := hnew
      obtain ⟨i, d, hbi, hd, hs⟩ := edge_succ hc he hl ht hb ho
      refine ⟨i, d.first, hbi, hs, ?_⟩
      have hsc : scanOf f blocks c = scanBlock f d := by unfold scanOf; rw [hd]; rfl
      rw [hsc, (scanBlock_eq f hr d q).1, (scanBlock_eq f hr d q).2] at hnew
      simp only [Bool.or_eq_true, Bool.and_eq_true, Bool.not_eq_true'] at hnew
      have hle := (hc.good _ _ hd).le
      rcases hnew with ⟨h1, h2⟩ | h1
      · obtain ⟨i', j', g1, g2, g3⟩ := hL c q h1 d hd
        exact through_live hc ha hd q g1 g2 g3 h2
      · exact exposed_live hc ha hd q (d.last + 1 - d.first) d.first (by omega) (Nat.le_refl _) h1)
    fuel (fun _ _ => false) M (by simp) h
  exact hP k q hq b hb

/-- Live-in as the scan sees it. -/
theorem liveIn_bit {f : Func} {blocks : List Block} (h0 : f.irs ≠ []) (hl : LabelsOk f) (ht : TargetsMarked f)
    (hr : RegsOk f) (hg : getCfg f = some blocks) (fuel : Nat) (hf : blocks.length * (f.nregs + 1) < fuel) :
    ∃ M, liveOut f blocks fuel = some M ∧ ∀ (k : Nat) (b : Block), blocks[k]? = some b → ∀ q < f.nregs + 1,
      (LiveBit f q b.first → liveIn f b (M k) q = true) ∧
      (AbortEnds f → liveIn f b (M k) q = true → LiveBit f q b.first) := by
  obtain ⟨hc, he⟩ := cfg_edges h0 hl hg
  obtain ⟨M, h1, h2, h3⟩ := loop_fixed f blocks fuel (fun _ _ => false) (by intro k q h; cases h) (by omega)
  refine ⟨M, h1, ?_⟩
  intro k b hb q hq
  have hle := (hc.good k b hb).le
  unfold liveIn
  rw [(scanBlock_eq f hr b q).1, (scanBlock_eq f hr b q).2]
  constructor
  · intro hlive
    rcases live_found hc he hl ht hr M h3 q hq hlive (clean_first hc hb) k b hb ⟨Nat.le_refl _, hle⟩ with h | ⟨g1, g2⟩
    · rw [h]; rfl
    · rw [g1, g2]; simp
  · intro ha h
    simp only [Bool.or_eq_true, Bool.and_eq_true, Bool.not_eq_true'] at h
    rcases h with h | ⟨g1, g2⟩
    · exact exposed_live hc ha hb q (b.last + 1 - b.first) b.first (by omega) (Nat.le_refl _) h
    · obtain ⟨i, j, q1, q2, q3⟩ := found_live hc he hl ht hr ha fuel M h1 k b q hb g1
      exact through_live hc ha hb q q1 q2 q3 g2

/-! ## registers and flags -/

theorem live_reg {f : Func} (r : Nat) (hr : r < f.nregs) (i : Nat) :
    LiveBit f r i ↔ LiveAt f (Ir.reads r) (Ir.defines r) i := by
  have hrn : (r == f.nregs) = false := by simp; omega
  have hu : ∀ ir : Ir, useBit f.nregs r ir = true ↔ ir.reads r := by
    intro ir
    unfold useBit Ir.reads
    rw [hrn]
    simp [or_assoc]
  constructor
  · intro h
    induction h with
    | use hir h => exact .use hir ((hu _).1 h)
    | later hir hw hs _ ih =>
      refine .later hir ?_ hs ih
      intro hd
      apply hw
      unfold killBit
      rw [hrn, hd.1]
      have : ∀ o : Op, o.readsResult = false → (o != .case) = true := by intro o; cases o <;> decide
      rw [this _ hd.2]; simp
  · intro h
    induction h with
    | use hir h => exact .use hir ((hu _).2 h)
    | @later i j ir hir hw hs _ ih =>
      by_cases hd : ir.reads r
      · exact .use hir ((hu _).2 hd)
      · refine .later hir ?_ hs ih
        intro hk
        unfold killBit at hk
        rw [hrn] at hk
        simp at hk
        apply hw
        refine ⟨hk.2, ?_⟩
        cases c : ir.op.readsResult
        · rfl
        · exact absurd (Or.inr (Or.inr ⟨c, hk.2⟩)) hd

theorem live_flags {f : Func} (hr : RegsOk f) (ht : TargetsMarked f) (hch : ChainsOk f) (i : Nat)
    (hi : ∀ ir, f.irs[i]? = some ir → ¬ (ir.readsFlags = true ∧ ir.writesFlags = true)) :
    LiveBit f f.nregs i ↔ LiveAt f (fun ir => ir.readsFlags = true) (fun ir => ir.writesFlags = true) i := by
  have hno : ∀ (i : Nat) (ir : Ir), f.irs[i]? = some ir → ir.arg1.regOf ≠ some f.nregs ∧ ir.arg2.regOf ≠ some f.nregs ∧
      ir.result ≠ some f.nregs := by
    intro i ir hir
    have := hr ir (List.mem_of_getElem? hir) f.nregs
    refine ⟨fun c => ?_, fun c => ?_, fun c => ?_⟩
    · have := this (Or.inl c); omega
    · have := this (Or.inr (Or.inl c)); omega
    · have := this (Or.inr (Or.inr c)); omega
  have hu : ∀ (i : Nat) (ir : Ir), f.irs[i]? = some ir →
      (useBit f.nregs f.nregs ir = true ↔ ir.writesFlags = false ∧ ir.readsFlags = true) := by
    intro i ir hir
    obtain ⟨h1, h2, h3⟩ := hno i ir hir
    unfold useBit
    simp [h1, h2, h3]
  have hk : ∀ (i : Nat) (ir : Ir), f.irs[i]? = some ir → (killBit f.nregs f.nregs ir = true ↔ ir.writesFlags = true) := by
    intro i ir hir
    obtain ⟨h1, h2, h3⟩ := hno i ir hir
    unfold killBit
    simp [h3]
  constructor
  · intro h
    clear hi
    induction h with
    | use hir h => exact .use hir ((hu _ _ hir).1 h).2
    | later hir hw hs _ ih =>
      exact .later hir (fun c => hw ((hk _ _ hir).2 c)) hs ih
  · intro h
    induction h with
    | @use i ir hir h =>
      refine .use hir ((hu _ _ hir).2 ⟨?_, h⟩)
      cases c : ir.writesFlags
      · rfl
      · exact absurd ⟨h, c⟩ (hi ir hir)
    | @later i j ir hir hw hs _ ih =>
      refine .later hir (fun c => hw ((hk _ _ hir).1 c)) hs (ih ?_)
      -- the successor is not such a comparison
      intro irj hirj ⟨c1, c2⟩
      obtain ⟨htar, p, pr, hp, hpr, hpw⟩ := hch j irj hirj c1 c2
      obtain ⟨_, ir', hir', h⟩ := hs
      rw [hir] at hir'; cases hir'
      rcases h with h | ⟨h, _⟩
      · obtain ⟨t1, t2⟩ := ht i ir hir
        unfold Ir.label at h
        split at h
        · rename_i ho ha
          obtain ⟨l', hl', _, hh⟩ := t1 ho
          rw [ha] at hl'; cases hl'; cases h
          rw [hh irj hirj] at htar; cases htar
        · rename_i ho ha
          obtain ⟨l', hl', _, hh⟩ := t2 ho
          rw [ha] at hl'; cases hl'; cases h
          rw [hh irj hirj] at htar; cases htar
        · cases h
      · have : p = i := by omega
        subst this; rw [hir] at hpr; cases hpr
        exact hw hpw

/-- The first instruction of a block is not a comparison that combines. -/
theorem first_plain {f : Func} {blocks : List Block} (hc : Covers f blocks) (hch : ChainsOk f) {k : Nat} {b : Block}
    (hb : blocks[k]? = some b) :
    ∀ ir, f.irs[b.first]? = some ir → ¬ (ir.readsFlags = true ∧ ir.writesFlags = true) := by
  intro ir hir ⟨c1, c2⟩
  obtain ⟨htar, p, pr, hp, hpr, hpw⟩ := hch _ ir hir c1 c2
  cases k with
  | zero =>
    obtain ⟨b0, h1, h2⟩ := hc.zero
    rw [hb] at h1; cases h1; omega
  | succ k =>
    obtain ⟨a, ha⟩ : ∃ a, blocks[k]? = some a :=
      ⟨blocks[k]'(by have := (List.getElem?_eq_some_iff.1 hb).1; omega), List.getElem?_eq_some_iff.2 ⟨_, rfl⟩⟩
    have hn := hc.next k a b ha hb
    have hpl : p = a.last := by omega
    subst hpl
    rcases hc.ends k a ha pr ir hpr (hn ▸ hir) with h | h
    · rw [htar] at h; cases h
    · unfold isTerminator at h
      unfold Ir.writesFlags at hpw
      cases hop : pr.op <;> rw [hop] at h hpw <;> simp at h hpw

/-! ## the property -/

/-- The registers and flags reported as live at the start of a block: for every register there is a
path from there to a reader with no write before it, and the same for the flags. -/
theorem liveness_exact_partial (f : Func) (blocks : List Block) (h0 : f.irs ≠ []) (hl : LabelsOk f)
    (ht : TargetsMarked f) (hr : RegsOk f) (ha : AbortEnds f) (hch : ChainsOk f) (hg : getCfg f = some blocks)
    (fuel : Nat) (hf : blocks.length * (f.nregs + 1) < fuel) :
    ∃ M, liveOut f blocks fuel = some M ∧ ∀ (k : Nat) (b : Block), blocks[k]? = some b →
      (∀ r < f.nregs, liveIn f b (M k) r = true ↔ LiveAt f (Ir.reads r) (Ir.defines r) b.first) ∧
      (liveIn f b (M k) f.nregs = true ↔
        LiveAt f (fun ir => ir.readsFlags = true) (fun ir => ir.writesFlags = true) b.first) := by
  obtain ⟨M, h1, h2⟩ := liveIn_bit h0 hl ht hr hg fuel hf
  obtain ⟨hc, he⟩ := cfg_edges h0 hl hg
  refine ⟨M, h1, fun k b hb => ⟨fun r hlt => ?_, ?_⟩⟩
  · rw [← live_reg r hlt]
    exact ⟨(h2 k b hb r (by omega)).2 ha, (h2 k b hb r (by omega)).1⟩
  · rw [← live_flags hr ht hch _ (first_plain hc hch hb)]
    exact ⟨(h2 k b hb _ (by omega)).2 ha, (h2 k b hb _ (by omega)).1⟩

/-- Nothing live is missed, whatever follows an instruction that ends the function. -/
theorem liveness_sound (f : Func) (blocks : List Block) (h0 : f.irs ≠ []) (hl : LabelsOk f)
    (ht : TargetsMarked f) (hr : RegsOk f) (hg : getCfg f = some blocks)
    (fuel : Nat) (hf : blocks.length * (f.nregs + 1) < fuel) :
    ∃ M, liveOut f blocks fuel = some M ∧ ∀ (k : Nat) (b : Block), blocks[k]? = some b →
      ∀ r < f.nregs, LiveAt f (Ir.reads r) (Ir.defines r) b.first → liveIn f b (M k) r = true := by
  obtain ⟨M, h1, h2⟩ := liveIn_bit h0 hl ht hr hg fuel hf
  refine ⟨M, h1, fun k b hb r hlt h => ?_⟩
  rw [← live_reg r hlt] at h
  exact (h2 k b hb r (by omega)).1 h

/-! ## what liveness means -/

/-- Instructions that write their result register. -/
def Op.gives : Op → Bool
  | .recv | .and | .or | .xor | .add | .sub | .mul | .div | .rem | .fadd | .fsub | .fmul | .fdiv | .fexp
  | .fneg | .scvtf | .fcvtns | .shl | .asr | .uload | .load | .cset | .mov | .lea | .csel | .neg | .not
  | .clamp | .salloc | .exp | .getpriv | .galloc | .lalloc => true
  | _ => false

/-- Only instructions that read or write a result register have one. -/
def ResultsOk (f : Func) : Prop :=
  ∀ ir ∈ f.irs, ir.result ≠ none → ir.op.readsResult = true ∨ ir.op.gives = true

abbrev LiveReg (f : Func) (r : Nat) : Nat → Prop := LiveAt f (Ir.reads r) (Ir.defines r)

abbrev LiveFlags (f : Func) : Nat → Prop :=
  LiveAt f (fun ir => ir.readsFlags = true) (fun ir => ir.writesFlags = true)

section
variable {W : Type}

/-- Two states at the same instruction that agree on everything live there. -/
structure AgreeLive (f : Func) (s s' : State W) : Prop where
  pc : s'.pc = s.pc
  world : s'.world = s.world
  regs : ∀ r, LiveReg f r s.pc → s'.regs r = s.regs r
  flags : LiveFlags f s.pc → s'.flags = s.flags

/-- The same outcome. -/
def Alike (f : Func) : Option (Res W) → Option (Res W) → Prop
  | none, none => True
  | some (.next s), some (.next s') => AgreeLive f s s'
  | some (.halt b s), some (.halt b' s') => b' = b ∧ s'.pc = s.pc ∧ s'.world = s.world
  | _, _ => False

theorem effect_gives {env : Env W} {op : Op} {size cc a b old fl w e} (hp : op.gives = true)
    (h : effect env op size cc a b old fl w = some e) : ∃ x, e.result = some x := by
  cases op <;> simp [Op.gives] at hp <;>
    simp only [effect, give, giveFlags, actGive, Option.map_eq_some_iff] at h <;>
    obtain ⟨_, _, rfl⟩ := h <;> exact ⟨_, rfl⟩

theorem writeReg_cases (regs regs' : Nat → Word) (d : Option Nat) (x : Option Word) :
    (writeReg regs d x = none ∧ writeReg regs' d x = none) ∨
    (∃ q q', writeReg regs d x = some q ∧ writeReg regs' d x = some q' ∧
      ∀ r, (q r = q' r) ∨ ((x = none ∨ d ≠ some r) ∧ q r = regs r ∧ q' r = regs' r)) := by
  cases x with
  | none => exact Or.inr ⟨regs, regs', rfl, rfl, fun r => Or.inr ⟨Or.inl rfl, rfl, rfl⟩⟩
  | some x =>
    cases d with
    | none => exact Or.inl ⟨rfl, rfl⟩
    | some d =>
      refine Or.inr ⟨_, _, rfl, rfl, fun r => ?_⟩
      unfold setReg
      by_cases c : r = d
      · simp [c]
      · right; simp [c]; exact fun e => c e.symm

theorem step_alike {env : Env W} {f : Func} (hn : NoReturn env) (ht : TargetsMarked f) (hc : ChecksOk f)
    (hres : ResultsOk f) {s s' : State W} (h : AgreeLive f s s') : Alike f (step env f s) (step env f s') := by
  obtain ⟨hpc, hw, hregs, hfl⟩ := h
  cases hir : f.irs[s.pc]? with
  | none =>
    have e1 : step env f s = none := by unfold step; rw [hir]; rfl
    have e2 : step env f s' = none := by unfold step; rw [hpc, hir]; rfl
    rw [e1, e2]; trivial
  | some ir =>
    have e1 : step env f s = execIr env ir s := by unfold step; rw [hir]; rfl
    have e2 : step env f s' = execIr env ir s' := by unfold step; rw [hpc, hir]; rfl
    have hmem := List.mem_of_getElem? hir
    have rd : ∀ r, ir.reads r → s'.regs r = s.regs r := fun r hr => hregs r (.use hir hr)
    have ev : ∀ v : Val, (∀ r, v.regOf = some r → ir.reads r) → eval env s'.regs v = eval env s.regs v := by
      intro v hv
      cases v <;> simp only [eval]
      · rw [rd _ (hv _ rfl)]
      · rw [rd _ (hv _ rfl)]
    have ev1 := ev ir.arg1 (fun r hr => Or.inl hr)
    have ev2 := ev ir.arg2 (fun r hr => Or.inr (Or.inl hr))
    have hold : oldValue s'.regs ir = oldValue s.regs ir := by
      unfold oldValue
      split
      · rename_i c
        cases hd : ir.result with
        | none => rfl
        | some d => simp only [Option.map_some]; rw [rd d (Or.inr (Or.inr ⟨c, hd⟩))]
      · rfl
    have key : ∀ s1, step env f s = some (.next s1) → s1.pc < f.irs.length → Succ f s.pc s1.pc :=
      fun s1 h1 h2 => step_succ hn ht h1 h2
    rw [e1] at key
    rw [e1, e2]
    unfold execIr at key ⊢
    rw [hold, ev1, ev2, hw]
    cases ho : oldValue s.regs ir with
    | none => trivial
    | some old =>
      rw [ho] at key
      simp only [Option.bind_some] at key ⊢
      have heff : effect env ir.op ir.size ir.cc (eval env s.regs ir.arg1) (eval env s.regs ir.arg2) old s'.flags s.world
          = effect env ir.op ir.size ir.cc (eval env s.regs ir.arg1) (eval env s.regs ir.arg2) old s.flags s.world := by
        cases hr : ir.readsFlags
        · exact effect_indep _ _ hr
        · rw [hfl (.use hir hr)]
      rw [heff]
      cases he : effect env ir.op ir.size ir.cc (eval env s.regs ir.arg1) (eval env s.regs ir.arg2) old s.flags s.world with
      | none => trivial
      | some e =>
        rw [he] at key
        simp only [Option.bind_some] at key ⊢
        unfold apply at key ⊢
        rcases writeReg_cases s.regs s'.regs ir.result e.result with ⟨w1, w2⟩ | ⟨q, q', w1, w2, w3⟩
        · rw [w1, w2]; trivial
        · rw [w1] at key
          rw [w1, w2]
          simp only [Option.map_some] at key ⊢
          -- what is live afterwards agrees
          have main : ∀ (p : Nat), (p < f.irs.length → Succ f s.pc p) →
              AgreeLive f { regs := q, flags := e.flags.getD s.flags, pc := p, world := e.world }
                { regs := q', flags := e.flags.getD s'.flags, pc := p, world := e.world } := by
            intro p hp
            have live_lt : ∀ {rd wr}, LiveAt f rd wr p → p < f.irs.length := by
              intro rd wr hl
              cases hl with
              | use h _ => exact (List.getElem?_eq_some_iff.1 h).1
              | later h _ _ _ => exact (List.getElem?_eq_some_iff.1 h).1
            refine ⟨rfl, rfl, ?_, ?_⟩
            · intro r hl
              dsimp only at hl ⊢
              rcases w3 r with h | ⟨h1, h2, h3⟩
              · exact h.symm
              · rw [h2, h3]
                apply hregs
                refine .later hir ?_ (hp (live_lt hl)) hl
                rintro ⟨hd1, hd2⟩
                rcases hres ir hmem (by rw [hd1]; simp) with h | h
                · rw [hd2] at h; cases h
                · obtain ⟨x, hx⟩ := effect_gives h he
                  rcases h1 with h1 | h1
                  · rw [hx] at h1; cases h1
                  · exact h1 hd1
            · intro hl
              dsimp only at hl ⊢
              cases hwf : ir.writesFlags
              · rw [hfl (.later hir (by rw [hwf]; simp) (hp (live_lt hl)) hl)]
              · obtain ⟨v, hv⟩ := effect_flags hwf (hc ir hmem) he
                rw [hv]; rfl
          cases hctl : e.ctl with
          | next =>
            rw [hctl] at key
            dsimp only [Alike]
            rw [hpc]
            exact main (s.pc + 1) (fun h => key _ rfl h)
          | goto l =>
            rw [hctl] at key
            dsimp only [Alike]
            exact main l (fun h => key _ rfl h)
          | stop b => exact ⟨rfl, hpc, rfl⟩

/-- States that agree on what is live run alike. -/
theorem live_suffices (env : Env W) (f : Func) (hn : NoReturn env) (ht : TargetsMarked f) (hc : ChecksOk f)
    (hres : ResultsOk f) (n : Nat) (s s' : State W) (h : AgreeLive f s s') :
    Alike f (run env f n s) (run env f n s') := by
  induction n generalizing s s' with
  | zero => exact h
  | succ n ih =>
    have := step_alike hn ht hc hres h
    unfold run
    cases h1 : step env f s with
    | none =>
      rw [h1] at this
      cases h2 : step env f s' with
      | none => trivial
      | some r => rw [h2] at this; exact this.elim
    | some r =>
      rw [h1] at this
      cases h2 : step env f s' with
      | none => rw [h2] at this; cases r <;> exact this.elim
      | some r' =>
        rw [h2] at this
        cases r <;> cases r' <;> first | exact this.elim | skip
        · exact ih _ _ this
        · exact this

/-- Two states at the start of a block that agree on the registers and flags reported as live there run
alike, to the same end with the same effects: a register that is not reported may be reused. -/
theorem liveness_enough_partial (env : Env W) (f : Func) (blocks : List Block) (h0 : f.irs ≠ []) (hl : LabelsOk f)
    (ht : TargetsMarked f) (hr : RegsOk f) (ha : AbortEnds f) (hch : ChainsOk f) (hn : NoReturn env) (hc : ChecksOk f)
    (hres : ResultsOk f) (hg : getCfg f = some blocks) (fuel : Nat)
    (hf : blocks.length * (f.nregs + 1) < fuel) :
    ∃ M, liveOut f blocks fuel = some M ∧ ∀ (k : Nat) (b : Block), blocks[k]? = some b →
      ∀ (s s' : State W), s.pc = b.first → s'.pc = b.first → s'.world = s.world →
        (∀ r, liveIn f b (M k) r = true → r < f.nregs → s'.regs r = s.regs r) →
        (liveIn f b (M k) f.nregs = true → s'.flags = s.flags) →
        ∀ n, Alike f (run env f n s) (run env f n s') := by
  obtain ⟨M, h1, h2⟩ := liveness_exact_partial f blocks h0 hl ht hr ha hch hg fuel hf
  refine ⟨M, h1, fun k b hb s s' hp hp' hw hregs hfl n => ?_⟩
  obtain ⟨g1, g2⟩ := h2 k b hb
  have lt : ∀ (r i : Nat), LiveReg f r i → r < f.nregs := by
    intro r i hlv
    induction hlv with
    | use hir h =>
      apply hr _ (List.mem_of_getElem? hir)
      rcases h with h | h | h
      · exact Or.inl h
      · exact Or.inr (Or.inl h)
      · exact Or.inr (Or.inr h.2)
    | later _ _ _ _ ih => exact ih
  apply live_suffices env f hn ht hc hres
  refine ⟨by rw [hp, hp'], hw, ?_, ?_⟩
  · intro r hlv
    rw [hp] at hlv
    have := lt r _ hlv
    exact hregs r ((g1 r this).2 hlv) this
  · intro hlv
    rw [hp] at hlv
    exact hfl (g2.2 hlv)

end

/-! ## tests -/

/-- A loop with a case, an exit that ends the function, and a comparison whose flags are read in
another block. -/
def liveTest : Func :=
  { irs := [
      mk .recv (some 0) (.int 0),                                  -- block 0
      mk .recv (some 1) (.int 1),
      mk .cmp none (.reg 0) (.int 0) .eq,                          -- block 1
      mk .jump none (.label 7) .invalid .t,
      mk .case (some 1) (.int 3) (.label 8),                       -- block 2
      mk .case (some 1) (.int 4) (.label 11),
      mk .exit none (.exit 0),                                     -- block 3
      mk .cset (some 2) .invalid .invalid .none true,              -- block 4
      mk .mov (some 3) (.reg 0) .invalid .none true,               -- block 5
      mk .sub (some 0) (.reg 3) (.int 1),
      mk .jump none (.label 2),
      mk .send none (.int 0) (.reg 2) .none true,                  -- block 6
      mk .ret none],
    nregs := 4 }

/-- As above, with the mark of instruction 2. -/
def liveFunc : Func := { liveTest with irs := liveTest.irs.modify 2 fun ir => { ir with target := true } }

example : (getCfg liveFunc).map (·.map fun b => (b.first, b.last, b.out)) =
    some [(0, 1, [1]), (2, 3, [2, 4]), (4, 5, [3, 5, 6]), (6, 6, []), (7, 7, [5]), (8, 10, [1]), (11, 12, [])] := by
  decide +kernel

example : ((getCfg liveFunc).bind fun B => (liveOut liveFunc B 36).map fun M =>
    B.zipIdx.map fun (b, k) => (List.range 5).filter (liveIn liveFunc b (M k))) =
    some [[2], [0, 1, 2], [0, 1, 2], [], [0, 1, 4], [0, 1, 2], [2]] := by decide +kernel

theorem mem_index {α} {l : List α} {P : Nat → α → Prop} (h : ∀ p ∈ l.zipIdx, P p.2 p.1) (i : Nat) (x : α)
    (hi : l[i]? = some x) : P i x := by
  apply h (x, i)
  rw [List.mem_zipIdx_iff_getElem?]
  exact hi

example : liveFunc.irs ≠ [] ∧ LabelsOk liveFunc ∧ TargetsMarked liveFunc ∧ RegsOk liveFunc ∧ AbortEnds liveFunc ∧
    ChainsOk liveFunc ∧ ChecksOk liveFunc ∧ ResultsOk liveFunc ∧ NoReturn noEnv := by
  refine ⟨by decide +kernel, ?_, ?_, ?_, ?_, ?_, by unfold ChecksOk; decide +kernel, by unfold ResultsOk; decide +kernel, ?_⟩
  · intro ir h
    simp [liveFunc, liveTest] at h
    rcases h with rfl | rfl | rfl | rfl | rfl | rfl | rfl | rfl | rfl | rfl | rfl | rfl | rfl <;>
      simp [mk, liveFunc, liveTest]
  · apply mem_index
    intro p h
    simp [liveFunc, liveTest] at h
    rcases h with rfl | rfl | rfl | rfl | rfl | rfl | rfl | rfl | rfl | rfl | rfl | rfl | rfl <;>
      simp [mk, liveFunc, liveTest]
  · intro ir h
    simp [liveFunc, liveTest] at h
    rcases h with rfl | rfl | rfl | rfl | rfl | rfl | rfl | rfl | rfl | rfl | rfl | rfl | rfl <;>
      simp [mk, liveFunc, liveTest, Val.regOf] <;> omega
  · intro i ir nx h h' hn
    have : i = 6 := by
      apply mem_index (l := liveFunc.irs) (P := fun i ir => ir.willAbort = true → i = 6) (by decide +kernel) i ir h h'
    subst this
    revert hn; simp [liveFunc, liveTest, mk]; rintro rfl; rfl
  · intro i ir h h1 h2
    have := mem_index (l := liveFunc.irs) (P := fun i ir => ir.readsFlags = true → ir.writesFlags = true → False)
      (by decide +kernel) i ir h h1 h2
    exact this.elim
  · intro w e _ w' h
    simp [noEnv] at h

/-- A comparison that combines its result with the flags is taken only for one that writes them: in the
second block they are read, and they are not reported as live. -/
def chainFunc : Func :=
  { irs := [mk .cmp none (.reg 0) (.int 0) .eq, mk .ccmp none (.reg 0) (.int 1) .lt true, mk .cset (some 1),
      mk .send none (.int 0) (.reg 1), mk .ret none], nregs := 2 }

theorem liveness_chain_counterexample :
    ∃ blocks M b, getCfg chainFunc = some blocks ∧ liveOut chainFunc blocks 10 = some M ∧ blocks[1]? = some b ∧
      liveIn chainFunc b (M 1) chainFunc.nregs = false ∧ LiveFlags chainFunc b.first := by
  have hg : getCfg chainFunc = some [⟨0, 0, false, false, [1]⟩, ⟨1, 4, true, false, []⟩] := by decide +kernel
  refine ⟨_, _, _, hg, rfl, rfl, by decide +kernel, ?_⟩
  exact .use (i := 1) rfl rfl

/-- After an exit that ends the function, in the same block, a register is reported that is not live. -/
def abortFunc : Func :=
  { irs := [mk .exit none (.exit 0), mk .send none (.int 0) (.reg 0), mk .ret none], nregs := 1 }

theorem liveness_abort_counterexample :
    ∃ blocks M b, getCfg abortFunc = some blocks ∧ liveOut abortFunc blocks 3 = some M ∧ blocks[0]? = some b ∧
      liveIn abortFunc b (M 0) 0 = true ∧ ¬ LiveReg abortFunc 0 b.first := by
  have hg : getCfg abortFunc = some [⟨0, 2, true, true, []⟩] := by decide +kernel
  refine ⟨_, _, _, hg, rfl, rfl, by decide +kernel, ?_⟩
  intro h
  have hno : ∀ j, ¬ Succ abortFunc 0 j := by
    rintro j ⟨_, ir, hir, h⟩
    simp [abortFunc] at hir
    subst hir
    rcases h with h | ⟨_, h⟩
    · simp [Ir.label, mk] at h
    · simp [Ir.canFall, Ir.willAbort, mk, abortExits] at h
  cases h with
  | use hir h =>
    simp [abortFunc] at hir
    subst hir
    simp [Ir.reads, mk, Val.regOf, Op.readsResult] at h
  | later _ _ hs _ => exact hno _ hs

end Verif.Code
