import Verif.Jit.CfgModel
import Verif.Jit.NopsProps

/-!
# The control flow graph covers every transfer of control

Property C60.
-/

namespace Verif.Code

/-! ## what the blocks look like -/

/-- Position `i` is in the block. -/
def Block.has (b : Block) (i : Nat) : Prop := b.first ≤ i ∧ i ≤ b.last

/-- A block on its own. -/
structure Good (f : Func) (b : Block) : Prop where
  le : b.first ≤ b.last
  lt : b.last < f.irs.length
  returns : b.returns = true ↔ ∃ (j : Nat) (ir : Ir), b.has j ∧ f.irs[j]? = some ir ∧ ir.op = .ret
  aborts : b.aborts = true ↔ ∃ (j : Nat) (ir : Ir), b.has j ∧ f.irs[j]? = some ir ∧ ir.willAbort = true
  target : ∀ (j : Nat) (ir : Ir), b.first < j → j ≤ b.last → f.irs[j]? = some ir → ir.target = false
  inner : ∀ (j : Nat) (ir : Ir), b.first ≤ j → j < b.last → f.irs[j]? = some ir → isTerminator f j ir = false

/-- A block ends where it does because the next instruction is a target or its last one a terminator. -/
def Cut (f : Func) (b : Block) : Prop :=
  ∀ ir nx, f.irs[b.last]? = some ir → f.irs[b.last + 1]? = some nx → nx.target = true ∨ isTerminator f b.last ir = true

/-- The blocks together cover the code without gaps. -/
structure Covers (f : Func) (blocks : List Block) : Prop where
  good : ∀ (k : Nat) (b : Block), blocks[k]? = some b → Good f b
  zero : ∃ b, blocks[0]? = some b ∧ b.first = 0
  next : ∀ (k : Nat) (b c : Block), blocks[k]? = some b → blocks[k + 1]? = some c → c.first = b.last + 1
  ends : ∀ (k : Nat) (b : Block), blocks[k]? = some b → Cut f b
  final : ∀ (k : Nat) (b : Block), blocks[k]? = some b → (k + 1 = blocks.length ↔ b.last + 1 = f.irs.length)

/-- Whether control may go from the end of a block to the next one. -/
def Falls (f : Func) (b : Block) : Prop :=
  ∃ ir, f.irs[b.last]? = some ir ∧
    if isTerminator f b.last ir then ir.mayFall = true else b.returns = false ∧ b.aborts = false

/-! ## the second loop -/

theorem ret_not_abort {ir : Ir} (h : ir.willAbort = true) : ir.op ≠ .ret := by
  intro c
  unfold Ir.willAbort at h
  rw [c] at h
  simp at h

theorem extend_new (f : Func) (i : Nat) (ir : Ir) (h : f.irs[i]? = some ir) :
    Good f (extend (Block.new i) i ir) := by
  have hi := (List.getElem?_eq_some_iff.1 h).1
  constructor
  · simp [extend, Block.new]
  · simpa [extend] using hi
  · simp only [extend, Block.new, Bool.false_or, beq_iff_eq, Block.has]
    constructor
    · intro c; exact ⟨i, ir, by omega, h, c⟩
    · rintro ⟨j, ir', ⟨h1, h2⟩, h3, h4⟩
      have : j = i := by omega
      subst this; rw [h] at h3; cases h3; exact h4
  · simp only [extend, Block.new, Bool.false_or, Block.has]
    constructor
    · intro c
      simp only [Bool.and_eq_true] at c
      exact ⟨i, ir, by omega, h, c.2⟩
    · rintro ⟨j, ir', ⟨h1, h2⟩, h3, h4⟩
      have : j = i := by omega
      subst this; rw [h] at h3; cases h3
      simp [h4, ret_not_abort h4]
  · intro j ir' h1 h2; simp [extend, Block.new] at h1 h2; omega
  · intro j ir' h1 h2; simp [extend, Block.new] at h1 h2; omega

theorem extend_good (f : Func) (cur : Block) (i : Nat) (ir : Ir) (h : f.irs[i]? = some ir)
    (hg : Good f cur) (hl : cur.last + 1 = i) (ht : ir.target = false)
    (hterm : ∀ ir', f.irs[cur.last]? = some ir' → isTerminator f cur.last ir' = false) :
    Good f (extend cur i ir) := by
  have hi := (List.getElem?_eq_some_iff.1 h).1
  have hle := hg.le
  constructor
  · simp only [extend]; omega
  · simpa [extend] using hi
  · simp only [extend, Bool.or_eq_true, beq_iff_eq, Block.has, hg.returns]
    constructor
    · rintro (⟨j, ir', ⟨h1, h2⟩, h3⟩ | c)
      · exact ⟨j, ir', ⟨h1, by omega⟩, h3⟩
      · exact ⟨i, ir, ⟨by omega, by omega⟩, h, c⟩
    · rintro ⟨j, ir', ⟨h1, h2⟩, h3, h4⟩
      by_cases c : j = i
      · subst c; rw [h] at h3; cases h3; exact Or.inr h4
      · exact Or.inl ⟨j, ir', ⟨h1, by omega⟩, h3, h4⟩
  · simp only [extend, Bool.or_eq_true, Bool.and_eq_true, Block.has, hg.aborts]
    constructor
    · rintro (⟨j, ir', ⟨h1, h2⟩, h3⟩ | c)
      · exact ⟨j, ir', ⟨h1, by omega⟩, h3⟩
      · exact ⟨i, ir, ⟨by omega, by omega⟩, h, c.2⟩
    · rintro ⟨j, ir', ⟨h1, h2⟩, h3, h4⟩
      by_cases c : j = i
      · subst c; rw [h] at h3; cases h3; exact Or.inr ⟨by simp [ret_not_abort h4], h4⟩
      · exact Or.inl ⟨j, ir', ⟨h1, by omega⟩, h3, h4⟩
  · intro j ir' h1 h2 h3
    simp only [extend] at h1 h2
    by_cases c : j = i
    · subst c; rw [h] at h3; cases h3; exact ht
    · exact hg.target j ir' h1 (by omega) h3
  · intro j ir' h1 h2 h3
    simp only [extend] at h1 h2
    by_cases c : j = cur.last
    · subst c; exact hterm ir' h3
    · exact hg.inner j ir' h1 (by omega) h3

/-- The rest of the loop after an instruction was added. -/
def addTo (f : Func) (rest : List Ir) (i : Nat) (done : List Block) (cur : Block) (ir : Ir) : List Block :=
  buildBlocks f rest (i + 1) (endIr f done cur i ir).1 (endIr f done cur i ir).2

theorem buildBlocks_cons (f : Func) (ir : Ir) (rest : List Ir) (i : Nat) (done : List Block) (cur : Block) :
    buildBlocks f (ir :: rest) i done cur =
      if splits cur i ir then addTo f rest i (done ++ [leaveBefore done.length cur]) (extend (Block.new i) i ir) ir
      else addTo f rest i done (extend cur i ir) ir := by
  rw [buildBlocks]
  unfold addIr addTo
  split <;> rfl

/-- What the edges of a finished block are before the third loop. -/
def FallOut (f : Func) (k : Nat) (b : Block) : Prop := ∀ c, c ∈ b.out ↔ c = k + 1 ∧ Falls f b

/-- The blocks that are finished, and the first instruction of the current one. -/
structure Done (f : Func) (done : List Block) (first : Nat) : Prop where
  good : ∀ (k : Nat) (b : Block), done[k]? = some b → Good f b ∧ FallOut f k b ∧ Cut f b
  zero : (done = [] ∧ first = 0) ∨ ∃ b, done[0]? = some b ∧ b.first = 0
  next : ∀ (k : Nat) (b c : Block), done[k]? = some b → done[k + 1]? = some c → c.first = b.last + 1
  last : ∀ (b : Block), done[done.length - 1]? = some b → first = b.last + 1

/-- The current block when the instructions below `i` were added. -/
structure Cur (f : Func) (i : Nat) (cur : Block) : Prop where
  out : cur.out = []
  state : (cur = Block.new i ∧ i < f.irs.length) ∨
    (Good f cur ∧ cur.last + 1 = i ∧
      (i < f.irs.length → ∀ ir, f.irs[cur.last]? = some ir → isTerminator f cur.last ir = false))

theorem done_push (f : Func) (done : List Block) (b : Block) (hd : Done f done b.first)
    (hg : Good f b) (ho : FallOut f done.length b) (hcut : Cut f b) : Done f (done ++ [b]) (b.last + 1) := by
  constructor
  · intro k x hx
    rw [List.getElem?_append] at hx
    split at hx
    · exact hd.good k x hx
    · rename_i c
      have : k = done.length := by
        have := (List.getElem?_eq_some_iff.1 hx).1
        simp at this; omega
      subst this
      simp at hx; subst hx
      exact ⟨hg, ho, hcut⟩
  · right
    rcases hd.zero with ⟨h1, h2⟩ | ⟨x, h1, h2⟩
    · subst h1; exact ⟨b, by simp, h2⟩
    · exact ⟨x, by rw [List.getElem?_append_left (List.getElem?_eq_some_iff.1 h1).1]; exact h1, h2⟩
  · intro k x y hx hy
    rw [List.getElem?_append] at hx hy
    split at hy
    · rw [if_pos (by omega)] at hx
      exact hd.next k x y hx hy
    · rename_i c
      have hk : k + 1 = done.length := by
        have := (List.getElem?_eq_some_iff.1 hy).1
        simp at this; omega
      rw [if_pos (by omega)] at hx
      rw [← hk] at hy
      simp at hy; subst hy
      apply hd.last x
      rw [← hk]; exact hx
  · intro x hx
    simp at hx; subst hx; rfl

theorem build_ok (f : Func) (rest : List Ir) (i : Nat) (done : List Block) (cur : Block)
    (hr : rest = f.irs.drop i) (hi : i ≤ f.irs.length) (hd : Done f done cur.first) (hc : Cur f i cur) :
    ∃ front lastb, buildBlocks f rest i done cur = front ++ [lastb] ∧
      Done f front lastb.first ∧ Good f lastb ∧ lastb.out = [] ∧ lastb.last + 1 = f.irs.length := by
  induction rest generalizing i done cur with
  | nil =>
    have hn : f.irs.length ≤ i := by
      have := congrArg List.length hr
      simp at this; omega
    rw [buildBlocks]
    refine ⟨done, cur, rfl, hd, ?_⟩
    rcases hc.state with ⟨_, h⟩ | ⟨h1, h2, _⟩
    · omega
    · exact ⟨h1, hc.out, by omega⟩
  | cons ir rest ih =>
    have hi' : i < f.irs.length := by
      have := congrArg List.length hr
      simp at this; omega
    have hir : f.irs[i]? = some ir := by
      have := congrArg (fun l => l[0]?) hr
      simpa using this.symm
    have hrest : rest = f.irs.drop (i + 1) := by
      have := congrArg List.tail hr
      simpa using this
    -- the part after the instruction was added
    have key : ∀ (done : List Block) (cur : Block), Done f done cur.first → Good f cur → cur.out = [] →
        cur.last = i → ∃ front lastb, addTo f rest i done cur ir = front ++ [lastb] ∧
          Done f front lastb.first ∧ Good f lastb ∧ lastb.out = [] ∧ lastb.last + 1 = f.irs.length := by
      intro done cur hd hg ho hl
      unfold addTo endIr
      split
      · rename_i c
        simp only [Bool.and_eq_true, decide_eq_true_eq] at c
        apply ih (i + 1) _ _ hrest (by omega)
        · have hg' : Good f (leaveAfter done.length cur ir) := by
            unfold leaveAfter; split
            · exact ⟨hg.le, hg.lt, hg.returns, hg.aborts, hg.target, hg.inner⟩
            · exact hg
          have hf : (leaveAfter done.length cur ir).first = cur.first := by unfold leaveAfter; split <;> rfl
          have hl' : (leaveAfter done.length cur ir).last = i := by
            unfold leaveAfter; split
            · exact hl
            · exact hl
          have := done_push f done (leaveAfter done.length cur ir) (hf ▸ hd) hg' (by
            intro x
            unfold Falls
            rw [hl']
            have e : (∃ ir_1, f.irs[i]? = some ir_1 ∧ if isTerminator f i ir_1 = true then ir_1.mayFall = true
                else (leaveAfter done.length cur ir).returns = false ∧ (leaveAfter done.length cur ir).aborts = false)
                ↔ ir.mayFall = true := by
              constructor
              · rintro ⟨ir', h1, h2⟩
                rw [hir] at h1; cases h1
                rwa [if_pos c.1] at h2
              · intro h
                exact ⟨ir, hir, by rw [if_pos c.1]; exact h⟩
            rw [e]
            unfold leaveAfter
            split
            · rename_i c'; simp [Block.addOut, ho, c']
            · rename_i c'; simp [ho, c']) (by
            intro ir' nx h1 h2
            rw [hl'] at h1 ⊢
            rw [hir] at h1; cases h1
            exact Or.inr c.1)
          rw [hl'] at this
          exact this
        · exact ⟨rfl, Or.inl ⟨rfl, by omega⟩⟩
      · rename_i c
        apply ih (i + 1) _ _ hrest (by omega) hd
        refine ⟨ho, Or.inr ⟨hg, by omega, ?_⟩⟩
        intro hlt ir' h'
        rw [hl] at h' ⊢
        rw [hir] at h'; cases h'
        simp only [Bool.and_eq_true, decide_eq_true_eq] at c
        cases hb : isTerminator f i ir
        · rfl
        · exact absurd ⟨hb, hlt⟩ c
    rw [buildBlocks_cons]
    split
    · rename_i c
      simp only [splits, Bool.and_eq_true, decide_eq_true_eq, bne_iff_ne] at c
      obtain ⟨⟨c1, c2⟩, c3⟩ := c
      rcases hc.state with ⟨h, _⟩ | ⟨h1, h2, h3⟩
      · rw [h] at c3; exact absurd rfl c3
      apply key
      · have hg' : Good f (leaveBefore done.length cur) := by
          unfold leaveBefore; split
          · exact ⟨h1.le, h1.lt, h1.returns, h1.aborts, h1.target, h1.inner⟩
          · exact h1
        have hf : (leaveBefore done.length cur).first = cur.first := by unfold leaveBefore; split <;> rfl
        have hl' : (leaveBefore done.length cur).last = cur.last := by unfold leaveBefore; split <;> rfl
        have hre : (leaveBefore done.length cur).returns = cur.returns := by unfold leaveBefore; split <;> rfl
        have hae : (leaveBefore done.length cur).aborts = cur.aborts := by unfold leaveBefore; split <;> rfl
        have := done_push f done (leaveBefore done.length cur) (hf ▸ hd) hg' (by
          intro x
          unfold Falls
          rw [hl', hre, hae]
          have e : (∃ ir_1, f.irs[cur.last]? = some ir_1 ∧ if isTerminator f cur.last ir_1 = true then
              ir_1.mayFall = true else cur.returns = false ∧ cur.aborts = false)
              ↔ cur.returns = false ∧ cur.aborts = false := by
            constructor
            · rintro ⟨ir', g1, g2⟩
              rwa [if_neg (by rw [h3 hi' ir' g1]; simp)] at g2
            · intro h
              have hlt := h1.lt
              refine ⟨f.irs[cur.last], List.getElem?_eq_some_iff.2 ⟨hlt, rfl⟩, ?_⟩
              rw [if_neg (by rw [h3 hi' _ (List.getElem?_eq_some_iff.2 ⟨hlt, rfl⟩)]; simp)]
              exact h
          rw [e]
          unfold leaveBefore
          split
          · rename_i c'; simp at c'; simp [Block.addOut, hc.out, c']
          · rename_i c'; simp at c'; simp [hc.out]; grind) (by
          intro ir' nx g1 g2
          rw [hl', h2] at g2
          rw [hir] at g2; cases g2
          exact Or.inl c1)
        rw [hl', h2] at this
        exact this
      · exact extend_new f i ir hir
      · rfl
      · rfl
    · rename_i c
      apply key
      · exact hd
      · rcases hc.state with ⟨h, _⟩ | ⟨h1, h2, h3⟩
        · rw [h]; exact extend_new f i ir hir
        · apply extend_good f cur i ir hir h1 h2 _ (h3 hi')
          cases ht : ir.target
          · rfl
          · exfalso
            apply c
            have := h1.le
            simp only [splits, ht, Bool.true_and, Bool.and_eq_true, decide_eq_true_eq, bne_iff_ne]
            omega
      · exact hc.out
      · rfl

/-- The blocks of a function, before the third loop. -/
def blocksOf (f : Func) : List Block := buildBlocks f f.irs 0 [] (Block.new 0)

theorem blocks_covers (f : Func) (h : f.irs ≠ []) : Covers f (blocksOf f) ∧
    ∀ (k : Nat) (b : Block), (blocksOf f)[k]? = some b → ∀ c, c ∈ b.out ↔
      c = k + 1 ∧ Falls f b ∧ k + 1 < (blocksOf f).length := by
  have hlen : 0 < f.irs.length := List.length_pos_iff.2 h
  obtain ⟨front, lastb, e, hd, hg, ho, hl⟩ := build_ok f f.irs 0 [] (Block.new 0) rfl (by omega)
    ⟨by simp, Or.inl ⟨rfl, rfl⟩, by simp, by simp⟩ ⟨rfl, Or.inl ⟨rfl, hlen⟩⟩
  have get : ∀ (k : Nat) (b : Block), (front ++ [lastb])[k]? = some b →
      front[k]? = some b ∨ (k = front.length ∧ b = lastb) := by
    intro k b hb
    rw [List.getElem?_append] at hb
    split at hb
    · exact Or.inl hb
    · have := (List.getElem?_eq_some_iff.1 hb).1
      simp at this
      have hk : k = front.length := by omega
      subst hk; simp at hb
      exact Or.inr ⟨rfl, hb.symm⟩
  -- blocks before the last end before the end
  have hlt : ∀ (d k : Nat) (b : Block), k + d + 1 = front.length → front[k]? = some b → b.last + 1 ≤ lastb.first := by
    intro d
    induction d with
    | zero =>
      intro k b hk hb
      have := hd.last b (by rw [← hk]; simpa using hb)
      omega
    | succ d ih =>
      intro k b hk hb
      obtain ⟨c, hc⟩ : ∃ c, front[k + 1]? = some c := ⟨front[k + 1], List.getElem?_eq_some_iff.2 ⟨by omega, rfl⟩⟩
      have h1 := hd.next k b c hb hc
      have h2 := ih (k + 1) c (by omega) hc
      have h3 := (hd.good _ _ hc).1.le
      omega
  unfold blocksOf
  rw [e]
  refine ⟨⟨?_, ?_, ?_, ?_, ?_⟩, ?_⟩
  · intro k b hb
    rcases get k b hb with h | ⟨_, h⟩
    · exact (hd.good k b h).1
    · rw [h]; exact hg
  · rcases hd.zero with ⟨h1, h2⟩ | ⟨x, h1, h2⟩
    · subst h1; exact ⟨lastb, by simp, h2⟩
    · exact ⟨x, by rw [List.getElem?_append_left (List.getElem?_eq_some_iff.1 h1).1]; exact h1, h2⟩
  · intro k b c hb hc
    rcases get _ _ hc with h | ⟨h1, h2⟩
    · rcases get _ _ hb with h' | ⟨h1', _⟩
      · exact hd.next k b c h' h
      · have := (List.getElem?_eq_some_iff.1 h).1; omega
    · rcases get _ _ hb with h' | ⟨h1', _⟩
      · rw [h2]; apply hd.last; rw [← h1]; exact h'
      · omega
  · intro k b hb
    rcases get k b hb with h | ⟨_, h⟩
    · exact (hd.good k b h).2.2
    · intro ir nx _ h2
      rw [h, hl] at h2
      have := (List.getElem?_eq_some_iff.1 h2).1
      omega
  · intro k b hb
    simp only [List.length_append, List.length_cons, List.length_nil]
    rcases get k b hb with h | ⟨h1, h2⟩
    · have hk := (List.getElem?_eq_some_iff.1 h).1
      have := hlt (front.length - k - 1) k b (by omega) h
      have h3 := hg.le
      constructor
      · intro c; omega
      · intro c; omega
    · subst h2; constructor
      · intro _; exact hl
      · intro _; omega
  · intro k b hb c
    simp only [List.length_append, List.length_cons, List.length_nil]
    rcases get k b hb with h | ⟨h1, h2⟩
    · have hk := (List.getElem?_eq_some_iff.1 h).1
      rw [(hd.good k b h).2.1 c]
      constructor
      · rintro ⟨a, b⟩; exact ⟨a, b, by omega⟩
      · rintro ⟨a, b, _⟩; exact ⟨a, b⟩
    · subst h2; rw [ho]; simp; omega

/-! ## the count of blocks -/

theorem count_build (f : Func) (rest : List Ir) (i : Nat) (done : List Block) (cur : Block) :
    countBlocks f rest i cur.first (done.length + 1) = (buildBlocks f rest i done cur).length := by
  induction rest generalizing i done cur with
  | nil => simp [countBlocks, buildBlocks]
  | cons ir rest ih =>
    have key : ∀ (done : List Block) (cur : Block),
        (if isTerminator f i ir && decide (i + 1 < f.irs.length) then
          countBlocks f rest (i + 1) (i + 1) (done.length + 1 + 1)
        else countBlocks f rest (i + 1) cur.first (done.length + 1)) =
        (addTo f rest i done cur ir).length := by
      intro done cur
      unfold addTo endIr
      split
      · rw [← ih]; simp [Block.new]
      · rw [← ih]
    rw [countBlocks, buildBlocks_cons]
    unfold splits
    by_cases c : (ir.target && decide (0 < i) && cur.first != i) = true
    · rw [if_pos c, if_pos c, ← key]
      simp only [List.length_append, List.length_cons, List.length_nil, extend, Block.new]
      by_cases c' : (isTerminator f i ir && decide (i + 1 < f.irs.length)) = true
      · rw [if_pos c', if_pos c']
      · rw [if_neg c', if_neg c']
    · rw [if_neg c, if_neg c, ← key]
      simp only [extend]
      by_cases c' : (isTerminator f i ir && decide (i + 1 < f.irs.length)) = true
      · rw [if_pos c', if_pos c']
      · rw [if_neg c', if_neg c']

/-! ## finding the block -/

theorem covers_mono {f : Func} {blocks : List Block} (h : Covers f blocks) (d k : Nat) (b c : Block)
    (hb : blocks[k]? = some b) (hc : blocks[k + d + 1]? = some c) : b.last < c.first := by
  induction d generalizing c with
  | zero => have := h.next k b c hb hc; omega
  | succ d ih =>
    obtain ⟨e, he⟩ : ∃ e, blocks[k + d + 1]? = some e := by
      have := (List.getElem?_eq_some_iff.1 hc).1
      exact ⟨blocks[k + d + 1], List.getElem?_eq_some_iff.2 ⟨by omega, rfl⟩⟩
    have h1 := ih e he
    have h2 := h.next (k + d + 1) e c he hc
    have h3 := (h.good _ _ he).le
    omega

theorem covers_lt {f : Func} {blocks : List Block} (h : Covers f blocks) {k l : Nat} {b c : Block}
    (hb : blocks[k]? = some b) (hc : blocks[l]? = some c) (hkl : k < l) : b.last < c.first := by
  apply covers_mono h (l - k - 1) k b c hb
  rw [show k + (l - k - 1) + 1 = l by omega]; exact hc

theorem covers_unique {f : Func} {blocks : List Block} (h : Covers f blocks) {k l i : Nat} {b c : Block}
    (hb : blocks[k]? = some b) (hc : blocks[l]? = some c) (h1 : b.has i) (h2 : c.has i) : k = l := by
  unfold Block.has at h1 h2
  rcases Nat.lt_trichotomy k l with c | c | c
  · have := covers_lt h hb hc c; omega
  · exact c
  · have := covers_lt h hc hb c; omega

theorem covers_exists {f : Func} {blocks : List Block} (h : Covers f blocks) (i : Nat) (hi : i < f.irs.length) :
    ∃ (k : Nat) (b : Block), blocks[k]? = some b ∧ b.has i := by
  induction i with
  | zero =>
    obtain ⟨b, h1, h2⟩ := h.zero
    exact ⟨0, b, h1, by unfold Block.has; omega⟩
  | succ i ih =>
    obtain ⟨k, b, h1, h2⟩ := ih (by omega)
    unfold Block.has at h2
    by_cases c : i + 1 ≤ b.last
    · exact ⟨k, b, h1, by unfold Block.has; omega⟩
    · have hf := h.final k b h1
      have hk := (List.getElem?_eq_some_iff.1 h1).1
      obtain ⟨e, he⟩ : ∃ e, blocks[k + 1]? = some e :=
        ⟨blocks[k + 1]'(by omega), List.getElem?_eq_some_iff.2 ⟨by omega, rfl⟩⟩
      refine ⟨k + 1, e, he, ?_⟩
      have := h.next k b e h1 he
      have := (h.good _ _ he).le
      unfold Block.has; omega

theorem blockLoop_ok {f : Func} {blocks : List Block} (h : Covers f blocks) {k i : Nat} {b : Block}
    (hb : blocks[k]? = some b) (hi : b.has i) (n low high : Nat) (hn : high - low ≤ n)
    (h1 : low ≤ k) (h2 : k < high) (h3 : high ≤ blocks.length) : blockLoop blocks i n low high = some k := by
  induction n generalizing low high with
  | zero => omega
  | succ n ih =>
    rw [blockLoop]
    rw [if_pos (by omega)]
    have hm : (low + (high - 1)) / 2 < blocks.length := by omega
    have hml : low ≤ (low + (high - 1)) / 2 := by omega
    have hmh : (low + (high - 1)) / 2 < high := by omega
    dsimp only
    generalize (low + (high - 1)) / 2 = mid at *
    have hmid : blocks[mid]? = some blocks[mid] := List.getElem?_eq_some_iff.2 ⟨hm, rfl⟩
    rw [hmid]
    dsimp only
    unfold Block.has at hi
    have hle := (h.good _ _ hmid).le
    split
    · rename_i c
      have : mid < k := by
        rcases Nat.lt_trichotomy mid k with c' | c' | c'
        · exact c'
        · subst c'; rw [hmid] at hb; cases hb; omega
        · have := covers_lt h hb hmid c'; omega
      exact ih (mid + 1) high (by omega) (by omega) h2 h3
    · split
      · have : k < mid := by
          rcases Nat.lt_trichotomy mid k with c' | c' | c'
          · have := covers_lt h hmid hb c'; omega
          · subst c'; rw [hmid] at hb; cases hb; omega
          · exact c'
        exact ih low mid (by omega) h1 (by omega) (by omega)
      · rw [covers_unique h hmid hb (i := i) ⟨by omega, by omega⟩ hi]

/-- The binary search finds the block with the instruction. -/
theorem blockFor_ok {f : Func} {blocks : List Block} (h : Covers f blocks) (i : Nat) (hi : i < f.irs.length)
    (k : Nat) : blockFor blocks i = some k ↔ ∃ b, blocks[k]? = some b ∧ b.has i := by
  obtain ⟨l, c, hc, hic⟩ := covers_exists h i hi
  have := blockLoop_ok h hc hic blocks.length 0 blocks.length (by omega) (by omega) (List.getElem?_eq_some_iff.1 hc).1 (by omega)
  unfold blockFor
  rw [this]
  constructor
  · intro e; cases e; exact ⟨c, hc, hic⟩
  · rintro ⟨b, hb, hib⟩
    rw [covers_unique h hb hc hib hic]

/-! ## the third loop -/

theorem modify_get (blocks : List Block) (a c k : Nat) (b : Block) :
    (blocks.modify a (·.addOut c))[k]? = some b ↔
      ∃ b', blocks[k]? = some b' ∧ b = if a = k then b'.addOut c else b' := by
  rw [List.getElem?_modify]
  cases blocks[k]? with
  | none => simp
  | some x =>
    simp only [Option.map_some, Option.some.injEq, exists_eq_left', Option.map_eq_map]
    exact ⟨fun h => h.symm, fun h => h.symm⟩

theorem covers_modify {f : Func} {blocks : List Block} (h : Covers f blocks) (a c : Nat) :
    Covers f (blocks.modify a (·.addOut c)) := by
  have hg : ∀ b : Block, Good f b → Good f (b.addOut c) := fun b g =>
    ⟨g.le, g.lt, g.returns, g.aborts, g.target, g.inner⟩
  have hf : ∀ (k : Nat) (b : Block), (if a = k then b.addOut c else b).first = b.first := by
    intro k b; split <;> rfl
  have hl : ∀ (k : Nat) (b : Block), (if a = k then b.addOut c else b).last = b.last := by
    intro k b; split <;> rfl
  constructor
  · intro k b hb
    obtain ⟨b', h1, rfl⟩ := (modify_get _ _ _ _ _).1 hb
    split
    · exact hg _ (h.good k b' h1)
    · exact h.good k b' h1
  · obtain ⟨b, h1, h2⟩ := h.zero
    exact ⟨_, (modify_get _ _ _ _ _).2 ⟨b, h1, rfl⟩, by rw [hf]; exact h2⟩
  · intro k b d hb hd
    obtain ⟨b', h1, rfl⟩ := (modify_get _ _ _ _ _).1 hb
    obtain ⟨d', h2, rfl⟩ := (modify_get _ _ _ _ _).1 hd
    rw [hf, hl]; exact h.next k b' d' h1 h2
  · intro k b hb
    obtain ⟨b', h1, rfl⟩ := (modify_get _ _ _ _ _).1 hb
    unfold Cut
    rw [hl]; exact h.ends k b' h1
  · intro k b hb
    obtain ⟨b', h1, rfl⟩ := (modify_get _ _ _ _ _).1 hb
    rw [hl, List.length_modify]; exact h.final k b' h1

/-- An instruction in block `k` has a label in block `c`. -/
def LabelEdge (f : Func) (blocks : List Block) (lo hi : Nat) (k c : Nat) : Prop :=
  ∃ (i l : Nat) (ir : Ir) (b d : Block), lo ≤ i ∧ i < hi ∧ f.irs[i]? = some ir ∧ ir.label = some l ∧
    blocks[k]? = some b ∧ b.has i ∧ blocks[c]? = some d ∧ d.has l

/-- The same blocks but for the edges. -/
def SameBlocks (A B : List Block) : Prop :=
  ∀ k : Nat, A[k]?.map (fun b => { b with out := [] : Block }) = B[k]?.map (fun b => { b with out := [] : Block })

theorem same_has {A B : List Block} (h : SameBlocks A B) (k i : Nat) :
    (∃ b, A[k]? = some b ∧ b.has i) ↔ ∃ b, B[k]? = some b ∧ b.has i := by
  have := h k
  cases hA : A[k]? <;> cases hB : B[k]? <;> rw [hA, hB] at this <;> simp at this ⊢
  simp [Block.has, this.1, this.2.1]

theorem same_label {A B : List Block} (f : Func) (h : SameBlocks A B) (lo hi k c : Nat) :
    LabelEdge f A lo hi k c ↔ LabelEdge f B lo hi k c := by
  unfold LabelEdge
  constructor
  · rintro ⟨i, l, ir, b, d, h1, h2, h3, h4, h5, h6, h7, h8⟩
    obtain ⟨b', g1, g2⟩ := (same_has h k i).1 ⟨b, h5, h6⟩
    obtain ⟨d', g3, g4⟩ := (same_has h c l).1 ⟨d, h7, h8⟩
    exact ⟨i, l, ir, b', d', h1, h2, h3, h4, g1, g2, g3, g4⟩
  · rintro ⟨i, l, ir, b, d, h1, h2, h3, h4, h5, h6, h7, h8⟩
    obtain ⟨b', g1, g2⟩ := (same_has h k i).2 ⟨b, h5, h6⟩
    obtain ⟨d', g3, g4⟩ := (same_has h c l).2 ⟨d, h7, h8⟩
    exact ⟨i, l, ir, b', d', h1, h2, h3, h4, g1, g2, g3, g4⟩

theorem same_modify (blocks : List Block) (a c : Nat) : SameBlocks (blocks.modify a (·.addOut c)) blocks := by
  intro k
  rw [List.getElem?_modify]
  cases blocks[k]? with
  | none => rfl
  | some b => simp only [Option.map_some, Option.map_eq_map]; split <;> rfl

theorem label_lt {f : Func} (h : LabelsOk f) {i l : Nat} {ir : Ir} (hi : f.irs[i]? = some ir)
    (hl : ir.label = some l) : l < f.irs.length := by
  have := h ir (List.mem_of_getElem? hi)
  unfold Ir.label at hl
  split at hl
  · rename_i h1 h2; cases hl; exact (this.1 _ h2).2
  · rename_i h1 h2; cases hl; exact (this.2.1 _ h2).2
  · cases hl

theorem edges_ok (f : Func) (hl : LabelsOk f) (rest : List Ir) (i : Nat) (blocks : List Block)
    (hr : rest = f.irs.drop i) (hc : Covers f blocks) :
    ∃ blocks', addEdges rest i blocks = some blocks' ∧ Covers f blocks' ∧ SameBlocks blocks' blocks ∧
      blocks'.length = blocks.length ∧
      ∀ (k : Nat) (b b' : Block), blocks[k]? = some b → blocks'[k]? = some b' →
        ∀ c, c ∈ b'.out ↔ c ∈ b.out ∨ LabelEdge f blocks i f.irs.length k c := by
  induction rest generalizing i blocks with
  | nil =>
    have hn : f.irs.length ≤ i := by
      have := congrArg List.length hr
      simp at this; omega
    refine ⟨blocks, rfl, hc, fun _ => rfl, rfl, ?_⟩
    intro k b b' h1 h2 c
    rw [h1] at h2; cases h2
    constructor
    · exact Or.inl
    · rintro (h | ⟨j, _, _, _, _, g1, g2, _⟩)
      · exact h
      · omega
  | cons ir rest ih =>
    have hi' : i < f.irs.length := by
      have := congrArg List.length hr
      simp at this; omega
    have hir : f.irs[i]? = some ir := by
      have := congrArg (fun l => l[0]?) hr
      simpa using this.symm
    have hrest : rest = f.irs.drop (i + 1) := by
      have := congrArg List.tail hr
      simpa using this
    rw [addEdges]
    cases hlab : ir.label with
    | none =>
      have e : addEdge blocks i ir = some blocks := by unfold addEdge; rw [hlab]
      rw [e, Option.bind_some]
      obtain ⟨B, h1, h2, h3, h4, h5⟩ := ih (i + 1) blocks hrest hc
      refine ⟨B, h1, h2, h3, h4, ?_⟩
      intro k b b' g1 g2 c
      rw [h5 k b b' g1 g2 c]
      apply or_congr Iff.rfl
      constructor
      · rintro ⟨j, l, x, y, z, q1, q2⟩; exact ⟨j, l, x, y, z, by omega, q2⟩
      · rintro ⟨j, l, x, y, z, q1, q2, q3, q4, q5⟩
        refine ⟨j, l, x, y, z, ?_, q2, q3, q4, q5⟩
        rcases Nat.lt_or_ge i j with c' | c'
        · omega
        · have : j = i := by omega
          subst this; rw [hir] at q3; cases q3; rw [hlab] at q4; cases q4
    | some l =>
      have hll := label_lt hl hir hlab
      obtain ⟨a, ba, ha, hai⟩ := covers_exists hc i hi'
      obtain ⟨d, bd, hd, hdl⟩ := covers_exists hc l hll
      have e : addEdge blocks i ir = some (blocks.modify a (·.addOut d)) := by
        unfold addEdge
        rw [hlab]
        dsimp only
        rw [(blockFor_ok hc i hi' a).2 ⟨ba, ha, hai⟩, (blockFor_ok hc l hll d).2 ⟨bd, hd, hdl⟩]
      rw [e, Option.bind_some]
      obtain ⟨B, h1, h2, h3, h4, h5⟩ := ih (i + 1) _ hrest (covers_modify hc a d)
      have hsame := same_modify blocks a d
      refine ⟨B, h1, h2, fun k => (h3 k).trans (hsame k), by rw [h4, List.length_modify], ?_⟩
      intro k b b' g1 g2 c
      rw [h5 k _ b' ((modify_get _ _ _ _ _).2 ⟨b, g1, rfl⟩) g2 c, same_label f hsame]
      have e2 : c ∈ (if a = k then b.addOut d else b).out ↔ c ∈ b.out ∨ (a = k ∧ c = d) := by
        split
        · rename_i c'; simp [Block.addOut, c']
        · rename_i c'; simp [c']
      rw [e2, or_assoc]
      apply or_congr Iff.rfl
      constructor
      · rintro (⟨rfl, rfl⟩ | ⟨j, l', x, y, z, q1, q2⟩)
        · exact ⟨i, l, ir, ba, bd, by omega, hi', hir, hlab, ha, hai, hd, hdl⟩
        · exact ⟨j, l', x, y, z, by omega, q2⟩
      · rintro ⟨j, l', x, y, z, q1, q2, q3, q4, q5, q6, q7, q8⟩
        rcases Nat.lt_or_ge i j with c' | c'
        · exact Or.inr ⟨j, l', x, y, z, by omega, q2, q3, q4, q5, q6, q7, q8⟩
        · have : j = i := by omega
          subst this; rw [hir] at q3; cases q3
          rw [hlab] at q4; cases q4
          exact Or.inl ⟨covers_unique hc ha q5 hai q6, covers_unique hc q7 hd q8 hdl⟩

/-- The graph: blocks that cover the code, and the edges out of each. -/
theorem cfg_ok (f : Func) (h : f.irs ≠ []) (hl : LabelsOk f) :
    ∃ blocks, getCfg f = some blocks ∧ Covers f blocks ∧
      blocks.length = countBlocks f f.irs 0 0 1 ∧
      ∀ (k : Nat) (b : Block), blocks[k]? = some b → ∀ c, c ∈ b.out ↔
        (c = k + 1 ∧ Falls f b ∧ k + 1 < blocks.length) ∨ LabelEdge f blocks 0 f.irs.length k c := by
  obtain ⟨h1, h2⟩ := blocks_covers f h
  obtain ⟨B, g1, g2, g3, g4, g5⟩ := edges_ok f hl f.irs 0 (blocksOf f) rfl h1
  refine ⟨B, g1, g2, ?_, ?_⟩
  · rw [g4]
    exact (count_build f f.irs 0 [] (Block.new 0)).symm
  · intro k b hb c
    have hk := (List.getElem?_eq_some_iff.1 hb).1
    have hb0 : (blocksOf f)[k]? = some ((blocksOf f)[k]'(by omega)) := List.getElem?_eq_some_iff.2 ⟨by omega, rfl⟩
    rw [g5 k _ b hb0 hb c, h2 k _ hb0 c, g4, same_label f g3]
    apply or_congr _ Iff.rfl
    have := g3 k
    rw [hb, hb0] at this
    simp at this
    unfold Falls
    rw [this.2.1, this.2.2.1, this.2.2.2]

/-! ## transfers of control -/

/-- Whether control may go from the instruction to the one after it. -/
def Ir.canFall (ir : Ir) : Bool :=
  match ir.op with
  | .jump => ir.cc != .none
  | .ret | .reexec => false
  | _ => !ir.willAbort

/-- Control may go from instruction `i` to instruction `j`. -/
def Succ (f : Func) (i j : Nat) : Prop :=
  j < f.irs.length ∧ ∃ ir, f.irs[i]? = some ir ∧ (ir.label = some j ∨ (j = i + 1 ∧ ir.canFall = true))

/-- The exits that are taken not to return do not. -/
def NoReturn {W : Type} (env : Env W) : Prop :=
  ∀ w e, e ∈ abortExits → ∀ w', env.exit w (BitVec.ofNat 64 e) ≠ some (true, w')

/-- No instruction of the block before `i` ends the function. -/
def Clean (f : Func) (blocks : List Block) (i : Nat) : Prop :=
  ∀ (k : Nat) (b : Block), blocks[k]? = some b → b.has i → ∀ (j : Nat) (ir : Ir), b.first ≤ j → j < i →
    f.irs[j]? = some ir → ir.willAbort = false

/-- Whatever an instruction does next, the relation knows it. -/
theorem step_succ {W : Type} {env : Env W} {f : Func} (hn : NoReturn env) (ht : TargetsMarked f) {s s' : State W}
    (h : step env f s = some (.next s')) (hlt : s'.pc < f.irs.length) : Succ f s.pc s'.pc := by
  unfold step at h
  rw [Option.bind_eq_some_iff] at h
  obtain ⟨ir, hir, h⟩ := h
  unfold execIr at h
  rw [Option.bind_eq_some_iff] at h
  obtain ⟨old, hold, h⟩ := h
  rw [Option.bind_eq_some_iff] at h
  obtain ⟨e, he, h⟩ := h
  unfold apply at h
  rw [Option.map_eq_some_iff] at h
  obtain ⟨regs, hregs, h⟩ := h
  refine ⟨hlt, ir, hir, ?_⟩
  obtain ⟨t1, t2⟩ := ht s.pc ir hir
  cases hctl : e.ctl with
  | stop r => rw [hctl] at h; simp at h
  | goto l =>
    rw [hctl] at h
    simp only [Res.next.injEq] at h
    subst h
    left
    rcases effect_goto he hctl with ⟨ho, hl⟩ | ⟨ho, hl⟩
    · obtain ⟨l', ha, hb, _⟩ := t1 ho
      rw [ha] at hl
      simp only [eval, BitVec.toNat_ofNat] at hl
      have : l = l' := by rw [hl]; omega
      subst this
      simp [Ir.label, ho, ha]
    · obtain ⟨l', ha, hb, _⟩ := t2 ho
      rw [ha] at hl
      simp only [eval, BitVec.toNat_ofNat] at hl
      have : l = l' := by rw [hl]; omega
      subst this
      simp [Ir.label, ho, ha]
  | next =>
    rw [hctl] at h
    simp only [Res.next.injEq] at h
    subst h
    right
    refine ⟨rfl, ?_⟩
    cases hop : ir.op
    case jump =>
      simp only [Ir.canFall, hop]
      rw [hop] at he
      cases hcc : ir.cc with
      | none =>
        rw [hcc] at he
        simp only [effect, jumpTo, Option.some.injEq] at he
        subst he; simp at hctl
      | _ => decide
    case ret => rw [hop] at he; simp [effect] at he; subst he; simp at hctl
    case reexec =>
      rw [hop] at he; simp only [effect, Option.map_eq_some_iff] at he
      obtain ⟨w, _, rfl⟩ := he; simp at hctl
    case trap => rw [hop] at he; simp [effect] at he
    case exit =>
      simp only [Ir.canFall, hop, Ir.willAbort]
      split
      · rename_i e' _ ha
        rw [hop, ha] at he
        simp only [effect, eval, Option.map_eq_some_iff] at he
        obtain ⟨⟨r, w'⟩, h1, rfl⟩ := he
        cases r
        · simp at hctl
        · cases hc : abortExits.contains e'
          · rfl
          · exact absurd h1 (hn s.world e' (by simpa using hc) w')
      · rename_i c; cases c
      · rfl
    all_goals simp [Ir.canFall, hop, Ir.willAbort]

/-- A label is the first instruction of its block. -/
theorem label_first {f : Func} {blocks : List Block} (hc : Covers f blocks) (ht : TargetsMarked f)
    {i l : Nat} {ir : Ir} (hi : f.irs[i]? = some ir) (hl : ir.label = some l) {c : Nat} {d : Block}
    (hd : blocks[c]? = some d) (hdl : d.has l) : d.first = l := by
  obtain ⟨t1, t2⟩ := ht i ir hi
  have htar : ∀ t, f.irs[l]? = some t → t.target = true := by
    unfold Ir.label at hl
    split at hl
    · rename_i h1 h2
      obtain ⟨l', ha, _, h⟩ := t1 h1
      rw [h2] at ha; cases ha; cases hl; exact h
    · rename_i h1 h2
      obtain ⟨l', ha, _, h⟩ := t2 h1
      rw [h2] at ha; cases ha; cases hl; exact h
    · cases hl
  have hg := hc.good c d hd
  unfold Block.has at hdl
  rcases Nat.lt_or_ge d.first l with c' | c'
  · have hlt : l < f.irs.length := by have := hg.lt; omega
    have h1 := hg.target l f.irs[l] c' hdl.2 (List.getElem?_eq_some_iff.2 ⟨hlt, rfl⟩)
    rw [htar _ (List.getElem?_eq_some_iff.2 ⟨hlt, rfl⟩)] at h1
    cases h1
  · omega

/-- What is known about the edges out of each block. -/
def EdgesOk (f : Func) (blocks : List Block) : Prop :=
  ∀ (k : Nat) (b : Block), blocks[k]? = some b → ∀ c, c ∈ b.out ↔
    (c = k + 1 ∧ Falls f b ∧ k + 1 < blocks.length) ∨ LabelEdge f blocks 0 f.irs.length k c

/-- Control goes to the next instruction of the block, or along an edge to the first of another. -/
theorem succ_edge {f : Func} {blocks : List Block} (hc : Covers f blocks) (he : EdgesOk f blocks)
    (hl : LabelsOk f) (ht : TargetsMarked f) {i j k : Nat} {b : Block} (hs : Succ f i j) (hcl : Clean f blocks i)
    (hb : blocks[k]? = some b) (hbi : b.has i) :
    (j = i + 1 ∧ b.has j) ∨ ∃ c d, c ∈ b.out ∧ blocks[c]? = some d ∧ d.first = j := by
  obtain ⟨hj, ir, hir, h⟩ := hs
  have hg := hc.good k b hb
  rcases h with h | ⟨rfl, hf⟩
  · right
    obtain ⟨c, d, hd, hdl⟩ := covers_exists hc j hj
    refine ⟨c, d, (he k b hb c).2 (Or.inr ?_), hd, label_first hc ht hir h hd hdl⟩
    exact ⟨i, j, ir, b, d, by omega, (List.getElem?_eq_some_iff.1 hir).1, hir, h, hb, hbi, hd, hdl⟩
  · unfold Block.has at hbi
    by_cases c : i + 1 ≤ b.last
    · exact Or.inl ⟨rfl, by unfold Block.has; omega⟩
    · right
      have hil : i = b.last := by omega
      have hk := (List.getElem?_eq_some_iff.1 hb).1
      have hfin := hc.final k b hb
      have hk1 : k + 1 < blocks.length := by omega
      have hd : blocks[k + 1]? = some blocks[k + 1] := List.getElem?_eq_some_iff.2 ⟨hk1, rfl⟩
      refine ⟨k + 1, blocks[k + 1], (he k b hb _).2 (Or.inl ⟨rfl, ⟨ir, hil ▸ hir, ?_⟩, hk1⟩), hd, ?_⟩
      · rw [← hil]
        split
        · rename_i hterm
          unfold isTerminator at hterm
          unfold Ir.mayFall
          unfold Ir.canFall at hf
          cases hop : ir.op <;> rw [hop] at hterm hf <;> simp at hterm hf ⊢
          exact hf
        · rename_i hterm
          constructor
          · cases hr : b.returns
            · rfl
            · exfalso
              obtain ⟨q, irq, hq, h1, h2⟩ := hg.returns.1 hr
              unfold Block.has at hq
              have htm : isTerminator f q irq = true := by unfold isTerminator; rw [h2]
              rcases Nat.lt_or_ge q b.last with c' | c'
              · rw [hg.inner q irq hq.1 c' h1] at htm; cases htm
              · have : q = i := by omega
                subst this; rw [hir] at h1; cases h1; exact hterm htm
          · cases hr : b.aborts
            · rfl
            · exfalso
              obtain ⟨q, irq, hq, h1, h2⟩ := hg.aborts.1 hr
              unfold Block.has at hq
              rcases Nat.lt_or_ge q i with c' | c'
              · rw [hcl k b hb ⟨by omega, by omega⟩ q irq hq.1 c' h1] at h2; cases h2
              · have : q = i := by omega
                subst this; rw [hir] at h1; cases h1
                unfold Ir.canFall at hf
                cases hop : ir.op <;> rw [hop] at hf <;> simp at hf <;>
                  first | (rw [h2] at hf; cases hf) | skip
                unfold Ir.willAbort at h2; rw [hop] at h2; simp at h2
      · rw [hc.next k b _ hb hd, hil]

/-- Every edge is taken by an instruction of the block. -/
theorem edge_succ {f : Func} {blocks : List Block} (hc : Covers f blocks) (he : EdgesOk f blocks)
    (hl : LabelsOk f) (ht : TargetsMarked f) {c k : Nat} {b : Block} (hb : blocks[k]? = some b) (ho : c ∈ b.out) :
    ∃ (i : Nat) (d : Block), b.has i ∧ blocks[c]? = some d ∧ Succ f i d.first := by
  have hg := hc.good k b hb
  have hle := hg.le
  rcases (he k b hb c).1 ho with ⟨rfl, ⟨ir, hir, hf⟩, hk1⟩ | ⟨i, l, ir, b', d, _, _, h3, h4, h5, h6, h7, h8⟩
  · have hd : blocks[k + 1]? = some blocks[k + 1] := List.getElem?_eq_some_iff.2 ⟨hk1, rfl⟩
    have hn := hc.next k b _ hb hd
    refine ⟨b.last, blocks[k + 1], ⟨hle, Nat.le_refl _⟩, hd, ?_, ir, hir, Or.inr ⟨hn, ?_⟩⟩
    · have h1 := (hc.good _ _ hd).le
      have h2 := (hc.good _ _ hd).lt
      omega
    · unfold Ir.canFall
      split at hf
      · rename_i hterm
        unfold isTerminator at hterm
        unfold Ir.mayFall at hf
        cases hop : ir.op <;> rw [hop] at hterm hf <;> simp at hterm hf ⊢
        · exact hf
        · unfold Ir.willAbort; rw [hop]
      · rename_i hterm
        have hna : ir.willAbort = false := by
          cases ha : ir.willAbort
          · rfl
          · have := hg.aborts.2 ⟨b.last, ir, ⟨hle, Nat.le_refl _⟩, hir, ha⟩
            rw [hf.2] at this; cases this
        unfold isTerminator at hterm
        cases hop : ir.op <;> rw [hop] at hterm <;> simp at hterm ⊢ <;> exact hna
  · rw [hb] at h5; cases h5
    refine ⟨i, d, h6, h7, ?_, ir, h3, Or.inl ?_⟩
    · rw [label_first hc ht h3 h4 h7 h8]; exact label_lt hl h3 h4
    · rw [label_first hc ht h3 h4 h7 h8]; exact h4

/-- The start of a block is clean. -/
theorem clean_first {f : Func} {blocks : List Block} (hc : Covers f blocks) {k : Nat} {b : Block}
    (hb : blocks[k]? = some b) : Clean f blocks b.first := by
  intro k' b' hb' hbi j ir h1 h2
  have hg := hc.good k b hb
  have := covers_unique hc hb' hb hbi ⟨Nat.le_refl _, hg.le⟩
  subst this; rw [hb] at hb'; cases hb'; omega

theorem succ_clean {f : Func} {blocks : List Block} (hc : Covers f blocks) (he : EdgesOk f blocks)
    (hl : LabelsOk f) (ht : TargetsMarked f) {i j : Nat} (hs : Succ f i j) (hcl : Clean f blocks i) :
    Clean f blocks j := by
  obtain ⟨hj, ir, hir, h⟩ := id hs
  have hi := (List.getElem?_eq_some_iff.1 hir).1
  obtain ⟨k, b, hb, hbi⟩ := covers_exists hc i hi
  rcases succ_edge hc he hl ht hs hcl hb hbi with ⟨rfl, hbj⟩ | ⟨c, d, _, hd, rfl⟩
  · intro k' b' hb' hbj' q irq h1 h2 h3
    have := covers_unique hc hb' hb hbj' hbj
    subst this; rw [hb] at hb'; cases hb'
    rcases Nat.lt_or_ge q i with c' | c'
    · exact hcl k' b hb hbi q irq h1 c' h3
    · have : q = i := by omega
      subst this; rw [hir] at h3; cases h3
      rcases h with h | ⟨_, h⟩
      · unfold Ir.label at h
        unfold Ir.willAbort
        split at h <;> first | cases h | skip
        · rename_i h1 _; rw [h1]
        · rename_i h1 _; rw [h1]
      · unfold Ir.canFall at h
        cases hop : ir.op <;> rw [hop] at h <;> simp at h <;>
          first | exact h | (unfold Ir.willAbort; rw [hop])
  · exact clean_first hc hd

theorem cfg_edges {f : Func} {blocks : List Block} (h : f.irs ≠ []) (hl : LabelsOk f)
    (hg : getCfg f = some blocks) : Covers f blocks ∧ EdgesOk f blocks := by
  obtain ⟨B, h1, h2, _, h4⟩ := cfg_ok f h hl
  rw [hg] at h1; cases h1
  exact ⟨h2, h4⟩

theorem run_clean {W : Type} {env : Env W} {f : Func} {blocks : List Block} (h : f.irs ≠ []) (hl : LabelsOk f)
    (ht : TargetsMarked f) (hn : NoReturn env) (hg : getCfg f = some blocks) (m : Nat) (s s' : State W)
    (hs : Clean f blocks s.pc) (hr : run env f m s = some (.next s')) (hlt : s'.pc < f.irs.length) :
    Clean f blocks s'.pc := by
  obtain ⟨hc, he⟩ := cfg_edges h hl hg
  induction m generalizing s with
  | zero => simp [run] at hr; subst hr; exact hs
  | succ m ih =>
    rw [run] at hr
    split at hr
    · rename_i t hst
      by_cases c : t.pc < f.irs.length
      · exact ih t (succ_clean hc he hl ht (step_succ hn ht hst c) hs) hr
      · cases m with
        | zero => simp [run] at hr; subst hr; exact absurd hlt c
        | succ m =>
          rw [run, show step env f t = none by
            unfold step; rw [List.getElem?_eq_none (by omega)]; rfl] at hr
          simp at hr
    · rename_i hst
      exact absurd hr (hst s')

/-- Execution from the start follows the graph: from a reachable state control goes to the next
instruction of the same block or along one of its edges to the first instruction of a block. -/
theorem cfg_covers_run {W : Type} (env : Env W) (f : Func) (blocks : List Block) (h : f.irs ≠ [])
    (hl : LabelsOk f) (ht : TargetsMarked f) (hn : NoReturn env) (hg : getCfg f = some blocks) (m : Nat)
    (s0 s s' : State W) (h0 : s0.pc = 0) (hr : run env f m s0 = some (.next s))
    (hs : step env f s = some (.next s')) (hlt : s'.pc < f.irs.length) :
    ∃ (k : Nat) (b : Block), blockFor blocks s.pc = some k ∧ blocks[k]? = some b ∧
      ((s'.pc = s.pc + 1 ∧ s'.pc ≤ b.last) ∨
        ∃ (c : Nat) (d : Block), c ∈ b.out ∧ blocks[c]? = some d ∧ s'.pc = d.first) := by
  obtain ⟨hc, he⟩ := cfg_edges h hl hg
  have hpc : s.pc < f.irs.length := by
    unfold step at hs
    rw [Option.bind_eq_some_iff] at hs
    obtain ⟨ir, hir, _⟩ := hs
    exact (List.getElem?_eq_some_iff.1 hir).1
  have hcl0 : Clean f blocks s0.pc := by
    obtain ⟨b, h1, h2⟩ := hc.zero
    rw [h0, ← h2]; exact clean_first hc h1
  have hcl := run_clean h hl ht hn hg m s0 s hcl0 hr hpc
  obtain ⟨k, b, hb, hbi⟩ := covers_exists hc s.pc hpc
  refine ⟨k, b, (blockFor_ok hc _ hpc k).2 ⟨b, hb, hbi⟩, hb, ?_⟩
  rcases succ_edge hc he hl ht (step_succ hn ht hs hlt) hcl hb hbi with ⟨h1, h2⟩ | ⟨c, d, h1, h2, h3⟩
  · exact Or.inl ⟨h1, h2.2⟩
  · exact Or.inr ⟨c, d, h1, h2, h3.symm⟩

/-- Every edge is one that an instruction of the block can take. -/
theorem cfg_edges_exact (f : Func) (blocks : List Block) (h : f.irs ≠ []) (hl : LabelsOk f)
    (ht : TargetsMarked f) (hg : getCfg f = some blocks) (k c : Nat) (b : Block) (hb : blocks[k]? = some b)
    (hc : c ∈ b.out) : ∃ (i : Nat) (d : Block), b.has i ∧ blocks[c]? = some d ∧ Succ f i d.first := by
  obtain ⟨h1, h2⟩ := cfg_edges h hl hg
  exact edge_succ h1 h2 hl ht hb hc

/-- The search returns the block of an instruction, which is the only one that has it. -/
theorem cfg_block_for (f : Func) (blocks : List Block) (h : f.irs ≠ []) (hl : LabelsOk f)
    (hg : getCfg f = some blocks) (i : Nat) (hi : i < f.irs.length) :
    ∃ (k : Nat) (b : Block), blockFor blocks i = some k ∧ blocks[k]? = some b ∧ b.has i ∧
      ∀ (k' : Nat) (b' : Block), blocks[k']? = some b' → b'.has i → k' = k := by
  obtain ⟨h1, h2⟩ := cfg_edges h hl hg
  obtain ⟨k, b, hb, hbi⟩ := covers_exists h1 i hi
  exact ⟨k, b, (blockFor_ok h1 i hi k).2 ⟨b, hb, hbi⟩, hb, hbi, fun k' b' hb' hbi' => covers_unique h1 hb' hb hbi' hbi⟩

/-- The exits, jit-priv.h 117-127, that the run-time system may return from: REPORT, ASSERT_FAIL, FUNC_WAIT and
all that follow. -/
def ExitReturns (e : Nat) : Prop := e = 7 ∨ e = 8 ∨ 10 ≤ e

/-- An instruction is taken to abort exactly if it is a trap or an exit that does not return. -/
theorem will_abort_exact (ir : Ir) :
    ir.willAbort = true ↔ ir.op = .trap ∨ ir.op = .exit ∧ ∃ e, ir.arg1 = .exit e ∧ ¬ ExitReturns e := by
  have key : ∀ e : Nat, abortExits.contains e = true ↔ ¬ ExitReturns e := by
    intro e
    unfold abortExits ExitReturns
    simp
    omega
  unfold Ir.willAbort
  split
  · rename_i e h1 h2
    rw [key, h1, h2]
    simp
  · rename_i h; simp [h]
  · rename_i h1 h2
    constructor
    · intro h; cases h
    · rintro (h | ⟨h, e, h', _⟩)
      · exact absurd h h1
      · exact absurd h' (h2 e h)

end Verif.Code
