import Verif.Gc.Lemmas
/-!
# C45: garbage collection keeps what can be reached, allocations do not overlap
-/
namespace Verif.Gc

open Verif.Mask (Mask Rep)

/-! ## Specification

Allocations are known by what the program sees: the address that was returned and the size that was
asked for. -/

structure Block where
  addr : Nat
  size : Nat
deriving DecidableEq

/-- Pointers that keep an allocation alive: into it, or to one past the end. -/
def Block.Has (b : Block) (p : Nat) : Prop := b.addr ≤ p ∧ p ≤ b.addr + b.size

/-- No pointer is to both. -/
def Block.Apart (b c : Block) : Prop := ∀ p, b.Has p → ¬ c.Has p

/-- Allocations that can be reached: the roots, and the words of allocations that can be reached
(`mem k` is the word at `base + 8 * k`), may point to them. -/
inductive Live (base : Nat) (mem : Nat → Nat) (roots : List Nat) (bs : List Block) : Block → Prop
  | root {p b} : p ∈ roots → b ∈ bs → b.Has p → Live base mem roots bs b
  | step {b b' k} : Live base mem roots bs b' → b'.addr ≤ base + 8 * k →
      base + 8 * k < b'.addr + b'.size → b ∈ bs → b.Has (mem k) → Live base mem roots bs b

/-- A history of allocations and collections.  The list has allocations in use: those that were not
lost in a collection, where a program may lose what cannot be reached. -/
inductive Hist (base size : Nat) : Space → List Block → Prop
  | new {m} : new base size = some m → Hist base size m []
  | alloc {m bs n line m'} : Hist base size m bs → n + 32 < 2 ^ 64 →
      tryAlloc m n = some (some (line, m')) → Hist base size m' (⟨base + 32 * line, n⟩ :: bs)
  | gc {m bs mem roots m' bs'} : Hist base size m bs → gc m mem roots = some m' →
      bs'.Sublist bs → (∀ b ∈ bs', Live base mem roots bs b) → Hist base size m' bs'

/-! ## Proofs -/

theorem nlines_eq {n : Nat} (h : n + 32 < 2 ^ 64) : nlines n = n / 32 + 1 := by
  unfold nlines
  rw [Nat.mod_eq_of_lt h]
  omega

/-- A block in terms of lines. -/
def At (m : Space) (h : Nat → Bool) (b : Block) (line : Nat) : Prop :=
  b.addr = m.base + 32 * line ∧ Obj m h (line, nlines b.size) ∧ b.size + 32 < 2 ^ 64

structure HistOk (base size : Nat) (m : Space) (bs : List Block) (h : Nat → Bool) : Prop where
  inv : Inv m h
  base_eq : m.base = base
  lines : m.maxlines = (size + 31) / 32 - 1
  blocks : ∀ b ∈ bs, ∃ line, At m h b line
  order : bs.Pairwise Block.Apart

theorem apart_of_ne {m : Space} (hb : At m h b line) (hb' : At m h b' line') (hne : line ≠ line') :
    Block.Apart b b' := by
  obtain ⟨h₁, ⟨c, -⟩, h₂⟩ := hb
  obtain ⟨h₁', ⟨c', -⟩, h₂'⟩ := hb'
  intro p hp hp'
  unfold Block.Has at *
  rw [nlines_eq h₂] at c
  rw [nlines_eq h₂'] at c'
  apply hne
  exact congrArg Prod.fst (cell_unique c c' (l := (p - m.base) / 32)
    ⟨by dsimp only; omega, by dsimp only; omega⟩ ⟨by dsimp only; omega, by dsimp only; omega⟩)

/-- What can be reached by the specification is reached by the collector. -/
theorem reached_of_live {m : Space} (ok : HistOk base size m bs h)
    (hl : Live base mem roots bs b) {line : Nat} (hb : At m h b line) :
    Reached m h mem roots (line, nlines b.size) := by
  have hits : ∀ {b : Block} {line p : Nat}, At m h b line → b.Has p →
      Hits m p (line, nlines b.size) := by
    rintro b line p ⟨h₁, ⟨c, -⟩, h₂⟩ hp
    have := c.le
    rw [nlines_eq h₂] at *
    unfold Block.Has at hp
    unfold Hits
    dsimp only at this ⊢
    omega
  induction hl generalizing line with
  | root hp _ hh => exact .root hp hb.2.1.1 (hits hb hh)
  | step hl' h₁ h₂ hb₁ hh ih =>
    rename_i b₁ b₂ k
    have hmem : b₂ ∈ bs := by cases hl' <;> assumption
    obtain ⟨line', hb'⟩ := ok.blocks b₂ hmem
    refine .step (ih hb') ?_ ?_ hb.2.1.1 (hits hb hh)
    · have := hb'.1
      have := ok.base_eq
      dsimp only
      omega
    · have h₃ := hb'.1
      have := ok.base_eq
      rw [nlines_eq hb'.2.2]
      dsimp only
      omega

theorem hist_ok (ha : ((size + 31) / 32 - 1) % 64 ≠ 0) (hh : Hist base size m bs) :
    ∃ h, HistOk base size m bs h := by
  induction hh with
  | new hn =>
    have hs : 0 < size := by
      by_cases c : 0 < size
      · exact c
      · have : size = 0 := by omega
        subst this
        simp at ha
    have hm : (size + 31) / 32 * 32 ≤ 0x100000000 * 32 := by
      by_cases c : (size + 31) / 32 * 32 ≤ 0x100000000 * 32
      · exact c
      · unfold new at hn
        dsimp only at hn
        rw [if_pos (by omega)] at hn
        cases hn
    obtain ⟨m', h, e, h₁, h₂, h₃, -⟩ := new_ok (base := base) hs hm ha
    rw [hn] at e
    cases e
    exact ⟨h, h₁, h₂, h₃, (fun b hb => nomatch hb), .nil⟩
  | alloc hh hn ht ih =>
    obtain ⟨h, ok⟩ := ih
    rename_i m₁ bs₁ n line m₂
    rcases tryAlloc_ok ok.inv (size := n) (by rw [nlines_eq hn]; omega) with
      ⟨e, -⟩ | ⟨line', m', h', e, h₁, h₂, h₃, h₄, h₅, f, f₁, f₂⟩
    · rw [e] at ht; cases ht
    · rw [e] at ht
      cases ht
      have hnew : At m₂ h' ⟨base + 32 * line, n⟩ line := ⟨by rw [h₂, ok.base_eq], h₄, hn⟩
      have hold : ∀ b l, At m₁ h b l → At m₂ h' b l :=
        fun b l ⟨a₁, a₂, a₃⟩ => ⟨by rw [h₂]; exact a₁, h₅ _ a₂, a₃⟩
      refine ⟨h', h₁, by rw [h₂]; exact ok.base_eq, by rw [h₃]; exact ok.lines, ?_, ?_⟩
      · intro b hb
        rcases List.mem_cons.1 hb with c | c
        · subst c; exact ⟨line, hnew⟩
        · obtain ⟨l, hl⟩ := ok.blocks b c
          exact ⟨l, hold b l hl⟩
      · refine List.pairwise_cons.2 ⟨fun b hb => ?_, ok.order⟩
        obtain ⟨l, hl⟩ := ok.blocks b hb
        refine apart_of_ne hnew (hold b l hl) ?_
        intro e
        subst e
        have c := hl.2.1.1.pos
        dsimp only at c
        exact hl.2.1.2 f f₁ line ⟨Nat.le_refl _, by dsimp only; omega⟩
          (f₂ line ⟨Nat.le_refl _, by dsimp only; rw [nlines_eq hn]; omega⟩)
  | gc hh hg hsub hlive ih =>
    obtain ⟨h, ok⟩ := ih
    rename_i m₁ bs₁ mem roots m₂ bs₂
    obtain ⟨m', h', e, h₁, h₂, h₃, h₄, -⟩ := gc_ok ok.inv mem roots
    rw [e] at hg
    cases hg
    refine ⟨h', h₁, by rw [h₂]; exact ok.base_eq, by rw [h₃]; exact ok.lines, ?_, ok.order.sublist hsub⟩
    intro b hb
    obtain ⟨l, hl⟩ := ok.blocks b (hsub.subset hb)
    exact ⟨l, by rw [h₂]; exact hl.1, h₄ _ (reached_of_live ok (hlive b hb) hl), hl.2.2⟩

/-! ## The property -/

/-- **C45**: at any time the allocations in use do not overlap, not even one past the end, and they
are on the heap. -/
theorem allocations_apart (ha : ((size + 31) / 32 - 1) % 64 ≠ 0) (hh : Hist base size m bs) :
    bs.Pairwise Block.Apart ∧
      ∀ b ∈ bs, base ≤ b.addr ∧ b.addr + b.size < base + size ∧ (b.addr - base) % 32 = 0 := by
  obtain ⟨h, ok⟩ := hist_ok ha hh
  refine ⟨ok.order, fun b hb => ?_⟩
  obtain ⟨l, h₁, ⟨c, -⟩, h₂⟩ := ok.blocks b hb
  have hle := c.le
  rw [nlines_eq h₂] at hle
  have := ok.base_eq
  have := ok.lines
  dsimp only at hle
  omega

/-- **C45**: allocation and collection do not access memory outside the masks, no assertion fails,
and the loops end. -/
theorem never_faults (ha : ((size + 31) / 32 - 1) % 64 ≠ 0) (hh : Hist base size m bs) :
    (∀ n, n + 32 < 2 ^ 64 → tryAlloc m n ≠ none) ∧ (∀ mem roots, gc m mem roots ≠ none) ∧
      (∀ n mem₁ mem₂ roots₁ roots₂, n + 32 < 2 ^ 64 → alloc m n mem₁ mem₂ roots₁ roots₂ ≠ none) ∧
      ∀ p, find m p ≠ none := by
  obtain ⟨h, ok⟩ := hist_ok ha hh
  have hn : ∀ n, n + 32 < 2 ^ 64 → 0 < nlines n := fun n hn => by rw [nlines_eq hn]; omega
  have try_ : ∀ {m : Space} {h}, Inv m h → ∀ n, n + 32 < 2 ^ 64 → tryAlloc m n ≠ none := by
    intro m h inv n hn'
    rcases tryAlloc_ok inv (hn n hn') with ⟨e, -⟩ | ⟨line, m', h', e, -⟩ <;> rw [e] <;> simp
  refine ⟨try_ ok.inv, fun mem roots => ?_, fun n mem₁ mem₂ roots₁ roots₂ hn' => ?_, fun p => ?_⟩
  · obtain ⟨m', h', e, -⟩ := gc_ok ok.inv mem roots
    rw [e]; simp
  · unfold alloc
    rcases tryAlloc_ok ok.inv (hn n hn') with ⟨e, -⟩ | ⟨line, m', h', e, -⟩
    · rw [e]
      dsimp only
      obtain ⟨m₁, h₁, e₁, inv₁, -⟩ := gc_ok ok.inv mem₁ roots₁
      rw [e₁]
      simp only [Option.bind_eq_bind, Option.bind_some]
      rcases tryAlloc_ok inv₁ (hn n hn') with ⟨e₂, -⟩ | ⟨line, m', h', e₂, -⟩
      · rw [e₂]
        dsimp only [Option.bind_some]
        obtain ⟨m₂, h₂, e₃, -⟩ := gc_ok inv₁ mem₂ roots₂
        rw [e₃]
        simp
      · rw [e₂]
        simp
    · rw [e]; simp
  · unfold find
    split
    · next c =>
      obtain ⟨o, e, -⟩ := objectAt_hits ok.inv.toHeapOk c
      rw [e]; simp
    · simp

/-- **C45**: a collection keeps every allocation that can be reached: none of its bytes gets on the
free list. -/
theorem gc_keeps (ha : ((size + 31) / 32 - 1) % 64 ≠ 0) (hh : Hist base size m bs)
    (hg : gc m mem roots = some m') (hl : Live base mem roots bs b) :
    ∀ f ∈ m'.free, ∀ p, b.Has p → ¬ (base + 32 * f.1 ≤ p ∧ p < base + 32 * (f.1 + f.2)) := by
  obtain ⟨h, ok⟩ := hist_ok ha hh
  have hmem : b ∈ bs := by cases hl <;> assumption
  obtain ⟨l, hb⟩ := ok.blocks b hmem
  have hr := reached_of_live ok hl hb
  obtain ⟨h₁, ⟨c, -⟩, h₂⟩ := hb
  obtain ⟨m₁, h', e, -, -, -, -, hno, -⟩ := gc_ok ok.inv mem roots
  rw [e] at hg
  cases hg
  intro f hf p hp hpf
  refine hno f hf _ ((p - base) / 32) hr ?_ ⟨by omega, by omega⟩
  rw [nlines_eq h₂]
  unfold Block.Has at hp
  have := ok.base_eq
  exact ⟨by dsimp only; omega, by dsimp only; omega⟩

/-- **C45**: an allocation that no root and no word on the heap outside of it points to is freed,
all of it.  `n` is the size rounded up so that one more byte fits; a pointer behind the heap counts
for the last object. -/
theorem gc_frees (ha : ((size + 31) / 32 - 1) % 64 ≠ 0) (hh : Hist base size m bs)
    (hg : gc m mem roots = some m') (hb : b ∈ bs) {n : Nat} (hn : n = (b.size / 32 + 1) * 32)
    (hroots : ∀ p ∈ roots, ¬ (b.addr ≤ p ∧ (p < b.addr + n ∨ base + size < b.addr + n + 64)))
    (hmem : ∀ k, (base + 8 * k < b.addr ∨ b.addr + n ≤ base + 8 * k) →
      ¬ (b.addr ≤ mem k ∧ (mem k < b.addr + n ∨ base + size < b.addr + n + 64))) :
    ∀ p, b.addr ≤ p → p < b.addr + n →
      ∃ f ∈ m'.free, base + 32 * f.1 ≤ p ∧ p < base + 32 * (f.1 + f.2) := by
  obtain ⟨h, ok⟩ := hist_ok ha hh
  obtain ⟨l, h₁, ⟨c, -⟩, h₂⟩ := ok.blocks b hb
  have hbase := ok.base_eq
  have hlines := ok.lines
  have hle := c.le
  rw [nlines_eq h₂] at c hle
  dsimp only at hle
  have notHit : ∀ p, Hits m p (l, b.size / 32 + 1) →
      b.addr ≤ p ∧ (p < b.addr + n ∨ base + size < b.addr + n + 64) := by
    intro p hp
    unfold Hits at hp
    dsimp only at hp
    omega
  have not : ∀ o, Reached m h mem roots o → o ≠ (l, b.size / 32 + 1) := by
    intro o ho
    induction ho with
    | root hp _ hit =>
      intro e
      subst e
      exact hroots _ hp (notHit _ hit)
    | step hr e₁ e₂ c' hit ih =>
      rename_i o o' k
      intro e
      subst e
      refine hmem k ?_ (notHit _ hit)
      by_cases d : base + 8 * k < b.addr ∨ b.addr + n ≤ base + 8 * k
      · exact d
      · exfalso
        apply ih
        have := hr.cell.le
        exact cell_unique hr.cell c (l := k / 4) ⟨by omega, by omega⟩
          ⟨by dsimp only; omega, by dsimp only; omega⟩
  obtain ⟨m₁, h', e, -, -, -, -, -, hall, -⟩ := gc_ok ok.inv mem roots
  rw [e] at hg
  cases hg
  intro p hp₁ hp₂
  obtain ⟨f, f₁, f₂⟩ := hall ((p - base) / 32) (by omega) (by
    intro o ho hin
    exact not o ho (cell_unique ho.cell c hin ⟨by dsimp only; omega, by dsimp only; omega⟩))
  unfold In at f₂
  exact ⟨f, f₁, by omega, by omega⟩

/-- **C45**: the free list after a collection is exactly what cannot be reached. -/
theorem gc_exact (ha : ((size + 31) / 32 - 1) % 64 ≠ 0) (hh : Hist base size m bs)
    (hg : gc m mem roots = some m') :
    ∃ h, Rep m.heads m.maxlines h ∧ ∀ l, l < m.maxlines →
      ((∃ f ∈ m'.free, In l f) ↔ ¬ ∃ o, Reached m h mem roots o ∧ In l o) := by
  obtain ⟨h, ok⟩ := hist_ok ha hh
  obtain ⟨m₁, h', e, -, -, -, -, hno, hall, -⟩ := gc_ok ok.inv mem roots
  rw [e] at hg
  cases hg
  refine ⟨h, ok.inv.rep, fun l hl => ⟨?_, ?_⟩⟩
  · rintro ⟨f, f₁, f₂⟩ ⟨o, o₁, o₂⟩
    exact hno f f₁ o l o₁ o₂ f₂
  · intro hn
    exact hall l hl fun o o₁ o₂ => hn ⟨o, o₁, o₂⟩

/-- **C45**: after a collection an allocation fails only if there is no run of free lines that is
long enough. -/
theorem alloc_after_gc (ha : ((size + 31) / 32 - 1) % 64 ≠ 0) (hh : Hist base size m bs)
    (hg : gc m mem roots = some m') {n : Nat} (hn : n + 32 < 2 ^ 64)
    (hfail : tryAlloc m' n = some none) (a : Nat) (hle : a + (n / 32 + 1) ≤ m.maxlines) :
    ∃ l, a ≤ l ∧ l < a + (n / 32 + 1) ∧ ¬ ∃ f ∈ m'.free, In l f := by
  obtain ⟨h, ok⟩ := hist_ok ha hh
  obtain ⟨m₁, h', e, inv, -, hml, -, hno, hall, hstop⟩ := gc_ok ok.inv mem roots
  rw [e] at hg
  cases hg
  have hn' : 0 < nlines n := by rw [nlines_eq hn]; omega
  rcases tryAlloc_ok inv hn' with ⟨-, hsmall⟩ | ⟨line, m₂, h₂, e₂, -⟩
  · by_cases hc : ∃ f ∈ m'.free, In a f
    · obtain ⟨f, f₁, f₂⟩ := hc
      have hs := hsmall f f₁
      rw [nlines_eq hn] at hs
      unfold In at f₂
      have hfr := inv.frag f f₁
      by_cases hlt : f.1 + f.2 < m.maxlines
      · obtain ⟨o, o₁, o₂⟩ := hstop f f₁ hlt
        refine ⟨f.1 + f.2, by omega, by omega, ?_⟩
        rintro ⟨g, g₁, g₂⟩
        exact hno g g₁ o _ o₁ o₂ g₂
      · omega
    · exact ⟨a, Nat.le_refl _, by omega, hc⟩
  · rw [e₂] at hfail; cases hfail

/-- **C45**: an allocation that succeeds, perhaps after a collection, keeps all that can be reached. -/
theorem alloc_keeps (hh : Hist base size m bs) (hn : n + 32 < 2 ^ 64)
    (he : alloc m n mem₁ mem₂ roots₁ roots₂ = some (some line, m')) :
    ∃ bs', bs'.Sublist bs ∧ (∀ b, Live base mem₁ roots₁ bs b → b ∈ bs') ∧
      Hist base size m' (⟨base + 32 * line, n⟩ :: bs') := by
  unfold alloc at he
  split at he
  · cases he
  · next e =>
    simp only [Option.some.injEq, Prod.mk.injEq] at he
    obtain ⟨rfl, rfl⟩ := he
    exact ⟨bs, List.Sublist.refl _, fun b hl => by cases hl <;> assumption, .alloc hh hn e⟩
  · simp only [Option.bind_eq_bind, Option.bind_eq_some_iff] at he
    obtain ⟨m₁, h₁, r, h₂, h₃⟩ := he
    split at h₃
    · simp only [Option.some.injEq, Prod.mk.injEq] at h₃
      obtain ⟨rfl, rfl⟩ := h₃
      classical
      refine ⟨bs.filter fun b => decide (Live base mem₁ roots₁ bs b), List.filter_sublist, ?_, ?_⟩
      · intro b hl
        have : b ∈ bs := by cases hl <;> assumption
        simp [this, hl]
      · refine .alloc (.gc hh h₁ List.filter_sublist ?_) hn h₂
        intro b hb
        simpa using (List.mem_filter.1 hb).2
    · simp only [Option.bind_eq_some_iff] at h₃
      obtain ⟨_, _, h₄⟩ := h₃
      cases h₄

/-- **C45**: out of memory means that there is no run of lines long enough in the free list that a
collection left. -/
theorem alloc_out_of_memory (ha : ((size + 31) / 32 - 1) % 64 ≠ 0) (hh : Hist base size m bs)
    (hn : n + 32 < 2 ^ 64) (he : alloc m n mem₁ mem₂ roots₁ roots₂ = some (none, m')) :
    ∃ m₁, gc m mem₁ roots₁ = some m₁ ∧ ∀ a, a + (n / 32 + 1) ≤ m.maxlines →
      ∃ l, a ≤ l ∧ l < a + (n / 32 + 1) ∧ ¬ ∃ f ∈ m₁.free, In l f := by
  unfold alloc at he
  split at he
  · cases he
  · cases he
  · simp only [Option.bind_eq_bind, Option.bind_eq_some_iff] at he
    obtain ⟨m₁, h₁, r, h₂, h₃⟩ := he
    split at h₃
    · cases h₃
    · exact ⟨m₁, h₁, fun a hle => alloc_after_gc ha hh h₁ hn h₂ a hle⟩

/-- **C45**: `mspace_find` gives the allocation a pointer belongs to. -/
theorem find_correct (ha : ((size + 31) / 32 - 1) % 64 ≠ 0) (hh : Hist base size m bs)
    (hb : b ∈ bs) (hp : b.Has p) :
    find m p = some (some (b.addr, (b.size / 32 + 1) * 32)) := by
  obtain ⟨h, ok⟩ := hist_ok ha hh
  obtain ⟨l, h₁, ⟨c, -⟩, h₂⟩ := ok.blocks b hb
  have hle := c.le
  rw [nlines_eq h₂] at c hle
  dsimp only at hle
  unfold Block.Has at hp
  have hptr : isPtr m p = true := by
    unfold isPtr
    simp only [Bool.and_eq_true, decide_eq_true_eq]
    omega
  obtain ⟨o, e, c', hit⟩ := objectAt_hits ok.inv.toHeapOk hptr
  have : o = (l, b.size / 32 + 1) := hits_unique c' c hit (by
    unfold Hits
    dsimp only
    omega)
  unfold find
  rw [if_pos hptr, e, this]
  simp only [Option.map_some, Option.some.injEq, Prod.mk.injEq]
  omega

/-! ## Examples and counterexamples -/

/-- A heap of 100 lines, two objects; the second has a pointer to the first and is a root. -/
def exMem (k : Nat) : Nat := if k = 12 then 4096 + 40 else 0

def exHeap : Option Space := do
  let m ← new 4096 3232
  let r ← tryAlloc m 80
  let r ← tryAlloc (← r).2 32
  (r).map (·.2)

example : exHeap.map (·.free) = some [(5, 95)] := by decide +kernel

example : (exHeap.bind fun m => (gc m exMem [4096 + 96]).map (·.free)) = some [(5, 95)] := by
  decide +kernel

example : (exHeap.bind fun m => (gc m exMem [4096]).map (·.free)) = some [(3, 97)] := by
  decide +kernel

example : (exHeap.bind fun m => (gc m (fun _ => 0) [4096 + 160]).map (·.free)) =
    some [(0, 5), (6, 94)] := by decide +kernel

example : ∃ m, Hist 4096 3232 m [⟨4096 + 32 * 3, 32⟩, ⟨4096, 80⟩] ∧
    Live 4096 exMem [4096 + 96] [⟨4096 + 32 * 3, 32⟩, ⟨4096, 80⟩] ⟨4096, 80⟩ := by
  have e : ((new 4096 3232).bind fun m => (tryAlloc m 80).bind fun r => r.bind fun r =>
      (tryAlloc r.2 32).bind fun r' => r'.map fun r' => (r.1, r'.1)) = some (0, 3) := by
    decide +kernel
  simp only [Option.bind_eq_some_iff, Option.map_eq_some_iff, Prod.mk.injEq, Prod.exists] at e
  obtain ⟨m, h, r, h₁, l, m₁, rfl, r', h₂, l', m₂, rfl, rfl, rfl⟩ := e
  refine ⟨m₂, .alloc (.alloc (.new h) (by decide) h₁) (by decide) h₂, ?_⟩
  refine .step (b' := ⟨4096 + 32 * 3, 32⟩) (k := 12)
    (.root (p := 4096 + 96) (by simp) (by simp) (by constructor <;> decide)) (by decide) (by decide)
    (by simp) (by constructor <;> decide)

/-- The size of an allocation is rounded up in 64 bits: with `(size_t)-1`, for instance from a
negative number of elements, the object has no lines and shares its address with the next. -/
theorem alloc_wrap_counterexample :
    ∃ m m₁ m₂, new 4096 3232 = some m ∧ tryAlloc m (2 ^ 64 - 1) = some (some (0, m₁)) ∧
      tryAlloc m₁ 8 = some (some (0, m₂)) := by
  have e : ((new 4096 3232).bind fun m => (tryAlloc m (2 ^ 64 - 1)).bind fun r => r.bind fun r =>
      (tryAlloc r.2 8).bind fun r' => r'.map fun r' => (r.1, r'.1)) = some (0, 0) := by
    decide +kernel
  simp only [Option.bind_eq_some_iff, Option.map_eq_some_iff, Prod.mk.injEq, Prod.exists] at e
  obtain ⟨m, h, r, h₁, l, m₁, rfl, r', h₂, l', m₂, rfl, rfl, rfl⟩ := e
  exact ⟨m, m₁, m₂, h, h₁, h₂⟩

/-- If the number of lines is a multiple of 64, a word that happens to be an address in the margin
behind the last line makes the collector read behind the end of the mask. -/
theorem gc_margin_counterexample :
    ∃ m, new 4096 (32 * 129) = some m ∧ gc m (fun _ => 0) [4096 + 32 * 128] = none := by
  have e : ((new 4096 (32 * 129)).map fun m => gc m (fun _ => 0) [4096 + 32 * 128]) = some none := by
    decide +kernel
  simpa only [Option.map_eq_some_iff] using e

/-! ## Thread-local buffers -/

/-- A history of a buffer: allocations by the three functions, and returns to an earlier mark.
Addresses are offsets in the data. -/
inductive TlabHist : Tlab → List Block → Prop
  | acquire : TlabHist acquire []
  | alloc {t bs n off t'} : TlabHist t bs → n + 2 ^ 17 < 2 ^ 64 →
      tlabAlloc t n = some (some off, t') → TlabHist t' (⟨off, n⟩ :: bs)
  | intrin {t bs n k off t'} : TlabHist t bs → n + 2 ^ 17 < 2 ^ 64 → k < 16 →
      tlabAllocIntrin t n (2 ^ k) = some (some off, t') → TlabHist t' (⟨off, n⟩ :: bs)
  | llvm {t bs n off t'} : TlabHist t bs → n + 2 ^ 17 < 2 ^ 32 →
      tlabAllocLlvm t n = (some off, t') → TlabHist t' (⟨off, n⟩ :: bs)
  | restore {t bs mark} : TlabHist t bs → mark ≤ t.alloc → mark % 8 = 0 →
      TlabHist { t with alloc := mark } (bs.filter fun b => b.addr + b.size ≤ mark)

theorem alignUp_eq (w a n : Nat) (h : n + (a - 1) < 2 ^ w) : alignUp w a n = (n + (a - 1)) / a * a := by
  unfold alignUp
  rw [Nat.mod_eq_of_lt h]

theorem alignUp_le {w a n : Nat} (ha : 0 < a) (h : n + (a - 1) < 2 ^ w) :
    n ≤ alignUp w a n ∧ alignUp w a n % a = 0 := by
  rw [alignUp_eq w a n h]
  constructor
  · have h₁ := Nat.div_add_mod (n + (a - 1)) a
    have h₂ := Nat.mod_lt (n + (a - 1)) ha
    rw [Nat.mul_comm] at h₁
    omega
  · exact Nat.mul_mod_left _ _

/-- **C45**: allocations in a thread-local buffer do not overlap and are aligned, the margin remains
behind them, and the collector scans all of them: they are below `alloc`. -/
theorem tlab_apart (h : TlabHist t bs) :
    t.ok = true ∧ t.limit = 65536 - 32 ∧
      bs.Pairwise (fun b c => b.addr + b.size ≤ c.addr ∨ c.addr + c.size ≤ b.addr) ∧
      ∀ b ∈ bs, b.addr % 8 = 0 ∧ b.addr + b.size ≤ t.alloc ∧ b.addr + b.size + 32 ≤ 65536 := by
  have step : ∀ {t : Tlab} {bs : List Block} {off n next : Nat},
      (t.ok = true ∧ t.limit = 65536 - 32 ∧
        bs.Pairwise (fun b c => b.addr + b.size ≤ c.addr ∨ c.addr + c.size ≤ b.addr) ∧
        ∀ b ∈ bs, b.addr % 8 = 0 ∧ b.addr + b.size ≤ t.alloc ∧ b.addr + b.size + 32 ≤ 65536) →
      t.alloc ≤ off → off + n ≤ next → next ≤ t.limit → off % 8 = 0 → next % 8 = 0 →
      let t' : Tlab := ⟨next, t.limit⟩
      t'.ok = true ∧ t'.limit = 65536 - 32 ∧
        (Block.mk off n :: bs).Pairwise
          (fun b c => b.addr + b.size ≤ c.addr ∨ c.addr + c.size ≤ b.addr) ∧
        ∀ b ∈ Block.mk off n :: bs,
          b.addr % 8 = 0 ∧ b.addr + b.size ≤ t'.alloc ∧ b.addr + b.size + 32 ≤ 65536 := by
    intro t bs off n next ⟨h₁, h₂, h₃, h₄⟩ e₁ e₂ e₃ e₄ e₅
    dsimp only
    refine ⟨by simp [Tlab.ok, e₃, e₅], h₂, List.pairwise_cons.2 ⟨fun b hb => ?_, h₃⟩, fun b hb => ?_⟩
    · have := h₄ b hb
      dsimp only
      omega
    · rcases List.mem_cons.1 hb with c | c
      · subst c
        dsimp only
        omega
      · have := h₄ b c
        omega
  induction h with
  | acquire => exact ⟨by decide, rfl, .nil, (fun _ h => nomatch h)⟩
  | alloc h hn ha ih =>
    rename_i t bs n off t'
    have hok := ih.1
    have hlim := ih.2.1
    simp only [Tlab.ok, Bool.and_eq_true, decide_eq_true_eq, beq_iff_eq] at hok
    unfold tlabAlloc at ha
    rw [ih.1] at ha
    simp only [Bool.not_true, Bool.false_eq_true, if_false] at ha
    split at ha
    · next c =>
      simp only [Option.some.injEq, Prod.mk.injEq] at ha
      obtain ⟨rfl, rfl⟩ := ha
      rw [Nat.mod_eq_of_lt (by omega)] at c
      rw [alignUp_eq 64 8 n (by omega), Nat.mod_eq_of_lt (by omega)]
      exact step ih (Nat.le_refl _) (by omega) (by omega) hok.2 (by omega)
    · simp at ha
  | intrin h hn hk ha ih =>
    rename_i t bs n k off t'
    have hok := ih.1
    have hlim := ih.2.1
    simp only [Tlab.ok, Bool.and_eq_true, decide_eq_true_eq, beq_iff_eq] at hok
    have hpow : 2 ^ k < 2 ^ 16 := Nat.pow_lt_pow_right (by omega) hk
    unfold tlabAllocIntrin at ha
    rw [ih.1] at ha
    simp only [Bool.not_true, Bool.false_or, bne_iff_ne, ne_eq] at ha
    split at ha
    · cases ha
    · next hal =>
      have hal : 2 ^ k % 8 = 0 := by omega
      have hb := alignUp_le (w := 64) (n := t.alloc) (Nat.two_pow_pos k) (by omega)
      have hb' : alignUp 64 (2 ^ k) t.alloc < 2 ^ 32 := by
        rw [alignUp_eq _ _ _ (by omega)]
        exact Nat.lt_of_le_of_lt (Nat.div_mul_le_self _ _) (by omega)
      have hb8 : alignUp 64 (2 ^ k) t.alloc % 8 = 0 :=
        Nat.mod_eq_zero_of_dvd (Nat.dvd_trans (Nat.dvd_of_mod_eq_zero hal) (Nat.dvd_of_mod_eq_zero hb.2))
      rw [Nat.mod_eq_of_lt hb'] at ha
      have hs := alignUp_le (w := 64) (a := 8) (n := n) (by omega) (by omega)
      have hs' : alignUp 64 8 n < 2 ^ 64 - 2 ^ 16 - 2 ^ 15 := by
        rw [alignUp_eq _ _ _ (by omega)]
        omega
      have hb₁ : alignUp 64 (2 ^ k) t.alloc < 2 ^ 16 + 2 ^ 15 ∨ 2 ^ 16 ≤ 2 ^ k + 2 ^ 15 := by
        rw [alignUp_eq _ _ _ (by omega)]
        have := Nat.div_mul_le_self (t.alloc + (2 ^ k - 1)) (2 ^ k)
        omega
      have hk' : 2 ^ k ≤ 2 ^ 15 := Nat.pow_le_pow_right (by omega) (by omega)
      have hb₂ : alignUp 64 (2 ^ k) t.alloc < 2 ^ 16 + 2 ^ 15 := by
        rw [alignUp_eq _ _ _ (by omega)]
        have := Nat.div_mul_le_self (t.alloc + (2 ^ k - 1)) (2 ^ k)
        omega
      split at ha
      · next c =>
        simp only [Option.some.injEq, Prod.mk.injEq] at ha
        obtain ⟨rfl, rfl⟩ := ha
        rw [Nat.mod_eq_of_lt (by omega)] at c
        rw [Nat.mod_eq_of_lt (by omega)]
        exact step ih hb.1 (by omega) (by omega) hb8 (by omega)
      · simp at ha
  | llvm h hn ha ih =>
    rename_i t bs n off t'
    have hok := ih.1
    have hlim := ih.2.1
    simp only [Tlab.ok, Bool.and_eq_true, decide_eq_true_eq, beq_iff_eq] at hok
    unfold tlabAllocLlvm at ha
    rw [Nat.mod_eq_of_lt (by omega : n < 2 ^ 32), alignUp_eq 32 8 n (by omega)] at ha
    dsimp only at ha
    rw [Nat.mod_eq_of_lt (by omega)] at ha
    split at ha
    · simp at ha
    · next c =>
      simp only [Option.some.injEq, Prod.mk.injEq] at ha
      obtain ⟨rfl, rfl⟩ := ha
      exact step ih (Nat.le_refl _) (by omega) (by omega) hok.2 (by omega)
  | restore h hm h8 ih =>
    obtain ⟨h₁, h₂, h₃, h₄⟩ := ih
    simp only [Tlab.ok, Bool.and_eq_true, decide_eq_true_eq, beq_iff_eq] at h₁
    refine ⟨by simp only [Tlab.ok, Bool.and_eq_true, decide_eq_true_eq, beq_iff_eq]; omega, h₂, h₃.filter _, fun b hb => ?_⟩
    simp only [List.mem_filter, decide_eq_true_eq] at hb
    have := h₄ b hb.1
    dsimp only
    omega

/-- **C45**: the three functions agree for sizes that are not close to `2^32`. -/
theorem tlab_variants (ht : t.ok = true) (hl : t.limit = 65536 - 32) (hn : n + 2 ^ 17 < 2 ^ 32) :
    tlabAllocIntrin t n 8 = tlabAlloc t n ∧ some (tlabAllocLlvm t n) = tlabAlloc t n := by
  have hok := ht
  simp only [Tlab.ok, Bool.and_eq_true, decide_eq_true_eq, beq_iff_eq] at hok
  have e₀ : alignUp 64 8 t.alloc = t.alloc := by
    rw [alignUp_eq _ _ _ (by omega)]
    omega
  unfold tlabAllocIntrin tlabAlloc tlabAllocLlvm
  rw [ht, e₀, Nat.mod_eq_of_lt (by omega : n < 2 ^ 32), alignUp_eq 32 8 n (by omega),
    alignUp_eq 64 8 n (by omega), Nat.mod_eq_of_lt (by omega : t.alloc < 2 ^ 32)]
  simp only [Bool.not_true, Bool.false_or, Bool.false_eq_true, if_false]
  rw [Nat.mod_eq_of_lt (by omega : t.alloc + (n + (8 - 1)) / 8 * 8 < 2 ^ 64),
    Nat.mod_eq_of_lt (by omega : t.alloc + n < 2 ^ 64),
    Nat.mod_eq_of_lt (by omega : t.alloc + (n + (8 - 1)) / 8 * 8 < 2 ^ 32)]
  by_cases c : t.alloc + n ≤ t.limit
  · have c₁ : t.alloc + (n + (8 - 1)) / 8 * 8 ≤ t.limit := by omega
    have c₂ : ¬ t.alloc + (n + (8 - 1)) / 8 * 8 > t.limit := by omega
    rw [if_pos c, if_pos c₁, if_neg c₂]
    simp
  · have c₁ : ¬ t.alloc + (n + (8 - 1)) / 8 * 8 ≤ t.limit := by omega
    have c₂ : t.alloc + (n + (8 - 1)) / 8 * 8 > t.limit := by omega
    rw [if_neg c, if_neg c₁, if_pos c₂]
    simp

/-- The emitted code truncates the size: an object of `2^32 + 8` bytes gets 8 bytes in the buffer. -/
theorem tlab_llvm_counterexample :
    tlabAllocLlvm acquire (2 ^ 32 + 8) = (some 0, ⟨8, 65504⟩) ∧
      tlabAlloc acquire (2 ^ 32 + 8) = some (none, acquire) := by decide

/-- In the other two the sum wraps in 64 bits. -/
theorem tlab_wrap_counterexample :
    tlabAlloc ⟨16, 65504⟩ (2 ^ 64 - 8) = some (some 16, ⟨8, 65504⟩) := by decide

example : TlabHist ⟨56, 65504⟩ [⟨32, 20⟩, ⟨16, 10⟩, ⟨0, 3⟩] := by
  refine .llvm (n := 20) (.intrin (k := 4) (n := 10) (.alloc (n := 3) .acquire ?_ rfl) ?_ ?_ rfl) ?_ rfl
  all_goals decide

end Verif.Gc
