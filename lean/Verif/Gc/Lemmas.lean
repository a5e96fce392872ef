import Verif.Gc.Model
import Verif.Mask.Refine
/-!
# Lemmas on the garbage collected heap
-/
namespace Verif.Gc

open Verif.Mask (Mask Rep scanMax runOf)

/-- A maximal run of lines that begins with a head: an object, or a line of the free list. -/
structure Cell (h : Nat → Bool) (n : Nat) (o : Nat × Nat) : Prop where
  pos : 0 < o.2
  le : o.1 + o.2 ≤ n
  head : h o.1 = true
  rest : ∀ l, o.1 < l → l < o.1 + o.2 → h l = false
  stop : o.1 + o.2 < n → h (o.1 + o.2) = true

/-- The line is in the object. -/
def In (l : Nat) (o : Nat × Nat) : Prop := o.1 ≤ l ∧ l < o.1 + o.2

theorem run_cases (s : Nat → Bool) {n b : Nat} (hb : b ≤ n) :
    b + runOf s n b ≤ n ∧ (∀ j, b ≤ j → j < b + runOf s n b → s j = false) ∧
      (b + runOf s n b < n → s (b + runOf s n b) = true) := by
  have key : ∀ k b, b + k = n → ∃ r, b + r ≤ n ∧ (∀ j, b ≤ j → j < b + r → s j = false) ∧
      (b + r < n → s (b + r) = true) := by
    intro k
    induction k with
    | zero => intro b hb; exact ⟨0, by omega, by omega, by omega⟩
    | succ k ih =>
      intro b hb
      cases hs : s b with
      | true => exact ⟨0, by omega, by omega, fun _ => hs⟩
      | false =>
        obtain ⟨r, h₁, h₂, h₃⟩ := ih (b + 1) (by omega)
        refine ⟨r + 1, by omega, fun j h₄ h₅ => ?_, fun h₄ => ?_⟩
        · by_cases c : j = b
          · subst c; exact hs
          · exact h₂ j (by omega) (by omega)
        · have := h₃ (by omega)
          rwa [show b + 1 + r = b + (r + 1) by omega] at this
  obtain ⟨r, h₁, h₂, h₃⟩ := key (n - b) b (by omega)
  have : runOf s n b = r := Verif.Mask.takeWhile_run s n b r h₁ h₂ h₃
  rw [this]
  exact ⟨h₁, h₂, h₃⟩

theorem cell_unique {h : Nat → Bool} {o o' : Nat × Nat} (c : Cell h n o) (c' : Cell h n o')
    {l : Nat} (hl : In l o) (hl' : In l o') : o = o' := by
  unfold In at *
  have h₁ : o.1 = o'.1 := by
    rcases Nat.lt_trichotomy o.1 o'.1 with d | d | d
    · have := c.rest o'.1 d (by omega)
      rw [c'.head] at this; cases this
    · exact d
    · have := c'.rest o.1 d (by omega)
      rw [c.head] at this; cases this
  have h₂ : o.2 = o'.2 := by
    rcases Nat.lt_trichotomy o.2 o'.2 with d | d | d
    · have e₁ := c.stop (by have := c'.le; omega)
      have e₂ := c'.rest (o.1 + o.2) (by have := c.pos; omega) (by omega)
      rw [e₁] at e₂; cases e₂
    · exact d
    · have e₁ := c'.stop (by have := c.le; omega)
      have e₂ := c.rest (o'.1 + o'.2) (by have := c'.pos; omega) (by omega)
      rw [e₁] at e₂; cases e₂
  exact Prod.ext h₁ h₂

theorem cell_head {h : Nat → Bool} {o o' : Nat × Nat} (c : Cell h n o) (c' : Cell h n o')
    (he : o.1 = o'.1) : o = o' :=
  cell_unique c c' (l := o.1) ⟨Nat.le_refl _, by have := c.pos; omega⟩
    ⟨by omega, by have := c'.pos; omega⟩

/-- Every line is in a cell, if the first line is a head. -/
theorem objectAt_cell {m : Space} {h : Nat → Bool} (hr : Rep m.heads m.maxlines h)
    (h0 : h 0 = true) {l : Nat} (hl : l < m.maxlines ∨ l = m.maxlines ∧ m.maxlines % 64 ≠ 0) :
    ∃ o, objectAt m l = some o ∧ Cell h m.maxlines o ∧ o.1 ≤ l ∧
      (l < m.maxlines → l < o.1 + o.2) ∧ (l = m.maxlines → o.1 + o.2 = m.maxlines) := by
  unfold objectAt
  rw [Verif.Mask.scan_rep_end hr l hl]
  rcases Verif.Mask.scanMax_cases h (l + 1) with ⟨i, e, h₁, h₂, h₃⟩ | ⟨e, h₁⟩
  · rw [e]
    dsimp only
    rw [if_neg (by omega), Int.toNat_natCast]
    have hi : i < m.maxlines := by
      by_cases c : i < m.maxlines
      · exact c
      · rw [hr.out i (by omega)] at h₂; cases h₂
    split
    · next c =>
      rw [Verif.Mask.countClear_rep hr _ c]
      obtain ⟨r₁, r₂, r₃⟩ := run_cases h (n := m.maxlines) (b := i + 1) (by omega)
      generalize runOf h m.maxlines (i + 1) = r at r₁ r₂ r₃ ⊢
      refine ⟨(i, 1 + r), rfl, ⟨by dsimp only; omega, by dsimp only; omega, h₂, ?_, ?_⟩,
        by dsimp only; omega, ?_, ?_⟩
      · intro k h₄ h₅
        dsimp only at h₄ h₅
        exact r₂ k (by omega) (by omega)
      · intro h₄
        dsimp only at h₄ ⊢
        rw [show i + (1 + r) = i + 1 + r by omega]
        exact r₃ (by omega)
      · intro h₄
        dsimp only
        by_cases d : l < i + (1 + r)
        · exact d
        · have e₁ := r₃ (by omega)
          have e₂ := h₃ (i + 1 + r) (by omega) (by omega)
          rw [e₁] at e₂; cases e₂
      · intro h₄
        dsimp only
        by_cases d : i + (1 + r) = m.maxlines
        · exact d
        · have e₁ := r₃ (by omega)
          have e₂ := h₃ (i + 1 + r) (by omega) (by omega)
          rw [e₁] at e₂; cases e₂
    · refine ⟨(i, 1), rfl, ⟨by dsimp only; omega, by dsimp only; omega, h₂, ?_, ?_⟩,
        by dsimp only; omega, by dsimp only; omega, by dsimp only; omega⟩
      · intro k h₄ h₅
        dsimp only at h₄ h₅
        omega
      · intro h₄
        dsimp only at h₄
        omega
  · exact absurd (h₁ 0 (by omega)) (by rw [h0]; simp)

/-! ## Marking -/

/-- A pointer hits a cell: it points into it, or behind the last line and the cell is the last. -/
def Hits (m : Space) (p : Nat) (o : Nat × Nat) : Prop :=
  m.base ≤ p ∧ p < m.base + 32 * (m.maxlines + 1) ∧ 32 * o.1 ≤ p - m.base ∧
    (p - m.base < 32 * (o.1 + o.2) ∨ o.1 + o.2 = m.maxlines)

/-- Words that a collection gets to see, starting from the roots. -/
inductive Reached (m : Space) (h : Nat → Bool) (mem : Nat → Nat) (roots : List Nat) :
    Nat × Nat → Prop
  | root {p o} : p ∈ roots → Cell h m.maxlines o → Hits m p o → Reached m h mem roots o
  | step {o o' k} : Reached m h mem roots o' → 4 * o'.1 ≤ k → k < 4 * (o'.1 + o'.2) →
      Cell h m.maxlines o → Hits m (mem k) o → Reached m h mem roots o

theorem Reached.cell {m : Space} (r : Reached m h mem roots o) : Cell h m.maxlines o := by
  cases r with
  | root _ c _ => exact c
  | step _ _ _ c _ => exact c

/-- No pointer into the margin is looked up outside of the mask. -/
def MarginOk (m : Space) : Prop := m.maxlines % 64 ≠ 0

structure HeapOk (m : Space) (h : Nat → Bool) : Prop where
  rep : Rep m.heads m.maxlines h
  zero : h 0 = true
  margin : MarginOk m
  small : m.maxlines < 2 ^ 32

theorem objectAt_hits {m : Space} (ok : HeapOk m h) {p : Nat} (hp : isPtr m p = true) :
    ∃ o, objectAt m ((p - m.base) / 32) = some o ∧ Cell h m.maxlines o ∧ Hits m p o := by
  unfold isPtr at hp
  simp only [Bool.and_eq_true, decide_eq_true_eq] at hp
  obtain ⟨o, h₁, h₂, h₃, h₄, h₅⟩ := objectAt_cell ok.rep ok.zero (l := (p - m.base) / 32) (by
    by_cases c : (p - m.base) / 32 < m.maxlines
    · exact .inl c
    · exact .inr ⟨by omega, ok.margin⟩)
  refine ⟨o, h₁, h₂, hp.1, hp.2, by omega, ?_⟩
  by_cases c : (p - m.base) / 32 < m.maxlines
  · have := h₄ c; omega
  · exact .inr (h₅ (by omega))

theorem hits_unique {m : Space} (c : Cell h m.maxlines o) (c' : Cell h m.maxlines o')
    (hp : Hits m p o) (hp' : Hits m p o') : o = o' := by
  unfold Hits at *
  have := c.le
  have := c'.le
  have := c.pos
  have := c'.pos
  by_cases d : (p - m.base) / 32 < m.maxlines
  · exact cell_unique c c' (l := (p - m.base) / 32) ⟨by omega, by omega⟩ ⟨by omega, by omega⟩
  · exact cell_unique c c' (l := m.maxlines - 1) ⟨by omega, by omega⟩ ⟨by omega, by omega⟩

/-- The cells with marks, in the middle of a collection. -/
structure MarkOk (m : Space) (h : Nat → Bool) (mem : Nat → Nat) (roots : List Nat) (st : Marks)
    (k : Nat → Bool) : Prop where
  rep : Rep st.marks m.maxlines k
  whole : ∀ o l, Cell h m.maxlines o → In l o → k l = k o.1
  reach : ∀ o, Cell h m.maxlines o → k o.1 = true → Reached m h mem roots o
  work : ∀ e ∈ st.work, ∃ o, Cell h m.maxlines o ∧ k o.1 = true ∧ e = o.1 * 2 ^ 32 + o.2

/-- The number of lines without a mark. -/
def blank (k : Nat → Bool) (n : Nat) : Nat := (List.range n).countP fun l => !k l

theorem blank_succ (k : Nat → Bool) (n : Nat) :
    blank k (n + 1) = blank k n + if k n then 0 else 1 := by
  unfold blank
  rw [List.range_succ, List.countP_append]
  cases c : k n <;> simp [c]

theorem blank_le {k k' : Nat → Bool} (hk : ∀ l, k l = true → k' l = true) (n : Nat) :
    blank k' n ≤ blank k n := by
  induction n with
  | zero => exact Nat.le_refl _
  | succ n ih =>
    rw [blank_succ, blank_succ]
    cases c : k n with
    | true => rw [hk n c]; simpa using ih
    | false => cases k' n <;> simp <;> omega

theorem blank_lt {k k' : Nat → Bool} (hk : ∀ l, k l = true → k' l = true) {n l : Nat} (hl : l < n)
    (h₁ : k l = false) (h₂ : k' l = true) : blank k' n + 1 ≤ blank k n := by
  induction n with
  | zero => omega
  | succ n ih =>
    rw [blank_succ, blank_succ]
    by_cases c : l = n
    · subst c
      have := blank_le hk l
      rw [h₁, h₂]
      simpa using this
    · have := ih (by omega)
      cases d : k n with
      | true => rw [hk n d]; simpa using this
      | false => cases k' n <;> simp <;> omega

theorem blank_all (n : Nat) : blank (fun _ => false) n = n := by
  induction n with
  | zero => rfl
  | succ n ih => rw [blank_succ, ih]; simp

def enc (o : Nat × Nat) : Nat := o.1 * 2 ^ 32 + o.2

/-- What happens to the marks in some steps. -/
structure More (m : Space) (h : Nat → Bool) (st : Marks) (k : Nat → Bool) (st' : Marks)
    (k' : Nat → Bool) : Prop where
  mono : ∀ l, k l = true → k' l = true
  new : ∀ o, Cell h m.maxlines o → k' o.1 = true → k o.1 = true ∨ enc o ∈ st'.work
  work : ∀ e ∈ st.work, e ∈ st'.work
  count : blank k' m.maxlines + st'.work.length ≤ blank k m.maxlines + st.work.length

theorem More.refl : More m h st k st k :=
  ⟨fun _ h => h, fun _ _ h => .inl h, fun _ h => h, Nat.le_refl _⟩

theorem More.trans (a : More m h st k st' k') (b : More m h st' k' st'' k'') :
    More m h st k st'' k'' where
  mono l hl := b.mono l (a.mono l hl)
  new o c ho := by
    rcases b.new o c ho with h₁ | h₁
    · rcases a.new o c h₁ with h₂ | h₂
      · exact .inl h₂
      · exact .inr (b.work _ h₂)
    · exact .inr h₁
  work e he := b.work e (a.work e he)
  count := Nat.le_trans b.count a.count

theorem markRoot_ok {m : Space} (ok : HeapOk m h) (mk : MarkOk m h mem roots st k) {p : Nat}
    (hp : ∀ o, Cell h m.maxlines o → Hits m p o → Reached m h mem roots o) :
    ∃ st' k', markRoot m p st = some st' ∧ MarkOk m h mem roots st' k' ∧ More m h st k st' k' ∧
      ∀ o, Cell h m.maxlines o → Hits m p o → k' o.1 = true := by
  unfold markRoot
  split
  · next c =>
    obtain ⟨o, h₁, h₂, h₃⟩ := objectAt_hits ok c
    have hle := h₂.le
    have hpos := h₂.pos
    have hsm := ok.small
    rw [h₁]
    obtain ⟨line, objlen⟩ := o
    dsimp only at hle hpos ⊢
    rw [Verif.Mask.test_rep mk.rep line (by omega)]
    cases hk : k line with
    | true =>
      refine ⟨st, k, rfl, mk, .refl, fun o' c' hp' => ?_⟩
      rw [hits_unique c' h₂ hp' h₃]
      exact hk
    | false =>
      dsimp only
      obtain ⟨mk', e, hr⟩ := Verif.Mask.setRange_rep mk.rep line objlen hle
      rw [e]
      have hk' : ∀ l, (if line ≤ l ∧ l < line + objlen then true else k l) = true ↔
          In l (line, objlen) ∨ k l = true := by
        intro l
        unfold In
        dsimp only
        split
        · next d => simp [d]
        · next d => simp [d]
      refine ⟨_, _, rfl, ⟨hr, ?_, ?_, ?_⟩, ⟨?_, ?_, ?_, ?_⟩, ?_⟩
      · intro o l c' hl
        rw [Bool.eq_iff_iff, hk', hk', mk.whole o l c' hl]
        constructor
        · rintro (d | d)
          · left
            rw [cell_unique c' h₂ hl d]
            exact ⟨Nat.le_refl _, by dsimp only; omega⟩
          · exact .inr d
        · rintro (d | d)
          · left
            rw [cell_unique c' h₂ (l := o.1) ⟨Nat.le_refl _, by have := c'.pos; omega⟩ d] at hl
            exact hl
          · exact .inr d
      · intro o c' ho
        rw [hk'] at ho
        rcases ho with d | d
        · rw [cell_unique c' h₂ (l := o.1) ⟨Nat.le_refl _, by have := c'.pos; omega⟩ d]
          exact hp _ h₂ h₃
        · exact mk.reach o c' d
      · intro e he
        rcases List.mem_cons.1 he with d | d
        · exact ⟨_, h₂, (hk' line).2 (.inl ⟨Nat.le_refl _, by dsimp only; omega⟩), d⟩
        · obtain ⟨o, a₁, a₂, a₃⟩ := mk.work e d
          exact ⟨o, a₁, (hk' o.1).2 (.inr a₂), a₃⟩
      · exact fun l hl => (hk' l).2 (.inr hl)
      · intro o c' ho
        rw [hk'] at ho
        rcases ho with d | d
        · right
          rw [cell_unique c' h₂ (l := o.1) ⟨Nat.le_refl _, by have := c'.pos; omega⟩ d]
          exact List.mem_cons_self
        · exact .inl d
      · exact fun e he => List.mem_cons_of_mem _ he
      · have := blank_lt (k' := fun l => if line ≤ l ∧ l < line + objlen then true else k l)
          (fun l hl => (hk' l).2 (.inr hl)) (n := m.maxlines) (l := line) (by omega) hk
          ((hk' line).2 (.inl ⟨Nat.le_refl _, by dsimp only; omega⟩))
        rw [List.length_cons]
        omega
      · intro o' c' hp'
        rw [hits_unique c' h₂ hp' h₃]
        exact (hk' line).2 (.inl ⟨Nat.le_refl _, by dsimp only; omega⟩)
  · next c =>
    refine ⟨st, k, rfl, mk, .refl, fun o c' hp' => ?_⟩
    exfalso
    apply c
    unfold Hits at hp'
    unfold isPtr
    simp only [Bool.and_eq_true, decide_eq_true_eq]
    omega

theorem markAll_ok {m : Space} (ok : HeapOk m h) : ∀ (ps : List Nat) {st : Marks} {k : Nat → Bool},
    MarkOk m h mem roots st k →
    (∀ p ∈ ps, ∀ o, Cell h m.maxlines o → Hits m p o → Reached m h mem roots o) →
    ∃ st' k', markAll m ps st = some st' ∧ MarkOk m h mem roots st' k' ∧ More m h st k st' k' ∧
      ∀ p ∈ ps, ∀ o, Cell h m.maxlines o → Hits m p o → k' o.1 = true
  | [], st, k, mk, _ => ⟨st, k, rfl, mk, .refl, fun p hp => by cases hp⟩
  | p :: ps, st, k, mk, hp => by
    obtain ⟨st₁, k₁, a₁, a₂, a₃, a₄⟩ := markRoot_ok ok mk (hp p List.mem_cons_self)
    obtain ⟨st₂, k₂, b₁, b₂, b₃, b₄⟩ := markAll_ok ok ps a₂ fun q hq => hp q (List.mem_cons_of_mem _ hq)
    refine ⟨st₂, k₂, ?_, b₂, a₃.trans b₃, ?_⟩
    · unfold markAll
      rw [a₁]
      exact b₁
    · intro q hq o c ho
      rcases List.mem_cons.1 hq with d | d
      · subst d; exact b₃.mono _ (a₄ o c ho)
      · exact b₄ q d o c ho

/-- The cells with marks that are not in the work list have been scanned. -/
def Scanned (m : Space) (h : Nat → Bool) (mem : Nat → Nat) (st : Marks) (k : Nat → Bool) : Prop :=
  ∀ o, Cell h m.maxlines o → k o.1 = true → enc o ∈ st.work ∨
    ∀ p ∈ words mem o.1 o.2, ∀ o', Cell h m.maxlines o' → Hits m p o' → k o'.1 = true

theorem mem_words {mem : Nat → Nat} {a n p : Nat} :
    p ∈ words mem a n ↔ ∃ k, 4 * a ≤ k ∧ k < 4 * (a + n) ∧ p = mem k := by
  unfold words
  simp only [List.mem_map, List.mem_range]
  constructor
  · rintro ⟨k, h₁, h₂⟩
    exact ⟨4 * a + k, by omega, by omega, h₂.symm⟩
  · rintro ⟨k, h₁, h₂, h₃⟩
    refine ⟨k - 4 * a, by omega, ?_⟩
    rw [h₃, show 4 * a + (k - 4 * a) = k by omega]

theorem drain_ok {m : Space} (ok : HeapOk m h) : ∀ (fuel : Nat) {st : Marks} {k : Nat → Bool},
    MarkOk m h mem roots st k → Scanned m h mem st k →
    blank k m.maxlines + st.work.length ≤ fuel →
    ∃ st' k', drain m mem fuel st = some st' ∧ MarkOk m h mem roots st' k' ∧
      (∀ l, k l = true → k' l = true) ∧ Scanned m h mem st' k' ∧ st'.work = [] := by
  intro fuel
  induction fuel with
  | zero =>
    intro st k mk sc hf
    have hw : st.work = [] := List.eq_nil_of_length_eq_zero (by omega)
    refine ⟨st, k, ?_, mk, fun _ h => h, sc, hw⟩
    unfold drain
    rw [hw]
  | succ fuel ih =>
    intro st k mk sc hf
    unfold drain
    cases hw : st.work with
    | nil => exact ⟨st, k, rfl, mk, fun _ h => h, sc, hw⟩
    | cons e work =>
      obtain ⟨o, c, h₁, h₂⟩ := mk.work e (by rw [hw]; exact List.mem_cons_self)
      have hsm := ok.small
      have hle := c.le
      have d₁ : e / 2 ^ 32 = o.1 := by rw [h₂]; omega
      have d₂ : e % 2 ^ 32 = o.2 := by rw [h₂]; omega
      dsimp only
      rw [d₁, d₂]
      have mk₁ : MarkOk m h mem roots { st with work := work } k :=
        ⟨mk.rep, mk.whole, mk.reach, fun e' he' => mk.work e' (by rw [hw]; exact List.mem_cons_of_mem _ he')⟩
      obtain ⟨st₂, k₂, a₁, a₂, a₃, a₄⟩ := markAll_ok ok (words mem o.1 o.2) mk₁ (by
        intro p hp o' c' ho'
        obtain ⟨i, e₁, e₂, e₃⟩ := mem_words.1 hp
        subst e₃
        exact .step (mk.reach o c h₁) e₁ e₂ c' ho')
      have sc₂ : Scanned m h mem st₂ k₂ := by
        intro o' c' ho'
        by_cases e : o' = o
        · subst e; exact .inr a₄
        · rcases a₃.new o' c' ho' with b | b
          · rcases sc o' c' b with b' | b'
            · rw [hw] at b'
              rcases List.mem_cons.1 b' with b'' | b''
              · exfalso
                apply e
                have := c'.le
                refine cell_head c' c ?_
                rw [h₂] at b''
                unfold enc at b''
                omega
              · exact .inl (a₃.work _ b'')
            · exact .inr fun p hp o'' c'' ho'' => a₃.mono _ (b' p hp o'' c'' ho'')
          · exact .inl b
      have hc := a₃.count
      dsimp only at hc
      obtain ⟨st₃, k₃, b₁, b₂, b₃, b₄, b₅⟩ := ih a₂ sc₂ (by rw [hw, List.length_cons] at hf; omega)
      refine ⟨st₃, k₃, ?_, b₂, fun l hl => b₃ l (a₃.mono l hl), b₄, b₅⟩
      rw [a₁]
      exact b₁

/-- The marks at the end: exactly the cells that can be reached. -/
theorem marks_exact {m : Space} (ok : HeapOk m h) (mem : Nat → Nat) (roots : List Nat) :
    ∃ st₁ st k, markAll m roots ⟨Mask.init m.maxlines, []⟩ = some st₁ ∧
      drain m mem m.maxlines st₁ = some st ∧ Rep st.marks m.maxlines k ∧
      (∀ o l, Cell h m.maxlines o → In l o → k l = k o.1) ∧
      ∀ o, Cell h m.maxlines o → (k o.1 = true ↔ Reached m h mem roots o) := by
  have mk₀ : MarkOk m h mem roots ⟨Mask.init m.maxlines, []⟩ (fun _ => false) :=
    ⟨Verif.Mask.init_rep _, fun _ _ _ _ => rfl, (fun _ _ h => nomatch h), (fun _ h => nomatch h)⟩
  obtain ⟨st₁, k₁, a₁, a₂, a₃, a₄⟩ := markAll_ok ok roots mk₀ fun p hp o c ho => .root hp c ho
  have hc := a₃.count
  rw [blank_all] at hc
  obtain ⟨st, k, b₁, b₂, b₃, b₄, b₅⟩ := drain_ok ok m.maxlines a₂ (by
    intro o c ho
    rcases a₃.new o c ho with d | d
    · cases d
    · exact .inl d) (by simpa using hc)
  refine ⟨st₁, st, k, a₁, b₁, b₂.rep, b₂.whole, fun o c => ⟨b₂.reach o c, fun r => ?_⟩⟩
  induction r with
  | root hp c ho => exact b₃ _ (a₄ _ hp _ c ho)
  | step r' e₁ e₂ c ho ih =>
    rcases b₄ _ r'.cell (ih r'.cell) with d | d
    · rw [b₅] at d; cases d
    · exact d _ (mem_words.2 ⟨_, e₁, e₂, rfl⟩) _ c ho

/-! ## Sweeping -/

structure SweepOk (n : Nat) (k : Nat → Bool) (line : Nat) (fs : List (Nat × Nat)) : Prop where
  pos : ∀ f ∈ fs, 0 < f.2 ∧ line ≤ f.1 ∧ f.1 + f.2 ≤ n
  blank : ∀ f ∈ fs, ∀ l, In l f → k l = false
  all : ∀ l, line ≤ l → l < n → k l = false → ∃ f ∈ fs, In l f
  stop : ∀ f ∈ fs, f.1 + f.2 < n → k (f.1 + f.2) = true
  order : fs.Pairwise fun f g => f.1 + f.2 ≤ g.1

theorem sweep_ok {marks : Mask} (hm : Rep marks n k) : ∀ (fuel line : Nat) {heads : Mask}
    {h : Nat → Bool}, Rep heads n h → n ≤ line + fuel →
    ∃ heads' fs, sweep n marks fuel line heads = some (heads', fs) ∧
      Rep heads' n (fun l => if line ≤ l ∧ l < n ∧ k l = false then true else h l) ∧
      SweepOk n k line fs
  | 0, line, heads, h, hr, hf => by
    refine ⟨heads, [], rfl, ?_, ⟨by simp, by simp, by omega, by simp, .nil⟩⟩
    have : (fun l => if line ≤ l ∧ l < n ∧ k l = false then true else h l) = h := by
      funext l
      rw [if_neg (by omega)]
    rw [this]
    exact hr
  | fuel + 1, line, heads, h, hr, hf => by
    unfold sweep
    split
    · next c =>
      rw [Verif.Mask.countClear_rep hm line c]
      obtain ⟨r₁, r₂, r₃⟩ := run_cases k (n := n) (b := line) (by omega)
      generalize runOf k n line = r at r₁ r₂ r₃ ⊢
      cases r with
      | zero =>
        dsimp only
        obtain ⟨heads', fs, h₁, h₂, h₃⟩ := sweep_ok hm fuel (line + 1) hr (by omega)
        have hl : k line = true := r₃ (by omega)
        refine ⟨heads', fs, h₁, ?_, ⟨fun f hf => ?_, h₃.blank, fun l a b d => ?_, h₃.stop, h₃.order⟩⟩
        · have : (fun l => if line ≤ l ∧ l < n ∧ k l = false then true else h l) =
              fun l => if line + 1 ≤ l ∧ l < n ∧ k l = false then true else h l := by
            funext l
            by_cases e : l = line
            · subst e
              rw [if_neg (by rw [hl]; simp), if_neg (by omega)]
            · by_cases d : line + 1 ≤ l ∧ l < n ∧ k l = false
              · rw [if_pos d, if_pos ⟨by omega, d.2⟩]
              · rw [if_neg d, if_neg fun d' => d ⟨by omega, d'.2⟩]
          rw [this]
          exact h₂
        · have := h₃.pos f hf; omega
        · refine h₃.all l ?_ b d
          by_cases e : l = line
          · subst e; rw [hl] at d; cases d
          · omega
      | succ r =>
        dsimp only
        obtain ⟨hd₁, e₁, hr₁⟩ := Verif.Mask.setRange_rep hr line (r + 1) r₁
        rw [e₁]
        dsimp only
        obtain ⟨heads', fs, h₁, h₂, h₃⟩ := sweep_ok hm fuel (line + (r + 1)) hr₁ (by omega)
        rw [h₁]
        refine ⟨heads', (line, r + 1) :: fs, rfl, ?_, ⟨?_, ?_, ?_, ?_, ?_⟩⟩
        · have : (fun l => if line ≤ l ∧ l < n ∧ k l = false then true else h l) =
              fun l => if line + (r + 1) ≤ l ∧ l < n ∧ k l = false then true else
                if line ≤ l ∧ l < line + (r + 1) then true else h l := by
            funext l
            by_cases e : line ≤ l ∧ l < line + (r + 1)
            · rw [if_pos ⟨e.1, by omega, r₂ l e.1 e.2⟩, if_neg (by omega), if_pos e]
            · by_cases d : line + (r + 1) ≤ l ∧ l < n ∧ k l = false
              · rw [if_pos d, if_pos ⟨by omega, d.2⟩]
              · rw [if_neg d, if_neg e, if_neg fun d' => d ⟨by omega, d'.2⟩]
          rw [this]
          exact h₂
        · intro f hf
          rcases List.mem_cons.1 hf with d | d
          · subst d; dsimp only; omega
          · have := h₃.pos f d; omega
        · intro f hf l hl
          rcases List.mem_cons.1 hf with d | d
          · subst d; exact r₂ l hl.1 hl.2
          · exact h₃.blank f d l hl
        · intro l a b d
          by_cases e : l < line + (r + 1)
          · exact ⟨_, List.mem_cons_self, a, e⟩
          · obtain ⟨f, f₁, f₂⟩ := h₃.all l (by omega) b d
            exact ⟨f, List.mem_cons_of_mem _ f₁, f₂⟩
        · intro f hf
          rcases List.mem_cons.1 hf with d | d
          · subst d; exact r₃
          · exact h₃.stop f d
        · exact .cons (fun g hg => (h₃.pos g hg).2.1) h₃.order
    · next c =>
      refine ⟨heads, [], rfl, ?_, ⟨by simp, by simp, by omega, by simp, .nil⟩⟩
      have : (fun l => if line ≤ l ∧ l < n ∧ k l = false then true else h l) = h := by
        funext l
        rw [if_neg (by omega)]
      rw [this]
      exact hr

/-! ## The heap between two operations -/

structure Inv (m : Space) (h : Nat → Bool) : Prop extends HeapOk m h where
  frag : ∀ f ∈ m.free, 0 < f.2 ∧ f.1 + f.2 ≤ m.maxlines
  order : m.free.Pairwise fun f g => f.1 + f.2 ≤ g.1
  freeHead : ∀ f ∈ m.free, ∀ l, In l f → h l = true
  freeStop : ∀ f ∈ m.free, f.1 + f.2 < m.maxlines → h (f.1 + f.2) = true

/-- An allocated object. -/
def Obj (m : Space) (h : Nat → Bool) (o : Nat × Nat) : Prop :=
  Cell h m.maxlines o ∧ ∀ f ∈ m.free, ∀ l, In l o → ¬ In l f

/-- A collection: the objects reached stay, all else is free. -/
theorem gc_ok {m : Space} (inv : Inv m h) (mem : Nat → Nat) (roots : List Nat) :
    ∃ m' h', gc m mem roots = some m' ∧ Inv m' h' ∧ m'.base = m.base ∧ m'.maxlines = m.maxlines ∧
      (∀ o, Reached m h mem roots o → Obj m' h' o) ∧
      (∀ f ∈ m'.free, ∀ o l, Reached m h mem roots o → In l o → ¬ In l f) ∧
      (∀ l, l < m.maxlines → (∀ o, Reached m h mem roots o → ¬ In l o) → ∃ f ∈ m'.free, In l f) ∧
      ∀ f ∈ m'.free, f.1 + f.2 < m.maxlines → ∃ o, Reached m h mem roots o ∧ In (f.1 + f.2) o := by
  obtain ⟨st₁, st, k, a₁, a₂, a₃, a₄, a₅⟩ := marks_exact inv.toHeapOk mem roots
  obtain ⟨heads', fs, b₁, b₂, b₃⟩ := sweep_ok a₃ m.maxlines 0 inv.rep (by omega)
  -- the cell of a line
  have cellOf : ∀ l, l < m.maxlines → ∃ o, Cell h m.maxlines o ∧ In l o := by
    intro l hl
    obtain ⟨o, -, c, d₁, d₂, -⟩ := objectAt_cell inv.rep inv.zero (.inl hl)
    exact ⟨o, c, d₁, d₂ hl⟩
  have hh : ∀ l, h l = true →
      (if 0 ≤ l ∧ l < m.maxlines ∧ k l = false then true else h l) = true := by
    intro l hl
    split
    · rfl
    · exact hl
  have marked : ∀ o l, Reached m h mem roots o → In l o → k l = true := by
    intro o l r hl
    rw [a₄ o l r.cell hl]
    exact (a₅ o r.cell).2 r
  refine ⟨{ m with heads := heads', free := fs },
    fun l => if 0 ≤ l ∧ l < m.maxlines ∧ k l = false then true else h l, ?_, ?_, rfl, rfl, ?_, ?_, ?_, ?_⟩
  · unfold gc
    simp only [a₁, a₂, b₁, Option.bind_eq_bind, Option.bind_some]
  · refine ⟨⟨b₂, hh 0 inv.zero, inv.margin, inv.small⟩, fun f hf => ?_, b₃.order, ?_, ?_⟩
    · have := b₃.pos f hf; exact ⟨this.1, this.2.2⟩
    · intro f hf l hl
      have := b₃.pos f hf
      rw [if_pos ⟨by omega, by have := hl.2; omega, b₃.blank f hf l hl⟩]
    · intro f hf hlt
      have hp := b₃.pos f hf
      have s₁ := b₃.stop f hf hlt
      have s₂ := b₃.blank f hf (f.1 + f.2 - 1) ⟨by omega, by omega⟩
      apply hh
      obtain ⟨o, c, d₁, d₂⟩ := cellOf (f.1 + f.2) hlt
      by_cases e : f.1 + f.2 = o.1
      · rw [e]; exact c.head
      · have t₁ := a₄ o (f.1 + f.2) c ⟨d₁, d₂⟩
        have t₂ := a₄ o (f.1 + f.2 - 1) c ⟨by omega, by omega⟩
        rw [t₁, ← t₂, s₂] at s₁
        cases s₁
  · intro o r
    have c := r.cell
    refine ⟨⟨c.pos, c.le, hh _ c.head, ?_, fun hlt => hh _ (c.stop hlt)⟩, ?_⟩
    · intro l h₁ h₂
      rw [if_neg, c.rest l h₁ h₂]
      rw [marked o l r ⟨by omega, h₂⟩]
      simp
    · intro f hf l hl hlf
      have := b₃.blank f hf l hlf
      rw [marked o l r hl] at this
      cases this
  · intro f hf o l r hl hlf
    have := b₃.blank f hf l hlf
    rw [marked o l r hl] at this
    cases this
  · intro l hl hno
    refine b₃.all l (Nat.zero_le _) hl ?_
    cases hk : k l with
    | false => rfl
    | true =>
      obtain ⟨o, c, hin⟩ := cellOf l hl
      rw [a₄ o l c hin] at hk
      exact absurd hin (hno o ((a₅ o c).1 hk))
  · intro f hf hlt
    have s₁ := b₃.stop f hf hlt
    obtain ⟨o, c, hin⟩ := cellOf _ hlt
    rw [a₄ o _ c hin] at s₁
    exact ⟨o, (a₅ o c).1 s₁, hin⟩

/-! ## Allocating -/

theorem fit_none {n : Nat} : ∀ {fs : List (Nat × Nat)}, fit n fs = none → ∀ f ∈ fs, f.2 < n
  | [], _, f, hf => by cases hf
  | g :: fs, h, f, hf => by
    unfold fit at h
    split at h
    · cases h
    · next c =>
      rcases List.mem_cons.1 hf with d | d
      · subst d; omega
      · exact fit_none (by simpa using h) f d

theorem fit_some {n : Nat} : ∀ {fs : List (Nat × Nat)} {line : Nat} {fs' : List (Nat × Nat)},
    fit n fs = some (line, fs') → ∃ a f b, fs = a ++ f :: b ∧ f.1 = line ∧ n ≤ f.2 ∧
      (∀ g ∈ a, g.2 < n) ∧
      fs' = a ++ if f.2 = n then b else (f.1 + n, f.2 - n) :: b
  | [], line, fs', h => by cases h
  | g :: fs, line, fs', h => by
    unfold fit at h
    split at h
    · next c =>
      obtain ⟨rfl, rfl⟩ := Prod.mk.inj (Option.some.inj h)
      exact ⟨[], g, fs, rfl, rfl, c, by simp, rfl⟩
    · next c =>
      cases hf : fit n fs with
      | none => rw [hf] at h; cases h
      | some r =>
        rw [hf] at h
        obtain ⟨rfl, rfl⟩ := Prod.mk.inj (Option.some.inj h)
        obtain ⟨a, f, b, rfl, h₁, h₂, h₃, h₄⟩ := fit_some (line := r.1) (fs' := r.2) hf
        refine ⟨g :: a, f, b, rfl, h₁, h₂, ?_, ?_⟩
        · intro x hx
          rcases List.mem_cons.1 hx with d | d
          · subst d; omega
          · exact h₃ x d
        · rw [h₄]; rfl

/-- An allocation: a new object, and the others stay. -/
theorem tryAlloc_ok {m : Space} (inv : Inv m h) {size : Nat} (hn : 0 < nlines size) :
    (tryAlloc m size = some none ∧ ∀ f ∈ m.free, f.2 < nlines size) ∨
    ∃ line m' h', tryAlloc m size = some (some (line, m')) ∧ Inv m' h' ∧ m'.base = m.base ∧
      m'.maxlines = m.maxlines ∧ Obj m' h' (line, nlines size) ∧
      (∀ o, Obj m h o → Obj m' h' o) ∧
      ∃ f ∈ m.free, ∀ l, In l (line, nlines size) → In l f := by
  unfold tryAlloc
  cases hf : fit (nlines size) m.free with
  | none => exact .inl ⟨rfl, fit_none hf⟩
  | some r =>
    right
    obtain ⟨line, free⟩ := r
    obtain ⟨a, f, b, e₁, e₂, e₃, -, e₄⟩ := fit_some hf
    generalize nlines size = n at *
    have hfm : f ∈ m.free := by rw [e₁]; simp
    have hfr := inv.frag f hfm
    dsimp only
    obtain ⟨m₁, d₁, r₁⟩ := Verif.Mask.set_rep inv.rep line (by omega)
    rw [d₁]
    dsimp only
    have hclear : ∃ m₂, (if n > 1 then Mask.clearRange m₁ (line + 1) (n - 1) else some m₁) = some m₂ ∧
        Rep m₂ m.maxlines (fun l => if l = line then true else
          if line < l ∧ l < line + n then false else h l) := by
      split
      · next c =>
        obtain ⟨m₂, d₂, r₂⟩ := Verif.Mask.clearRange_rep r₁ (line + 1) (n - 1) (by omega)
        refine ⟨m₂, d₂, ?_⟩
        have : (fun l => if l = line then true else if line < l ∧ l < line + n then false else h l) =
            fun i => if line + 1 ≤ i ∧ i < line + 1 + (n - 1) then false else
              if i = line then true else h i := by
          funext l
          by_cases e : l = line
          · rw [if_pos e, if_neg (by omega), if_pos e]
          · by_cases g : line < l ∧ l < line + n
            · rw [if_neg e, if_pos g, if_pos (by omega)]
            · rw [if_neg e, if_neg g, if_neg (by omega), if_neg e]
        rw [this]
        exact r₂
      · next c =>
        refine ⟨m₁, rfl, ?_⟩
        have : (fun l => if l = line then true else if line < l ∧ l < line + n then false else h l) =
            fun i => if i = line then true else h i := by
          funext l
          by_cases e : l = line
          · rw [if_pos e, if_pos e]
          · rw [if_neg e, if_neg e, if_neg (by omega)]
        rw [this]
        exact r₁
    obtain ⟨m₂, d₂, r₂⟩ := hclear
    rw [d₂]
    dsimp only
    -- how the new fragments are related to the old ones
    have hord := inv.order
    rw [e₁] at hord
    rw [List.pairwise_append] at hord
    obtain ⟨o₁, o₂, o₃⟩ := hord
    rw [List.pairwise_cons] at o₂
    have hfree : ∀ g ∈ free, (g ∈ m.free ∧ (g.1 + g.2 ≤ line ∨ f.1 + f.2 ≤ g.1)) ∨
        (g = (f.1 + n, f.2 - n) ∧ n < f.2) := by
      intro g hg
      rw [e₄] at hg
      rcases List.mem_append.1 hg with c | c
      · exact .inl ⟨by rw [e₁]; simp [c], .inl (by have := o₃ g c f (by simp); omega)⟩
      · split at c
        · exact .inl ⟨by rw [e₁]; simp [c], .inr (o₂.1 g c)⟩
        · rcases List.mem_cons.1 c with c | c
          · exact .inr ⟨c, by omega⟩
          · exact .inl ⟨by rw [e₁]; simp [c], .inr (o₂.1 g c)⟩
    have same : ∀ l, ¬ (line ≤ l ∧ l < line + n) →
        (if l = line then true else if line < l ∧ l < line + n then false else h l) = h l := by
      intro l hl
      rw [if_neg (by omega), if_neg (by omega)]
    have oldHead : ∀ l, h l = true → ¬ (line < l ∧ l < line + n) →
        (if l = line then true else if line < l ∧ l < line + n then false else h l) = true := by
      intro l h₁ h₂
      by_cases e : l = line
      · rw [if_pos e]
      · rw [if_neg e, if_neg h₂, h₁]
    refine ⟨line, { m with heads := m₂, free := free }, _, rfl,
      ⟨⟨r₂, oldHead 0 inv.zero (by omega), inv.margin, inv.small⟩, ?_, ?_, ?_, ?_⟩, rfl, rfl, ?_, ?_, ?_⟩
    · intro g hg
      rcases hfree g hg with ⟨c, -⟩ | ⟨c, c'⟩
      · exact inv.frag g c
      · subst c; dsimp only; omega
    · dsimp only
      rw [e₄, List.pairwise_append]
      refine ⟨o₁, ?_, ?_⟩
      · split
        · exact o₂.2
        · rw [List.pairwise_cons]
          exact ⟨fun g hg => by have := o₂.1 g hg; dsimp only; omega, o₂.2⟩
      · intro g hg g' hg'
        split at hg'
        · exact o₃ g hg g' (by simp [hg'])
        · rcases List.mem_cons.1 hg' with c | c
          · subst c
            have := o₃ g hg f (by simp)
            dsimp only
            omega
          · exact o₃ g hg g' (by simp [c])
    · intro g hg l hl
      unfold In at hl
      rcases hfree g hg with ⟨c, c'⟩ | ⟨c, c'⟩
      · exact oldHead l (inv.freeHead g c l hl) (by omega)
      · subst c
        dsimp only at hl
        exact oldHead l (inv.freeHead f hfm l ⟨by omega, by omega⟩) (by omega)
    · intro g hg hlt
      rcases hfree g hg with ⟨c, c'⟩ | ⟨c, c'⟩
      · have := inv.frag g c
        exact oldHead _ (inv.freeStop g c hlt) (by omega)
      · subst c
        dsimp only at hlt ⊢
        have e : f.1 + n + (f.2 - n) = f.1 + f.2 := by omega
        rw [e] at hlt ⊢
        exact oldHead _ (inv.freeStop f hfm hlt) (by omega)
    · refine ⟨⟨hn, by dsimp only; omega, ?_, ?_, ?_⟩, ?_⟩
      · dsimp only; rw [if_pos rfl]
      · intro l h₁ h₂
        dsimp only at h₁ h₂ ⊢
        rw [if_neg (by omega), if_pos ⟨h₁, h₂⟩]
      · intro hlt
        dsimp only at hlt ⊢
        refine oldHead _ ?_ (by omega)
        by_cases c : f.2 = n
        · rw [← c, ← e₂]
          refine inv.freeStop f hfm ?_
          rw [e₂, c]; exact hlt
        · exact inv.freeHead f hfm _ ⟨by omega, by omega⟩
      · intro g hg l hl hlg
        unfold In at hl hlg
        dsimp only at hl
        rcases hfree g hg with ⟨c, c'⟩ | ⟨c, c'⟩
        · omega
        · subst c
          dsimp only at hlg
          omega
    · rintro o ⟨c, hnf⟩
      have hdis : ∀ l, In l o → ¬ (f.1 ≤ l ∧ l < f.1 + f.2) := hnf f hfm
      have hpos := c.pos
      have away : o.1 + o.2 ≤ f.1 ∨ f.1 + f.2 ≤ o.1 := by
        have h₁ := hdis o.1 ⟨Nat.le_refl _, by omega⟩
        by_cases h₂ : o.1 < f.1
        · left
          by_cases h₃ : o.1 + o.2 ≤ f.1
          · exact h₃
          · exact absurd ⟨Nat.le_refl _, by omega⟩ (hdis f.1 ⟨by omega, by omega⟩)
        · omega
      refine ⟨⟨c.pos, c.le, oldHead _ c.head (by omega), ?_, fun hlt => oldHead _ (c.stop hlt) (by omega)⟩, ?_⟩
      · intro l h₁ h₂
        rw [same l (by omega)]
        exact c.rest l h₁ h₂
      · intro g hg l hl hlg
        rcases hfree g hg with ⟨d, -⟩ | ⟨d, d'⟩
        · exact hnf g d l hl hlg
        · subst d
          unfold In at hl hlg
          dsimp only at hlg
          exact hdis l hl ⟨by omega, by omega⟩
    · exact ⟨f, hfm, fun l hl => by unfold In at hl ⊢; dsimp only at hl; omega⟩

/-- A new heap. -/
theorem new_ok {base size : Nat} (hs : 0 < size) (hm : (size + 31) / 32 * 32 ≤ 0x100000000 * 32)
    (ha : ((size + 31) / 32 - 1) % 64 ≠ 0) :
    ∃ m h, new base size = some m ∧ Inv m h ∧ m.base = base ∧
      m.maxlines = (size + 31) / 32 - 1 ∧ m.free = [(0, m.maxlines)] := by
  unfold new
  have e : ((size + 31) / 32 * 32 - 32) / 32 = (size + 31) / 32 - 1 := by omega
  dsimp only
  rw [if_neg (by omega), e]
  generalize (size + 31) / 32 - 1 = n at ha e
  have hr := Verif.Mask.init_rep n
  obtain ⟨k, h₁, h₂⟩ := Verif.Mask.setRange_rep hr 0 n (by omega)
  unfold Verif.Mask.setAll
  rw [hr.size, h₁]
  refine ⟨⟨base, n, k, [(0, n)]⟩, _, rfl, ⟨⟨h₂, ?_, ha, by dsimp only; omega⟩, ?_, ?_, ?_, ?_⟩, rfl, rfl, rfl⟩
  · rw [if_pos (by omega)]
  · intro f hf
    simp only [List.mem_singleton] at hf
    subst hf
    dsimp only
    omega
  · exact List.pairwise_singleton _ _
  · intro f hf l hl
    simp only [List.mem_singleton] at hf
    subst hf
    rw [if_pos (by unfold In at hl; dsimp only at hl; omega)]
  · intro f hf hlt
    simp only [List.mem_singleton] at hf
    subst hf
    dsimp only at hlt
    omega

end Verif.Gc
