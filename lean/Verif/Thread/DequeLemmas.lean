import Verif.Thread.DequeModel

/-!
# Invariant of the deque
-/

namespace Verif.Thread.Deque

open Verif.Thread

/-! ## Invariant -/

/-- Upper end of the contents: a pop by the owner gives its task up only at the end. -/
def high (s : St) : Nat :=
  match s.own with
  | .popTask nb | .popAge nb _ | .popZero nb _ _ _ | .popCas nb _ _ _ => nb + 1
  | .popSet _ => s.top
  | _ => s.bot

/-- Age that a thief has read after which it also found `bot` to be larger. -/
def TPc.valid : TPc → Option (Nat × Nat)
  | .read tp tg | .reading tp tg _ | .cas tp tg _ => some (tp, tg)
  | _ => none

/-- Age that a thief has read. -/
def TPc.seen : TPc → Option (Nat × Nat)
  | .bot tp tg | .read tp tg | .reading tp tg _ | .cas tp tg _ => some (tp, tg)
  | _ => none

structure Inv (s : St) : Prop where
  seen : ∀ t tp tg, (s.thief t).seen = some (tp, tg) → tg < s.tag ∨ (tg = s.tag ∧ tp ≤ s.top)
  valid : ∀ t tp tg, (s.thief t).valid = some (tp, tg) → tp = s.top → tg = s.tag → tp < high s
  safe : ∀ t tp tg, (s.thief t).valid = some (tp, tg) → tp < size
  reading : ∀ t tp tg v, s.thief t = .reading tp tg v → tp = s.top → tg = s.tag → v = s.cell tp
  cas : ∀ t tp tg x, s.thief t = .cas tp tg x → tp = s.top → tg = s.tag → s.cell tp = some x
  top : s.top ≤ high s
  full : ∀ i, s.top ≤ i → i < high s → s.cell i ≠ none
  room : s.bot ≤ size ∧ high s ≤ size
  pushRead : ∀ ts, s.own = .pushRead ts → s.bot + ts.length ≤ size
  pushCopy : ∀ b ts k, s.own = .pushCopy b ts k → b = s.bot ∧ k ≤ ts.length ∧
    s.bot + ts.length ≤ size ∧ ∀ j < k, s.cell (b + j) = ts[j]?
  pushMid : ∀ b ts k, s.own = .pushMid b ts k → b = s.bot ∧ k < ts.length ∧
    s.bot + ts.length ≤ size ∧ ∀ j < k, s.cell (b + j) = ts[j]?
  popStore : ∀ nb, s.own = .popStore nb → s.bot = nb + 1
  popTask : ∀ nb, s.own = .popTask nb → s.bot = nb
  popAge : ∀ nb x, s.own = .popAge nb x → s.bot = nb ∧ (s.top ≤ nb → s.cell nb = some x)
  popZero : ∀ nb x tp tg, s.own = .popZero nb x tp tg → s.bot = nb ∧ tg = s.tag ∧ nb ≤ tp ∧
    tp ≤ s.top ∧ (tp = nb → s.cell nb = some x)
  popCas : ∀ nb x tp tg, s.own = .popCas nb x tp tg → s.bot = 0 ∧ tg = s.tag ∧ nb ≤ tp ∧
    tp ≤ s.top ∧ (tp = nb → s.cell nb = some x)
  popSet : ∀ tg, s.own = .popSet tg → s.bot = 0 ∧ tg = s.tag

theorem inv_init (cell : Nat → Option Nat) : Inv (init cell) := by
  constructor <;> intros <;> simp_all [init, high, TPc.seen, TPc.valid, size]

theorem spoil_seen (i : Nat) (p : TPc) : (spoil i p).seen = p.seen := by cases p <;> rfl
theorem spoil_valid (i : Nat) (p : TPc) : (spoil i p).valid = p.valid := by cases p <;> rfl
theorem spoil_cas (i tp tg x : Nat) (p : TPc) : spoil i p = .cas tp tg x ↔ p = .cas tp tg x := by
  cases p <;> simp [spoil]
theorem spoil_reading (i tp tg : Nat) (v : Option Nat) (p : TPc) :
    spoil i p = .reading tp tg v ↔ ∃ w, p = .reading tp tg w ∧ v = if tp = i then none else w := by
  cases p <;> simp [spoil]
  constructor
  · rintro ⟨rfl, rfl, rfl⟩; exact ⟨_, ⟨rfl, rfl, rfl⟩, rfl⟩
  · rintro ⟨w, ⟨rfl, rfl, rfl⟩, rfl⟩; exact ⟨rfl, rfl, rfl⟩

theorem valid_seen (p : TPc) (a : Nat × Nat) (h : p.valid = some a) : p.seen = some a := by
  cases p <;> simp_all [TPc.valid, TPc.seen]

theorem getElem?_ne_none (ts : List Nat) (j : Nat) (h : j < ts.length) : ts[j]? ≠ none := by
  simp [h]

theorem upd_app {α : Type} (f : Nat → α) (a : Nat) (v : α) (x : Nat) :
    upd f a v x = if x = a then v else f x := rfl

attribute [local grind =] upd_app spoil_seen spoil_valid spoil_cas spoil_reading
attribute [local grind] TPc.valid TPc.seen high

theorem inv_push (s : St) (ts : List Nat) (hi : Inv s)
    (h : s.own = .idle) (hs : s.bot + ts.length ≤ size) :
    Inv
      { s with own := .pushRead ts } := by
  obtain ⟨i1, i2, i3, i4, i5, i6, i7, i8, i9, i10, i11, i12, i13, i14, i15, i16, i17⟩ := hi
  constructor <;> grind

theorem inv_pushRead (s : St) (ts : List Nat) (hi : Inv s)
    (h : s.own = .pushRead ts) :
    Inv
      { s with own := .pushCopy s.bot ts 0 } := by
  obtain ⟨i1, i2, i3, i4, i5, i6, i7, i8, i9, i10, i11, i12, i13, i14, i15, i16, i17⟩ := hi
  constructor <;> grind

theorem inv_pushBegin (s : St) (b : Nat) (ts : List Nat) (k : Nat) (hi : Inv s)
    (h : s.own = .pushCopy b ts k) (hk : k < ts.length) :
    Inv
      { s with cell := upd s.cell (b + k) none, own := .pushMid b ts k, thief := fun t => spoil (b + k) (s.thief t) } := by
  obtain ⟨i1, i2, i3, i4, i5, i6, i7, i8, i9, i10, i11, i12, i13, i14, i15, i16, i17⟩ := hi
  constructor <;> grind

theorem inv_pushEnd (s : St) (b : Nat) (ts : List Nat) (k : Nat) (hi : Inv s)
    (h : s.own = .pushMid b ts k) :
    Inv
      { s with cell := upd s.cell (b + k) ts[k]?, own := .pushCopy b ts (k + 1) } := by
  obtain ⟨i1, i2, i3, i4, i5, i6, i7, i8, i9, i10, i11, i12, i13, i14, i15, i16, i17⟩ := hi
  constructor
  case pushCopy =>
    intro b' ts' k' e
    injection e with e1 e2 e3
    subst e1 e2 e3
    obtain ⟨p1, p2, p3, p4⟩ := i11 b ts k h
    refine ⟨p1, p2, p3, fun j hj => ?_⟩
    by_cases c : j = k
    · subst c; simp
    · simp only [upd_app, if_neg (by omega : ¬ b + j = b + k)]
      exact p4 j (by omega)
  all_goals grind

theorem inv_pushStore (s : St) (b : Nat) (ts : List Nat) (hi : Inv s)
    (h : s.own = .pushCopy b ts ts.length) :
    Inv
      { s with bot := b + ts.length, own := .idle } := by
  obtain ⟨i1, i2, i3, i4, i5, i6, i7, i8, i9, i10, i11, i12, i13, i14, i15, i16, i17⟩ := hi
  have hp := i10 b ts ts.length h
  constructor
  case full =>
    intro i h1 h2
    simp only [high] at h2
    by_cases c : i < b
    · exact i7 i h1 (by simp only [high, h]; omega)
    · have := hp.2.2.2 (i - b) (by omega)
      rw [(by omega : b + (i - b) = i)] at this
      dsimp only
      rw [this]
      exact getElem?_ne_none ts _ (by omega)
  all_goals grind

theorem inv_pop (s : St)  (hi : Inv s)
    (h : s.own = .idle) :
    Inv
      { s with own := .popRead } := by
  obtain ⟨i1, i2, i3, i4, i5, i6, i7, i8, i9, i10, i11, i12, i13, i14, i15, i16, i17⟩ := hi
  constructor <;> grind

theorem inv_popEmpty (s : St)  (hi : Inv s)
    (h : s.own = .popRead) (hb : s.bot = 0) :
    Inv
      { s with own := .idle } := by
  obtain ⟨i1, i2, i3, i4, i5, i6, i7, i8, i9, i10, i11, i12, i13, i14, i15, i16, i17⟩ := hi
  constructor <;> grind

theorem inv_popRead (s : St)  (hi : Inv s)
    (h : s.own = .popRead) (hb : s.bot ≠ 0) :
    Inv
      { s with own := .popStore (s.bot - 1) } := by
  obtain ⟨i1, i2, i3, i4, i5, i6, i7, i8, i9, i10, i11, i12, i13, i14, i15, i16, i17⟩ := hi
  constructor <;> grind

theorem inv_popStore (s : St) (nb : Nat) (hi : Inv s)
    (h : s.own = .popStore nb) :
    Inv
      { s with bot := nb, own := .popTask nb } := by
  obtain ⟨i1, i2, i3, i4, i5, i6, i7, i8, i9, i10, i11, i12, i13, i14, i15, i16, i17⟩ := hi
  constructor <;> grind

theorem inv_popTask (s : St) (nb : Nat) (x : Nat) (hi : Inv s)
    (h : s.own = .popTask nb) (hx : ∀ y, s.cell nb = some y → x = y) :
    Inv
      { s with own := .popAge nb x } := by
  have hy : s.top ≤ nb → s.cell nb = some x := fun hle => by
    have hne := hi.full nb hle (by simp [high, h])
    cases e : s.cell nb with
    | none => exact absurd e hne
    | some y => rw [hx y e]
  obtain ⟨i1, i2, i3, i4, i5, i6, i7, i8, i9, i10, i11, i12, i13, i14, i15, i16, i17⟩ := hi
  constructor <;> grind

theorem inv_popMany (s : St) (nb : Nat) (x : Nat) (hi : Inv s)
    (h : s.own = .popAge nb x) (ht : nb > s.top) :
    Inv
      { s with own := .idle } := by
  obtain ⟨i1, i2, i3, i4, i5, i6, i7, i8, i9, i10, i11, i12, i13, i14, i15, i16, i17⟩ := hi
  constructor <;> grind

theorem inv_popFew (s : St) (nb : Nat) (x : Nat) (hi : Inv s)
    (h : s.own = .popAge nb x) (ht : ¬ nb > s.top) :
    Inv
      { s with own := .popZero nb x s.top s.tag } := by
  obtain ⟨i1, i2, i3, i4, i5, i6, i7, i8, i9, i10, i11, i12, i13, i14, i15, i16, i17⟩ := hi
  constructor <;> grind

theorem inv_popZero (s : St) (nb : Nat) (x : Nat) (tp : Nat) (tg : Nat) (hi : Inv s)
    (h : s.own = .popZero nb x tp tg) :
    Inv
      { s with bot := 0, own := .popCas nb x tp tg } := by
  obtain ⟨i1, i2, i3, i4, i5, i6, i7, i8, i9, i10, i11, i12, i13, i14, i15, i16, i17⟩ := hi
  constructor <;> grind

theorem inv_popCasNo (s : St) (nb : Nat) (x : Nat) (tp : Nat) (tg : Nat) (hi : Inv s)
    (h : s.own = .popCas nb x tp tg) (hn : nb ≠ tp) :
    Inv
      { s with own := .popSet tg } := by
  obtain ⟨i1, i2, i3, i4, i5, i6, i7, i8, i9, i10, i11, i12, i13, i14, i15, i16, i17⟩ := hi
  constructor <;> grind

theorem inv_popCasOk (s : St) (nb : Nat) (x : Nat) (tp : Nat) (tg : Nat) (hi : Inv s)
    (h : s.own = .popCas nb x tp tg) (hn : nb = tp) (ha : s.top = tp ∧ s.tag = tg) :
    Inv
      { s with top := 0, tag := tg + 1, own := .idle } := by
  have hv : ∀ t tp tg, (s.thief t).valid = some (tp, tg) → (s.thief t).seen = some (tp, tg) :=
    fun t tp tg h => valid_seen _ _ h
  obtain ⟨i1, i2, i3, i4, i5, i6, i7, i8, i9, i10, i11, i12, i13, i14, i15, i16, i17⟩ := hi
  constructor <;> grind

theorem inv_popCasFail (s : St) (nb : Nat) (x : Nat) (tp : Nat) (tg : Nat) (hi : Inv s)
    (h : s.own = .popCas nb x tp tg) (hn : nb = tp) (ha : ¬ (s.top = tp ∧ s.tag = tg)) :
    Inv
      { s with own := .popSet tg } := by
  obtain ⟨i1, i2, i3, i4, i5, i6, i7, i8, i9, i10, i11, i12, i13, i14, i15, i16, i17⟩ := hi
  constructor <;> grind

theorem inv_popSet (s : St) (tg : Nat) (hi : Inv s)
    (h : s.own = .popSet tg) :
    Inv
      { s with top := 0, tag := tg + 1, own := .idle } := by
  have hv : ∀ t tp tg, (s.thief t).valid = some (tp, tg) → (s.thief t).seen = some (tp, tg) :=
    fun t tp tg h => valid_seen _ _ h
  obtain ⟨i1, i2, i3, i4, i5, i6, i7, i8, i9, i10, i11, i12, i13, i14, i15, i16, i17⟩ := hi
  constructor <;> grind

theorem inv_steal (s : St) (t : Nat) (hi : Inv s)
    (h : s.thief t = .idle) :
    Inv
      { s with thief := upd s.thief t .age } := by
  obtain ⟨i1, i2, i3, i4, i5, i6, i7, i8, i9, i10, i11, i12, i13, i14, i15, i16, i17⟩ := hi
  constructor <;> grind

theorem inv_stealAge (s : St) (t : Nat) (hi : Inv s)
    (h : s.thief t = .age) :
    Inv
      { s with thief := upd s.thief t (.bot s.top s.tag) } := by
  obtain ⟨i1, i2, i3, i4, i5, i6, i7, i8, i9, i10, i11, i12, i13, i14, i15, i16, i17⟩ := hi
  constructor <;> grind

theorem inv_stealEmpty (s : St) (t : Nat) (tp : Nat) (tg : Nat) (hi : Inv s)
    (h : s.thief t = .bot tp tg) (hb : s.bot ≤ tp) :
    Inv
      { s with thief := upd s.thief t .idle } := by
  obtain ⟨i1, i2, i3, i4, i5, i6, i7, i8, i9, i10, i11, i12, i13, i14, i15, i16, i17⟩ := hi
  constructor <;> grind

theorem inv_stealBot (s : St) (t : Nat) (tp : Nat) (tg : Nat) (hi : Inv s)
    (h : s.thief t = .bot tp tg) (hb : ¬ s.bot ≤ tp) :
    Inv
      { s with thief := upd s.thief t (.read tp tg) } := by
  obtain ⟨i1, i2, i3, i4, i5, i6, i7, i8, i9, i10, i11, i12, i13, i14, i15, i16, i17⟩ := hi
  constructor <;> grind

theorem inv_stealRead (s : St) (t : Nat) (tp : Nat) (tg : Nat) (hi : Inv s)
    (h : s.thief t = .read tp tg) :
    Inv
      { s with thief := upd s.thief t (.reading tp tg (s.cell tp)) } := by
  obtain ⟨i1, i2, i3, i4, i5, i6, i7, i8, i9, i10, i11, i12, i13, i14, i15, i16, i17⟩ := hi
  constructor <;> grind

theorem inv_stealGot (s : St) (t : Nat) (tp : Nat) (tg : Nat) (v : Option Nat) (x : Nat) (hi : Inv s)
    (h : s.thief t = .reading tp tg v) (hx : ∀ y, v = some y → x = y) :
    Inv
      { s with thief := upd s.thief t (.cas tp tg x) } := by
  have hy : tp = s.top → tg = s.tag → s.cell tp = some x := fun h1 h2 => by
    have hv := hi.valid t tp tg (by rw [h]; rfl) h1 h2
    have hne := hi.full tp (by omega) hv
    have hr := hi.reading t tp tg v h h1 h2
    cases e : s.cell tp with
    | none => exact absurd e hne
    | some y => rw [hx y (by rw [hr, e])]
  obtain ⟨i1, i2, i3, i4, i5, i6, i7, i8, i9, i10, i11, i12, i13, i14, i15, i16, i17⟩ := hi
  constructor <;> grind

theorem inv_stealOk (s : St) (t : Nat) (tp : Nat) (tg : Nat) (x : Nat) (hi : Inv s)
    (h : s.thief t = .cas tp tg x) (ha : s.top = tp ∧ s.tag = tg) :
    Inv
      { s with top := tp + 1, thief := upd s.thief t .idle } := by
  have hv : ∀ t tp tg, (s.thief t).valid = some (tp, tg) → (s.thief t).seen = some (tp, tg) :=
    fun t tp tg h => valid_seen _ _ h
  obtain ⟨i1, i2, i3, i4, i5, i6, i7, i8, i9, i10, i11, i12, i13, i14, i15, i16, i17⟩ := hi
  constructor <;> grind

theorem inv_stealFail (s : St) (t : Nat) (tp : Nat) (tg : Nat) (x : Nat) (hi : Inv s)
    (h : s.thief t = .cas tp tg x) (ha : ¬ (s.top = tp ∧ s.tag = tg)) :
    Inv
      { s with thief := upd s.thief t .idle } := by
  obtain ⟨i1, i2, i3, i4, i5, i6, i7, i8, i9, i10, i11, i12, i13, i14, i15, i16, i17⟩ := hi
  constructor <;> grind

/-- Every thief about to compare and swap read the age fewer than 2^32 resets ago. -/
def Prompt (s : St) : Prop := ∀ t tp tg x, s.thief t = .cas tp tg x → s.tag < tg + tags

theorem steal_tag (s : St) (t tp tg x : Nat) (hi : Inv s) (hp : Prompt s)
    (h : s.thief t = .cas tp tg x) (ha : s.top = tp ∧ s.tag % tags = tg % tags) :
    s.top = tp ∧ s.tag = tg := by
  refine ⟨ha.1, ?_⟩
  have h1 := hp t tp tg x h
  have h2 := hi.seen t tp tg (by rw [h]; rfl)
  have h3 := ha.2
  unfold tags at *
  omega

theorem pop_tag (s : St) (nb tp tg x : Nat) (hi : Inv s) (h : s.own = .popCas nb x tp tg)
    (ha : s.top = tp ∧ s.tag % tags = tg % tags) : s.top = tp ∧ s.tag = tg :=
  ⟨ha.1, (hi.popCas nb x tp tg h).2.1.symm⟩

theorem inv_step (s s' : St) (a : Label) (hi : Inv s) (hp : Prompt s) (h : Step s a s') :
    Inv s' := by
  have tt : ∀ {tp tg}, ¬ (s.top = tp ∧ s.tag % tags = tg % tags) → ¬ (s.top = tp ∧ s.tag = tg) :=
    fun h1 h2 => h1 ⟨h2.1, by rw [h2.2]⟩
  cases h with
  | push ts h hs => exact inv_push s ts hi h hs
  | pushRead ts h => exact inv_pushRead s ts hi h
  | pushBegin b ts k h hk => exact inv_pushBegin s b ts k hi h hk
  | pushEnd b ts k h => exact inv_pushEnd s b ts k hi h
  | pushStore b ts h => exact inv_pushStore s b ts hi h
  | pop h => exact inv_pop s  hi h
  | popEmpty h hb => exact inv_popEmpty s  hi h hb
  | popRead h hb => exact inv_popRead s  hi h hb
  | popStore nb h => exact inv_popStore s nb hi h
  | popTask nb x h hx => exact inv_popTask s nb x hi h hx
  | popMany nb x h ht => exact inv_popMany s nb x hi h ht
  | popFew nb x h ht => exact inv_popFew s nb x hi h ht
  | popZero nb x tp tg h => exact inv_popZero s nb x tp tg hi h
  | popCasNo nb x tp tg h hn => exact inv_popCasNo s nb x tp tg hi h hn
  | popCasOk nb x tp tg h hn ha => exact inv_popCasOk s nb x tp tg hi h hn (pop_tag s nb tp tg x hi h ha)
  | popCasFail nb x tp tg h hn ha => exact inv_popCasFail s nb x tp tg hi h hn (tt ha)
  | popSet tg h => exact inv_popSet s tg hi h
  | steal t h => exact inv_steal s t hi h
  | stealAge t h => exact inv_stealAge s t hi h
  | stealEmpty t tp tg h hb => exact inv_stealEmpty s t tp tg hi h hb
  | stealBot t tp tg h hb => exact inv_stealBot s t tp tg hi h hb
  | stealRead t tp tg h => exact inv_stealRead s t tp tg hi h
  | stealGot t tp tg v x h hx => exact inv_stealGot s t tp tg v x hi h hx
  | stealOk t tp tg x h ha => exact inv_stealOk s t tp tg x hi h (steal_tag s t tp tg x hi hp h ha)
  | stealFail t tp tg x h ha => exact inv_stealFail s t tp tg x hi h (tt ha)

end Verif.Thread.Deque
