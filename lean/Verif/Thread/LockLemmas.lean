import Verif.Thread.LockModel

/-!
# Invariant of the lock
-/

namespace Verif.Thread.Lock

open Verif.Thread

/-- The lock that a thread is releasing and still owns. -/
def Pc.rel : Pc → Option Nat
  | .unlFast l | .unlAssert l | .unpLock l | .unpCb l | .unpStore l => some l
  | _ => none

/-- The lock that is known to be marked while a thread is there. -/
def Pc.marked : Pc → Option Nat
  | .unlAssert l | .unpLock l | .unpCb l | .unpStore l | .parkInc l | .parkWait l => some l
  | _ => none

/-- The lock whose bay mutex is held there. -/
def Pc.mtx : Pc → Option Nat
  | .parkCheck l | .parkInc l | .parkWait l | .parkDec l | .parkExit l | .unpCb l | .unpStore l
  | .unpRel l => some l
  | _ => none

/-- The lock in whose bay the thread is counted. -/
def Pc.counted : Pc → Option Nat
  | .parkWait l | .asleep l | .wake l | .parkDec l => some l
  | _ => none

def owns (s : St) (t l : Nat) : Prop := s.held t l = true ∨ (s.pc t).rel = some l

def inBay (bay : Nat → Nat) (pc : Nat → Pc) (b : Nat) (t : Nat) : Bool :=
  match (pc t).counted with
  | some l => decide (bay l = b)
  | none => false

structure Inv (n : Nat) (bay : Nat → Nat) (s : St) : Prop where
  locked : ∀ t l, owns s t l → (s.word l).locked = true
  owner : ∀ l, (s.word l).locked = true → ∃ t, t < n ∧ owns s t l
  excl : ∀ t t' l, owns s t l → owns s t' l → t = t'
  marked : ∀ t l, (s.pc t).marked = some l → s.word l = ⟨true, true⟩
  mtx : ∀ t b, s.mutex b = some t ↔ ∃ l, (s.pc t).mtx = some l ∧ bay l = b
  sleeper : ∀ t l, s.pc t = .asleep l → (s.word l).parked = true ∧
    ((s.word l).locked = false → ∃ t', t' < n ∧ (s.pc t' = .unpRel l ∨ s.pc t' = .bcast l))
  cnt : ∀ b, s.parked b = count (inBay bay s.pc b) n
  seen : ∀ t l st, s.pc t = .grab l st → st.locked = false
  once : ∀ t l, (s.pc t).rel = some l → s.held t l = false
  ok : s.failed = false
  out : ∀ t, n ≤ t → s.pc t = .idle ∧ ∀ l, s.held t l = false

theorem inv_init (n : Nat) (bay : Nat → Nat) : Inv n bay init := by
  constructor <;> intros <;> simp_all [init, owns, Pc.rel, Pc.marked, Pc.mtx]
  exact (count_false n).symm

theorem inBay_upd (bay : Nat → Nat) (pc : Nat → Pc) (t : Nat) (p : Pc) (b n : Nat) (ht : t < n) :
    count (inBay bay (upd pc t p) b) n + (if inBay bay pc b t then 1 else 0) =
      count (inBay bay pc b) n + (if inBay bay (fun _ => p) b t then 1 else 0) := by
  have := count_change (inBay bay pc b) (inBay bay (upd pc t p) b) n t ht
    (fun x hx => by simp [inBay, hx])
  rw [this]
  have e : inBay bay (upd pc t p) b t = inBay bay (fun _ => p) b t := by simp [inBay]
  rw [e]

theorem cnt_same (bay : Nat → Nat) (pc : Nat → Pc) (t : Nat) (p : Pc) (b n : Nat)
    (h : (pc t).counted = p.counted) :
    count (inBay bay (upd pc t p) b) n = count (inBay bay pc b) n := by
  apply count_congr
  intro x hx
  by_cases c : x = t
  · subst c; simp [inBay, h]
  · simp [inBay, c]

theorem cnt_wakeAll (bay : Nat → Nat) (pc : Nat → Pc) (b b' n : Nat) :
    count (inBay bay (wakeAll bay b' pc) b) n = count (inBay bay pc b) n := by
  apply count_congr
  intro x hx
  have e : (wakeAll bay b' pc x).counted = (pc x).counted := by
    unfold wakeAll
    cases pc x <;> simp only
    split <;> rfl
  simp only [inBay, e]

theorem setHeld_apply (h : Nat → Nat → Bool) (t l : Nat) (v : Bool) (t' l' : Nat) :
    setHeld h t l v t' l' = if t' = t ∧ l' = l then v else h t' l' := rfl

theorem wakeAll_rel (bay : Nat → Nat) (b : Nat) (pc : Nat → Pc) (t : Nat) :
    (wakeAll bay b pc t).rel = (pc t).rel := by
  unfold wakeAll; cases pc t <;> simp only
  split <;> rfl

theorem wakeAll_marked (bay : Nat → Nat) (b : Nat) (pc : Nat → Pc) (t : Nat) :
    (wakeAll bay b pc t).marked = (pc t).marked := by
  unfold wakeAll; cases pc t <;> simp only
  split <;> rfl

theorem wakeAll_mtx (bay : Nat → Nat) (b : Nat) (pc : Nat → Pc) (t : Nat) :
    (wakeAll bay b pc t).mtx = (pc t).mtx := by
  unfold wakeAll; cases pc t <;> simp only
  split <;> rfl

theorem wakeAll_asleep (bay : Nat → Nat) (b : Nat) (pc : Nat → Pc) (t l : Nat) :
    wakeAll bay b pc t = .asleep l ↔ pc t = .asleep l ∧ bay l ≠ b := by
  unfold wakeAll; cases e : pc t <;> simp
  split
  · simp_all; intro h; subst h; assumption
  · simp; intro h; subst h; assumption

theorem wakeAll_other (bay : Nat → Nat) (b : Nat) (pc : Nat → Pc) (t : Nat) (p : Pc)
    (h : ∀ l, p ≠ .asleep l) (h2 : ∀ l, p ≠ .wake l) : wakeAll bay b pc t = p ↔ pc t = p := by
  unfold wakeAll; cases e : pc t <;> simp
  split
  · constructor
    · intro q; exact absurd q.symm (h2 _)
    · intro q; exact absurd q.symm (h _)
  · rfl

theorem wakeAll_unpRel (bay : Nat → Nat) (b : Nat) (pc : Nat → Pc) (t l : Nat) :
    wakeAll bay b pc t = .unpRel l ↔ pc t = .unpRel l :=
  wakeAll_other bay b pc t _ (by simp) (by simp)

theorem wakeAll_bcast (bay : Nat → Nat) (b : Nat) (pc : Nat → Pc) (t l : Nat) :
    wakeAll bay b pc t = .bcast l ↔ pc t = .bcast l :=
  wakeAll_other bay b pc t _ (by simp) (by simp)

theorem wakeAll_grab (bay : Nat → Nat) (b : Nat) (pc : Nat → Pc) (t l : Nat) (w : Word) :
    wakeAll bay b pc t = .grab l w ↔ pc t = .grab l w :=
  wakeAll_other bay b pc t _ (by simp) (by simp)

theorem wakeAll_idle (bay : Nat → Nat) (b : Nat) (pc : Nat → Pc) (t : Nat) :
    wakeAll bay b pc t = .idle ↔ pc t = .idle :=
  wakeAll_other bay b pc t _ (by simp) (by simp)

theorem holds_mutex (n : Nat) (bay : Nat → Nat) (s : St) (hi : Inv n bay s) (t l : Nat)
    (h : (s.pc t).mtx = some l) : s.mutex (bay l) = some t := (hi.mtx t (bay l)).2 ⟨l, h, rfl⟩

theorem word_marked (w : Word) (h : w.locked = true) (h2 : w ≠ ⟨true, false⟩) :
    w = ⟨true, true⟩ := by
  cases w with
  | mk a b => cases a <;> cases b <;> simp_all

theorem marked_cases (p : Pc) (l : Nat) (h : p.marked = some l) :
    p.rel = some l ∨ p.mtx = some l := by
  cases p <;> simp_all [Pc.marked, Pc.rel, Pc.mtx]

theorem counted_pos (n : Nat) (bay : Nat → Nat) (s : St) (hi : Inv n bay s) (t l : Nat)
    (ht : t < n) (h : (s.pc t).counted = some l) : 0 < s.parked (bay l) := by
  rw [hi.cnt]
  exact count_pos _ n t ht (by simp [inBay, h])

attribute [local grind =] upd_apply setHeld_apply
attribute [local grind] Pc.rel Pc.marked Pc.mtx Pc.counted

theorem inv_call (n : Nat) (bay : Nat → Nat) (t : Nat) (s : St) (l : Nat) (hi : Inv n bay s) (ht : t < n)
    (h : s.pc t = .idle) : Inv n bay
    { s with pc := upd s.pc t (.fast l) } := by
  obtain ⟨i1, i2, i3, i4, i5, i6, i7, i8, i9, i10, i11⟩ := hi
  simp only [owns] at i1 i2 i3
  constructor <;> try simp only [owns]
  · grind
  · grind
  · grind
  · grind
  · grind
  · grind
  · intro b
    rw [cnt_same _ _ _ _ _ _ (by rw [h]; rfl)]
    exact i7 b
  · grind
  · grind
  · grind
  · grind

theorem inv_fastOk (n : Nat) (bay : Nat → Nat) (t : Nat) (s : St) (l : Nat) (hi : Inv n bay s) (ht : t < n)
    (h : s.pc t = .fast l) (hw : s.word l = ⟨false, false⟩) : Inv n bay
    { s with word := upd s.word l ⟨true, false⟩, pc := upd s.pc t .idle, held := setHeld s.held t l true } := by
  obtain ⟨i1, i2, i3, i4, i5, i6, i7, i8, i9, i10, i11⟩ := hi
  simp only [owns] at i1 i2 i3
  constructor <;> try simp only [owns]
  · grind
  · grind
  · grind
  · grind
  · grind
  · grind
  · intro b
    rw [cnt_same _ _ _ _ _ _ (by rw [h]; rfl)]
    exact i7 b
  · grind
  · grind
  · grind
  · grind

theorem inv_fastFail (n : Nat) (bay : Nat → Nat) (t : Nat) (s : St) (l : Nat) (hi : Inv n bay s) (ht : t < n)
    (h : s.pc t = .fast l) (hw : s.word l ≠ ⟨false, false⟩) : Inv n bay
    { s with pc := upd s.pc t (.spin l (s.word l) 0) } := by
  obtain ⟨i1, i2, i3, i4, i5, i6, i7, i8, i9, i10, i11⟩ := hi
  simp only [owns] at i1 i2 i3
  constructor <;> try simp only [owns]
  · grind
  · grind
  · grind
  · grind
  · grind
  · grind
  · intro b
    rw [cnt_same _ _ _ _ _ _ (by rw [h]; rfl)]
    exact i7 b
  · grind
  · grind
  · grind
  · grind

theorem inv_spinAgain (n : Nat) (bay : Nat → Nat) (t : Nat) (s : St) (l : Nat) (st : Word) (k : Nat) (hi : Inv n bay s) (ht : t < n)
    (h : s.pc t = .spin l st k) (hst : st.locked = true) (hk : k < lockSpins) : Inv n bay
    { s with pc := upd s.pc t (.spin l (s.word l) (k + 1)) } := by
  obtain ⟨i1, i2, i3, i4, i5, i6, i7, i8, i9, i10, i11⟩ := hi
  simp only [owns] at i1 i2 i3
  constructor <;> try simp only [owns]
  · grind
  · grind
  · grind
  · grind
  · grind
  · grind
  · intro b
    rw [cnt_same _ _ _ _ _ _ (by rw [h]; rfl)]
    exact i7 b
  · grind
  · grind
  · grind
  · grind

theorem inv_spinPark (n : Nat) (bay : Nat → Nat) (t : Nat) (s : St) (l : Nat) (st : Word) (k : Nat) (hi : Inv n bay s) (ht : t < n)
    (h : s.pc t = .spin l st k) (hst : st.locked = true) (hk : ¬ k < lockSpins) : Inv n bay
    { s with pc := upd s.pc t (.mark l) } := by
  obtain ⟨i1, i2, i3, i4, i5, i6, i7, i8, i9, i10, i11⟩ := hi
  simp only [owns] at i1 i2 i3
  constructor <;> try simp only [owns]
  · grind
  · grind
  · grind
  · grind
  · grind
  · grind
  · intro b
    rw [cnt_same _ _ _ _ _ _ (by rw [h]; rfl)]
    exact i7 b
  · grind
  · grind
  · grind
  · grind

theorem inv_spinFree (n : Nat) (bay : Nat → Nat) (t : Nat) (s : St) (l : Nat) (st : Word) (k : Nat) (hi : Inv n bay s) (ht : t < n)
    (h : s.pc t = .spin l st k) (hst : st.locked = false) : Inv n bay
    { s with pc := upd s.pc t (.grab l st) } := by
  obtain ⟨i1, i2, i3, i4, i5, i6, i7, i8, i9, i10, i11⟩ := hi
  simp only [owns] at i1 i2 i3
  constructor <;> try simp only [owns]
  · grind
  · grind
  · grind
  · grind
  · grind
  · grind
  · intro b
    rw [cnt_same _ _ _ _ _ _ (by rw [h]; rfl)]
    exact i7 b
  · grind
  · grind
  · grind
  · grind

theorem inv_markOk (n : Nat) (bay : Nat → Nat) (t : Nat) (s : St) (l : Nat) (hi : Inv n bay s) (ht : t < n)
    (h : s.pc t = .mark l) (hw : s.word l = ⟨true, false⟩) : Inv n bay
    { s with word := upd s.word l ⟨true, true⟩, pc := upd s.pc t (.parkLock l) } := by
  obtain ⟨i1, i2, i3, i4, i5, i6, i7, i8, i9, i10, i11⟩ := hi
  simp only [owns] at i1 i2 i3
  constructor <;> try simp only [owns]
  · grind
  · grind
  · grind
  · grind
  · grind
  · grind
  · intro b
    rw [cnt_same _ _ _ _ _ _ (by rw [h]; rfl)]
    exact i7 b
  · grind
  · grind
  · grind
  · grind

theorem inv_markFail (n : Nat) (bay : Nat → Nat) (t : Nat) (s : St) (l : Nat) (hi : Inv n bay s) (ht : t < n)
    (h : s.pc t = .mark l) (hw : s.word l ≠ ⟨true, false⟩) : Inv n bay
    { s with pc := upd s.pc t (.parkLock l) } := by
  obtain ⟨i1, i2, i3, i4, i5, i6, i7, i8, i9, i10, i11⟩ := hi
  simp only [owns] at i1 i2 i3
  constructor <;> try simp only [owns]
  · grind
  · grind
  · grind
  · grind
  · grind
  · grind
  · intro b
    rw [cnt_same _ _ _ _ _ _ (by rw [h]; rfl)]
    exact i7 b
  · grind
  · grind
  · grind
  · grind

theorem inv_parkLock (n : Nat) (bay : Nat → Nat) (t : Nat) (s : St) (l : Nat) (hi : Inv n bay s) (ht : t < n)
    (h : s.pc t = .parkLock l) (hm : s.mutex (bay l) = none) : Inv n bay
    { s with mutex := upd s.mutex (bay l) (some t), pc := upd s.pc t (.parkCheck l) } := by
  obtain ⟨i1, i2, i3, i4, i5, i6, i7, i8, i9, i10, i11⟩ := hi
  simp only [owns] at i1 i2 i3
  constructor <;> try simp only [owns]
  · grind
  · grind
  · grind
  · grind
  · grind
  · grind
  · intro b
    rw [cnt_same _ _ _ _ _ _ (by rw [h]; rfl)]
    exact i7 b
  · grind
  · grind
  · grind
  · grind

theorem inv_checkOk (n : Nat) (bay : Nat → Nat) (t : Nat) (s : St) (l : Nat) (hi : Inv n bay s) (ht : t < n)
    (h : s.pc t = .parkCheck l) (hw : s.word l = ⟨true, true⟩) : Inv n bay
    { s with pc := upd s.pc t (.parkInc l) } := by
  obtain ⟨i1, i2, i3, i4, i5, i6, i7, i8, i9, i10, i11⟩ := hi
  simp only [owns] at i1 i2 i3
  constructor <;> try simp only [owns]
  · grind
  · grind
  · grind
  · grind
  · grind
  · grind
  · intro b
    rw [cnt_same _ _ _ _ _ _ (by rw [h]; rfl)]
    exact i7 b
  · grind
  · grind
  · grind
  · grind

theorem inv_checkFail (n : Nat) (bay : Nat → Nat) (t : Nat) (s : St) (l : Nat) (hi : Inv n bay s) (ht : t < n)
    (h : s.pc t = .parkCheck l) (hw : s.word l ≠ ⟨true, true⟩) : Inv n bay
    { s with pc := upd s.pc t (.parkExit l) } := by
  obtain ⟨i1, i2, i3, i4, i5, i6, i7, i8, i9, i10, i11⟩ := hi
  simp only [owns] at i1 i2 i3
  constructor <;> try simp only [owns]
  · grind
  · grind
  · grind
  · grind
  · grind
  · grind
  · intro b
    rw [cnt_same _ _ _ _ _ _ (by rw [h]; rfl)]
    exact i7 b
  · grind
  · grind
  · grind
  · grind

theorem inv_parkInc (n : Nat) (bay : Nat → Nat) (t : Nat) (s : St) (l : Nat) (hi : Inv n bay s) (ht : t < n)
    (h : s.pc t = .parkInc l) : Inv n bay
    { s with parked := upd s.parked (bay l) (s.parked (bay l) + 1), pc := upd s.pc t (.parkWait l) } := by
  obtain ⟨i1, i2, i3, i4, i5, i6, i7, i8, i9, i10, i11⟩ := hi
  simp only [owns] at i1 i2 i3
  constructor <;> try simp only [owns]
  · grind
  · grind
  · grind
  · grind
  · grind
  · grind
  · intro b
    have hc := inBay_upd bay s.pc t (.parkWait l) b n ht
    have e1 : inBay bay s.pc b t = false := by simp [inBay, h, Pc.counted]
    have e2 : inBay bay (fun _ => .parkWait l) b t = decide (bay l = b) := by simp [inBay, Pc.counted]
    rw [e1, e2, ← i7 b] at hc
    simp only [upd_apply]
    by_cases c : b = bay l
    · subst c; simp at hc; simp; omega
    · have : ¬ bay l = b := fun e => c e.symm
      simp [this] at hc; simp [c]; omega
  · grind
  · grind
  · grind
  · grind

theorem inv_parkWait (n : Nat) (bay : Nat → Nat) (t : Nat) (s : St) (l : Nat) (hi : Inv n bay s) (ht : t < n)
    (h : s.pc t = .parkWait l) : Inv n bay
    { s with mutex := upd s.mutex (bay l) none, pc := upd s.pc t (.asleep l) } := by
  have hm := holds_mutex n bay s hi t l (by rw [h]; rfl)
  obtain ⟨i1, i2, i3, i4, i5, i6, i7, i8, i9, i10, i11⟩ := hi
  simp only [owns] at i1 i2 i3
  constructor <;> try simp only [owns]
  · grind
  · grind
  · grind
  · grind
  · grind
  · grind
  · intro b
    rw [cnt_same _ _ _ _ _ _ (by rw [h]; rfl)]
    exact i7 b
  · grind
  · grind
  · grind
  · grind

theorem inv_spurious (n : Nat) (bay : Nat → Nat) (t : Nat) (s : St) (l : Nat) (hi : Inv n bay s) (ht : t < n)
    (h : s.pc t = .asleep l) : Inv n bay
    { s with pc := upd s.pc t (.wake l) } := by
  obtain ⟨i1, i2, i3, i4, i5, i6, i7, i8, i9, i10, i11⟩ := hi
  simp only [owns] at i1 i2 i3
  constructor <;> try simp only [owns]
  · grind
  · grind
  · grind
  · grind
  · grind
  · grind
  · intro b
    rw [cnt_same _ _ _ _ _ _ (by rw [h]; rfl)]
    exact i7 b
  · grind
  · grind
  · grind
  · grind

theorem inv_wake (n : Nat) (bay : Nat → Nat) (t : Nat) (s : St) (l : Nat) (hi : Inv n bay s) (ht : t < n)
    (h : s.pc t = .wake l) (hm : s.mutex (bay l) = none) : Inv n bay
    { s with mutex := upd s.mutex (bay l) (some t), pc := upd s.pc t (.parkDec l) } := by
  obtain ⟨i1, i2, i3, i4, i5, i6, i7, i8, i9, i10, i11⟩ := hi
  simp only [owns] at i1 i2 i3
  constructor <;> try simp only [owns]
  · grind
  · grind
  · grind
  · grind
  · grind
  · grind
  · intro b
    rw [cnt_same _ _ _ _ _ _ (by rw [h]; rfl)]
    exact i7 b
  · grind
  · grind
  · grind
  · grind

theorem inv_parkDec (n : Nat) (bay : Nat → Nat) (t : Nat) (s : St) (l : Nat) (hi : Inv n bay s) (ht : t < n)
    (h : s.pc t = .parkDec l) : Inv n bay
    { s with parked := upd s.parked (bay l) (s.parked (bay l) - 1), failed := s.failed || decide (s.parked (bay l) = 0), pc := upd s.pc t (.parkExit l) } := by
  have hm := holds_mutex n bay s hi t l (by rw [h]; rfl)
  have hpos := counted_pos n bay s hi t l ht (by rw [h]; rfl)
  obtain ⟨i1, i2, i3, i4, i5, i6, i7, i8, i9, i10, i11⟩ := hi
  simp only [owns] at i1 i2 i3
  constructor <;> try simp only [owns]
  · grind
  · grind
  · grind
  · grind
  · grind
  · grind
  · intro b
    have hc := inBay_upd bay s.pc t (.parkExit l) b n ht
    have e1 : inBay bay s.pc b t = decide (bay l = b) := by simp [inBay, h, Pc.counted]
    have e2 : inBay bay (fun _ => .parkExit l) b t = false := by simp [inBay, Pc.counted]
    rw [e1, e2, ← i7 b] at hc
    simp only [upd_apply]
    by_cases c : b = bay l
    · subst c; simp at hc; simp; omega
    · have : ¬ bay l = b := fun e => c e.symm
      simp [this] at hc; simp [c]; omega
  · grind
  · grind
  · grind
  · grind

theorem inv_parkExit (n : Nat) (bay : Nat → Nat) (t : Nat) (s : St) (l : Nat) (hi : Inv n bay s) (ht : t < n)
    (h : s.pc t = .parkExit l) : Inv n bay
    { s with mutex := upd s.mutex (bay l) none, pc := upd s.pc t (.recheck l) } := by
  have hm := holds_mutex n bay s hi t l (by rw [h]; rfl)
  obtain ⟨i1, i2, i3, i4, i5, i6, i7, i8, i9, i10, i11⟩ := hi
  simp only [owns] at i1 i2 i3
  constructor <;> try simp only [owns]
  · grind
  · grind
  · grind
  · grind
  · grind
  · grind
  · intro b
    rw [cnt_same _ _ _ _ _ _ (by rw [h]; rfl)]
    exact i7 b
  · grind
  · grind
  · grind
  · grind

theorem inv_recheckTaken (n : Nat) (bay : Nat → Nat) (t : Nat) (s : St) (l : Nat) (hi : Inv n bay s) (ht : t < n)
    (h : s.pc t = .recheck l) (hw : (s.word l).locked = true) : Inv n bay
    { s with pc := upd s.pc t (.spin l (s.word l) 0) } := by
  obtain ⟨i1, i2, i3, i4, i5, i6, i7, i8, i9, i10, i11⟩ := hi
  simp only [owns] at i1 i2 i3
  constructor <;> try simp only [owns]
  · grind
  · grind
  · grind
  · grind
  · grind
  · grind
  · intro b
    rw [cnt_same _ _ _ _ _ _ (by rw [h]; rfl)]
    exact i7 b
  · grind
  · grind
  · grind
  · grind

theorem inv_recheckFree (n : Nat) (bay : Nat → Nat) (t : Nat) (s : St) (l : Nat) (hi : Inv n bay s) (ht : t < n)
    (h : s.pc t = .recheck l) (hw : (s.word l).locked = false) : Inv n bay
    { s with pc := upd s.pc t (.grab l (s.word l)) } := by
  obtain ⟨i1, i2, i3, i4, i5, i6, i7, i8, i9, i10, i11⟩ := hi
  simp only [owns] at i1 i2 i3
  constructor <;> try simp only [owns]
  · grind
  · grind
  · grind
  · grind
  · grind
  · grind
  · intro b
    rw [cnt_same _ _ _ _ _ _ (by rw [h]; rfl)]
    exact i7 b
  · grind
  · grind
  · grind
  · grind

theorem inv_grabOk (n : Nat) (bay : Nat → Nat) (t : Nat) (s : St) (l : Nat) (st : Word) (hi : Inv n bay s) (ht : t < n)
    (h : s.pc t = .grab l st) (hw : s.word l = st) : Inv n bay
    { s with word := upd s.word l ⟨true, st.parked⟩, pc := upd s.pc t .idle, held := setHeld s.held t l true, failed := s.failed || st.locked } := by
  obtain ⟨i1, i2, i3, i4, i5, i6, i7, i8, i9, i10, i11⟩ := hi
  simp only [owns] at i1 i2 i3
  constructor <;> try simp only [owns]
  · grind
  · grind
  · grind
  · grind
  · grind
  · grind
  · intro b
    rw [cnt_same _ _ _ _ _ _ (by rw [h]; rfl)]
    exact i7 b
  · grind
  · grind
  · grind
  · grind

theorem inv_grabFail (n : Nat) (bay : Nat → Nat) (t : Nat) (s : St) (l : Nat) (st : Word) (hi : Inv n bay s) (ht : t < n)
    (h : s.pc t = .grab l st) (hw : s.word l ≠ st) : Inv n bay
    { s with pc := upd s.pc t (.spin l (s.word l) 0), failed := s.failed || st.locked } := by
  obtain ⟨i1, i2, i3, i4, i5, i6, i7, i8, i9, i10, i11⟩ := hi
  simp only [owns] at i1 i2 i3
  constructor <;> try simp only [owns]
  · grind
  · grind
  · grind
  · grind
  · grind
  · grind
  · intro b
    rw [cnt_same _ _ _ _ _ _ (by rw [h]; rfl)]
    exact i7 b
  · grind
  · grind
  · grind
  · grind

theorem inv_unlock (n : Nat) (bay : Nat → Nat) (t : Nat) (s : St) (l : Nat) (hi : Inv n bay s) (ht : t < n)
    (h : s.pc t = .idle) (hh : s.held t l = true) : Inv n bay
    { s with pc := upd s.pc t (.unlFast l), held := setHeld s.held t l false } := by
  obtain ⟨i1, i2, i3, i4, i5, i6, i7, i8, i9, i10, i11⟩ := hi
  simp only [owns] at i1 i2 i3
  constructor <;> try simp only [owns]
  · grind
  · grind
  · grind
  · grind
  · grind
  · grind
  · intro b
    rw [cnt_same _ _ _ _ _ _ (by rw [h]; rfl)]
    exact i7 b
  · grind
  · grind
  · grind
  · grind

theorem inv_unlFastOk (n : Nat) (bay : Nat → Nat) (t : Nat) (s : St) (l : Nat) (hi : Inv n bay s) (ht : t < n)
    (h : s.pc t = .unlFast l) (hw : s.word l = ⟨true, false⟩) : Inv n bay
    { s with word := upd s.word l ⟨false, false⟩, pc := upd s.pc t .idle } := by
  obtain ⟨i1, i2, i3, i4, i5, i6, i7, i8, i9, i10, i11⟩ := hi
  simp only [owns] at i1 i2 i3
  constructor <;> try simp only [owns]
  · grind
  · grind
  · grind
  · grind
  · grind
  · grind
  · intro b
    rw [cnt_same _ _ _ _ _ _ (by rw [h]; rfl)]
    exact i7 b
  · grind
  · grind
  · grind
  · grind

theorem inv_unlFastFail (n : Nat) (bay : Nat → Nat) (t : Nat) (s : St) (l : Nat) (hi : Inv n bay s) (ht : t < n)
    (h : s.pc t = .unlFast l) (hw : s.word l ≠ ⟨true, false⟩) : Inv n bay
    { s with pc := upd s.pc t (.unlAssert l) } := by
  have hmk := word_marked _ (hi.locked t l (Or.inr (by rw [h]; rfl))) hw
  obtain ⟨i1, i2, i3, i4, i5, i6, i7, i8, i9, i10, i11⟩ := hi
  simp only [owns] at i1 i2 i3
  constructor <;> try simp only [owns]
  · grind
  · grind
  · grind
  · grind
  · grind
  · grind
  · intro b
    rw [cnt_same _ _ _ _ _ _ (by rw [h]; rfl)]
    exact i7 b
  · grind
  · grind
  · grind
  · grind

theorem inv_unlAssert (n : Nat) (bay : Nat → Nat) (t : Nat) (s : St) (l : Nat) (hi : Inv n bay s) (ht : t < n)
    (h : s.pc t = .unlAssert l) : Inv n bay
    { s with failed := s.failed || decide (s.word l ≠ ⟨true, true⟩), pc := upd s.pc t (.unpLock l) } := by
  obtain ⟨i1, i2, i3, i4, i5, i6, i7, i8, i9, i10, i11⟩ := hi
  simp only [owns] at i1 i2 i3
  constructor <;> try simp only [owns]
  · grind
  · grind
  · grind
  · grind
  · grind
  · grind
  · intro b
    rw [cnt_same _ _ _ _ _ _ (by rw [h]; rfl)]
    exact i7 b
  · grind
  · grind
  · grind
  · grind

theorem inv_unpLock (n : Nat) (bay : Nat → Nat) (t : Nat) (s : St) (l : Nat) (hi : Inv n bay s) (ht : t < n)
    (h : s.pc t = .unpLock l) (hm : s.mutex (bay l) = none) : Inv n bay
    { s with mutex := upd s.mutex (bay l) (some t), pc := upd s.pc t (.unpCb l) } := by
  obtain ⟨i1, i2, i3, i4, i5, i6, i7, i8, i9, i10, i11⟩ := hi
  simp only [owns] at i1 i2 i3
  constructor <;> try simp only [owns]
  · grind
  · grind
  · grind
  · grind
  · grind
  · grind
  · intro b
    rw [cnt_same _ _ _ _ _ _ (by rw [h]; rfl)]
    exact i7 b
  · grind
  · grind
  · grind
  · grind

theorem inv_unpCb (n : Nat) (bay : Nat → Nat) (t : Nat) (s : St) (l : Nat) (hi : Inv n bay s) (ht : t < n)
    (h : s.pc t = .unpCb l) : Inv n bay
    { s with failed := s.failed || decide (s.word l ≠ ⟨true, true⟩), pc := upd s.pc t (.unpStore l) } := by
  obtain ⟨i1, i2, i3, i4, i5, i6, i7, i8, i9, i10, i11⟩ := hi
  simp only [owns] at i1 i2 i3
  constructor <;> try simp only [owns]
  · grind
  · grind
  · grind
  · grind
  · grind
  · grind
  · intro b
    rw [cnt_same _ _ _ _ _ _ (by rw [h]; rfl)]
    exact i7 b
  · grind
  · grind
  · grind
  · grind

theorem inv_unpStore (n : Nat) (bay : Nat → Nat) (t : Nat) (s : St) (l : Nat) (hi : Inv n bay s) (ht : t < n)
    (h : s.pc t = .unpStore l) : Inv n bay
    { s with word := upd s.word l ⟨false, decide (0 < s.parked (bay l))⟩, pc := upd s.pc t (.unpRel l) } := by
  have hm := holds_mutex n bay s hi t l (by rw [h]; rfl)
  have hpos := fun t' ht' l' h' => counted_pos n bay s hi t' l' ht' h'
  obtain ⟨i1, i2, i3, i4, i5, i6, i7, i8, i9, i10, i11⟩ := hi
  simp only [owns] at i1 i2 i3
  constructor <;> try simp only [owns]
  · grind
  · grind
  · grind
  · intro t' l' hm'
    by_cases c : t' = t
    · subst c; simp [Pc.marked] at hm'
    · rw [upd_ne _ _ _ _ c] at hm'
      by_cases c2 : l' = l
      · subst c2
        rcases marked_cases _ _ hm' with e | e
        · exact absurd (i3 t' t l' (Or.inr e) (Or.inr (by rw [h]; rfl))) c
        · have := (i5 t' (bay l')).2 ⟨l', e, rfl⟩
          rw [hm] at this
          injection this with this
          exact absurd this.symm c
      · rw [upd_ne _ _ _ _ c2]; exact i4 t' l' hm'
  · grind
  · grind
  · intro b
    rw [cnt_same _ _ _ _ _ _ (by rw [h]; rfl)]
    exact i7 b
  · grind
  · grind
  · grind
  · grind

theorem inv_unpRel (n : Nat) (bay : Nat → Nat) (t : Nat) (s : St) (l : Nat) (hi : Inv n bay s) (ht : t < n)
    (h : s.pc t = .unpRel l) : Inv n bay
    { s with mutex := upd s.mutex (bay l) none, pc := upd s.pc t (.bcast l) } := by
  have hm := holds_mutex n bay s hi t l (by rw [h]; rfl)
  obtain ⟨i1, i2, i3, i4, i5, i6, i7, i8, i9, i10, i11⟩ := hi
  simp only [owns] at i1 i2 i3
  constructor <;> try simp only [owns]
  · grind
  · grind
  · grind
  · grind
  · grind
  · grind
  · intro b
    rw [cnt_same _ _ _ _ _ _ (by rw [h]; rfl)]
    exact i7 b
  · grind
  · grind
  · grind
  · grind

theorem inv_bcast (n : Nat) (bay : Nat → Nat) (t : Nat) (s : St) (l : Nat) (hi : Inv n bay s) (ht : t < n)
    (h : s.pc t = .bcast l) : Inv n bay
    { s with pc := wakeAll bay (bay l) (upd s.pc t .idle) } := by
  obtain ⟨i1, i2, i3, i4, i5, i6, i7, i8, i9, i10, i11⟩ := hi
  simp only [owns] at i1 i2 i3
  constructor <;> (try simp only [owns, wakeAll_rel, wakeAll_marked, wakeAll_mtx, wakeAll_asleep,
    wakeAll_unpRel, wakeAll_bcast, wakeAll_grab, wakeAll_idle])
  · grind
  · grind
  · grind
  · grind
  · grind
  · grind
  · intro b
    rw [cnt_wakeAll, cnt_same _ _ _ _ _ _ (by rw [h]; rfl)]
    exact i7 b
  · grind
  · grind
  · grind
  · grind

theorem inv_step (n : Nat) (bay : Nat → Nat) (s s' : St) (t : Nat) (a : Label) (hi : Inv n bay s)
    (ht : t < n) (h : Step n bay t s a s') : Inv n bay s' := by
  cases h with
  | call l h => exact inv_call n bay t s l hi ht h
  | fastOk l h hw => exact inv_fastOk n bay t s l hi ht h hw
  | fastFail l h hw => exact inv_fastFail n bay t s l hi ht h hw
  | spinAgain l st k h hst hk => exact inv_spinAgain n bay t s l st k hi ht h hst hk
  | spinPark l st k h hst hk => exact inv_spinPark n bay t s l st k hi ht h hst hk
  | spinFree l st k h hst => exact inv_spinFree n bay t s l st k hi ht h hst
  | markOk l h hw => exact inv_markOk n bay t s l hi ht h hw
  | markFail l h hw => exact inv_markFail n bay t s l hi ht h hw
  | parkLock l h hm => exact inv_parkLock n bay t s l hi ht h hm
  | checkOk l h hw => exact inv_checkOk n bay t s l hi ht h hw
  | checkFail l h hw => exact inv_checkFail n bay t s l hi ht h hw
  | parkInc l h => exact inv_parkInc n bay t s l hi ht h
  | parkWait l h => exact inv_parkWait n bay t s l hi ht h
  | spurious l h => exact inv_spurious n bay t s l hi ht h
  | wake l h hm => exact inv_wake n bay t s l hi ht h hm
  | parkDec l h => exact inv_parkDec n bay t s l hi ht h
  | parkExit l h => exact inv_parkExit n bay t s l hi ht h
  | recheckTaken l h hw => exact inv_recheckTaken n bay t s l hi ht h hw
  | recheckFree l h hw => exact inv_recheckFree n bay t s l hi ht h hw
  | grabOk l st h hw => exact inv_grabOk n bay t s l st hi ht h hw
  | grabFail l st h hw => exact inv_grabFail n bay t s l st hi ht h hw
  | unlock l h hh => exact inv_unlock n bay t s l hi ht h hh
  | unlFastOk l h hw => exact inv_unlFastOk n bay t s l hi ht h hw
  | unlFastFail l h hw => exact inv_unlFastFail n bay t s l hi ht h hw
  | unlAssert l h => exact inv_unlAssert n bay t s l hi ht h
  | unpLock l h hm => exact inv_unpLock n bay t s l hi ht h hm
  | unpCb l h => exact inv_unpCb n bay t s l hi ht h
  | unpStore l h => exact inv_unpStore n bay t s l hi ht h
  | unpRel l h => exact inv_unpRel n bay t s l hi ht h
  | bcast l h => exact inv_bcast n bay t s l hi ht h

end Verif.Thread.Lock
