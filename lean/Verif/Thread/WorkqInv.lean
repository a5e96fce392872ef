import Verif.Thread.WorkqModel

/-!
# Invariant of the work queue
-/

namespace Verif.Thread.Workq

open Verif.Thread

/-! ## Sums -/

/-- Sum over the threads below `n`. -/
def sum (f : Nat → Nat) : Nat → Nat
  | 0 => 0
  | n + 1 => sum f n + f n

theorem sum_congr {f g : Nat → Nat} {n : Nat} (h : ∀ t, t < n → f t = g t) : sum f n = sum g n := by
  induction n with
  | zero => rfl
  | succ n ih => simp only [sum, ih fun t ht => h t (by omega), h n (by omega)]

theorem sum_change {f g : Nat → Nat} {n t : Nat} (ht : t < n) (h : ∀ x, x ≠ t → g x = f x) :
    sum g n + f t = sum f n + g t := by
  induction n with
  | zero => omega
  | succ n ih =>
    simp only [sum]
    by_cases c : t = n
    · subst c
      rw [sum_congr (n := t) fun x hx => h x (by omega)]
      omega
    · have := ih (by omega)
      rw [h n (fun e => c e.symm)]
      omega

theorem sum_zero {f : Nat → Nat} {n : Nat} : sum f n = 0 ↔ ∀ t, t < n → f t = 0 := by
  induction n with
  | zero => simp [sum]
  | succ n ih =>
    simp only [sum]
    constructor
    · intro h t ht
      by_cases c : t = n
      · subst c; omega
      · exact ih.1 (by omega) t (by omega)
    · intro h
      rw [ih.2 fun t ht => h t (by omega), h n (by omega)]

theorem sum_mono {f g : Nat → Nat} {n : Nat} (h : ∀ t, t < n → f t ≤ g t) : sum f n ≤ sum g n := by
  induction n with
  | zero => exact Nat.le_refl _
  | succ n ih =>
    have := ih fun t ht => h t (by omega)
    have := h n (by omega)
    simp only [sum]; omega

theorem sum_add {f g : Nat → Nat} {n : Nat} : sum (fun t => f t + g t) n = sum f n + sum g n := by
  induction n with
  | zero => rfl
  | succ n ih => simp only [sum, ih]; omega

theorem sum_le {f : Nat → Nat} {m n : Nat} (h : m ≤ n) : sum f m ≤ sum f n := by
  induction n with
  | zero => have : m = 0 := by omega
            subst this; exact Nat.le_refl _
  | succ n ih =>
    by_cases c : m = n + 1
    · subst c; exact Nat.le_refl _
    · have := ih (by omega)
      simp only [sum]; omega

theorem sum_tail {f : Nat → Nat} {m n : Nat} (h : m ≤ n) (hz : ∀ t, m ≤ t → f t = 0) :
    sum f n = sum f m := by
  induction n with
  | zero => have : m = 0 := by omega
            subst this; rfl
  | succ n ih =>
    by_cases c : m = n + 1
    · subst c; rfl
    · simp only [sum, ih (by omega), hz n (by omega)]; rfl

/-! ## Counting tasks -/

def isMine : Item → Bool
  | .mine _ => true
  | .other => false

/-- Tasks that satisfy `q` and are in the global queue or in the queue of a thread. -/
def queued (q : Item → Bool) (s : St) : Nat :=
  s.global.countP q + sum (fun t => (s.deq t).countP q) (s.maxId + 1)

/-- Tasks that satisfy `q` and are being executed. -/
def active (q : Item → Bool) (s : St) : Nat :=
  sum (fun t => (s.stack t).countP fun f => q f.item) (s.maxId + 1)

/-- Tasks that satisfy `q` and whose function is running. -/
def running (q : Item → Bool) (s : St) : Nat :=
  sum (fun t => (s.stack t).countP fun f => q f.item && f.stage == .running) (s.maxId + 1)

/-- What `workq_start` still has to look at. -/
def waitE (s : St) : Nat :=
  match s.main with
  | .startLoop e .. => e
  | .startRun e .. => e
  | _ => s.epoch

def waitLo (s : St) : Nat :=
  match s.main with
  | .startLoop _ _ i .. => i
  | .startRun _ _ i .. => i + 1
  | _ => 0

/-- The tasks of queue `t` that satisfy `q`. -/
def entries (q : Item → Bool) (s : St) (t : Nat) : Nat :=
  ((s.tasks t).take (s.wptr t).count).countP fun x => q (.mine x)

/-- Tasks that satisfy `q` and wait in the queues of the work queue. -/
def waiting (q : Item → Bool) (s : St) : Nat :=
  sum (fun t => if waitLo s ≤ t ∧ (s.wptr t).epoch = waitE s then entries q s t else 0) (s.maxId + 1)

/-- Tasks that `workq_start` is about to execute. -/
def jobs (s : St) : List Nat :=
  match s.main with
  | .startRun _ _ _ _ _ _ js => js
  | _ => []

def jobCount (q : Item → Bool) (s : St) : Nat := (jobs s).countP fun x => q (.mine x)

/-- What `workq_outstanding` adds and subtracts. -/
def added (s : St) (n : Nat) : Nat := sum (fun t => (s.wptr t).now (s.epoch - 1)) n
def removed (s : St) (n : Nat) : Nat := sum (fun t => (s.comp t).now s.epoch) n

/-- Tasks that have been submitted, started and not completed. -/
def left (s : St) : Nat := queued isMine s + active isMine s + jobCount isMine s

/-- No task was given out in this round. -/
def quiet (s : St) : Bool :=
  match s.main with
  | .startLoop _ _ _ ns np => ns + np == 0
  | _ => !s.started

/-- The lowest `d` frames are other tasks. -/
def LowOther (l : List Frame) (d : Nat) : Prop :=
  ∃ u v, l = u ++ v ∧ v.length = d ∧ ∀ f ∈ v, f.item = .other

/-- Facts about where the main thread is. -/
def PcOk (s : St) : Prop :=
  match s.main with
  | .out => s.started = true → s.parallel = false → left s = 0
  | .startLoop e mt i ns np => s.started = true ∧ (mt = s.maxthread ∧ 1 ≤ e) ∧
      (ns + np = 0 → s.epoch = e ∧ ∀ t, t < i → (s.wptr t).epoch ≠ e) ∧
      (0 < ns + np → s.epoch = e + 1) ∧ (0 < np → s.parallel = true) ∧ (np = 0 → left s = 0)
  | .startRun e mt _ ns np d _ => s.started = true ∧ (mt = s.maxthread ∧ 1 ≤ e) ∧ s.epoch = e + 1 ∧
      0 < ns ∧
      np = 0 ∧ queued isMine s = 0 ∧ (∀ t, t ≠ 0 → ∀ f ∈ s.stack t, f.item = .other) ∧
      LowOther (s.stack 0) d
  | .drain => s.started = true ∧ s.parallel = true
  | .scanW e mt i p => s.started = true ∧ s.parallel = true ∧ e = s.epoch ∧ s.maxthread ≤ mt ∧
      mt ≤ s.maxId ∧ i ≤ mt + 1 ∧ (added s i : Int) ≤ p + removed s i
  | .scanC e mt i p => s.started = true ∧ s.parallel = true ∧ e = s.epoch ∧ s.maxthread ≤ mt ∧
      mt ≤ s.maxId ∧ i ≤ mt ∧ (added s (i + 1) : Int) ≤ p + removed s i

structure Inv (tr : List Label) (s : St) : Prop where
  epoch : 1 ≤ s.epoch
  maxthread : s.maxthread ≤ s.maxId
  fresh : ∀ t, s.maxId < t → s.comp t = ⟨0, 0⟩ ∧ s.deq t = [] ∧ s.stack t = []
  wptr : ∀ t, (s.wptr t).epoch ≤ s.epoch ∧ ((s.wptr t).epoch = 0 → (s.wptr t).count = 0) ∧
    ((s.wptr t).epoch ≠ 0 → t ≤ s.maxthread ∧ 0 < (s.wptr t).count ∧
      (s.wptr t).count ≤ (s.tasks t).length)
  comp : ∀ t, (s.comp t).epoch ≤ s.epoch
  loaded : ∀ t x e, ⟨.mine x, .loaded e⟩ ∈ s.stack t → e = s.epoch
  pc : PcOk s
  ifQuiet : quiet s = true → left s = 0 ∧
    ((∀ t, (s.wptr t).epoch ≠ s.epoch) → added s (s.maxId + 1) = removed s (s.maxId + 1))
  ifBusy : quiet s = false → (∀ t, (s.wptr t).epoch ≠ s.epoch) ∧
    added s (s.maxId + 1) = removed s (s.maxId + 1) + left s + waiting isMine s
  all : ∀ x, tr.count (.submit x) = tr.count (.begin x) + queued (· == .mine x) s +
    jobCount (· == .mine x) s + waiting (· == .mine x) s
  done : ∀ x, tr.count (.begin x) = tr.count (.finish x) + running (· == .mine x) s

theorem inv_init (p : Bool) : Inv [] (init p) where
  epoch := Nat.le_refl _
  maxthread := Nat.le_refl _
  fresh := fun t _ => ⟨rfl, rfl, rfl⟩
  wptr := fun t => ⟨Nat.zero_le _, fun _ => rfl, fun h => absurd rfl h⟩
  comp := fun t => Nat.zero_le _
  loaded := fun t x e h => by cases h
  pc := fun h => by cases h
  ifQuiet := fun _ => ⟨rfl, fun _ => rfl⟩
  ifBusy := fun h => by cases h
  all := fun x => rfl
  done := fun x => rfl

/-! ## Counting after an update -/

theorem countP_upd {α : Type} {f : Nat → List α} {q : α → Bool} {t n : Nat} (ht : t < n) (l : List α) :
    sum (fun u => (upd f t l u).countP q) n + (f t).countP q =
      sum (fun u => (f u).countP q) n + l.countP q := by
  have := sum_change (f := fun u => (f u).countP q) (g := fun u => (upd f t l u).countP q) ht
    fun x hx => by simp [hx]
  simpa using this

/-- 1 or 0. -/
def one (b : Bool) : Nat := if b then 1 else 0

theorem countP_cons' {α : Type} (q : α → Bool) (x : α) (l : List α) :
    (x :: l).countP q = l.countP q + one (q x) := by
  rw [List.countP_cons]; rfl

theorem LowOther.push {l : List Frame} {d : Nat} (h : LowOther l d) (f : Frame) :
    LowOther (f :: l) d := by
  obtain ⟨u, v, rfl, h⟩ := h
  exact ⟨f :: u, v, rfl, h⟩

theorem LowOther.pop {l : List Frame} {d : Nat} {f : Frame} (h : LowOther (f :: l) d)
    (hd : d < (f :: l).length) : LowOther l d := by
  obtain ⟨u, v, h₁, h₂, h₃⟩ := h
  cases u with
  | nil => rw [List.nil_append] at h₁; rw [h₁] at hd; omega
  | cons a u =>
    rw [List.cons_append, List.cons.injEq] at h₁
    exact ⟨u, v, h₁.2, h₂, h₃⟩

theorem LowOther.all {l : List Frame} {d : Nat} (h : LowOther l d) (hd : l.length = d) :
    ∀ f ∈ l, f.item = .other := by
  obtain ⟨u, v, rfl, h₂, h₃⟩ := h
  rw [List.length_append] at hd
  have : u = [] := List.eq_nil_of_length_eq_zero (by omega)
  subst this
  simpa using h₃

/-- The tasks are in place for the loops of `workq_start`. -/
def RunOk (s : St) : Prop :=
  ∀ e mt i ns np d js, s.main = .startRun e mt i ns np d js →
    queued isMine s = 0 ∧ (∀ t, t ≠ 0 → ∀ f ∈ s.stack t, f.item = .other) ∧ LowOther (s.stack 0) d

theorem Inv.runOk {tr s} (h : Inv tr s) : RunOk s := by
  intro e mt i ns np d js hm
  have := h.pc
  unfold PcOk at this
  rw [hm] at this
  exact this.2.2.2.2.2

/-- The two states differ in the tasks only. -/
structure Same (s s' : St) : Prop where
  started : s'.started = s.started
  epoch : s'.epoch = s.epoch
  maxthread : s'.maxthread = s.maxthread
  parallel : s'.parallel = s.parallel
  wptr : s'.wptr = s.wptr
  tasks : s'.tasks = s.tasks
  maxId : s'.maxId = s.maxId
  main : s'.main = s.main

theorem Same.added {s s'} (h : Same s s') (n : Nat) : added s' n = added s n := by
  unfold Workq.added; rw [h.wptr, h.epoch]

theorem Same.waiting {s s'} (h : Same s s') (q) : waiting q s' = waiting q s := by
  unfold Workq.waiting Workq.entries waitLo waitE
  rw [h.wptr, h.epoch, h.main, h.maxId, h.tasks]

theorem Same.jobCount {s s'} (h : Same s s') (q) : jobCount q s' = jobCount q s := by
  unfold Workq.jobCount jobs
  rw [h.main]

theorem Same.quiet {s s'} (h : Same s s') : quiet s' = quiet s := by
  unfold Workq.quiet
  rw [h.main, h.started]

/-- Steps that move tasks and do not change the work queue otherwise. -/
theorem Inv.exec {tr s l} (h : Inv tr s) {s' : St} (same : Same s s')
    (fresh : ∀ t, s.maxId < t → s'.comp t = ⟨0, 0⟩ ∧ s'.deq t = [] ∧ s'.stack t = [])
    (hcomp : ∀ t, (s'.comp t).epoch ≤ s.epoch)
    (loaded : ∀ t x e, ⟨.mine x, .loaded e⟩ ∈ s'.stack t → e = s.epoch)
    (bal : removed s' (s.maxId + 1) + left s' = removed s (s.maxId + 1) + left s)
    (mono : ∀ n, removed s n ≤ removed s' n)
    (hrun : RunOk s')
    (hall : ∀ x, l ≠ .submit x ∧ queued (· == .mine x) s' + one (l == .begin x) =
      queued (· == .mine x) s)
    (hdone : ∀ x, running (· == .mine x) s' + one (l == .finish x) =
      running (· == .mine x) s + one (l == .begin x)) : Inv (l :: tr) s' := by
  have hm := mono (s.maxId + 1)
  have hl : left s' ≤ left s := by omega
  constructor
  · rw [same.epoch]; exact h.epoch
  · rw [same.maxthread, same.maxId]; exact h.maxthread
  · rw [same.maxId]; exact fresh
  · rw [same.epoch, same.wptr, same.maxthread, same.tasks]; exact h.wptr
  · rw [same.epoch]; exact hcomp
  · rw [same.epoch]; exact loaded
  · have hp := h.pc
    unfold PcOk at hp ⊢
    rw [same.main, same.started, same.parallel, same.epoch, same.maxthread, same.maxId, same.wptr]
    cases hmain : s.main <;> rw [hmain] at hp <;> dsimp only at hp ⊢
    · intro h₁ h₂
      have := hp h₁ h₂
      omega
    · refine ⟨hp.1, hp.2.1, hp.2.2.1, hp.2.2.2.1, hp.2.2.2.2.1, fun h₁ => ?_⟩
      have := hp.2.2.2.2.2 h₁
      omega
    · have := hrun _ _ _ _ _ _ _ (same.main.trans hmain)
      exact ⟨hp.1, hp.2.1, hp.2.2.1, hp.2.2.2.1, hp.2.2.2.2.1, this⟩
    · exact hp
    · next e mt i p =>
      have := mono i
      obtain ⟨h₁, h₂, h₃, h₄, h₅, h₆, h₇⟩ := hp
      refine ⟨h₁, h₂, h₃, h₄, h₅, h₆, ?_⟩
      rw [same.added]
      omega
    · next e mt i p =>
      have := mono i
      obtain ⟨h₁, h₂, h₃, h₄, h₅, h₆, h₇⟩ := hp
      refine ⟨h₁, h₂, h₃, h₄, h₅, h₆, ?_⟩
      rw [same.added]
      omega
  · intro hq
    rw [same.quiet] at hq
    obtain ⟨h₁, h₂⟩ := h.ifQuiet hq
    refine ⟨by omega, fun h₃ => ?_⟩
    rw [same.wptr, same.epoch] at h₃
    have := h₂ h₃
    rw [same.added, same.maxId]
    omega
  · intro hq
    rw [same.quiet] at hq
    obtain ⟨h₁, h₂⟩ := h.ifBusy hq
    rw [same.wptr, same.epoch]
    refine ⟨h₁, ?_⟩
    rw [same.added, same.waiting, same.maxId]
    omega
  · intro x
    obtain ⟨h₁, h₂⟩ := hall x
    have := h.all x
    rw [List.count_cons, List.count_cons]
    have e : (l == .submit x) = false := by simpa using h₁
    rw [e, same.jobCount, same.waiting]
    unfold one at h₂
    simp only [Bool.false_eq_true, if_false]
    omega
  · intro x
    have := h.done x
    have h₂ := hdone x
    rw [List.count_cons, List.count_cons]
    unfold one at h₂
    omega

end Verif.Thread.Workq
