import Verif.Thread.WorkqInv

/-!
# Every step keeps the invariant of the work queue
-/

namespace Verif.Thread.Workq

open Verif.Thread

variable {tr : List Label} {s : St}

theorem one_false : one false = 0 := rfl

theorem one_true : one true = 1 := rfl

theorem Inv.le_of_stack (h : Inv tr s) {t : Nat} (hk : s.stack t ≠ []) : t < s.maxId + 1 := by
  by_cases c : t ≤ s.maxId
  · omega
  · exact absurd (h.fresh t (by omega)).2.2 hk

theorem fresh_upd {α : Type} {f : Nat → List α} {n t : Nat} {l : List α} (ht : t ≤ n)
    (h : ∀ u, n < u → f u = []) : ∀ u, n < u → upd f t l u = [] := by
  intro u hu
  rw [upd_ne _ _ _ _ (by omega)]
  exact h u hu

/-! ## Moving tasks -/

theorem inv_put (h : Inv tr s) : Inv (.tau :: tr) { s with global := s.global ++ [.other] } := by
  have hq : ∀ q : Item → Bool, q .other = false →
      queued q { s with global := s.global ++ [.other] } = queued q s := by
    intro q hq
    unfold queued
    dsimp only
    rw [List.countP_append, List.countP_cons, hq]
    simp
  have hl : left { s with global := s.global ++ [.other] } = left s := by
    have := hq isMine rfl
    unfold left active jobCount jobs at *
    dsimp only at *
    omega
  refine h.exec ⟨rfl, rfl, rfl, rfl, rfl, rfl, rfl, rfl⟩ h.fresh h.comp h.loaded ?_
    (fun n => Nat.le_refl _) ?_ (fun x => ⟨by simp, ?_⟩) fun x => rfl
  · rw [hl]; rfl
  · intro e mt i ns np d js hm
    obtain ⟨h₁, h₂⟩ := h.runOk e mt i ns np d js hm
    exact ⟨by rw [hq _ rfl]; exact h₁, h₂⟩
  · rw [hq _ (by simp)]; rfl

theorem inv_take (h : Inv tr s) {t k : Nat} (ht : t ≤ s.maxId) :
    Inv (.tau :: tr) { s with deq := upd s.deq t (s.deq t ++ s.global.take k)
                              global := s.global.drop k } := by
  have hq : ∀ q : Item → Bool,
      queued q { s with deq := upd s.deq t (s.deq t ++ s.global.take k)
                        global := s.global.drop k } = queued q s := by
    intro q
    unfold queued
    dsimp only
    have h₁ := countP_upd (f := s.deq) (q := q) (t := t) (n := s.maxId + 1) (by omega)
      (s.deq t ++ s.global.take k)
    rw [List.countP_append] at h₁
    have h₂ : s.global.countP q = (s.global.take k).countP q + (s.global.drop k).countP q := by
      rw [← List.countP_append, List.take_append_drop]
    omega
  refine h.exec ⟨rfl, rfl, rfl, rfl, rfl, rfl, rfl, rfl⟩
    (fun u hu => ⟨(h.fresh u hu).1, fresh_upd ht (fun u hu => (h.fresh u hu).2.1) u hu,
      (h.fresh u hu).2.2⟩) h.comp h.loaded ?_
    (fun n => Nat.le_refl _) ?_ (fun x => ⟨by simp, ?_⟩) fun x => rfl
  · have := hq isMine
    unfold left active jobCount jobs removed at *
    dsimp only at *
    omega
  · intro e mt i ns np d js hm
    obtain ⟨h₁, h₂⟩ := h.runOk e mt i ns np d js hm
    exact ⟨by rw [hq]; exact h₁, h₂⟩
  · rw [hq]; rfl

theorem itemLabel_begin (x : Item) (y : Nat) : (itemLabel x == .begin y) = (x == .mine y) := by
  rw [Bool.eq_iff_iff, beq_iff_eq, beq_iff_eq]
  cases x <;> simp [itemLabel]

theorem finishLabel_finish (x : Item) (y : Nat) : (finishLabel x == .finish y) = (x == .mine y) := by
  rw [Bool.eq_iff_iff, beq_iff_eq, beq_iff_eq]
  cases x <;> simp [finishLabel]

/-- A task is taken from the queue of `v` and executed by `t`. -/
theorem inv_pop (h : Inv tr s) {t v : Nat} {x : Item} {l : List Item} (ht : t ≤ s.maxId)
    (hv : v ≤ s.maxId) (hd : ∀ q : Item → Bool, (s.deq v).countP q = l.countP q + one (q x)) :
    Inv (itemLabel x :: tr) { s with deq := upd s.deq v l,
                                     stack := upd s.stack t (⟨x, .running⟩ :: s.stack t) } := by
  have hq : ∀ q : Item → Bool,
      queued q { s with deq := upd s.deq v l,
                        stack := upd s.stack t (⟨x, .running⟩ :: s.stack t) } + one (q x) =
        queued q s := by
    intro q
    unfold queued
    dsimp only
    have h₁ := countP_upd (f := s.deq) (q := q) (t := v) (n := s.maxId + 1) (by omega) l
    have := hd q
    omega
  have ha : ∀ q : Item → Bool,
      active q { s with deq := upd s.deq v l,
                        stack := upd s.stack t (⟨x, .running⟩ :: s.stack t) } =
        active q s + one (q x) := by
    intro q
    unfold active
    dsimp only
    have h₁ := countP_upd (f := s.stack) (q := fun f => q f.item) (t := t) (n := s.maxId + 1)
      (by omega) (⟨x, .running⟩ :: s.stack t)
    rw [countP_cons'] at h₁
    dsimp only at h₁
    omega
  have hr : ∀ q : Item → Bool,
      running q { s with deq := upd s.deq v l,
                         stack := upd s.stack t (⟨x, .running⟩ :: s.stack t) } =
        running q s + one (q x) := by
    intro q
    unfold running
    dsimp only
    have h₁ := countP_upd (f := s.stack) (q := fun f => q f.item && f.stage == .running) (t := t)
      (n := s.maxId + 1) (by omega) (⟨x, .running⟩ :: s.stack t)
    rw [countP_cons'] at h₁
    simp only [BEq.rfl, Bool.and_true] at h₁
    omega
  refine h.exec ⟨rfl, rfl, rfl, rfl, rfl, rfl, rfl, rfl⟩
    (fun u hu => ⟨(h.fresh u hu).1, fresh_upd hv (fun u hu => (h.fresh u hu).2.1) u hu,
      fresh_upd ht (fun u hu => (h.fresh u hu).2.2) u hu⟩) h.comp ?_ ?_
    (fun n => Nat.le_refl _) ?_ (fun y => ⟨by cases x <;> simp [itemLabel], ?_⟩) fun y => ?_
  · intro u y e hy
    dsimp only at hy
    rw [upd_apply] at hy
    split at hy
    · next c =>
      subst c
      rw [List.mem_cons] at hy
      rcases hy with hy | hy
      · cases hy
      · exact h.loaded u y e hy
    · exact h.loaded u y e hy
  · have h₁ := hq isMine
    have h₂ := ha isMine
    unfold left jobCount jobs removed at *
    dsimp only at *
    omega
  · intro e mt i ns np d js hm
    obtain ⟨h₁, h₂, h₃⟩ := h.runOk e mt i ns np d js hm
    have hq := hq isMine
    have hx : x = .other := by
      cases x with
      | mine y =>
        have : one (isMine (.mine y)) = 1 := rfl
        omega
      | other => rfl
    refine ⟨by omega, ?_, ?_⟩
    · intro u hu f hf
      dsimp only at hf
      rw [upd_apply] at hf
      split at hf
      · next c =>
        subst c
        rw [List.mem_cons] at hf
        rcases hf with hf | hf
        · rw [hf]; exact hx
        · exact h₂ u hu f hf
      · exact h₂ u hu f hf
    · dsimp only
      rw [upd_apply]
      split
      · next c => subst c; exact h₃.push _
      · exact h₃
  · rw [itemLabel_begin]
    exact hq (· == .mine y)
  · rw [itemLabel_begin]
    have e : (itemLabel x == .finish y) = false := by cases x <;> simp [itemLabel]
    rw [e, one_false]
    exact hr (· == .mine y)

/-- The innermost task of a thread goes on. -/
theorem inv_stage (h : Inv tr s) {t : Nat} {x : Item} {g g' : Stage} {r : List Frame}
    (hg : Goes s t) (hk : s.stack t = ⟨x, g⟩ :: r) {l : Label} (hl : ∀ y, l ≠ .submit y ∧ l ≠ .begin y)
    (hgl : ∀ e, g' = .loaded e → e = s.epoch)
    (hr : ∀ y, one ((x == .mine y) && g' == .running) + one (l == .finish y) =
      one ((x == .mine y) && g == .running)) :
    Inv (l :: tr) { s with stack := upd s.stack t (⟨x, g'⟩ :: r) } := by
  have ht : t < s.maxId + 1 := h.le_of_stack (by rw [hk]; simp)
  have ha : ∀ q : Item → Bool,
      active q { s with stack := upd s.stack t (⟨x, g'⟩ :: r) } = active q s := by
    intro q
    unfold active
    dsimp only
    have h₁ := countP_upd (f := s.stack) (q := fun f => q f.item) (t := t) (n := s.maxId + 1) ht
      (⟨x, g'⟩ :: r)
    rw [hk, countP_cons', countP_cons'] at h₁
    dsimp only at h₁
    omega
  refine h.exec ⟨rfl, rfl, rfl, rfl, rfl, rfl, rfl, rfl⟩
    (fun u hu => ⟨(h.fresh u hu).1, (h.fresh u hu).2.1,
      fresh_upd (by omega) (fun u hu => (h.fresh u hu).2.2) u hu⟩) h.comp ?_ ?_
    (fun n => Nat.le_refl _) ?_ (fun y => ⟨(hl y).1, ?_⟩) fun y => ?_
  · intro u y e hy
    dsimp only at hy
    rw [upd_apply] at hy
    split at hy
    · next c =>
      subst c
      rw [List.mem_cons] at hy
      rcases hy with hy | hy
      · exact hgl e (by simp at hy; exact hy.2.symm)
      · exact h.loaded u y e (by rw [hk]; exact List.mem_cons_of_mem _ hy)
    · exact h.loaded u y e hy
  · have h₂ := ha isMine
    unfold left jobCount jobs removed queued at *
    dsimp only at *
    omega
  · intro e mt i ns np d js hm
    obtain ⟨h₁, h₂, h₃⟩ := h.runOk e mt i ns np d js hm
    refine ⟨h₁, ?_, ?_⟩
    · intro u hu f hf
      dsimp only at hf
      rw [upd_apply] at hf
      split at hf
      · next c =>
        subst c
        rw [List.mem_cons] at hf
        rcases hf with hf | hf
        · rw [hf]; exact h₂ u hu ⟨x, g⟩ (by rw [hk]; simp)
        · exact h₂ u hu f (by rw [hk]; simp [hf])
      · exact h₂ u hu f hf
    · dsimp only at hm ⊢
      rw [upd_apply]
      split
      · next c =>
        subst c
        unfold Goes at hg
        rw [hm] at hg
        have := hg rfl
        rw [hk] at h₃ this
        exact (h₃.pop this).push _
      · exact h₃
  · have : (l == .begin y) = false := by simpa using (hl y).2
    rw [this]; rfl
  · have : (l == .begin y) = false := by simpa using (hl y).2
    rw [this, one_false]
    unfold running
    dsimp only
    have h₁ := countP_upd (f := s.stack) (q := fun f => f.item == .mine y && f.stage == .running)
      (t := t) (n := s.maxId + 1) ht (⟨x, g'⟩ :: r)
    rw [hk, countP_cons', countP_cons'] at h₁
    dsimp only at h₁
    have := hr y
    omega

theorem inv_finish (h : Inv tr s) {t : Nat} {x : Item} {r : List Frame} (hg : Goes s t)
    (hk : s.stack t = ⟨x, .running⟩ :: r) :
    Inv (finishLabel x :: tr) { s with stack := upd s.stack t (⟨x, .finished⟩ :: r) } := by
  refine inv_stage h hg hk (fun y => by cases x <;> simp [finishLabel]) (fun e he => by cases he)
    fun y => ?_
  rw [finishLabel_finish]
  have : (Stage.finished == Stage.running) = false := rfl
  rw [this, Bool.and_false, one_false, BEq.rfl, Bool.and_true]
  omega

theorem inv_load (h : Inv tr s) {t x : Nat} {r : List Frame} (hg : Goes s t)
    (hk : s.stack t = ⟨.mine x, .finished⟩ :: r) :
    Inv (.tau :: tr) { s with stack := upd s.stack t (⟨.mine x, .loaded s.epoch⟩ :: r) } := by
  refine inv_stage h hg hk (fun y => by simp) (fun e he => by cases he; rfl) fun y => ?_
  have h₁ : (Stage.finished == Stage.running) = false := rfl
  have h₂ : (Stage.loaded s.epoch == Stage.running) = false := rfl
  rw [h₁, h₂]
  rfl

/-- A task is over. -/
theorem inv_end (h : Inv tr s) {t : Nat} {x : Item} {g : Stage} {r : List Frame}
    (hg : Goes s t) (hk : s.stack t = ⟨x, g⟩ :: r) (hgr : g ≠ .running) {comp : Nat → Ptr}
    (hc : ∀ u, u ≠ t → comp u = s.comp u) (he : (comp t).epoch ≤ s.epoch)
    (hn : (comp t).now s.epoch = (s.comp t).now s.epoch + one (isMine x)) :
    Inv (.tau :: tr) { s with comp := comp, stack := upd s.stack t r } := by
  have ht : t < s.maxId + 1 := h.le_of_stack (by rw [hk]; simp)
  have ha : active isMine { s with comp := comp, stack := upd s.stack t r } + one (isMine x) =
      active isMine s := by
    unfold active
    dsimp only
    have h₁ := countP_upd (f := s.stack) (q := fun f => isMine f.item) (t := t) (n := s.maxId + 1) ht r
    rw [hk, countP_cons'] at h₁
    dsimp only at h₁
    omega
  have hle : ∀ u, (s.comp u).now s.epoch ≤ (comp u).now s.epoch := by
    intro u
    by_cases c : u = t
    · subst c; omega
    · rw [hc u c]; exact Nat.le_refl _
  refine h.exec ⟨rfl, rfl, rfl, rfl, rfl, rfl, rfl, rfl⟩
    (fun u hu => ⟨?_, (h.fresh u hu).2.1,
      fresh_upd (by omega) (fun u hu => (h.fresh u hu).2.2) u hu⟩) ?_ ?_ ?_
    (fun n => sum_mono fun u _ => hle u) ?_ (fun y => ⟨by simp, rfl⟩) fun y => ?_
  · dsimp only
    rw [hc u (by omega)]
    exact (h.fresh u hu).1
  · intro u
    dsimp only
    by_cases c : u = t
    · subst c; exact he
    · rw [hc u c]; exact h.comp u
  · intro u y e hy
    dsimp only at hy
    rw [upd_apply] at hy
    split at hy
    · next c =>
      subst c
      exact h.loaded u y e (by rw [hk]; exact List.mem_cons_of_mem _ hy)
    · exact h.loaded u y e hy
  · have h₁ := sum_change (f := fun u => (s.comp u).now s.epoch) (g := fun u => (comp u).now s.epoch)
      ht fun u hu => by rw [hc u hu]
    unfold left jobCount jobs removed queued at *
    dsimp only at *
    omega
  · intro e mt i ns np d js hm
    obtain ⟨h₁, h₂, h₃⟩ := h.runOk e mt i ns np d js hm
    refine ⟨h₁, ?_, ?_⟩
    · intro u hu f hf
      dsimp only at hf
      rw [upd_apply] at hf
      split at hf
      · next c =>
        subst c
        exact h₂ u hu f (by rw [hk]; simp [hf])
      · exact h₂ u hu f hf
    · dsimp only at hm ⊢
      rw [upd_apply]
      split
      · next c =>
        subst c
        unfold Goes at hg
        rw [hm] at hg
        have := hg rfl
        rw [hk] at h₃ this
        exact h₃.pop this
      · exact h₃
  · unfold running
    dsimp only
    have h₁ := countP_upd (f := s.stack) (q := fun f => f.item == .mine y && f.stage == .running)
      (t := t) (n := s.maxId + 1) ht r
    rw [hk, countP_cons'] at h₁
    have e : (g == .running) = false := by simpa using hgr
    dsimp only at h₁
    rw [e, Bool.and_false, one_false] at h₁
    have e₂ : (Label.tau == .finish y) = false := rfl
    have e₃ : (Label.tau == .begin y) = false := rfl
    rw [e₂, e₃, one_false]
    omega

theorem inv_finishOther (h : Inv tr s) {t : Nat} {r : List Frame} (hg : Goes s t)
    (hk : s.stack t = ⟨.other, .finished⟩ :: r) :
    Inv (.tau :: tr) { s with stack := upd s.stack t r } :=
  inv_end h hg hk (by simp) (comp := s.comp) (fun _ _ => rfl) (h.comp t) rfl

theorem inv_store (h : Inv tr s) {t x e : Nat} {r : List Frame} (hg : Goes s t)
    (hk : s.stack t = ⟨.mine x, .loaded e⟩ :: r) :
    Inv (.tau :: tr) { s with comp := upd s.comp t ⟨(s.comp t).now e + 1, e⟩,
                              stack := upd s.stack t r } := by
  have he : e = s.epoch := h.loaded t x e (by rw [hk]; simp)
  refine inv_end h hg hk (by simp) (fun u hu => by simp [hu]) ?_ ?_
  · rw [upd_same]; dsimp only; omega
  · rw [upd_same, he]
    simp [Ptr.now, one, isMine]

/-! ## Steps of the main thread -/

theorem waiting_of_main {q : Item → Bool} {s s' : St} (h₁ : s'.wptr = s.wptr)
    (h₂ : s'.tasks = s.tasks) (h₃ : s'.maxId = s.maxId)
    (h : ∀ t, (waitLo s' ≤ t ∧ (s.wptr t).epoch = waitE s') ↔
      (waitLo s ≤ t ∧ (s.wptr t).epoch = waitE s)) : waiting q s' = waiting q s := by
  unfold waiting entries
  rw [h₁, h₂, h₃]
  apply sum_congr
  intro t _
  by_cases c : waitLo s' ≤ t ∧ (s.wptr t).epoch = waitE s'
  · rw [if_pos c, if_pos ((h t).1 c)]
  · rw [if_neg c, if_neg fun h' => c ((h t).2 h')]

/-- The main thread goes on and nothing else changes. -/
theorem Inv.move (h : Inv tr s) (main : MPc) (started locked : Bool) {l : Label}
    (hl : ∀ x, l ≠ .submit x ∧ l ≠ .begin x ∧ l ≠ .finish x)
    (hjobs : jobs s = [])
    (hjobs' : jobs { s with main := main, started := started, locked := locked } = [])
    (hwait : ∀ q, waiting q { s with main := main, started := started, locked := locked } =
      waiting q s)
    (hpc : PcOk { s with main := main, started := started, locked := locked })
    (hquiet : Workq.quiet { s with main := main, started := started, locked := locked } = true →
      left s = 0 ∧ ((∀ t, (s.wptr t).epoch ≠ s.epoch) →
        added s (s.maxId + 1) = removed s (s.maxId + 1)))
    (hbusy : Workq.quiet { s with main := main, started := started, locked := locked } = false →
      (∀ t, (s.wptr t).epoch ≠ s.epoch) ∧
        added s (s.maxId + 1) = removed s (s.maxId + 1) + left s + waiting isMine s) :
    Inv (l :: tr) { s with main := main, started := started, locked := locked } := by
  have hj : ∀ q, jobCount q { s with main := main, started := started, locked := locked } =
      jobCount q s := by
    intro q
    unfold jobCount
    rw [hjobs, hjobs']
  have hleft : left { s with main := main, started := started, locked := locked } = left s := by
    have := hj isMine
    unfold left queued active at *
    dsimp only at *
    omega
  refine ⟨h.epoch, h.maxthread, h.fresh, h.wptr, h.comp, h.loaded, hpc, ?_, ?_, ?_, ?_⟩
  · intro hq
    rw [hleft]
    exact hquiet hq
  · intro hq
    rw [hleft, hwait]
    exact hbusy hq
  · intro x
    obtain ⟨h₁, h₂, h₃⟩ := hl x
    rw [List.count_cons_of_ne (by simpa using h₁), List.count_cons_of_ne (by simpa using h₂),
      hj, hwait]
    exact h.all x
  · intro x
    obtain ⟨h₁, h₂, h₃⟩ := hl x
    rw [List.count_cons_of_ne (by simpa using h₂), List.count_cons_of_ne (by simpa using h₃)]
    exact h.done x

theorem left_of_jobs {main : MPc} {started locked : Bool} (h : jobs s = [])
    (h' : jobs { s with main := main, started := started, locked := locked } = []) :
    left { s with main := main, started := started, locked := locked } = left s := by
  unfold left queued active jobCount
  rw [h, h']

theorem inv_start (h : Inv tr s) (hm : s.main = .out) (hs : s.started = false) :
    Inv (.start :: tr) { s with started := true, main := .startLoop s.epoch s.maxthread 0 0 0 } := by
  have hq : quiet s = true := by simp [quiet, hm, hs]
  have hj : jobs s = [] := by simp [jobs, hm]
  refine h.move _ true s.locked (fun x => by simp) hj rfl ?_ ?_ ?_ ?_
  · intro q
    refine waiting_of_main rfl rfl rfl fun t => ?_
    simp [waitLo, waitE, hm]
  · refine ⟨rfl, ⟨rfl, h.epoch⟩, fun _ => ⟨rfl, fun t ht => by omega⟩, fun h => by omega, fun h => by omega, fun _ => ?_⟩
    rw [left_of_jobs hj rfl]
    exact (h.ifQuiet hq).1
  · intro _
    exact h.ifQuiet hq
  · intro h; simp [quiet] at h

theorem inv_startSkip (h : Inv tr s) {e mt i ns np : Nat} (hm : s.main = .startLoop e mt i ns np)
    (he : (s.wptr i).epoch ≠ e) :
    Inv (.tau :: tr) { s with main := .startLoop e mt (i + 1) ns np } := by
  have hj : jobs s = [] := by simp [jobs, hm]
  have hp := h.pc
  unfold PcOk at hp
  rw [hm] at hp
  obtain ⟨h₁, h₂, h₃, h₄, h₅, h₆⟩ := hp
  have hqq : quiet { s with main := .startLoop e mt (i + 1) ns np } = quiet s := by
    simp [quiet, hm]
  refine h.move _ s.started s.locked (fun x => by simp) hj rfl ?_ ?_ ?_ ?_
  · intro q
    refine waiting_of_main rfl rfl rfl fun t => ?_
    simp only [waitLo, waitE, hm]
    constructor
    · rintro ⟨a, b⟩
      exact ⟨by omega, b⟩
    · rintro ⟨a, b⟩
      refine ⟨?_, b⟩
      by_cases c : t = i
      · subst c; exact absurd b he
      · omega
  · refine ⟨h₁, h₂, fun h0 => ⟨(h₃ h0).1, fun t ht => ?_⟩, h₄, h₅, fun h0 => ?_⟩
    · by_cases c : t = i
      · subst c; exact he
      · exact (h₃ h0).2 t (by omega)
    · rw [left_of_jobs hj rfl]
      exact h₆ h0
  · intro hq
    exact h.ifQuiet (hqq ▸ hq)
  · intro hq
    exact h.ifBusy (hqq ▸ hq)

theorem inv_startEnd (h : Inv tr s) {e mt i ns np : Nat} (hm : s.main = .startLoop e mt i ns np)
    (hi : mt < i) : Inv (.tau :: tr) { s with locked := false, main := .out } := by
  have hj : jobs s = [] := by simp [jobs, hm]
  have hp := h.pc
  unfold PcOk at hp
  rw [hm] at hp
  obtain ⟨h₁, h₂, h₃, h₄, h₅, h₆⟩ := hp
  have hwe := h.epoch
  -- no queue has tasks of this epoch any more
  have none : (∀ t, (s.wptr t).epoch ≠ s.epoch) ∧
      added s (s.maxId + 1) = removed s (s.maxId + 1) + left s + waiting isMine s := by
    by_cases c : ns + np = 0
    · obtain ⟨a, b⟩ := h₃ c
      have hno : ∀ t, (s.wptr t).epoch ≠ s.epoch := by
        intro t ht
        by_cases d : t < i
        · exact b t d (by omega)
        · have := ((h.wptr t).2.2 (by omega)).1
          omega
      have hq : quiet s = true := by simp [quiet, hm]; omega
      obtain ⟨q₁, q₂⟩ := h.ifQuiet hq
      have q₂ := q₂ hno
      have hw : waiting isMine s = 0 := by
        unfold waiting
        rw [sum_zero]
        intro t _
        rw [if_neg]
        rintro ⟨-, hh⟩
        unfold waitE at hh
        rw [hm] at hh
        dsimp only at hh
        exact hno t (by omega)
      exact ⟨hno, by omega⟩
    · have hq : quiet s = false := by simp [quiet, hm]; omega
      exact h.ifBusy hq
  have nowait : ∀ q, waiting q s = 0 := by
    intro q
    unfold waiting
    rw [sum_zero]
    intro t _
    rw [if_neg]
    rintro ⟨ht, hh⟩
    unfold waitE at hh
    unfold waitLo at ht
    rw [hm] at hh ht
    dsimp only at hh ht
    have := ((h.wptr t).2.2 (by omega)).1
    omega
  refine h.move _ s.started false (fun x => by simp) hj rfl ?_ ?_ ?_ ?_
  · intro q
    rw [nowait]
    unfold waiting
    rw [sum_zero]
    intro t _
    rw [if_neg]
    rintro ⟨-, hh⟩
    exact none.1 t hh
  · intro _ hpar
    have : np = 0 := by
      by_cases c : np = 0
      · exact c
      · have := h₅ (by omega)
        rw [hpar] at this; cases this
    rw [left_of_jobs hj rfl]
    exact h₆ this
  · intro hq
    simp [quiet, h₁] at hq
  · intro _
    exact none

theorem active_zero (h : Inv tr s) (ha : active isMine s = 0) (t : Nat) :
    ∀ f ∈ s.stack t, f.item = .other := by
  intro f hf
  by_cases c : t < s.maxId + 1
  · unfold active at ha
    rw [sum_zero] at ha
    have := ha t c
    rw [List.countP_eq_zero] at this
    have := this f hf
    cases hfi : f.item with
    | mine x => rw [hfi] at this; simp [isMine] at this
    | other => rfl
  · rw [(h.fresh t (by omega)).2.2] at hf
    cases hf

/-- A queue with tasks was found: the tasks are given out in the next epoch. -/
theorem giveOut (h : Inv tr s) {e mt i ns np : Nat} (hm : s.main = .startLoop e mt i ns np)
    (hi : i ≤ mt) (he : (s.wptr i).epoch = e) :
    bump ns np s.epoch = e + 1 ∧ (∀ t, (s.wptr t).epoch ≠ e + 1) ∧ (∀ t, (s.comp t).epoch ≤ e + 1) ∧
    (∀ t x e', ⟨.mine x, .loaded e'⟩ ∈ s.stack t → e' = e + 1) ∧
    sum (fun t => (s.wptr t).now e) (s.maxId + 1) =
      sum (fun t => (s.comp t).now (e + 1)) (s.maxId + 1) + left s +
      (entries isMine s i + sum (fun t => if i + 1 ≤ t ∧ (s.wptr t).epoch = e then
        entries isMine s t else 0) (s.maxId + 1)) ∧
    (∀ q, waiting q s = entries q s i + sum (fun t => if i + 1 ≤ t ∧ (s.wptr t).epoch = e then
        entries q s t else 0) (s.maxId + 1)) ∧ 0 < (s.wptr i).count := by
  have hp := h.pc
  unfold PcOk at hp
  rw [hm] at hp
  obtain ⟨h₁, ⟨h₂, h₂'⟩, h₃, h₄, h₅, h₆⟩ := hp
  have hmt := h.maxthread
  have hsplit : ∀ q, waiting q s = entries q s i +
      sum (fun t => if i + 1 ≤ t ∧ (s.wptr t).epoch = e then entries q s t else 0) (s.maxId + 1) := by
    intro q
    unfold waiting waitLo waitE
    rw [hm]
    dsimp only
    have := sum_change
      (f := fun t => if i + 1 ≤ t ∧ (s.wptr t).epoch = e then entries q s t else 0)
      (g := fun t => if i ≤ t ∧ (s.wptr t).epoch = e then entries q s t else 0)
      (n := s.maxId + 1) (t := i) (by omega) fun x hx => by
        by_cases c : i ≤ x ∧ (s.wptr x).epoch = e
        · rw [if_pos c, if_pos ⟨by omega, c.2⟩]
        · rw [if_neg c, if_neg fun c' => c ⟨by omega, c'.2⟩]
    rw [if_neg (by omega), if_pos ⟨Nat.le_refl _, he⟩] at this
    omega
  have hpos : 0 < (s.wptr i).count := ((h.wptr i).2.2 (by omega)).2.1
  by_cases c : ns + np = 0
  · obtain ⟨a, b⟩ := h₃ c
    have hq : quiet s = true := by simp [quiet, hm]; omega
    have hl := (h.ifQuiet hq).1
    refine ⟨by rw [bump, if_pos c, a], fun t => ?_, fun t => ?_, fun t x e' hx => ?_, ?_, hsplit, hpos⟩
    · have := (h.wptr t).1; omega
    · have := h.comp t; omega
    · have := active_zero h (by unfold left at hl; omega) t _ hx
      cases this
    · rw [← hsplit isMine, hl]
      have hc : sum (fun t => (s.comp t).now (e + 1)) (s.maxId + 1) = 0 := by
        rw [sum_zero]
        intro t _
        have := h.comp t
        unfold Ptr.now
        rw [if_neg (by omega)]
      rw [hc]
      unfold waiting waitLo waitE
      rw [hm]
      dsimp only
      simp only [Nat.zero_add]
      apply sum_congr
      intro t _
      unfold Ptr.now
      by_cases d : (s.wptr t).epoch = e
      · have hit : i ≤ t := by
          by_cases g : i ≤ t
          · exact g
          · exact absurd d (b t (by omega))
        rw [if_pos d, if_pos ⟨hit, d⟩]
        have := ((h.wptr t).2.2 (by omega)).2.2
        unfold entries
        have hall : (fun x : Nat => isMine (.mine x)) = fun _ => true := rfl
        rw [hall, List.countP_true, List.length_take]
        omega
      · rw [if_neg d, if_neg fun g => d g.2]
  · have a := h₄ (by omega)
    have hq : quiet s = false := by simp [quiet, hm]; omega
    obtain ⟨b₁, b₂⟩ := h.ifBusy hq
    rw [a] at b₁
    refine ⟨by rw [bump, if_neg c, a], b₁, fun t => ?_, fun t x e' hx => ?_, ?_, hsplit, hpos⟩
    · have := h.comp t; omega
    · have := h.loaded t x e' hx; omega
    · rw [← hsplit isMine]
      unfold added removed at b₂
      rw [a, Nat.add_sub_cancel] at b₂
      exact b₂

theorem inv_startPut (h : Inv tr s) {e mt i ns np : Nat} (hm : s.main = .startLoop e mt i ns np)
    (hi : i ≤ mt) (he : (s.wptr i).epoch = e) (hp : s.parallel = true) :
    Inv (.tau :: tr) { s with epoch := bump ns np s.epoch, locked := true,
                              global := s.global ++ ((s.tasks i).take (s.wptr i).count).map .mine,
                              main := .startLoop e mt (i + 1) ns (np + (s.wptr i).count) } := by
  obtain ⟨g₁, g₂, g₃, g₄, g₅, g₆, g₇⟩ := giveOut h hm hi he
  have hpc := h.pc
  unfold PcOk at hpc
  rw [hm] at hpc
  obtain ⟨h₁, ⟨h₂, h₂'⟩, h₃, h₄, h₅, h₆⟩ := hpc
  have hjq : ∀ q, jobCount q s = 0 := by
    intro q; unfold jobCount jobs; rw [hm]; rfl
  rw [g₁]
  have hq : ∀ q : Item → Bool,
      (s.global ++ ((s.tasks i).take (s.wptr i).count).map Item.mine).countP q =
        s.global.countP q + entries q s i := by
    intro q
    rw [List.countP_append, List.countP_map]
    rfl
  constructor
  · exact Nat.le_add_left _ _
  · exact h.maxthread
  · exact h.fresh
  · intro t
    have := h.wptr t
    refine ⟨?_, this.2⟩
    have := g₂ t
    have hle := (h.wptr t).1
    dsimp only
    by_cases c : ns + np = 0
    · have := (h₃ c).1; omega
    · have := h₄ (by omega); omega
  · exact g₃
  · exact g₄
  · exact ⟨h₁, ⟨h₂, h₂'⟩, fun h => by omega, fun _ => rfl, fun _ => hp, fun h => by omega⟩
  · intro hq
    simp [quiet] at hq
    omega
  · intro _
    refine ⟨g₂, ?_⟩
    have hj := hjq isMine
    have hq := hq isMine
    unfold left added removed waiting waitLo waitE queued active jobCount jobs entries at *
    dsimp only [List.countP_nil] at *
    rw [Nat.add_sub_cancel]
    omega
  · intro x
    have h0 := h.all x
    rw [List.count_cons_of_ne (by simp), List.count_cons_of_ne (by simp)]
    have hj := hjq (· == .mine x)
    have hq := hq (· == .mine x)
    have hw := g₆ (· == .mine x)
    unfold waiting waitLo waitE queued jobCount jobs entries at *
    dsimp only [List.countP_nil] at *
    omega
  · intro x
    rw [List.count_cons_of_ne (by simp), List.count_cons_of_ne (by simp)]
    exact h.done x

theorem inv_startRun (h : Inv tr s) {e mt i ns np n : Nat} (hm : s.main = .startLoop e mt i ns np)
    (hi : i ≤ mt) (he : (s.wptr i).epoch = e) (hp : np = 0) (hn : 0 < n) :
    Inv (.tau :: tr) { s with epoch := bump ns np s.epoch,
                              main := .startRun e mt i n np (s.stack 0).length
                                        ((s.tasks i).take (s.wptr i).count) } := by
  obtain ⟨g₁, g₂, g₃, g₄, g₅, g₆, g₇⟩ := giveOut h hm hi he
  have hpc := h.pc
  unfold PcOk at hpc
  rw [hm] at hpc
  obtain ⟨h₁, ⟨h₂, h₂'⟩, h₃, h₄, h₅, h₆⟩ := hpc
  have hjq : ∀ q, jobCount q s = 0 := by
    intro q; unfold jobCount jobs; rw [hm]; rfl
  rw [g₁]
  have hl := h₆ hp
  have hl' : queued isMine s = 0 ∧ active isMine s = 0 := by unfold left at hl; omega
  constructor
  · exact Nat.le_add_left _ _
  · exact h.maxthread
  · exact h.fresh
  · intro t
    have := h.wptr t
    refine ⟨?_, this.2⟩
    have := g₂ t
    have hle := (h.wptr t).1
    dsimp only
    by_cases c : ns + np = 0
    · have := (h₃ c).1; omega
    · have := h₄ (by omega); omega
  · exact g₃
  · exact g₄
  · exact ⟨h₁, ⟨h₂, h₂'⟩, rfl, hn, hp, hl'.1, fun t _ => active_zero h hl'.2 t,
      [], s.stack 0, rfl, rfl, active_zero h hl'.2 0⟩
  · intro hq
    simp [quiet, h₁] at hq
  · intro _
    refine ⟨g₂, ?_⟩
    have hj := hjq isMine
    unfold left added removed waiting waitLo waitE queued active jobCount jobs entries at *
    dsimp only [List.countP_nil] at *
    rw [Nat.add_sub_cancel]
    omega
  · intro x
    have h0 := h.all x
    rw [List.count_cons_of_ne (by simp), List.count_cons_of_ne (by simp)]
    have hj := hjq (· == .mine x)
    have hw := g₆ (· == .mine x)
    unfold waiting waitLo waitE queued jobCount jobs entries at *
    dsimp only [List.countP_nil] at *
    omega
  · intro x
    rw [List.count_cons_of_ne (by simp), List.count_cons_of_ne (by simp)]
    exact h.done x

theorem inv_runNext (h : Inv tr s) {e mt i ns np d j : Nat} {js : List Nat}
    (hm : s.main = .startRun e mt i ns np d (j :: js)) :
    Inv (.begin j :: tr) { s with stack := upd s.stack 0 (⟨.mine j, .running⟩ :: s.stack 0),
                                  main := .startRun e mt i ns np d js } := by
  have hpc := h.pc
  unfold PcOk at hpc
  rw [hm] at hpc
  obtain ⟨h₁, h₂, h₃, h₄, h₅, h₆, h₇, h₈⟩ := hpc
  have ha : ∀ q : Item → Bool,
      sum (fun t => (upd s.stack 0 (⟨.mine j, .running⟩ :: s.stack 0) t).countP fun f => q f.item)
        (s.maxId + 1) = active q s + one (q (.mine j)) := by
    intro q
    have h₁ := countP_upd (f := s.stack) (q := fun f => q f.item) (t := 0) (n := s.maxId + 1)
      (by omega) (⟨.mine j, .running⟩ :: s.stack 0)
    rw [countP_cons'] at h₁
    unfold active
    dsimp only at h₁
    omega
  have hr : ∀ q : Item → Bool,
      sum (fun t => (upd s.stack 0 (⟨.mine j, .running⟩ :: s.stack 0) t).countP fun f =>
        q f.item && f.stage == .running) (s.maxId + 1) = running q s + one (q (.mine j)) := by
    intro q
    have h₁ := countP_upd (f := s.stack) (q := fun f => q f.item && f.stage == .running) (t := 0)
      (n := s.maxId + 1) (by omega) (⟨.mine j, .running⟩ :: s.stack 0)
    rw [countP_cons'] at h₁
    unfold running
    simp only [BEq.rfl, Bool.and_true] at h₁
    omega
  have hj : ∀ q : Item → Bool, jobCount q s = js.countP (fun x => q (.mine x)) + one (q (.mine j)) := by
    intro q; unfold jobCount jobs; rw [hm]; exact countP_cons' _ _ _
  have hw : ∀ q, waiting q { s with stack := upd s.stack 0 (⟨.mine j, .running⟩ :: s.stack 0),
                                    main := .startRun e mt i ns np d js } = waiting q s := by
    intro q
    refine waiting_of_main rfl rfl rfl fun t => ?_
    simp [waitLo, waitE, hm]
  constructor
  · exact h.epoch
  · exact h.maxthread
  · exact fun u hu => ⟨(h.fresh u hu).1, (h.fresh u hu).2.1,
      fresh_upd (Nat.zero_le _) (fun u hu => (h.fresh u hu).2.2) u hu⟩
  · exact h.wptr
  · exact h.comp
  · intro u y e' hy
    dsimp only at hy
    rw [upd_apply] at hy
    split at hy
    · next c =>
      subst c
      rw [List.mem_cons] at hy
      rcases hy with hy | hy
      · cases hy
      · exact h.loaded 0 y e' hy
    · exact h.loaded u y e' hy
  · refine ⟨h₁, h₂, h₃, h₄, h₅, h₆, fun t ht => ?_, ?_⟩
    · dsimp only
      rw [upd_ne _ _ _ _ ht]
      exact h₇ t ht
    · dsimp only
      rw [upd_same]
      exact h₈.push _
  · intro hq
    simp [quiet, h₁] at hq
  · intro _
    have hq : quiet s = false := by simp [quiet, hm, h₁]
    obtain ⟨b₁, b₂⟩ := h.ifBusy hq
    refine ⟨b₁, ?_⟩
    rw [hw]
    have hj := hj isMine
    have ha := ha isMine
    unfold left at *
    rw [hj] at b₂
    unfold added removed queued active jobCount jobs at *
    dsimp only at *
    omega
  · intro x
    have h0 := h.all x
    have hj := hj (· == .mine x)
    rw [hw, List.count_cons_of_ne (by simp), List.count_cons]
    have : (Label.begin j == Label.begin x) = (Item.mine j == Item.mine x) := by
      rw [Bool.eq_iff_iff, beq_iff_eq, beq_iff_eq]; simp
    rw [this]
    rw [hj] at h0
    unfold one at h0
    unfold queued jobCount jobs at *
    dsimp only at *
    omega
  · intro x
    have h0 := h.done x
    have hr := hr (· == .mine x)
    rw [List.count_cons (a := Label.begin x), List.count_cons_of_ne (by simp)]
    have : (Label.begin j == Label.begin x) = (Item.mine j == Item.mine x) := by
      rw [Bool.eq_iff_iff, beq_iff_eq, beq_iff_eq]; simp
    rw [this]
    unfold one at hr
    unfold running at *
    dsimp only at *
    omega

theorem inv_runDone (h : Inv tr s) {e mt i ns np d : Nat}
    (hm : s.main = .startRun e mt i ns np d []) (hd : (s.stack 0).length = d) :
    Inv (.tau :: tr) { s with main := .startLoop e mt (i + 1) ns np } := by
  have hpc := h.pc
  unfold PcOk at hpc
  rw [hm] at hpc
  obtain ⟨h₁, h₂, h₃, h₄, h₅, h₆, h₇, h₈⟩ := hpc
  have hj : jobs s = [] := by simp [jobs, hm]
  have hl : left s = 0 := by
    have : active isMine s = 0 := by
      unfold active
      rw [sum_zero]
      intro t _
      rw [List.countP_eq_zero]
      intro f hf
      have : f.item = .other := by
        by_cases c : t = 0
        · subst c; exact h₈.all hd f hf
        · exact h₇ t c f hf
      rw [this]; simp [isMine]
    unfold left jobCount
    rw [hj, h₆, this]; rfl
  refine h.move _ s.started s.locked (fun x => by simp) hj rfl ?_ ?_ ?_ ?_
  · intro q
    refine waiting_of_main rfl rfl rfl fun t => ?_
    simp [waitLo, waitE, hm]
  · refine ⟨h₁, h₂, fun h => by omega, fun _ => h₃, fun h => by omega, fun _ => ?_⟩
    rw [left_of_jobs hj rfl, hl]
  · intro hq
    simp [quiet] at hq
    omega
  · intro _
    exact h.ifBusy (by simp [quiet, hm, h₁])

/-! ## Draining -/

theorem waiting_busy (h : Inv tr s) (hq : quiet s = false) (hm : waitE s = s.epoch) (q) :
    waiting q s = 0 := by
  unfold waiting
  rw [sum_zero]
  intro t _
  rw [if_neg]
  rintro ⟨-, hh⟩
  exact (h.ifBusy hq).1 t (by omega)

theorem inv_drainSerial (h : Inv tr s) (hm : s.main = .out) (hs : s.started = true)
    (hp : s.parallel = false) : Inv (.drained :: tr) { s with started := false } := by
  have hj : jobs s = [] := by simp [jobs, hm]
  have hq : quiet s = false := by simp [quiet, hm, hs]
  have hpc := h.pc
  unfold PcOk at hpc
  rw [hm] at hpc
  have hl := hpc hs hp
  have hw := waiting_busy h hq (by simp [waitE, hm])
  refine h.move s.main false s.locked (fun x => by simp) hj hj (fun q => rfl) ?_ ?_ ?_
  · unfold PcOk
    dsimp only
    rw [hm]
    intro h; cases h
  · intro _
    refine ⟨hl, fun _ => ?_⟩
    have := (h.ifBusy hq).2
    have := hw isMine
    omega
  · intro h
    unfold quiet at h
    dsimp only at h
    rw [hm] at h
    cases h

theorem inv_scan (h : Inv tr s) (hm : s.main = .out ∧ s.started = true ∧ s.parallel = true ∨
    s.main = .drain) : Inv (.tau :: tr) { s with main := .scanW s.epoch s.maxId 0 0 } := by
  have hj : jobs s = [] := by rcases hm with hm | hm <;> simp [jobs, hm]
  have hs : s.started = true ∧ s.parallel = true := by
    rcases hm with hm | hm
    · exact hm.2
    · have := h.pc
      unfold PcOk at this
      rw [hm] at this
      exact this
  have hq : quiet s = false := by rcases hm with hm | hm <;> simp [quiet, hm, hs.1]
  refine h.move _ s.started s.locked (fun x => by simp) hj rfl ?_ ?_ ?_ ?_
  · intro q
    refine waiting_of_main rfl rfl rfl fun t => ?_
    rcases hm with hm | hm <;> simp [waitLo, waitE, hm]
  · exact ⟨hs.1, hs.2, rfl, h.maxthread, Nat.le_refl _, Nat.zero_le _, Int.le_refl _⟩
  · intro hq'
    simp [quiet, hs.1] at hq'
  · intro _
    exact h.ifBusy hq

theorem inv_scanW (h : Inv tr s) {e mt i : Nat} {p : Int} (hm : s.main = .scanW e mt i p)
    (hi : i ≤ mt) :
    Inv (.tau :: tr) { s with main := .scanC e mt i (p + ((s.wptr i).now (e - 1) : Nat)) } := by
  have hj : jobs s = [] := by simp [jobs, hm]
  have hpc := h.pc
  unfold PcOk at hpc
  rw [hm] at hpc
  obtain ⟨h₁, h₂, h₃, h₄, h₅, h₆, h₇⟩ := hpc
  have hq : quiet s = false := by simp [quiet, hm, h₁]
  refine h.move _ s.started s.locked (fun x => by simp) hj rfl ?_ ?_ ?_ ?_
  · intro q
    refine waiting_of_main rfl rfl rfl fun t => ?_
    simp [waitLo, waitE, hm]
  · refine ⟨h₁, h₂, h₃, h₄, h₅, hi, ?_⟩
    unfold added removed at *
    dsimp only [sum] at *
    rw [h₃]
    omega
  · intro hq'
    simp [quiet, h₁] at hq'
  · intro _
    exact h.ifBusy hq

theorem inv_scanC (h : Inv tr s) {e mt i : Nat} {p : Int} (hm : s.main = .scanC e mt i p) :
    Inv (.tau :: tr) { s with main := .scanW e mt (i + 1) (p - ((s.comp i).now e : Nat)) } := by
  have hj : jobs s = [] := by simp [jobs, hm]
  have hpc := h.pc
  unfold PcOk at hpc
  rw [hm] at hpc
  obtain ⟨h₁, h₂, h₃, h₄, h₅, h₆, h₇⟩ := hpc
  have hq : quiet s = false := by simp [quiet, hm, h₁]
  refine h.move _ s.started s.locked (fun x => by simp) hj rfl ?_ ?_ ?_ ?_
  · intro q
    refine waiting_of_main rfl rfl rfl fun t => ?_
    simp [waitLo, waitE, hm]
  · refine ⟨h₁, h₂, h₃, h₄, h₅, by omega, ?_⟩
    unfold added removed at *
    dsimp only [sum] at *
    rw [h₃]
    omega
  · intro hq'
    simp [quiet, h₁] at hq'
  · intro _
    exact h.ifBusy hq

theorem inv_scanBusy (h : Inv tr s) {e mt i : Nat} {p : Int} (hm : s.main = .scanW e mt i p) :
    Inv (.tau :: tr) { s with main := .drain } := by
  have hj : jobs s = [] := by simp [jobs, hm]
  have hpc := h.pc
  unfold PcOk at hpc
  rw [hm] at hpc
  obtain ⟨h₁, h₂, h₃, h₄, h₅, h₆, h₇⟩ := hpc
  have hq : quiet s = false := by simp [quiet, hm, h₁]
  refine h.move _ s.started s.locked (fun x => by simp) hj rfl ?_ ?_ ?_ ?_
  · intro q
    refine waiting_of_main rfl rfl rfl fun t => ?_
    simp [waitLo, waitE, hm]
  · exact ⟨h₁, h₂⟩
  · intro hq'
    simp [quiet, h₁] at hq'
  · intro _
    exact h.ifBusy hq

/-- What the loop of `workq_outstanding` gives is at least the number of tasks that are not complete. -/
theorem scan_left (h : Inv tr s) {e mt i : Nat} {p : Int} (hm : s.main = .scanW e mt i p)
    (hi : mt < i) : (left s : Int) ≤ p := by
  have hpc := h.pc
  unfold PcOk at hpc
  rw [hm] at hpc
  obtain ⟨h₁, h₂, h₃, h₄, h₅, h₆, h₇⟩ := hpc
  have hq : quiet s = false := by simp [quiet, hm, h₁]
  have hb := (h.ifBusy hq).2
  have : i = mt + 1 := by omega
  subst this
  have ha : added s (s.maxId + 1) = added s (mt + 1) := by
    unfold added
    refine sum_tail (by omega) fun t ht => ?_
    unfold Ptr.now
    split
    · have := (h.wptr t).2
      by_cases c : (s.wptr t).epoch = 0
      · exact this.1 c
      · have := (this.2 c).1; omega
    · rfl
  have hr : removed s (mt + 1) ≤ removed s (s.maxId + 1) := sum_le (by omega)
  omega

theorem inv_scanZero (h : Inv tr s) {e mt i : Nat} {p : Int} (hm : s.main = .scanW e mt i p)
    (hi : mt < i) (hp : ¬ 0 < p) :
    Inv (.drained :: tr) { s with started := false, main := .out } := by
  have hj : jobs s = [] := by simp [jobs, hm]
  have hl := scan_left h hm hi
  have hpc := h.pc
  unfold PcOk at hpc
  rw [hm] at hpc
  have hq : quiet s = false := by simp [quiet, hm, hpc.1]
  have hw := waiting_busy h hq (by simp [waitE, hm])
  refine h.move _ false s.locked (fun x => by simp) hj rfl ?_ ?_ ?_ ?_
  · intro q
    refine waiting_of_main rfl rfl rfl fun t => ?_
    simp [waitLo, waitE, hm]
  · intro h; cases h
  · intro _
    refine ⟨by omega, fun _ => ?_⟩
    have := (h.ifBusy hq).2
    have := hw isMine
    omega
  · intro hq'
    simp [quiet] at hq'

/-! ## Submitting and new threads -/

theorem main_of_idle (h : Inv tr s) (hs : s.started = false) : s.main = .out := by
  have := h.pc
  unfold PcOk at this
  cases hm : s.main <;> rw [hm] at this <;> simp_all

theorem inv_submit (h : Inv tr s) {t x : Nat} (ht : t ≤ s.maxId) (hs : s.started = false) :
    Inv (.submit x :: tr)
      { s with tasks := upd s.tasks t
                 ((s.tasks t).take ((s.wptr t).now s.epoch) ++
                   x :: (s.tasks t).drop ((s.wptr t).now s.epoch + 1))
               wptr := upd s.wptr t ⟨(s.wptr t).now s.epoch + 1, s.epoch⟩
               maxthread := max s.maxthread t } := by
  have hm := main_of_idle h hs
  have hq : quiet s = true := by simp [quiet, hm, hs]
  have hep := h.epoch
  have hmt := h.maxthread
  have hc : (s.wptr t).now s.epoch ≤ (s.tasks t).length := by
    unfold Ptr.now
    split
    · exact ((h.wptr t).2.2 (by omega)).2.2
    · exact Nat.zero_le _
  have hlen : ((s.tasks t).take ((s.wptr t).now s.epoch)).length = (s.wptr t).now s.epoch := by
    rw [List.length_take]; omega
  have hwait : ∀ q : Item → Bool, waiting q
      { s with tasks := upd s.tasks t
                 ((s.tasks t).take ((s.wptr t).now s.epoch) ++
                   x :: (s.tasks t).drop ((s.wptr t).now s.epoch + 1))
               wptr := upd s.wptr t ⟨(s.wptr t).now s.epoch + 1, s.epoch⟩
               maxthread := max s.maxthread t } = waiting q s + one (q (.mine x)) := by
    intro q
    unfold waiting waitLo waitE entries
    dsimp only
    rw [hm]
    dsimp only
    have := sum_change
      (f := fun u => if 0 ≤ u ∧ (s.wptr u).epoch = s.epoch then
        ((s.tasks u).take (s.wptr u).count).countP (fun x => q (.mine x)) else 0)
      (g := fun u => if 0 ≤ u ∧ (upd s.wptr t ⟨(s.wptr t).now s.epoch + 1, s.epoch⟩ u).epoch = s.epoch
        then ((upd s.tasks t
                 ((s.tasks t).take ((s.wptr t).now s.epoch) ++
                   x :: (s.tasks t).drop ((s.wptr t).now s.epoch + 1)) u).take
          (upd s.wptr t ⟨(s.wptr t).now s.epoch + 1, s.epoch⟩ u).count).countP
            (fun x => q (.mine x)) else 0)
      (n := s.maxId + 1) (t := t) (by omega) fun u hu => by simp only [upd_ne _ _ _ _ hu]
    simp only [upd_same, Nat.zero_le, true_and, if_true] at this
    have e : ((s.tasks t).take ((s.wptr t).now s.epoch) ++
        x :: (s.tasks t).drop ((s.wptr t).now s.epoch + 1)).take ((s.wptr t).now s.epoch + 1) =
        (s.tasks t).take ((s.wptr t).now s.epoch) ++ [x] := by
      rw [List.take_append, hlen, List.take_of_length_le (by omega), Nat.add_sub_cancel_left]
      simp
    rw [e, List.countP_append, countP_cons', List.countP_nil] at this
    have e₂ : (if (s.wptr t).epoch = s.epoch then
        ((s.tasks t).take (s.wptr t).count).countP (fun x => q (.mine x)) else 0) =
        ((s.tasks t).take ((s.wptr t).now s.epoch)).countP (fun x => q (.mine x)) := by
      unfold Ptr.now
      split <;> simp
    rw [e₂] at this
    simp only [Nat.zero_le, true_and]
    omega
  constructor
  · exact hep
  · dsimp only; omega
  · exact h.fresh
  · intro u
    dsimp only
    by_cases c : u = t
    · subst c
      rw [upd_same, upd_same]
      refine ⟨Nat.le_refl _, fun h => by dsimp only at h; omega, fun _ => ⟨by omega, by dsimp only; omega, ?_⟩⟩
      dsimp only
      rw [List.length_append, hlen, List.length_cons]
      omega
    · rw [upd_ne _ _ _ _ c, upd_ne _ _ _ _ c]
      have := h.wptr u
      exact ⟨this.1, this.2.1, fun h => ⟨by have := (this.2.2 h).1; omega, (this.2.2 h).2⟩⟩
  · exact h.comp
  · exact h.loaded
  · unfold PcOk
    dsimp only
    rw [hm]
    intro h
    rw [hs] at h; cases h
  · intro _
    refine ⟨(h.ifQuiet hq).1, fun h' => ?_⟩
    have := h' t
    dsimp only at this
    rw [upd_same] at this
    exact absurd rfl this
  · intro hq'
    have : quiet s = false := hq'
    rw [hq] at this; cases this
  · intro y
    have h0 := h.all y
    rw [hwait, List.count_cons, List.count_cons_of_ne (by simp)]
    have : (Label.submit x == Label.submit y) = (Item.mine x == Item.mine y) := by
      rw [Bool.eq_iff_iff, beq_iff_eq, beq_iff_eq]; simp
    rw [this]
    unfold one
    unfold queued jobCount jobs at *
    dsimp only at *
    omega
  · intro y
    rw [List.count_cons_of_ne (by simp), List.count_cons_of_ne (by simp)]
    exact h.done y

theorem inv_spawn (h : Inv tr s) : Inv (.tau :: tr) { s with maxId := s.maxId + 1 } := by
  obtain ⟨f₁, f₂, f₃⟩ := h.fresh (s.maxId + 1) (by omega)
  have hmt := h.maxthread
  have hz : (s.wptr (s.maxId + 1)).count = 0 := by
    have := (h.wptr (s.maxId + 1)).2
    by_cases c : (s.wptr (s.maxId + 1)).epoch = 0
    · exact this.1 c
    · have := (this.2 c).1; omega
  have hq : ∀ q, queued q { s with maxId := s.maxId + 1 } = queued q s := by
    intro q
    unfold queued
    dsimp only
    rw [sum, f₂]
    rfl
  have ha : ∀ q, active q { s with maxId := s.maxId + 1 } = active q s := by
    intro q
    unfold active
    dsimp only
    rw [sum, f₃]
    rfl
  have hr : ∀ q, running q { s with maxId := s.maxId + 1 } = running q s := by
    intro q
    unfold running
    dsimp only
    rw [sum, f₃]
    rfl
  have hw : ∀ q, waiting q { s with maxId := s.maxId + 1 } = waiting q s := by
    intro q
    unfold waiting entries
    dsimp only
    rw [sum, hz]
    simp only [List.take_zero, List.countP_nil, ite_self, Nat.add_zero]
    rfl
  have hl : left { s with maxId := s.maxId + 1 } = left s := by
    unfold left
    rw [hq, ha]
    rfl
  have hadd : added s (s.maxId + 1 + 1) = added s (s.maxId + 1) := by
    unfold added
    rw [sum]
    unfold Ptr.now
    rw [hz]
    simp
  have hrem : removed s (s.maxId + 1 + 1) = removed s (s.maxId + 1) := by
    unfold removed
    rw [sum, f₁]
    simp [Ptr.now]
  constructor
  · exact h.epoch
  · dsimp only; omega
  · exact fun t ht => h.fresh t (by dsimp only at ht; omega)
  · exact h.wptr
  · exact h.comp
  · exact h.loaded
  · have hp := h.pc
    unfold PcOk at hp ⊢
    rw [hl, hq]
    dsimp only
    cases hm : s.main <;> rw [hm] at hp <;> dsimp only at hp ⊢
    · exact hp
    · exact hp
    · exact hp
    · exact hp
    · exact ⟨hp.1, hp.2.1, hp.2.2.1, hp.2.2.2.1, by omega, hp.2.2.2.2.2.1, hp.2.2.2.2.2.2⟩
    · exact ⟨hp.1, hp.2.1, hp.2.2.1, hp.2.2.2.1, by omega, hp.2.2.2.2.2.1, hp.2.2.2.2.2.2⟩
  · intro hq
    have := h.ifQuiet hq
    rw [hl]
    exact ⟨this.1, fun h' => hadd.trans ((this.2 h').trans hrem.symm)⟩
  · intro hq
    have := h.ifBusy hq
    rw [hl, hw]
    refine ⟨this.1, ?_⟩
    have e₁ : added { s with maxId := s.maxId + 1 } (s.maxId + 1 + 1) = added s (s.maxId + 1) := hadd
    have e₂ : removed { s with maxId := s.maxId + 1 } (s.maxId + 1 + 1) = removed s (s.maxId + 1) :=
      hrem
    dsimp only
    rw [e₁, e₂]
    exact this.2
  · intro x
    rw [List.count_cons_of_ne (by simp), List.count_cons_of_ne (by simp), hq, hw]
    exact h.all x
  · intro x
    rw [List.count_cons_of_ne (by simp), List.count_cons_of_ne (by simp), hr]
    exact h.done x

theorem inv_step (h : Inv tr s) {l : Label} {s' : St} (st : Step s l s') : Inv (l :: tr) s' := by
  cases st with
  | spawn => exact inv_spawn h
  | submit t x ht hs => exact inv_submit h ht hs
  | start hm hs => exact inv_start h hm hs
  | startSkip e mt i ns np hm hi he => exact inv_startSkip h hm he
  | startOne e mt i ns np hm hi he h1 =>
    have := inv_startRun h hm hi he (by omega) (n := ns + 1) (by omega)
    rw [h1.2.2] at this
    exact this
  | startPut e mt i ns np hm hi he h1 hp => exact inv_startPut h hm hi he hp
  | startSerial e mt i ns np hm hi he h1 hp =>
    have hpos := (giveOut h hm hi he).2.2.2.2.2.2
    have hnp : np = 0 := by
      have := h.pc
      unfold PcOk at this
      rw [hm] at this
      by_cases c : np = 0
      · exact c
      · have := this.2.2.2.2.1 (by omega)
        rw [hp] at this; cases this
    exact inv_startRun h hm hi he hnp (by omega)
  | runNext e mt i ns np d j js hm hd => exact inv_runNext h hm
  | runDone e mt i ns np d hm hd => exact inv_runDone h hm hd
  | startEnd e mt i ns np hm hi => exact inv_startEnd h hm hi
  | put hl => exact inv_put h
  | take t k ht hl hk => exact inv_take h ht
  | popBot t x l ht hd =>
    refine inv_pop h ht ht fun q => ?_
    rw [hd, List.countP_append, countP_cons', List.countP_nil]
    omega
  | popTop t v x l ht hv hd =>
    refine inv_pop h ht hv fun q => ?_
    rw [hd, countP_cons']
  | finish t x r hg hk => exact inv_finish h hg hk
  | finishOther t r hg hk => exact inv_finishOther h hg hk
  | load t x r hg hk => exact inv_load h hg hk
  | store t x e r hg hk => exact inv_store h hg hk
  | drainSerial hm hs hp => exact inv_drainSerial h hm hs hp
  | drain hm hs hp => exact inv_scan h (.inl ⟨hm, hs, hp⟩)
  | rescan hm => exact inv_scan h (.inr hm)
  | scanW e mt i p hm hi => exact inv_scanW h hm hi
  | scanC e mt i p hm => exact inv_scanC h hm
  | scanBusy e mt i p hm hi hp => exact inv_scanBusy h hm
  | scanZero e mt i p hm hi hp => exact inv_scanZero h hm hi hp

theorem reach_inv {p : Bool} (h : Reach p tr s) : Inv tr s := by
  induction h with
  | init => exact inv_init p
  | step _ st ih => exact inv_step ih st

end Verif.Thread.Workq
