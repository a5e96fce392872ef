import Verif.Thread.WorkqProps

/-!
# `workq_drain` can always return (C53)

There is no deadlock: from every state in which `workq_start` has been called, there is an execution
in which `workq_drain` returns.
-/

namespace Verif.Thread.Workq

open Verif.Thread

variable {tr : List Label} {s : St} {p : Bool}

/-! ## The lock -/

/-- Only the loop of `workq_start` holds the lock. -/
def LockOk (s : St) : Prop :=
  s.locked = true → ∃ e mt i ns np, s.main = .startLoop e mt i ns np ∧ 0 < np

theorem lock_step (h : Inv tr s) (hl : LockOk s) {l : Label} {s' : St} (st : Step s l s') :
    LockOk s' := by
  cases st with
  | startSkip e mt i ns np hm hi he =>
    intro h'
    obtain ⟨_, _, _, _, _, h₁, h₂⟩ := hl h'
    rw [hm] at h₁
    cases h₁
    exact ⟨_, _, _, _, _, rfl, h₂⟩
  | startPut e mt i ns np hm hi he h1 hp =>
    intro _
    have := (giveOut h hm hi he).2.2.2.2.2.2
    exact ⟨_, _, _, _, _, rfl, by omega⟩
  | startOne e mt i ns np hm hi he h1 =>
    intro h'
    obtain ⟨_, _, _, _, _, h₁, h₂⟩ := hl h'
    rw [hm] at h₁
    cases h₁
    omega
  | startSerial e mt i ns np hm hi he h1 hp =>
    intro h'
    obtain ⟨_, _, _, _, _, h₁, h₂⟩ := hl h'
    rw [hm] at h₁
    cases h₁
    have hpc := h.pc
    unfold PcOk at hpc
    rw [hm] at hpc
    have := hpc.2.2.2.2.1 h₂
    rw [hp] at this; cases this
  | startEnd e mt i ns np hm hi => intro h'; cases h'
  | start hm hs =>
    intro h'
    obtain ⟨_, _, _, _, _, h₁, h₂⟩ := hl h'
    rw [hm] at h₁; cases h₁
  | runNext e mt i ns np d j js hm hd =>
    intro h'
    obtain ⟨_, _, _, _, _, h₁, h₂⟩ := hl h'
    rw [hm] at h₁; cases h₁
  | runDone e mt i ns np d hm hd =>
    intro h'
    obtain ⟨_, _, _, _, _, h₁, h₂⟩ := hl h'
    rw [hm] at h₁; cases h₁
  | drainSerial hm hs hp =>
    intro h'
    obtain ⟨_, _, _, _, _, h₁, h₂⟩ := hl h'
    rw [hm] at h₁; cases h₁
  | drain hm hs hp =>
    intro h'
    obtain ⟨_, _, _, _, _, h₁, h₂⟩ := hl h'
    rw [hm] at h₁; cases h₁
  | rescan hm =>
    intro h'
    obtain ⟨_, _, _, _, _, h₁, h₂⟩ := hl h'
    rw [hm] at h₁; cases h₁
  | scanW e mt i p hm hi =>
    intro h'
    obtain ⟨_, _, _, _, _, h₁, h₂⟩ := hl h'
    rw [hm] at h₁; cases h₁
  | scanC e mt i p hm =>
    intro h'
    obtain ⟨_, _, _, _, _, h₁, h₂⟩ := hl h'
    rw [hm] at h₁; cases h₁
  | scanBusy e mt i p hm hi hp =>
    intro h'
    obtain ⟨_, _, _, _, _, h₁, h₂⟩ := hl h'
    rw [hm] at h₁; cases h₁
  | scanZero e mt i p hm hi hp =>
    intro h'
    obtain ⟨_, _, _, _, _, h₁, h₂⟩ := hl h'
    rw [hm] at h₁; cases h₁
  | _ => exact hl

theorem reach_lock (h : Reach p tr s) : LockOk s := by
  induction h with
  | init => intro h; cases h
  | step h st ih => exact lock_step (reach_inv h) ih st

/-- Only tasks of the work queue load the epoch. -/
def OtherOk (s : St) : Prop := ∀ t e, ⟨.other, .loaded e⟩ ∉ s.stack t

theorem OtherOk.upd (h : OtherOk s) {t : Nat} {l : List Frame}
    (hl : ∀ e, ⟨.other, .loaded e⟩ ∈ l → ⟨.other, .loaded e⟩ ∈ s.stack t) :
    ∀ u e, ⟨.other, .loaded e⟩ ∉ Verif.Thread.upd s.stack t l u := by
  intro u e hu
  rw [upd_apply] at hu
  split at hu
  · next c => subst c; exact h u e (hl e hu)
  · exact h u e hu

theorem other_step (h : OtherOk s) {l : Label} {s' : St} (st : Step s l s') : OtherOk s' := by
  cases st with
  | runNext e mt i ns np d j js hm hd => exact h.upd fun e he => by simpa using he
  | popBot t x l ht hd => exact h.upd fun e he => by simpa using he
  | popTop t v x l ht hv hd => exact h.upd fun e he => by simpa using he
  | finish t x r hg hk => exact h.upd fun e he => by rw [hk]; simp at he; simp [he]
  | finishOther t r hg hk => exact h.upd fun e he => by rw [hk]; simp [he]
  | load t x r hg hk => exact h.upd fun e he => by rw [hk]; simp at he; simp [he]
  | store t x e r hg hk => exact h.upd fun e he => by rw [hk]; simp [he]
  | _ => exact h

theorem reach_other (h : Reach p tr s) : OtherOk s := by
  induction h with
  | init => intro t e h; cases h
  | step h st ih => exact other_step ih st

/-! ## Work that remains -/

def stageW : Stage → Nat
  | .running => 3
  | .finished => 2
  | .loaded _ => 1

def stackW : List Frame → Nat
  | [] => 0
  | f :: l => stageW f.stage + stackW l

def work (s : St) : Nat :=
  7 * waiting isMine s + 6 * (jobs s).length + 5 * s.global.length +
    4 * sum (fun t => (s.deq t).length) (s.maxId + 1) + sum (fun t => stackW (s.stack t)) (s.maxId + 1)

def startW (s : St) : Nat :=
  match s.main with
  | .startLoop _ mt i _ _ => 2 * (mt + 1 - i) + 1
  | .startRun _ mt i _ _ _ _ => 2 * (mt - i) + 2
  | _ => 0

theorem sum_upd {α : Type} {f : Nat → α} (w : α → Nat) {t n : Nat} (ht : t < n) (v : α) :
    sum (fun u => w (upd f t v u)) n + w (f t) = sum (fun u => w (f u)) n + w v := by
  have := sum_change (f := fun u => w (f u)) (g := fun u => w (upd f t v u)) ht
    fun x hx => by simp [hx]
  simpa using this

/-- There is a step that brings the end nearer. -/
def Nearer (s : St) : Prop :=
  ∃ l s', Step s l s' ∧ s'.started = true ∧
    (work s' < work s ∨ (work s' ≤ work s ∧ startW s' < startW s))

theorem work_of_same {s s' : St} (h : Same s s') :
    work s' = 7 * waiting isMine s + 6 * (jobs s).length + 5 * s'.global.length +
      4 * sum (fun t => (s'.deq t).length) (s.maxId + 1) +
      sum (fun t => stackW (s'.stack t)) (s.maxId + 1) := by
  unfold work
  rw [h.waiting, h.maxId]
  unfold jobs
  rw [h.main]

theorem nearer_stack (h : Inv tr s) (ho : OtherOk s) (hs : s.started = true) {t : Nat} (hg : Goes s t)
    (hk : s.stack t ≠ []) : Nearer s := by
  have ht := h.le_of_stack hk
  cases hst : s.stack t with
  | nil => exact absurd hst hk
  | cons f r =>
    obtain ⟨x, g⟩ := f
    have key : ∀ s' : St, Same s s' → s'.global = s.global → s'.deq = s.deq → ∀ r',
        s'.stack = upd s.stack t r' → stackW r' < stackW (s.stack t) → work s' < work s := by
      intro s' h₁ h₂ h₃ r' h₄ h₅
      have := sum_upd (f := s.stack) stackW ht r'
      rw [work_of_same h₁, h₂, h₃, h₄]
      unfold work
      omega
    cases g with
    | running =>
      exact ⟨_, _, .finish s t x r hg hst, hs, .inl (key _ ⟨rfl, rfl, rfl, rfl, rfl, rfl, rfl, rfl⟩ rfl rfl _ rfl
        (by rw [hst]; simp [stackW, stageW]))⟩
    | finished =>
      cases x with
      | mine x =>
        exact ⟨_, _, .load s t x r hg hst, hs, .inl (key _ ⟨rfl, rfl, rfl, rfl, rfl, rfl, rfl, rfl⟩ rfl rfl _ rfl
          (by rw [hst]; simp [stackW, stageW]))⟩
      | other =>
        exact ⟨_, _, .finishOther s t r hg hst, hs, .inl (key _ ⟨rfl, rfl, rfl, rfl, rfl, rfl, rfl, rfl⟩ rfl rfl _ rfl
          (by rw [hst]; simp [stackW, stageW]))⟩
    | loaded e =>
      cases x with
      | mine x =>
        exact ⟨_, _, .store s t x e r hg hst, hs, .inl (key _ ⟨rfl, rfl, rfl, rfl, rfl, rfl, rfl, rfl⟩ rfl rfl _ rfl
          (by rw [hst]; simp [stackW, stageW]))⟩
      | other => exact absurd (by rw [hst]; simp) (ho t e)

theorem nearer_deq (h : Inv tr s) (hs : s.started = true) {t : Nat} (hk : s.deq t ≠ []) :
    Nearer s := by
  have ht : t ≤ s.maxId := by
    by_cases c : t ≤ s.maxId
    · exact c
    · exact absurd (h.fresh t (by omega)).2.1 hk
  cases hd : s.deq t with
  | nil => exact absurd hd hk
  | cons x l =>
    refine ⟨_, _, .popTop s t t x l ht ht hd, hs, .inl ?_⟩
    refine Nat.lt_of_le_of_lt (Nat.le_of_eq <| work_of_same (s := s) ⟨rfl, rfl, rfl, rfl, rfl, rfl, rfl, rfl⟩) ?_
    dsimp only
    have h₁ := sum_upd (f := s.deq) List.length (t := t) (n := s.maxId + 1) (by omega) l
    have h₂ := sum_upd (f := s.stack) stackW (t := t) (n := s.maxId + 1) (by omega)
      (⟨x, .running⟩ :: s.stack t)
    rw [hd] at h₁
    simp only [stackW, stageW, List.length_cons] at h₁ h₂
    unfold work
    omega

theorem nearer_global (hs : s.started = true) (hl : s.locked = false) (hk : s.global ≠ []) :
    Nearer s := by
  refine ⟨_, _, .take s 0 s.global.length (Nat.zero_le _) hl (Nat.le_refl _), hs, .inl ?_⟩
  refine Nat.lt_of_le_of_lt (Nat.le_of_eq <| work_of_same (s := s) ⟨rfl, rfl, rfl, rfl, rfl, rfl, rfl, rfl⟩) ?_
  dsimp only
  have h₁ := sum_upd (f := s.deq) List.length (t := 0) (n := s.maxId + 1) (by omega)
    (s.deq 0 ++ s.global.take s.global.length)
  simp only [List.length_append, List.take_length] at h₁
  simp only [List.take_length, List.drop_length, List.length_nil]
  have := List.length_pos_iff.2 hk
  unfold work
  omega

theorem nearer_startLoop (h : Inv tr s) {e mt i ns np : Nat} (hm : s.main = .startLoop e mt i ns np) :
    Nearer s := by
  have hpc := h.pc
  unfold PcOk at hpc
  rw [hm] at hpc
  obtain ⟨h₁, ⟨h₂, h₂'⟩, h₃, h₄, h₅, h₆⟩ := hpc
  have hj : jobs s = [] := by simp [jobs, hm]
  by_cases hi : i ≤ mt
  · by_cases he : (s.wptr i).epoch = e
    · obtain ⟨g₁, g₂, g₃, g₄, g₅, g₆, g₇⟩ := giveOut h hm hi he
      have hlen := ((h.wptr i).2.2 (by omega)).2.2
      have hent : entries isMine s i = (s.wptr i).count := by
        unfold entries
        have hall : (fun x : Nat => isMine (.mine x)) = fun _ => true := rfl
        rw [hall, List.countP_true, List.length_take]
        omega
      have g₆ := g₆ isMine
      have hjl : ((s.tasks i).take (s.wptr i).count).length = (s.wptr i).count := by
        rw [List.length_take]; omega
      by_cases h1 : i = mt ∧ ns + np = 0 ∧ (s.wptr i).count = 1
      · refine ⟨_, _, .startOne s e mt i ns np hm hi he h1, h₁, .inl ?_⟩
        have e₁ := h1.2.2
        have e₂ : ((s.tasks i).take 1).length = 1 := by rw [List.length_take]; omega
        unfold work
        rw [hj]
        unfold waiting waitLo waitE at g₆ ⊢
        unfold jobs
        dsimp only
        rw [hm] at g₆ ⊢
        dsimp only at g₆ ⊢
        rw [e₂]
        unfold entries at *
        dsimp only [List.length_nil] at *
        omega
      · cases hp : s.parallel with
        | true =>
          refine ⟨_, _, .startPut s e mt i ns np hm hi he h1 hp, h₁, .inl ?_⟩
          unfold work
          rw [hj]
          unfold waiting waitLo waitE at g₆ ⊢
          unfold jobs
          dsimp only
          rw [hm] at g₆ ⊢
          dsimp only at g₆ ⊢
          rw [List.length_append, List.length_map, hjl]
          unfold entries at *
          dsimp only [List.length_nil] at *
          omega
        | false =>
          refine ⟨_, _, .startSerial s e mt i ns np hm hi he h1 hp, h₁, .inl ?_⟩
          unfold work
          rw [hj]
          unfold waiting waitLo waitE at g₆ ⊢
          unfold jobs
          dsimp only
          rw [hm] at g₆ ⊢
          dsimp only at g₆ ⊢
          rw [hjl]
          unfold entries at *
          dsimp only [List.length_nil] at *
          omega
    · refine ⟨_, _, .startSkip s e mt i ns np hm hi he, h₁, .inr ⟨?_, ?_⟩⟩
      · have hw : waiting isMine { s with main := .startLoop e mt (i + 1) ns np } =
            waiting isMine s := by
          refine waiting_of_main rfl rfl rfl fun t => ?_
          simp only [waitLo, waitE, hm]
          constructor
          · rintro ⟨a, b⟩
            exact ⟨by omega, b⟩
          · rintro ⟨a, b⟩
            refine ⟨?_, b⟩
            by_cases c : t = i
            · subst c; exact absurd b he
            · omega
        unfold work
        rw [hw, hj]
        exact Nat.le_refl _
      · unfold startW
        rw [hm]
        dsimp only
        omega
  · have st := Step.startEnd s e mt i ns np hm (by omega)
    refine ⟨_, _, st, h₁, .inr ⟨?_, ?_⟩⟩
    · have hw := waiting_busy (inv_step h st) (by simp [quiet, h₁]) (by simp [waitE]) isMine
      unfold work
      rw [hw, hj]
      dsimp only [jobs]
      omega
    · unfold startW
      rw [hm]
      dsimp only
      omega

theorem nearer_startRun (h : Inv tr s) (ho : OtherOk s) {e mt i ns np d : Nat} {js : List Nat}
    (hm : s.main = .startRun e mt i ns np d js) : Nearer s := by
  have hpc := h.pc
  unfold PcOk at hpc
  rw [hm] at hpc
  obtain ⟨h₁, h₂, h₃, h₄, h₅, h₆, h₇, h₈⟩ := hpc
  by_cases hd : (s.stack 0).length = d
  · cases js with
    | nil =>
      refine ⟨_, _, .runDone s e mt i ns np d hm hd, h₁, .inr ⟨?_, ?_⟩⟩
      · have hw : waiting isMine { s with main := .startLoop e mt (i + 1) ns np } =
            waiting isMine s := by
          refine waiting_of_main rfl rfl rfl fun t => ?_
          simp [waitLo, waitE, hm]
        unfold work
        rw [hw]
        unfold jobs
        rw [hm]
        exact Nat.le_refl _
      · unfold startW
        rw [hm]
        dsimp only
        omega
    | cons j js =>
      refine ⟨_, _, .runNext s e mt i ns np d j js hm hd, h₁, .inl ?_⟩
      have hw : waiting isMine { s with stack := upd s.stack 0 (⟨.mine j, .running⟩ :: s.stack 0),
                                        main := .startRun e mt i ns np d js } = waiting isMine s := by
        refine waiting_of_main rfl rfl rfl fun t => ?_
        simp [waitLo, waitE, hm]
      have h₂ := sum_upd (f := s.stack) stackW (t := 0) (n := s.maxId + 1) (by omega)
        (⟨.mine j, .running⟩ :: s.stack 0)
      simp only [stackW, stageW] at h₂
      unfold work
      rw [hw]
      unfold jobs
      rw [hm]
      dsimp only [List.length_cons]
      omega
  · have hlt : d < (s.stack 0).length := by
      obtain ⟨u, v, h₉, h₁₀, -⟩ := h₈
      have := congrArg List.length h₉
      rw [List.length_append] at this
      omega
    refine nearer_stack h ho h₁ (t := 0) ?_ ?_
    · unfold Goes
      rw [hm]
      exact fun _ => hlt
    · intro hn
      rw [hn] at hlt
      cases hlt

/-- The main thread is in `workq_start`. -/
def inStart : MPc → Bool
  | .startLoop .. => true
  | .startRun .. => true
  | _ => false

theorem nearer (h : Inv tr s) (hl : LockOk s) (ho : OtherOk s) (hs : s.started = true)
    (hw : 0 < work s ∨ inStart s.main = true) : Nearer s := by
  by_cases hin : inStart s.main = true
  · cases hm : s.main with
    | startLoop e mt i ns np => exact nearer_startLoop h hm
    | startRun e mt i ns np d js => exact nearer_startRun h ho hm
    | _ => rw [hm] at hin; cases hin
  · have hw := hw.resolve_right hin
    have hg : ∀ t, Goes s t := by
      intro t
      unfold Goes
      cases hm : s.main with
      | startRun e mt i ns np d js => rw [hm] at hin; exact absurd rfl hin
      | _ => trivial
    have hlock : s.locked = false := by
      cases c : s.locked with
      | false => rfl
      | true =>
        obtain ⟨_, _, _, _, _, h₁, -⟩ := hl c
        rw [h₁] at hin
        exact absurd rfl hin
    by_cases c₁ : ∃ t, s.stack t ≠ []
    · obtain ⟨t, ht⟩ := c₁
      exact nearer_stack h ho hs (hg t) ht
    · by_cases c₂ : ∃ t, s.deq t ≠ []
      · obtain ⟨t, ht⟩ := c₂
        exact nearer_deq h hs ht
      · by_cases c₃ : s.global = []
        · exfalso
          have hq : quiet s = false := by
            unfold quiet
            cases hm : s.main with
            | startLoop e mt i ns np => rw [hm] at hin; exact absurd rfl hin
            | _ => simp [hs]
          have he : waitE s = s.epoch := by
            unfold waitE
            cases hm : s.main with
            | startLoop e mt i ns np => rw [hm] at hin; exact absurd rfl hin
            | startRun e mt i ns np d js => rw [hm] at hin; exact absurd rfl hin
            | _ => rfl
          have hj : jobs s = [] := by
            unfold jobs
            cases hm : s.main with
            | startRun e mt i ns np d js => rw [hm] at hin; exact absurd rfl hin
            | _ => rfl
          have h₁ := waiting_busy h hq he isMine
          have h₂ : sum (fun t => (s.deq t).length) (s.maxId + 1) = 0 := by
            rw [sum_zero]
            intro t _
            by_cases c : s.deq t = []
            · rw [c]; rfl
            · exact absurd ⟨t, c⟩ c₂
          have h₃ : sum (fun t => stackW (s.stack t)) (s.maxId + 1) = 0 := by
            rw [sum_zero]
            intro t _
            by_cases c : s.stack t = []
            · rw [c]; rfl
            · exact absurd ⟨t, c⟩ c₁
          unfold work at hw
          rw [h₁, h₂, h₃, hj, c₃] at hw
          simp at hw
        · exact nearer_global hs hlock c₃

/-- All work can be done. -/
theorem reach_done : ∀ (n m : Nat) {tr : List Label} {s : St}, work s ≤ n → startW s ≤ m →
    Reach p tr s → s.started = true →
    ∃ ls s', Reach p (ls ++ tr) s' ∧ s'.started = true ∧ work s' = 0 ∧ inStart s'.main = false := by
  intro n
  induction n using Nat.strongRecOn with
  | _ n ihn =>
    intro m
    induction m using Nat.strongRecOn with
    | _ m ihm =>
      intro tr s hn hm hr hs
      by_cases c : 0 < work s ∨ inStart s.main = true
      · obtain ⟨l, s', st, hs', hd⟩ := nearer (reach_inv hr) (reach_lock hr) (reach_other hr) hs c
        have hr' := Reach.step hr st
        have : ∃ ls s'', Reach p (ls ++ (l :: tr)) s'' ∧ s''.started = true ∧ work s'' = 0 ∧
            inStart s''.main = false := by
          rcases hd with hd | ⟨hd, hd'⟩
          · exact ihn (work s') (by omega) (startW s') (Nat.le_refl _) (Nat.le_refl _) hr' hs'
          · exact ihm (startW s') (by omega) (by omega) (Nat.le_refl _) hr' hs'
        obtain ⟨ls, s'', h₁, h₂⟩ := this
        exact ⟨ls ++ [l], s'', by simpa using h₁, h₂⟩
      · refine ⟨[], s, hr, hs, by omega, ?_⟩
        cases h : inStart s.main with
        | true => exact absurd (.inr h) c
        | false => rfl

/-! ## The loop of `workq_outstanding` -/

/-- Nothing is left to do, the main thread is in the loop, and so far it has counted right. -/
theorem scan_zero : ∀ (k i : Nat) {tr : List Label} {s : St}, Reach p tr s → left s = 0 →
    i + k = s.maxId + 1 → s.main = .scanW s.epoch s.maxId i (added s i - removed s i : Int) →
    ∃ ls s', Reach p (.drained :: (ls ++ tr)) s'
  | 0, i, tr, s, hr, hl, hk, hm => by
    have hi := reach_inv hr
    have hpc := hi.pc
    unfold PcOk at hpc
    rw [hm] at hpc
    have hq : quiet s = false := by simp [quiet, hm, hpc.1]
    have hb := (hi.ifBusy hq).2
    have hw := waiting_busy hi hq (by simp [waitE, hm]) isMine
    have hik : i = s.maxId + 1 := by omega
    have : (added s i - removed s i : Int) = 0 := by rw [hik]; omega
    refine ⟨[], _, .step hr (.scanZero s _ _ _ _ hm (by omega) (by omega))⟩
  | k + 1, i, tr, s, hr, hl, hk, hm => by
    have r₁ := Reach.step hr (.scanW s _ _ _ _ hm (by omega))
    have r₂ := Reach.step r₁ (.scanC _ _ _ _ _ rfl)
    have hj : jobs s = [] := by simp [jobs, hm]
    obtain ⟨ls, s', h⟩ := scan_zero k (i + 1) r₂
      (by dsimp only; exact (left_of_jobs (s := s) (locked := s.locked) (started := s.started) hj rfl).trans hl)
      (by dsimp only; omega) (by
        dsimp only
        congr 1
        change _ = ((added s i + (s.wptr i).now (s.epoch - 1) : Nat) -
          (removed s i + (s.comp i).now s.epoch : Nat) : Int)
        omega)
    exact ⟨ls ++ [.tau, .tau], s', by simpa using h⟩

theorem drain_zero (hr : Reach p tr s) (hl : left s = 0) (hs : s.started = true)
    (hm : s.main = .out ∨ s.main = .drain) : ∃ ls s', Reach p (.drained :: (ls ++ tr)) s' := by
  have hj : jobs s = [] := by rcases hm with hm | hm <;> simp [jobs, hm]
  have go : Reach p (.tau :: tr) { s with main := .scanW s.epoch s.maxId 0 0 } →
      ∃ ls s', Reach p (.drained :: (ls ++ tr)) s' := by
    intro h
    obtain ⟨ls, s', h'⟩ := scan_zero (s.maxId + 1) 0 h
      ((left_of_jobs (s := s) (locked := s.locked) (started := s.started) hj rfl).trans hl)
      (by dsimp only; omega) rfl
    exact ⟨ls ++ [.tau], s', by simpa using h'⟩
  rcases hm with hm | hm
  · cases hp : s.parallel with
    | true => exact go (.step hr (.drain s hm hs hp))
    | false => exact ⟨[], _, .step hr (.drainSerial s hm hs hp)⟩
  · exact go (.step hr (.rescan s hm))

/-- The loop comes to its end. -/
theorem scan_end : ∀ (k : Nat) {tr : List Label} {s : St} {e mt i : Nat} {q : Int}, Reach p tr s →
    left s = 0 → s.started = true → s.main = .scanW e mt i q → i + k = mt + 1 →
    ∃ ls s', Reach p (.drained :: (ls ++ tr)) s'
  | 0, tr, s, e, mt, i, q, hr, hl, hs, hm, hk => by
    have hj : jobs s = [] := by simp [jobs, hm]
    by_cases hq : 0 < q
    · have r := Reach.step hr (.scanBusy s _ _ _ _ hm (by omega) hq)
      obtain ⟨ls, s', h⟩ := drain_zero r
        ((left_of_jobs (s := s) (locked := s.locked) (started := s.started) hj rfl).trans hl) hs (.inr rfl)
      exact ⟨ls ++ [.tau], s', by simpa using h⟩
    · exact ⟨[], _, .step hr (.scanZero s _ _ _ _ hm (by omega) hq)⟩
  | k + 1, tr, s, e, mt, i, q, hr, hl, hs, hm, hk => by
    have hj : jobs s = [] := by simp [jobs, hm]
    have r₁ := Reach.step hr (.scanW s _ _ _ _ hm (by omega))
    have r₂ := Reach.step r₁ (.scanC _ _ _ _ _ rfl)
    obtain ⟨ls, s', h⟩ := scan_end k r₂
      ((left_of_jobs (s := s) (locked := s.locked) (started := s.started) hj rfl).trans hl) hs rfl (by omega)
    exact ⟨ls ++ [.tau, .tau], s', by simpa using h⟩

theorem left_of_work (h : Inv tr s) (hw : work s = 0) : left s = 0 := by
  unfold work at hw
  have h₁ : s.global = [] := List.eq_nil_of_length_eq_zero (by omega)
  have h₂ : sum (fun t => (s.deq t).length) (s.maxId + 1) = 0 := by omega
  have h₃ : sum (fun t => stackW (s.stack t)) (s.maxId + 1) = 0 := by omega
  have h₄ : jobs s = [] := List.eq_nil_of_length_eq_zero (by omega)
  rw [sum_zero] at h₂ h₃
  have hq : queued isMine s = 0 := by
    unfold queued
    rw [h₁, sum_zero.2 fun t ht => ?_]
    · rfl
    · rw [List.eq_nil_of_length_eq_zero (h₂ t ht)]; rfl
  have ha : active isMine s = 0 := by
    unfold active
    rw [sum_zero]
    intro t ht
    have := h₃ t ht
    cases hst : s.stack t with
    | nil => rfl
    | cons f l =>
      rw [hst] at this
      obtain ⟨x, g⟩ := f
      cases g <;> simp [stackW, stageW] at this
  unfold left jobCount
  rw [hq, ha, h₄]
  rfl

/-- **C53**: after `workq_start` was called there is always a way to the end of `workq_drain`. -/
theorem drain_returns (hr : Reach p tr s) (hs : s.started = true) :
    ∃ ls s', Reach p (.drained :: (ls ++ tr)) s' := by
  obtain ⟨ls, s', h₁, h₂, h₃, h₄⟩ := reach_done _ _ (Nat.le_refl _) (Nat.le_refl _) hr hs
  have hl := left_of_work (reach_inv h₁) h₃
  have : ∃ ls' s'', Reach p (.drained :: (ls' ++ (ls ++ tr))) s'' := by
    cases hm : s'.main with
    | out => exact drain_zero h₁ hl h₂ (.inl hm)
    | drain => exact drain_zero h₁ hl h₂ (.inr hm)
    | startLoop e mt i ns np => rw [hm] at h₄; cases h₄
    | startRun e mt i ns np d js => rw [hm] at h₄; cases h₄
    | scanW e mt i q =>
      have hpc := (reach_inv h₁).pc
      unfold PcOk at hpc
      rw [hm] at hpc
      exact scan_end (mt + 1 - i) h₁ hl h₂ hm (by omega)
    | scanC e mt i q =>
      have hpc := (reach_inv h₁).pc
      unfold PcOk at hpc
      rw [hm] at hpc
      have hj : jobs s' = [] := by simp [jobs, hm]
      have r := Reach.step h₁ (.scanC s' _ _ _ _ hm)
      obtain ⟨ls', s'', h⟩ := scan_end (mt - i) r
        ((left_of_jobs (s := s') (locked := s'.locked) (started := s'.started) hj rfl).trans hl) h₂ rfl
        (by omega)
      exact ⟨ls' ++ [.tau], s'', by simpa using h⟩
  obtain ⟨ls', s'', h⟩ := this
  exact ⟨ls' ++ ls, s'', by simpa using h⟩

/-! ## An example -/

/-- Two tasks are submitted by the main thread and by a worker; they can be executed. -/
example : ∃ tr s, Reach true (.drained :: tr) s ∧ 1 ≤ finished tr 7 ∧ 1 ≤ finished tr 8 := by
  have r := Reach.init (parallel := true)
  have r := Reach.step r (.spawn _)
  have r := Reach.step r (.submit _ 0 7 (by decide) rfl)
  have r := Reach.step r (.submit _ 1 8 (by decide) rfl)
  have r := Reach.step r (.start _ rfl rfl)
  obtain ⟨ls, s, h⟩ := drain_returns r rfl
  refine ⟨_, s, h, ?_⟩
  rw [(drain_all h 7).2, (drain_all h 8).2]
  simp [submitted, List.count_append, List.count_cons]

end Verif.Thread.Workq
