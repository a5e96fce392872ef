import Verif.Sim.CycleModel

/-! Lemmas about the simulation cycle. -/

namespace Verif.Sim.Cycle

/-- The job has been run in the cycle of this state. -/
def Logged (j : Job) (s : St) : Prop := ∃ ph, (⟨ph, s.now, s.iter, j⟩ : Entry) ∈ s.log

/-- What may change while jobs are run within one cycle. -/
structure Ext (s s' : St) : Prop where
  now : s'.now = s.now
  iter : s'.iter = s.iter
  log : ∃ l, s'.log = s.log ++ l ∧ ∀ x ∈ l, x.now = s.now ∧ x.iter = s.iter
  heapNew : ∀ x ∈ s'.heap, x ∈ s.heap ∨ s.now < x.1
  heapOld : ∀ x ∈ s.heap, x ∈ s'.heap ∨
    ∃ p, x.2 = .proc p ∧ (Job.run p ∈ s'.procq ∨ Job.run p ∈ s'.postponedq ∨ Logged (.run p) s')
  driversNew : ∀ j ∈ s'.driverq, j ∈ s.driverq
  drivers : ∀ j ∈ s.driverq, j ∈ s'.driverq ∨ Logged j s'
  implicits : ∀ j ∈ s.implicitq, j ∈ s'.implicitq ∨ Logged j s'
  procs : ∀ j ∈ s.procq, j ∈ s'.procq ∨ Logged j s'
  posts : ∀ j ∈ s.postponedq, j ∈ s'.postponedq ∨ Logged j s'
  dprocs : ∀ j ∈ s.deltaProcq, j ∈ s'.deltaProcq
  ddrivers : ∀ j ∈ s.deltaDriverq, j ∈ s'.deltaDriverq
  delta : s.nextDelta = true → s'.nextDelta = true
  sched : (s.nextDelta = false → s.deltaProcq = [] ∧ s.deltaDriverq = []) →
    s'.nextDelta = false → s'.deltaProcq = [] ∧ s'.deltaDriverq = []

theorem Logged.mono {j s s'} (h : Ext s s') (hl : Logged j s) : Logged j s' := by
  obtain ⟨ph, hp⟩ := hl
  obtain ⟨l, hl, -⟩ := h.log
  exact ⟨ph, by rw [h.now, h.iter, hl]; exact List.mem_append_left _ hp⟩

theorem Ext.refl (s : St) : Ext s s :=
  ⟨rfl, rfl, ⟨[], by simp⟩, fun _ h => .inl h, fun _ h => .inl h, fun _ h => h, fun _ h => .inl h,
   fun _ h => .inl h, fun _ h => .inl h, fun _ h => .inl h, fun _ h => h, fun _ h => h,
   fun h => h, fun h => h⟩

theorem Ext.trans {a b c : St} (h1 : Ext a b) (h2 : Ext b c) : Ext a c where
  now := by rw [h2.now, h1.now]
  iter := by rw [h2.iter, h1.iter]
  log := by
    obtain ⟨l1, e1, g1⟩ := h1.log
    obtain ⟨l2, e2, g2⟩ := h2.log
    refine ⟨l1 ++ l2, by rw [e2, e1, List.append_assoc], fun x hx => ?_⟩
    rcases List.mem_append.1 hx with hx | hx
    · exact g1 x hx
    · have := g2 x hx
      rwa [h1.now, h1.iter] at this
  heapNew := fun x hx => by
    rcases h2.heapNew x hx with h | h
    · exact h1.heapNew x h
    · exact .inr (by rw [← h1.now]; exact h)
  heapOld := fun x hx => by
    rcases h1.heapOld x hx with h | ⟨p, hp, h⟩
    · exact h2.heapOld x h
    · refine .inr ⟨p, hp, ?_⟩
      rcases h with h | h | h
      · rcases h2.procs _ h with h | h
        · exact .inl h
        · exact .inr (.inr h)
      · rcases h2.posts _ h with h | h
        · exact .inr (.inl h)
        · exact .inr (.inr h)
      · exact .inr (.inr (h.mono h2))
  driversNew := fun j hj => h1.driversNew j (h2.driversNew j hj)
  drivers := fun j hj => (h1.drivers j hj).elim (h2.drivers j) fun h => .inr (h.mono h2)
  implicits := fun j hj => (h1.implicits j hj).elim (h2.implicits j) fun h => .inr (h.mono h2)
  procs := fun j hj => (h1.procs j hj).elim (h2.procs j) fun h => .inr (h.mono h2)
  posts := fun j hj => (h1.posts j hj).elim (h2.posts j) fun h => .inr (h.mono h2)
  dprocs := fun j hj => h2.dprocs j (h1.dprocs j hj)
  ddrivers := fun j hj => h2.ddrivers j (h1.ddrivers j hj)
  delta := fun h => h2.delta (h1.delta h)
  sched := fun h => h2.sched (h1.sched h)

theorem mem_deleteProc {p x} : ∀ {l : List (Nat × Ev)}, x ∈ deleteProc p l → x ∈ l
  | [], h => h
  | y :: l, h => by
    unfold deleteProc at h
    split at h
    · exact List.mem_cons_of_mem _ h
    · rcases List.mem_cons.1 h with h | h
      · exact h ▸ List.mem_cons_self
      · exact List.mem_cons_of_mem _ (mem_deleteProc h)

theorem of_mem_deleteProc {p x} : ∀ {l : List (Nat × Ev)}, x ∈ l →
    x ∈ deleteProc p l ∨ x.2 = .proc p
  | [], h => nomatch h
  | y :: l, h => by
    unfold deleteProc
    split
    · rcases List.mem_cons.1 h with h | h
      · exact .inr (by rw [h]; assumption)
      · exact .inl h
    · rcases List.mem_cons.1 h with h | h
      · exact .inl (h ▸ List.mem_cons_self)
      · exact (of_mem_deleteProc h).imp (List.mem_cons_of_mem _) id

theorem ext_wakeup (post p s) : Ext s (wakeup post p s) := by
  unfold wakeup
  split
  · exact .refl s
  · split <;> dsimp only <;> split <;>
    · constructor <;> try simp_all
      all_goals try (intro j hj; exact .inl (.inl hj))
      all_goals try (intro a b h; exact .inl (mem_deleteProc h))
      all_goals try (intro a b h; rcases of_mem_deleteProc (p := p) h with h | h <;> simp_all)
      all_goals try (intro j hj; exact .inl hj)

theorem ext_heapAdd (s : St) (x : Nat × Ev) (f : Nat → Bool) (h : s.now < x.1) :
    Ext s { s with heap := s.heap ++ [x], delayed := f } where
  now := rfl
  iter := rfl
  log := ⟨[], by simp⟩
  heapNew y hy := by
    rcases List.mem_append.1 hy with hy | hy
    · exact .inl hy
    · rw [List.mem_singleton.1 hy]; exact .inr h
  heapOld y hy := .inl (List.mem_append_left _ hy)
  driversNew _ h := h
  drivers _ h := .inl h
  implicits _ h := .inl h
  procs _ h := .inl h
  posts _ h := .inl h
  dprocs _ h := h
  ddrivers _ h := h
  delta h := h
  sched h := h

theorem ext_deltaAdd (s : St) (l1 l2 : List Job) (f : Nat → Bool) :
    Ext s { s with deltaProcq := s.deltaProcq ++ l1, deltaDriverq := s.deltaDriverq ++ l2,
                   nextDelta := true, pending := f } where
  now := rfl
  iter := rfl
  log := ⟨[], by simp⟩
  heapNew y hy := .inl hy
  heapOld y hy := .inl hy
  driversNew _ h := h
  drivers _ h := .inl h
  implicits _ h := .inl h
  procs _ h := .inl h
  posts _ h := .inl h
  dprocs _ h := List.mem_append_left _ h
  ddrivers _ h := List.mem_append_left _ h
  delta h := rfl
  sched h h' := nomatch h'

theorem ext_implicitAdd (s : St) (j : Job) (f : Nat → Bool) :
    Ext s { s with implicitq := s.implicitq ++ [j], ipending := f } where
  now := rfl
  iter := rfl
  log := ⟨[], by simp⟩
  heapNew y hy := .inl hy
  heapOld y hy := .inl hy
  driversNew _ h := h
  drivers _ h := .inl h
  implicits _ h := .inl (List.mem_append_left _ h)
  procs _ h := .inl h
  posts _ h := .inl h
  dprocs _ h := h
  ddrivers _ h := h
  delta h := h
  sched h := h

theorem ext_doAct {post ph cur s a s'} (h : doAct post ph cur s a = some s') : Ext s s' := by
  cases a with
  | schedProc delay =>
    cases cur with
    | none => simp [doAct] at h
    | some p =>
      simp only [doAct] at h
      split at h
      · split at h
        · cases h
        · cases h
          simpa using ext_deltaAdd s [.run p] [] (set s.pending p true)
      · split at h
        · cases h
        · cases h
          exact ext_heapAdd s (s.now + delay, .proc p) _ (by simp; omega)
  | schedDriver delay d =>
    simp only [doAct] at h
    split at h
    · split at h
      · cases h
      · cases h
        simpa using ext_deltaAdd s [] [.driver d] s.pending
    · cases h
      exact ext_heapAdd s (s.now + delay, .driver d) _ (by simp; omega)
  | setTimeout w c =>
    simp only [doAct] at h
    split at h
    · cases h
      exact ext_heapAdd s (w, .timeout c) _ (by assumption)
    · cases h
  | wake p =>
    simp only [doAct] at h
    split at h
    · cases h; exact ext_wakeup ..
    · cases h
  | wakeImplicit i =>
    simp only [doAct] at h
    split at h
    · cases h
    split at h
    · cases h; exact .refl _
    · cases h
      exact ext_implicitAdd ..

/-- Something kept by each element of a queue is kept by the whole. -/
theorem foldlM_keep {α} {f : St → α → Option St} {R : St → St → Prop}
    (hr : ∀ s, R s s) (ht : ∀ {a b c}, R a b → R b c → R a c)
    (hf : ∀ {s a s'}, f s a = some s' → R s s') :
    ∀ {l : List α} {s s'}, l.foldlM f s = some s' → R s s'
  | [], s, s', h => by simp at h; exact h ▸ hr s
  | a :: l, s, s', h => by
    rw [List.foldlM_cons] at h
    cases hfa : f s a with
    | none => rw [hfa] at h; cases h
    | some s1 =>
      rw [hfa] at h
      exact ht (hf hfa) (foldlM_keep hr ht hf h)

theorem foldlM_keep_mem {α} {f : St → α → Option St} {R : St → St → Prop}
    (hr : ∀ s, R s s) (ht : ∀ {a b c}, R a b → R b c → R a c) :
    ∀ {l : List α} {s s'}, (∀ a ∈ l, ∀ {s s'}, f s a = some s' → R s s') →
      l.foldlM f s = some s' → R s s'
  | [], s, s', _, h => by simp at h; exact h ▸ hr s
  | a :: l, s, s', hf, h => by
    rw [List.foldlM_cons] at h
    cases hfa : f s a with
    | none => rw [hfa] at h; cases h
    | some s1 =>
      rw [hfa] at h
      exact ht (hf a (by simp) hfa)
        (foldlM_keep_mem hr ht (fun b hb => hf b (List.mem_cons_of_mem _ hb)) h)

theorem ext_doActs {post ph cur s as s'} (h : doActs post ph cur s as = some s') : Ext s s' :=
  foldlM_keep Ext.refl Ext.trans ext_doAct h

theorem ext_logged (s : St) (ph : Phase) (j : Job) (pe : Nat → Bool) (ip : Nat → Bool) :
    Ext s { s with log := s.log ++ [⟨ph, s.now, s.iter, j⟩], pending := pe, ipending := ip } := by
  constructor <;> simp_all
  all_goals (intros; simp_all)

theorem runJob_spec {post beh ph s j s'} (h : runJob post beh ph s j = some s') :
    ∃ pe ip, doActs post ph j.cur
      { s with log := s.log ++ [⟨ph, s.now, s.iter, j⟩], pending := pe, ipending := ip }
      (beh { s with log := s.log ++ [⟨ph, s.now, s.iter, j⟩], pending := pe, ipending := ip } j)
        = some s' := by
  unfold runJob at h
  dsimp only at h
  cases j with
  | run p =>
    dsimp only at h
    split at h
    · exact ⟨_, _, h⟩
    · cases h
  | implicit p =>
    dsimp only at h
    split at h
    · exact ⟨_, _, h⟩
    · cases h
  | driver d => exact ⟨_, _, h⟩
  | timeout d => exact ⟨_, _, h⟩
  | global d => exact ⟨_, _, h⟩

theorem ext_runJob {post beh ph s j s'} (h : runJob post beh ph s j = some s') :
    Ext s s' ∧ Logged j s' := by
  obtain ⟨pe, ip, h⟩ := runJob_spec h
  have h1 := ext_logged s ph j pe ip
  have h2 := ext_doActs h
  exact ⟨h1.trans h2, Logged.mono h2 ⟨ph, by simp⟩⟩

theorem ext_runJobs {post beh ph} : ∀ {js s s'}, runJobs post beh ph s js = some s' →
    Ext s s' ∧ ∀ j ∈ js, Logged j s'
  | [], s, s', h => by
    simp [runJobs] at h; exact ⟨h ▸ .refl s, by simp⟩
  | j :: js, s, s', h => by
    unfold runJobs at h
    rw [List.foldlM_cons] at h
    cases hf : runJob post beh ph s j with
    | none => rw [hf] at h; cases h
    | some s1 =>
      rw [hf] at h
      obtain ⟨e1, l1⟩ := ext_runJob hf
      obtain ⟨e2, l2⟩ := ext_runJobs (js := js) h
      refine ⟨e1.trans e2, fun i hi => ?_⟩
      rcases List.mem_cons.1 hi with rfl | hi
      · exact l1.mono e2
      · exact l2 i hi

theorem ext_runDrivers {post beh s s'} (h : runDrivers post beh s = some s') :
    Ext s s' ∧ s'.driverq = [] := by
  unfold runDrivers at h
  cases hr : runJobs post beh .drivers s s.driverq with
  | none => rw [hr] at h; cases h
  | some s1 =>
    rw [hr] at h
    simp only [Option.bind_eq_bind, Option.bind_some] at h
    split at h
    · rename_i hq
      cases h
      obtain ⟨e1, l1⟩ := ext_runJobs hr
      refine ⟨e1.trans ?_, rfl⟩
      have l1 : ∀ j ∈ s1.driverq, Logged j { s1 with driverq := [] } := fun j hj => l1 j (hq ▸ hj)
      constructor <;> simp_all
      all_goals (intros; simp_all)
    · cases h

theorem ext_runImplicits {post beh s s'} (h : runImplicits post beh s = some s') :
    Ext s s' ∧ s'.implicitq = [] := by
  unfold runImplicits at h
  cases hr : runJobs post beh .implicits s s.implicitq with
  | none => rw [hr] at h; cases h
  | some s1 =>
    rw [hr] at h
    simp only [Option.bind_eq_bind, Option.bind_some] at h
    split at h
    · rename_i hq
      cases h
      obtain ⟨e1, l1⟩ := ext_runJobs hr
      refine ⟨e1.trans ?_, rfl⟩
      have l1 : ∀ j ∈ s1.implicitq, Logged j { s1 with implicitq := [] } :=
        fun j hj => l1 j (hq ▸ hj)
      constructor <;> simp_all
      all_goals (intros; simp_all)
    · cases h

theorem ext_runProcs {post beh s s'} (h : runProcs post beh s = some s') :
    Ext s s' ∧ s'.procq = [] := by
  unfold runProcs at h
  cases hr : runJobs post beh .procs s s.procq with
  | none => rw [hr] at h; cases h
  | some s1 =>
    rw [hr] at h
    simp only [Option.bind_eq_bind, Option.bind_some] at h
    split at h
    · rename_i hq
      cases h
      obtain ⟨e1, l1⟩ := ext_runJobs hr
      refine ⟨e1.trans ?_, rfl⟩
      have l1 : ∀ j ∈ s1.procq, Logged j { s1 with procq := [] } := fun j hj => l1 j (hq ▸ hj)
      constructor <;> simp_all
      all_goals (intros; simp_all)
    · cases h

theorem ext_runPostponed {post beh s s'} (h : runPostponed post beh s = some s') :
    Ext s s' ∧ s'.postponedq = [] := by
  unfold runPostponed at h
  cases hr : runJobs post beh .post s s.postponedq with
  | none => rw [hr] at h; cases h
  | some s1 =>
    rw [hr] at h
    simp only [Option.bind_eq_bind, Option.bind_some] at h
    split at h
    · rename_i hq
      cases h
      obtain ⟨e1, l1⟩ := ext_runJobs hr
      refine ⟨e1.trans ?_, rfl⟩
      have l1 : ∀ j ∈ s1.postponedq, Logged j { s1 with postponedq := [] } :=
        fun j hj => l1 j (hq ▸ hj)
      constructor <;> simp_all
      all_goals (intros; simp_all)
    · cases h

theorem ext_canDelta (s : St) (b : Bool) : Ext s { s with canDelta := b } := by
  constructor <;> simp_all
  all_goals (intros; simp_all)

theorem ext_endTimeStep {post beh s s'} (h : endTimeStep post beh s = some s') : Ext s s' := by
  unfold endTimeStep at h
  cases hr : runPostponed post beh { s with canDelta := false } with
  | none => rw [hr] at h; cases h
  | some s1 =>
    rw [hr] at h
    simp only [Option.bind_eq_bind, Option.bind_some] at h
    cases hg : runJob post beh .post s1 (.global 4) with
    | none => rw [hg] at h; cases h
    | some s2 =>
      rw [hg] at h
      simp only [Option.bind_some] at h
      cases h
      exact ((ext_canDelta s false).trans (ext_runPostponed hr).1).trans
        ((ext_runJob hg).1.trans (ext_canDelta _ _))

/-- What may change in a phase in which nothing is woken. -/
structure Quiet (s s' : St) : Prop where
  implicits : s'.implicitq = s.implicitq
  procs : s'.procq = s.procq
  posts : s'.postponedq = s.postponedq
  heap : ∀ x ∈ s.heap, x ∈ s'.heap

theorem quiet_doAct {post ph cur s a s'} (hph : ph.wakes = false)
    (h : doAct post ph cur s a = some s') : Quiet s s' := by
  cases a with
  | schedProc delay =>
    cases cur with
    | none => simp [doAct] at h
    | some p =>
      simp only [doAct] at h
      split at h <;> split at h <;> cases h <;> exact ⟨rfl, rfl, rfl, by simp_all⟩
  | schedDriver delay d =>
    simp only [doAct] at h
    split at h
    · split at h <;> cases h; exact ⟨rfl, rfl, rfl, by simp_all⟩
    · cases h; exact ⟨rfl, rfl, rfl, by simp_all⟩
  | setTimeout w c =>
    simp only [doAct] at h
    split at h <;> cases h; exact ⟨rfl, rfl, rfl, by simp_all⟩
  | wake p => simp [doAct, hph] at h
  | wakeImplicit i => simp [doAct, hph] at h

theorem Quiet.refl (s : St) : Quiet s s := ⟨rfl, rfl, rfl, fun _ h => h⟩

theorem Quiet.trans {a b c : St} (h1 : Quiet a b) (h2 : Quiet b c) : Quiet a c :=
  ⟨h2.1.trans h1.1, h2.2.trans h1.2, h2.3.trans h1.3, fun x h => h2.4 x (h1.4 x h)⟩

theorem quiet_runJob {post beh ph s j s'} (hph : ph.wakes = false)
    (h : runJob post beh ph s j = some s') : Quiet s s' := by
  obtain ⟨pe, ip, h⟩ := runJob_spec h
  have := foldlM_keep Quiet.refl Quiet.trans (quiet_doAct hph) h
  exact ⟨this.1, this.2, this.3, this.4⟩

theorem quiet_runJobs {post beh ph s js s'} (hph : ph.wakes = false)
    (h : runJobs post beh ph s js = some s') : Quiet s s' :=
  foldlM_keep Quiet.refl Quiet.trans (quiet_runJob hph) h

/-- What every action leaves alone, and the kinds of jobs in the queues. -/
structure Frame (post : Nat → Bool) (s s' : St) : Prop where
  log : s'.log = s.log
  canDelta : s'.canDelta = s.canDelta
  driverq : s'.driverq = s.driverq
  implicitq : ∀ j ∈ s'.implicitq, j ∈ s.implicitq ∨ ∃ i, j = .implicit i
  procq : ∀ j ∈ s'.procq, j ∈ s.procq ∨ ∃ p, j = .run p ∧ post p = false
  postponedq : ∀ j ∈ s'.postponedq, j ∈ s.postponedq ∨ ∃ p, j = .run p ∧ post p = true
  deltaProcq : ∀ j ∈ s'.deltaProcq, j ∈ s.deltaProcq ∨ ∃ p, j = .run p
  deltaDriverq : ∀ j ∈ s'.deltaDriverq, j ∈ s.deltaDriverq ∨ ∃ d, j = .driver d

theorem Frame.refl (post s) : Frame post s s :=
  ⟨rfl, rfl, rfl, fun _ h => .inl h, fun _ h => .inl h, fun _ h => .inl h, fun _ h => .inl h,
   fun _ h => .inl h⟩

theorem Frame.trans {post} {a b c : St} (h1 : Frame post a b) (h2 : Frame post b c) :
    Frame post a c where
  log := h2.log.trans h1.log
  canDelta := h2.canDelta.trans h1.canDelta
  driverq := h2.driverq.trans h1.driverq
  implicitq j h := (h2.implicitq j h).elim (h1.implicitq j) .inr
  procq j h := (h2.procq j h).elim (h1.procq j) .inr
  postponedq j h := (h2.postponedq j h).elim (h1.postponedq j) .inr
  deltaProcq j h := (h2.deltaProcq j h).elim (h1.deltaProcq j) .inr
  deltaDriverq j h := (h2.deltaDriverq j h).elim (h1.deltaDriverq j) .inr

theorem frame_wakeup (post p s) : Frame post s (wakeup post p s) := by
  unfold wakeup
  split
  · exact .refl _ _
  · split <;> dsimp only <;> split <;>
    · constructor <;> simp_all
      all_goals (intro j h; rcases h with h | h)
      all_goals simp_all

theorem frame_doAct {post ph cur s a s'} (h : doAct post ph cur s a = some s') :
    Frame post s s' := by
  have hm : ∀ {l : List Job} {x j : Job}, j ∈ l ++ [x] → j ∈ l ∨ j = x := by
    intro l x j hj; simpa using hj
  have hr := Frame.refl post s
  cases a with
  | schedProc delay =>
    cases cur with
    | none => simp [doAct] at h
    | some p =>
      simp only [doAct] at h
      split at h <;> split at h <;> cases h
      · exact { hr with deltaProcq := fun j hj => (hm hj).imp_right fun h => ⟨p, h⟩ }
      · exact { hr with }
  | schedDriver delay d =>
    simp only [doAct] at h
    split at h
    · split at h <;> cases h
      exact { hr with deltaDriverq := fun j hj => (hm hj).imp_right fun h => ⟨d, h⟩ }
    · cases h; exact { hr with }
  | setTimeout w c =>
    simp only [doAct] at h
    split at h <;> cases h; exact { hr with }
  | wake p =>
    simp only [doAct] at h
    split at h <;> cases h
    exact frame_wakeup ..
  | wakeImplicit i =>
    simp only [doAct] at h
    split at h
    · cases h
    split at h <;> cases h
    · exact hr
    · exact { hr with implicitq := fun j hj => (hm hj).imp_right fun h => ⟨i, h⟩ }

theorem frame_runJob {post beh ph s j s'} (h : runJob post beh ph s j = some s') :
    Frame post { s with log := s.log ++ [⟨ph, s.now, s.iter, j⟩] } s' := by
  obtain ⟨pe, ip, h⟩ := runJob_spec h
  have := foldlM_keep (R := Frame post) (Frame.refl post) Frame.trans frame_doAct h
  exact ⟨this.1, this.2, this.3, this.4, this.5, this.6, this.7, this.8⟩

/-- The log grows by exactly the jobs that are run. -/
theorem frame_runJobs {post beh ph} : ∀ {js s s'}, runJobs post beh ph s js = some s' →
    Frame post { s with log := s.log ++ js.map (⟨ph, s.now, s.iter, ·⟩) } s'
  | [], s, s', h => by
    simp [runJobs] at h; subst h; simpa using Frame.refl post s
  | j :: js, s, s', h => by
    unfold runJobs at h
    rw [List.foldlM_cons] at h
    cases hf : runJob post beh ph s j with
    | none => rw [hf] at h; cases h
    | some s1 =>
      rw [hf] at h
      have e1 := (ext_runJob hf).1
      have f1 := frame_runJob hf
      have f2 := frame_runJobs (js := js) h
      rw [e1.now, e1.iter, f1.log] at f2
      refine Frame.trans (b := { s1 with now := s.now, iter := s.iter,
                                          log := s.log ++ [⟨ph, s.now, s.iter, j⟩] ++ js.map (⟨ph, s.now, s.iter, ·⟩) })
        ⟨?_, f1.2, f1.3, f1.4, f1.5, f1.6, f1.7, f1.8⟩ f2
      simp

/-- What an extracted event becomes. -/
def Ev.job : Ev → Job
  | .proc p => .run p
  | .driver d => .driver d
  | .timeout c => .timeout c

/-- Everything extracted is queued, and nothing else changes. -/
structure Disp (s s' : St) (es : List Ev) : Prop where
  now : s'.now = s.now
  iter : s'.iter = s.iter
  log : s'.log = s.log
  heap : s'.heap = s.heap
  ev : ∀ e ∈ es, e.job ∈ s'.driverq ∨ e.job ∈ s'.procq
  drivers : ∀ j ∈ s.driverq, j ∈ s'.driverq
  procs : ∀ j ∈ s.procq, j ∈ s'.procq
  implicits : s'.implicitq = s.implicitq
  posts : s'.postponedq = s.postponedq
  dprocs : s'.deltaProcq = s.deltaProcq
  ddrivers : s'.deltaDriverq = s.deltaDriverq
  delta : s'.nextDelta = s.nextDelta
  can : s'.canDelta = s.canDelta
  onlyDrivers : ∀ j ∈ s'.driverq, j ∈ s.driverq ∨
    ∃ e ∈ es, e.job = j ∧ ∃ d, j = .driver d ∨ j = .timeout d
  onlyProcs : ∀ j ∈ s'.procq, j ∈ s.procq ∨ ∃ p, .proc p ∈ es ∧ j = .run p

theorem disp_fold : ∀ {es s s'}, es.foldlM dispatch s = some s' → Disp s s' es
  | [], s, s', h => by simp at h; subst h; constructor <;> simp
  | e :: es, s, s', h => by
    rw [List.foldlM_cons] at h
    cases hf : dispatch s e with
    | none => rw [hf] at h; cases h
    | some s1 =>
      rw [hf] at h
      have ih := disp_fold (es := es) h
      have h1 : Disp s s1 [e] := by
        cases e with
        | proc p =>
          simp only [dispatch] at hf
          split at hf
          · cases hf; constructor <;> simp_all [Ev.job]
            all_goals (intro j hj; first | (rcases hj with hj | hj <;> simp_all) | simp_all)
          · cases hf
        | driver p =>
          simp only [dispatch] at hf
          cases hf; constructor <;> simp_all [Ev.job]
          all_goals (intro j hj; first | (rcases hj with hj | hj <;> simp_all) | simp_all)
        | timeout p =>
          simp only [dispatch] at hf
          cases hf; constructor <;> simp_all [Ev.job]
          all_goals (intro j hj; first | (rcases hj with hj | hj <;> simp_all) | simp_all)
      constructor
      · rw [ih.now, h1.now]
      · rw [ih.iter, h1.iter]
      · rw [ih.log, h1.log]
      · rw [ih.heap, h1.heap]
      · intro x hx
        rcases List.mem_cons.1 hx with rfl | hx
        · exact (h1.ev x (by simp)).imp (ih.drivers _) (ih.procs _)
        · exact ih.ev x hx
      · exact fun j hj => ih.drivers j (h1.drivers j hj)
      · exact fun j hj => ih.procs j (h1.procs j hj)
      · rw [ih.implicits, h1.implicits]
      · rw [ih.posts, h1.posts]
      · rw [ih.dprocs, h1.dprocs]
      · rw [ih.ddrivers, h1.ddrivers]
      · rw [ih.delta, h1.delta]
      · rw [ih.can, h1.can]
      · intro j hj
        rcases ih.onlyDrivers j hj with h | ⟨e', he, h⟩
        · rcases h1.onlyDrivers j h with h | ⟨e', he, h⟩
          · exact .inl h
          · exact .inr ⟨e', by simp at he; simp [he], h⟩
        · exact .inr ⟨e', List.mem_cons_of_mem _ he, h⟩
      · intro j hj
        rcases ih.onlyProcs j hj with h | ⟨p, hp, h⟩
        · rcases h1.onlyProcs j h with h | ⟨p, hp, h⟩
          · exact .inl h
          · exact .inr ⟨p, by simp at hp; simp [hp], h⟩
        · exact .inr ⟨p, List.mem_cons_of_mem _ hp, h⟩

end Verif.Sim.Cycle
