import Verif.Sim.CycleProps

/-!
# The simulation cycle: no process is queued or run twice (C38)
-/

namespace Verif.Sim.Cycle

/-- How often the process occurs in the queues of processes. -/
def total (s : St) (p : Nat) : Nat :=
  s.procq.count (.run p) + s.deltaProcq.count (.run p) + s.postponedq.count (.run p)

/-- A process is in exactly one queue, once, if its pending flag is set, and else in none. -/
def Once (s : St) : Prop := ∀ p, total s p = (s.pending p).toNat

/-- The occurrences in queues and the pending flag change together. -/
def Kept (s s' : St) : Prop :=
  ∀ p, total s' p + (s.pending p).toNat = total s p + (s'.pending p).toNat

theorem Kept.refl (s : St) : Kept s s := fun _ => rfl

theorem Kept.trans {a b c : St} (h1 : Kept a b) (h2 : Kept b c) : Kept a c := fun p => by
  have := h1 p; have := h2 p; omega

theorem Once.kept {s s'} (h : Once s) (k : Kept s s') : Once s' := fun p => by
  have := h p; have := k p; omega

theorem count_snoc (l : List Job) (p q : Nat) :
    (l ++ [Job.run q]).count (.run p) = l.count (.run p) + if q = p then 1 else 0 := by
  simp [List.count_append, List.count_singleton]

theorem set_toNat (f : Nat → Bool) (q p : Nat) (v : Bool) :
    (set f q v p).toNat = if p = q then v.toNat else (f p).toNat := by
  unfold set; split <;> rfl

theorem kept_wakeup (post p s) : Kept s (wakeup post p s) := by
  unfold wakeup
  split
  · exact .refl s
  · rename_i hp
    have hp : (s.pending p).toNat = 0 := by simp_all
    intro q
    by_cases hq : p = q
    · subst hq
      split <;> dsimp only <;> split <;> simp [total, count_snoc, set_toNat, hp] <;> omega
    · have hq' : ¬ q = p := fun h => hq h.symm
      split <;> dsimp only <;> split <;> simp [total, count_snoc, set_toNat, hq, hq']

theorem kept_doAct {post ph cur s a s'} (h : doAct post ph cur s a = some s') : Kept s s' := by
  cases a with
  | schedProc delay =>
    cases cur with
    | none => simp [doAct] at h
    | some p =>
      simp only [doAct] at h
      split at h <;> split at h <;> cases h
      · rename_i hp
        have hp : (s.pending p).toNat = 0 := by simp_all
        intro q
        by_cases hq : p = q
        · subst hq
          simp [total, count_snoc, set_toNat, hp]; omega
        · have hq' : ¬ q = p := fun h => hq h.symm
          simp [total, count_snoc, set_toNat, hq, hq']
      · exact .refl s
  | schedDriver delay d =>
    simp only [doAct] at h
    split at h
    · split at h <;> cases h
      exact .refl s
    · cases h; exact .refl s
  | setTimeout w c =>
    simp only [doAct] at h
    split at h <;> cases h; exact .refl s
  | wake p =>
    simp only [doAct] at h
    split at h <;> cases h
    exact kept_wakeup post p s
  | wakeImplicit i =>
    simp only [doAct] at h
    split at h
    · cases h
    split at h <;> cases h <;> exact .refl s

/-- A job that is run clears the pending flag of its process, which was set. -/
theorem total_runJob {post beh ph s j s'} (h : runJob post beh ph s j = some s') (p : Nat) :
    total s' p + (s.pending p).toNat =
      total s p + (s'.pending p).toNat + if j = .run p then 1 else 0 := by
  have key : ∀ {cur} {s1 : St} {as}, doActs post ph cur s1 as = some s' → Kept s1 s' :=
    fun h => foldlM_keep Kept.refl Kept.trans kept_doAct h
  unfold runJob at h
  dsimp only at h
  cases j with
  | run q =>
    dsimp only at h
    split at h
    · rename_i hq
      have k := key h p
      simp only [total, set_toNat] at k ⊢
      by_cases hp : p = q
      · subst hp; simp [hq] at k ⊢; omega
      · have : ¬ q = p := fun h => hp h.symm
        simp [hp, this] at k ⊢; omega
    · cases h
  | implicit i =>
    dsimp only at h
    split at h
    · simpa [total] using key h p
    · cases h
  | driver d => simpa [total] using key h p
  | timeout d => simpa [total] using key h p
  | global d => simpa [total] using key h p

theorem total_runJobs {post beh ph} (p : Nat) : ∀ {js s s'}, runJobs post beh ph s js = some s' →
    total s' p + (s.pending p).toNat = total s p + (s'.pending p).toNat + js.count (.run p)
  | [], s, s', h => by simp [runJobs] at h; subst h; simp
  | j :: js, s, s', h => by
    unfold runJobs at h
    rw [List.foldlM_cons] at h
    cases hf : runJob post beh ph s j with
    | none => rw [hf] at h; cases h
    | some s1 =>
      rw [hf] at h
      have h1 := total_runJob hf p
      have h2 := total_runJobs p (js := js) h
      rw [List.count_cons]
      simp only [beq_iff_eq]
      omega

theorem kept_global {post beh ph s k s'} (h : runJob post beh ph s (.global k) = some s') :
    Kept s s' := fun p => by simpa using total_runJob h p

theorem kept_dispatch {s e s'} (h : dispatch s e = some s') : Kept s s' := by
  cases e with
  | proc p =>
    simp only [dispatch] at h
    split at h <;> cases h
    rename_i hp
    have hp : (s.pending p).toNat = 0 := by simp_all
    intro q
    by_cases hq : p = q
    · subst hq
      simp [total, count_snoc, set_toNat, hp]; omega
    · have hq' : ¬ q = p := fun h => hq h.symm
      simp [total, count_snoc, set_toNat, hq, hq']
  | driver d => cases h; exact .refl s
  | timeout d => cases h; exact .refl s

theorem kept_timeEvents {d s s'} (h : timeEvents d s = some s') : Kept s s' := by
  unfold timeEvents at h
  split at h
  · cases h; exact .refl s
  · have := foldlM_keep Kept.refl Kept.trans kept_dispatch h
    exact this

theorem kept_begin {post s} (hi : Idle post s) : Kept s (beginCycle s) := by
  intro p
  unfold beginCycle
  split <;> simp [total, hi.procs]

theorem count_none {l : List Job} (h : ∀ j ∈ l, ∀ p, j ≠ .run p) (p : Nat) : l.count (.run p) = 0 :=
  List.count_eq_zero.2 fun hm => h _ hm p rfl

theorem kept_noRun {post beh ph js s s'} (hk : ∀ j ∈ js, ∀ p, j ≠ .run p)
    (h : runJobs post beh ph s js = some s') : Kept s s' := fun p => by
  simpa [count_none hk p] using total_runJobs p h

/-- All parts of a cycle up to the run of the processes. -/
theorem once_before {post beh s z a b c d} (hi : Idle post s) (ho : Once s)
    (hz : nextTimeStep post beh (beginCycle s) = some z)
    (ha : runJob post beh .start z (.global 1) = some a)
    (hb : timeEvents s.nextDelta a = some b)
    (hc : runDrivers post beh b = some c) (hd : runImplicits post beh c = some d) :
    Once d ∧ Kinds post d := by
  have B := begun hi hz ha hb
  obtain ⟨c1, hc1, -, rfl⟩ := runDrivers_spec hc
  obtain ⟨d1, hd1, -, rfl⟩ := runImplicits_spec hd
  have kc : Kinds post { c1 with driverq := [] } :=
    { B.kinds.frame (frame_runJobs hc1) with driverq := by simp }
  have kd : Kinds post { d1 with implicitq := [] } :=
    { kc.frame (frame_runJobs hd1) with implicitq := by simp }
  refine ⟨?_, kd⟩
  have k1 : Kept (beginCycle s) z := by
    unfold nextTimeStep at hz
    split at hz
    · exact kept_global hz
    · cases hz; exact .refl _
  have k2 := kept_global ha
  have k3 := kept_timeEvents hb
  have k4 : Kept b c1 := kept_noRun (fun j hj p he => by
    obtain ⟨d, h | h⟩ := B.kinds.driverq j hj <;> (rw [h] at he; cases he)) hc1
  have k5 : Kept { c1 with driverq := [] } d1 := kept_noRun (fun j hj p he => by
    obtain ⟨d, h⟩ := kc.implicitq j hj; rw [h] at he; cases he) hd1
  have k := (kept_begin hi).trans (k1.trans (k2.trans (k3.trans k4)))
  exact fun p => (ho.kept (k.trans (b := c1) k5)) p

/-- After the run of the processes. -/
theorem once_procs {post beh s s'} (ho : Once s) (h : runProcs post beh s = some s') : Once s' := by
  obtain ⟨s1, h1, hq, rfl⟩ := runProcs_spec h
  intro p
  have h2 := total_runJobs p h1
  have := ho p
  simp only [total, hq] at h2 this ⊢
  simp only [List.count_nil]
  omega

theorem once_posts {post beh s s'} (ho : Once s) (h : runPostponed post beh s = some s') :
    Once s' := by
  obtain ⟨s1, h1, hq, rfl⟩ := runPostponed_spec h
  intro p
  have h2 := total_runJobs p h1
  have := ho p
  simp only [total, hq] at h2 this ⊢
  simp only [List.count_nil]
  omega

theorem kept_lastKnown {post beh s s'} (h : lastKnown post beh s = some s') : Kept s s' := by
  unfold lastKnown at h
  split at h
  · cases h; exact .refl _
  · exact kept_global h

/-- **Never queued twice**: a cycle keeps every process in at most one of the queues, and there once,
with its pending flag telling whether it is in one. -/
theorem once_cycle {post beh s s'} (hi : Idle post s) (ho : Once s)
    (h : cycle post beh s = some s') : Once s' := by
  obtain ⟨z, a, b, c, d, e, f, g, hz, ha, hb, hc, hd, he, hf, hg, hs⟩ := cycle_steps h
  have o := once_procs (once_before hi ho hz ha hb hc hd).1 he
  have o := (o.kept (kept_global hf)).kept (kept_lastKnown hg)
  split at hs
  · cases hs; exact o
  · obtain ⟨s1, s2, h1, h2, rfl⟩ := endTimeStep_spec hs
    have o1 : Once { g with canDelta := false } := o
    have o2 : Once s2 := (once_posts o1 h1).kept (kept_global h2)
    exact o2

theorem reach_once {post beh s0 s} (h0 : Idle post s0) (o0 : Once s0) (h : Reach post beh s0 s) :
    Once s := by
  induction h with
  | start => exact o0
  | step hr _ hc ih => exact once_cycle (reach_idle h0 hr) ih hc

/-- How often the process is run by the entries of the log. -/
def runs (l : List Entry) (p : Nat) : Nat := (l.map (·.job)).count (.run p)

theorem runs_append (l l' : List Entry) (p : Nat) : runs (l ++ l') p = runs l p + runs l' p := by
  simp [runs]

theorem runs_jobs (ph : Phase) (n : Nat) (i : Int) (js : List Job) (p : Nat) :
    runs (js.map (⟨ph, n, i, ·⟩)) p = js.count (.run p) := by
  simp [runs, Function.comp_def]

/-- **No process runs twice in a cycle.** -/
theorem runs_once {post beh s s'} (hi : Idle post s) (ho : Once s)
    (h : cycle post beh s = some s') :
    ∃ l, s'.log = s.log ++ l ∧ ∀ p, runs l p ≤ 1 := by
  obtain ⟨z, a, b, c, d, e, f, g, hz, ha, hb, hc, hd, he, hf, hg, hs⟩ := cycle_steps h
  obtain ⟨od, kd⟩ := once_before hi ho hz ha hb hc hd
  have B := begun hi hz ha hb
  obtain ⟨lz, gz, hlz⟩ := (ext_nextTimeStep hz).2.2
  have la := (frame_runJob ha).log
  have lb : b.log = a.log := by
    unfold timeEvents at hb
    split at hb
    · cases hb; rfl
    · exact (disp_fold hb).log
  obtain ⟨c1, hc1, -, rfl⟩ := runDrivers_spec hc
  obtain ⟨d1, hd1, -, rfl⟩ := runImplicits_spec hd
  obtain ⟨e1, he1, -, rfl⟩ := runProcs_spec he
  have lc := (frame_runJobs hc1).log
  have ld := (frame_runJobs hd1).log
  have le := (frame_runJobs he1).log
  have lf := (frame_runJob hf).log
  obtain ⟨lg, gg, hlg⟩ := (ext_lastKnown hg).2.2
  have kc : Kinds post { c1 with driverq := [] } :=
    { B.kinds.frame (frame_runJobs hc1) with driverq := by simp }
  have nd : ∀ p, b.driverq.count (.run p) = 0 := count_none fun j hj p he => by
    obtain ⟨d, h | h⟩ := B.kinds.driverq j hj <;> (rw [h] at he; cases he)
  have ni : ∀ p, c1.implicitq.count (.run p) = 0 := count_none fun j hj p he => by
    obtain ⟨d, h⟩ := kc.implicitq j hj; rw [h] at he; cases he
  have nz : ∀ p, runs lz p = 0 := fun p => count_none (fun j hj q he => by
    obtain ⟨x, hx, rfl⟩ := List.mem_map.1 hj
    obtain ⟨k, rfl⟩ := hlz x hx; cases he) p
  have ng : ∀ p, runs lg p = 0 := fun p => count_none (fun j hj q he => by
    obtain ⟨x, hx, rfl⟩ := List.mem_map.1 hj
    obtain ⟨k, rfl⟩ := hlg x hx; cases he) p
  have n1 : ∀ ph n i k p, runs [⟨ph, n, i, .global k⟩] p = 0 := fun _ _ _ _ _ => by
    simp [runs]
  have hqg : g.postponedq = d1.postponedq := by
    have q1 := quiet_runJobs (ph := .procs) rfl he1
    have q2 := quiet_runJob (ph := .procs) rfl hf
    have q3 := (ext_lastKnown hg).2.1
    rw [q3.posts, q2.posts]; exact q1.posts
  have hlog : ∃ l, g.log = s.log ++ l ∧ ∀ p, runs l p = d1.procq.count (.run p) := by
    have gl := gg.log
    have zl := gz.log
    rw [(begin_frame s).2.1] at zl
    simp only at gl lf le ld lc la zl
    rw [gl, lf, le, ld, lc, lb, la, zl]
    refine ⟨_, by simp only [List.append_assoc]; rfl, fun p => ?_⟩
    simp only [runs_append, runs_jobs, nd, ni, nz, ng, n1]
    omega
  obtain ⟨l, hl, hr⟩ := hlog
  have hle : ∀ p, d1.procq.count (.run p) + d1.postponedq.count (.run p) ≤ 1 := fun p => by
    have := od p
    have hb := Bool.toNat_le (d1.pending p)
    simp only [total] at this
    omega
  split at hs
  · cases hs
    exact ⟨l, hl, fun p => by have := hle p; have := hr p; omega⟩
  · obtain ⟨s1, s2, h1, h2, rfl⟩ := endTimeStep_spec hs
    obtain ⟨s3, h3, -, rfl⟩ := runPostponed_spec h1
    have l3 := (frame_runJobs h3).log
    have l2 := (frame_runJob h2).log
    simp only at l3 l2
    simp only [l2, l3, hl]
    refine ⟨_, by simp only [List.append_assoc]; rfl, fun p => ?_⟩
    simp only [runs_append, runs_jobs, n1, hqg]
    have := hle p; have := hr p
    omega

/-- **The assertions of `async_run_process` hold**: when its turn in a queue comes, a process has its
pending flag set.  Both queues of processes are taken care of. -/
theorem pending_when_run {post beh ph s l p l' s1} (ho : Once s)
    (hq : s.procq = l ++ .run p :: l' ∧ ph = .procs ∨ s.postponedq = l ++ .run p :: l' ∧ ph = .post)
    (h : runJobs post beh ph s l = some s1) : s1.pending p = true := by
  have k := total_runJobs p h
  have o := ho p
  have hc : (l ++ Job.run p :: l').count (.run p) = l.count (.run p) + 1 + l'.count (.run p) := by
    simp; omega
  have q : Quiet s s1 := quiet_runJobs (by rcases hq with ⟨-, rfl⟩ | ⟨-, rfl⟩ <;> rfl) h
  have hle : l.count (.run p) + 1 ≤ total s1 p := by
    unfold total
    rcases hq with ⟨h, -⟩ | ⟨h, -⟩
    · rw [q.procs, h, hc]; omega
    · rw [q.posts, h, hc]; omega
  cases hp : s1.pending p with
  | true => rfl
  | false => rw [hp] at k; simp at k; omega

theorem reset_once (ps : List Nat) (h : ps.Nodup) : Once (reset ps) := by
  intro p
  have hc : ∀ l : List Nat, (l.map Job.run).count (.run p) = l.count p := by
    intro l
    induction l with
    | nil => rfl
    | cons a l ih => simp [List.count_cons, ih]
  simp only [total, reset, List.count_nil, hc]
  by_cases hm : p ∈ ps
  · simp [hm, h.count]
  · simp [hm, List.count_eq_zero.2 hm]

/-- The hypotheses can be met: these states are reached, and processes are run in them. -/
example : Once (reset [0, 1]) ∧ Idle exPost (reset [0, 1]) ∧
    ((cycle exPost exBeh (reset [0, 1])).map fun s => (runs s.log 0, runs s.log 1)) = some (1, 1) :=
  ⟨reset_once _ (by decide), reset_idle _ _, by decide +kernel⟩

example : (beginCycle (reset [0, 1])).procq = [.run 0] ++ .run 1 :: [] ∧
    Once (beginCycle (reset [0, 1])) ∧
    (runJobs exPost exBeh .procs (beginCycle (reset [0, 1])) [.run 0]).isSome :=
  ⟨rfl, (reset_once _ (by decide)).kept (kept_begin (reset_idle exPost _)), by decide +kernel⟩

end Verif.Sim.Cycle
