import Verif.Sim.CycleLemmas

/-!
# The simulation cycle: time advances, and everything is run when it is due (C38)
-/

namespace Verif.Sim.Cycle

theorem minKey_le : ∀ {l : List (Nat × Ev)} {x}, x ∈ l → minKey l ≤ x.1
  | [], x, h => nomatch h
  | [y], x, h => by simp at h; subst h; simp [minKey]
  | y :: z :: l, x, h => by
    rw [minKey]
    · rcases List.mem_cons.1 h with rfl | h
      · omega
      · have := minKey_le h
        omega
    · simp

theorem minKey_mem : ∀ {l : List (Nat × Ev)}, l ≠ [] → ∃ x ∈ l, x.1 = minKey l
  | [], h => absurd rfl h
  | [y], _ => ⟨y, by simp, by simp [minKey]⟩
  | y :: z :: l, _ => by
    obtain ⟨x, hx, he⟩ := minKey_mem (l := z :: l) (by simp)
    rw [minKey]
    · by_cases h : y.1 ≤ minKey (z :: l)
      · exact ⟨y, by simp, by omega⟩
      · exact ⟨x, List.mem_cons_of_mem _ hx, by omega⟩
    · simp

/-- The jobs in the queues are of the right kind. -/
structure Kinds (post : Nat → Bool) (s : St) : Prop where
  driverq : ∀ j ∈ s.driverq, ∃ d, j = .driver d ∨ j = .timeout d
  implicitq : ∀ j ∈ s.implicitq, ∃ i, j = .implicit i
  procq : ∀ j ∈ s.procq, ∃ p, j = .run p
  postponedq : ∀ j ∈ s.postponedq, ∃ p, j = .run p ∧ post p = true
  deltaProcq : ∀ j ∈ s.deltaProcq, ∃ p, j = .run p
  deltaDriverq : ∀ j ∈ s.deltaDriverq, ∃ d, j = .driver d

theorem Kinds.frame {post s l s'} (h : Frame post { s with log := l } s') (k : Kinds post s) :
    Kinds post s' where
  driverq j hj := k.driverq j (h.driverq ▸ hj)
  implicitq j hj := (h.implicitq j hj).elim (k.implicitq j) id
  procq j hj := (h.procq j hj).elim (k.procq j) fun ⟨p, hp, _⟩ => ⟨p, hp⟩
  postponedq j hj := (h.postponedq j hj).elim (k.postponedq j) id
  deltaProcq j hj := (h.deltaProcq j hj).elim (k.deltaProcq j) id
  deltaDriverq j hj := (h.deltaDriverq j hj).elim (k.deltaDriverq j) id

/-- What holds between two cycles. -/
structure Idle (post : Nat → Bool) (s : St) : Prop where
  kinds : Kinds post s
  can : s.canDelta = true
  drivers : s.driverq = []
  implicits : s.implicitq = []
  procs : s.procq = []
  heap : ∀ x ∈ s.heap, s.now < x.1
  sched : s.nextDelta = false → s.deltaProcq = [] ∧ s.deltaDriverq = []
  posts : s.nextDelta = false → s.postponedq = []

/-- The steps of a cycle, in order. -/
theorem cycle_steps {post beh s s'} (h : cycle post beh s = some s') :
    ∃ z a b c d e f g, nextTimeStep post beh (beginCycle s) = some z ∧
      runJob post beh .start z (.global 1) = some a ∧
      timeEvents s.nextDelta a = some b ∧
      runDrivers post beh b = some c ∧ runImplicits post beh c = some d ∧
      runProcs post beh d = some e ∧ runJob post beh .procs e (.global 2) = some f ∧
      lastKnown post beh f = some g ∧
      (if g.nextDelta then some g else endTimeStep post beh g) = some s' := by
  unfold cycle at h
  simp only [Option.bind_eq_bind, Option.bind_eq_some_iff] at h
  obtain ⟨z, hz, a, h1, b, h2, c, h3, d, h4, e, h5, f, h6, g, h7, h8⟩ := h
  exact ⟨z, a, b, c, d, e, f, g, hz, h1, h2, h3, h4, h5, h6, h7, h8⟩

theorem runDrivers_spec {post beh s s'} (h : runDrivers post beh s = some s') :
    ∃ s1, runJobs post beh .drivers s s.driverq = some s1 ∧ s1.driverq = s.driverq ∧
      s' = { s1 with driverq := [] } := by
  unfold runDrivers at h
  simp only [Option.bind_eq_bind, Option.bind_eq_some_iff] at h
  obtain ⟨s1, h1, h2⟩ := h
  split at h2 <;> cases h2
  exact ⟨s1, h1, by assumption, rfl⟩

theorem runImplicits_spec {post beh s s'} (h : runImplicits post beh s = some s') :
    ∃ s1, runJobs post beh .implicits s s.implicitq = some s1 ∧ s1.implicitq = s.implicitq ∧
      s' = { s1 with implicitq := [] } := by
  unfold runImplicits at h
  simp only [Option.bind_eq_bind, Option.bind_eq_some_iff] at h
  obtain ⟨s1, h1, h2⟩ := h
  split at h2 <;> cases h2
  exact ⟨s1, h1, by assumption, rfl⟩

theorem runProcs_spec {post beh s s'} (h : runProcs post beh s = some s') :
    ∃ s1, runJobs post beh .procs s s.procq = some s1 ∧ s1.procq = s.procq ∧
      s' = { s1 with procq := [] } := by
  unfold runProcs at h
  simp only [Option.bind_eq_bind, Option.bind_eq_some_iff] at h
  obtain ⟨s1, h1, h2⟩ := h
  split at h2 <;> cases h2
  exact ⟨s1, h1, by assumption, rfl⟩

theorem runPostponed_spec {post beh s s'} (h : runPostponed post beh s = some s') :
    ∃ s1, runJobs post beh .post s s.postponedq = some s1 ∧ s1.postponedq = s.postponedq ∧
      s' = { s1 with postponedq := [] } := by
  unfold runPostponed at h
  simp only [Option.bind_eq_bind, Option.bind_eq_some_iff] at h
  obtain ⟨s1, h1, h2⟩ := h
  split at h2 <;> cases h2
  exact ⟨s1, h1, by assumption, rfl⟩

theorem endTimeStep_spec {post beh s s'} (h : endTimeStep post beh s = some s') :
    ∃ s1 s2, runPostponed post beh { s with canDelta := false } = some s1 ∧
      runJob post beh .post s1 (.global 4) = some s2 ∧ s' = { s2 with canDelta := true } := by
  unfold endTimeStep at h
  simp only [Option.bind_eq_bind, Option.bind_eq_some_iff] at h
  obtain ⟨s1, h1, s2, h2, h3⟩ := h
  cases h3
  exact ⟨s1, s2, h1, h2, rfl⟩

theorem ext_nextTimeStep {post beh s s'} (h : nextTimeStep post beh s = some s') :
    Ext s s' ∧ Quiet s s' ∧ ∃ l, Frame post { s with log := s.log ++ l } s' ∧
      ∀ x ∈ l, ∃ k, x = ⟨.start, s.now, s.iter, .global k⟩ := by
  unfold nextTimeStep at h
  split at h
  · exact ⟨(ext_runJob h).1, quiet_runJob rfl h, _, frame_runJob h, by simp⟩
  · cases h
    exact ⟨.refl _, .refl _, [], by simpa using Frame.refl post s, by simp⟩

theorem ext_lastKnown {post beh s s'} (h : lastKnown post beh s = some s') :
    Ext s s' ∧ Quiet s s' ∧ ∃ l, Frame post { s with log := s.log ++ l } s' ∧
      ∀ x ∈ l, ∃ k, x = ⟨.procs, s.now, s.iter, .global k⟩ := by
  unfold lastKnown at h
  split at h
  · cases h
    exact ⟨.refl _, .refl _, [], by simpa using Frame.refl post s, by simp⟩
  · exact ⟨(ext_runJob h).1, quiet_runJob rfl h, _, frame_runJob h, by simp⟩

/-- The first half of a cycle: what is due has been queued. -/
structure Begun (post : Nat → Bool) (s b : St) : Prop where
  kinds : Kinds post b
  can : b.canDelta = true
  now : b.now = (beginCycle s).now
  iter : b.iter = (beginCycle s).iter
  log : ∃ l, b.log = s.log ++ l ∧ ∀ x ∈ l, ∃ k, x = ⟨.start, b.now, b.iter, .global k⟩
  dproc : ∀ j ∈ s.deltaProcq, j ∈ b.procq
  ddriver : ∀ j ∈ s.deltaDriverq, j ∈ b.driverq
  event : s.nextDelta = false → ∀ x ∈ s.heap, x.1 ≤ b.now → x.2.job ∈ b.driverq ∨ x.2.job ∈ b.procq
  only : ∀ j ∈ b.driverq, j ∈ s.deltaDriverq ∨
    s.nextDelta = false ∧ ∃ x ∈ s.heap, x.1 ≤ b.now ∧ x.2.job = j
  heap : ∀ x ∈ b.heap, b.now < x.1
  later : ∀ x ∈ s.heap, b.now < x.1 → x ∈ b.heap
  implicits : b.implicitq = []
  posts : b.postponedq = s.postponedq
  sched : b.nextDelta = false → b.deltaProcq = [] ∧ b.deltaDriverq = []

theorem begin_kinds {post s} (hi : Idle post s) : Kinds post (beginCycle s) := by
  have k := hi.kinds
  have hp := hi.procs
  have hd := hi.drivers
  unfold beginCycle
  constructor <;> split <;> simp_all
  · intro j hj; obtain ⟨d, hd⟩ := k.deltaDriverq j hj; exact ⟨d, .inl hd⟩
  · intro j hj; obtain ⟨d, hd⟩ := k.deltaDriverq j hj; exact ⟨d, .inl hd⟩
  · exact k.implicitq
  · exact k.implicitq
  · exact k.deltaProcq
  · exact k.deltaProcq
  · exact k.postponedq
  · exact k.postponedq

theorem begin_frame (s : St) : (beginCycle s).heap = s.heap ∧ (beginCycle s).log = s.log ∧
    (beginCycle s).canDelta = s.canDelta ∧ (beginCycle s).implicitq = s.implicitq ∧
    (beginCycle s).postponedq = s.postponedq ∧ (beginCycle s).procq = s.deltaProcq ∧
    (beginCycle s).driverq = s.deltaDriverq ∧ (beginCycle s).deltaProcq = s.procq ∧
    (beginCycle s).deltaDriverq = s.driverq := by
  unfold beginCycle; split <;> simp

theorem begin_now_delta {s : St} (h : s.nextDelta = true) :
    (beginCycle s).now = s.now ∧ (beginCycle s).iter = s.iter + 1 := by
  unfold beginCycle; simp [h]

theorem begin_now_time {s : St} (h : s.nextDelta = false) :
    (beginCycle s).now = minKey s.heap ∧ (beginCycle s).iter = 0 := by
  unfold beginCycle; simp [h]

theorem begun {post beh s z a b} (hi : Idle post s)
    (hz : nextTimeStep post beh (beginCycle s) = some z)
    (ha : runJob post beh .start z (.global 1) = some a)
    (hb : timeEvents s.nextDelta a = some b) : Begun post s b := by
  obtain ⟨fh, fl, fc, fi, fp, fpq, fdq, fdp, fdd⟩ := begin_frame s
  obtain ⟨ez, qz, l, gz, hl⟩ := ext_nextTimeStep hz
  have ea := (ext_runJob ha).1
  have qa := quiet_runJob rfl ha
  have ga := frame_runJob ha
  have e := ez.trans ea
  have q := qz.trans qa
  have ka : Kinds post a := ((begin_kinds hi).frame gz).frame ga
  have hlog : a.log = s.log ++ (l ++ [⟨.start, a.now, a.iter, .global 1⟩]) := by
    have h1 := ga.log
    have h2 := gz.log
    simp only at h1 h2
    rw [h1, h2, fl, ea.now, ea.iter]; simp
  have hlog2 : ∀ x ∈ l ++ [⟨.start, a.now, a.iter, .global 1⟩],
      ∃ k, x = (⟨.start, a.now, a.iter, .global k⟩ : Entry) := by
    intro x hx
    rcases List.mem_append.1 hx with hx | hx
    · rw [e.now, e.iter]; exact hl x hx
    · exact ⟨1, List.mem_singleton.1 hx⟩
  have hsched := e.sched (fun _ => by rw [fdp, fdd]; exact ⟨hi.procs, hi.drivers⟩)
  have hproc : a.procq = s.deltaProcq := by rw [q.procs, fpq]
  have hdrv : a.driverq = s.deltaDriverq := by
    have h1 := ga.driverq
    have h2 := gz.driverq
    simp only at h1 h2
    rw [h1, h2, fdq]
  have hcan : a.canDelta = true := by
    have h1 := ga.canDelta
    have h2 := gz.canDelta
    simp only at h1 h2
    rw [h1, h2, fc, hi.can]
  have himp : a.implicitq = [] := by rw [q.implicits, fi, hi.implicits]
  have hpost : a.postponedq = s.postponedq := by rw [q.posts, fp]
  have hheapIn : ∀ x ∈ s.heap, x ∈ a.heap := fun x hx => q.heap x (fh ▸ hx)
  have hheapOut : ∀ x ∈ a.heap, x ∈ s.heap ∨ a.now < x.1 := fun x hx => by
    rcases e.heapNew x hx with h | h
    · exact .inl (fh ▸ h)
    · exact .inr (by rw [e.now]; exact h)
  unfold timeEvents at hb
  split at hb
  · rename_i hd
    cases hb
    have hn := begin_now_delta hd
    exact {
      kinds := ka, can := hcan, now := e.now, iter := e.iter
      log := ⟨_, hlog, hlog2⟩
      dproc := fun j hj => hproc ▸ hj
      ddriver := fun j hj => hdrv ▸ hj
      event := fun h => by simp [hd] at h
      only := fun j hj => .inl (hdrv ▸ hj)
      heap := fun x hx => by
        rcases hheapOut x hx with h | h
        · rw [e.now, hn.1]; exact hi.heap x h
        · exact h
      later := fun x hx _ => hheapIn x hx
      implicits := himp
      posts := hpost
      sched := hsched }
  · rename_i hd
    unfold takeEvents at hb
    have D := disp_fold hb
    have dn := D.now
    have di := D.iter
    have dl := D.log
    have dh := D.heap
    have dip := D.implicits
    have dpo := D.posts
    have ddp := D.dprocs
    have ddd := D.ddrivers
    have dnd := D.delta
    have dc := D.can
    simp only at dn di dl dh dip dpo ddp ddd dnd dc
    exact {
      kinds := {
        driverq := fun j hj => by
          rcases D.onlyDrivers j hj with h | ⟨_, _, _, h⟩
          · exact ka.driverq j h
          · exact h
        implicitq := fun j hj => ka.implicitq j (dip ▸ hj)
        procq := fun j hj => by
          rcases D.onlyProcs j hj with h | ⟨p, _, h⟩
          · exact ka.procq j h
          · exact ⟨p, h⟩
        postponedq := fun j hj => ka.postponedq j (dpo ▸ hj)
        deltaProcq := fun j hj => ka.deltaProcq j (ddp ▸ hj)
        deltaDriverq := fun j hj => ka.deltaDriverq j (ddd ▸ hj) }
      can := by rw [dc, hcan]
      now := by rw [dn, e.now]
      iter := by rw [di, e.iter]
      log := ⟨_, by rw [dl, hlog], by rw [dn, di]; exact hlog2⟩
      dproc := fun j hj => D.procs j (by simpa [hproc] using hj)
      ddriver := fun j hj => D.drivers j (by simpa [hdrv] using hj)
      event := fun _ x hx hle => D.ev x.2 (List.mem_map.2 ⟨x,
        List.mem_filter.2 ⟨hheapIn x hx, by simpa [dn] using hle⟩, rfl⟩)
      only := fun j hj => by
        rcases D.onlyDrivers j hj with h | ⟨ev, he, h, _⟩
        · exact .inl (hdrv ▸ h)
        · obtain ⟨x, hx, rfl⟩ := List.mem_map.1 he
          have hx := List.mem_filter.1 hx
          have hle : x.1 ≤ a.now := by simpa using hx.2
          refine .inr ⟨by simpa using hd, x, ?_, by rw [dn]; exact hle, h⟩
          rcases hheapOut x hx.1 with h | h
          · exact h
          · omega
      heap := fun x hx => by
        rw [dh] at hx
        have := (List.mem_filter.1 hx).2
        rw [dn]; simpa using this
      later := fun x hx hlt => by
        rw [dh]
        exact List.mem_filter.2 ⟨hheapIn x hx, by rw [dn] at hlt; simpa using hlt⟩
      implicits := by rw [dip, himp]
      posts := by rw [dpo, hpost]
      sched := by rw [dnd, ddp, ddd]; exact hsched }

/-- The second half of a cycle: what is queued is run. -/
structure Finished (post : Nat → Bool) (beh : Behaviour) (b s' : St) : Prop where
  ext : Ext b s'
  kinds : Kinds post s'
  can : s'.canDelta = true
  drivers : s'.driverq = []
  implicits : s'.implicitq = []
  procs : s'.procq = []
  posts : s'.nextDelta = false → s'.postponedq = []
  log : ∃ l1 l2 l3, s'.log = b.log ++ l1 ++ l2 ++ l3 ∧
    l1 = b.driverq.map (⟨.drivers, b.now, b.iter, ·⟩) ∧
    (∀ x ∈ l2, (∃ i, x = ⟨.implicits, b.now, b.iter, .implicit i⟩) ∨
      (∃ p, x = ⟨.procs, b.now, b.iter, .run p⟩) ∨ ∃ k, x = ⟨.procs, b.now, b.iter, .global k⟩) ∧
    (∀ x ∈ l3, (∃ p, x = ⟨.post, b.now, b.iter, .run p⟩ ∧ post p = true) ∨
      ∃ k, x = ⟨.post, b.now, b.iter, .global k⟩) ∧
    (l3 = [] ∨ ∃ g, g.nextDelta = false ∧ Kinds post g ∧ endTimeStep post beh g = some s')

theorem finished {post beh b c d e f g s'} (kb : Kinds post b) (hcan : b.canDelta = true)
    (hc : runDrivers post beh b = some c) (hd : runImplicits post beh c = some d)
    (he : runProcs post beh d = some e) (hf : runJob post beh .procs e (.global 2) = some f)
    (hg : lastKnown post beh f = some g)
    (hs : (if g.nextDelta then some g else endTimeStep post beh g) = some s') :
    Finished post beh b s' := by
  obtain ⟨ec, qc⟩ := ext_runDrivers hc
  obtain ⟨ed, qd⟩ := ext_runImplicits hd
  obtain ⟨ee, qe⟩ := ext_runProcs he
  have ef := (ext_runJob hf).1
  obtain ⟨eg, ug, lg, gg, hlg⟩ := ext_lastKnown hg
  obtain ⟨c1, rc, c1q, rfl⟩ := runDrivers_spec hc
  obtain ⟨d1, rd, d1q, rfl⟩ := runImplicits_spec hd
  obtain ⟨e1, re, e1q, rfl⟩ := runProcs_spec he
  have uf := quiet_runJob rfl hf
  have ue := quiet_runJobs rfl re
  have fc := frame_runJobs rc
  have fd := frame_runJobs rd
  have fe := frame_runJobs re
  have ff := frame_runJob hf
  have kc := kb.frame fc
  have kc : Kinds post { c1 with driverq := [] } := { kc with driverq := by simp }
  have kd := kc.frame fd
  have kd : Kinds post { d1 with implicitq := [] } := { kd with implicitq := by simp }
  have ke := kd.frame fe
  have ke : Kinds post { e1 with procq := [] } := { ke with procq := by simp }
  have kf := ke.frame ff
  have kg := kf.frame gg
  have ebd := ec.trans ed
  have ebe := ebd.trans ee
  have ebf := ebe.trans ef
  have ebg := ebf.trans eg
  have hdrv : g.driverq = [] := by
    have h1 := fc.driverq
    have h2 := fd.driverq
    have h3 := fe.driverq
    have h4 := ff.driverq
    have h5 := gg.driverq
    simp only at h1 h2 h3 h4 h5
    rw [h5, h4, h3, h2]
  have himp : g.implicitq = [] := by
    have h1 := ue.implicits
    have h2 := uf.implicits
    have h3 := ug.implicits
    simp only at h1 h2 h3
    rw [h3, h2, h1]
  have hproc : g.procq = [] := by
    have h2 := uf.procs
    have h3 := ug.procs
    simp only at h2 h3
    rw [h3, h2]
  have hcan : g.canDelta = true := by
    have h1 := fc.canDelta
    have h2 := fd.canDelta
    have h3 := fe.canDelta
    have h4 := ff.canDelta
    have h5 := gg.canDelta
    simp only at h1 h2 h3 h4 h5
    rw [h5, h4, h3, h2, h1, hcan]
  have hlog : g.log = b.log ++ b.driverq.map (⟨.drivers, b.now, b.iter, ·⟩) ++
      (c1.implicitq.map (⟨.implicits, b.now, b.iter, ·⟩) ++
       d1.procq.map (⟨.procs, b.now, b.iter, ·⟩) ++ [⟨.procs, b.now, b.iter, .global 2⟩] ++ lg) := by
    have h1 := fc.log
    have h2 := fd.log
    have h3 := fe.log
    have h4 := ff.log
    have h5 := gg.log
    simp only at h1 h2 h3 h4 h5
    have n1 := ec.now
    have n2 := ebd.now
    have n3 := ebe.now
    have t1 := ec.iter
    have t2 := ebd.iter
    have t3 := ebe.iter
    simp only at n1 n2 n3 t1 t2 t3
    rw [h5, h4, h3, h2, h1, n1, n2, n3, t1, t2, t3]
    simp only [List.append_assoc]
  have hl2 : ∀ x ∈ c1.implicitq.map (⟨.implicits, b.now, b.iter, ·⟩) ++
       d1.procq.map (⟨.procs, b.now, b.iter, ·⟩) ++ [⟨.procs, b.now, b.iter, .global 2⟩] ++ lg,
      (∃ i, x = ⟨.implicits, b.now, b.iter, .implicit i⟩) ∨
      (∃ p, x = ⟨.procs, b.now, b.iter, .run p⟩) ∨
      ∃ k, x = (⟨.procs, b.now, b.iter, .global k⟩ : Entry) := by
    intro x hx
    rcases List.mem_append.1 hx with hx | hx
    · rcases List.mem_append.1 hx with hx | hx
      · rcases List.mem_append.1 hx with hx | hx
        · obtain ⟨j, hj, rfl⟩ := List.mem_map.1 hx
          obtain ⟨i, rfl⟩ := kc.implicitq j hj
          exact .inl ⟨i, rfl⟩
        · obtain ⟨j, hj, rfl⟩ := List.mem_map.1 hx
          obtain ⟨i, rfl⟩ := kd.procq j hj
          exact .inr (.inl ⟨i, rfl⟩)
      · exact .inr (.inr ⟨_, List.mem_singleton.1 hx⟩)
    · obtain ⟨k, hk⟩ := hlg x hx
      exact .inr (.inr ⟨k, by rw [hk, ebf.now, ebf.iter]⟩)
  generalize c1.implicitq.map (⟨.implicits, b.now, b.iter, ·⟩) ++
       d1.procq.map (⟨.procs, b.now, b.iter, ·⟩) ++ [⟨.procs, b.now, b.iter, .global 2⟩] ++ lg = lx
    at hlog hl2
  split at hs
  · rename_i hgd
    cases hs
    exact {
      ext := ebg, kinds := kg, can := hcan, drivers := hdrv, implicits := himp, procs := hproc
      posts := fun h => by rw [hgd] at h; cases h
      log := ⟨_, _, [], by rw [hlog]; simp, rfl, hl2, by simp, .inl rfl⟩ }
  · rename_i hgd
    have hgd : g.nextDelta = false := by simpa using hgd
    have es := ext_endTimeStep hs
    obtain ⟨p, r, hp, hr, rfl⟩ := endTimeStep_spec hs
    obtain ⟨p1, rp, p1q, rfl⟩ := runPostponed_spec hp
    have up := quiet_runJobs rfl rp
    have ur := quiet_runJob rfl hr
    have fp := frame_runJobs rp
    have fr := frame_runJob hr
    have kg' : Kinds post { g with canDelta := false } := { kg with }
    have kp := kg'.frame fp
    have kp : Kinds post { p1 with postponedq := [] } := { kp with postponedq := by simp }
    have kr := kp.frame fr
    have ep := (ext_canDelta g false).trans (ext_runPostponed hp).1
    have n1 := ebg.now
    have t1 := ebg.iter
    have n2 := (ebg.trans ep).now
    have t2 := (ebg.trans ep).iter
    have lp := fp.log
    have lr := fr.log
    simp only at n1 t1 n2 t2 lp lr
    exact {
      ext := ebg.trans es
      kinds := { kr with }
      can := rfl
      drivers := by
        have h1 := fp.driverq
        have h2 := fr.driverq
        simp only at h1 h2
        simp only
        rw [h2, h1, hdrv]
      implicits := by
        have h1 := up.implicits
        have h2 := ur.implicits
        simp only at h1 h2
        simp only
        rw [h2, h1, himp]
      procs := by
        have h1 := up.procs
        have h2 := ur.procs
        simp only at h1 h2
        simp only
        rw [h2, h1, hproc]
      posts := fun _ => by
        have h2 := ur.posts
        simp only at h2
        simp only
        rw [h2]
      log := by
        refine ⟨_, lx, g.postponedq.map (⟨.post, b.now, b.iter, ·⟩) ++
          [⟨.post, b.now, b.iter, .global 4⟩], ?_, rfl, hl2, ?_, .inr ⟨g, ?_, kg, hs⟩⟩
        · simp only
          rw [lr, lp, hlog, n1, t1, n2, t2]
          simp only [List.append_assoc]
        · intro x hx
          rcases List.mem_append.1 hx with hx | hx
          · obtain ⟨j, hj, rfl⟩ := List.mem_map.1 hx
            obtain ⟨i, rfl, hpi⟩ := kg.postponedq j hj
            exact .inl ⟨i, rfl, hpi⟩
          · exact .inr ⟨_, List.mem_singleton.1 hx⟩
        · exact hgd }

theorem halves {post beh s s'} (hi : Idle post s) (h : cycle post beh s = some s') :
    ∃ b, Begun post s b ∧ Finished post beh b s' := by
  obtain ⟨z, a, b, c, d, e, f, g, hz, ha, hb, hc, hd, he, hf, hg, hs⟩ := cycle_steps h
  have B := begun hi hz ha hb
  exact ⟨b, B, finished B.kinds B.can hc hd he hf hg hs⟩

/-- **Time advances**: a delta cycle keeps the time and increments the number of the cycle, any other
cycle moves the time strictly forward, to that of the first event, and starts counting anew. -/
theorem time_advances {post beh s s'} (hi : Idle post s) (hr : canRun s = true)
    (h : cycle post beh s = some s') :
    if s.nextDelta then s'.now = s.now ∧ s'.iter = s.iter + 1
    else s.now < s'.now ∧ s'.iter = 0 ∧ (∀ x ∈ s.heap, s'.now ≤ x.1) ∧ ∃ x ∈ s.heap, x.1 = s'.now := by
  obtain ⟨b, B, F⟩ := halves hi h
  have hn := F.ext.now.trans B.now
  have ht := F.ext.iter.trans B.iter
  by_cases hd : s.nextDelta = true
  · rw [if_pos hd, hn, ht]; exact begin_now_delta hd
  · have hd : s.nextDelta = false := by simpa using hd
    have hm := begin_now_time hd
    rw [hm.1] at hn
    rw [hm.2] at ht
    have hne : s.heap ≠ [] := by
      intro h0; simp [canRun, hd, h0] at hr
    obtain ⟨x, hx, he⟩ := minKey_mem hne
    have := hi.heap x hx
    simp only [hd, Bool.false_eq_true, if_false]
    exact ⟨by omega, ht, fun y hy => by rw [hn]; exact minKey_le hy, x, hx, by omega⟩

/-- **Between cycles** all queues of the past cycle are empty, everything in the heap lies in the
future, and if no delta cycle follows nothing is left over for one and no postponed process waits. -/
theorem cycle_idle {post beh s s'} (hi : Idle post s) (h : cycle post beh s = some s') :
    Idle post s' := by
  obtain ⟨b, B, F⟩ := halves hi h
  exact {
    kinds := F.kinds, can := F.can, drivers := F.drivers, implicits := F.implicits
    procs := F.procs
    heap := fun x hx => by
      rw [F.ext.now]
      rcases F.ext.heapNew x hx with h | h
      · exact B.heap x h
      · exact h
    sched := F.ext.sched B.sched
    posts := F.posts }

theorem reach_idle {post beh s0 s} (h0 : Idle post s0) (h : Reach post beh s0 s) : Idle post s := by
  induction h with
  | start => exact h0
  | step _ _ hc ih => exact cycle_idle ih hc

/-- The jobs that have to be run in the cycle after state `s` that has time `t`. -/
def Due (s : St) (t : Nat) (j : Job) : Prop :=
  j ∈ s.deltaProcq ∨ j ∈ s.deltaDriverq ∨
    s.nextDelta = false ∧ ∃ x ∈ s.heap, x.1 = t ∧ x.2.job = j

/-- **Nothing due is missed**: what was queued for the next delta cycle, and every event of the new
time, is run in this cycle. -/
theorem due_run {post beh s s' j} (hi : Idle post s) (h : cycle post beh s = some s')
    (hj : Due s s'.now j) : Logged j s' := by
  obtain ⟨b, B, F⟩ := halves hi h
  have hd : ∀ j ∈ b.driverq, Logged j s' := fun j hj => by
    rcases F.ext.drivers j hj with h | h
    · rw [F.drivers] at h; cases h
    · exact h
  have hp : ∀ j ∈ b.procq, Logged j s' := fun j hj => by
    rcases F.ext.procs j hj with h | h
    · rw [F.procs] at h; cases h
    · exact h
  rcases hj with hj | hj | ⟨hn, x, hx, ht, hj⟩
  · exact hp _ (B.dproc j hj)
  · exact hd _ (B.ddriver j hj)
  · rcases B.event hn x hx (by rw [ht, F.ext.now]; omega) with h | h
    · exact hj ▸ hd _ h
    · exact hj ▸ hp _ h

/-- **Nothing is run early**: an update of a driver, or a callback, that this cycle runs was due. -/
theorem run_due {post beh s s' x} (hi : Idle post s) (hr : canRun s = true)
    (h : cycle post beh s = some s') (hx : x ∈ s'.log) (hold : x ∉ s.log)
    (hk : (∃ d, x.job = .driver d) ∨ ∃ c, x.job = .timeout c) :
    x.now = s'.now ∧ x.iter = s'.iter ∧ Due s s'.now x.job := by
  have ht := time_advances hi hr h
  obtain ⟨b, B, F⟩ := halves hi h
  obtain ⟨l1, l2, l3, hl, h1, h2, h3, -⟩ := F.log
  obtain ⟨l, hb, hs⟩ := B.log
  rw [hl] at hx
  rcases List.mem_append.1 hx with hx | hx
  rcases List.mem_append.1 hx with hx | hx
  · rcases List.mem_append.1 hx with hx | hx
    · rw [hb] at hx
      rcases List.mem_append.1 hx with hx | hx
      · exact absurd hx hold
      · obtain ⟨k, rfl⟩ := hs x hx
        simp at hk
    · rw [h1] at hx
      obtain ⟨j, hj, rfl⟩ := List.mem_map.1 hx
      refine ⟨F.ext.now.symm, F.ext.iter.symm, ?_⟩
      rcases B.only j hj with h | ⟨hn, y, hy, hle, hyj⟩
      · exact .inr (.inl h)
      · refine .inr (.inr ⟨hn, y, hy, ?_, hyj⟩)
        simp only [hn, Bool.false_eq_true, if_false] at ht
        have := ht.2.2.1 y hy
        rw [← F.ext.now] at hle
        omega
  · rcases h2 x hx with ⟨i, rfl⟩ | ⟨i, rfl⟩ | ⟨i, rfl⟩ <;> simp at hk
  · rcases h3 x hx with ⟨i, rfl, _⟩ | ⟨i, rfl⟩ <;> simp at hk

/-- **Nothing in the future is lost**: an event of a later time stays where it is; only the timeout
of a process is removed, if that process was run in this cycle or waits to be run as a postponed
process. -/
theorem future_kept {post beh s s' x} (hi : Idle post s) (h : cycle post beh s = some s')
    (hx : x ∈ s.heap) (hlt : s'.now < x.1) :
    x ∈ s'.heap ∨ ∃ p, x.2 = .proc p ∧ (Logged (.run p) s' ∨ Job.run p ∈ s'.postponedq) := by
  obtain ⟨b, B, F⟩ := halves hi h
  rcases F.ext.heapOld x (B.later x hx (by rw [← F.ext.now]; exact hlt)) with h | ⟨p, hp, h⟩
  · exact .inl h
  · refine .inr ⟨p, hp, ?_⟩
    rcases h with h | h | h
    · rw [F.procs] at h; cases h
    · exact .inr h
    · exact .inl h

/-- **A postponed process that was woken is not forgotten**: it stays queued until it is run, and it
has been run when no delta cycle follows. -/
theorem postponed_kept {post beh s s' j} (hi : Idle post s) (h : cycle post beh s = some s')
    (hj : j ∈ s.postponedq) :
    Logged j s' ∨ j ∈ s'.postponedq ∧ s'.nextDelta = true := by
  obtain ⟨b, B, F⟩ := halves hi h
  rcases F.ext.posts j (B.posts ▸ hj) with h | h
  · refine .inr ⟨h, ?_⟩
    cases hn : s'.nextDelta with
    | true => rfl
    | false => rw [F.posts hn] at h; cases h
  · exact .inl h

theorem post_doAct {post ph cur s a s'} (h : doAct post ph cur s a = some s')
    (hp : ∀ p, cur = some p → post p = true) (ha : a ≠ .schedProc 0)
    (hs : s.canDelta = false ∧ s.nextDelta = false) :
    s'.canDelta = false ∧ s'.nextDelta = false := by
  refine ⟨(frame_doAct h).canDelta.trans hs.1, ?_⟩
  cases a with
  | schedProc delay =>
    cases cur with
    | none => simp [doAct] at h
    | some p =>
      simp only [doAct] at h
      split at h
      · rename_i h0; exact absurd (h0 ▸ rfl) ha
      · split at h <;> cases h; exact hs.2
  | schedDriver delay d =>
    have hb : blocked post cur s = true := by
      unfold blocked
      cases cur with
      | none => simp [hs.1]
      | some p => exact hp p rfl
    simp only [doAct, hb] at h
    split at h <;> cases h
    exact hs.2
  | setTimeout w c =>
    simp only [doAct] at h
    split at h <;> cases h; exact hs.2
  | wake p =>
    simp only [doAct] at h
    split at h <;> cases h
    unfold wakeup
    split
    · exact hs.2
    · split <;> dsimp only <;> split <;> exact hs.2
  | wakeImplicit i =>
    simp only [doAct] at h
    split at h
    · cases h
    split at h <;> cases h <;> exact hs.2

/-- Jobs run at the end of a time step do not wait for zero time. -/
def NoZeroWait (beh : Behaviour) : Prop :=
  ∀ s j, s.canDelta = false → Act.schedProc 0 ∉ beh s j

theorem post_runJob {post beh ph s j s'} (h : runJob post beh ph s j = some s')
    (hb : NoZeroWait beh) (hp : ∀ p, j.cur = some p → post p = true)
    (hs : s.canDelta = false ∧ s.nextDelta = false) :
    s'.canDelta = false ∧ s'.nextDelta = false := by
  obtain ⟨pe, ip, h⟩ := runJob_spec h
  exact foldlM_keep_mem (R := fun s s' => (s.canDelta = false ∧ s.nextDelta = false) →
      s'.canDelta = false ∧ s'.nextDelta = false) (fun _ h => h) (fun h1 h2 h => h2 (h1 h))
    (fun a ha _ _ h => post_doAct h hp fun h0 =>
      hb { s with log := s.log ++ [⟨ph, s.now, s.iter, j⟩], pending := pe, ipending := ip } j hs.1
        (h0 ▸ ha)) h hs

theorem post_runJobs {post beh ph} (hb : NoZeroWait beh) : ∀ {js s s'},
    runJobs post beh ph s js = some s' → (∀ j ∈ js, ∀ p, j.cur = some p → post p = true) →
    (s.canDelta = false ∧ s.nextDelta = false) → s'.canDelta = false ∧ s'.nextDelta = false
  | [], s, s', h, _, hs => by simp [runJobs] at h; exact h ▸ hs
  | j :: js, s, s', h, hp, hs => by
    unfold runJobs at h
    rw [List.foldlM_cons] at h
    cases hf : runJob post beh ph s j with
    | none => rw [hf] at h; cases h
    | some s1 =>
      rw [hf] at h
      exact post_runJobs hb h (fun i hi => hp i (List.mem_cons_of_mem _ hi))
        (post_runJob hf hb (hp j (by simp)) hs)

/-- **Postponed processes are run in the last cycle of a time step**: after a cycle that has run
anything in its last part, no delta cycle follows.  Missing: the processes are assumed not to wait
for zero time, which the code does not check (`zero_wait_counterexample`). -/
theorem postponed_last_partial {post beh s s' x} (hi : Idle post s) (hb : NoZeroWait beh)
    (h : cycle post beh s = some s') (hx : x ∈ s'.log) (hold : x ∉ s.log) (hp : x.phase = .post) :
    s'.nextDelta = false := by
  obtain ⟨b, B, F⟩ := halves hi h
  obtain ⟨l1, l2, l3, hl, h1, h2, h3, h4⟩ := F.log
  obtain ⟨l, hbl, hs⟩ := B.log
  rcases h4 with rfl | ⟨g, hg, kg, he⟩
  · exfalso
    rw [hl] at hx
    simp only [List.append_nil] at hx
    rcases List.mem_append.1 hx with hx | hx
    · rcases List.mem_append.1 hx with hx | hx
      · rw [hbl] at hx
        rcases List.mem_append.1 hx with hx | hx
        · exact hold hx
        · obtain ⟨k, rfl⟩ := hs x hx
          cases hp
      · rw [h1] at hx
        obtain ⟨j, hj, rfl⟩ := List.mem_map.1 hx
        cases hp
    · rcases h2 x hx with ⟨i, rfl⟩ | ⟨i, rfl⟩ | ⟨i, rfl⟩ <;> cases hp
  · obtain ⟨p, r, hpp, hr, rfl⟩ := endTimeStep_spec he
    obtain ⟨p1, rp, p1q, rfl⟩ := runPostponed_spec hpp
    have h1 := post_runJobs hb rp (fun j hj q hq => by
      obtain ⟨i, rfl, hi⟩ := kg.postponedq j hj
      cases hq; exact hi) ⟨rfl, hg⟩
    exact (post_runJob hr hb (by simp [Job.cur]) ⟨h1.1, h1.2⟩).2

/-- No postponed process is queued like an ordinary one, or has been run like one. -/
structure Apart (post : Nat → Bool) (s : St) : Prop where
  procq : ∀ p, Job.run p ∈ s.procq → post p = false
  deltaProcq : ∀ p, Job.run p ∈ s.deltaProcq → post p = false
  driverq : ∀ p, Job.run p ∉ s.driverq
  deltaDriverq : ∀ p, Job.run p ∉ s.deltaDriverq
  implicitq : ∀ p, Job.run p ∉ s.implicitq
  heap : ∀ x ∈ s.heap, ∀ p, x.2 = .proc p → post p = false
  log : ∀ x ∈ s.log, ∀ p, x.job = .run p → post p = true → x.phase = .post

/-- Postponed processes never wait for a time. -/
def NoTimeout (post : Nat → Bool) (beh : Behaviour) : Prop :=
  ∀ s p d, post p = true → Act.schedProc d ∉ beh s (.run p)

theorem mem_snoc {α} {l : List α} {x j : α} (h : j ∈ l ++ [x]) : j ∈ l ∨ j = x := by
  simpa using h

theorem apart_doAct {post ph cur s a s'} (h : doAct post ph cur s a = some s')
    (ha : ∀ p d, cur = some p → post p = true → a ≠ .schedProc d) (hs : Apart post s) :
    Apart post s' := by
  cases a with
  | schedProc delay =>
    cases cur with
    | none => simp [doAct] at h
    | some p =>
      have hpp : post p = false := by
        cases hpp : post p with
        | false => rfl
        | true => exact absurd rfl (ha p delay rfl hpp)
      simp only [doAct] at h
      split at h <;> split at h <;> cases h
      · refine { hs with deltaProcq := fun q hq => ?_ }
        rcases mem_snoc hq with h | h
        · exact hs.deltaProcq q h
        · cases h; exact hpp
      · refine { hs with heap := fun x hx q hq => ?_ }
        rcases mem_snoc hx with h | h
        · exact hs.heap x h q hq
        · subst h; cases hq; exact hpp
  | schedDriver delay d =>
    simp only [doAct] at h
    split at h
    · split at h <;> cases h
      refine { hs with deltaDriverq := fun q hq => ?_ }
      rcases mem_snoc hq with h | h
      · exact hs.deltaDriverq q h
      · cases h
    · cases h
      refine { hs with heap := fun x hx q hq => ?_ }
      rcases mem_snoc hx with h | h
      · exact hs.heap x h q hq
      · subst h; cases hq
  | setTimeout w c =>
    simp only [doAct] at h
    split at h <;> cases h
    refine { hs with heap := fun x hx q hq => ?_ }
    rcases mem_snoc hx with h | h
    · exact hs.heap x h q hq
    · subst h; cases hq
  | wake p =>
    simp only [doAct] at h
    split at h <;> cases h
    unfold wakeup
    split
    · exact hs
    · cases hpp : post p
      · simp only [Bool.false_eq_true, if_false]
        have hq : ∀ q, Job.run q ∈ s.procq ++ [Job.run p] → post q = false := fun q hq => by
          rcases mem_snoc hq with h | h
          · exact hs.procq q h
          · cases h; exact hpp
        split
        · exact { hs with procq := hq, heap := fun x hx => hs.heap x (mem_deleteProc hx) }
        · exact { hs with procq := hq }
      · simp only [if_true]
        split
        · exact { hs with heap := fun x hx => hs.heap x (mem_deleteProc hx) }
        · exact { hs with }
  | wakeImplicit i =>
    simp only [doAct] at h
    split at h
    · cases h
    split at h <;> cases h
    · exact hs
    · refine { hs with implicitq := fun q hq => ?_ }
      rcases mem_snoc hq with h | h
      · exact hs.implicitq q h
      · cases h

theorem apart_runJob {post beh ph s j s'} (h : runJob post beh ph s j = some s')
    (hb : NoTimeout post beh) (hj : ph = .post ∨ ∀ p, j = .run p → post p = false)
    (hs : Apart post s) : Apart post s' := by
  obtain ⟨pe, ip, h⟩ := runJob_spec h
  refine foldlM_keep_mem (R := fun s s' => Apart post s → Apart post s') (fun _ h => h)
    (fun h1 h2 h => h2 (h1 h)) (fun a ha _ _ h => apart_doAct h fun p d hc hp h0 => ?_) h ?_
  · cases j <;> simp [Job.cur] at hc
    subst hc
    exact hb _ _ d hp (h0 ▸ ha)
  · refine { hs with log := fun x hx p hp hpp => ?_ }
    rcases List.mem_append.1 hx with h | h
    · exact hs.log x h p hp hpp
    · rw [List.mem_singleton.1 h] at hp ⊢
      rcases hj with hj | hj
      · exact hj
      · rw [hj p hp] at hpp; cases hpp

theorem apart_runJobs {post beh ph} (hb : NoTimeout post beh) : ∀ {js s s'},
    runJobs post beh ph s js = some s' →
    (ph = .post ∨ ∀ p, Job.run p ∈ js → post p = false) → Apart post s → Apart post s'
  | [], s, s', h, _, hs => by simp [runJobs] at h; exact h ▸ hs
  | j :: js, s, s', h, hp, hs => by
    unfold runJobs at h
    rw [List.foldlM_cons] at h
    cases hf : runJob post beh ph s j with
    | none => rw [hf] at h; cases h
    | some s1 =>
      rw [hf] at h
      exact apart_runJobs hb h (hp.imp_right fun h p hp => h p (List.mem_cons_of_mem _ hp))
        (apart_runJob hf hb (hp.imp_right fun h p hp => h p (hp ▸ List.mem_cons_self)) hs)

theorem apart_cycle {post beh s s'} (hb : NoTimeout post beh) (hs : Apart post s)
    (h : cycle post beh s = some s') : Apart post s' := by
  obtain ⟨z, a, b, c, d, e, f, g, hz, ha, hb', hc, hd, he, hf, hg, hs'⟩ := cycle_steps h
  have h0 : Apart post (beginCycle s) := by
    unfold beginCycle
    have := hs
    constructor <;> split <;> simp only
    all_goals first | exact hs.procq | exact hs.deltaProcq | exact hs.driverq
                    | exact hs.deltaDriverq | exact hs.implicitq | exact hs.heap | exact hs.log
  have h1 : Apart post z := by
    unfold nextTimeStep at hz
    split at hz
    · exact apart_runJob hz hb (.inr (by simp)) h0
    · cases hz; exact h0
  have h2 := apart_runJob ha hb (.inr (by simp)) h1
  have h3 : Apart post b := by
    unfold timeEvents at hb'
    split at hb'
    · cases hb'; exact h2
    · unfold takeEvents at hb'
      have D := disp_fold hb'
      exact {
        procq := fun p hp => by
          rcases D.onlyProcs _ hp with h | ⟨q, hq, h⟩
          · exact h2.procq p h
          · cases h
            obtain ⟨x, hx, he⟩ := List.mem_map.1 hq
            exact h2.heap x (List.mem_filter.1 hx).1 p he
        deltaProcq := fun p hp => h2.deltaProcq p (by rw [D.dprocs] at hp; exact hp)
        driverq := fun p hp => by
          rcases D.onlyDrivers _ hp with h | ⟨_, _, _, q, h | h⟩
          · exact h2.driverq p h
          · cases h
          · cases h
        deltaDriverq := fun p hp => h2.deltaDriverq p (by rw [D.ddrivers] at hp; exact hp)
        implicitq := fun p hp => h2.implicitq p (by rw [D.implicits] at hp; exact hp)
        heap := fun x hx p hp => by
          rw [D.heap] at hx
          exact h2.heap x (List.mem_filter.1 hx).1 p hp
        log := by rw [D.log]; exact h2.log }
  obtain ⟨c1, rc, -, rfl⟩ := runDrivers_spec hc
  have h4 := apart_runJobs hb rc (.inr fun p hp => absurd hp (h3.driverq p)) h3
  have h4 : Apart post { c1 with driverq := [] } := { h4 with driverq := by simp }
  obtain ⟨d1, rd, -, rfl⟩ := runImplicits_spec hd
  have h5 := apart_runJobs hb rd (.inr fun p hp => absurd hp (h4.implicitq p)) h4
  have h5 : Apart post { d1 with implicitq := [] } := { h5 with implicitq := by simp }
  obtain ⟨e1, re, -, rfl⟩ := runProcs_spec he
  have h6 := apart_runJobs hb re (.inr h5.procq) h5
  have h6 : Apart post { e1 with procq := [] } := { h6 with procq := by simp }
  have h7 := apart_runJob hf hb (.inr (by simp)) h6
  have h8 : Apart post g := by
    unfold lastKnown at hg
    split at hg
    · cases hg; exact h7
    · exact apart_runJob hg hb (.inr (by simp)) h7
  split at hs'
  · cases hs'; exact h8
  · obtain ⟨p, r, hp, hr, rfl⟩ := endTimeStep_spec hs'
    obtain ⟨p1, rp, -, rfl⟩ := runPostponed_spec hp
    have h9 := apart_runJobs hb rp (.inl rfl) { h8 with }
    have h10 := apart_runJob hr hb (.inl rfl) { h9 with }
    exact { h10 with }

/-- **Postponed processes are run with the postponed ones only.**  Missing: this supposes that they
never wait for a time, and that they are not run like others at the beginning
(`timeout_counterexample`, `initial_counterexample`). -/
theorem postponed_phase_partial {post beh s0 s x p} (hb : NoTimeout post beh) (h0 : Apart post s0)
    (h : Reach post beh s0 s) (hx : x ∈ s.log) (hp : post p = true) (hj : x.job = .run p) :
    x.phase = .post := by
  have : Apart post s := by
    clear hx
    induction h with
    | start => exact h0
    | step _ _ hc ih => exact apart_cycle hb ih hc
  exact this.log x hx p hj hp

/-! ## Examples and counterexamples -/

/-- After `model_reset`, with the given processes queued for their first run (rt/model.c 475, 483,
912). -/
def reset (ps : List Nat) : St :=
  { now := 0, iter := -1, nextDelta := true, canDelta := true, heap := [],
    deltaProcq := ps.map .run, deltaDriverq := [], procq := [], driverq := [], implicitq := [],
    postponedq := [], pending := fun p => ps.contains p, delayed := fun _ => false,
    ipending := fun _ => false, log := [] }

theorem reset_idle (post : Nat → Bool) (ps : List Nat) : Idle post (reset ps) := by
  constructor <;> simp [reset]
  constructor <;> simp

def cycles (post : Nat → Bool) (beh : Behaviour) : Nat → St → Option St
  | 0, s => some s
  | n + 1, s => if canRun s then (cycle post beh s).bind (cycles post beh n) else none

theorem reach_cycles {post beh s0 s'} : ∀ {n s}, Reach post beh s0 s → cycles post beh n s = some s' →
    Reach post beh s0 s'
  | 0, s, h, hc => by cases hc; exact h
  | n + 1, s, h, hc => by
    unfold cycles at hc
    split at hc
    · obtain ⟨s1, h1, h2⟩ := Option.bind_eq_some_iff.1 hc
      exact reach_cycles (h.step (by assumption) h1) h2
    · cases hc

/-- Process 0 assigns a signal and waits 5; its driver wakes process 1 and the postponed process 2.
Process 1 assigns to another signal in the same time step. -/
def exBeh : Behaviour := fun s j =>
  match j with
  | .run 0 => [.schedDriver 0 7, .schedProc 5]
  | .run 1 => if s.iter = 1 ∧ s.now = 0 then [.schedDriver 0 8] else []
  | .driver 7 => [.wake 1, .wake 2]
  | _ => []

def exPost : Nat → Bool := fun p => p == 2

/-- The jobs run, without those for callbacks. -/
def shown (s : St) : List Entry := s.log.filter fun x => match x.job with | .global _ => false | _ => true

/-- The hypotheses of the theorems can be met: the processes run at times 0 and 5, with two delta
cycles in between and the postponed process in the last of them. -/
example : ((cycles exPost exBeh 4 (reset [0, 1])).map shown) = some
    [⟨.procs, 0, 0, .run 0⟩, ⟨.procs, 0, 0, .run 1⟩,
     ⟨.drivers, 0, 1, .driver 7⟩, ⟨.procs, 0, 1, .run 1⟩,
     ⟨.drivers, 0, 2, .driver 8⟩, ⟨.post, 0, 2, .run 2⟩,
     ⟨.procs, 5, 0, .run 0⟩] := by decide +kernel

example : NoZeroWait exBeh := by
  intro s j _
  unfold exBeh
  split <;> (try split) <;> simp

example : NoTimeout exPost exBeh := by
  intro s p d hp
  have : p = 2 := by simpa [exPost] using hp
  subst this
  simp [exBeh]

example : Apart exPost (reset [0, 1]) := by
  constructor <;> simp [reset, exPost]

/-- Both processes wait 5; process 0 is postponed, process 1 then assigns to a signal. -/
def timeoutBeh : Behaviour := fun s j =>
  match j with
  | .run 0 => if s.now = 0 then [.schedProc 5] else []
  | .run 1 => if s.now = 0 then [.schedProc 5] else [.schedDriver 0 7]
  | _ => []

/-- **Counterexample**: a postponed process whose `wait for 5 ns` times out is run together with the
ordinary processes, and another delta cycle follows in the same time step. -/
theorem timeout_counterexample :
    ∃ (post : Nat → Bool) (beh : Behaviour) (s : St), post 0 = true ∧
      Reach post beh (reset [0, 1]) s ∧
      (⟨.procs, 5, 0, .run 0⟩ : Entry) ∈ s.log ∧ s.now = 5 ∧ s.iter = 1 ∧
      (⟨.drivers, 5, 1, .driver 7⟩ : Entry) ∈ s.log := by
  have h : ((cycles (· == 0) timeoutBeh 3 (reset [0, 1])).map fun s => (shown s, s.now, s.iter)) =
      some ([⟨.procs, 0, 0, .run 0⟩, ⟨.procs, 0, 0, .run 1⟩,
        ⟨.procs, 5, 0, .run 0⟩, ⟨.procs, 5, 0, .run 1⟩, ⟨.drivers, 5, 1, .driver 7⟩], 5, 1) := by
    decide +kernel
  obtain ⟨s, hs, he⟩ := Option.map_eq_some_iff.1 h
  have hl : shown s = _ := congrArg (·.1) he
  have hn : s.now = 5 := congrArg (·.2.1) he
  have hi : s.iter = 1 := congrArg (·.2.2) he
  refine ⟨(· == 0), timeoutBeh, s, rfl, reach_cycles .start hs, ?_, hn, hi, ?_⟩
  · exact (List.mem_filter.1 (show _ ∈ shown s by rw [hl]; simp)).1
  · exact (List.mem_filter.1 (show _ ∈ shown s by rw [hl]; simp)).1

/-- Process 1 assigns to a signal that wakes the postponed process 0, which waits for zero time. -/
def zeroBeh : Behaviour := fun s j =>
  match j with
  | .run 1 => [.schedDriver 0 7]
  | .driver 7 => [.wake 0]
  | .run 0 => if s.iter = 1 then [.schedProc 0] else []
  | _ => []

/-- **Counterexample**: the code refuses an assignment without delay by a postponed process, but not
`wait for 0 ns`: after the last part of the cycle another delta cycle follows. -/
theorem zero_wait_counterexample :
    ∃ (post : Nat → Bool) (beh : Behaviour) (s : St), post 0 = true ∧
      Reach post beh (reset [1]) s ∧
      (⟨.post, 0, 1, .run 0⟩ : Entry) ∈ s.log ∧ s.now = 0 ∧ s.nextDelta = true := by
  have h : ((cycles (· == 0) zeroBeh 2 (reset [1])).map fun s => (shown s, s.now, s.nextDelta)) =
      some ([⟨.procs, 0, 0, .run 1⟩, ⟨.drivers, 0, 1, .driver 7⟩, ⟨.post, 0, 1, .run 0⟩], 0, true) := by
    decide +kernel
  obtain ⟨s, hs, he⟩ := Option.map_eq_some_iff.1 h
  have hl : shown s = _ := congrArg (·.1) he
  refine ⟨(· == 0), zeroBeh, s, rfl, reach_cycles .start hs, ?_, congrArg (·.2.1) he,
    congrArg (·.2.2) he⟩
  exact (List.mem_filter.1 (show _ ∈ shown s by rw [hl]; simp)).1

/-- The hypothesis about the beginning is needed: the first run of a postponed process is together with
that of the others, and the delta cycles they cause follow it.  (The language reference manual has
postponed processes run during initialisation too, though after the others.) -/
theorem initial_counterexample :
    ∃ (post : Nat → Bool) (beh : Behaviour) (s : St), post 0 = true ∧
      Reach post beh (reset [0, 1]) s ∧
      (⟨.procs, 0, 0, .run 0⟩ : Entry) ∈ s.log ∧ s.now = 0 ∧ s.nextDelta = true := by
  have h : ((cycles (· == 0) zeroBeh 1 (reset [0, 1])).map fun s => (shown s, s.now, s.nextDelta)) =
      some ([⟨.procs, 0, 0, .run 0⟩, ⟨.procs, 0, 0, .run 1⟩], 0, true) := by
    decide +kernel
  obtain ⟨s, hs, he⟩ := Option.map_eq_some_iff.1 h
  have hl : shown s = _ := congrArg (·.1) he
  refine ⟨(· == 0), zeroBeh, s, rfl, reach_cycles .start hs, ?_, congrArg (·.2.1) he,
    congrArg (·.2.2) he⟩
  exact (List.mem_filter.1 (show _ ∈ shown s by rw [hl]; simp)).1

end Verif.Sim.Cycle
