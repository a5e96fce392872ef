import Verif.Seq.Sim

/-
The simulation for all statements.
-/

namespace Verif.Seq

open Spec

variable {S : Type} {leave : S → S} {G : Nat → Blk S}

theorem Keep.weaken {b : B S} {s1 sus : Bool} {m m' : M S} (h : Keep b s1 m m')
    (e : sus = false → s1 = false) : Keep b sus m m' := ⟨fun hs => h.regs (e hs), h.vars⟩

theorem readEnv_same {m m' : M S} (h1 : m'.regs = m.regs) (h2 : m'.vars = m.vars) :
    ∀ env : List Loc, readEnv m' env = readEnv m env := by
  intro env
  induction env with
  | nil => rfl
  | cons a t ih =>
    have : readLoc m' a = readLoc m a := by
      cases a with
      | reg r => show m'.regs r = m.regs r; rw [h1]
      | var v => show m'.vars v = m.vars v; rw [h2]
    unfold readEnv
    rw [this, ih]

/-- exit and next. -/
theorem ctl_sim {x : Bool} {l n : Nat} {env : List Loc} {envv : List Int} {ls : List Loop}
    {c : Option (List Int → S → Bool)} {b b' : B S} {m : M S} (w : WF b) (hls : LsOk ls b)
    (h : lowerCtl x l env ls c b = some b') (hx : Ext b'.blk G) (ha : At b m)
    (he : readEnv m env = some envv) :
    Res leave G ls b b' false n m (fun m' => b'.fin = false ∧ At b' m')
      (some (if holds c envv m.s then (if x then .exit l m.s else .next l m.s)
        else .norm m.s)) := by
  have hup := lowerCtl_up w hls h
  unfold lowerCtl at h
  simp only [Option.bind_eq_bind, Option.bind_eq_some_iff] at h
  obtain ⟨b1, h1, L, hL, b2, h2, h⟩ := h
  obtain rfl := Option.some.inj h
  obtain ⟨u1, hn, hlz, hid, hemp, hcur⟩ := lowerWhen_up w h1
  have hid' : L.id < b1.nid := by rw [hid]; exact hls L (findLoop_mem hL).1
  have hx2 : Ext b2.blk G := hx
  have hx1 : Ext b1.blk G := by
    cases x with
    | true =>
      exact (((Up.refl u1.1).close (t := .jump L.exit) h2).2.ext).trans hx2
    | false =>
      obtain ⟨u, _, e1, e2, _⟩ := nextTarget_up u1.1 hid'
      have := (close_grow u.1 (t := .jump (nextTarget L b1).1) h2).2.ext
      rw [e1] at this
      exact this.trans hx2
  obtain ⟨k, m1, t1, s1, kp, hh⟩ := when_run (leave := leave) w h1 hx1 ha he
  cases hc : holds c envv m.s with
  | false =>
    rw [hc] at hh
    refine ⟨k, m1, t1, ⟨?_, at_sel hh.1 hh.2 hup.2.2⟩, s1, kp⟩
    have h3 : b2.blk b.n = {} := hup.2.2
    unfold B.fin
    show (b2.blk b.n).term.isSome = false
    rw [h3]; rfl
  | true =>
    rw [hc] at hh
    have hh : At b1 m1 := hh
    cases x with
    | true =>
      have t2 := close_jump (leave := leave) (t := L.exit) h2 hx2 hh
      exact ⟨L, hL, k + 1, _, by omega, t1.trans (.one t2), ⟨rfl, rfl⟩, s1, ⟨kp.regs, kp.vars⟩⟩
    | false =>
      obtain ⟨u, ht, e1, e2, _⟩ := nextTarget_up u1.1 hid'
      have a1 : At (nextTarget L b1).2 m1 := by unfold At; rw [e1, e2]; exact hh
      have t2 := close_jump (leave := leave) (t := (nextTarget L b1).1) h2 hx2 a1
      have ht2 : target L b2 = some (nextTarget L b1).1 :=
        target_grow (close_grow u.1 (t := .jump (nextTarget L b1).1) h2).2 ht
      exact ⟨L, _, hL, ht2, k + 1, _, by omega, t1.trans (.one t2), ⟨rfl, rfl⟩, s1,
        ⟨kp.regs, kp.vars⟩⟩

/-- The end of a branch of an if statement. -/
theorem join_run {ex ex' : Option Nat} {b b' : B S} {m : M S} (w : WF b)
    (h : joinExit ex b = some (b', ex')) (hx : Ext b'.blk G) (hf : b.fin = false) (ha : At b m) :
    ∃ e, ex' = some e ∧ Steps leave G 1 m (m.go e) := by
  unfold joinExit at h
  rw [hf] at h
  simp only [Option.bind_eq_bind, Option.bind_eq_some_iff, Bool.false_eq_true, if_false] at h
  obtain ⟨c, hcl, h⟩ := h
  obtain ⟨rfl, rfl⟩ := Prod.mk.inj (Option.some.inj h)
  obtain ⟨u, _, _, k1, _, k2⟩ := needExit_up (ex := ex) w
  have a1 : At (needExit ex b).2 m := by unfold At; rw [k1, k2]; exact ha
  exact ⟨_, rfl, .one (close_jump hcl hx a1)⟩

theorem fin_sel {b : B S} {i : Nat} (h : b.blk i = {}) : (b.sel i).fin = false := by
  unfold B.fin
  show (b.blk i).term.isSome = false
  rw [h]; rfl

mutual
theorem simS (n : Nat) : ∀ (st : Stmt S) (env : List Loc) (envv : List Int) (ls : List Loop)
    (b b' : B S) (m : M S), WF b → LsOk ls b → b.fin = false → lowerS env ls st b = some b' →
    Ext b'.blk G → st.ok leave → At b m → readEnv m env = some envv → EnvLt b env →
    (susS st = true → VarsOnly env) →
    Res leave G ls b b' (susS st) n m (fun m' => b'.fin = false ∧ At b' m')
      (execS leave n envv st m.s) := by
  intro st env envv ls b b' m w hls hf h hx hok ha he hlt hvo
  have hc := w.cur
  have hfull := h
  unfold lowerS at h
  rw [hf] at h
  simp only [Bool.false_eq_true, if_false] at h
  cases st with
  | op f =>
    have hi : instr leave m (.op f env) = some (m.setS (f envv m.s)) := by
      unfold instr; simp only [he]
    obtain ⟨s1, a1⟩ := emit_step h hx ha hi rfl rfl
    unfold execS
    exact ⟨1, _, .one s1, ⟨(emit_small h).2.2, a1⟩, rfl, ⟨fun _ _ _ => rfl, fun _ _ _ => rfl⟩⟩
  | susp f =>
    simp only [Option.bind_eq_bind, Option.bind_eq_some_iff] at h
    obtain ⟨c, h1, h⟩ := h
    obtain rfl := Option.some.inj h
    have ha' : At b.more m := ha
    obtain ⟨p1, p2⟩ := close_at h1 hx ha'
    have hstep : mstep leave G m = .run ((m.setS (f envv m.s)).clear.go b.n) := by
      unfold mstep
      simp only [p1, p2, he]
    have hemp : c.blk b.n = {} := by
      rw [(close_small h1).1.blk _ (show b.n ≠ b.cur by omega)]
      exact w.fresh _ (Nat.le_refl _)
    unfold execS
    exact ⟨1, _, .one hstep, ⟨fin_sel hemp, at_sel rfl rfl hemp⟩, rfl,
      ⟨(fun e => by unfold susS at e; cases e), fun _ _ _ => rfl⟩⟩
  | ret f =>
    simp only [Option.bind_eq_bind, Option.bind_eq_some_iff] at h
    obtain ⟨c, h1, h2⟩ := h
    have hx1 := (close_grow (emit_grow w h1).1 h2).2.ext.trans hx
    obtain ⟨s1, a1⟩ := emit_step (leave := leave) (m1 := m.setS (leave m.s)) h1 hx1 ha rfl rfl rfl
    obtain ⟨p1, p2⟩ := close_at h2 hx a1
    have he1 : readEnv (m.setS (leave m.s)).tick env = some envv := by
      rw [readEnv_same (m := m) (m' := (m.setS (leave m.s)).tick) rfl rfl env]; exact he
    have hstep : mstep leave G (m.setS (leave m.s)).tick =
        .ret (f envv (leave m.s)) (leave m.s) := by
      unfold mstep
      simp only [p1, p2, he1]
      rfl
    unfold execS
    unfold Stmt.ok at hok
    refine ⟨1, _, .one s1, ?_⟩
    rw [hstep, hok]
  | exit l c =>
    have := ctl_sim (leave := leave) (n := n) w hls h hx ha he
    unfold execS susS
    simpa using this
  | next l c =>
    have := ctl_sim (leave := leave) (n := n) w hls h hx ha he
    unfold execS susS
    simpa using this
  | whil l c bd =>
    simp only [Option.bind_eq_bind, Option.bind_eq_some_iff] at h
    obtain ⟨c1, h1, c2, h2, c3, h3, c4, h4, c5, h5, h⟩ := h
    obtain rfl := Option.some.inj h
    have um : Up b b.more.more.more := (Up.refl w).more.more.more
    have u1 := um.close h1
    have s1 := (close_small h1).1
    have n1 : c1.n = b.n + 3 := s1.n
    have a1 : Up b (c1.sel b.n) := up_blk um rfl (Nat.le_refl _) (by show _ < b.n + 3; omega)
      ((Up.refl um.1).close h1)
    have u2 := a1.emitR h2
    have s2 := (emitR_small h2).1
    have u3 := u2.close h3
    have s3 := (close_small h3).1
    have l3 : c3.lazyT = b.lazyT := by rw [s3.lz, s2.lz]; exact s1.lz
    have n3 : c3.n = b.n + 3 := by rw [s3.n, s2.n]; exact n1
    have a3 : Up b (c3.sel (b.n + 1)) := u3.sel (by omega) u3 l3 .refl (by omega)
    have a4 := a3.trans (nid_grow a3.1)
    have u4 := lowerQ_up bd env _ _ _ a4.1 ((hls.grow a3.2).push rfl) h4
    obtain ⟨u5, s5⟩ := jumpIf_up u4.1 h5
    have hx5 : Ext c5.blk G := hx
    have hx4 := u5.2.ext.trans hx5
    have hx3 : Ext c3.blk G := u4.2.ext.trans hx4
    have x2 : Ext (c1.sel b.n).blk c3.blk :=
      ((Up.refl a1.1).emitR h2 |>.close h3).2.ext
    have hx1 : Ext c1.blk G := x2.trans hx3
    have em1 : ∀ i, b.n ≤ i → c1.blk i = {} := by
      intro i hi
      rw [s1.blk _ (show i ≠ b.cur by omega)]
      exact w.fresh i hi
    have em3 : ∀ i, b.n < i → c3.blk i = {} := by
      intro i hi
      rw [s3.blk i (by rw [s2.cur]; show i ≠ b.n; omega), s2.blk i (by show i ≠ b.n; omega)]
      exact em1 i (by omega)
    have em5 : c5.blk (b.n + 2) = {} := by
      rw [(u4.trans u5).2.frame (b.n + 2) (by show _ < c3.n; omega) (by show b.n + 2 ≠ b.n + 1; omega)]
      exact em3 _ (by omega)
    have hlt1 : EnvLt b env := hlt
    unfold execS
    have hnr : (c1.sel b.n).nreg = b.nreg := (close_small h1).2.1
    have main := while_sim (leave := leave) (G := G) (T := b.n) (X := b.n + 2) (l := l) (n := n)
      (bodyB := { c3.sel (b.n + 1) with nid := (c3.sel (b.n + 1)).nid + 1 }) (b4 := c4) (b := b)
      (env := env) (envv := envv) (sus := susS (.whil l c bd)) (c := c envv)
      (body := execQ leave n envv bd) (ls := ls)
      (L := { name := l, id := (c3.sel (b.n + 1)).nid, test := some b.n, exit := b.n + 2 })
      rfl rfl rfl a4.2 hlt hvo
      (by
        intro m1 hm1 he1
        have at1 : At (c1.sel b.n) m1 := at_sel hm1.1 hm1.2 (em1 _ (Nat.le_refl _))
        obtain ⟨m2, p1, p2, p3, p4, p5⟩ := cond_run (leave := leave) (c := c) h2 rfl rfl h3 hx3 at1 he1
        rw [hnr] at p5
        refine ⟨2, m2, p1, p3, keep_of p4 p5, ?_⟩
        cases hcc : c envv m1.s with
        | true =>
          rw [hcc] at p2
          exact at_sel p2.1 p2.2 (em3 _ (Nat.lt_succ_self _))
        | false => rw [hcc] at p2; exact p2)
      (by
        intro m1 hm1 he1
        have := simQ n bd env envv _ _ _ m1 a4.1 ((hls.grow a3.2).push rfl)
          (by
            unfold B.fin
            show (c3.blk (b.n + 1)).term.isSome = false
            rw [em3 _ (Nat.lt_succ_self _)]; rfl) h4 hx4
          (by unfold Stmt.ok at hok; exact hok) hm1 he1 (hlt.grow a4.2)
          (by unfold susS at hvo; exact hvo)
        unfold susS
        exact this)
      (by
        intro m1 hf1 hm1
        unfold jumpIf at h5
        rw [hf1] at h5
        simp only [Bool.false_eq_true, if_false] at h5
        exact close_jump h5 hx5 hm1)
    have ha' : At b.more.more.more m := ha
    have t0 := close_jump (leave := leave) h1 hx1 ha'
    have he0 : readEnv (m.go b.n) env = some envv := by
      rw [readEnv_same (m := m) (m' := m.go b.n) rfl rfl env]; exact he
    have r := main n (Nat.le_refl _) (m.go b.n) ⟨rfl, rfl⟩ he0
    have r' : Res leave G ls b c4 (susS (.whil l c bd)) n m (AtB (b.n + 2))
        (whileLoop l (c envv) (execQ leave n envv bd) n m.s) :=
      Res.prefix (.one t0) .refl (s1 := false) ⟨fun _ _ _ => rfl, fun _ _ _ => rfl⟩
        (fun _ => rfl) id (Nat.le_add_right _ _) r
    refine Res.mono (bt := c4) (fun L t ht => (target_grow (L := L) (b' := c5) u5.2 ht :)) ?_ r'
    intro m' hm' _
    exact ⟨0, m', .refl _, ⟨fin_sel em5, at_sel hm'.1 hm'.2 em5⟩, rfl, .refl⟩
  | loop l bd =>
    simp only [Option.bind_eq_bind, Option.bind_eq_some_iff] at h
    obtain ⟨c1, h1, c4, h4, c5, h5, h⟩ := h
    obtain rfl := Option.some.inj h
    have um : Up b b.more.more := (Up.refl w).more.more
    have s1 := (close_small h1).1
    have n1 : c1.n = b.n + 2 := s1.n
    have a1 : Up b (c1.sel b.n) := up_blk um rfl (Nat.le_refl _) (by show _ < b.n + 2; omega)
      ((Up.refl um.1).close h1)
    have a4 := a1.trans (nid_grow a1.1)
    have u4 := lowerQ_up bd env _ _ _ a4.1 ((hls.grow a1.2).push rfl) h4
    obtain ⟨u5, s5⟩ := jumpIf_up u4.1 h5
    have hx5 : Ext c5.blk G := hx
    have hx4 := u5.2.ext.trans hx5
    have hx1 : Ext c1.blk G := u4.2.ext.trans hx4
    have em1 : ∀ i, b.n ≤ i → c1.blk i = {} := by
      intro i hi
      rw [s1.blk _ (show i ≠ b.cur by omega)]
      exact w.fresh i hi
    have em5 : c5.blk (b.n + 1) = {} := by
      rw [(u4.trans u5).2.frame (b.n + 1) (by show _ < c1.n; omega) (by show b.n + 1 ≠ b.n; omega)]
      exact em1 _ (by omega)
    unfold execS
    have main := while_sim (leave := leave) (G := G) (T := b.n) (X := b.n + 1) (l := l) (n := n)
      (bodyB := { c1.sel b.n with nid := (c1.sel b.n).nid + 1 }) (b4 := c4) (b := b)
      (env := env) (envv := envv) (sus := susS (.loop l bd)) (c := fun _ => true)
      (body := execQ leave n envv bd) (ls := ls)
      (L := { name := l, id := (c1.sel b.n).nid, test := some b.n, exit := b.n + 1 })
      rfl rfl rfl a4.2 hlt hvo
      (by
        intro m1 hm1 he1
        have at1 : At (c1.sel b.n) m1 := at_sel hm1.1 hm1.2 (em1 _ (Nat.le_refl _))
        exact ⟨0, m1, .refl _, rfl, .refl, by rw [if_pos rfl]; exact at1⟩)
      (by
        intro m1 hm1 he1
        have := simQ n bd env envv _ _ _ m1 a4.1 ((hls.grow a1.2).push rfl)
          (by
            unfold B.fin
            show (c1.blk b.n).term.isSome = false
            rw [em1 _ (Nat.le_refl _)]; rfl) h4 hx4
          (by unfold Stmt.ok at hok; exact hok) hm1 he1 (hlt.grow a4.2)
          (by unfold susS at hvo; exact hvo)
        unfold susS
        exact this)
      (by
        intro m1 hf1 hm1
        unfold jumpIf at h5
        rw [hf1] at h5
        simp only [Bool.false_eq_true, if_false] at h5
        exact close_jump h5 hx5 hm1)
    have ha' : At b.more.more m := ha
    have t0 := close_jump (leave := leave) h1 hx1 ha'
    have he0 : readEnv (m.go b.n) env = some envv := by
      rw [readEnv_same (m := m) (m' := m.go b.n) rfl rfl env]; exact he
    have r := main n (Nat.le_refl _) (m.go b.n) ⟨rfl, rfl⟩ he0
    have r' : Res leave G ls b c4 (susS (.loop l bd)) n m (AtB (b.n + 1))
        (whileLoop l (fun _ => true) (execQ leave n envv bd) n m.s) :=
      Res.prefix (.one t0) .refl (s1 := false) ⟨fun _ _ _ => rfl, fun _ _ _ => rfl⟩
        (fun _ => rfl) id (Nat.le_add_right _ _) r
    refine Res.mono (bt := c4) (fun L t ht => (target_grow (L := L) (b' := c5) u5.2 ht :)) ?_ r'
    intro m' hm' _
    exact ⟨0, m', .refl _, ⟨fin_sel em5, at_sel hm'.1 hm'.2 em5⟩, rfl, .refl⟩
  | forL l lo hi dn bd =>
    simp only [Option.bind_eq_bind, Option.bind_eq_some_iff] at h
    obtain ⟨c1, h1, ⟨p, c2⟩, h2, ⟨q, c3⟩, h3, c4, h4, c5, h5, c6, h6, h⟩ := h
    have h3 : forBody (susQ bd) b.nreg c2 = some (q, c3) := h3
    have h6 : forTail (susQ bd) p.1 p.2 q.1 (b.nreg + 1) (b.nreg + 4) q.2.2 (b.n + 1) q.2.1 c5 =
      some c6 := h6
    obtain ⟨u1, n1, k1, e1, l1, i1, r1, v1, f1, ff1⟩ := forHead_up w h1
    obtain ⟨u2, n2, k2, e2, l2, i2, r2, ff2, mine⟩ := forSave_up u1.1 h2
    obtain ⟨u3, p1, p2, n3, k3, e3, l3, i3, v3, f3, ff3, ip, hip⟩ := forBody_up u2.1 h3
    have a3 := (u1.trans u2).trans u3
    have a4 := a3.trans (nid_grow a3.1)
    have hlsB := (hls.grow a3.2).push
      (L := { name := l, id := c3.nid, test := none, exit := b.n + 1 }) rfl
    have u4 := lowerQ_up bd _ _ _ _ a4.1 hlsB h4
    obtain ⟨u5, l5, fr5, nv5, nr5, some5, none5, frame5⟩ := forNext_up u3.1 rfl u4 h5
    obtain ⟨u6, s6⟩ := forTail_up u5.1 h6
    have hx6 : Ext c6.blk G := by
      obtain rfl := Option.some.inj h
      revert hx
      split <;> exact id
    have hx5 := u6.2.ext.trans hx6
    have hx4 : Ext c4.blk G := by
      refine Ext.trans ?_ hx5
      unfold forNext at h5
      split at h5
      · obtain rfl := Option.some.inj h5; exact .refl _
      · split at h5
        · obtain rfl := Option.some.inj h5; exact .refl _
        · simp only [Option.bind_eq_bind, Option.bind_eq_some_iff] at h5
          obtain ⟨cc, hcc, h5⟩ := h5
          obtain rfl := Option.some.inj h5
          exact (close_grow u4.1 hcc).2.ext
    have hx3 : Ext c3.blk G := u4.2.ext.trans hx4
    have hx2 := u3.2.ext.trans hx3
    have hx1 := u2.2.ext.trans hx2
    unfold Stmt.ok at hok
    obtain ⟨hfit, hokb⟩ := hok
    have fl := (hfit envv m.s).1
    have fh := (hfit envv m.s).2
    -- the exit block is empty at the end
    have emX : c6.blk (b.n + 1) = {} := by
      have u16 := (u2.trans u3).trans (u5.trans u6)
      rw [u16.2.frame (b.n + 1) (by omega) (by omega)]
      exact e1
    obtain ⟨kh, m1, th, qh, hh⟩ := head_run (leave := leave) w h1 hx1 ha he hlt
    have he1 : readEnv m1 env = some envv := by rw [qh.env hlt]; exact he
    -- what comes out
    have out : ∀ o, Res leave G ls b c4 (susQ bd) n m (AtB (b.n + 1)) o →
        Res leave G ls b b' (susS (.forL l lo hi dn bd)) n m (fun m' => b'.fin = false ∧ At b' m') o := by
      intro o r
      have hs : susS (.forL l lo hi dn bd) = susQ bd := by conv => lhs; unfold susS
      rw [hs]
      have hbk : b'.blk = c6.blk ∧ b'.cur = b.n + 1 ∧ b'.lazyT = c6.lazyT := by
        obtain rfl := Option.some.inj h
        split <;> exact ⟨rfl, rfl, rfl⟩
      have hat : ∀ m', AtB (b.n + 1) m' → b'.fin = false ∧ At b' m' := by
        intro m' hm'
        unfold B.fin At
        rw [hbk.1, hbk.2.1, emX]
        exact ⟨rfl, hm'.1, hm'.2⟩
      have htg : ∀ L t, target L c4 = some t → target L b' = some t := by
        intro L t ht
        unfold target at *
        split at ht
        · exact ht
        · rw [hbk.2.2, s6.lz, l5]; exact ht
      match o, r with
      | none, r => exact r
      | some (.norm s'), ⟨j, m', q1, q2, q3, q4⟩ => exact ⟨j, m', q1, hat m' q2, q3, q4⟩
      | some (.exit l s'), r => exact r
      | some (.next l s'), ⟨L, t, hL, ht, r⟩ => exact ⟨L, t, hL, htg L t ht, r⟩
      | some (.ret v s'), r => exact r
    unfold execS
    apply out
    by_cases hnull : (if dn envv m.s then lo envv m.s < hi envv m.s else hi envv m.s < lo envv m.s)
    · rw [if_pos hnull] at hh
      rw [range_null hnull]
      unfold forLoop
      exact ⟨kh, m1, th, hh, qh.s, qh.keep⟩
    · rw [if_neg hnull] at hh
      obtain ⟨at1, rl, rr, rs⟩ := hh
      obtain ⟨vs, hvs, hch⟩ := range_chain fl fh hnull
      rw [hvs]
      have fs : Fits (if dn envv m.s then -1 else 1) := by
        unfold Fits
        split <;> omega
      obtain ⟨k2', m2, t2, at2, s2, rg2, vr2, sv2⟩ :=
        save_run (leave := leave) u1.1 h2 hx2 at1 rr rs fh fs
      obtain ⟨k3', m3, t3, at3, s3, rg3, vr3⟩ := body_run (leave := leave) h3 u2.1 hx3 at2
        (by rw [rg2]; exact rl) fl
      have hsm : m3.s = m.s := by rw [s3, s2, qh.s]
      have kp3 : Keep b (susQ bd) m m3 := by
        refine ⟨fun _ r hr => ?_, fun v hv hfv => ?_⟩
        · rw [rg3, rg2, qh.regs r hr]
        · have hne : v ≠ q.1 := by
            have := u2.2.nvar
            rw [p1]; omega
          rw [vr3, set_ne hne, vr2 v ?_ (by omega), qh.vars]
          intro _
          rw [f1]; exact hfv
      have hvo' : susQ bd = true → VarsOnly env := by unfold susS at hvo; exact hvo
      -- the values which a turn of the loop needs
      let Val : M S → Int → Prop := fun m v => m.vars q.1 = some v ∧
        (susQ bd = true → m.vars p.1 = some (hi envv m1.s) ∧
          m.vars p.2 = some (if dn envv m1.s then -1 else 1)) ∧
        (susQ bd = false → m.regs (b.nreg + 1) = some (hi envv m1.s) ∧
          m.regs (b.nreg + 4) = some (if dn envv m1.s then -1 else 1))
      rw [← qh.s] at hch rr rs sv2
      have env3 : EnvLt c3 (q.2.2 :: env) := by
        intro x hxm
        rcases List.mem_cons.mp hxm with rfl | hxm
        · exact hip _ (by simp)
        · exact (hlt.grow a3.2) x hxm
      have vo3 : susQ bd = true → VarsOnly (q.2.2 :: env) := by
        intro hs x hxm
        rcases List.mem_cons.mp hxm with rfl | hxm
        · rw [ip, if_pos hs]; exact ⟨_, rfl⟩
        · exact hvo' hs x hxm
      have main := for_sim (leave := leave) (G := G) (X := b.n + 1) (l := l) (n := n)
        (c3 := { c3 with nid := c3.nid + 1 }) (c4 := c4) (b := b) (sus := susQ bd)
        (body := fun v => execQ leave n (v :: envv) bd) (ls := ls)
        (L := { name := l, id := c3.nid, test := none, exit := b.n + 1 })
        (St := if dn envv m1.s then -1 else 1) (R := hi envv m1.s)
        (Inv := fun m v => AtB q.2.1 m ∧ readEnv m env = some envv ∧ Val m v)
        (Inv' := fun m v => readEnv m (q.2.2 :: env) = some (v :: envv) ∧ Val m v)
        rfl rfl rfl a4.2
        (by
          rintro m5 v ⟨ia, ie, iv⟩
          obtain ⟨k, m6, t6, at6, q6, lv6⟩ := enter_run (leave := leave) h3 u2.1 hx3 ia iv.1
          have hq : Quiet b.nreg m5 m6 := ⟨q6.s, q6.vars, fun r hr => q6.regs r (by omega)⟩
          refine ⟨k, m6, t6, at6, q6.s, hq.keep, ?_, ?_⟩
          · unfold readEnv
            rw [lv6, hq.env hlt, ie]
          · refine ⟨by rw [q6.vars]; exact iv.1, fun hs => ?_, fun hs => ?_⟩
            · rw [q6.vars]; exact iv.2.1 hs
            · rw [q6.regs _ (by omega), q6.regs _ (by omega)]; exact iv.2.2 hs)
        (by
          rintro m5 v ia ⟨ie, iv⟩
          exact simQ n bd _ _ _ _ _ m5 a4.1 hlsB ff3 h4 hx4 hokb ia ie env3 vo3)
        (by
          rintro m5 m6 v kk ⟨ie, iv⟩
          refine ⟨?_, ?_, fun hs => ?_, fun hs => ?_⟩
          · rw [readEnv_keep kk _ env3 vo3]; exact ie
          · rw [kk.vars q.1 (by show q.1 < c3.nvar; omega) ?_]
            · exact iv.1
            · show q.1 ∉ c3.free
              rw [f3, p1]
              exact fun hm => Nat.lt_irrefl _ (u2.1.fr _ hm)
          · obtain ⟨mm1, mm2, _⟩ := mine hs
            have g1 := mm1.grow u3.2
            have g2 := mm2.grow u3.2
            rw [kk.vars p.1 g1.lt g1.used, kk.vars p.2 g2.lt g2.used]
            exact iv.2.1 hs
          · have : c3.nreg ≥ c2.nreg := u3.2.nreg
            rw [kk.regs hs _ (show _ < c3.nreg by omega), kk.regs hs _ (show _ < c3.nreg by omega)]
            exact iv.2.2 hs)
        (by
          rintro m5 v hpos ⟨ie, iv⟩
          -- reach the code behind the body
          have reach : ∃ k m6, Steps leave G k m5 m6 ∧ c5.fin = false ∧ At c5 m6 ∧ m6.s = m5.s ∧
              m6.vars = m5.vars ∧ m6.regs = m5.regs := by
            rcases hpos with ⟨hf4, at4⟩ | ⟨t, hz, at4⟩
            · cases hz : c4.lazyT c3.nid with
              | none =>
                obtain rfl := none5 hz
                exact ⟨0, m5, .refl _, hf4, at4, rfl, rfl, rfl⟩
              | some t =>
                obtain ⟨y1, y2, y3⟩ := some5 t hz
                unfold forNext at h5
                rw [hz, hf4] at h5
                simp only [Option.bind_eq_bind, Option.bind_eq_some_iff, Bool.false_eq_true,
                  if_false] at h5
                obtain ⟨cc, hcc, h5⟩ := h5
                obtain rfl := Option.some.inj h5
                have tj := close_jump (leave := leave) hcc hx5 at4
                exact ⟨1, _, .one tj, fin_sel y3, at_sel rfl rfl y3, rfl, rfl, rfl⟩
            · obtain ⟨y1, y2, y3⟩ := some5 t hz
              refine ⟨0, m5, .refl _, ?_, ?_, rfl, rfl, rfl⟩
              · unfold B.fin; rw [y1, y3]; rfl
              · unfold At; rw [y1, y3]; exact ⟨at4.1, at4.2⟩
          obtain ⟨k6, m6, t6, hf6, at6, s6', v6, g6⟩ := reach
          have hsl : readLoc m5 q.2.2 = some v := by
            unfold readEnv at ie
            split at ie
            · next a b' ha' hb' => simp at ie; rw [ha', ie.1]
            · cases ie
          have nr3 : c3.nreg ≤ c5.nreg := u5.2.nreg
          have nr23 : c2.nreg ≤ c3.nreg := u3.2.nreg
          rw [ip] at h6
          obtain ⟨k7, m7, _, t7, at7, s7, v7, g7⟩ := tail_run (leave := leave) (v := v)
            (R := hi envv m1.s) (St := if dn envv m1.s then -1 else 1) u5.1 (by rw [← p1] at h6; exact h6)
            hx6 hf6 at6
            (by rw [v6]; exact iv.1) (by rw [v6]; exact iv.2.1)
            (by
              intro hs
              rw [ip, hs] at hsl
              have hlr : c2.nreg < c3.nreg := by
                have := hip _ (List.mem_singleton.mpr rfl)
                rw [ip, hs] at this
                exact this
              refine ⟨by rw [g6]; exact hsl, by rw [g6]; exact (iv.2.2 hs).1,
                by rw [g6]; exact (iv.2.2 hs).2, ?_, ?_, ?_⟩ <;> omega)
          have hkp : Keep b (susQ bd) m5 m7 := by
            refine ⟨fun _ r hr => ?_, fun x hxv _ => ?_⟩
            · rw [g7 r (by omega), g6]
            · have := u2.2.nvar
              rw [v7, set_ne (by omega), v6]
          refine ⟨_, m7, t6.trans t7, s7.trans s6', hkp, ?_⟩
          split
          · next hv => rw [if_pos hv] at at7; exact at7
          · next hv =>
            rw [if_neg hv] at at7
            intro hfits
            have he5 : readEnv m5 env = some envv := by
              unfold readEnv at ie
              split at ie
              · next a b' ha' hb' => simp at ie; rw [hb', ie.2]
              · cases ie
            refine ⟨at7, ?_, ?_, fun hs => ?_, fun hs => ?_⟩
            · rw [readEnv_keep hkp env hlt hvo']; exact he5
            · rw [v7, set_same, wrap_fits hfits]
            · obtain ⟨mm1, mm2, _⟩ := mine hs
              have g1 := mm1.lt
              have g2 := mm2.lt
              rw [v7, set_ne (by omega), set_ne (by omega), v6]
              exact iv.2.1 hs
            · rw [g7 _ (by omega), g7 _ (by omega), g6]
              exact iv.2.2 hs)
      have r := main vs (lo envv m.s) m3 (by rw [← qh.s]; exact hch) ⟨at3, by
          rw [readEnv_keep kp3 env hlt hvo']; exact he, ?_, ?_, ?_⟩
      · rw [hsm] at r
        exact Res.prefix ((th.trans t2).trans t3) .refl kp3 id id (Nat.le_add_right _ _) r
      · rw [vr3, set_same]
      · intro hs
        obtain ⟨mm1, mm2, _⟩ := mine hs
        have g1 := mm1.lt
        have g2 := mm2.lt
        rw [vr3, set_ne (by omega), set_ne (by omega)]
        exact sv2 hs
      · intro _
        rw [rg3, rg2]
        exact ⟨rr, rs⟩
  | ite cs =>
    simp only [Option.bind_eq_bind, Option.bind_eq_some_iff] at h
    obtain ⟨⟨c1, ex⟩, h1, h⟩ := h
    obtain ⟨u, ok⟩ := lowerC_up cs env ls none b c1 ex w hls (fun _ h => nomatch h) h1
    have hb' : b'.blk = c1.blk ∧ b'.lazyT = c1.lazyT := by
      cases ex with
      | none => obtain rfl := Option.some.inj h; exact ⟨rfl, rfl⟩
      | some e => obtain rfl := Option.some.inj h; exact ⟨rfl, rfl⟩
    have r := simC n cs env envv ls none b c1 ex m w hls hf (fun _ h => nomatch h) h1
      (hb'.1 ▸ hx) (by unfold Stmt.ok at hok; exact hok) ha he hlt
      (by unfold susS at hvo; exact hvo)
    have hs : susS (.ite cs) = susC cs := by conv => lhs; unfold susS
    rw [hs]
    unfold execS
    have htg : ∀ L t, target L c1 = some t → target L b' = some t := by
      intro L t ht
      unfold target at *
      split at ht
      · exact ht
      · rw [hb'.2]; exact ht
    revert r
    generalize execC leave n envv cs m.s = o
    intro r
    match o, r with
    | none, r => exact r
    | some (.norm s'), ⟨j, m', q1, ⟨e, he', q2⟩, q3, q4⟩ =>
      subst he'
      obtain rfl := Option.some.inj h
      obtain ⟨_, _, y3, _, _⟩ := ok.new rfl e rfl
      exact ⟨j, m', q1, ⟨fin_sel y3, at_sel q2.1 q2.2 y3⟩, q3, q4⟩
    | some (.exit l s'), r => exact r
    | some (.next l s'), ⟨L, t, hL, ht, r⟩ => exact ⟨L, t, hL, htg L t ht, r⟩
    | some (.ret v s'), r => exact r
theorem simQ (n : Nat) : ∀ (st : Sq S) (env : List Loc) (envv : List Int) (ls : List Loop)
    (b b' : B S) (m : M S), WF b → LsOk ls b → b.fin = false → lowerQ env ls st b = some b' →
    Ext b'.blk G → st.ok leave → At b m → readEnv m env = some envv → EnvLt b env →
    (susQ st = true → VarsOnly env) →
    Res leave G ls b b' (susQ st) n m (fun m' => b'.fin = false ∧ At b' m')
      (execQ leave n envv st m.s) := by
  intro st env envv ls b b' m w hls hf h hx hok ha he hlt hvo
  cases st with
  | nil =>
    unfold lowerQ at h
    obtain rfl := Option.some.inj h
    unfold execQ
    exact ⟨0, m, .refl _, ⟨hf, ha⟩, rfl, .refl⟩
  | cons s t =>
    unfold lowerQ at h
    simp only [Option.bind_eq_bind, Option.bind_eq_some_iff] at h
    obtain ⟨c, h1, h2⟩ := h
    have u1 := lowerS_up s env ls b c w hls h1
    have u2 := lowerQ_up t env ls c b' u1.1 (hls.grow u1.2) h2
    unfold Sq.ok at hok
    have hsus : susQ (.cons s t) = (susS s || susQ t) := by conv => lhs; unfold susQ
    have e1 : susQ (.cons s t) = false → susS s = false := by rw [hsus]; simp; exact fun h _ => h
    have e2 : susQ (.cons s t) = false → susQ t = false := by rw [hsus]; simp
    have hv1 : susS s = true → VarsOnly env := fun h => hvo (by rw [hsus, h]; rfl)
    have hv2 : susQ t = true → VarsOnly env := fun h => hvo (by rw [hsus, h]; simp)
    have r := simS n s env envv ls b c m w hls hf h1 (u2.2.ext.trans hx) hok.1 ha he hlt hv1
    unfold execQ
    cases ho : execS leave n envv s m.s with
    | none =>
      rw [ho] at r
      exact r
    | some o =>
      rw [ho] at r
      cases o with
      | norm s' =>
        obtain ⟨j, m1, t1, ⟨hf1, a1⟩, es, k1⟩ := r
        subst es
        have r2 := simQ n t env envv ls c b' m1 u1.1 (hls.grow u1.2) hf1 h2 hx hok.2 a1
          (by rw [readEnv_keep k1 env hlt hv1]; exact he) (hlt.grow u1.2) hv2
        exact Res.prefix t1 u1.2 k1 e1 e2 (Nat.le_add_right _ _) r2
      | exit l s' =>
        obtain ⟨L, hL, j, m1, q0, q1, q2, q3, q4⟩ := r
        exact ⟨L, hL, j, m1, q0, q1, q2, q3, q4.weaken e1⟩
      | next l s' =>
        obtain ⟨L, tt, hL, ht, j, m1, q0, q1, q2, q3, q4⟩ := r
        exact ⟨L, tt, hL, target_grow u2.2 ht, j, m1, q0, q1, q2, q3, q4.weaken e1⟩
      | ret v s' => exact r
theorem simC (n : Nat) : ∀ (cs : Conds S) (env : List Loc) (envv : List Int) (ls : List Loop)
    (ex : Option Nat) (b b' : B S) (ex' : Option Nat) (m : M S), WF b → LsOk ls b →
    b.fin = false → ExIn b ex → lowerC env ls cs ex b = some (b', ex') →
    Ext b'.blk G → cs.ok leave → At b m → readEnv m env = some envv → EnvLt b env →
    (susC cs = true → VarsOnly env) →
    Res leave G ls b b' (susC cs) n m (fun m' => ∃ e, ex' = some e ∧ AtB e m')
      (execC leave n envv cs m.s) := by
  intro cs env envv ls ex b b' ex' m w hls hf hex h hx hok ha he hlt hvo
  have hc := w.cur
  cases cs with
  | els bd =>
    unfold lowerC at h
    simp only [Option.bind_eq_bind, Option.bind_eq_some_iff] at h
    obtain ⟨c, h1, h2⟩ := h
    have u1 := lowerQ_up bd env ls b c w hls h1
    obtain ⟨u2, ok, _, _⟩ := joinExit_up u1.1 h2
    unfold Conds.ok at hok
    have hsus : susC (.els bd) = susQ bd := by conv => lhs; unfold susC
    rw [hsus] at hvo ⊢
    have r := simQ n bd env envv ls b c m w hls hf h1 (u2.2.ext.trans hx) hok ha he hlt hvo
    unfold execC
    refine Res.mono (bt := c) (fun _ _ => target_grow u2.2) ?_ r
    rintro m' ⟨hf', ha'⟩ _
    obtain ⟨e, he', t'⟩ := join_run (leave := leave) u1.1 h2 hx hf' ha'
    exact ⟨1, _, t', ⟨e, he', rfl, rfl⟩, rfl, ⟨fun _ _ _ => rfl, fun _ _ _ => rfl⟩⟩
  | last c bd =>
    unfold lowerC at h
    simp only [Option.bind_eq_bind, Option.bind_eq_some_iff] at h
    obtain ⟨c1, h1, c2, h2, c3, h3, h4⟩ := h
    have u1 := (Up.refl w).emitR h1
    have s1 := (emitR_small h1).1
    have um := u1.more
    obtain ⟨u2, ok2, l2, k2, _, bk2⟩ := needExit_up (ex := ex) um.1
    have a2 := (um.trans u2).close h2
    have s2 := (close_small h2).1
    have uc : Up (needExit ex c1.more).2 c2 := (Up.refl u2.1).close h2
    have hn1 : c1.n = b.n := s1.n
    have l : c2.lazyT = b.lazyT := by rw [s2.lz, l2]; exact s1.lz
    have hlt' : c1.n < c2.n := Nat.lt_of_lt_of_le (Nat.lt_succ_self c1.n)
      (Nat.le_trans u2.2.n uc.2.n)
    have a3 : Up b (c2.sel c1.n) := a2.sel (by omega) a2 l .refl hlt'
    have u3 := lowerQ_up bd env ls _ _ a3.1 (hls.grow a3.2) h3
    obtain ⟨u4, ok4, _, _⟩ := joinExit_up u3.1 h4
    have hx3 := u4.2.ext.trans hx
    have hx2 : Ext c2.blk G := u3.2.ext.trans hx3
    unfold Conds.ok at hok
    have hsus : susC (.last c bd) = susQ bd := by conv => lhs; unfold susC
    rw [hsus] at hvo ⊢
    obtain ⟨m1, t1, at1, q1, q2, q3⟩ := cond_run (leave := leave) (c := c) h1
      (c1' := (needExit ex c1.more).2) bk2 k2 h2 hx2 ha he
    have kp1 : Keep b false m m1 := keep_of q2 q3
    unfold execC
    cases hcc : c envv m.s with
    | false =>
      rw [hcc] at at1
      exact ⟨2, m1, t1, ⟨_, ok4.old _ rfl, at1⟩, q1, kp1.weaken (fun _ => rfl)⟩
    | true =>
      rw [hcc] at at1
      have hemp : c2.blk c1.n = {} := by
        rw [s2.blk _ (by rw [k2]; show c1.n ≠ c1.cur; rw [s1.cur]; omega), bk2]
        exact u1.1.fresh _ (Nat.le_refl _)
      have he1 : readEnv m1 env = some envv := by
        rw [readEnv_keep kp1 env hlt (fun e => nomatch e)]; exact he
      have r := simQ n bd env envv ls _ c3 m1 a3.1 (hls.grow a3.2) (fin_sel hemp) h3 hx3 hok
        (at_sel at1.1 at1.2 hemp) he1 (hlt.grow a3.2) hvo
      rw [q1] at r
      have r' := Res.prefix t1 a3.2 kp1 (fun _ => rfl) id (Nat.le_add_right _ _) r
      refine Res.mono (bt := c3) (fun _ _ => target_grow u4.2) ?_ r'
      rintro m' ⟨hf', ha'⟩ _
      obtain ⟨e, he', t'⟩ := join_run (leave := leave) u3.1 h4 hx hf' ha'
      exact ⟨1, _, t', ⟨e, he', rfl, rfl⟩, rfl, ⟨fun _ _ _ => rfl, fun _ _ _ => rfl⟩⟩
  | cons c bd t =>
    unfold lowerC at h
    simp only [Option.bind_eq_bind, Option.bind_eq_some_iff] at h
    obtain ⟨c1, h1, c2, h2, c3, h3, ⟨c4, ex4⟩, h4, h5⟩ := h
    have u1 := (Up.refl w).emitR h1
    have s1 := (emitR_small h1).1
    have um := u1.more.more
    have a2 := um.close h2
    have s2 := (close_small h2).1
    have hn1 : c1.n = b.n := s1.n
    have n2 : c2.n = b.n + 2 := by rw [s2.n]; show c1.n + 2 = _; omega
    have l : c2.lazyT = b.lazyT := by rw [s2.lz]; exact s1.lz
    have a3 : Up b (c2.sel c1.n) := a2.sel (by omega) a2 l .refl (by omega)
    have u3 := lowerQ_up bd env ls _ _ a3.1 (hls.grow a3.2) h3
    obtain ⟨u4, ok4, l4, k4⟩ := joinExit_up u3.1 h4
    have u34 := u3.trans u4
    have a5 : Up b (c4.sel (c1.n + 1)) := up_blk a3 l (by omega)
      (show c1.n + 1 < c2.n by omega) u34
    have hok' : ExOk b c4 ex ex4 := ok4.before (a3.trans u3) u4.2
    have ok5 : ExOk b (c4.sel (c1.n + 1)) ex ex4 := ⟨hok'.old, fun hx e he => by
      obtain ⟨p1, p2, p3, _, p5⟩ := hok'.new hx e he
      obtain ⟨q1, _⟩ := ok4.new hx e he
      have := u3.2.n
      have : c2.n ≤ c3.n := this
      refine ⟨p1, p2, p3, ?_, p5⟩
      show e ≠ c1.n + 1
      omega⟩
    have hex5 := hex.next (c := b) a5 ok5
    obtain ⟨u6, ok6⟩ := lowerC_up t env ls ex4 _ b' ex' a5.1 (hls.grow a5.2) hex5 h5
    have hx4 : Ext c4.blk G := u6.2.ext.trans hx
    have hx3 := u4.2.ext.trans hx4
    have hx2 : Ext c2.blk G := u3.2.ext.trans hx3
    unfold Conds.ok at hok
    have hsus : susC (.cons c bd t) = (susQ bd || susC t) := by conv => lhs; unfold susC
    have e1 : susC (.cons c bd t) = false → susQ bd = false := by rw [hsus]; simp; exact fun h _ => h
    have e2 : susC (.cons c bd t) = false → susC t = false := by rw [hsus]; simp
    have hv1 : susQ bd = true → VarsOnly env := fun h => hvo (by rw [hsus, h]; rfl)
    have hv2 : susC t = true → VarsOnly env := fun h => hvo (by rw [hsus, h]; simp)
    obtain ⟨m1, t1, at1, q1, q2, q3⟩ := cond_run (leave := leave) (c := c) h1
      (c1' := c1.more.more) rfl rfl h2 hx2 ha he
    have kp1 : Keep b false m m1 := keep_of q2 q3
    have em2 : ∀ i, b.n ≤ i → c2.blk i = {} := by
      intro i hi
      rw [s2.blk _ (show i ≠ c1.cur by rw [s1.cur]; omega)]
      exact u1.1.fresh _ (by omega)
    have he1 : readEnv m1 env = some envv := by
      rw [readEnv_keep kp1 env hlt (fun e => nomatch e)]; exact he
    unfold execC
    cases hcc : c envv m.s with
    | false =>
      rw [hcc] at at1
      have hemp : c4.blk (c1.n + 1) = {} := by
        rw [u34.2.frame (c1.n + 1) (by show _ < c2.n; omega) (by show c1.n + 1 ≠ c1.n; omega)]
        exact em2 _ (by omega)
      have r := simC n t env envv ls ex4 _ b' ex' m1 a5.1 (hls.grow a5.2) (fin_sel hemp) hex5 h5 hx
        hok.2 (at_sel at1.1 at1.2 hemp) he1 (hlt.grow a5.2) hv2
      rw [q1] at r
      exact Res.prefix t1 a5.2 kp1 (fun _ => rfl) e2 (Nat.le_add_right _ _) r
    | true =>
      rw [hcc] at at1
      have hemp : c2.blk c1.n = {} := em2 _ (by omega)
      have r := simQ n bd env envv ls _ c3 m1 a3.1 (hls.grow a3.2) (fin_sel hemp) h3 hx3 hok.1
        (at_sel at1.1 at1.2 hemp) he1 (hlt.grow a3.2) hv1
      rw [q1] at r
      have r' := Res.prefix (sus := susC (.cons c bd t)) t1 a3.2 kp1 (fun _ => rfl) e1
        (Nat.le_add_right _ _) r
      have r'' := Res.mono (bt := c3) (bt' := c4) (Q := fun m' => ∃ e, ex' = some e ∧ AtB e m')
        (fun _ _ => target_grow u4.2) (by
        rintro m' ⟨hf', ha'⟩ _
        obtain ⟨e, he', t'⟩ := join_run (leave := leave) u3.1 h4 hx4 hf' ha'
        exact ⟨1, _, t', ⟨e, ok6.old e he', rfl, rfl⟩, rfl,
          ⟨fun _ _ _ => rfl, fun _ _ _ => rfl⟩⟩) r'
      refine Res.mono (bt := c4.sel (c1.n + 1)) (fun _ _ => target_grow u6.2) ?_ r''
      intro m' hm' _
      exact ⟨0, m', .refl _, hm', rfl, .refl⟩
end

end Verif.Seq
