import Verif.Seq.Lower

/-
What the pieces of code made for a statement do when they are executed.
-/

namespace Verif.Seq

open Spec

variable {S : Type} {leave : S → S} {G : Nat → Blk S}

@[simp] theorem set_same (f : Nat → Option Int) (i : Nat) (x : Int) : set f i x i = some x := by
  simp [set]

theorem set_ne {f : Nat → Option Int} {i j : Nat} {x : Int} (h : j ≠ i) : set f i x j = f j := by
  simp [set, h]

theorem wrap_fits {x : Int} (h : Fits x) : wrap32 x = x := by
  unfold Fits at h
  unfold wrap32
  omega

/-- At the start of a block. -/
def AtB (i : Nat) (m : M S) : Prop := m.blk = i ∧ m.pos = 0

/-- How the code for a statement may end; `P` is where it ends normally, and
`bt` knows the blocks for "next". -/
def Res (leave : S → S) (G : Nat → Blk S) (ls : List Loop) (b bt : B S) (sus : Bool) (n : Nat)
    (m : M S) (P : M S → Prop) : Option (Out S) → Prop
  | none => ∃ k m', n ≤ k ∧ Steps leave G k m m'
  | some (.norm s') => ∃ k m', Steps leave G k m m' ∧ P m' ∧ m'.s = s' ∧ Keep b sus m m'
  | some (.exit l s') => ∃ L, findLoop ls l = some L ∧ ∃ k m', 0 < k ∧ Steps leave G k m m' ∧
      AtB L.exit m' ∧ m'.s = s' ∧ Keep b sus m m'
  | some (.next l s') => ∃ L t, findLoop ls l = some L ∧ target L bt = some t ∧
      ∃ k m', 0 < k ∧ Steps leave G k m m' ∧ AtB t m' ∧ m'.s = s' ∧ Keep b sus m m'
  | some (.ret v s') => Returns leave G m v s'

theorem Returns.prefix {k : Nat} {m m1 : M S} {v : Int} {s : S} (h : Steps leave G k m m1)
    (r : Returns leave G m1 v s) : Returns leave G m v s := by
  obtain ⟨j, m', h1, h2⟩ := r
  exact ⟨k + j, m', h.trans h1, h2⟩

/-- More code in front. -/
theorem Res.prefix {ls : List Loop} {b b1 bt : B S} {s1 s2 sus : Bool} {n n' k : Nat}
    {m m1 : M S} {P : M S → Prop} {o : Option (Out S)} (h : Steps leave G k m m1)
    (g : Grow b b1) (kp : Keep b s1 m m1) (e1 : sus = false → s1 = false)
    (e2 : sus = false → s2 = false) (hn : n' ≤ n + k)
    (r : Res leave G ls b1 bt s2 n m1 P o) : Res leave G ls b bt sus n' m P o := by
  match o, r with
  | none, ⟨j, m', h1, h2⟩ => exact ⟨k + j, m', by omega, h.trans h2⟩
  | some (.norm s'), ⟨j, m', h1, h2, h3, h4⟩ =>
    exact ⟨k + j, m', h.trans h1, h2, h3, kp.trans g h4 e1 e2⟩
  | some (.exit l s'), ⟨L, hL, j, m', h0, h1, h2, h3, h4⟩ =>
    exact ⟨L, hL, k + j, m', by omega, h.trans h1, h2, h3, kp.trans g h4 e1 e2⟩
  | some (.next l s'), ⟨L, t, hL, ht, j, m', h0, h1, h2, h3, h4⟩ =>
    exact ⟨L, t, hL, ht, k + j, m', by omega, h.trans h1, h2, h3, kp.trans g h4 e1 e2⟩
  | some (.ret v s'), r => exact Returns.prefix h r

/-- More code behind, which is reached in the normal case. -/
theorem Res.mono {ls : List Loop} {b bt bt' : B S} {sus : Bool} {n : Nat}
    {m : M S} {P Q : M S → Prop} {o : Option (Out S)}
    (g : ∀ L t, target L bt = some t → target L bt' = some t)
    (hpq : ∀ m', P m' → Keep b sus m m' → ∃ k m'', Steps leave G k m' m'' ∧ Q m'' ∧ m''.s = m'.s ∧
      Keep b sus m' m'')
    (r : Res leave G ls b bt sus n m P o) : Res leave G ls b bt' sus n m Q o := by
  match o, r with
  | none, r => exact r
  | some (.norm s'), ⟨j, m', h1, h2, h3, h4⟩ =>
    obtain ⟨k, m'', p1, p2, p3, p4⟩ := hpq m' h2 h4
    exact ⟨j + k, m'', h1.trans p1, p2, p3.trans h3, h4.trans .refl p4 id id⟩
  | some (.exit l s'), r => exact r
  | some (.next l s'), ⟨L, t, hL, ht, r⟩ => exact ⟨L, t, hL, g L t ht, r⟩
  | some (.ret v s'), r => exact r

/-! ## Conditions -/

theorem boolInt_ne (c : Bool) : (boolInt c ≠ 0) ↔ c = true := by
  cases c <;> simp [boolInt]

/-- A condition and the branch on it. -/
theorem cond_run {c1 c2 b : B S} {c : List Int → S → Bool} {env : List Loc} {envv : List Int}
    {t f : Nat} {m : M S} (h1 : b.emitR (.eval b.nreg (fun e s => boolInt (c e s)) env) = some c1)
    {c1' : B S} (hb : c1'.blk = c1.blk) (hcur : c1'.cur = c1.cur)
    (h2 : c1'.close (.cond b.nreg t f) = some c2) (hx : Ext c2.blk G) (ha : At b m)
    (he : readEnv m env = some envv) :
    ∃ m', Steps leave G 2 m m' ∧ AtB (if c envv m.s then t else f) m' ∧ m'.s = m.s ∧
      m'.vars = m.vars ∧ ∀ r, r < b.nreg → m'.regs r = m.regs r := by
  have hx1 : Ext c1.blk G := by
    have hf := (close_some h2).1
    obtain ⟨_, rfl⟩ := close_some h2
    refine Ext.trans ?_ hx
    rw [← hb]
    exact upd_ext (pre_term hf _)
  have hi : instr leave m (.eval b.nreg (fun e s => boolInt (c e s)) env) =
      some (m.setR b.nreg (boolInt (c envv m.s))) := by
    unfold instr
    simp only [he]
  obtain ⟨s1, a1⟩ := emitR_step h1 hx1 ha hi rfl rfl
  have a1' : At c1' (m.setR b.nreg (boolInt (c envv m.s))).tick := by
    unfold At at *
    rw [hb, hcur]
    exact a1
  have s2 := close_cond (leave := leave) (x := boolInt (c envv m.s)) h2 hx a1' (by
    show set m.regs b.nreg _ b.nreg = _
    simp)
  refine ⟨_, (Steps.one s1).trans (Steps.one s2), ⟨?_, rfl⟩, rfl, rfl, fun r hr => ?_⟩
  · show (if boolInt (c envv m.s) ≠ 0 then t else f) = _
    simp only [boolInt_ne]
  · show set m.regs b.nreg _ r = _
    exact set_ne (by omega)

theorem keep_of {b : B S} {sus : Bool} {m m' : M S} (hv : m'.vars = m.vars)
    (hr : ∀ r, r < b.nreg → m'.regs r = m.regs r) : Keep b sus m m' :=
  ⟨fun _ => hr, fun v _ _ => by rw [hv]⟩

/-! ## exit and next -/

/-- The part up to the jump. -/
theorem when_run {env : List Loc} {envv : List Int} {c : Option (List Int → S → Bool)}
    {b b1 : B S} {m : M S} (w : WF b) (h : lowerWhen env c b = some b1) (hx : Ext b1.blk G)
    (ha : At b m) (he : readEnv m env = some envv) :
    ∃ k m', Steps leave G k m m' ∧ m'.s = m.s ∧ Keep b false m m' ∧
      (if holds c envv m.s then At b1 m' else AtB b.n m') := by
  have hc := w.cur
  unfold lowerWhen at h
  split at h
  · obtain rfl := Option.some.inj h
    exact ⟨0, m, .refl _, rfl, .refl, by
      rw [if_pos (by rfl)]
      exact ha⟩
  · next c =>
    simp only [Option.bind_eq_bind, Option.bind_eq_some_iff] at h
    obtain ⟨b2, h2, b3, h3, h⟩ := h
    obtain rfl := Option.some.inj h
    obtain ⟨m', p1, p2, p3, p4, p5⟩ := cond_run (leave := leave) (c := c) (b := b.more.more) h2 rfl rfl
      h3 hx ha he
    refine ⟨2, m', p1, p3, keep_of p4 p5, ?_⟩
    show if c envv m.s = true then _ else _
    split
    · next ht =>
      rw [if_pos ht] at p2
      refine at_sel p2.1 p2.2 ?_
      rw [(close_small h3).1.blk _ ?_, (emitR_small h2).1.blk _ ?_]
      · exact w.fresh _ (Nat.le_succ _)
      · show b.n + 1 ≠ b.cur; omega
      · rw [(emitR_small h2).1.cur]; show b.n + 1 ≠ b.cur; omega
    · next ht => rw [if_neg ht] at p2; exact p2

/-! ## Registers -/

/-- Nothing but new registers has changed. -/
structure Quiet (N : Nat) (m m' : M S) : Prop where
  s : m'.s = m.s
  vars : m'.vars = m.vars
  regs : ∀ r, r < N → m'.regs r = m.regs r

theorem Quiet.trans {N N' : Nat} {a b c : M S} (h : Quiet N a b) (g : Quiet N' b c)
    (hn : N ≤ N') : Quiet N a c :=
  ⟨g.s.trans h.s, g.vars.trans h.vars, fun r hr => by
    rw [g.regs r (Nat.lt_of_lt_of_le hr hn), h.regs r hr]⟩

theorem Quiet.refl {N : Nat} {a : M S} : Quiet N a a := ⟨rfl, rfl, fun _ _ => rfl⟩

theorem Quiet.keep {b : B S} {sus : Bool} {m m' : M S} (h : Quiet b.nreg m m') : Keep b sus m m' :=
  keep_of h.vars h.regs

theorem Quiet.env {b : B S} {m m' : M S} {env : List Loc} (h : Quiet b.nreg m m')
    (he : EnvLt b env) : readEnv m' env = readEnv m env :=
  readEnv_keep (sus := false) h.keep env he (fun e => nomatch e)

theorem reg_run {b b' : B S} {i : Instr S} {m : M S} {r : Nat} {x : Int}
    (h : b.emitR i = some b') (hx : Ext b'.blk G) (ha : At b m)
    (hi : instr leave m i = some (m.setR r x)) (hr : b.nreg ≤ r) :
    ∃ m', Steps leave G 1 m m' ∧ At b' m' ∧ Quiet b.nreg m m' ∧ m'.regs r = some x := by
  obtain ⟨s1, a1⟩ := emitR_step h hx ha hi rfl rfl
  refine ⟨_, .one s1, a1, ⟨rfl, rfl, fun q hq => ?_⟩, ?_⟩
  · show set m.regs r x q = _
    exact set_ne (by omega)
  · show set m.regs r x r = _
    simp

theorem eval_run {b b' : B S} {f : List Int → S → Int} {env : List Loc} {envv : List Int}
    {m : M S} {r : Nat} (h : b.emitR (.eval r f env) = some b') (hx : Ext b'.blk G) (ha : At b m)
    (he : readEnv m env = some envv) (hr : b.nreg ≤ r) :
    ∃ m', Steps leave G 1 m m' ∧ At b' m' ∧ Quiet b.nreg m m' ∧
      m'.regs r = some (f envv m.s) :=
  reg_run h hx ha (by unfold instr; simp only [he]) hr

/-- A store to a variable. -/
theorem store_run {b b' : B S} {m : M S} {v r : Nat} {x : Int}
    (h : b.emit (.store v r) = some b') (hx : Ext b'.blk G) (ha : At b m)
    (hr : m.regs r = some x) :
    ∃ m', Steps leave G 1 m m' ∧ At b' m' ∧ m'.s = m.s ∧ m'.regs = m.regs ∧
      m'.vars = set m.vars v (wrap32 x) := by
  have hi : instr leave m (.store v r) = some (m.setV v (wrap32 x)) := by
    unfold instr
    simp only [hr]
  obtain ⟨s1, a1⟩ := emit_step h hx ha hi rfl rfl
  exact ⟨_, .one s1, a1, rfl, rfl, rfl⟩

/-! ## For loops -/

theorem head_run {env : List Loc} {envv : List Int} {lo hi : List Int → S → Int}
    {dn : List Int → S → Bool} {b b1 : B S} {m : M S} (w : WF b)
    (h : forHead env lo hi dn b = some b1) (hx : Ext b1.blk G)
    (ha : At b m) (he : readEnv m env = some envv) (hlt : EnvLt b env) :
    ∃ k m', Steps leave G k m m' ∧ Quiet b.nreg m m' ∧
      (if (if dn envv m.s then lo envv m.s < hi envv m.s else hi envv m.s < lo envv m.s)
       then AtB (b.n + 1) m'
       else At b1 m' ∧ m'.regs b.nreg = some (lo envv m.s) ∧
        m'.regs (b.nreg + 1) = some (hi envv m.s) ∧
        m'.regs (b.nreg + 4) = some (if dn envv m.s then -1 else 1)) := by
  have hc := w.cur
  unfold forHead at h
  simp only [Option.bind_eq_bind, Option.bind_eq_some_iff] at h
  obtain ⟨c1, h1, c2, h2, c3, h3, c4, h4, c5, h5, h6⟩ := h
  obtain ⟨w1, g1⟩ := emitR_grow w h1
  obtain ⟨w2, g2⟩ := emitR_grow w1 h2
  obtain ⟨w3, g3⟩ := emitR_grow w2 h3
  obtain ⟨w4, g4⟩ := emitR_grow w3 h4
  have wm := (more_grow (more_grow w4).1).1
  have g5 := close_grow wm h5
  obtain ⟨s1, r1, _⟩ := emitR_small h1
  obtain ⟨s2, r2, _⟩ := emitR_small h2
  obtain ⟨s3, r3, _⟩ := emitR_small h3
  obtain ⟨s4, r4, _⟩ := emitR_small h4
  obtain ⟨s5, r5, _⟩ := close_small h5
  have r5 : c5.nreg = c4.nreg := r5
  have s := ((s1.trans s2).trans s3).trans s4
  have x6 : Ext c5.blk b1.blk := by
    have hf := (emitR_some h6).1
    obtain ⟨_, rfl⟩ := emitR_some h6
    exact upd_ext (pre_app (b := c5.sel c4.n) hf _)
  have hx5 := x6.trans hx
  have hx4 : Ext c4.blk G := g5.2.ext.trans hx5
  have hx3 := g4.ext.trans hx4
  have hx2 := g3.ext.trans hx3
  have hx1 := g2.ext.trans hx2
  obtain ⟨m1, t1, a1, q1, v1⟩ := eval_run (leave := leave) h1 hx1 ha he (Nat.le_refl _)
  have e1 : readEnv m1 env = some envv := by rw [q1.env hlt]; exact he
  have hlt1 := hlt.grow g1
  obtain ⟨m2, t2, a2, q2, v2⟩ := eval_run (leave := leave) h2 hx2 a1 e1 (by omega)
  have e2 : readEnv m2 env = some envv := by rw [q2.env hlt1]; exact e1
  have hlt2 := hlt1.grow g2
  obtain ⟨m3, t3, a3, q3, v3⟩ := eval_run (leave := leave) h3 hx3 a2 e2 (by omega)
  have hd : m1.s = m.s := q1.s
  have hd2 : m2.s = m.s := q2.s.trans hd
  have hd3 : m3.s = m.s := q3.s.trans hd2
  rw [hd] at v2
  rw [hd2] at v3
  have v1' : m3.regs b.nreg = some (lo envv m.s) := by
    rw [q3.regs _ (by omega), q2.regs _ (by omega)]; exact v1
  have v2' : m3.regs (b.nreg + 1) = some (hi envv m.s) := by
    rw [q3.regs _ (by omega)]; exact v2
  obtain ⟨m4, t4, a4, q4, v4⟩ := reg_run (leave := leave) h4 hx4 a3
    (r := b.nreg + 3)
    (x := boolInt (if boolInt (dn envv m.s) ≠ 0 then decide (lo envv m.s < hi envv m.s)
      else decide (hi envv m.s < lo envv m.s)))
    (by unfold instr; simp only [v1', v2', v3]) (by omega)
  have t5 := close_cond (leave := leave) h5 hx5 a4 v4
  have q14 : Quiet b.nreg m m4 :=
    ((q1.trans q2 (by omega)).trans q3 (by omega)).trans q4 (by omega)
  have hsteps := (((t1.trans t2).trans t3).trans t4).trans (Steps.one t5)
  have hn4 : c4.n = b.n := s.n
  by_cases hnull : (if dn envv m.s then lo envv m.s < hi envv m.s else hi envv m.s < lo envv m.s)
  · refine ⟨_, _, hsteps, ⟨q14.s, q14.vars, q14.regs⟩, ?_⟩
    rw [if_pos hnull]
    refine ⟨?_, rfl⟩
    show (if _ then c4.n + 1 else c4.n) = _
    rw [if_pos ((boolInt_ne _).mpr ?_), hn4]
    simp only [boolInt_ne]
    split at hnull
    · next hh => rw [if_pos hh]; simpa using hnull
    · next hh => rw [if_neg hh]; simpa using hnull
  · have hgo : (if boolInt (if boolInt (dn envv m.s) ≠ 0 then decide (lo envv m.s < hi envv m.s)
      else decide (hi envv m.s < lo envv m.s)) ≠ 0 then c4.n + 1 else c4.n) = c4.n := by
      rw [if_neg (mt (boolInt_ne _).mp ?_)]
      simp only [boolInt_ne]
      split at hnull
      · next hh => rw [if_pos hh]; simpa using hnull
      · next hh => rw [if_neg hh]; simpa using hnull
    rw [hgo] at hsteps
    have he5 : c5.blk c4.n = {} := by
      rw [s5.blk _ (show c4.n ≠ c4.cur by rw [s.cur]; omega)]
      show c4.blk c4.n = {}
      exact w4.fresh _ (Nat.le_refl _)
    have a5 : At (c5.sel c4.n) (m4.go c4.n) := at_sel rfl rfl he5
    have hnr : (c5.sel c4.n).nreg = b.nreg + 4 := by show c5.nreg = _; omega
    have v3' : (m4.go c4.n).regs (b.nreg + 2) = some (boolInt (dn envv m.s)) := by
      show m4.regs _ = _
      rw [q4.regs _ (by omega)]; exact v3
    obtain ⟨m6, t6, a6, q6, v6⟩ := reg_run (leave := leave) h6 hx a5 (r := b.nreg + 4)
      (x := if boolInt (dn envv m.s) ≠ 0 then -1 else 1)
      (by unfold instr; simp only [v3']) (by omega)
    have q6' : Quiet b.nreg m m6 :=
      (Quiet.trans (b := m4.go c4.n) ⟨q14.s, q14.vars, q14.regs⟩ q6 (by omega))
    refine ⟨_, m6, hsteps.trans t6, q6', ?_⟩
    rw [if_neg hnull]
    refine ⟨a6, ?_, ?_, ?_⟩
    · rw [q6.regs _ (by omega)]; show m4.regs _ = _; rw [q4.regs _ (by omega)]; exact v1'
    · rw [q6.regs _ (by omega)]; show m4.regs _ = _; rw [q4.regs _ (by omega)]; exact v2'
    · rw [v6]; simp only [boolInt_ne]

/-- The right bound and the step are saved. -/
theorem save_run {sus : Bool} {right step : Nat} {b b1 : B S} {p : Nat × Nat} {m : M S}
    {R St : Int} (w : WF b) (h : forSave sus right step b = some (p, b1)) (hx : Ext b1.blk G)
    (ha : At b m) (hR : m.regs right = some R) (hS : m.regs step = some St)
    (fR : Fits R) (fS : Fits St) :
    ∃ k m', Steps leave G k m m' ∧ At b1 m' ∧ m'.s = m.s ∧ m'.regs = m.regs ∧
      (∀ v, (v < b.nvar → v ∉ b.free) → v < b.nvar → m'.vars v = m.vars v) ∧
      (sus = true → m'.vars p.1 = some R ∧ m'.vars p.2 = some St) := by
  have hup := forSave_up w h
  unfold forSave at h
  split at h
  · next hs =>
    simp only [Option.bind_eq_bind, Option.bind_eq_some_iff] at h
    obtain ⟨c1, h1, c2, h2, h⟩ := h
    obtain ⟨rfl, rfl⟩ := Prod.mk.inj (Option.some.inj h)
    obtain ⟨m1, m2, hne⟩ := hup.2.2.2.2.2.2.2.2 hs
    obtain ⟨wt, gt, _⟩ := temp_grow w
    obtain ⟨e1, e2, e3, e4, e5, e6⟩ := temp_same (b := b)
    have g1 := emit_grow wt h1
    obtain ⟨wt', gt', _⟩ := temp_grow g1.1
    obtain ⟨e1', e2', e3', e4', e5', e6'⟩ := temp_same (b := c1)
    have g2 := emit_grow wt' h2
    have hx1 : Ext c1.blk G := gt'.ext.trans (g2.2.ext.trans hx)
    have a0 : At b.temp.2 m := by unfold At; rw [e2, e3]; exact ha
    obtain ⟨n1, t1, a1, p1, q1, v1⟩ := store_run (leave := leave) h1 hx1 a0 hR
    have a1' : At c1.temp.2 n1 := by unfold At; rw [e2', e3']; exact a1
    obtain ⟨n2, t2, a2, p2, q2, v2⟩ := store_run (leave := leave) h2 hx a1' (by rw [q1]; exact hS)
    refine ⟨_, n2, t1.trans t2, a2, p2.trans p1, q2.trans q1, ?_, ?_⟩
    · intro v hv hlt
      rw [v2, v1, set_ne, set_ne]
      · intro e; subst e; exact hv hlt (m1.was hlt)
      · intro e; subst e; exact hv hlt (m2.was hlt)
    · intro _
      rw [v2, v1]
      refine ⟨?_, ?_⟩
      · show set (set m.vars b.temp.1 _) c1.temp.1 _ b.temp.1 = _
        rw [set_ne hne, set_same, wrap_fits fR]
      · show set (set m.vars b.temp.1 _) c1.temp.1 _ c1.temp.1 = _
        rw [set_same, wrap_fits fS]
  · next hs =>
    obtain ⟨rfl, rfl⟩ := Prod.mk.inj (Option.some.inj h)
    exact ⟨0, m, .refl _, ha, rfl, rfl, fun _ _ _ => rfl, fun e => absurd e hs⟩

/-- The loop variable is set and the body entered. -/
theorem body_run {sus : Bool} {left : Nat} {b b1 : B S} {p : Nat × Nat × Loc} {m : M S}
    {x : Int} (h : forBody sus left b = some (p, b1)) (w : WF b) (hx : Ext b1.blk G)
    (ha : At b m) (hl : m.regs left = some x) (fx : Fits x) :
    ∃ k m', Steps leave G k m m' ∧ AtB p.2.1 m' ∧ m'.s = m.s ∧ m'.regs = m.regs ∧
      m'.vars = set m.vars p.1 x := by
  unfold forBody at h
  simp only [Option.bind_eq_bind, Option.bind_eq_some_iff] at h
  obtain ⟨c1, h1, c2, h2, h⟩ := h
  have g1 := emit_grow (nvar_grow w).1 h1
  have g2 := close_grow (more_grow g1.1).1 h2
  have key : Ext c2.blk G → p.1 = b.nvar → p.2.1 = c1.n →
      ∃ k m', Steps leave G k m m' ∧ AtB p.2.1 m' ∧ m'.s = m.s ∧ m'.regs = m.regs ∧
      m'.vars = set m.vars p.1 x := by
    intro hx2 e1 e2
    have hx1 : Ext c1.blk G := g2.2.ext.trans hx2
    obtain ⟨n1, t1, a1, p1, q1, v1⟩ := store_run (leave := leave) h1 hx1 ha hl
    have a1' : At c1.more n1 := a1
    have t2 := close_jump (leave := leave) h2 hx2 a1'
    refine ⟨_, _, t1.trans (.one t2), ⟨by rw [e2]; rfl, rfl⟩, p1, q1, ?_⟩
    show n1.vars = _
    rw [v1, wrap_fits fx, e1]
  split at h
  · obtain ⟨rfl, rfl⟩ := Prod.mk.inj (Option.some.inj h)
    exact key hx rfl rfl
  · simp only [Option.bind_eq_some_iff] at h
    obtain ⟨c3, h3, h⟩ := h
    obtain ⟨rfl, rfl⟩ := Prod.mk.inj (Option.some.inj h)
    have x6 : Ext c2.blk c3.blk := by
      have hf := (emitR_some h3).1
      obtain ⟨_, rfl⟩ := emitR_some h3
      exact upd_ext (pre_app (b := c2.sel c1.n) hf _)
    exact key (x6.trans hx) rfl rfl

/-- At the start of the body: the loop parameter is found. -/
theorem enter_run {sus : Bool} {left : Nat} {b b1 : B S} {p : Nat × Nat × Loc} {m : M S}
    {x : Int} (h : forBody sus left b = some (p, b1)) (w : WF b) (hx : Ext b1.blk G)
    (ha : AtB p.2.1 m) (hl : m.vars p.1 = some x) :
    ∃ k m', Steps leave G k m m' ∧ At b1 m' ∧ Quiet b.nreg m m' ∧ readLoc m' p.2.2 = some x := by
  have hup := forBody_up w h
  have hc := w.cur
  unfold forBody at h
  simp only [Option.bind_eq_bind, Option.bind_eq_some_iff] at h
  obtain ⟨c1, h1, c2, h2, h⟩ := h
  have s1 := (emit_small h1).1
  have s2 := (close_small h2).1
  have hn1 : c1.n = b.n := s1.n
  have hr : c2.nreg = b.nreg := by rw [(close_small h2).2.1]; exact (emit_small h1).2.1
  have he : c2.blk c1.n = {} := by
    rw [s2.blk _ (show c1.n ≠ c1.cur by rw [s1.cur, hn1]; show b.n ≠ b.cur; omega)]
    show c1.blk c1.n = {}
    rw [s1.blk _ (by rw [hn1]; show b.n ≠ b.cur; omega), hn1]
    exact w.fresh _ (Nat.le_refl _)
  split at h
  · obtain ⟨rfl, rfl⟩ := Prod.mk.inj (Option.some.inj h)
    exact ⟨0, m, .refl _, at_sel ha.1 ha.2 he, .refl, hl⟩
  · simp only [Option.bind_eq_some_iff] at h
    obtain ⟨c3, h3, h⟩ := h
    obtain ⟨rfl, rfl⟩ := Prod.mk.inj (Option.some.inj h)
    have hl : m.vars b.nvar = some x := hl
    have hi : instr leave m (.load c2.nreg b.nvar) = some (m.setR c2.nreg x) := by
      unfold instr
      simp only [hl]
    obtain ⟨m1, t1, a1, q1, v1⟩ := reg_run (leave := leave) h3 hx (at_sel ha.1 ha.2 he) hi (Nat.le_refl _)
    have q1 : Quiet c2.nreg m m1 := q1
    rw [hr] at q1
    exact ⟨1, m1, t1, a1, q1, v1⟩

theorem loadIf_run {sus : Bool} {v : Nat} {b b1 : B S} {m : M S}
    (h : loadIf sus v b = some b1) (hx : Ext b1.blk G) (ha : At b m)
    (hv : sus = true → ∃ x, m.vars v = some x) :
    ∃ k m', Steps leave G k m m' ∧ At b1 m' ∧ Quiet b.nreg m m' ∧ b.nreg ≤ b1.nreg ∧
      Ext b.blk G ∧ (sus = true → m'.regs b.nreg = m.vars v ∧ b.nreg < b1.nreg) := by
  unfold loadIf at h
  split at h
  · next hs =>
    obtain ⟨x, e⟩ := hv hs
    have hi : instr leave m (.load b.nreg v) = some (m.setR b.nreg x) := by
      unfold instr
      simp only [e]
    obtain ⟨m1, t1, a1, q1, v1⟩ := reg_run (leave := leave) h hx ha hi (Nat.le_refl _)
    obtain ⟨hf, rfl⟩ := emitR_some h
    exact ⟨1, m1, t1, a1, q1, Nat.le_succ _, (upd_ext (pre_app hf _)).trans hx,
      fun _ => ⟨by rw [v1, e], Nat.lt_succ_self _⟩⟩
  · next hs =>
    obtain rfl := Option.some.inj h
    exact ⟨0, m, .refl _, ha, .refl, Nat.le_refl _, hx, fun e => absurd e hs⟩

theorem forStep_run {ivar i right step exit body : Nat} {b b1 : B S} {m : M S} {v R St : Int}
    (w : WF b) (h : forStep ivar i right step exit body b = some b1) (hx : Ext b1.blk G)
    (hf : b.fin = false) (ha : At b m)
    (hi : m.regs i = some v) (hR : m.regs right = some R) (hS : m.regs step = some St)
    (li : i < b.nreg) (lR : right < b.nreg) :
    ∃ k m', 0 < k ∧ Steps leave G k m m' ∧ AtB (if v = R then exit else body) m' ∧ m'.s = m.s ∧
      m'.vars = set m.vars ivar (wrap32 (v + St)) ∧
      ∀ r, r < b.nreg → m'.regs r = m.regs r := by
  unfold forStep at h
  rw [hf] at h
  simp only [Option.bind_eq_bind, Option.bind_eq_some_iff, Bool.false_eq_true, if_false] at h
  obtain ⟨c1, h1, c2, h2, c3, h3, h4⟩ := h
  have g1 := emitR_grow w h1
  have g2 := emit_grow g1.1 h2
  have g3 := emitR_grow g2.1 h3
  have g4 := close_grow g3.1 h4
  have hx3 := g4.2.ext.trans hx
  have hx2 := g3.2.ext.trans hx3
  have hx1 := g2.2.ext.trans hx2
  have r1 := (emitR_small h1).2.1
  have r2 := (emit_small h2).2.1
  obtain ⟨m1, t1, a1, q1, v1⟩ := reg_run (leave := leave) h1 hx1 ha (r := b.nreg) (x := v + St)
    (by unfold instr; simp only [hi, hS]) (Nat.le_refl _)
  obtain ⟨m2, t2, a2, p2, q2, v2⟩ := store_run (leave := leave) h2 hx2 a1 v1
  have i2 : m2.regs i = some v := by rw [q2, q1.regs _ li]; exact hi
  have R2 : m2.regs right = some R := by rw [q2, q1.regs _ lR]; exact hR
  obtain ⟨m3, t3, a3, q3, v3⟩ := reg_run (leave := leave) h3 hx3 a2 (r := b.nreg + 1)
    (x := boolInt (decide (v = R)))
    (by unfold instr; simp only [i2, R2]) (by omega)
  have t4 := close_cond (leave := leave) h4 hx a3 v3
  refine ⟨_, _, by omega, ((t1.trans t2).trans t3).trans (.one t4), ⟨?_, rfl⟩, ?_, ?_, ?_⟩
  · show (if _ then exit else body) = _
    simp only [boolInt_ne, decide_eq_true_eq]
  · show m3.s = _
    rw [q3.s, p2, q1.s]
  · show m3.vars = _
    rw [q3.vars, v2, q1.vars]
  · intro r hr
    show m3.regs r = _
    rw [q3.regs _ (by omega), q2, q1.regs _ hr]

/-- The code behind the body. -/
theorem tail_run {sus : Bool} {rvar svar ivar right step ir : Nat} {exit body : Nat}
    {b b1 : B S} {m : M S} {v R St : Int} (w : WF b)
    (h : forTail sus rvar svar ivar right step (if sus then .var ivar else .reg ir) exit body b =
      some b1) (hx : Ext b1.blk G) (hf : b.fin = false) (ha : At b m)
    (hv : m.vars ivar = some v)
    (h1 : sus = true → m.vars rvar = some R ∧ m.vars svar = some St)
    (h2 : sus = false → m.regs ir = some v ∧ m.regs right = some R ∧ m.regs step = some St ∧
      ir < b.nreg ∧ right < b.nreg ∧ step < b.nreg) :
    ∃ k m', 0 < k ∧ Steps leave G k m m' ∧ AtB (if v = R then exit else body) m' ∧ m'.s = m.s ∧
      m'.vars = set m.vars ivar (wrap32 (v + St)) ∧
      ∀ r, r < b.nreg → m'.regs r = m.regs r := by
  unfold forTail at h
  simp only [Option.bind_eq_bind, Option.bind_eq_some_iff] at h
  obtain ⟨c1, e1, c2, e2, c3, e3, e4⟩ := h
  obtain ⟨u1, s1⟩ := loadIf_up w e1
  obtain ⟨u2, s2⟩ := loadIf_up u1.1 e2
  obtain ⟨u3, s3⟩ := loadIf_up u2.1 e3
  obtain ⟨u4, s4⟩ := forStep_up u3.1 e4
  have hx3 := u4.2.ext.trans hx
  have hx2 := u3.2.ext.trans hx3
  have hx1 := u2.2.ext.trans hx2
  obtain ⟨k1, m1, t1, a1, q1, n1, _, v1⟩ := loadIf_run (leave := leave) e1 hx1 ha
    (fun hs => ⟨R, (h1 hs).1⟩)
  obtain ⟨k2, m2, t2, a2, q2, n2, _, v2⟩ := loadIf_run (leave := leave) e2 hx2 a1
    (fun hs => ⟨St, by rw [q1.vars]; exact (h1 hs).2⟩)
  obtain ⟨k3, m3, t3, a3, q3, n3, _, v3⟩ := loadIf_run (leave := leave) e3 hx3 a2
    (fun hs => ⟨v, by rw [q2.vars, q1.vars]; exact hv⟩)
  have q : Quiet b.nreg m m3 := (q1.trans q2 n1).trans q3 (by omega)
  have hf3 : c3.fin = false := by
    have one : ∀ {x y : B S} {v : Nat}, x.fin = false → loadIf sus v x = some y →
        y.fin = false := by
      intro x y v hx hy
      unfold loadIf at hy
      split at hy
      · exact (emitR_small hy).2.2
      · obtain rfl := Option.some.inj hy; exact hx
    exact one (one (one hf e1) e2) e3
  have fin : ∀ i rg st, forStep ivar i rg st exit body c3 = some b1 →
      m3.regs i = some v → m3.regs rg = some R → m3.regs st = some St → i < c3.nreg →
      rg < c3.nreg →
    ∃ k m', 0 < k ∧ Steps leave G k m m' ∧ AtB (if v = R then exit else body) m' ∧ m'.s = m.s ∧
      m'.vars = set m.vars ivar (wrap32 (v + St)) ∧
      ∀ r, r < b.nreg → m'.regs r = m.regs r := by
    intro i rg st hs hi hR hS li lR
    obtain ⟨k, m4, h0, t4, a4, p4, w4, r4⟩ := forStep_run (leave := leave) u3.1 hs hx hf3 a3 hi hR hS
      li lR
    refine ⟨_, m4, ?_, ((t1.trans t2).trans t3).trans t4, a4, p4.trans q.s, by rw [w4, q.vars], ?_⟩
    · omega
    · intro r hr
      rw [r4 r (by omega), q.regs r hr]
  cases sus with
  | true =>
    obtain ⟨x1, l1⟩ := v1 rfl
    obtain ⟨x2, l2⟩ := v2 rfl
    obtain ⟨x3, l3⟩ := v3 rfl
    refine fin _ _ _ e4 ?_ ?_ ?_ ?_ ?_
    · show m3.regs c2.nreg = _
      rw [x3, q2.vars, q1.vars]; exact hv
    · show m3.regs b.nreg = _
      rw [q3.regs _ (by omega), q2.regs _ (by omega), x1]; exact (h1 rfl).1
    · show m3.regs c1.nreg = _
      rw [q3.regs _ (by omega), x2, q1.vars]; exact (h1 rfl).2
    · show c2.nreg < _
      exact l3
    · show b.nreg < _
      omega
  | false =>
    obtain ⟨p1, p2, p3, p4, p5, p6⟩ := h2 rfl
    have hst : m3.regs step = some St := by rw [q.regs _ p6]; exact p3
    refine fin _ _ _ e4 ?_ ?_ hst ?_ ?_
    · show m3.regs ir = _
      rw [q.regs _ p4]; exact p1
    · show m3.regs right = _
      rw [q.regs _ p5]; exact p2
    · show ir < _
      omega
    · show right < _
      omega

end Verif.Seq
