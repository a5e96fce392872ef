import Verif.Seq.Model

/-
How the state of the compiler grows, and single steps of the machine.
-/

namespace Verif.Seq

open Spec

variable {S : Type}

/-! ## Blocks only grow -/

def Pre (x y : Blk S) : Prop := x = y ∨ x.term = none ∧ x.ops <+: y.ops

theorem Pre.refl (x : Blk S) : Pre x x := .inl rfl

theorem Pre.trans {x y z : Blk S} (h : Pre x y) (h2 : Pre y z) : Pre x z := by
  rcases h with rfl | ⟨a, b⟩
  · exact h2
  · rcases h2 with rfl | ⟨_, d⟩
    · exact .inr ⟨a, b⟩
    · exact .inr ⟨a, b.trans d⟩

def Ext (f g : Nat → Blk S) : Prop := ∀ i, Pre (f i) (g i)

theorem Ext.refl (f : Nat → Blk S) : Ext f f := fun i => .refl _

theorem Ext.trans {f g h : Nat → Blk S} (a : Ext f g) (b : Ext g h) : Ext f h :=
  fun i => (a i).trans (b i)

theorem fin_false {b : B S} (h : b.fin = false) : (b.blk b.cur).term = none := by
  unfold B.fin at h
  cases ht : (b.blk b.cur).term with
  | none => rfl
  | some t => rw [ht] at h; simp at h

theorem emit_some {b b' : B S} {i : Instr S} (h : b.emit i = some b') :
    b.fin = false ∧
      b' = { b with blk := upd b.blk b.cur ⟨(b.blk b.cur).ops ++ [i], none⟩ } := by
  unfold B.emit at h
  split at h
  · cases h
  · next hf => exact ⟨by simpa using hf, (Option.some.inj h).symm⟩

theorem close_some {b b' : B S} {t : Term S} (h : b.close t = some b') :
    b.fin = false ∧
      b' = { b with blk := upd b.blk b.cur ⟨(b.blk b.cur).ops, some t⟩ } := by
  unfold B.close at h
  split at h
  · cases h
  · next hf => exact ⟨by simpa using hf, (Option.some.inj h).symm⟩

theorem emitR_some {b b' : B S} {i : Instr S} (h : b.emitR i = some b') :
    b.fin = false ∧
      b' = { b with blk := upd b.blk b.cur ⟨(b.blk b.cur).ops ++ [i], none⟩,
                    nreg := b.nreg + 1 } := by
  unfold B.emitR at h
  rw [Option.map_eq_some_iff] at h
  obtain ⟨a, ha, rfl⟩ := h
  obtain ⟨h1, rfl⟩ := emit_some ha
  exact ⟨h1, rfl⟩

theorem upd_ext {f : Nat → Blk S} {i : Nat} {x : Blk S} (h : Pre (f i) x) :
    Ext f (upd f i x) := by
  intro j
  unfold upd
  split
  · next e => subst e; exact h
  · exact .refl _

/-! ## Well-formed states and growth -/

structure WF (b : B S) : Prop where
  cur : b.cur < b.n
  fresh : ∀ i, b.n ≤ i → b.blk i = {}
  lz : ∀ i t, b.lazyT i = some t → t < b.n ∧ i < b.nid
  inj : ∀ i j t, b.lazyT i = some t → b.lazyT j = some t → i = j
  nodup : b.free.Nodup
  fr : ∀ v, v ∈ b.free → v < b.nvar

structure Grow (b b' : B S) : Prop where
  n : b.n ≤ b'.n
  nreg : b.nreg ≤ b'.nreg
  nvar : b.nvar ≤ b'.nvar
  nid : b.nid ≤ b'.nid
  frame : ∀ i, i < b.n → i ≠ b.cur → b'.blk i = b.blk i
  ext : Ext b.blk b'.blk
  cur : b'.cur = b.cur ∨ b.n ≤ b'.cur
  free : ∀ v, v < b.nvar → v ∈ b'.free → v ∈ b.free
  lz : ∀ i t, b.lazyT i = some t → b'.lazyT i = some t
  new : ∀ i t, i < b.nid → b.lazyT i = none → b'.lazyT i = some t →
    b.n ≤ t ∧ b'.blk t = {} ∧ t ≠ b'.cur

theorem Grow.refl {b : B S} : Grow b b where
  n := Nat.le_refl _
  nreg := Nat.le_refl _
  nvar := Nat.le_refl _
  nid := Nat.le_refl _
  frame := fun _ _ _ => rfl
  ext := .refl _
  cur := .inl rfl
  free := fun _ _ h => h
  lz := fun _ _ h => h
  new := fun _ _ _ h1 h2 => by rw [h1] at h2; cases h2

theorem Grow.trans {a b c : B S} (wb : WF b) (h : Grow a b) (g : Grow b c) :
    Grow a c where
  n := Nat.le_trans h.n g.n
  nreg := Nat.le_trans h.nreg g.nreg
  nvar := Nat.le_trans h.nvar g.nvar
  nid := Nat.le_trans h.nid g.nid
  frame := fun i hi hc => by
    have := h.n
    rw [g.frame i (by omega) (by
      rcases h.cur with e | e
      · rw [e]; exact hc
      · omega)]
    exact h.frame i hi hc
  ext := h.ext.trans g.ext
  cur := by
    have := h.n
    rcases g.cur with e | e
    · rw [e]; exact h.cur
    · right; omega
  free := fun v hv hm => h.free v hv (g.free v (Nat.lt_of_lt_of_le hv h.nvar) hm)
  lz := fun i t hi => g.lz i t (h.lz i t hi)
  new := fun i t hi h0 h1 => by
    have hn := h.n
    have hd := h.nid
    cases hb : b.lazyT i with
    | none =>
      obtain ⟨x, y, z⟩ := g.new i t (by omega) hb h1
      exact ⟨by omega, y, z⟩
    | some t' =>
      have := g.lz i t' hb
      rw [h1] at this
      obtain rfl := Option.some.inj this
      obtain ⟨x, y, z⟩ := h.new i t hi h0 hb
      have hlt := (wb.lz i t hb).1
      refine ⟨x, by rw [g.frame t hlt z]; exact y, ?_⟩
      rcases g.cur with e | e
      · rw [e]; exact z
      · omega

/-- Writing to the current block. -/
theorem write_grow {b : B S} {x : Blk S} {nr : Nat} (w : WF b)
    (hp : Pre (b.blk b.cur) x) (hr : b.nreg ≤ nr) :
    WF { b with blk := upd b.blk b.cur x, nreg := nr } ∧
      Grow b { b with blk := upd b.blk b.cur x, nreg := nr } := by
  refine ⟨⟨w.cur, fun i hi => ?_, w.lz, w.inj, w.nodup, w.fr⟩,
    { n := Nat.le_refl _, nreg := hr, nvar := Nat.le_refl _, nid := Nat.le_refl _,
      frame := fun i _ hc => ?_, ext := upd_ext hp, cur := .inl rfl,
      free := fun _ _ h => h, lz := fun _ _ h => h,
      new := fun _ _ _ h1 h2 => by rw [h1] at h2; cases h2 }⟩
  · have := w.cur
    have hi : b.n ≤ i := hi
    show upd b.blk b.cur x i = {}
    unfold upd
    rw [if_neg (by omega)]
    exact w.fresh i hi
  · show upd b.blk b.cur x i = _
    unfold upd
    rw [if_neg hc]

theorem pre_app {b : B S} (h : b.fin = false) (i : Instr S) :
    Pre (b.blk b.cur) ⟨(b.blk b.cur).ops ++ [i], none⟩ :=
  .inr ⟨fin_false h, ⟨[i], rfl⟩⟩

theorem pre_term {b : B S} (h : b.fin = false) (t : Term S) :
    Pre (b.blk b.cur) ⟨(b.blk b.cur).ops, some t⟩ :=
  .inr ⟨fin_false h, ⟨[], by simp⟩⟩

theorem emit_grow {b b' : B S} {i : Instr S} (w : WF b) (h : b.emit i = some b') :
    WF b' ∧ Grow b b' := by
  obtain ⟨hf, rfl⟩ := emit_some h
  exact write_grow w (pre_app hf i) (Nat.le_refl _)

theorem emitR_grow {b b' : B S} {i : Instr S} (w : WF b) (h : b.emitR i = some b') :
    WF b' ∧ Grow b b' := by
  obtain ⟨hf, rfl⟩ := emitR_some h
  exact write_grow w (pre_app hf i) (Nat.le_succ _)

theorem close_grow {b b' : B S} {t : Term S} (w : WF b) (h : b.close t = some b') :
    WF b' ∧ Grow b b' := by
  obtain ⟨hf, rfl⟩ := close_some h
  exact write_grow w (pre_term hf t) (Nat.le_refl _)

theorem more_grow {b : B S} (w : WF b) : WF b.more ∧ Grow b b.more := by
  have := w.cur
  refine ⟨⟨Nat.lt_succ_of_lt w.cur, fun i hi => w.fresh i (Nat.le_of_succ_le hi),
      fun i t h => ⟨Nat.lt_succ_of_lt (w.lz i t h).1, (w.lz i t h).2⟩, w.inj, w.nodup, w.fr⟩,
    { n := Nat.le_succ _, nreg := Nat.le_refl _, nvar := Nat.le_refl _, nid := Nat.le_refl _,
      frame := fun _ _ _ => rfl, ext := .refl _, cur := .inl rfl,
      free := fun _ _ h => h, lz := fun _ _ h => h,
      new := fun _ _ _ h1 h2 => by
        have h2 : b.lazyT _ = _ := h2
        rw [h1] at h2; cases h2 }⟩

theorem nid_grow {b : B S} (w : WF b) :
    WF { b with nid := b.nid + 1 } ∧ Grow b { b with nid := b.nid + 1 } :=
  ⟨⟨w.cur, w.fresh, fun i t h => ⟨(w.lz i t h).1, Nat.lt_succ_of_lt (w.lz i t h).2⟩,
      w.inj, w.nodup, w.fr⟩,
    { n := Nat.le_refl _, nreg := Nat.le_refl _, nvar := Nat.le_refl _, nid := Nat.le_succ _,
      frame := fun _ _ _ => rfl, ext := .refl _, cur := .inl rfl,
      free := fun _ _ h => h, lz := fun _ _ h => h,
      new := fun _ _ _ h1 h2 => by
        have h2 : b.lazyT _ = _ := h2
        rw [h1] at h2; cases h2 }⟩

theorem nvar_grow {b : B S} (w : WF b) :
    WF { b with nvar := b.nvar + 1 } ∧ Grow b { b with nvar := b.nvar + 1 } :=
  ⟨⟨w.cur, w.fresh, w.lz, w.inj, w.nodup, fun v h => Nat.lt_succ_of_lt (w.fr v h)⟩,
    { n := Nat.le_refl _, nreg := Nat.le_refl _, nvar := Nat.le_succ _, nid := Nat.le_refl _,
      frame := fun _ _ _ => rfl, ext := .refl _, cur := .inl rfl,
      free := fun _ _ h => h, lz := fun _ _ h => h,
      new := fun _ _ _ h1 h2 => by
        have h2 : b.lazyT _ = _ := h2
        rw [h1] at h2; cases h2 }⟩

/-- A temporary variable: not one of those in use. -/
theorem temp_grow {b : B S} (w : WF b) :
    WF b.temp.2 ∧ Grow b b.temp.2 ∧ b.temp.1 < b.temp.2.nvar ∧ b.temp.1 ∉ b.temp.2.free ∧
      (b.temp.1 < b.nvar → b.temp.1 ∈ b.free) := by
  unfold B.temp
  split
  · next v t hf =>
    have hn := w.nodup
    rw [hf] at hn
    have hfr := w.fr
    rw [hf] at hfr
    refine ⟨⟨w.cur, w.fresh, w.lz, w.inj, (List.nodup_cons.mp hn).2,
        fun x h => hfr x (List.mem_cons_of_mem _ h)⟩,
      { n := Nat.le_refl _, nreg := Nat.le_refl _, nvar := Nat.le_refl _, nid := Nat.le_refl _,
        frame := fun _ _ _ => rfl, ext := .refl _, cur := .inl rfl,
        free := fun _ _ h => by rw [hf]; exact List.mem_cons_of_mem _ h, lz := fun _ _ h => h,
        new := fun _ _ _ h1 h2 => by
          have h2 : b.lazyT _ = _ := h2
          rw [h1] at h2; cases h2 },
      hfr v List.mem_cons_self, (List.nodup_cons.mp hn).1,
      fun _ => by rw [hf]; exact List.mem_cons_self⟩
  · next hf =>
    obtain ⟨a, c⟩ := nvar_grow w
    refine ⟨a, c, Nat.lt_succ_self _, ?_, fun h => absurd h (Nat.lt_irrefl _)⟩
    show b.nvar ∉ b.free
    rw [hf]
    simp

theorem release_wf {b : B S} {v : Nat} (w : WF b) (h1 : v < b.nvar) (h2 : v ∉ b.free) :
    WF (b.release v) :=
  ⟨w.cur, w.fresh, w.lz, w.inj, by
    show (b.free ++ [v]).Nodup
    rw [List.nodup_append]
    refine ⟨w.nodup, by simp, ?_⟩
    intro a ha c hc
    simp at hc
    subst hc
    intro e
    subst e
    exact h2 ha,
   fun x hx => by
    have hx : x ∈ b.free ++ [v] := hx
    rw [List.mem_append] at hx
    rcases hx with hx | hx
    · exact w.fr x hx
    · simp at hx; subst hx; exact h1⟩

theorem release_grow {b0 b : B S} {v : Nat} (g : Grow b0 b)
    (h : v < b0.nvar → v ∈ b0.free) : Grow b0 (b.release v) :=
  { n := g.n, nreg := g.nreg, nvar := g.nvar, nid := g.nid, frame := g.frame, ext := g.ext,
    cur := g.cur,
    free := fun x hx hm => by
      have hm : x ∈ b.free ++ [v] := hm
      rw [List.mem_append] at hm
      rcases hm with hm | hm
      · exact g.free x hx hm
      · simp at hm; subst hm; exact h hx
    lz := g.lz, new := g.new }

theorem sel_wf {b : B S} {i : Nat} (w : WF b) (h : i < b.n) : WF (b.sel i) :=
  ⟨h, w.fresh, w.lz, w.inj, w.nodup, w.fr⟩

/-- Selecting a block made since. -/
theorem sel_grow {b0 b : B S} {i : Nat} (g : Grow b0 b) (hi : b0.n ≤ i)
    (hl : ∀ id t, id < b0.nid → b0.lazyT id = none → b.lazyT id = some t → t ≠ i) :
    Grow b0 (b.sel i) :=
  { n := g.n, nreg := g.nreg, nvar := g.nvar, nid := g.nid, frame := g.frame, ext := g.ext,
    cur := .inr hi, free := g.free, lz := g.lz,
    new := fun id t h1 h2 h3 => by
      obtain ⟨x, y, _⟩ := g.new id t h1 h2 h3
      exact ⟨x, y, hl id t h1 h2 h3⟩ }

/-- The blocks made directly are none of those made later by "next". -/
theorem lz_ne {b0 b1 b : B S} {i : Nat} (g1 : Grow b0 b1) (h : ∀ id, b1.lazyT id = b0.lazyT id)
    (g : Grow b1 b) (hi : i < b1.n) :
    ∀ id t, id < b0.nid → b0.lazyT id = none → b.lazyT id = some t → t ≠ i := by
  intro id t h1 h2 h3
  have := g1.nid
  have := (g.new id t (by omega) (by rw [h]; exact h2) h3).1
  omega

/-- Only blocks and numbers have changed. -/
def Same (b b' : B S) : Prop := b'.lazyT = b.lazyT ∧ b'.nid = b.nid

/-! ## The machine -/

def At (b : B S) (m : M S) : Prop := m.blk = b.cur ∧ m.pos = (b.blk b.cur).ops.length

theorem Steps.trans {leave : S → S} {G : Nat → Blk S} {j k : Nat} {a b c : M S}
    (h : Steps leave G j a b) (g : Steps leave G k b c) : Steps leave G (j + k) a c := by
  induction h with
  | refl m => simpa using g
  | step e _ ih =>
    rw [show ∀ x : Nat, x + 1 + k = (x + k) + 1 by omega]
    exact .step e (ih g)

theorem Steps.one {leave : S → S} {G : Nat → Blk S} {a b : M S}
    (h : mstep leave G a = .run b) : Steps leave G 1 a b := .step h (.refl _)

/-- The instruction emitted is the one executed. -/
theorem emit_step {leave : S → S} {G : Nat → Blk S} {b b' : B S} {i : Instr S} {m m1 : M S}
    (h : b.emit i = some b') (hx : Ext b'.blk G) (ha : At b m)
    (hi : instr leave m i = some m1) (hb : m1.blk = m.blk) (hp : m1.pos = m.pos) :
    mstep leave G m = .run m1.tick ∧ At b' m1.tick := by
  obtain ⟨hf, rfl⟩ := emit_some h
  have hpre := hx b.cur
  simp only [upd, if_true] at hpre
  have hg : (G m.blk).ops[m.pos]? = some i := by
    rw [ha.1, ha.2]
    rcases hpre with e | ⟨_, t, e⟩
    · rw [← e]; simp
    · rw [← e]; simp
  constructor
  · unfold mstep
    rw [hg]
    simp only [hi]
  · refine ⟨by show m1.blk = b.cur; rw [hb, ha.1], ?_⟩
    show m1.pos + 1 = _
    rw [hp, ha.2]
    simp [upd]

theorem emitR_step {leave : S → S} {G : Nat → Blk S} {b b' : B S} {i : Instr S} {m m1 : M S}
    (h : b.emitR i = some b') (hx : Ext b'.blk G) (ha : At b m)
    (hi : instr leave m i = some m1) (hb : m1.blk = m.blk) (hp : m1.pos = m.pos) :
    mstep leave G m = .run m1.tick ∧ At b' m1.tick := by
  unfold B.emitR at h
  rw [Option.map_eq_some_iff] at h
  obtain ⟨a, ha', rfl⟩ := h
  obtain ⟨x, y⟩ := emit_step (G := G) ha' hx ha hi hb hp
  exact ⟨x, y⟩

/-- At the end of a closed block. -/
theorem close_at {G : Nat → Blk S} {b b' : B S} {t : Term S} {m : M S}
    (h : b.close t = some b') (hx : Ext b'.blk G) (ha : At b m) :
    (G m.blk).ops[m.pos]? = none ∧ (G m.blk).term = some t := by
  obtain ⟨hf, rfl⟩ := close_some h
  have hpre := hx b.cur
  simp only [upd, if_true] at hpre
  rcases hpre with e | ⟨e, _⟩
  · rw [ha.1, ← e, ha.2]
    simp
  · cases e

theorem close_jump {leave : S → S} {G : Nat → Blk S} {b b' : B S} {t : Nat} {m : M S}
    (h : b.close (.jump t) = some b') (hx : Ext b'.blk G) (ha : At b m) :
    mstep leave G m = .run (m.go t) := by
  obtain ⟨h1, h2⟩ := close_at h hx ha
  unfold mstep
  simp only [h1, h2]

theorem close_cond {leave : S → S} {G : Nat → Blk S} {b b' : B S} {r t f : Nat} {x : Int}
    {m : M S} (h : b.close (.cond r t f) = some b') (hx : Ext b'.blk G) (ha : At b m)
    (hr : m.regs r = some x) :
    mstep leave G m = .run (m.go (if x ≠ 0 then t else f)) := by
  obtain ⟨h1, h2⟩ := close_at h hx ha
  unfold mstep
  simp only [h1, h2, hr]

theorem at_sel {b : B S} {i : Nat} {m : M S} (h : m.blk = i) (hp : m.pos = 0)
    (he : b.blk i = {}) : At (b.sel i) m :=
  ⟨h, by show _ = (b.blk i).ops.length; rw [he, hp]; rfl⟩

/-! ## What is kept -/

structure Keep (b : B S) (sus : Bool) (m m' : M S) : Prop where
  regs : sus = false → ∀ r, r < b.nreg → m'.regs r = m.regs r
  vars : ∀ v, v < b.nvar → v ∉ b.free → m'.vars v = m.vars v

theorem Keep.refl {b : B S} {sus : Bool} {m : M S} : Keep b sus m m :=
  ⟨fun _ _ _ => rfl, fun _ _ _ => rfl⟩

theorem Keep.trans {b b1 : B S} {s1 s2 sus : Bool} {m m1 m2 : M S}
    (g : Grow b b1) (h : Keep b s1 m m1) (k : Keep b1 s2 m1 m2)
    (e1 : sus = false → s1 = false) (e2 : sus = false → s2 = false) : Keep b sus m m2 :=
  ⟨fun hs r hr => by
    rw [k.regs (e2 hs) r (Nat.lt_of_lt_of_le hr g.nreg), h.regs (e1 hs) r hr],
   fun v hv hf => by
    rw [k.vars v (Nat.lt_of_lt_of_le hv g.nvar) (fun hm => hf (g.free v hv hm)),
      h.vars v hv hf]⟩

/-- The places of the loop parameters are in use. -/
def LocOk (b : B S) : Loc → Prop
  | .reg r => r < b.nreg
  | .var v => v < b.nvar ∧ v ∉ b.free

def EnvLt (b : B S) (env : List Loc) : Prop := ∀ l, l ∈ env → LocOk b l

/-- All of them are variables. -/
def VarsOnly (env : List Loc) : Prop := ∀ l, l ∈ env → ∃ v, l = .var v

theorem EnvLt.grow {b b' : B S} {env : List Loc} (h : EnvLt b env) (g : Grow b b') :
    EnvLt b' env := by
  intro l hl
  have := h l hl
  cases l with
  | reg r => exact Nat.lt_of_lt_of_le this g.nreg
  | var v => exact ⟨Nat.lt_of_lt_of_le this.1 g.nvar, fun hm => this.2 (g.free v this.1 hm)⟩

theorem readEnv_keep {b : B S} {sus : Bool} {m m' : M S} (k : Keep b sus m m') :
    ∀ (env : List Loc), EnvLt b env → (sus = true → VarsOnly env) →
      readEnv m' env = readEnv m env := by
  intro env
  induction env with
  | nil => intros; rfl
  | cons l t ih =>
    intro h hv
    have hl : readLoc m' l = readLoc m l := by
      have h0 := h l List.mem_cons_self
      cases l with
      | reg r =>
        cases sus with
        | true =>
          obtain ⟨v, e⟩ := hv rfl _ List.mem_cons_self
          cases e
        | false => exact k.regs rfl r h0
      | var v => exact k.vars v h0.1 h0.2
    unfold readEnv
    rw [hl, ih (fun x hx => h x (List.mem_cons_of_mem _ hx))
      (fun e x hx => hv e x (List.mem_cons_of_mem _ hx))]

end Verif.Seq
