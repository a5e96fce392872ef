import Verif.Seq.Lemmas

/-
Lowering a statement only adds to the state of the compiler: blocks other than
the current one, registers and variables in use are left alone.
-/

namespace Verif.Seq

open Spec

variable {S : Type}

def LsOk (ls : List Loop) (b : B S) : Prop := ∀ L, L ∈ ls → L.id < b.nid

theorem LsOk.grow {ls : List Loop} {b b' : B S} (h : LsOk ls b) (g : Grow b b') : LsOk ls b' :=
  fun L hL => Nat.lt_of_lt_of_le (h L hL) g.nid

/-- Where "next" goes. -/
def target (L : Loop) (b : B S) : Option Nat :=
  match L.test with
  | some t => some t
  | none => b.lazyT L.id

theorem target_grow {L : Loop} {b b' : B S} {t : Nat} (g : Grow b b') (h : target L b = some t) :
    target L b' = some t := by
  unfold target at *
  split at h
  · exact h
  · exact g.lz _ _ h

/-- Step-wise growth: the pair is what is carried along. -/
def Up (b b' : B S) : Prop := WF b' ∧ Grow b b'

theorem Up.refl {b : B S} (w : WF b) : Up b b := ⟨w, .refl⟩

theorem Up.trans {a b c : B S} (h : Up a b) (g : Up b c) : Up a c :=
  ⟨g.1, h.2.trans h.1 g.2⟩

theorem Up.sel {b0 b1 b : B S} {i : Nat} (h : Up b0 b) (hi : b0.n ≤ i) (h1 : Up b0 b1)
    (hl : b1.lazyT = b0.lazyT) (g : Grow b1 b) (hn : i < b1.n) : Up b0 (b.sel i) :=
  ⟨sel_wf h.1 (Nat.lt_of_lt_of_le hn g.n),
   sel_grow h.2 hi (lz_ne h1.2 (fun id => by rw [hl]) g hn)⟩

theorem Up.emit {b0 b b' : B S} {i : Instr S} (u : Up b0 b) (h : b.emit i = some b') :
    Up b0 b' := u.trans (emit_grow u.1 h)

theorem Up.emitR {b0 b b' : B S} {i : Instr S} (u : Up b0 b) (h : b.emitR i = some b') :
    Up b0 b' := u.trans (emitR_grow u.1 h)

theorem Up.close {b0 b b' : B S} {t : Term S} (u : Up b0 b) (h : b.close t = some b') :
    Up b0 b' := u.trans (close_grow u.1 h)

theorem Up.more {b0 b : B S} (u : Up b0 b) : Up b0 b.more := u.trans (more_grow u.1)

/-- Emitting changes the current block only. -/
structure Small (b b' : B S) : Prop where
  n : b'.n = b.n
  cur : b'.cur = b.cur
  nvar : b'.nvar = b.nvar
  free : b'.free = b.free
  nid : b'.nid = b.nid
  lz : b'.lazyT = b.lazyT
  blk : ∀ i, i ≠ b.cur → b'.blk i = b.blk i

theorem upd_ne {f : Nat → Blk S} {i j : Nat} {x : Blk S} (h : j ≠ i) : upd f i x j = f j := by
  unfold upd; rw [if_neg h]

theorem Small.refl (b : B S) : Small b b := ⟨rfl, rfl, rfl, rfl, rfl, rfl, fun _ _ => rfl⟩

theorem Small.trans {a b c : B S} (h : Small a b) (g : Small b c) : Small a c :=
  ⟨g.n.trans h.n, g.cur.trans h.cur, g.nvar.trans h.nvar, g.free.trans h.free,
   g.nid.trans h.nid, g.lz.trans h.lz,
   fun i hi => by rw [g.blk i (by rw [h.cur]; exact hi), h.blk i hi]⟩

theorem emit_small {b b' : B S} {i : Instr S} (h : b.emit i = some b') :
    Small b b' ∧ b'.nreg = b.nreg ∧ b'.fin = false := by
  obtain ⟨_, rfl⟩ := emit_some h
  exact ⟨⟨rfl, rfl, rfl, rfl, rfl, rfl, fun i hi => upd_ne hi⟩, rfl, by simp [B.fin, upd]⟩

theorem emitR_small {b b' : B S} {i : Instr S} (h : b.emitR i = some b') :
    Small b b' ∧ b'.nreg = b.nreg + 1 ∧ b'.fin = false := by
  obtain ⟨_, rfl⟩ := emitR_some h
  exact ⟨⟨rfl, rfl, rfl, rfl, rfl, rfl, fun i hi => upd_ne hi⟩, rfl, by simp [B.fin, upd]⟩

theorem close_small {b b' : B S} {t : Term S} (h : b.close t = some b') :
    Small b b' ∧ b'.nreg = b.nreg ∧ b'.fin = true := by
  obtain ⟨_, rfl⟩ := close_some h
  exact ⟨⟨rfl, rfl, rfl, rfl, rfl, rfl, fun i hi => upd_ne hi⟩, rfl, by simp [B.fin, upd]⟩

/-! ## exit and next -/

theorem lowerWhen_up {env : List Loc} {c : Option (List Int → S → Bool)} {b b1 : B S}
    (w : WF b) (h : lowerWhen env c b = some b1) :
    Up b b1 ∧ b.n < b1.n ∧ b1.lazyT = b.lazyT ∧ b1.nid = b.nid ∧ b1.blk b.n = {} ∧
      b1.cur ≠ b.n := by
  have hc := w.cur
  unfold lowerWhen at h
  split at h
  · obtain rfl := Option.some.inj h
    exact ⟨more_grow w, Nat.lt_succ_self _, rfl, rfl, w.fresh _ (Nat.le_refl _),
      Nat.ne_of_lt hc⟩
  · simp only [Option.bind_eq_bind, Option.bind_eq_some_iff] at h
    obtain ⟨b2, h2, b3, h3, h⟩ := h
    obtain rfl := Option.some.inj h
    have u0 : Up b b.more.more := (Up.refl w).more.more
    have u2 := u0.emitR h2
    have u3 := u2.close h3
    have g : Grow b.more.more b3 := ((Up.refl u0.1).emitR h2 |>.close h3).2
    obtain ⟨s2, _, _⟩ := emitR_small h2
    obtain ⟨s3, _, _⟩ := close_small h3
    have s := s2.trans s3
    refine ⟨u3.sel (Nat.le_succ _) u0 rfl g (Nat.lt_succ_self _), ?_, s.lz, s.nid, ?_, ?_⟩
    · show _ < b3.n
      rw [s.n]
      show b.n < b.n + 1 + 1
      omega
    · show b3.blk b.n = {}
      rw [s.blk _ (Nat.ne_of_gt hc)]
      exact w.fresh _ (Nat.le_refl _)
    · show b.n + 1 ≠ b.n
      omega

theorem nextTarget_up {L : Loop} {b : B S} (w : WF b) (hL : L.id < b.nid) :
    Up b (nextTarget L b).2 ∧ target L (nextTarget L b).2 = some (nextTarget L b).1 ∧
      (nextTarget L b).2.blk = b.blk ∧ (nextTarget L b).2.cur = b.cur ∧
      (nextTarget L b).2.nreg = b.nreg := by
  unfold nextTarget target
  cases ht : L.test with
  | some t => exact ⟨.refl w, rfl, rfl, rfl, rfl⟩
  | none =>
    dsimp only
    cases hz : b.lazyT L.id with
    | some t => exact ⟨.refl w, hz, rfl, rfl, rfl⟩
    | none =>
      dsimp only
      refine ⟨⟨⟨Nat.lt_succ_of_lt w.cur, fun i hi => w.fresh i (Nat.le_of_succ_le hi), ?_, ?_,
        w.nodup, w.fr⟩,
        { n := Nat.le_succ _, nreg := Nat.le_refl _, nvar := Nat.le_refl _,
          nid := Nat.le_refl _, frame := fun _ _ _ => rfl, ext := .refl _, cur := .inl rfl,
          free := fun _ _ h => h, lz := ?_, new := ?_ }⟩, by rw [if_pos rfl], rfl, rfl, rfl⟩
      · intro i t h
        have h : (if i = L.id then some b.n else b.lazyT i) = some t := h
        show t < b.n + 1 ∧ i < b.nid
        split at h
        · next e =>
          have := Option.some.inj h
          exact ⟨by omega, by omega⟩
        · obtain ⟨x, y⟩ := w.lz i t h
          exact ⟨Nat.lt_succ_of_lt x, y⟩
      · intro i j t h1 h2
        have h1 : (if i = L.id then some b.n else b.lazyT i) = some t := h1
        have h2 : (if j = L.id then some b.n else b.lazyT j) = some t := h2
        split at h1
        · next e1 =>
          split at h2
          · next e2 => rw [e1, e2]
          · have := (w.lz j t h2).1
            obtain rfl := Option.some.inj h1
            omega
        · split at h2
          · have := (w.lz i t h1).1
            obtain rfl := Option.some.inj h2
            omega
          · exact w.inj i j t h1 h2
      · intro i t h
        show (if i = L.id then some b.n else b.lazyT i) = some t
        split
        · next e => rw [e, hz] at h; cases h
        · exact h
      · intro i t _ h1 h2
        have h2 : (if i = L.id then some b.n else b.lazyT i) = some t := h2
        split at h2
        · obtain rfl := Option.some.inj h2
          exact ⟨Nat.le_refl _, w.fresh _ (Nat.le_refl _), Nat.ne_of_gt w.cur⟩
        · rw [h1] at h2; cases h2

theorem findLoop_mem {ls : List Loop} {l : Nat} {L : Loop} (h : findLoop ls l = some L) :
    L ∈ ls ∧ L.name = l := by
  unfold findLoop at h
  exact ⟨List.mem_of_find?_eq_some h, by simpa using List.find?_some h⟩

theorem lowerCtl_up {x : Bool} {l : Nat} {env : List Loc} {ls : List Loop}
    {c : Option (List Int → S → Bool)} {b b' : B S} (w : WF b) (hls : LsOk ls b)
    (h : lowerCtl x l env ls c b = some b') :
    Up b b' ∧ b'.cur = b.n ∧ b'.blk b.n = {} := by
  unfold lowerCtl at h
  simp only [Option.bind_eq_bind, Option.bind_eq_some_iff] at h
  obtain ⟨b1, h1, L, hL, b2, h2, h⟩ := h
  obtain rfl := Option.some.inj h
  obtain ⟨u1, hn, hlz, hid, he, hcur⟩ := lowerWhen_up w h1
  have hid' : L.id < b1.nid := by rw [hid]; exact hls L (findLoop_mem hL).1
  have key : ∀ (b3 : B S) t, Up b1 b3 → b3.blk = b1.blk → b3.cur = b1.cur →
      b3.close (.jump t) = some b2 →
      Up b (b2.sel b.n) ∧ (b2.sel b.n).cur = b.n ∧ (b2.sel b.n).blk b.n = {} := by
    intro b3 t u3 e1 e2 hc
    have u2 := u3.close hc
    obtain ⟨s, _, _⟩ := close_small hc
    refine ⟨(u1.trans u2).sel (Nat.le_refl _) u1 hlz u2.2 hn, rfl, ?_⟩
    show b2.blk b.n = {}
    rw [s.blk _ (by rw [e2]; exact hcur.symm), e1]
    exact he
  cases x with
  | true => exact key b1 _ (.refl u1.1) rfl rfl h2
  | false =>
    obtain ⟨u, _, e1, e2, _⟩ := nextTarget_up u1.1 hid'
    exact key _ _ u e1 e2 h2

/-! ## For loops -/

theorem forHead_up {env : List Loc} {lo hi : List Int → S → Int} {dn : List Int → S → Bool}
    {b b1 : B S} (w : WF b) (h : forHead env lo hi dn b = some b1) :
    Up b b1 ∧ b1.n = b.n + 2 ∧ b1.cur = b.n ∧ b1.blk (b.n + 1) = {} ∧ b1.lazyT = b.lazyT ∧
      b1.nid = b.nid ∧ b1.nreg = b.nreg + 5 ∧ b1.nvar = b.nvar ∧ b1.free = b.free ∧
      b1.fin = false := by
  have hc := w.cur
  unfold forHead at h
  simp only [Option.bind_eq_bind, Option.bind_eq_some_iff] at h
  obtain ⟨c1, h1, c2, h2, c3, h3, c4, h4, c5, h5, h6⟩ := h
  obtain ⟨s1, r1, _⟩ := emitR_small h1
  obtain ⟨s2, r2, _⟩ := emitR_small h2
  obtain ⟨s3, r3, _⟩ := emitR_small h3
  obtain ⟨s4, r4, _⟩ := emitR_small h4
  obtain ⟨s5, r5, _⟩ := close_small h5
  obtain ⟨s6, r6, f6⟩ := emitR_small h6
  have s := ((s1.trans s2).trans s3).trans s4
  have u4 : Up b c4 := ((((Up.refl w).emitR h1).emitR h2).emitR h3).emitR h4
  have um : Up b c4.more.more := u4.more.more
  have u5 : Up b c5 := um.close h5
  have hn4 : c4.n = b.n := s.n
  have us : Up b (c5.sel c4.n) := by
    refine u5.sel (by omega) um s.lz ((Up.refl um.1).close h5).2 ?_
    show c4.n < c4.n + 1 + 1
    omega
  have e5 : c5.n = b.n + 2 := by rw [s5.n]; show c4.n + 1 + 1 = _; omega
  refine ⟨us.emitR h6, by rw [s6.n]; exact e5, by rw [s6.cur]; exact hn4, ?_, ?_, ?_, ?_, ?_, ?_,
    f6⟩
  · rw [s6.blk _ (show b.n + 1 ≠ c4.n by omega)]
    show c5.blk (b.n + 1) = {}
    rw [s5.blk _ (show b.n + 1 ≠ c4.cur by rw [s.cur]; omega)]
    show c4.blk (b.n + 1) = {}
    rw [s.blk _ (by omega)]
    exact w.fresh _ (by omega)
  · rw [s6.lz]; show c5.lazyT = _; rw [s5.lz]; exact s.lz
  · rw [s6.nid]; show c5.nid = _; rw [s5.nid]; exact s.nid
  · rw [r6]
    show c5.nreg + 1 = _
    rw [r5]
    show c4.nreg + 1 = _
    omega
  · rw [s6.nvar]; show c5.nvar = _; rw [s5.nvar]; exact s.nvar
  · rw [s6.free]; show c5.free = _; rw [s5.free]; exact s.free

theorem temp_same {b : B S} : b.temp.2.n = b.n ∧ b.temp.2.cur = b.cur ∧ b.temp.2.blk = b.blk ∧
    b.temp.2.lazyT = b.lazyT ∧ b.temp.2.nid = b.nid ∧ b.temp.2.nreg = b.nreg := by
  unfold B.temp
  split <;> exact ⟨rfl, rfl, rfl, rfl, rfl, rfl⟩

/-- The variable is in use and was not before. -/
structure Mine (b b' : B S) (v : Nat) : Prop where
  lt : v < b'.nvar
  used : v ∉ b'.free
  was : v < b.nvar → v ∈ b.free

theorem Mine.grow {b b1 b2 : B S} {v : Nat} (h : Mine b b1 v) (g : Grow b1 b2) : Mine b b2 v :=
  ⟨Nat.lt_of_lt_of_le h.lt g.nvar, fun hm => h.used (g.free v h.lt hm), h.was⟩

theorem Mine.back {b0 b b1 : B S} {v : Nat} (h : Mine b b1 v) (g : Grow b0 b) : Mine b0 b1 v :=
  ⟨h.lt, h.used, fun hv => g.free v hv (h.was (Nat.lt_of_lt_of_le hv g.nvar))⟩

theorem forSave_up {sus : Bool} {right step : Nat} {b : B S} {p : Nat × Nat} {b1 : B S}
    (w : WF b) (h : forSave sus right step b = some (p, b1)) :
    Up b b1 ∧ b1.n = b.n ∧ b1.cur = b.cur ∧ (∀ i, i ≠ b.cur → b1.blk i = b.blk i) ∧
      b1.lazyT = b.lazyT ∧ b1.nid = b.nid ∧ b1.nreg = b.nreg ∧ b1.fin = b.fin ∧
      (sus = true → Mine b b1 p.1 ∧ Mine b b1 p.2 ∧ p.1 ≠ p.2) := by
  unfold forSave at h
  split at h
  · next hs =>
    simp only [Option.bind_eq_bind, Option.bind_eq_some_iff] at h
    obtain ⟨c1, h1, c2, h2, h⟩ := h
    obtain ⟨rfl, rfl⟩ := Prod.mk.inj (Option.some.inj h)
    obtain ⟨wt, gt, t1, t2, t3⟩ := temp_grow w
    obtain ⟨e1, e2, e3, e4, e5, e6⟩ := temp_same (b := b)
    obtain ⟨s1, r1, f1⟩ := emit_small h1
    have u1 : Up b.temp.2 c1 := (Up.refl wt).emit h1
    obtain ⟨wt', gt', t1', t2', t3'⟩ := temp_grow u1.1
    obtain ⟨e1', e2', e3', e4', e5', e6'⟩ := temp_same (b := c1)
    obtain ⟨s2, r2, f2⟩ := emit_small h2
    have u2 : Up c1.temp.2 c2 := (Up.refl wt').emit h2
    have g1 : Grow b c1 := (Up.trans ⟨wt, gt⟩ u1).2
    have m1 : Mine b c1 b.temp.1 := Mine.grow ⟨t1, t2, t3⟩ u1.2
    have m2 : Mine c1 c2 c1.temp.1 := Mine.grow ⟨t1', t2', t3'⟩ u2.2
    refine ⟨(Up.trans ⟨wt, gt⟩ u1).trans (Up.trans ⟨wt', gt'⟩ u2), by
      rw [s2.n, e1', s1.n, e1], by rw [s2.cur, e2', s1.cur, e2], fun i hi => ?_, by
      rw [s2.lz, e4', s1.lz, e4], by rw [s2.nid, e5', s1.nid, e5], by omega, ?_, fun _ => ?_⟩
    · rw [s2.blk _ (by rw [e2', s1.cur, e2]; exact hi), e3', s1.blk _ (by rw [e2]; exact hi), e3]
    · rw [f2]
      have := (emit_some h1).1
      unfold B.fin at *
      rw [e2, e3] at this
      exact this.symm
    · refine ⟨(m1.grow gt').grow u2.2, m2.back g1, ?_⟩
      intro e
      have e : b.temp.1 = c1.temp.1 := e
      exact m1.used (e ▸ t3' (e ▸ m1.lt))
  · next hs =>
    obtain ⟨rfl, rfl⟩ := Prod.mk.inj (Option.some.inj h)
    exact ⟨.refl w, rfl, rfl, fun _ _ => rfl, rfl, rfl, rfl, rfl, fun e => absurd e hs⟩

theorem forBody_up {sus : Bool} {left : Nat} {b : B S} {p : Nat × Nat × Loc} {b1 : B S}
    (w : WF b) (h : forBody sus left b = some (p, b1)) :
    Up b b1 ∧ p.1 = b.nvar ∧ p.2.1 = b.n ∧ b1.n = b.n + 1 ∧ b1.cur = b.n ∧
      (∀ i, i ≠ b.cur → i ≠ b.n → b1.blk i = b.blk i) ∧ b1.lazyT = b.lazyT ∧ b1.nid = b.nid ∧
      b1.nvar = b.nvar + 1 ∧ b1.free = b.free ∧ b1.fin = false ∧
      p.2.2 = (if sus then .var b.nvar else .reg b.nreg) ∧ EnvLt b1 [p.2.2] := by
  have hc := w.cur
  unfold forBody at h
  simp only [Option.bind_eq_bind, Option.bind_eq_some_iff] at h
  obtain ⟨c1, h1, c2, h2, h⟩ := h
  have uv : Up b { b with nvar := b.nvar + 1 } := nvar_grow w
  have u1 := uv.emit h1
  have um := u1.more
  have u2 := um.close h2
  obtain ⟨s1, r1, f1⟩ := emit_small h1
  obtain ⟨s2, r2, f2⟩ := close_small h2
  have hn1 : c1.n = b.n := s1.n
  have us : Up b (c2.sel c1.n) := by
    refine u2.sel (by omega) um s1.lz ((Up.refl um.1).close h2).2 ?_
    show c1.n < c1.n + 1
    omega
  have hblk : ∀ i, i ≠ b.cur → c2.blk i = b.blk i := by
    intro i hi
    rw [s2.blk _ (show i ≠ c1.cur by rw [s1.cur]; exact hi)]
    show c1.blk i = _
    rw [s1.blk _ hi]
  have hn2 : c2.n = b.n + 1 := by rw [s2.n]; show c1.n + 1 = _; omega
  have hlz : c2.lazyT = b.lazyT := by rw [s2.lz]; exact s1.lz
  have hid : c2.nid = b.nid := by rw [s2.nid]; exact s1.nid
  have hv : c2.nvar = b.nvar + 1 := by rw [s2.nvar]; exact s1.nvar
  have hfr : c2.free = b.free := by rw [s2.free]; exact s1.free
  have hr : c2.nreg = b.nreg := by rw [r2]; exact r1
  have he : c2.blk b.n = {} := by rw [hblk _ (by omega)]; exact w.fresh _ (Nat.le_refl _)
  split at h
  · next hs =>
    obtain ⟨rfl, rfl⟩ := Prod.mk.inj (Option.some.inj h)
    refine ⟨us, rfl, hn1, hn2, hn1, fun i hi _ => hblk i hi, hlz, hid, hv, hfr, ?_, ?_, ?_⟩
    · unfold B.fin
      show (c2.blk c1.n).term.isSome = false
      rw [hn1, he]
      rfl
    · rw [if_pos hs]
    · intro l hl
      simp at hl
      subst hl
      refine ⟨by show b.nvar < c2.nvar; omega, ?_⟩
      show b.nvar ∉ c2.free
      rw [hfr]
      intro hm
      exact Nat.lt_irrefl _ (w.fr _ hm)
  · next hs =>
    simp only [Option.bind_eq_some_iff] at h
    obtain ⟨c3, h3, h⟩ := h
    obtain ⟨rfl, rfl⟩ := Prod.mk.inj (Option.some.inj h)
    obtain ⟨s3, r3, f3⟩ := emitR_small h3
    refine ⟨us.emitR h3, rfl, hn1, by rw [s3.n]; exact hn2, by rw [s3.cur]; exact hn1,
      fun i hi hi2 => ?_, by rw [s3.lz]; exact hlz, by rw [s3.nid]; exact hid,
      by rw [s3.nvar]; exact hv, by rw [s3.free]; exact hfr, f3, ?_, ?_⟩
    · rw [s3.blk _ (show i ≠ c1.n by omega)]
      exact hblk i hi
    · rw [if_neg hs]
      show Loc.reg c2.nreg = _
      rw [hr]
    · intro l hl
      simp at hl
      subst hl
      show c2.nreg < c3.nreg
      rw [r3]
      exact Nat.lt_succ_self _

theorem loadIf_up {sus : Bool} {v : Nat} {b b1 : B S} (w : WF b) (h : loadIf sus v b = some b1) :
    Up b b1 ∧ Small b b1 := by
  unfold loadIf at h
  split at h
  · exact ⟨(Up.refl w).emitR h, (emitR_small h).1⟩
  · obtain rfl := Option.some.inj h
    exact ⟨.refl w, .refl _⟩

theorem jumpIf_up {t : Nat} {b b1 : B S} (w : WF b) (h : jumpIf t b = some b1) :
    Up b b1 ∧ Small b b1 := by
  unfold jumpIf at h
  split at h
  · obtain rfl := Option.some.inj h
    exact ⟨.refl w, .refl _⟩
  · exact ⟨(Up.refl w).close h, (close_small h).1⟩

theorem forStep_up {ivar i right step exit body : Nat} {b b1 : B S} (w : WF b)
    (h : forStep ivar i right step exit body b = some b1) : Up b b1 ∧ Small b b1 := by
  unfold forStep at h
  split at h
  · obtain rfl := Option.some.inj h
    exact ⟨.refl w, .refl _⟩
  · simp only [Option.bind_eq_bind, Option.bind_eq_some_iff] at h
    obtain ⟨c4, h4, c5, h5, c6, h6, h7⟩ := h
    exact ⟨((((Up.refl w).emitR h4).emit h5).emitR h6).close h7,
      (((emitR_small h4).1.trans (emit_small h5).1).trans (emitR_small h6).1).trans
        (close_small h7).1⟩

theorem forTail_up {sus : Bool} {rvar svar ivar right step : Nat} {ip : Loc}
    {exit body : Nat} {b b1 : B S} (w : WF b)
    (h : forTail sus rvar svar ivar right step ip exit body b = some b1) :
    Up b b1 ∧ Small b b1 := by
  unfold forTail at h
  simp only [Option.bind_eq_bind, Option.bind_eq_some_iff] at h
  obtain ⟨c1, h1, c2, h2, c3, h3, h⟩ := h
  obtain ⟨u1, s1⟩ := loadIf_up w h1
  obtain ⟨u2, s2⟩ := loadIf_up u1.1 h2
  obtain ⟨u3, s3⟩ := loadIf_up u2.1 h3
  obtain ⟨u4, s4⟩ := forStep_up u3.1 h
  exact ⟨((u1.trans u2).trans u3).trans u4, ((s1.trans s2).trans s3).trans s4⟩

/-- Behind the body of a for loop. -/
theorem forNext_up {b3 b4 b5 : B S} (w3 : WF b3) {id : Nat} (hid : id = b3.nid)
    (u : Up { b3 with nid := b3.nid + 1 } b4)
    (h : forNext (b4.lazyT id) b4 = some b5) :
    Up b3 b5 ∧ b5.lazyT = b4.lazyT ∧ b5.free = b4.free ∧ b5.nvar = b4.nvar ∧
      b5.nreg = b4.nreg ∧ (∀ t, b4.lazyT id = some t → b5.cur = t ∧ b3.n ≤ t ∧ b5.blk t = {}) ∧
      (b4.lazyT id = none → b5 = b4) ∧
      (∀ i, i < b3.n → i ≠ b3.cur → b5.blk i = b3.blk i) := by
  have g34 : Grow b3 b4 := (Up.trans (nid_grow w3) u).2
  have base : Up b3 b4 := ⟨u.1, g34⟩
  unfold forNext at h
  split at h
  · next hz =>
    obtain rfl := Option.some.inj h
    exact ⟨base, rfl, rfl, rfl, rfl, (fun t ht => by rw [hz] at ht; cases ht),
      fun _ => rfl,
      g34.frame⟩
  · next t hz =>
    have hnone : b3.lazyT id = none := by
      cases hb : b3.lazyT id with
      | none => rfl
      | some t' => have := (w3.lz id t' hb).2; omega
    obtain ⟨x, y, z⟩ := u.2.new id t (show id < b3.nid + 1 by omega) hnone hz
    have hinj : ∀ i t', i < b3.nid → b3.lazyT i = none → b4.lazyT i = some t' → t' ≠ t := by
      intro i t' h1 _ h3 e
      subst e
      have := u.1.inj _ _ _ h3 hz
      omega
    have htn : t < b4.n := (u.1.lz id t hz).1
    have hx : b3.n ≤ t := x
    have fin : ∀ b4' : B S, Up b4 b4' → Small b4 b4' → b4'.nreg = b4.nreg →
        b5 = b4'.sel t → Up b3 b5 ∧ b5.lazyT = b4.lazyT ∧ b5.free = b4.free ∧
      b5.nvar = b4.nvar ∧ b5.nreg = b4.nreg ∧
      (∀ t', some t = some t' → b5.cur = t' ∧ b3.n ≤ t' ∧ b5.blk t' = {}) ∧
      (some t = none → b5 = b4) ∧
      (∀ i, i < b3.n → i ≠ b3.cur → b5.blk i = b3.blk i) := by
      rintro b4' u4 s4 r4 rfl
      have u34 := base.trans u4
      refine ⟨⟨sel_wf u4.1 (by rw [s4.n]; exact htn), sel_grow u34.2 hx (by rw [s4.lz]; exact hinj)⟩,
        s4.lz, s4.free, s4.nvar, r4, ?_, (fun e => nomatch e), u34.2.frame⟩
      intro t' e
      obtain rfl := Option.some.inj e
      exact ⟨rfl, hx, by show b4'.blk t = {}; rw [s4.blk t z]; exact y⟩
    rw [hz]
    split at h
    · exact fin b4 (.refl u.1) (.refl _) rfl (Option.some.inj h).symm
    · simp only [Option.bind_eq_bind, Option.bind_eq_some_iff] at h
      obtain ⟨c, hc, h⟩ := h
      exact fin c ((Up.refl u.1).close hc) (close_small hc).1 (close_small hc).2.1
        (Option.some.inj h).symm

/-! ## If statements -/

/-- The exit block of an if statement. -/
structure ExOk (b b' : B S) (ex ex' : Option Nat) : Prop where
  old : ∀ e, ex = some e → ex' = some e
  new : ex = none → ∀ e, ex' = some e → b.n ≤ e ∧ e < b'.n ∧ b'.blk e = {} ∧ e ≠ b'.cur ∧
    ∀ id t, id < b.nid → b.lazyT id = none → b'.lazyT id = some t → t ≠ e

def ExIn (b : B S) (ex : Option Nat) : Prop := ∀ e, ex = some e → e < b.n ∧ e ≠ b.cur

theorem joinExit_up {ex ex' : Option Nat} {b b' : B S} (w : WF b)
    (h : joinExit ex b = some (b', ex')) :
    Up b b' ∧ ExOk b b' ex ex' ∧ b'.lazyT = b.lazyT ∧ b'.cur = b.cur := by
  have hc := w.cur
  unfold joinExit at h
  split at h
  · obtain ⟨rfl, rfl⟩ := Prod.mk.inj (Option.some.inj h)
    exact ⟨.refl w, ⟨fun _ h => h, fun h e h' => by rw [h] at h'; cases h'⟩, rfl, rfl⟩
  · simp only [Option.bind_eq_bind, Option.bind_eq_some_iff] at h
    obtain ⟨c, hcl, h⟩ := h
    obtain ⟨rfl, rfl⟩ := Prod.mk.inj (Option.some.inj h)
    cases ex with
    | some e =>
      have hcl : b.close (.jump e) = some c := hcl
      obtain ⟨s, _, _⟩ := close_small hcl
      exact ⟨(Up.refl w).close hcl, ⟨fun _ h => h, fun h => nomatch h⟩, s.lz, s.cur⟩
    | none =>
      have hcl : b.more.close (.jump b.n) = some c := hcl
      obtain ⟨s, _, _⟩ := close_small hcl
      refine ⟨(Up.refl w).more.close hcl, ⟨fun _ h => (nomatch h), ?_⟩, s.lz, s.cur⟩
      intro _ e he
      obtain rfl := Option.some.inj he
      have e1 : c.n = b.n + 1 := s.n
      have e2 : c.cur = b.cur := s.cur
      refine ⟨Nat.le_refl _, ?_, ?_, ?_, ?_⟩
      · show b.n < c.n
        omega
      · show c.blk b.n = {}
        rw [s.blk _ (show b.n ≠ b.cur by omega)]
        exact w.fresh _ (Nat.le_refl _)
      · show b.n ≠ c.cur
        omega
      · intro id t _ h1 h2
        rw [s.lz] at h2
        have h2 : b.lazyT id = some t := h2
        rw [h1] at h2
        cases h2

theorem ExOk.trans {a b c : B S} {x y z : Option Nat} (u : Up a b) (g : Grow b c)
    (h : ExOk a b x y) (k : ExOk b c y z) : ExOk a c x z := by
  refine ⟨fun e he => k.old e (h.old e he), fun hx e he => ?_⟩
  have hn := u.2.n
  have hid := u.2.nid
  cases y with
  | some e' =>
    have e1 := k.old e' rfl
    rw [he] at e1
    obtain rfl := Option.some.inj e1
    obtain ⟨p1, p2, p3, p4, p5⟩ := h.new hx e rfl
    refine ⟨p1, Nat.lt_of_lt_of_le p2 g.n, by rw [g.frame e p2 p4]; exact p3, ?_, ?_⟩
    · rcases g.cur with q | q
      · rw [q]; exact p4
      · omega
    · intro id t h1 h2 h3
      cases hb : b.lazyT id with
      | some t' =>
        have := g.lz id t' hb
        rw [h3] at this
        obtain rfl := Option.some.inj this
        exact p5 id t h1 h2 hb
      | none =>
        have := (g.new id t (by omega) hb h3).1
        omega
  | none =>
    obtain ⟨p1, p2, p3, p4, p5⟩ := k.new rfl e he
    refine ⟨by omega, p2, p3, p4, ?_⟩
    intro id t h1 h2 h3
    cases hb : b.lazyT id with
    | some t' =>
      have := g.lz id t' hb
      rw [h3] at this
      obtain rfl := Option.some.inj this
      have := (u.1.lz id t hb).1
      omega
    | none => exact p5 id t (by omega) hb h3

theorem needExit_up {ex : Option Nat} {b : B S} (w : WF b) :
    Up b (needExit ex b).2 ∧ ExOk b (needExit ex b).2 ex (some (needExit ex b).1) ∧
      (needExit ex b).2.lazyT = b.lazyT ∧ (needExit ex b).2.cur = b.cur ∧
      (needExit ex b).2.nreg = b.nreg ∧ (needExit ex b).2.blk = b.blk := by
  have hc := w.cur
  unfold needExit
  cases ex with
  | some e => exact ⟨.refl w, ⟨fun _ h => h, fun h => nomatch h⟩, rfl, rfl, rfl, rfl⟩
  | none =>
    refine ⟨more_grow w, ⟨fun _ h => (nomatch h), ?_⟩, rfl, rfl, rfl, rfl⟩
    intro _ e he
    obtain rfl := Option.some.inj he
    refine ⟨Nat.le_refl _, Nat.lt_succ_self _, w.fresh _ (Nat.le_refl _),
      Nat.ne_of_gt hc, ?_⟩
    intro id t _ h1 h2
    have h2 : b.lazyT id = some t := h2
    rw [h1] at h2
    cases h2

theorem ExOk.more {a b : B S} {ex ex' : Option Nat} (w : WF a) (u : Up a.more b)
    (h : ExOk a.more b ex ex') : ExOk a b ex ex' :=
  ⟨h.old, fun hx e he => by
    obtain ⟨p1, p2, p3, p4, p5⟩ := h.new hx e he
    exact ⟨Nat.le_of_succ_le p1, p2, p3, p4, p5⟩⟩

/-- Growth before does not matter to the exit block. -/
theorem ExOk.before {a b c : B S} {ex ex' : Option Nat} (u : Up a b) (g : Grow b c)
    (h : ExOk b c ex ex') : ExOk a c ex ex' :=
  ⟨h.old, fun hx e he => by
    obtain ⟨p1, p2, p3, p4, p5⟩ := h.new hx e he
    have hn := u.2.n
    have hid := u.2.nid
    refine ⟨by omega, p2, p3, p4, ?_⟩
    intro id t h1 h2 h3
    cases hb : b.lazyT id with
    | some t' =>
      have := g.lz id t' hb
      rw [h3] at this
      obtain rfl := Option.some.inj this
      have := (u.1.lz id t hb).1
      omega
    | none => exact p5 id t (by omega) hb h3⟩

/-- Nor does growth after. -/
theorem ExOk.after {a b c : B S} {ex ex' : Option Nat} (u : Up a b) (g : Grow b c)
    (h : ExOk a b ex ex') : ExOk a c ex ex' :=
  ExOk.trans u g h ⟨fun _ h => h, fun h e he => by rw [h] at he; cases he⟩

theorem ExIn.next {a b c : B S} {ex ex' : Option Nat} (h : ExIn a ex) (u : Up a b)
    (g : ExOk a b ex ex') : ExIn b ex' := by
  intro e he
  have := u.2.n
  cases ex with
  | some e' =>
    have := g.old e' rfl
    rw [he] at this
    obtain rfl := Option.some.inj this
    obtain ⟨p, q⟩ := h e rfl
    refine ⟨by omega, ?_⟩
    rcases u.2.cur with r | r
    · rw [r]; exact q
    · omega
  | none =>
    obtain ⟨_, p2, _, p4, _⟩ := g.new rfl e he
    exact ⟨p2, p4⟩

end Verif.Seq
