import Verif.Seq.Growth

/-
Growth of the state of the compiler by the lowering functions.
-/

namespace Verif.Seq

open Spec

variable {S : Type}

theorem LsOk.push {ls : List Loop} {b : B S} {L : Loop} (h : LsOk ls b) (e : L.id = b.nid) :
    LsOk (L :: ls) { b with nid := b.nid + 1 } := by
  intro M hM
  rcases List.mem_cons.mp hM with rfl | hM
  · exact e ▸ Nat.lt_succ_self _
  · exact Nat.lt_succ_of_lt (h M hM)

/-- What is shared by the lowering of a body in a new block. -/
theorem up_blk {b0 b1 b2 : B S} {i : Nat} (u : Up b0 b1) (hl : b1.lazyT = b0.lazyT)
    (hi : b0.n ≤ i) (hn : i < b1.n) (h : Up b1 b2) : Up b0 (b2.sel i) :=
  (u.trans h).sel hi u hl h.2 hn

mutual
theorem lowerS_up : ∀ (st : Stmt S) (env : List Loc) (ls : List Loop) (b b' : B S),
    WF b → LsOk ls b → lowerS env ls st b = some b' → Up b b' := by
  intro st env ls b b' w hls h
  have hc := w.cur
  unfold lowerS at h
  split at h
  · obtain rfl := Option.some.inj h
    exact .refl w
  · cases st with
    | op f => exact (Up.refl w).emit h
    | susp f =>
      simp only [Option.bind_eq_bind, Option.bind_eq_some_iff] at h
      obtain ⟨c, h1, h⟩ := h
      obtain rfl := Option.some.inj h
      exact up_blk (Up.refl w).more rfl (Nat.le_refl _) (Nat.lt_succ_self _)
        ((Up.refl (more_grow w).1).close h1)
    | ret f =>
      simp only [Option.bind_eq_bind, Option.bind_eq_some_iff] at h
      obtain ⟨c, h1, h2⟩ := h
      exact ((Up.refl w).emit h1).close h2
    | exit l c => exact (lowerCtl_up w hls h).1
    | next l c => exact (lowerCtl_up w hls h).1
    | whil l c bd =>
      simp only [Option.bind_eq_bind, Option.bind_eq_some_iff] at h
      obtain ⟨c1, h1, c2, h2, c3, h3, c4, h4, c5, h5, h⟩ := h
      obtain rfl := Option.some.inj h
      have um : Up b b.more.more.more := (Up.refl w).more.more.more
      have u1 := um.close h1
      have s1 := (close_small h1).1
      have n1 : c1.n = b.n + 3 := s1.n
      have a1 : Up b (c1.sel b.n) := up_blk um rfl (Nat.le_refl _) (by show _ < b.n + 3; omega)
        ((Up.refl um.1).close h1)
      have u2 := a1.emitR h2
      have s2 := (emitR_small h2).1
      have u3 := u2.close h3
      have s3 := (close_small h3).1
      have l3 : c3.lazyT = b.lazyT := by rw [s3.lz, s2.lz]; exact s1.lz
      have n3 : c3.n = b.n + 3 := by rw [s3.n, s2.n]; exact n1
      have a3 : Up b (c3.sel (b.n + 1)) := u3.sel (by omega) u3 l3 .refl (by omega)
      have a4 := a3.trans (nid_grow a3.1)
      have u4 := lowerQ_up bd env _ _ _ a4.1 ((hls.grow a3.2).push rfl) h4
      obtain ⟨u5, s5⟩ := jumpIf_up u4.1 h5
      exact up_blk a4 l3 (by omega) (show b.n + 2 < c3.n by omega) (u4.trans u5)
    | loop l bd =>
      simp only [Option.bind_eq_bind, Option.bind_eq_some_iff] at h
      obtain ⟨c1, h1, c4, h4, c5, h5, h⟩ := h
      obtain rfl := Option.some.inj h
      have um : Up b b.more.more := (Up.refl w).more.more
      have s1 := (close_small h1).1
      have n1 : c1.n = b.n + 2 := s1.n
      have a1 : Up b (c1.sel b.n) := up_blk um rfl (Nat.le_refl _) (by show _ < b.n + 2; omega)
        ((Up.refl um.1).close h1)
      have l3 : c1.lazyT = b.lazyT := s1.lz
      have a4 := a1.trans (nid_grow a1.1)
      have u4 := lowerQ_up bd env _ _ _ a4.1 ((hls.grow a1.2).push rfl) h4
      obtain ⟨u5, s5⟩ := jumpIf_up u4.1 h5
      exact up_blk a4 l3 (by omega) (show b.n + 1 < c1.n by omega) (u4.trans u5)
    | forL l lo hi dn bd =>
      simp only [Option.bind_eq_bind, Option.bind_eq_some_iff] at h
      obtain ⟨c1, h1, ⟨p, c2⟩, h2, ⟨q, c3⟩, h3, c4, h4, c5, h5, c6, h6, h⟩ := h
      obtain rfl := Option.some.inj h
      obtain ⟨u1, n1, k1, e1, l1, i1, r1, v1, f1, _⟩ := forHead_up w h1
      obtain ⟨u2, n2, k2, e2, l2, i2, r2, _, mine⟩ := forSave_up u1.1 h2
      obtain ⟨u3, p1, p2, n3, k3, e3, l3, i3, v3, f3, _, ip, _⟩ := forBody_up u2.1 h3
      have a3 := (u1.trans u2).trans u3
      have a4 := a3.trans (nid_grow a3.1)
      have u4 := lowerQ_up bd _ _ _ _ a4.1 ((hls.grow a3.2).push rfl) h4
      obtain ⟨u5, _⟩ := forNext_up u3.1 rfl u4 h5
      obtain ⟨u6, s6⟩ := forTail_up u5.1 h6
      have u13 : Up c1 c3 := u2.trans u3
      have a6 : Up b (c6.sel (b.n + 1)) :=
        up_blk u1 l1 (by omega) (by omega) (u13.trans (u5.trans u6))
      split
      · next hs =>
        obtain ⟨m1, m2, hne⟩ := mine hs
        have g : Grow c2 c6 := (u3.trans (u5.trans u6)).2
        have m1' : Mine b c6 p.1 := (m1.grow g).back u1.2
        have m2' : Mine b c6 p.2 := (m2.grow g).back u1.2
        refine ⟨release_wf (release_wf a6.1 m1'.lt m1'.used) m2'.lt ?_,
          release_grow (release_grow a6.2 m1'.was) m2'.was⟩
        show p.2 ∉ c6.free ++ [p.1]
        rw [List.mem_append]
        rintro (hm | hm)
        · exact m2'.used hm
        · simp at hm; exact hne hm.symm
      · exact a6
    | ite cs =>
      simp only [Option.bind_eq_bind, Option.bind_eq_some_iff] at h
      obtain ⟨⟨c1, ex⟩, h1, h⟩ := h
      obtain ⟨u, ok⟩ := lowerC_up cs env ls none b c1 ex w hls (fun _ h => nomatch h) h1
      cases ex with
      | none => obtain rfl := Option.some.inj h; exact u
      | some e =>
        obtain rfl := Option.some.inj h
        obtain ⟨p1, p2, _, _, p5⟩ := ok.new rfl e rfl
        exact ⟨sel_wf u.1 p2, sel_grow u.2 p1 p5⟩
theorem lowerQ_up : ∀ (q : Sq S) (env : List Loc) (ls : List Loop) (b b' : B S),
    WF b → LsOk ls b → lowerQ env ls q b = some b' → Up b b' := by
  intro q env ls b b' w hls h
  cases q with
  | nil =>
    unfold lowerQ at h
    obtain rfl := Option.some.inj h
    exact .refl w
  | cons s t =>
    unfold lowerQ at h
    simp only [Option.bind_eq_bind, Option.bind_eq_some_iff] at h
    obtain ⟨c, h1, h2⟩ := h
    have u1 := lowerS_up s env ls b c w hls h1
    exact u1.trans (lowerQ_up t env ls c b' u1.1 (hls.grow u1.2) h2)
theorem lowerC_up : ∀ (cs : Conds S) (env : List Loc) (ls : List Loop) (ex : Option Nat)
    (b b' : B S) (ex' : Option Nat),
    WF b → LsOk ls b → ExIn b ex → lowerC env ls cs ex b = some (b', ex') →
    Up b b' ∧ ExOk b b' ex ex' := by
  intro cs env ls ex b b' ex' w hls hex h
  have hc := w.cur
  cases cs with
  | els bd =>
    unfold lowerC at h
    simp only [Option.bind_eq_bind, Option.bind_eq_some_iff] at h
    obtain ⟨c, h1, h2⟩ := h
    have u1 := lowerQ_up bd env ls b c w hls h1
    obtain ⟨u2, ok, _, _⟩ := joinExit_up u1.1 h2
    exact ⟨u1.trans u2, ok.before u1 u2.2⟩
  | last c bd =>
    unfold lowerC at h
    simp only [Option.bind_eq_bind, Option.bind_eq_some_iff] at h
    obtain ⟨c1, h1, c2, h2, c3, h3, h4⟩ := h
    have u1 := (Up.refl w).emitR h1
    have s1 := (emitR_small h1).1
    have um := u1.more
    obtain ⟨u2, ok2, l2, k2, _⟩ := needExit_up (ex := ex) um.1
    have a2 := (um.trans u2).close h2
    have s2 := (close_small h2).1
    have uc : Up (needExit ex c1.more).2 c2 := (Up.refl u2.1).close h2
    have hn1 : c1.n = b.n := s1.n
    have l : c2.lazyT = b.lazyT := by rw [s2.lz, l2]; exact s1.lz
    have hlt : c1.n < c2.n := Nat.lt_of_lt_of_le (Nat.lt_succ_self c1.n)
      (Nat.le_trans u2.2.n uc.2.n)
    have a3 : Up b (c2.sel c1.n) := a2.sel (by omega) a2 l .refl hlt
    have u3 := lowerQ_up bd env ls _ _ a3.1 (hls.grow a3.2) h3
    obtain ⟨u4, ok4, _, _⟩ := joinExit_up u3.1 h4
    refine ⟨(a3.trans u3).trans u4, ?_⟩
    have ok2' : ExOk b c2 ex (some (needExit ex c1.more).1) :=
      (ok2.before um u2.2).after (um.trans u2) uc.2
    have ok3 : ExOk b (c2.sel c1.n) ex (some (needExit ex c1.more).1) :=
      ⟨ok2'.old, fun hx e he => by
        obtain ⟨p1, p2, p3, _, p5⟩ := ok2'.new hx e he
        obtain ⟨q1, _⟩ := ok2.new hx e he
        refine ⟨p1, p2, p3, ?_, p5⟩
        show e ≠ c1.n
        have q1 : c1.n + 1 ≤ e := q1
        omega⟩
    exact (ok3.after a3 u3.2).trans (a3.trans u3) u4.2 ok4
  | cons c bd t =>
    unfold lowerC at h
    simp only [Option.bind_eq_bind, Option.bind_eq_some_iff] at h
    obtain ⟨c1, h1, c2, h2, c3, h3, ⟨c4, ex4⟩, h4, h5⟩ := h
    have u1 := (Up.refl w).emitR h1
    have s1 := (emitR_small h1).1
    have um := u1.more.more
    have a2 := um.close h2
    have s2 := (close_small h2).1
    have hn1 : c1.n = b.n := s1.n
    have n2 : c2.n = b.n + 2 := by rw [s2.n]; show c1.n + 2 = _; omega
    have l : c2.lazyT = b.lazyT := by rw [s2.lz]; exact s1.lz
    have a3 : Up b (c2.sel c1.n) := a2.sel (by omega) a2 l .refl (by omega)
    have u3 := lowerQ_up bd env ls _ _ a3.1 (hls.grow a3.2) h3
    obtain ⟨u4, ok4, l4, k4⟩ := joinExit_up u3.1 h4
    have u34 := u3.trans u4
    have a5 : Up b (c4.sel (c1.n + 1)) := up_blk a3 l (by omega)
      (show c1.n + 1 < c2.n by omega) u34
    have hok : ExOk b c4 ex ex4 := ok4.before (a3.trans u3) u4.2
    have ok5 : ExOk b (c4.sel (c1.n + 1)) ex ex4 := ⟨hok.old, fun hx e he => by
      obtain ⟨p1, p2, p3, _, p5⟩ := hok.new hx e he
      obtain ⟨q1, _⟩ := ok4.new hx e he
      have := u3.2.n
      have : c2.n ≤ c3.n := this
      refine ⟨p1, p2, p3, ?_, p5⟩
      show e ≠ c1.n + 1
      omega⟩
    obtain ⟨u6, ok6⟩ := lowerC_up t env ls ex4 _ b' ex' a5.1 (hls.grow a5.2)
      (hex.next (c := b) a5 ok5) h5
    exact ⟨a5.trans u6, ok5.trans a5 u6.2 ok6⟩
end

end Verif.Seq
