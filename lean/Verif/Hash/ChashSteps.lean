import Verif.Hash.ChashInv

/-!
# The concurrent hash table: every step keeps the invariant
-/

namespace Verif.Hash.Chash

open Verif.Thread

variable {c : Cfg} {s : St}

theorem Inv.init : Inv c {} where
  res := Or.inl rfl
  old := by intro t p h; exact absurd h (Nat.not_lt_zero _)
  new := fun _ _ _ => rfl
  cop := fun _ h => absurd rfl h
  wff := fun _ _ _ => rfl
  wfu := by intro t p h; simp at h
  path := by intro t p k h; simp at h
  nomv := by intro _ p h; simp at h
  mvd := by intro p k h; simp at h
  src := by intro q k h; simp at h
  pcs := fun _ => trivial
  own1 := by intro x y a h; simp [owner] at h
  cop1 := by intro x y h; simp [isCop] at h

/-- States that differ in nothing that matters. -/
theorem Inv.congr {s' : St} (h : Inv c s) (h1 : s'.tab = s.tab) (h2 : s'.resizing = s.resizing)
    (h3 : s'.mem = s.mem) (h4 : s'.pc = s.pc) : Inv c s' := by
  cases s; cases s'
  simp only at h1 h2 h3 h4
  subst h1 h2 h3 h4
  exact ⟨h.res, h.old, h.new, h.cop, h.wff, h.wfu, h.path, h.nomv, h.mvd, h.src,
    fun x => (h.pcs x).other (fun _ _ _ h => h) rfl (fun _ _ _ => rfl)
      (fun _ => ⟨rfl, rfl, fun _ => Iff.rfl⟩), h.own1, h.cop1⟩

theorem PcS.upto {q : Pc} (h : PcS c s q) (hq : isCop q = true) : ∃ t i, Upto c s t i := by
  cases q <;> simp [isCop] at hq
  case scan => exact ⟨_, _, h⟩
  case find => exact ⟨_, _, h.1⟩
  case copy => exact ⟨_, _, h.1⟩
  case move => exact ⟨_, _, h.1⟩
  case swap => exact ⟨_, _, h⟩

/-- The slot of a thread is busy. -/
theorem PcS.busy {q : Pc} {t p} (h : PcS c s q) (hq : owner c q = some (t, p)) :
    t = s.tab ∧ (s.mem t p).tag = .busy := by
  cases q <;> simp [owner] at hq
  case write => obtain ⟨rfl, rfl⟩ := hq; exact ⟨h.1, h.2.2.1⟩
  case publish => obtain ⟨rfl, rfl⟩ := hq; exact ⟨h.1, h.2.2.1⟩

/-- A slot that is not moved is in the current table. -/
theorem Inv.current (h : Inv c s) {t p} (hp : p < c.size t) (ht : t ≤ s.tab)
    (hm : (s.mem t p).tag ≠ .moved) : t = s.tab := by
  rcases Nat.lt_or_ge t s.tab with h' | h'
  · exact absurd (h.old t p h' hp) hm
  · omega

theorem Inv.probe (h : Inv c s) {x o t d} (hx : s.pc x = .probe o t d) :
    PcS c s (probeStep c s o t d) := by
  have hp := h.pcs x
  rw [hx] at hp
  obtain ⟨ht, hp⟩ := hp
  unfold probeStep
  dsimp only
  generalize hg : (s.mem t (c.pos t o.key d)).tag = g
  cases g with
  | busy => cases o <;> trivial
  | moved => cases o <;> trivial
  | free =>
    cases o with
    | put k v => exact ⟨ht, hp⟩
    | get k => trivial
  | inuse =>
    have hu := h.wfu _ _ hg
    obtain ⟨k', hk'⟩ := Option.ne_none_iff_exists'.1 hu
    cases o with
    | put k v =>
      by_cases hne : (s.mem t (c.pos t (Op.put k v).key d)).key = some k
      · simp only [if_pos hne]; exact ⟨ht, hp⟩
      · simp only [if_neg hne]
        exact ⟨ht, hp.succ hk' (by rintro rfl; exact hne hk')⟩
    | get k =>
      by_cases hne : (s.mem t (c.pos t (Op.get k).key d)).key = some k
      · simp only [if_pos hne]; exact ⟨ht, hne⟩
      · simp only [if_neg hne]
        exact ⟨ht, hp.succ hk' (by rintro rfl; exact hne hk')⟩

theorem probe_plain (o t d) : owner c (probeStep c s o t d) = none ∧
    isCop (probeStep c s o t d) = false := by
  unfold probeStep
  dsimp only
  generalize (s.mem t (c.pos t o.key d)).tag = g
  cases g <;> cases o <;> try exact ⟨rfl, rfl⟩
  case inuse.put k v =>
    by_cases hne : (s.mem t (c.pos t (Op.put k v).key d)).key = some k
    · simp only [if_pos hne]; exact ⟨rfl, rfl⟩
    · simp only [if_neg hne]; exact ⟨rfl, rfl⟩
  case inuse.get k =>
    by_cases hne : (s.mem t (c.pos t (Op.get k).key d)).key = some k
    · simp only [if_pos hne]; exact ⟨rfl, rfl⟩
    · simp only [if_neg hne]; exact ⟨rfl, rfl⟩

theorem expects_none {sl : Slot} (h : sl.expects none = true) : sl.tag = .free ∧ sl.key = none := by
  simpa [Slot.expects] using h

theorem expects_some {sl : Slot} {k} (h : sl.expects (some k) = true) :
    sl.tag = .inuse ∧ sl.key = some k := by
  simpa [Slot.expects] using h

theorem Inv.claim (h : Inv c s) (h0 : 0 < c.size0) {x k v t d} (hx : s.pc x = .claim k v t d)
    (he : (s.mem t (c.pos t k d)).expects none = true) :
    Inv c ((s.set t (c.pos t k d) { s.mem t (c.pos t k d) with tag := .busy }).goto x
      (.write k v t d true)) := by
  have hp := h.pcs x
  rw [hx] at hp
  obtain ⟨ht, hp⟩ := hp
  obtain ⟨e1, e2⟩ := expects_none he
  have := h.current (pos_lt h0 t k d) ht (by rw [e1]; simp)
  subst this
  refine h.setOwn x _ _ _ ?_ (Or.inl rfl) (Or.inl rfl) ?_ ?_ ?_ ?_ ?_ ?_
  · rw [e1]; simp
  · simp
  · intro y _ hy
    have := ((h.pcs y).busy hy).2
    rw [e1] at this; simp at this
  · refine ⟨rfl, hp.mono ?_, ?_, ?_⟩
    · intro t' p' k' hk'
      simp only [goto_mem]
      rw [set_mem]
      split
      · rename_i e; obtain ⟨rfl, rfl⟩ := e; exact hk'
      · exact hk'
    · simp [set_mem]
    · simp [set_mem, e2]
  · right; rfl
  · rfl
  · rw [hx]; rfl

theorem Inv.own (h : Inv c s) (h0 : 0 < c.size0) {x k v t d} (hx : s.pc x = .own k v t d)
    (he : (s.mem t (c.pos t k d)).expects (some k) = true) :
    Inv c ((s.set t (c.pos t k d) { s.mem t (c.pos t k d) with tag := .busy }).goto x
      (.write k v t d false)) := by
  have hp := h.pcs x
  rw [hx] at hp
  obtain ⟨ht, hp⟩ := hp
  obtain ⟨e1, e2⟩ := expects_some he
  have := h.current (pos_lt h0 t k d) ht (by rw [e1]; simp)
  subst this
  refine h.setOwn x _ _ _ ?_ (Or.inl rfl) (Or.inl rfl) ?_ ?_ ?_ ?_ ?_ ?_
  · rw [e1]; simp
  · simp
  · intro y _ hy
    have := ((h.pcs y).busy hy).2
    rw [e1] at this; simp at this
  · refine ⟨rfl, hp.mono ?_, ?_, ?_⟩
    · intro t' p' k' hk'
      simp only [goto_mem]
      rw [set_mem]
      split
      · rename_i e; obtain ⟨rfl, rfl⟩ := e; exact hk'
      · exact hk'
    · simp [set_mem]
    · simp [set_mem, e2]
  · right; rfl
  · rfl
  · rw [hx]; rfl

theorem Inv.write (h : Inv c s) {x k v t d f} (hx : s.pc x = .write k v t d f) :
    Inv c ((s.set t (c.pos t k d) { s.mem t (c.pos t k d) with val := v }).goto x
      (.publish k v t d f)) := by
  have hp := h.pcs x
  rw [hx] at hp
  obtain ⟨ht, hp, e1, e2⟩ := hp
  subst ht
  refine h.setOwn x _ _ _ ?_ (Or.inl e1) (Or.inl rfl) ?_ ?_ ?_ ?_ ?_ ?_
  · rw [e1]; simp
  · simp [e1]
  · intro y hyx hy
    exact hyx (h.own1 y x _ hy (by rw [hx]; rfl))
  · refine ⟨rfl, hp.mono ?_, ?_, ?_⟩
    · intro t' p' k' hk'
      simp only [goto_mem]
      rw [set_mem]
      split
      · rename_i e; obtain ⟨rfl, rfl⟩ := e; exact hk'
      · exact hk'
    · simp [set_mem, e1]
    · simp [set_mem, e2]
  · right; rfl
  · rfl
  · rw [hx]; rfl

theorem Inv.publish (h : Inv c s) {x k v t d f} (hx : s.pc x = .publish k v t d f) :
    Inv c ((s.set t (c.pos t k d) { s.mem t (c.pos t k d) with tag := .inuse, key := some k }).goto
      x (if f then .count else .retp)) := by
  have hp := h.pcs x
  rw [hx] at hp
  obtain ⟨ht, hp, e1, e2⟩ := hp
  subst ht
  refine h.setOwn x _ _ _ ?_ (Or.inr rfl) ?_ ?_ ?_ ?_ ?_ ?_ ?_
  · rw [e1]; simp
  · cases f with
    | false => left; simp at e2; simp [e2]
    | true => right; simp at e2; exact ⟨e2, k, d, rfl, rfl, hp⟩
  · simp
  · intro y hyx hy
    exact hyx (h.own1 y x _ hy (by rw [hx]; rfl))
  · cases f <;> trivial
  · left; cases f <;> rfl
  · cases f <;> rfl
  · rw [hx]; rfl

theorem Inv.grow (h : Inv c s) {x k v t} (hx : s.pc x = .grow k v t) (he : s.resizing = t) :
    Inv c ({ s with resizing := t + 1 }.goto x (.scan k v t 0)) := by
  have hp := h.pcs x
  rw [hx] at hp
  simp only [PcS] at hp
  have ht : t = s.tab := by rcases h.res with e | e <;> omega
  subst ht
  have hnc : ∀ y, isCop (s.pc y) = false := by
    intro y
    cases hy : isCop (s.pc y) with
    | false => rfl
    | true =>
      obtain ⟨t, i, _, e, _⟩ := (h.pcs y).upto hy
      omega
  constructor
  · exact Or.inr rfl
  · exact h.old
  · intro t p htp
    exact h.new t p (by simp at htp; omega)
  · intro p _
    left
    show (s.mem (s.tab + 1) p).tag = _
    rw [h.new _ _ (by omega)]
  · exact h.wff
  · exact h.wfu
  · exact h.path
  · intro hr; simp at hr
  · intro p k' hm
    exact absurd hm (h.nomv he p)
  · intro q k' hq
    have : (s.mem (s.tab + 1) q).key = some k' := hq
    rw [h.new _ _ (by omega)] at this; simp at this
  · intro y
    by_cases hyx : y = x
    · subst hyx
      simp only [goto_pc, upd_same]
      exact ⟨rfl, rfl, Nat.zero_le _, by intro q hq; omega, fun q _ => h.nomv he q⟩
    · simp only [goto_pc, ne_eq, hyx, not_false_eq_true, upd_ne]
      refine (h.pcs y).other (fun _ _ _ h => h) rfl (fun _ _ _ => rfl) ?_
      intro hy; rw [hnc y] at hy; simp at hy
  · intro y z a hy hz
    simp only [goto_pc, upd] at hy hz
    split at hy <;> split at hz <;> simp [owner] at hy hz
    exact h.own1 y z _ hy hz
  · intro y z hy hz
    simp only [goto_pc, upd] at hy hz
    split at hy <;> split at hz
    · omega
    · rw [hnc z] at hz; simp at hz
    · rw [hnc y] at hy; simp at hy
    · rw [hnc y] at hy; simp at hy

theorem Inv.scan (h : Inv c s) {x k v t i} (hx : s.pc x = .scan k v t i) :
    ∃ p, scanStep c s k v t i = some p ∧ PcS c s p ∧ owner c p = none := by
  have hp := h.pcs x
  rw [hx] at hp
  have hp' : Upto c s t i := hp
  obtain ⟨rfl, e1, e2, e3, e4⟩ := hp'
  unfold scanStep
  split
  · rename_i hi
    have hm := e4 i (Nat.le_refl _)
    cases hg : (s.mem s.tab i).tag with
    | busy => exact ⟨_, rfl, hp, rfl⟩
    | moved => exact absurd hg hm
    | free => exact ⟨.move k v s.tab i none, rfl, ⟨hp, hi, by simp⟩, rfl⟩
    | inuse =>
      obtain ⟨kk, hk⟩ := Option.ne_none_iff_exists'.1 (h.wfu _ _ hg)
      refine ⟨.find k v s.tab i kk 0, by rw [hk], ⟨hp, hi, hk, Path.zero, ?_⟩, rfl⟩
      intro q hq
      rcases h.src q kk hq with ⟨p, f1, f2⟩ | ⟨y, k0, v0, j, f⟩
      · rw [h.unique f2 hk] at f1
        exact hm f1
      · have := h.cop1 x y (by rw [hx]; rfl) (by rw [f]; rfl)
        subst this
        rw [hx] at f; simp at f
  · rename_i hi
    have : i = c.size s.tab := by omega
    subst this
    exact ⟨_, rfl, hp, rfl⟩

theorem Inv.find (h : Inv c s) {x k v t i kk d} (hx : s.pc x = .find k v t i kk d) :
    ((s.mem (t + 1) (c.pos (t + 1) kk d)).expects none = true →
      PcS c s (.copy k v t i kk d)) ∧
    (s.mem (t + 1) (c.pos (t + 1) kk d)).expects (some kk) = false ∧
    ((s.mem (t + 1) (c.pos (t + 1) kk d)).expects none = false →
      PcS c s (.find k v t i kk (d + 1))) := by
  have hp := h.pcs x
  rw [hx] at hp
  obtain ⟨hu, e1, e2, e3, e4⟩ := hp
  refine ⟨fun he => ⟨hu, e1, e2, e3, e4, (expects_none he).1⟩, ?_, ?_⟩
  · cases hb : (s.mem (t + 1) (c.pos (t + 1) kk d)).expects (some kk) with
    | false => rfl
    | true => exact absurd (expects_some hb).2 (e4 _)
  · intro he
    have hu' := hu
    obtain ⟨rfl, hr, _⟩ := hu'
    refine ⟨hu, e1, e2, ?_, e4⟩
    have hc := h.cop (c.pos (s.tab + 1) kk d) (by omega)
    rw [hr] at hc
    rcases hc with hc | hc
    · have := h.wff _ _ hc
      simp [Slot.expects, hc, this] at he
    · obtain ⟨k', hk'⟩ := Option.ne_none_iff_exists'.1 (h.wfu _ _ hc)
      exact e3.succ hk' (by rintro rfl; exact e4 _ hk')

theorem Inv.copy (h : Inv c s) {x k v t i kk d} (hx : s.pc x = .copy k v t i kk d) (val : Nat) :
    Inv c ((s.set (t + 1) (c.pos (t + 1) kk d) { tag := .inuse, key := some kk, val := val }).goto x
      (.move k v t i (some kk))) := by
  have hp := h.pcs x
  rw [hx] at hp
  obtain ⟨hu, e1, e2, e3, e4, e5⟩ := hp
  obtain ⟨rfl, hr, e6, e7, e8⟩ := hu
  have hxc : isCop (s.pc x) = true := by rw [hx]; rfl
  have hmono : KeyMono s.mem (s.set (s.tab + 1) (c.pos (s.tab + 1) kk d)
      { tag := .inuse, key := some kk, val := val }).mem := by
    intro t' p' k' hk'
    rw [set_mem]
    split
    · rename_i e; obtain ⟨rfl, rfl⟩ := e
      rw [h.wff _ _ e5] at hk'; simp at hk'
    · exact hk'
  have hother : ∀ t' p', t' ≠ s.tab + 1 → (s.set (s.tab + 1) (c.pos (s.tab + 1) kk d)
      { tag := .inuse, key := some kk, val := val }).mem t' p' = s.mem t' p' := by
    intro t' p' ht; rw [set_mem]; simp [ht]
  constructor
  · exact h.res
  · intro t' p' ht hp'
    simp only [goto_mem, goto_tab, set_tab] at ht ⊢
    rw [hother _ _ (by omega)]; exact h.old t' p' ht hp'
  · intro t' p' ht
    simp only [goto_mem, goto_res, set_res] at ht ⊢
    rw [hother _ _ (by omega)]; exact h.new t' p' ht
  · intro p' hne
    simp only [goto_mem, goto_res, set_res]
    rw [set_mem]
    split
    · right; rfl
    · exact h.cop p' hne
  · intro t' p' ht
    simp only [goto_mem] at ht ⊢
    rw [set_mem] at ht ⊢
    split
    · rename_i e; rw [if_pos e] at ht; simp at ht
    · rename_i e; rw [if_neg e] at ht; exact h.wff _ _ ht
  · intro t' p' ht
    simp only [goto_mem] at ht ⊢
    rw [set_mem] at ht ⊢
    split
    · simp
    · rename_i e; rw [if_neg e] at ht; exact h.wfu _ _ ht
  · intro t' p' k' hk
    simp only [goto_mem] at hk ⊢
    rw [set_mem] at hk
    split at hk
    · rename_i e; obtain ⟨rfl, rfl⟩ := e
      simp at hk; subst hk
      exact ⟨d, rfl, e3.mono hmono⟩
    · obtain ⟨d, f1, f2⟩ := h.path t' p' k' hk
      exact ⟨d, f1, f2.mono hmono⟩
  · intro hr'
    simp only [goto_res, set_res, goto_tab, set_tab] at hr'
    omega
  · intro p' k' hm hk
    simp only [goto_mem, goto_tab, set_tab] at hm hk ⊢
    rw [hother _ _ (by omega)] at hm hk
    obtain ⟨q', hq'⟩ := h.mvd p' k' hm hk
    exact ⟨q', hmono _ _ _ hq'⟩
  · intro q' k' hk
    simp only [goto_mem, goto_tab, set_tab, goto_pc, set_pc] at hk ⊢
    rw [set_mem] at hk
    split at hk
    · simp at hk; subst hk
      right; exact ⟨x, k, v, i, by simp⟩
    · rcases h.src q' k' hk with ⟨p', f1, f2⟩ | ⟨y, k0, v0, j, f⟩
      · left
        exact ⟨p', by rw [hother _ _ (by omega)]; exact f1, hmono _ _ _ f2⟩
      · have := h.cop1 x y hxc (by rw [f]; rfl)
        subst this
        rw [hx] at f; simp at f
  · intro y
    by_cases hyx : y = x
    · subst hyx
      simp only [goto_pc, upd_same]
      refine ⟨⟨rfl, hr, e6, ?_, ?_⟩, e1, ?_⟩
      · intro q hq
        simp only [goto_mem]
        rw [hother _ _ (by omega)]; exact e7 q hq
      · intro q hq
        simp only [goto_mem]
        rw [hother _ _ (by omega)]; exact e8 q hq
      · intro kk' he
        simp at he; subst he
        exact ⟨hmono _ _ _ e2, c.pos (s.tab + 1) kk d, by simp [set_mem]⟩
    · simp only [goto_pc, set_pc, ne_eq, hyx, not_false_eq_true, upd_ne]
      refine (h.pcs y).other hmono rfl ?_ ?_
      · intro t' p' he
        have := ((h.pcs y).busy he).1
        exact hother _ _ (by omega)
      · intro hy
        exact absurd (h.cop1 y x hy hxc) hyx
  · intro y z a hy hz
    simp only [goto_pc, set_pc, upd] at hy hz
    split at hy <;> split at hz <;> simp [owner] at hy hz
    exact h.own1 y z _ hy hz
  · intro y z hy hz
    have key : ∀ w, isCop (upd s.pc x (Pc.move k v s.tab i (some kk)) w) = true → w = x := by
      intro w hw
      simp only [upd] at hw
      split at hw
      · assumption
      · exact h.cop1 w x hw hxc
    rw [key y hy, key z hz]

theorem Inv.move (h : Inv c s) {x k v t i e} (hx : s.pc x = .move k v t i e)
    (he : (s.mem t i).expects e = true) :
    Inv c ((s.set t i { s.mem t i with tag := .moved }).goto x (.scan k v t (i + 1))) := by
  have hp := h.pcs x
  rw [hx] at hp
  obtain ⟨hu, e1, e2⟩ := hp
  obtain ⟨rfl, hr, e6, e7, e8⟩ := hu
  have hxc : isCop (s.pc x) = true := by rw [hx]; rfl
  have htag : (s.mem s.tab i).tag ≠ .busy := by
    cases e with
    | none => rw [(expects_none he).1]; simp
    | some k => rw [(expects_some he).1]; simp
  have hke : (s.mem s.tab i).key = e := by
    cases e with
    | none => exact (expects_none he).2
    | some k => exact (expects_some he).2
  have hmono : KeyMono s.mem (s.set s.tab i { s.mem s.tab i with tag := .moved }).mem := by
    intro t' p' k' hk'
    rw [set_mem]
    split
    · rename_i e; obtain ⟨rfl, rfl⟩ := e; exact hk'
    · exact hk'
  have hkey : ∀ t' p', ((s.set s.tab i { s.mem s.tab i with tag := .moved }).mem t' p').key =
      (s.mem t' p').key := by
    intro t' p'
    rw [set_mem]
    split
    · rename_i e; obtain ⟨rfl, rfl⟩ := e; rfl
    · rfl
  have hother : ∀ t' p', ¬ (t' = s.tab ∧ p' = i) →
      (s.set s.tab i { s.mem s.tab i with tag := .moved }).mem t' p' = s.mem t' p' := by
    intro t' p' ht; rw [set_mem, if_neg ht]
  constructor
  · exact h.res
  · intro t' p' ht hp'
    simp only [goto_mem, goto_tab, set_tab] at ht ⊢
    rw [hother _ _ (by omega)]; exact h.old t' p' ht hp'
  · intro t' p' ht
    simp only [goto_mem, goto_res, set_res] at ht ⊢
    rw [hother _ _ (by omega)]; exact h.new t' p' ht
  · intro p' hne
    simp only [goto_mem, goto_res, set_res]
    rw [hother _ _ (by omega)]
    exact h.cop p' hne
  · intro t' p' ht
    simp only [goto_mem] at ht ⊢
    rw [set_mem] at ht ⊢
    split
    · rename_i e; rw [if_pos e] at ht; simp at ht
    · rename_i e; rw [if_neg e] at ht; exact h.wff _ _ ht
  · intro t' p' ht
    simp only [goto_mem] at ht ⊢
    rw [set_mem] at ht ⊢
    split
    · rename_i e; rw [if_pos e] at ht; simp at ht
    · rename_i e; rw [if_neg e] at ht; exact h.wfu _ _ ht
  · intro t' p' k' hk
    simp only [goto_mem] at hk ⊢
    rw [hkey] at hk
    obtain ⟨d, f1, f2⟩ := h.path t' p' k' hk
    exact ⟨d, f1, f2.mono hmono⟩
  · intro hr'
    simp only [goto_res, set_res, goto_tab, set_tab] at hr'
    omega
  · intro p' k' hm hk
    simp only [goto_mem, goto_tab, set_tab] at hm hk ⊢
    rw [hkey] at hk
    have : ∃ q, (s.mem (s.tab + 1) q).key = some k' := by
      by_cases hpi : p' = i
      · subst hpi
        rw [hke] at hk
        exact (e2 k' hk).2
      · rw [hother _ _ (by simp [hpi])] at hm
        exact h.mvd p' k' hm hk
    exact this.imp fun q hq => hmono _ _ _ hq
  · intro q' k' hk
    simp only [goto_mem, goto_tab, set_tab, goto_pc, set_pc] at hk ⊢
    rw [hkey] at hk
    left
    rcases h.src q' k' hk with ⟨p', f1, f2⟩ | ⟨y, k0, v0, j, f⟩
    · refine ⟨p', ?_, hmono _ _ _ f2⟩
      rw [set_mem]; split
      · rfl
      · exact f1
    · have := h.cop1 x y hxc (by rw [f]; rfl)
      subst this
      rw [hx] at f
      simp at f
      obtain ⟨_, _, rfl, rfl⟩ := f
      exact ⟨i, by simp [set_mem], by rw [hkey]; exact hke⟩
  · intro y
    by_cases hyx : y = x
    · subst hyx
      simp only [goto_pc, upd_same]
      refine ⟨rfl, hr, e1, ?_, ?_⟩
      · intro q hq
        simp only [goto_mem]
        rw [set_mem]
        split
        · rfl
        · rename_i hn
          exact e7 q (by simp at hn; omega)
      · intro q hq
        simp only [goto_mem]
        rw [hother _ _ (by omega)]; exact e8 q (by omega)
    · simp only [goto_pc, set_pc, ne_eq, hyx, not_false_eq_true, upd_ne]
      refine (h.pcs y).other hmono rfl ?_ ?_
      · intro t' p' he
        have := ((h.pcs y).busy he).2
        apply hother
        rintro ⟨rfl, rfl⟩
        exact htag this
      · intro hy
        exact absurd (h.cop1 y x hy hxc) hyx
  · intro y z a hy hz
    simp only [goto_pc, set_pc, upd] at hy hz
    split at hy <;> split at hz <;> simp [owner] at hy hz
    exact h.own1 y z _ hy hz
  · intro y z hy hz
    have key : ∀ w, isCop (upd s.pc x (Pc.scan k v s.tab (i + 1)) w) = true → w = x := by
      intro w hw
      simp only [upd] at hw
      split at hw
      · assumption
      · exact h.cop1 w x hw hxc
    rw [key y hy, key z hz]

theorem Inv.swap (h : Inv c s) (h0 : 0 < c.size0) {x k v t} (hx : s.pc x = .swap k v t) :
    Inv c ({ s with tab := t + 1 }.goto x (.load (.put k v))) := by
  have hp := h.pcs x
  rw [hx] at hp
  obtain ⟨rfl, hr, e6, e7, e8⟩ := hp
  have hxc : isCop (s.pc x) = true := by rw [hx]; rfl
  have hnm : ∀ p, (s.mem (s.tab + 1) p).tag ≠ .moved := by
    intro p
    have := h.cop p (by omega)
    rw [hr] at this
    rcases this with e | e <;> rw [e] <;> simp
  have hno : ∀ k t d f, ¬ Holds c s k t d f := by
    rintro k t d f ⟨rfl, _, hb, _⟩
    rw [e7 _ (pos_lt h0 _ k d)] at hb; simp at hb
  constructor
  · exact Or.inl hr
  · intro t' p' ht hp'
    simp only [goto_tab] at ht
    show (s.mem t' p').tag = _
    by_cases htt : t' = s.tab
    · subst htt; exact e7 p' hp'
    · exact h.old t' p' (by omega) hp'
  · exact h.new
  · intro p hne; exact absurd hr hne
  · exact h.wff
  · exact h.wfu
  · exact h.path
  · intro _ p; exact hnm p
  · intro p k' hm; exact absurd hm (hnm p)
  · intro q k' hq
    have : (s.mem (s.tab + 1 + 1) q).key = some k' := hq
    rw [h.new _ _ (by omega)] at this; simp at this
  · intro y
    by_cases hyx : y = x
    · subst hyx; simp only [goto_pc, upd_same]; trivial
    · simp only [goto_pc, ne_eq, hyx, not_false_eq_true, upd_ne]
      have hy := h.pcs y
      have hyc : isCop (s.pc y) = false := by
        cases hb : isCop (s.pc y) with
        | false => rfl
        | true => exact absurd (h.cop1 y x hb hxc) hyx
      generalize s.pc y = q at hy hyc
      cases q <;> simp [isCop] at hyc
      case check => simp only [PcS, goto_tab] at hy ⊢; omega
      case probe => exact ⟨by have := hy.1; simp only [goto_tab]; omega, hy.2⟩
      case claim => exact ⟨by have := hy.1; simp only [goto_tab]; omega, hy.2⟩
      case own => exact ⟨by have := hy.1; simp only [goto_tab]; omega, hy.2⟩
      case write => exact absurd hy (hno _ _ _ _)
      case publish => exact absurd hy (hno _ _ _ _)
      case readv => exact ⟨by have := hy.1; simp only [goto_tab]; omega, hy.2⟩
      case grow => simp only [PcS, goto_tab] at hy ⊢; omega
      all_goals trivial
  · intro y z a hy hz
    simp only [goto_pc, upd] at hy hz
    split at hy <;> split at hz <;> simp [owner] at hy hz
    exact h.own1 y z _ hy hz
  · intro y z hy hz
    have key : ∀ w, isCop (upd s.pc x (Pc.load (.put k v)) w) = true → w = x := by
      intro w hw
      simp only [upd] at hw
      split at hw
      · assumption
      · exact h.cop1 w x hw hxc
    rw [key y hy, key z hz]

/-- Every step keeps the invariant. -/
theorem Inv.go (h : Inv c s) (h0 : 0 < c.size0) {x l s'} (hs : go c s x = some (l, s')) :
    Inv c s' := by
  unfold Chash.go at hs
  have hp := h.pcs x
  split at hs
  next => simp at hs
  next k v hx =>
    simp at hs; rw [← hs.2]
    exact h.goto x _ (Nat.le_refl _) (Or.inl rfl) (by simp [isCop]) (by simp [hx])
  next k hx =>
    simp at hs; rw [← hs.2]
    exact h.goto x _ ⟨Nat.le_refl _, Path.zero⟩ (Or.inl rfl) (by simp [isCop]) (by simp [hx])
  next k v t hx =>
    rw [hx] at hp
    split at hs
    · simp at hs; rw [← hs.2]
      exact h.goto x _ hp (Or.inl rfl) (by simp [isCop]) (by simp [hx])
    · simp at hs; rw [← hs.2]
      exact h.goto x _ ⟨hp, Path.zero⟩ (Or.inl rfl) (by simp [isCop]) (by simp [hx])
  next o t d hx =>
    simp at hs; rw [← hs.2]
    exact h.goto x _ (h.probe hx) (Or.inl (probe_plain o t d).1)
      (by rw [(probe_plain o t d).2]; simp) (by simp [hx])
  next k v t d hx =>
    dsimp only at hs
    split at hs
    · simp at hs; rw [← hs.2]; exact h.claim h0 hx (by assumption)
    · simp at hs; rw [← hs.2]
      exact h.goto x _ trivial (Or.inl rfl) (by simp [isCop]) (by simp [hx])
  next k v t d hx =>
    dsimp only at hs
    split at hs
    · simp at hs; rw [← hs.2]; exact h.own h0 hx (by assumption)
    · simp at hs; rw [← hs.2]
      exact h.goto x _ trivial (Or.inl rfl) (by simp [isCop]) (by simp [hx])
  next k v t d f hx =>
    simp at hs; rw [← hs.2]; exact h.write hx
  next k v t d f hx =>
    simp at hs; rw [← hs.2]; exact h.publish hx
  next hx =>
    simp at hs; rw [← hs.2]
    refine Inv.goto (s := { s with members := s.members + 1 }) (h.congr rfl rfl rfl rfl) x _ trivial
      (Or.inl rfl) (by simp [isCop]) (by simp [hx])
  next hx =>
    simp at hs; rw [← hs.2]
    exact h.goto x _ trivial (Or.inl rfl) (by simp [isCop]) (by simp [hx])
  next k t d hx =>
    simp at hs; rw [← hs.2]
    exact h.goto x _ trivial (Or.inl rfl) (by simp [isCop]) (by simp [hx])
  next r hx =>
    simp at hs; rw [← hs.2]
    exact h.goto x _ trivial (Or.inl rfl) (by simp [isCop]) (by simp [hx])
  next k v t hx =>
    split at hs
    · simp at hs; rw [← hs.2]; exact h.grow hx (by assumption)
    · simp at hs; rw [← hs.2]
      exact h.goto x _ trivial (Or.inl rfl) (by simp [isCop]) (by simp [hx])
  next o hx =>
    simp at hs; rw [← hs.2]
    exact h.goto x _ trivial (Or.inl rfl) (by simp [isCop]) (by simp [hx])
  next o f hx =>
    split at hs
    · simp at hs; rw [← hs.2]
      exact h.goto x _ trivial (Or.inl rfl) (by simp [isCop]) (by simp [hx])
    · simp at hs; rw [← hs.2]
      exact h.goto x _ trivial (Or.inl rfl) (by simp [isCop]) (by simp [hx])
  next k v t i hx =>
    obtain ⟨p, e1, e2, e3⟩ := h.scan hx
    rw [e1] at hs
    simp at hs; rw [← hs.2]
    exact h.goto x _ e2 (Or.inl e3) (by simp [hx, isCop]) (by simp [hx])
  next k v t i kk d hx =>
    obtain ⟨f1, f2, f3⟩ := h.find hx
    dsimp only at hs
    split at hs
    · simp at hs; rw [← hs.2]
      exact h.goto x _ (f1 (by assumption)) (Or.inl rfl) (by simp [hx, isCop]) (by simp [hx])
    · rename_i hn
      rw [f2] at hs
      simp at hs; rw [← hs.2]
      exact h.goto x _ (f3 (by simpa using hn)) (Or.inl rfl) (by simp [hx, isCop]) (by simp [hx])
  next k v t i kk d hx =>
    simp at hs; rw [← hs.2]; exact h.copy hx _
  next k v t i e hx =>
    split at hs
    · simp at hs; rw [← hs.2]; exact h.move hx (by assumption)
    · split at hs
      · rename_i he
        subst he
        simp at hs; rw [← hs.2]
        rw [hx] at hp
        exact h.goto x _ hp.1 (Or.inl rfl) (by simp [hx, isCop]) (by simp [hx])
      · simp at hs; rw [← hs.2]; exact h.congr rfl rfl rfl rfl
  next k v t hx =>
    split at hs
    · simp at hs; rw [← hs.2]; exact h.swap h0 hx
    · simp at hs; rw [← hs.2]; exact h.congr rfl rfl rfl rfl

theorem Inv.step (h : Inv c s) (h0 : 0 < c.size0) {a l s'} (hs : step c s a = some (l, s')) :
    Inv c s' := by
  unfold Chash.step at hs
  split at hs
  · simp at hs
  · split at hs
    · rename_i x o
      split at hs
      · rename_i hx
        simp at hs; rw [← hs.2]
        exact h.goto x _ trivial (Or.inl rfl) (by simp [isCop]) (by simp [hx])
      · simp at hs
    · exact h.go h0 hs

theorem Run.inv {tr s} (h0 : 0 < c.size0) (h : Run c tr s) : Inv c s := by
  induction h with
  | new => exact Inv.init
  | step tr s a l s' _ hs ih => exact ih.step h0 hs

end Verif.Hash.Chash
