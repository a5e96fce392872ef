import Verif.Hash.ChashModel

/-!
# The tables of the concurrent hash table

Invariants of `ChashModel` that do not speak about values.
-/

namespace Verif.Hash.Chash

open Verif.Thread

variable {c : Cfg} {s : St}

@[simp] theorem goto_mem (x p) : (s.goto x p).mem = s.mem := rfl
@[simp] theorem goto_tab (x p) : (s.goto x p).tab = s.tab := rfl
@[simp] theorem goto_res (x p) : (s.goto x p).resizing = s.resizing := rfl
@[simp] theorem goto_pc (x p) : (s.goto x p).pc = upd s.pc x p := rfl
@[simp] theorem set_tab (t p v) : (s.set t p v).tab = s.tab := rfl
@[simp] theorem set_res (t p v) : (s.set t p v).resizing = s.resizing := rfl
@[simp] theorem set_pc (t p v) : (s.set t p v).pc = s.pc := rfl

theorem set_mem (t p v t' p') : (s.set t p v).mem t' p' =
    if t' = t ∧ p' = p then v else s.mem t' p' := by
  simp only [St.set, upd]
  by_cases h : t' = t
  · subst h; by_cases h' : p' = p <;> simp [h']
  · simp [h]

/-- The slots tried before the `d`-th hold other keys. -/
def Path (c : Cfg) (m : Nat → Nat → Slot) (t k d : Nat) : Prop :=
  ∀ e, e < d → ∃ k', (m t (c.pos t k e)).key = some k' ∧ k' ≠ k

/-- Keys stay. -/
def KeyMono (m m' : Nat → Nat → Slot) : Prop :=
  ∀ t p k, (m t p).key = some k → (m' t p).key = some k

theorem Path.mono {m m' t k d} (h : Path c m t k d) (hk : KeyMono m m') : Path c m' t k d := by
  intro e he
  obtain ⟨k', h1, h2⟩ := h e he
  exact ⟨k', hk _ _ _ h1, h2⟩

theorem Path.zero {m t k} : Path c m t k 0 := by intro e he; omega

theorem Path.succ {m t k d k'} (h : Path c m t k d) (h1 : (m t (c.pos t k d)).key = some k')
    (h2 : k' ≠ k) : Path c m t k (d + 1) := by
  intro e he
  by_cases h' : e = d
  · subst h'; exact ⟨k', h1, h2⟩
  · exact h e (by omega)

/-- The slot that a thread has marked busy. -/
def owner (c : Cfg) : Pc → Option (Nat × Nat)
  | .write k _ t d _ => some (t, c.pos t k d)
  | .publish k _ t d _ => some (t, c.pos t k d)
  | _ => none

/-- The thread is copying the table. -/
def isCop : Pc → Bool
  | .scan .. => true
  | .find .. => true
  | .copy .. => true
  | .move .. => true
  | .swap .. => true
  | _ => false

/-- The slots below `i` have been moved, the others have not. -/
def Upto (c : Cfg) (s : St) (t i : Nat) : Prop :=
  t = s.tab ∧ s.resizing = s.tab + 1 ∧ i ≤ c.size t ∧
    (∀ q, q < i → (s.mem t q).tag = .moved) ∧ ∀ q, i ≤ q → (s.mem t q).tag ≠ .moved

/-- A thread holds a slot. -/
def Holds (c : Cfg) (s : St) (k t d : Nat) (fresh : Bool) : Prop :=
  t = s.tab ∧ Path c s.mem t k d ∧ (s.mem t (c.pos t k d)).tag = .busy ∧
    (s.mem t (c.pos t k d)).key = (if fresh then none else some k)

/-- What is known where a thread is. -/
def PcS (c : Cfg) (s : St) : Pc → Prop
  | .check _ _ t => t ≤ s.tab
  | .probe o t d => t ≤ s.tab ∧ Path c s.mem t o.key d
  | .claim k _ t d => t ≤ s.tab ∧ Path c s.mem t k d
  | .own k _ t d => t ≤ s.tab ∧ Path c s.mem t k d
  | .write k _ t d fresh => Holds c s k t d fresh
  | .publish k _ t d fresh => Holds c s k t d fresh
  | .readv k t d => t ≤ s.tab ∧ (s.mem t (c.pos t k d)).key = some k
  | .grow _ _ t => t ≤ s.tab
  | .scan _ _ t i => Upto c s t i
  | .find _ _ t i kk d => Upto c s t i ∧ i < c.size t ∧ (s.mem t i).key = some kk ∧
      Path c s.mem (t + 1) kk d ∧ ∀ q, (s.mem (t + 1) q).key ≠ some kk
  | .copy _ _ t i kk d => Upto c s t i ∧ i < c.size t ∧ (s.mem t i).key = some kk ∧
      Path c s.mem (t + 1) kk d ∧ (∀ q, (s.mem (t + 1) q).key ≠ some kk) ∧
      (s.mem (t + 1) (c.pos (t + 1) kk d)).tag = .free
  | .move _ _ t i e => Upto c s t i ∧ i < c.size t ∧ ∀ kk, e = some kk →
      (s.mem t i).key = some kk ∧ ∃ q, (s.mem (t + 1) q).key = some kk
  | .swap _ _ t => Upto c s t (c.size t)
  | _ => True

structure Inv (c : Cfg) (s : St) : Prop where
  res : s.resizing = s.tab ∨ s.resizing = s.tab + 1
  old : ∀ t p, t < s.tab → p < c.size t → (s.mem t p).tag = .moved
  new : ∀ t p, s.resizing < t → s.mem t p = {}
  cop : ∀ p, s.resizing ≠ s.tab →
    (s.mem s.resizing p).tag = .free ∨ (s.mem s.resizing p).tag = .inuse
  wff : ∀ t p, (s.mem t p).tag = .free → (s.mem t p).key = none
  wfu : ∀ t p, (s.mem t p).tag = .inuse → (s.mem t p).key ≠ none
  path : ∀ t p k, (s.mem t p).key = some k → ∃ d, p = c.pos t k d ∧ Path c s.mem t k d
  nomv : s.resizing = s.tab → ∀ p, (s.mem s.tab p).tag ≠ .moved
  mvd : ∀ p k, (s.mem s.tab p).tag = .moved → (s.mem s.tab p).key = some k →
    ∃ q, (s.mem (s.tab + 1) q).key = some k
  src : ∀ q k, (s.mem (s.tab + 1) q).key = some k →
    (∃ p, (s.mem s.tab p).tag = .moved ∧ (s.mem s.tab p).key = some k) ∨
    ∃ x k0 v0 i, s.pc x = .move k0 v0 s.tab i (some k)
  pcs : ∀ x, PcS c s (s.pc x)
  own1 : ∀ x y a, owner c (s.pc x) = some a → owner c (s.pc y) = some a → x = y
  cop1 : ∀ x y, isCop (s.pc x) = true → isCop (s.pc y) = true → x = y

theorem pos_lt (h0 : 0 < c.size0) (t k d) : c.pos t k d < c.size t := by
  apply Nat.mod_lt
  exact Nat.mul_pos h0 (Nat.pow_pos (by omega))

/-- A key is in one slot only. -/
theorem Inv.unique (h : Inv c s) {t p p' k} (h1 : (s.mem t p).key = some k)
    (h2 : (s.mem t p').key = some k) : p = p' := by
  obtain ⟨d, rfl, hd⟩ := h.path _ _ _ h1
  obtain ⟨d', rfl, hd'⟩ := h.path _ _ _ h2
  rcases Nat.lt_trichotomy d d' with hl | hl | hl
  · obtain ⟨k', e1, e2⟩ := hd' d hl
    rw [e1] at h1; simp at h1; exact absurd h1 e2
  · rw [hl]
  · obtain ⟨k', e1, e2⟩ := hd d' hl
    rw [e1] at h2; simp at h2; exact absurd h2 e2

/-- Two searches for the same key that end at slots without it, end at the same slot. -/
theorem Path.eq {m t k d d'} (h : Path c m t k d) (h' : Path c m t k d')
    (e : ∀ k', (m t (c.pos t k d)).key = some k' → k' = k)
    (e' : ∀ k', (m t (c.pos t k d')).key = some k' → k' = k) : d = d' := by
  rcases Nat.lt_trichotomy d d' with hl | hl | hl
  · obtain ⟨k', e1, e2⟩ := h' d hl
    exact absurd (e _ e1) e2
  · exact hl
  · obtain ⟨k', e1, e2⟩ := h d' hl
    exact absurd (e' _ e1) e2

/-- A thread keeps what it knows. -/
theorem PcS.other {s' : St} {q : Pc} (h : PcS c s q) (hk : KeyMono s.mem s'.mem)
    (ht : s'.tab = s.tab)
    (ho : ∀ t p, owner c q = some (t, p) → s'.mem t p = s.mem t p)
    (hc : isCop q = true → s'.resizing = s.resizing ∧ s'.mem (s.tab + 1) = s.mem (s.tab + 1) ∧
      ∀ p, (s'.mem s.tab p).tag = .moved ↔ (s.mem s.tab p).tag = .moved) :
    PcS c s' q := by
  have hU : isCop q = true → ∀ t i, Upto c s t i → Upto c s' t i := by
    intro hq t i hu
    obtain ⟨h1, h2, h3⟩ := hc hq
    obtain ⟨rfl, a, b, d, e⟩ := hu
    exact ⟨ht.symm, by omega, b, fun q hq => (h3 q).2 (d q hq), fun q hq hm => e q hq ((h3 q).1 hm)⟩
  have hH : ∀ k t d f, owner c q = some (t, c.pos t k d) → Holds c s k t d f →
      Holds c s' k t d f := by
    intro k t d f hq hh
    obtain ⟨a, b, d1, e⟩ := hh
    exact ⟨by omega, b.mono hk, by rw [ho _ _ hq]; exact d1, by rw [ho _ _ hq]; exact e⟩
  cases q with
  | check k v t => simp only [PcS] at h ⊢; omega
  | probe o t d => exact ⟨by have := h.1; omega, h.2.mono hk⟩
  | claim k v t d => exact ⟨by have := h.1; omega, h.2.mono hk⟩
  | own k v t d => exact ⟨by have := h.1; omega, h.2.mono hk⟩
  | write k v t d f => exact hH _ _ _ _ rfl h
  | publish k v t d f => exact hH _ _ _ _ rfl h
  | readv k t d => exact ⟨by have := h.1; omega, hk _ _ _ h.2⟩
  | grow k v t => simp only [PcS] at h ⊢; omega
  | scan k v t i => exact hU rfl _ _ h
  | find k v t i kk d =>
    obtain ⟨a, b, d1, e, f⟩ := h
    have := a.1
    subst this
    exact ⟨hU rfl _ _ a, b, hk _ _ _ d1, e.mono hk, by rw [(hc rfl).2.1]; exact f⟩
  | copy k v t i kk d =>
    obtain ⟨a, b, d1, e, f, g⟩ := h
    have := a.1
    subst this
    exact ⟨hU rfl _ _ a, b, hk _ _ _ d1, e.mono hk, by rw [(hc rfl).2.1]; exact f,
      by rw [(hc rfl).2.1]; exact g⟩
  | move k v t i e =>
    obtain ⟨a, b, d⟩ := h
    exact ⟨hU rfl _ _ a, b, fun kk hkk => ⟨hk _ _ _ (d kk hkk).1,
      (d kk hkk).2.imp fun q hq => hk _ _ _ hq⟩⟩
  | swap k v t => exact hU rfl _ _ h
  | _ => trivial

/-- Steps of a thread that change nothing but where it is. -/
theorem Inv.goto (h : Inv c s) (x : Nat) (p : Pc) (hp : PcS c s p)
    (ho : owner c p = none ∨ owner c p = owner c (s.pc x))
    (hc : isCop p = true → isCop (s.pc x) = true)
    (hm : ∀ k0 v0 i kk, s.pc x ≠ .move k0 v0 s.tab i (some kk)) : Inv c (s.goto x p) where
  res := h.res
  old := h.old
  new := h.new
  cop := h.cop
  wff := h.wff
  wfu := h.wfu
  path := h.path
  nomv := h.nomv
  mvd := h.mvd
  src := by
    intro q k hq
    refine (h.src q k hq).imp_right ?_
    rintro ⟨y, k0, v0, i, hy⟩
    refine ⟨y, k0, v0, i, ?_⟩
    by_cases hyx : y = x
    · subst hyx; exact absurd hy (hm _ _ _ _)
    · simp [hyx, hy]
  pcs := by
    intro y
    have key : ∀ q, PcS c s q → PcS c (s.goto x p) q := fun q hq =>
      hq.other (fun _ _ _ h => h) rfl (fun _ _ _ => rfl) (fun _ => ⟨rfl, rfl, fun _ => Iff.rfl⟩)
    by_cases hyx : y = x
    · subst hyx; simp only [goto_pc, upd_same]; exact key _ hp
    · simp only [goto_pc, ne_eq, hyx, not_false_eq_true, upd_ne]; exact key _ (h.pcs y)
  own1 := by
    intro y z a hy hz
    simp only [goto_pc, upd] at hy hz
    rcases ho with ho | ho
    · split at hy <;> split at hz <;> simp_all
      exact h.own1 y z _ hy hz
    · split at hy <;> split at hz
      · omega
      · rename_i e _; subst e; exact h.own1 y z _ (ho ▸ hy) hz
      · rename_i _ e; subst e; exact h.own1 y z _ hy (ho ▸ hz)
      · exact h.own1 y z _ hy hz
  cop1 := by
    intro y z hy hz
    simp only [goto_pc, upd] at hy hz
    split at hy <;> split at hz
    · omega
    · rename_i e _; subst e; exact h.cop1 y z (hc hy) hz
    · rename_i _ e; subst e; exact h.cop1 y z hy (hc hz)
    · exact h.cop1 y z hy hz

/-- Steps of a thread that change a slot of the current table for `chash_put`. -/
theorem Inv.setOwn (h : Inv c s) (x : Nat) (q : Pc) (p : Nat) (sl : Slot)
    (hnm : (s.mem s.tab p).tag ≠ .moved)
    (htag : sl.tag = .busy ∨ sl.tag = .inuse)
    (hkey : sl.key = (s.mem s.tab p).key ∨ (s.mem s.tab p).key = none ∧
      ∃ k d, sl.key = some k ∧ p = c.pos s.tab k d ∧ Path c s.mem s.tab k d)
    (hin : sl.tag = .inuse → sl.key ≠ none)
    (hoth : ∀ y, y ≠ x → owner c (s.pc y) ≠ some (s.tab, p))
    (hp : PcS c ((s.set s.tab p sl).goto x q) q)
    (ho : owner c q = none ∨ owner c q = some (s.tab, p))
    (hc : isCop q = false) (hcx : isCop (s.pc x) = false) :
    Inv c ((s.set s.tab p sl).goto x q) := by
  have hmono : KeyMono s.mem (s.set s.tab p sl).mem := by
    intro t p' k hk
    rw [set_mem]
    split
    · rename_i e; obtain ⟨rfl, rfl⟩ := e
      rcases hkey with hkey | hkey
      · rw [hkey]; exact hk
      · rw [hkey.1] at hk; simp at hk
    · exact hk
  have hmv : ∀ p', ((s.set s.tab p sl).mem s.tab p').tag = .moved ↔
      (s.mem s.tab p').tag = .moved := by
    intro p'
    rw [set_mem]
    split
    · rename_i e; obtain ⟨_, rfl⟩ := e
      constructor
      · intro e; rw [e] at htag; simp at htag
      · intro e; exact absurd e hnm
    · exact Iff.rfl
  have hother : ∀ t p', t ≠ s.tab → (s.set s.tab p sl).mem t p' = s.mem t p' := by
    intro t p' ht; rw [set_mem]; simp [ht]
  have hrw : ∀ t, ((s.set s.tab p sl).goto x q).mem t = (s.set s.tab p sl).mem t := fun _ => rfl
  constructor
  · exact h.res
  · intro t p' ht hp'
    simp only [goto_mem, goto_tab, set_tab] at ht ⊢
    rw [hother _ _ (by omega)]; exact h.old t p' ht hp'
  · intro t p' ht
    simp only [goto_mem, goto_res, set_res] at ht ⊢
    rw [hother _ _ (by rcases h.res with e | e <;> omega)]; exact h.new t p' ht
  · intro p' hne
    simp only [goto_mem, goto_res, set_res, goto_tab, set_tab] at hne ⊢
    rw [hother _ _ hne]; exact h.cop p' hne
  · intro t p' ht
    simp only [goto_mem] at ht ⊢
    rw [set_mem] at ht ⊢
    split
    · rename_i e; rw [if_pos e] at ht; rw [ht] at htag; simp at htag
    · rename_i e; rw [if_neg e] at ht; exact h.wff _ _ ht
  · intro t p' ht
    simp only [goto_mem] at ht ⊢
    rw [set_mem] at ht ⊢
    split
    · rename_i e; rw [if_pos e] at ht; exact hin ht
    · rename_i e; rw [if_neg e] at ht; exact h.wfu _ _ ht
  · intro t p' k hk
    simp only [goto_mem] at hk ⊢
    rw [set_mem] at hk
    split at hk
    · rename_i e; obtain ⟨rfl, rfl⟩ := e
      rcases hkey with hkey | ⟨_, k', d, e1, e2, e3⟩
      · obtain ⟨d, e1, e2⟩ := h.path s.tab p' k (hkey ▸ hk)
        exact ⟨d, e1, e2.mono hmono⟩
      · rw [e1] at hk; simp at hk; subst hk
        exact ⟨d, e2, e3.mono hmono⟩
    · obtain ⟨d, e1, e2⟩ := h.path t p' k hk
      exact ⟨d, e1, e2.mono hmono⟩
  · intro hr p'
    simp only [goto_mem, goto_tab, set_tab]
    intro hm
    exact h.nomv hr p' ((hmv p').1 hm)
  · intro p' k hm hk
    simp only [goto_mem, goto_tab, set_tab] at hm hk ⊢
    have hm' := (hmv p').1 hm
    have : p' ≠ p := by rintro rfl; exact hnm hm'
    rw [set_mem] at hk
    rw [if_neg (by simp [this])] at hk
    obtain ⟨q', hq'⟩ := h.mvd p' k hm' hk
    exact ⟨q', by rw [hother _ _ (by omega)]; exact hq'⟩
  · intro q' k hk
    simp only [goto_mem, goto_tab, set_tab, goto_pc, set_pc] at hk ⊢
    rw [hother _ _ (by omega)] at hk
    rcases h.src q' k hk with ⟨p', e1, e2⟩ | ⟨y, k0, v0, i, e⟩
    · left
      exact ⟨p', (hmv p').2 e1, hmono _ _ _ e2⟩
    · right
      refine ⟨y, k0, v0, i, ?_⟩
      have : y ≠ x := by rintro rfl; rw [e] at hcx; simp [isCop] at hcx
      simp [this, e]
  · intro y
    by_cases hyx : y = x
    · subst hyx; simp only [goto_pc, upd_same]; exact hp
    · simp only [goto_pc, set_pc, ne_eq, hyx, not_false_eq_true, upd_ne]
      refine (h.pcs y).other hmono rfl ?_ ?_
      · intro t p' he
        show (s.set s.tab p sl).mem t p' = _
        rw [set_mem, if_neg]
        rintro ⟨rfl, rfl⟩
        exact hoth y hyx he
      · intro _
        refine ⟨rfl, ?_, hmv⟩
        funext p'
        exact hother _ _ (by omega)
  · intro y z a hy hz
    simp only [goto_pc, set_pc, upd] at hy hz
    split at hy <;> split at hz
    · omega
    · rename_i e1 e2
      rcases ho with ho | ho
      · rw [ho] at hy; simp at hy
      · rw [ho] at hy; simp at hy; subst hy; exact absurd hz (hoth z e2)
    · rename_i e1 e2
      rcases ho with ho | ho
      · rw [ho] at hz; simp at hz
      · rw [ho] at hz; simp at hz; subst hz; exact absurd hy (hoth y e1)
    · exact h.own1 y z _ hy hz
  · intro y z hy hz
    simp only [goto_pc, set_pc, upd] at hy hz
    split at hy <;> split at hz
    · omega
    · rw [hc] at hy; simp at hy
    · rw [hc] at hz; simp at hz
    · exact h.cop1 y z hy hz

end Verif.Hash.Chash
