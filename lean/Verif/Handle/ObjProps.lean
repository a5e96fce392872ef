import Verif.Handle.Lemmas

/-!
# C79: handles of VPI and VHPI objects

Specification: a handle stands for the object for which it was returned, as long as it was returned
more often than it was dropped.
-/

namespace Verif.Handle

variable {c : Cfg}

/-! ## Specification -/

def OEv.refOn (h : Nat) (n : Nat) : OEv → Nat
  | .got h' _ => if h' = h then n + 1 else n
  | .dropped h' => if h' = h then n - 1 else n

/-- How often the program holds `h`. -/
def refs (tr : List OEv) (h : Nat) : Nat := tr.foldl (OEv.refOn h) 0

def OEv.objOn (h : Nat) (r : Option Nat) : OEv → Option Nat
  | .got h' o => if h' = h then some o else r
  | .dropped _ => r

/-- The object for which `h` was returned last. -/
def lastObj (tr : List OEv) (h : Nat) : Option Nat := tr.foldl (OEv.objOn h) none

/-- The object for which `h` stands. -/
def objOf (tr : List OEv) (h : Nat) : Option Nat :=
  if refs tr h = 0 then none else lastObj tr h

def OEv.handle? : OEv → Option Nat
  | .got h _ => some h
  | .dropped _ => none

/-- The handles that were returned, the oldest first. -/
def gots (tr : List OEv) : List Nat := tr.filterMap OEv.handle?

theorem refs_snoc (tr : List OEv) (e : OEv) (h : Nat) :
    refs (tr ++ [e]) h = e.refOn h (refs tr h) := by simp [refs]

theorem lastObj_snoc (tr : List OEv) (e : OEv) (h : Nat) :
    lastObj (tr ++ [e]) h = e.objOn h (lastObj tr h) := by simp [lastObj]

theorem gots_got (tr : List OEv) (h o : Nat) : gots (tr ++ [.got h o]) = gots tr ++ [h] := by
  simp [gots, OEv.handle?]

theorem gots_dropped (tr : List OEv) (h : Nat) : gots (tr ++ [.dropped h]) = gots tr := by
  simp [gots, OEv.handle?]

theorem refs_le (tr : List OEv) (h : Nat) (hr : refs tr h ≠ 0) : h ∈ gots tr := by
  have key : ∀ (l : List OEv) (n : Nat), l.foldl (OEv.refOn h) n ≠ 0 → n ≠ 0 ∨ h ∈ gots l := by
    intro l
    induction l with
    | nil => intro n hn; exact .inl hn
    | cons e l ih =>
      intro n hn
      rcases ih _ hn with h1 | h1
      · cases e with
        | got h' o =>
          simp only [OEv.refOn] at h1
          by_cases hc : h' = h
          · right; simp [gots, OEv.handle?, hc]
          · rw [if_neg hc] at h1; exact .inl h1
        | dropped h' =>
          simp only [OEv.refOn] at h1
          left; intro h0; subst h0; split at h1 <;> exact h1 rfl
      · right
        cases e <;> simp [gots, OEv.handle?] at h1 ⊢
        · exact .inr h1
        · exact h1
  rcases key tr 0 hr with h | h
  · exact absurd rfl h
  · exact h

/-! ## The invariant -/

/-- What holds as long as no generation has wrapped around. -/
structure OInv (c : Cfg) (tr : List OEv) (s : Objs) : Prop where
  pos : ∀ i, 1 ≤ (slotAt s.tab i).gen
  free : ∀ i, (slotAt s.tab i).obj = none → (slotAt s.tab i).gen ≤ (gots tr).length + 1
  used : ∀ i, (slotAt s.tab i).obj ≠ none → (slotAt s.tab i).gen ≤ (gots tr).length
  old : ∀ h ∈ gots tr, h / c.lim ≤ (slotAt s.tab (h % c.lim)).gen
  gone : ∀ h ∈ gots tr, (slotAt s.tab (h % c.lim)).obj = none →
    h / c.lim < (slotAt s.tab (h % c.lim)).gen
  /-- a slot in use -/
  slot : ∀ i o, i < c.lim → (slotAt s.tab i).obj = some o →
    0 < (slotAt s.tab i).ref ∧ s.handle o = (slotAt s.tab i).gen * c.lim + i ∧
    refs tr ((slotAt s.tab i).gen * c.lim + i) = (slotAt s.tab i).ref ∧
    lastObj tr ((slotAt s.tab i).gen * c.lim + i) = some o
  /-- an object with a handle -/
  back : ∀ o, s.handle o ≠ 0 → (slotAt s.tab (s.handle o % c.lim)).obj = some o ∧
    (slotAt s.tab (s.handle o % c.lim)).gen = s.handle o / c.lim
  /-- a handle that is held -/
  held : ∀ h, refs tr h ≠ 0 → (slotAt s.tab (h % c.lim)).obj ≠ none ∧
    (slotAt s.tab (h % c.lim)).gen = h / c.lim

theorem OInv.new : OInv c [] {} := by
  constructor <;> simp [slotAt, gots, refs]

/-- A handle with generation 1 or more is not 0. -/
theorem handle_ne {g i : Nat} (hg : 1 ≤ g) : g * c.lim + i ≠ 0 := by
  have := Nat.mul_le_mul hg (lim_pos (c := c))
  omega

/-- Setting only the count of a slot. -/
theorem set_ref (t : Tab) (i : Nat) (n : Nat) (hi : i < t.slots.length) (j : Nat) :
    slotAt { t with slots := t.slots.set i { slotAt t i with ref := n } } j =
      { slotAt t j with ref := if j = i then n else (slotAt t j).ref } := by
  rw [set_slotAt t t.hint i _ hi j]
  split
  · rename_i h; subst h; rfl
  · rfl

theorem OInv.again {tr s o} (inv : OInv c tr s) (h0 : s.handle o ≠ 0) :
    ∃ s', handleFor c s o = some (s.handle o, s') ∧ OInv c (tr ++ [.got (s.handle o) o]) s' := by
  obtain ⟨b1, b2⟩ := inv.back o h0
  have hn : (slotAt s.tab (s.handle o % c.lim)).obj ≠ none := by simp [b1]
  have hml : s.handle o % c.lim < c.lim := Nat.mod_lt _ lim_pos
  obtain ⟨k1, k2, k3, k4⟩ := inv.slot _ o hml b1
  have hlt := slot_lt hn
  have hd : decodeSlot c s.tab (s.handle o) =
      some (s.handle o % c.lim, slotAt s.tab (s.handle o % c.lim)) := by
    rw [decodeSlot_eq, if_pos ⟨h0, hn, b2⟩]
  refine ⟨_, by unfold handleFor; rw [if_pos h0, hd]; dsimp only; rw [if_pos ⟨k1, b1⟩], ?_⟩
  generalize hh : s.handle o = h at *
  have hv := set_ref s.tab (h % c.lim) ((slotAt s.tab (h % c.lim)).ref + 1) hlt
  constructor
  · intro j; rw [hv]; exact inv.pos j
  · intro j; rw [hv, gots_got]; simp; intro hj; have := inv.free j hj; omega
  · intro j; rw [hv, gots_got]; simp; intro hj; have := inv.used j hj; omega
  · intro h'; rw [hv, gots_got]; simp
    rintro (h1 | rfl)
    · exact inv.old h' h1
    · rw [b2]; exact Nat.le_refl _
  · intro h'; rw [hv, gots_got]; simp
    rintro (h1 | rfl)
    · exact inv.gone h' h1
    · intro hx; exact absurd hx hn
  · intro j o' hj; rw [hv]; dsimp only
    intro ho
    obtain ⟨i1, i2, i3, i4⟩ := inv.slot j o' hj ho
    rw [refs_snoc, lastObj_snoc]
    simp only [OEv.refOn, OEv.objOn]
    by_cases hc : j = h % c.lim
    · subst hc
      have e : (slotAt s.tab (h % c.lim)).gen * c.lim + h % c.lim = h := by
        rw [b2]; exact handle_join h
      rw [b1] at ho
      simp only [Option.some.injEq] at ho
      subst ho
      rw [e] at i3 i2 ⊢
      simp [i3, hh]
    · have : h ≠ (slotAt s.tab j).gen * c.lim + j := by
        intro e; apply hc; rw [e]; exact (handle_split hj).1.symm
      rw [if_neg hc, if_neg this, if_neg this]
      exact ⟨i1, i2, i3, i4⟩
  · intro o'; rw [hv]; exact inv.back o'
  · intro h'; rw [hv, refs_snoc]
    simp only [OEv.refOn]
    by_cases hc : h = h'
    · subst hc; intro _; exact ⟨hn, b2⟩
    · rw [if_neg hc]; exact inv.held h'

theorem OInv.first {tr s o h t} (inv : OInv c tr s) (h0 : s.handle o = 0)
    (ha : alloc c s.tab o = some (h, t)) :
    h ∉ gots tr ∧ h ≠ 0 ∧ OInv c (tr ++ [.got h o])
      { tab := t, handle := fun o' => if o' = o then h else s.handle o' } := by
  obtain ⟨i, hi, hf, rfl, _, _, hv⟩ := alloc_spec ha
  obtain ⟨e1, e2⟩ := handle_split (g := (slotAt s.tab i).gen) hi
  have hnew : (slotAt s.tab i).gen * c.lim + i ∉ gots tr := by
    intro hm
    have := inv.gone _ hm
    rw [e1, e2] at this
    exact Nat.lt_irrefl _ (this hf)
  have hne := handle_ne (c := c) (i := i) (inv.pos i)
  have hr0 : refs tr ((slotAt s.tab i).gen * c.lim + i) = 0 := by
    apply Classical.byContradiction
    intro hx
    exact hnew (refs_le _ _ hx)
  refine ⟨hnew, hne, ?_⟩
  generalize hh : (slotAt s.tab i).gen * c.lim + i = h at *
  constructor
  · intro j; rw [hv]; split
    · exact inv.pos i
    · exact inv.pos j
  · intro j; rw [hv, gots_got]; simp; split
    · simp
    · intro hj; have := inv.free j hj; omega
  · intro j; rw [hv, gots_got]; simp; split
    · intro _; exact inv.free i hf
    · intro hj; have := inv.used j hj; omega
  · intro h'; rw [hv, gots_got]; simp
    rintro (h1 | rfl)
    · have := inv.old h' h1
      split
      · rename_i e; rw [e] at this; exact this
      · exact this
    · rw [e1, e2]; simp
  · intro h'; rw [hv, gots_got]; simp
    rintro (h1 | rfl)
    · have := inv.gone h' h1
      split
      · simp
      · exact this
    · rw [e1]; simp
  · intro j o' hj; rw [hv]
    by_cases hc : j = i
    · rw [if_pos hc]
      intro ho
      simp only [Option.some.injEq] at ho
      subst ho
      dsimp only
      rw [hc, hh, refs_snoc, lastObj_snoc]
      simp [OEv.refOn, OEv.objOn, hr0]
    · rw [if_neg hc]
      intro ho
      obtain ⟨i1, i2, i3, i4⟩ := inv.slot j o' hj ho
      have : h ≠ (slotAt s.tab j).gen * c.lim + j := by
        intro e; apply hc; rw [← e1, e]; exact (handle_split hj).1.symm
      rw [refs_snoc, lastObj_snoc]
      simp only [OEv.refOn, OEv.objOn]
      rw [if_neg this, if_neg this]
      refine ⟨i1, ?_, i3, i4⟩
      rw [if_neg]
      · exact i2
      · intro e; subst e
        rw [h0] at i2
        exact handle_ne (inv.pos j) i2.symm
  · intro o'
    dsimp only
    by_cases hc : o' = o
    · simp only [if_pos hc]
      intro _
      rw [hv, e1]
      simp [hc, e2]
    · simp only [if_neg hc]
      intro hx
      obtain ⟨b1, b2⟩ := inv.back o' hx
      rw [hv]
      have : s.handle o' % c.lim ≠ i := by
        intro e; rw [e, hf] at b1; simp at b1
      rw [if_neg this]
      exact ⟨b1, b2⟩
  · intro h'
    rw [hv, refs_snoc]
    simp only [OEv.refOn]
    by_cases hc : h = h'
    · subst hc; intro _; rw [e1]; simp [e2]
    · rw [if_neg hc]
      intro hx
      obtain ⟨b1, b2⟩ := inv.held h' hx
      have : h' % c.lim ≠ i := by
        intro e; rw [e] at b1; exact b1 hf
      rw [if_neg this]
      exact ⟨b1, b2⟩

theorem OInv.drop {tr s} (inv : OInv c tr s) (hb : (gots tr).length + 2 ≤ c.lim) (h : Nat) :
    ∃ s', dropHandle c s h = some s' ∧ OInv c (tr ++ [.dropped h]) s' := by
  unfold dropHandle
  cases hd : decodeSlot c s.tab h with
  | none =>
    refine ⟨s, rfl, ?_⟩
    have hr0 : refs tr h = 0 := by
      apply Classical.byContradiction
      intro hx
      obtain ⟨b1, b2⟩ := inv.held h hx
      have h0 : h ≠ 0 := by
        intro e
        subst e
        have := inv.pos (0 % c.lim)
        rw [b2] at this
        simp at this
      rw [decodeSlot_eq, if_pos ⟨h0, b1, b2⟩] at hd
      simp at hd
    have hrefs : ∀ h', refs (tr ++ [.dropped h]) h' = refs tr h' := by
      intro h'; rw [refs_snoc]; simp only [OEv.refOn]; split
      · rename_i e; rw [← e, hr0]
      · rfl
    have hlast : ∀ h', lastObj (tr ++ [.dropped h]) h' = lastObj tr h' := by
      intro h'; rw [lastObj_snoc]; rfl
    constructor
    · exact inv.pos
    · rw [gots_dropped]; exact inv.free
    · rw [gots_dropped]; exact inv.used
    · rw [gots_dropped]; exact inv.old
    · rw [gots_dropped]; exact inv.gone
    · intro i o; rw [hrefs, hlast]; exact inv.slot i o
    · exact inv.back
    · intro h'; rw [hrefs]; exact inv.held h'
  | some r =>
    obtain ⟨i, sl⟩ := r
    obtain ⟨h0, rfl, rfl, h3, h4⟩ := decodeSlot_some hd
    have hml : h % c.lim < c.lim := Nat.mod_lt _ lim_pos
    dsimp only
    obtain ⟨o, ho⟩ := Option.ne_none_iff_exists'.1 h3
    obtain ⟨k1, k2, k3, k4⟩ := inv.slot _ o hml ho
    have e : (slotAt s.tab (h % c.lim)).gen * c.lim + h % c.lim = h := by
      rw [h4]; exact handle_join h
    rw [e] at k2 k3 k4
    have hlt := slot_lt h3
    rw [ho]
    dsimp only
    rw [if_pos ⟨k1, k2⟩]
    have hoth : ∀ j, j < c.lim → j ≠ h % c.lim → h ≠ (slotAt s.tab j).gen * c.lim + j := by
      intro j hj hc e'
      apply hc; rw [e']; exact (handle_split hj).1.symm
    by_cases hl : (slotAt s.tab (h % c.lim)).ref - 1 > 0
    · rw [if_pos hl]
      refine ⟨_, rfl, ?_⟩
      have hv := set_ref s.tab (h % c.lim) ((slotAt s.tab (h % c.lim)).ref - 1) hlt
      simp only [ho] at hv
      constructor
      · intro j; rw [hv]; exact inv.pos j
      · intro j; rw [hv, gots_dropped]; exact inv.free j
      · intro j; rw [hv, gots_dropped]; exact inv.used j
      · intro h'; rw [hv, gots_dropped]; exact inv.old h'
      · intro h'; rw [hv, gots_dropped]; exact inv.gone h'
      · intro j o' hj; rw [hv]; dsimp only
        intro ho'
        obtain ⟨i1, i2, i3, i4⟩ := inv.slot j o' hj ho'
        rw [refs_snoc, lastObj_snoc]
        simp only [OEv.refOn, OEv.objOn]
        by_cases hc : j = h % c.lim
        · subst hc
          rw [e] at i2 i4 ⊢
          simp only [if_true]
          exact ⟨hl, i2, by rw [k3], i4⟩
        · rw [if_neg hc, if_neg (hoth j hj hc)]
          exact ⟨i1, i2, i3, i4⟩
      · intro o'; rw [hv]; exact inv.back o'
      · intro h'; rw [hv, refs_snoc]
        simp only [OEv.refOn]
        by_cases hc : h = h'
        · subst hc; intro _; exact ⟨h3, h4⟩
        · rw [if_neg hc]; exact inv.held h'
    · rw [if_neg hl]
      refine ⟨_, rfl, ?_⟩
      have hu := inv.used _ h3
      have hmod : ((slotAt s.tab (h % c.lim)).gen + 1) % c.lim =
          (slotAt s.tab (h % c.lim)).gen + 1 := Nat.mod_eq_of_lt (by omega)
      have hv := release_slotAt (c := c) s.tab _ (slotAt s.tab (h % c.lim)) hlt
      rw [hmod] at hv
      constructor
      · intro j; rw [hv]; split
        · exact Nat.le_add_left _ _
        · exact inv.pos j
      · intro j; rw [hv, gots_dropped]; split
        · intro _; exact Nat.succ_le_succ hu
        · exact inv.free j
      · intro j; rw [hv, gots_dropped]; split
        · simp
        · exact inv.used j
      · intro h'; rw [hv, gots_dropped]; intro hh
        have := inv.old h' hh
        split
        · rename_i e; rw [e] at this; exact Nat.le_succ_of_le this
        · exact this
      · intro h'; rw [hv, gots_dropped]; intro hh
        have h5 := inv.old h' hh
        have := inv.gone h' hh
        split
        · rename_i e; rw [e] at h5; intro _; exact Nat.lt_succ_of_le h5
        · exact this
      · intro j o' hj; rw [hv]
        by_cases hc : j = h % c.lim
        · rw [if_pos hc]; simp
        · rw [if_neg hc]
          intro ho'
          obtain ⟨i1, i2, i3, i4⟩ := inv.slot j o' hj ho'
          rw [refs_snoc, lastObj_snoc]
          simp only [OEv.refOn, OEv.objOn]
          rw [if_neg (hoth j hj hc)]
          refine ⟨i1, ?_, i3, i4⟩
          rw [if_neg]
          · exact i2
          · intro e'; subst e'
            rw [k2] at i2
            exact hoth j hj hc i2
      · intro o'
        dsimp only
        by_cases hc : o' = o
        · simp [hc]
        · simp only [if_neg hc]
          intro hx
          obtain ⟨b1, b2⟩ := inv.back o' hx
          rw [hv]
          have : s.handle o' % c.lim ≠ h % c.lim := by
            intro e'; rw [e', ho] at b1
            simp only [Option.some.injEq] at b1
            exact hc b1.symm
          rw [if_neg this]
          exact ⟨b1, b2⟩
      · intro h'
        rw [hv, refs_snoc]
        simp only [OEv.refOn]
        by_cases hc : h = h'
        · subst hc
          rw [if_pos rfl, k3]
          intro hx
          omega
        · rw [if_neg hc]
          intro hx
          obtain ⟨b1, b2⟩ := inv.held h' hx
          have : h' % c.lim ≠ h % c.lim := by
            intro e'
            apply hc
            rw [e', h4] at b2
            rw [← handle_join (c := c) h, ← handle_join (c := c) h', b2, e']
          rw [if_neg this]
          exact ⟨b1, b2⟩

theorem ORun.inv {tr s} (hr : ORun c tr s) (hb : (gots tr).length + 2 ≤ c.lim) : OInv c tr s := by
  induction hr with
  | new => exact .new
  | got tr s o h s' hr ha ih =>
    rw [gots_got] at hb
    simp at hb
    have inv := ih (by omega)
    by_cases h0 : s.handle o = 0
    · unfold handleFor at ha
      rw [if_neg (by simpa using h0)] at ha
      cases hal : alloc c s.tab o with
      | none => simp [hal] at ha
      | some r =>
        obtain ⟨h', t⟩ := r
        simp [hal] at ha
        obtain ⟨rfl, rfl⟩ := ha
        exact (inv.first h0 hal).2.2
    · obtain ⟨s'', h1, h2⟩ := inv.again h0
      rw [h1] at ha
      simp at ha
      obtain ⟨rfl, rfl⟩ := ha
      exact h2
  | dropped tr s h s' hr hd ih =>
    rw [gots_dropped] at hb
    obtain ⟨s'', h1, h2⟩ := (ih hb).drop hb h
    rw [h1] at hd
    simp at hd
    subst hd
    exact h2

/-! ## Theorems -/

/-- Every number is decoded to the object for which it stands: as long as fewer than `lim - 1`
handles (about four thousand million) have been returned. -/
theorem decode_obj_partial {tr s} (hr : ORun c tr s) (hb : (gots tr).length + 2 ≤ c.lim) (h : Nat) :
    decode c s.tab h = objOf tr h := by
  have inv := hr.inv hb
  rw [decode_eq]
  unfold objOf
  have hml : h % c.lim < c.lim := Nat.mod_lt _ lim_pos
  by_cases hr0 : refs tr h = 0
  · rw [if_pos hr0]
    split
    · rename_i hx
      cases ho : (slotAt s.tab (h % c.lim)).obj with
      | none => rfl
      | some o =>
        obtain ⟨k1, _, k3, _⟩ := inv.slot _ o hml ho
        rw [hx.2, handle_join, hr0] at k3
        omega
    · rfl
  · rw [if_neg hr0]
    obtain ⟨b1, b2⟩ := inv.held h hr0
    have h0 : h ≠ 0 := by
      intro e
      subst e
      have := inv.pos (0 % c.lim)
      rw [b2] at this
      simp at this
    rw [if_pos ⟨h0, b2⟩]
    obtain ⟨o, ho⟩ := Option.ne_none_iff_exists'.1 b1
    obtain ⟨_, _, _, k4⟩ := inv.slot _ o hml ho
    rw [b2, handle_join] at k4
    rw [k4, ho]

/-- `handle_for` returns the handle that the program holds for the object, if it holds one. -/
theorem handle_same_partial {tr s o h} (hr : ORun c tr s) (hb : (gots tr).length + 2 ≤ c.lim)
    (ho : objOf tr h = some o) : ∃ s', handleFor c s o = some (h, s') := by
  have inv := hr.inv hb
  have hd := decode_obj_partial hr hb h
  rw [ho, decode_eq] at hd
  split at hd
  · rename_i hx
    obtain ⟨_, k2, _, _⟩ := inv.slot _ o (Nat.mod_lt _ lim_pos) hd
    rw [hx.2, handle_join] at k2
    obtain ⟨s', h1, _⟩ := inv.again (o := o) (by rw [k2]; exact hx.1)
    rw [k2] at h1
    exact ⟨s', h1⟩
  · simp at hd

/-- Otherwise it returns a handle that was never returned before and is not 0. -/
theorem handle_new_partial {tr s o h s'} (hr : ORun c tr s) (hb : (gots tr).length + 2 ≤ c.lim)
    (ho : ∀ h', objOf tr h' ≠ some o) (ha : handleFor c s o = some (h, s')) :
    h ∉ gots tr ∧ h ≠ 0 := by
  have inv := hr.inv hb
  have h0 : s.handle o = 0 := by
    apply Classical.byContradiction
    intro hx
    obtain ⟨b1, b2⟩ := inv.back o hx
    apply ho (s.handle o)
    rw [← decode_obj_partial hr hb, decode_eq, if_pos ⟨hx, b2⟩, b1]
  unfold handleFor at ha
  rw [if_neg (by simpa using h0)] at ha
  cases hal : alloc c s.tab o with
  | none => simp [hal] at ha
  | some r =>
    obtain ⟨h', t⟩ := r
    simp [hal] at ha
    obtain ⟨rfl, rfl⟩ := ha
    exact ⟨(inv.first h0 hal).1, (inv.first h0 hal).2.1⟩

/-- No assertion of `drop_handle` fails, whatever number is dropped; `handle_for` fails only when it
needs a slot and there is none ("too many active handles"). -/
theorem no_assert_partial {tr s} (hr : ORun c tr s) (hb : (gots tr).length + 2 ≤ c.lim) :
    (∀ h, dropHandle c s h ≠ none) ∧
    ∀ o, handleFor c s o = none → (∀ h, objOf tr h ≠ some o) ∧ alloc c s.tab o = none := by
  have inv := hr.inv hb
  refine ⟨fun h => ?_, fun o hn => ?_⟩
  · obtain ⟨s', h1, _⟩ := inv.drop hb h
    rw [h1]; simp
  · constructor
    · intro h ho
      obtain ⟨s', h1⟩ := handle_same_partial hr hb ho
      rw [h1] at hn
      simp at hn
    · by_cases h0 : s.handle o = 0
      · unfold handleFor at hn
        rw [if_neg (by simpa using h0)] at hn
        cases hal : alloc c s.tab o with
        | none => rfl
        | some r => simp [hal] at hn
      · obtain ⟨s', h1, _⟩ := inv.again h0
        rw [h1] at hn
        simp at hn

theorem findFree_le (l : List Slot) (n k : Nat) {s : Slot} (hk : l[k]? = some s)
    (hs : s.obj = none) (hg : s.gen < c.lim - 1) : findFree c l n ≤ n + k := by
  induction l generalizing n k with
  | nil => simp at hk
  | cons a l ih =>
    unfold findFree
    split
    · omega
    · rename_i hx
      cases k with
      | zero => simp at hk; subst hk; exact absurd ⟨hs, hg⟩ hx
      | succ k =>
        have := ih (n + 1) k (by simpa using hk)
        omega

/-- Slots are used from the lowest number on. -/
structure Low (n : Nat) (t : Tab) : Prop where
  hint : t.hint ≤ n
  rest : ∀ i, n ≤ i → slotAt t i = {}
  some : t.slots ≠ [] → 0 < n

theorem Low.pick {n t} (h : Low n t) (hb : n + 2 ≤ c.lim) : pick c t ≤ n := by
  have key : findFree c t.slots 0 ≤ n := by
    obtain ⟨_, h2, _⟩ := findFree_spec (c := c) t.slots 0
    by_cases hl : n < t.slots.length
    · have h0 := h.some (by intro e; simp [e] at hl)
      have hr := h.rest n (Nat.le_refl _)
      unfold slotAt at hr
      rw [List.getElem?_eq_getElem hl] at hr
      simp at hr
      have := findFree_le (c := c) t.slots 0 n (List.getElem?_eq_getElem hl) (by rw [hr])
        (by rw [hr]; dsimp only; omega)
      omega
    · omega
  unfold Handle.pick
  split
  · split
    · exact h.hint
    · exact key
  · exact key

theorem Low.alloc {n t o h t'} (hl : Low n t) (hb : n + 2 ≤ c.lim)
    (e : alloc c t o = .some (h, t')) : Low (n + 1) t' := by
  have hp := hl.pick (c := c) hb
  obtain ⟨i, _, _, _, h1, h2, hv⟩ := alloc_spec e
  constructor
  · omega
  · intro j hj
    rw [hv, if_neg (by omega)]
    exact hl.rest j (by omega)
  · intro _; omega

theorem Low.set {n t i s} (hl : Low n t) (hu : (slotAt t i).obj ≠ none) (hint : Nat)
    (hh : hint ≤ n) : Low n { slots := t.slots.set i s, hint := hint } := by
  have hi : i < n := by
    apply Classical.byContradiction
    intro hx
    rw [hl.rest i (by omega)] at hu
    exact hu rfl
  constructor
  · exact hh
  · intro j hj
    rw [set_slotAt _ _ _ _ (slot_lt hu), if_neg (by omega)]
    exact hl.rest j hj
  · intro _; omega

theorem Low.mono {n m t} (hl : Low n t) (h : n ≤ m) : Low m t :=
  ⟨by have := hl.hint; omega, fun i hi => hl.rest i (by omega), fun hx => by
    have := hl.some hx; omega⟩

theorem ORun.low {tr s} (hr : ORun c tr s) (hb : (gots tr).length + 1 ≤ c.lim) :
    Low (gots tr).length s.tab := by
  induction hr with
  | new => constructor <;> simp [slotAt]
  | got tr s o h s' hr ha ih =>
    rw [gots_got] at hb ⊢
    simp at hb ⊢
    have low := ih (by omega)
    unfold handleFor at ha
    split at ha
    · split at ha
      · simp at ha
      · rename_i i sl hd
        obtain ⟨_, _, rfl, h3, _⟩ := decodeSlot_some hd
        split at ha
        · simp at ha
          obtain ⟨_, rfl⟩ := ha
          exact (low.set h3 _ low.hint).mono (by omega)
        · simp at ha
    · split at ha
      · simp at ha
      · rename_i h' t hal
        simp at ha
        obtain ⟨_, rfl⟩ := ha
        exact low.alloc (by omega) hal
  | dropped tr s h s' hr hd ih =>
    rw [gots_dropped] at hb ⊢
    have low := ih hb
    unfold dropHandle at hd
    split at hd
    · simp at hd; subst hd; exact low
    · rename_i i sl hds
      obtain ⟨_, _, rfl, h3, _⟩ := decodeSlot_some hds
      split at hd
      · simp at hd
      · split at hd
        · split at hd
          · simp at hd; subst hd; exact low.set h3 _ low.hint
          · simp at hd; subst hd
            refine low.set h3 _ ?_
            apply Classical.byContradiction
            intro hx
            rw [low.rest i (by omega)] at h3
            exact h3 rfl
        · simp at hd

/-- So `handle_for` never fails as long as fewer than `lim - 1` handles have been returned. -/
theorem handle_total_partial {tr s} (hr : ORun c tr s) (hb : (gots tr).length + 2 ≤ c.lim) (o : Nat) :
    ∃ h s', handleFor c s o = some (h, s') := by
  have inv := hr.inv hb
  cases hx : handleFor c s o with
  | some r => exact ⟨r.1, r.2, rfl⟩
  | none =>
    exfalso
    have hal := ((no_assert_partial hr hb).2 o hx).2
    obtain ⟨h', t', e⟩ := alloc_some (c := c) s.tab o
      (by have := (hr.low (by omega)).pick (c := c) hb; omega)
    rw [e] at hal
    simp at hal

/-- As for objects, with a smaller first table. -/
def exCfg : Cfg := ⟨32, 4, by decide⟩

/-- Two handles for one object are the same; the handle stands for the object until it has been
dropped twice; the next handle with its slot is another one. -/
example : ∃ tr s, ORun exCfg tr s ∧
    gots tr = [4294967296, 4294967297, 4294967296, 8589934592] ∧ refs tr 4294967297 = 1 ∧
    decode exCfg s.tab 4294967296 = none ∧ decode exCfg s.tab 4294967297 = some 6 ∧
    decode exCfg s.tab 8589934592 = some 7 ∧ (gots tr).length + 2 ≤ exCfg.lim := by
  refine ⟨_, _, .got _ _ 7 8589934592 _ (.dropped _ _ 4294967296 _ (.dropped _ _ 4294967296 _
    (.got _ _ 5 4294967296 _ (.got _ _ 6 4294967297 _ (.got _ _ 5 4294967296 _ .new rfl) rfl) rfl)
    rfl) rfl) rfl, ?_, ?_, ?_, ?_, ?_, ?_⟩ <;> decide +kernel

end Verif.Handle
