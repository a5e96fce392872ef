import Verif.Jit.LscanModel
import Verif.Jit.LivenessProps

/-!
# Linear scan gives overlapping intervals different slots

Property C33.
-/

namespace Verif.Code

/-! ## specification -/

/-- Two intervals have a position in common. -/
def Interval.overlaps (a b : Interval) : Prop := ∃ p, a.first ≤ p ∧ p ≤ a.last ∧ b.first ≤ p ∧ p ≤ b.last

/-! ## counting registers -/

theorem countP_set (l : List Nat) (hn : l.Nodup) (p : Nat → Bool) (i : Nat) (hi : i ∈ l) (hp : p i = false) :
    l.countP (fun j => if j = i then true else p j) = l.countP p + 1 := by
  induction l with
  | nil => simp at hi
  | cons x l ih =>
    rw [List.nodup_cons] at hn
    rw [List.countP_cons, List.countP_cons]
    rcases List.mem_cons.1 hi with rfl | hi
    · have : l.countP (fun j => if j = i then true else p j) = l.countP p := by
        apply List.countP_congr
        intro j hj
        have : j ≠ i := fun e => hn.1 (e ▸ hj)
        simp [this]
      rw [this, hp]; simp
    · have hx : x ≠ i := fun e => hn.1 (e ▸ hi)
      rw [ih hn.2 hi]
      simp only [hx, if_false]
      omega

theorem countP_clear (l : List Nat) (hn : l.Nodup) (p : Nat → Bool) (i : Nat) (hi : i ∈ l) (hp : p i = true) :
    l.countP (fun j => if j = i then false else p j) + 1 = l.countP p := by
  have := countP_set l hn (fun j => if j = i then false else p j) i hi (by simp)
  rw [← this]
  apply List.countP_congr
  intro j _
  by_cases e : j = i
  · subst e; simp [hp]
  · simp [e]

/-! ## the invariant of the loop -/

structure AllocInv (bad : Nat → Bool) (P rest : List Interval) (st : Alloc) : Prop where
  act_mem : ∀ a ∈ st.active, a ∈ P
  act_slot : ∀ a ∈ st.active, st.slots a.reg < nmachine ∧ bad (st.slots a.reg) = false ∧
    st.free (st.slots a.reg) = false
  act_inj : st.active.Pairwise fun a b => st.slots a.reg ≠ st.slots b.reg
  free_ok : ∀ i, st.free i = true → i < nmachine ∧ bad i = false
  count : st.active.length + (List.range nmachine).countP st.free = machineRegs bad
  slot_ok : ∀ a ∈ P, (st.slots a.reg < nmachine ∧ bad (st.slots a.reg) = false) ∨
    (stackBase ≤ st.slots a.reg ∧ st.slots a.reg < stackBase + st.spills)
  spill_inj : ∀ a ∈ P, ∀ b ∈ P, a.reg ≠ b.reg → stackBase ≤ st.slots a.reg → st.slots a.reg ≠ st.slots b.reg
  done : ∀ a ∈ P, st.slots a.reg < nmachine → a ∈ st.active ∨ ∀ b ∈ rest, a.last < b.first
  disj : ∀ a ∈ P, ∀ b ∈ P, a.reg ≠ b.reg → st.slots a.reg = st.slots b.reg → a.last < b.first ∨ b.last < a.first

theorem expire_inv {bad : Nat → Bool} {P rest : List Interval} {x : Interval} (st : Alloc)
    (hx : ∀ b ∈ rest, x.first ≤ b.first) (h : AllocInv bad P (x :: rest) st) :
    ∃ active free, expire st.slots x.first st.active st.free = some (active, free) ∧
      AllocInv bad P (x :: rest) { st with active := active, free := free } ∧ active <:+ st.active := by
  obtain ⟨slots, free, active, spills⟩ := st
  dsimp only
  induction active generalizing free with
  | nil => exact ⟨[], free, rfl, h, List.suffix_refl _⟩
  | cons a l ih =>
    rw [expire]
    split
    · exact ⟨a :: l, free, rfl, h, List.suffix_refl _⟩
    · rename_i c
      obtain ⟨h1, h2, h3, h4, h5, h6, h7, h8, h9⟩ := h
      dsimp only at *
      have ha := h2 a List.mem_cons_self
      have hs : slots a.reg < stackBase := by
        have := ha.1; unfold nmachine at this; unfold stackBase; omega
      rw [if_pos hs]
      rw [List.pairwise_cons] at h3
      obtain ⟨A, F, g1, g2, g3⟩ := ih (fun i => if i = slots a.reg then true else free i) (by
        constructor <;> dsimp only
        · exact fun b hb => h1 b (List.mem_cons_of_mem _ hb)
        · intro b hb
          have := h2 b (List.mem_cons_of_mem _ hb)
          have hne := h3.1 b hb
          refine ⟨this.1, this.2.1, ?_⟩
          rw [if_neg (fun e => hne e.symm)]; exact this.2.2
        · exact h3.2
        · intro i hi
          split at hi
          · rename_i e; rw [e]; exact ⟨ha.1, ha.2.1⟩
          · exact h4 i hi
        · rw [countP_set _ List.nodup_range _ _ (by simpa using ha.1) ha.2.2]
          rw [List.length_cons] at h5; omega
        · exact h6
        · exact h7
        · intro b hb hsl
          rcases h8 b hb hsl with h | h
          · rcases List.mem_cons.1 h with rfl | h
            · right
              intro y hy
              rcases List.mem_cons.1 hy with rfl | hy
              · omega
              · have := hx y hy; omega
            · exact Or.inl h
          · exact Or.inr h
        · exact h9)
      exact ⟨A, F, g1, g2, g3.trans (List.suffix_cons _ _)⟩

theorem mem_insertActive (x a : Interval) (l : List Interval) : a ∈ insertActive x l ↔ a = x ∨ a ∈ l := by
  unfold insertActive
  rw [List.mem_append, List.mem_cons]
  constructor
  · rintro (h | h | h)
    · exact Or.inr (List.takeWhile_subset _ h)
    · exact Or.inl h
    · exact Or.inr (List.dropWhile_subset _ h)
  · rintro (h | h)
    · exact Or.inr (Or.inl h)
    · rw [← List.takeWhile_append_dropWhile (p := fun a => decide (a.last ≤ x.last)) (l := l)] at h
      rcases List.mem_append.1 h with h | h
      · exact Or.inl h
      · exact Or.inr (Or.inr h)

theorem insertActive_perm (x : Interval) (l : List Interval) : (insertActive x l).Perm (x :: l) := by
  unfold insertActive
  have := List.perm_middle (a := x) (l₁ := l.takeWhile (fun a => decide (a.last ≤ x.last)))
    (l₂ := l.dropWhile (fun a => decide (a.last ≤ x.last)))
  rw [List.takeWhile_append_dropWhile] at this
  exact this

theorem setSlot_eq (slots : Nat → Nat) (r s : Nat) : setSlot slots r s r = s := by simp [setSlot]

theorem setSlot_ne {slots : Nat → Nat} {r s q : Nat} (h : q ≠ r) : setSlot slots r s q = slots q := by
  simp [setSlot, h]

theorem assign_inv {bad : Nat → Bool} {P rest : List Interval} {x : Interval} (st : Alloc)
    (hreg : ∀ a ∈ P, a.reg ≠ x.reg) (hr : 1 ≤ machineRegs bad) (hx : ∀ b ∈ rest, x.first ≤ b.first)
    (h : AllocInv bad P (x :: rest) st) :
    ∃ st', assign (machineRegs bad) st x = some st' ∧ AllocInv bad (P ++ [x]) rest st' := by
  obtain ⟨slots, free, active, spills⟩ := st
  obtain ⟨h1, h2, h3, h4, h5, h6, h7, h8, h9⟩ := h
  dsimp only at *
  have mem : ∀ a, a ∈ P ++ [x] → a ∈ P ∨ a = x := by
    intro a ha; simpa using ha
  unfold assign
  dsimp only
  by_cases hfull : active.length = machineRegs bad
  · rw [if_pos hfull]
    have hne : active ≠ [] := by intro e; rw [e] at hfull; simp at hfull; omega
    have hsplit := List.dropLast_concat_getLast hne
    generalize hsp : active.getLast hne = sp at hsplit
    generalize hini : active.dropLast = ini at hsplit
    have hlast : active.getLast? = some sp := by rw [List.getLast?_eq_some_getLast hne, hsp]
    rw [hlast]
    dsimp only
    subst hsplit
    have hspm : sp ∈ P := h1 sp (by simp)
    have hspx : sp.reg ≠ x.reg := hreg sp hspm
    have hspsl := h2 sp (by simp)
    split
    · rename_i c
      refine ⟨_, rfl, ?_⟩
      rw [List.pairwise_append] at h3
      have hini_ne : ∀ a ∈ ini, a.reg ≠ sp.reg ∧ slots a.reg ≠ slots sp.reg := by
        intro a ha
        have := h3.2.2 a ha sp (by simp)
        exact ⟨fun e => this (by rw [e]), this⟩
      -- slots afterwards
      have sx : setSlot (setSlot slots x.reg (slots sp.reg)) sp.reg (stackBase + spills) x.reg = slots sp.reg := by
        rw [setSlot_ne (fun e => hspx e.symm), setSlot_eq]
      have ssp : setSlot (setSlot slots x.reg (slots sp.reg)) sp.reg (stackBase + spills) sp.reg = stackBase + spills := by
        rw [setSlot_eq]
      have so : ∀ a ∈ P, a.reg ≠ sp.reg →
          setSlot (setSlot slots x.reg (slots sp.reg)) sp.reg (stackBase + spills) a.reg = slots a.reg := by
        intro a ha hne
        rw [setSlot_ne hne, setSlot_ne (hreg a ha)]
      generalize hnew : setSlot (setSlot slots x.reg (slots sp.reg)) sp.reg (stackBase + spills) = new at *
      have hbase : ∀ a ∈ P, a.reg ≠ sp.reg → new a.reg < stackBase + spills := by
        intro a ha hne
        rw [so a ha hne]
        rcases h6 a ha with h | h
        · have := h.1; unfold nmachine at this; unfold stackBase; omega
        · exact h.2
      have hsp32 : slots sp.reg < 32 := hspsl.1
      constructor <;> dsimp only
      · intro a ha
        rw [mem_insertActive] at ha
        rcases ha with rfl | ha
        · simp
        · exact List.mem_append_left _ (h1 a (by simp [ha]))
      · intro a ha
        rw [mem_insertActive] at ha
        rcases ha with rfl | ha
        · rw [sx]; exact hspsl
        · rw [so a (h1 a (by simp [ha])) (hini_ne a ha).1]
          exact h2 a (by simp [ha])
      · refine (List.Perm.pairwise_iff (fun {a b} h e => h e.symm) (insertActive_perm x ini)).2 ?_
        rw [List.pairwise_cons]
        constructor
        · intro a ha
          rw [sx, so a (h1 a (by simp [ha])) (hini_ne a ha).1]
          exact fun e => (hini_ne a ha).2 e.symm
        · refine List.Pairwise.imp_of_mem ?_ h3.1
          intro a b ha hb hab
          rw [so a (h1 a (by simp [ha])) (hini_ne a ha).1, so b (h1 b (by simp [hb])) (hini_ne b hb).1]
          exact hab
      · exact h4
      · rw [(insertActive_perm x ini).length_eq]
        simpa using h5
      · intro a ha
        replace ha := mem a ha; rcases ha with ha | rfl
        · by_cases e : a.reg = sp.reg
          · rw [e, ssp]; right; omega
          · rw [so a ha e]
            rcases h6 a ha with h | h
            · exact Or.inl h
            · exact Or.inr ⟨h.1, by omega⟩
        · rw [sx]; exact Or.inl ⟨hspsl.1, hspsl.2.1⟩
      · intro a ha b hb hab hbig
        replace ha := mem a ha; rcases ha with ha | rfl
        · by_cases e : a.reg = sp.reg
          · rw [e, ssp]
            replace hb := mem b hb; rcases hb with hb | rfl
            · have := hbase b hb (fun e' => hab (e.trans e'.symm)); omega
            · rw [sx]; unfold stackBase; omega
          · replace hb := mem b hb; rcases hb with hb | rfl
            · by_cases e' : b.reg = sp.reg
              · rw [e', ssp]; have := hbase a ha e; omega
              · rw [so a ha e, so b hb e']
                rw [so a ha e] at hbig
                exact h7 a ha b hb hab hbig
            · rw [sx]; unfold stackBase at hbig; omega
        · rw [sx] at hbig; unfold stackBase at hbig; omega
      · intro a ha hsl
        replace ha := mem a ha; rcases ha with ha | rfl
        · by_cases e : a.reg = sp.reg
          · rw [e, ssp] at hsl; unfold nmachine stackBase at hsl; omega
          · rw [so a ha e] at hsl
            rcases h8 a ha hsl with h | h
            · left
              rw [mem_insertActive]
              simp at h
              rcases h with h | h
              · exact Or.inr h
              · exact absurd (by rw [h]) e
            · right; exact fun b hb => h b (List.mem_cons_of_mem _ hb)
        · left; rw [mem_insertActive]; exact Or.inl rfl
      · -- no conflict
        have conf : ∀ a ∈ P, a.reg ≠ sp.reg → slots a.reg = slots sp.reg → a.last < x.first := by
          intro a ha hne he
          rcases h8 a ha (by rw [he]; exact hspsl.1) with h | h
          · simp at h
            rcases h with h | h
            · exact absurd he (hini_ne a h).2
            · exact absurd (by rw [h]) hne
          · exact h x List.mem_cons_self
        intro a ha b hb hab he
        replace ha := mem a ha; rcases ha with ha | rfl
        · by_cases e : a.reg = sp.reg
          · rw [e, ssp] at he
            replace hb := mem b hb; rcases hb with hb | rfl
            · have := hbase b hb (fun e' => hab (e.trans e'.symm)); omega
            · rw [sx] at he; unfold stackBase at he; omega
          · replace hb := mem b hb; rcases hb with hb | rfl
            · by_cases e' : b.reg = sp.reg
              · rw [e', ssp] at he; have := hbase a ha e; omega
              · rw [so a ha e, so b hb e'] at he
                exact h9 a ha b hb hab he
            · rw [so a ha e, sx] at he
              exact Or.inl (conf a ha e he)
        · replace hb := mem b hb; rcases hb with hb | rfl
          · by_cases e' : b.reg = sp.reg
            · rw [e', ssp, sx] at he; unfold stackBase at he; omega
            · rw [sx, so b hb e'] at he
              exact Or.inr (conf b hb e' he.symm)
          · exact absurd rfl hab
    · refine ⟨_, rfl, ?_⟩
      have sx : setSlot slots x.reg (stackBase + spills) x.reg = stackBase + spills := setSlot_eq ..
      have so : ∀ a ∈ P, setSlot slots x.reg (stackBase + spills) a.reg = slots a.reg :=
        fun a ha => setSlot_ne (hreg a ha)
      generalize setSlot slots x.reg (stackBase + spills) = new at *
      have hbase : ∀ a ∈ P, slots a.reg < stackBase + spills := by
        intro a ha
        rcases h6 a ha with h | h
        · have := h.1; unfold nmachine at this; unfold stackBase; omega
        · exact h.2
      constructor <;> dsimp only
      · exact fun a ha => List.mem_append_left _ (h1 a ha)
      · intro a ha; rw [so a (h1 a ha)]; exact h2 a ha
      · refine List.Pairwise.imp_of_mem ?_ h3
        intro a b ha hb hab
        rw [so a (h1 a ha), so b (h1 b hb)]; exact hab
      · exact h4
      · exact h5
      · intro a ha
        replace ha := mem a ha; rcases ha with ha | rfl
        · rw [so a ha]
          rcases h6 a ha with h | h
          · exact Or.inl h
          · exact Or.inr ⟨h.1, by omega⟩
        · rw [sx]; right; omega
      · intro a ha b hb hab hbig
        replace ha := mem a ha; rcases ha with ha | rfl
        · rw [so a ha] at hbig ⊢
          replace hb := mem b hb; rcases hb with hb | rfl
          · rw [so b hb]; exact h7 a ha b hb hab hbig
          · rw [sx]; have := hbase a ha; omega
        · replace hb := mem b hb; rcases hb with hb | rfl
          · rw [sx, so b hb]; have := hbase b hb; omega
          · exact absurd rfl hab
      · intro a ha hsl
        replace ha := mem a ha; rcases ha with ha | rfl
        · rw [so a ha] at hsl
          rcases h8 a ha hsl with h | h
          · exact Or.inl h
          · right; exact fun b hb => h b (List.mem_cons_of_mem _ hb)
        · rw [sx] at hsl; unfold nmachine stackBase at hsl; omega
      · intro a ha b hb hab he
        replace ha := mem a ha; rcases ha with ha | rfl
        · replace hb := mem b hb; rcases hb with hb | rfl
          · rw [so a ha, so b hb] at he; exact h9 a ha b hb hab he
          · rw [so a ha, sx] at he; have := hbase a ha; omega
        · replace hb := mem b hb; rcases hb with hb | rfl
          · rw [sx, so b hb] at he; have := hbase b hb; omega
          · exact absurd rfl hab
  · rw [if_neg hfull]
    have hpos : 0 < (List.range nmachine).countP free := by
      have : active.length ≤ machineRegs bad := by omega
      omega
    cases hfind : (List.range nmachine).find? free with
    | none =>
      exfalso
      rw [List.find?_eq_none] at hfind
      rw [List.countP_pos_iff] at hpos
      obtain ⟨a, ha, hf⟩ := hpos
      exact hfind a ha hf
    | some bit =>
      dsimp only
      refine ⟨_, rfl, ?_⟩
      have hbit := List.find?_some hfind
      obtain ⟨hb32, hbad⟩ := h4 bit hbit
      have sx : setSlot slots x.reg bit x.reg = bit := setSlot_eq ..
      have so : ∀ a ∈ P, setSlot slots x.reg bit a.reg = slots a.reg :=
        fun a ha => setSlot_ne (hreg a ha)
      generalize setSlot slots x.reg bit = new at *
      have hb100 : bit < stackBase := by unfold nmachine at hb32; unfold stackBase; omega
      have act_ne : ∀ a ∈ active, slots a.reg ≠ bit := by
        intro a ha e
        have := (h2 a ha).2.2
        rw [e, hbit] at this; cases this
      have conf : ∀ a ∈ P, slots a.reg = bit → a.last < x.first := by
        intro a ha he
        rcases h8 a ha (by rw [he]; exact hb32) with h | h
        · exact absurd he (act_ne a h)
        · exact h x List.mem_cons_self
      constructor <;> dsimp only
      · intro a ha
        rw [mem_insertActive] at ha
        rcases ha with rfl | ha
        · simp
        · exact List.mem_append_left _ (h1 a ha)
      · intro a ha
        rw [mem_insertActive] at ha
        rcases ha with rfl | ha
        · rw [sx]; exact ⟨hb32, hbad, if_pos rfl⟩
        · rw [so a (h1 a ha)]
          refine ⟨(h2 a ha).1, (h2 a ha).2.1, ?_⟩
          rw [if_neg (act_ne a ha)]; exact (h2 a ha).2.2
      · refine (List.Perm.pairwise_iff (fun {a b} h e => h e.symm) (insertActive_perm x active)).2 ?_
        rw [List.pairwise_cons]
        constructor
        · intro a ha
          rw [sx, so a (h1 a ha)]
          exact fun e => act_ne a ha e.symm
        · refine List.Pairwise.imp_of_mem ?_ h3
          intro a b ha hb hab
          rw [so a (h1 a ha), so b (h1 b hb)]; exact hab
      · intro i hi
        split at hi
        · cases hi
        · exact h4 i hi
      · rw [(insertActive_perm x active).length_eq, List.length_cons]
        have := countP_clear (List.range nmachine) List.nodup_range free bit (by simpa using hb32) hbit
        omega
      · intro a ha
        replace ha := mem a ha; rcases ha with ha | rfl
        · rw [so a ha]; exact h6 a ha
        · rw [sx]; exact Or.inl ⟨hb32, hbad⟩
      · intro a ha b hb hab hbig
        replace ha := mem a ha; rcases ha with ha | rfl
        · rw [so a ha] at hbig ⊢
          replace hb := mem b hb; rcases hb with hb | rfl
          · rw [so b hb]; exact h7 a ha b hb hab hbig
          · rw [sx]; omega
        · rw [sx] at hbig; omega
      · intro a ha hsl
        replace ha := mem a ha; rcases ha with ha | rfl
        · rw [so a ha] at hsl
          rcases h8 a ha hsl with h | h
          · left; rw [mem_insertActive]; exact Or.inr h
          · right; exact fun b hb => h b (List.mem_cons_of_mem _ hb)
        · left; rw [mem_insertActive]; exact Or.inl rfl
      · intro a ha b hb hab he
        replace ha := mem a ha; rcases ha with ha | rfl
        · replace hb := mem b hb; rcases hb with hb | rfl
          · rw [so a ha, so b hb] at he; exact h9 a ha b hb hab he
          · rw [so a ha, sx] at he; exact Or.inl (conf a ha he)
        · replace hb := mem b hb; rcases hb with hb | rfl
          · rw [sx, so b hb] at he; exact Or.inr (conf b hb he.symm)
          · exact absurd rfl hab

theorem alloc_loop {bad : Nat → Bool} (hr : 1 ≤ machineRegs bad) (rest P : List Interval) (st : Alloc)
    (hs : rest.Pairwise fun a b => a.first ≤ b.first) (hn : ((P ++ rest).map (·.reg)).Nodup)
    (h : AllocInv bad P rest st) :
    ∃ st', rest.foldlM (allocStep (machineRegs bad)) st = some st' ∧ AllocInv bad (P ++ rest) [] st' := by
  induction rest generalizing P st with
  | nil => exact ⟨st, rfl, by rw [List.append_nil]; exact h⟩
  | cons x rest ih =>
    rw [List.pairwise_cons] at hs
    obtain ⟨A, F, g1, g2, _⟩ := expire_inv st hs.1 h
    have hreg : ∀ a ∈ P, a.reg ≠ x.reg := by
      rw [List.map_append, List.nodup_append] at hn
      intro a ha e
      exact hn.2.2 a.reg (List.mem_map_of_mem ha) x.reg (by simp) e
    obtain ⟨st1, h1, h2⟩ := assign_inv _ hreg hr hs.1 g2
    obtain ⟨st2, h3, h4⟩ := ih (P ++ [x]) st1 hs.2 (by rw [List.append_assoc]; exact hn) h2
    refine ⟨st2, ?_, ?_⟩
    · rw [List.foldlM_cons]
      have : allocStep (machineRegs bad) st x = some st1 := by
        unfold allocStep; rw [g1]; exact h1
      rw [this]; exact h3
    · rw [List.append_assoc] at h4; exact h4

/-- For any sorted list of intervals of different registers and at least one machine register the
allocation succeeds: intervals that overlap have different slots, a machine register that is not allowed is
never given, and no two registers share a slot on the stack. -/
theorem alloc_correct (bad : Nat → Bool) (hr : ∃ i < nmachine, bad i = false) (sorted : List Interval)
    (hs : sorted.Pairwise fun a b => a.first ≤ b.first) (hn : (sorted.map (·.reg)).Nodup) :
    ∃ st, allocate bad sorted = some st ∧
      (∀ a ∈ sorted, ∀ b ∈ sorted, a.reg ≠ b.reg → a.overlaps b → st.slots a.reg ≠ st.slots b.reg) ∧
      (∀ a ∈ sorted, (st.slots a.reg < nmachine ∧ bad (st.slots a.reg) = false) ∨
        (stackBase ≤ st.slots a.reg ∧ st.slots a.reg < stackBase + st.spills)) ∧
      (∀ a ∈ sorted, ∀ b ∈ sorted, a.reg ≠ b.reg → stackBase ≤ st.slots a.reg → st.slots a.reg ≠ st.slots b.reg) := by
  have hr' : 1 ≤ machineRegs bad := by
    obtain ⟨i, hi, hb⟩ := hr
    unfold machineRegs
    rw [Nat.one_le_iff_ne_zero, ← Nat.pos_iff_ne_zero, List.countP_pos_iff]
    exact ⟨i, by simpa using hi, by simp [hb]⟩
  obtain ⟨st, h1, h2⟩ := alloc_loop hr' sorted [] (hs := hs) (hn := by simpa using hn)
    (st := { slots := fun _ => uintMax, free := fun i => decide (i < nmachine) && !bad i, active := [], spills := 0 }) (h :=
    ⟨by simp, by simp, by simp, by simp, by
      simp only [List.length_nil, Nat.zero_add, machineRegs]
      apply List.countP_congr
      intro i hi
      simp at hi
      simp [hi], by simp, by simp, by simp, by simp⟩)
  refine ⟨st, h1, ?_, h2.slot_ok, h2.spill_inj⟩
  intro a ha b hb hab ⟨p, q1, q2, q3, q4⟩ he
  rcases h2.disj a ha b hb hab he with h | h <;> omega

/-! ## spilling -/

/-- Position `p` is in the interval. -/
def Interval.contains (p : Nat) (a : Interval) : Bool := decide (a.first ≤ p) && decide (p ≤ a.last)

structure SpillInv (P : List Interval) (st : Alloc) : Prop where
  none : st.spills = 0
  sorted : st.active.Pairwise fun a b => a.last ≤ b.last
  sub : ∀ q : Interval → Bool, st.active.countP q ≤ P.countP q

theorem expire_suffix {slots : Nat → Nat} {first : Nat} (active : List Interval) (free : Nat → Bool) {A : List Interval}
    {F : Nat → Bool} (h : expire slots first active free = some (A, F))
    (hs : active.Pairwise fun a b => a.last ≤ b.last) : A <:+ active ∧ ∀ a ∈ A, first ≤ a.last := by
  induction active generalizing free with
  | nil => simp only [expire, Option.some.injEq, Prod.mk.injEq] at h; rw [← h.1]; simp
  | cons a l ih =>
    rw [List.pairwise_cons] at hs
    rw [expire] at h
    split at h
    · rename_i c
      simp only [Option.some.injEq, Prod.mk.injEq] at h
      rw [← h.1]
      refine ⟨List.suffix_refl _, ?_⟩
      intro b hb
      rcases List.mem_cons.1 hb with rfl | hb
      · exact c
      · have := hs.1 b hb; omega
    · split at h
      · obtain ⟨h1, h2⟩ := ih _ h hs.2
        exact ⟨h1.trans (List.suffix_cons _ _), h2⟩
      · cases h

theorem insertActive_sorted (x : Interval) (l : List Interval) (h : l.Pairwise fun a b => a.last ≤ b.last) :
    (insertActive x l).Pairwise fun a b => a.last ≤ b.last := by
  induction l with
  | nil => simp [insertActive]
  | cons a l ih =>
    rw [List.pairwise_cons] at h
    by_cases c : a.last ≤ x.last
    · have e : insertActive x (a :: l) = a :: insertActive x l := by
        simp [insertActive, List.takeWhile_cons, List.dropWhile_cons, c]
      rw [e, List.pairwise_cons]
      refine ⟨?_, ih h.2⟩
      intro b hb
      rw [mem_insertActive] at hb
      rcases hb with rfl | hb
      · exact c
      · exact h.1 b hb
    · have e : insertActive x (a :: l) = x :: a :: l := by
        simp [insertActive, List.takeWhile_cons, List.dropWhile_cons, c]
      rw [e, List.pairwise_cons, List.pairwise_cons]
      refine ⟨?_, h⟩
      intro b hb
      rcases List.mem_cons.1 hb with rfl | hb
      · omega
      · have := h.1 b hb; omega

/-- If no position is in more intervals than there are machine registers then nothing is spilled.  An
interval may be empty, like that of a register that is not used, if it begins after the end of all others. -/
theorem alloc_no_spill (bad : Nat → Bool) (hr : ∃ i < nmachine, bad i = false) (sorted : List Interval)
    (hs : sorted.Pairwise fun a b => a.first ≤ b.first)
    (he : ∀ a ∈ sorted, a.first ≤ a.last ∨ ∀ b ∈ sorted, b.last < a.first)
    (hp : ∀ p, sorted.countP (Interval.contains p) ≤ machineRegs bad)
    (st : Alloc) (hst : allocate bad sorted = some st) : st.spills = 0 := by
  have hr' : 1 ≤ machineRegs bad := by
    obtain ⟨i, hi, hb⟩ := hr
    unfold machineRegs
    rw [Nat.one_le_iff_ne_zero, ← Nat.pos_iff_ne_zero, List.countP_pos_iff]
    exact ⟨i, by simpa using hi, by simp [hb]⟩
  have loop : ∀ (rest P : List Interval) (s : Alloc), P ++ rest = sorted → SpillInv P s →
      rest.foldlM (allocStep (machineRegs bad)) s = some st → st.spills = 0 := by
    intro rest
    induction rest with
    | nil =>
      intro P s _ hi hf
      simp only [List.foldlM_nil, Option.pure_def, Option.some.injEq] at hf
      rw [← hf]; exact hi.none
    | cons x rest ih =>
      intro P s hsp hi hf
      rw [List.foldlM_cons] at hf
      cases h1 : allocStep (machineRegs bad) s x with
      | none => rw [h1] at hf; cases hf
      | some s1 =>
        rw [h1] at hf
        refine ih (P ++ [x]) s1 (by rw [List.append_assoc]; exact hsp) ?_ hf
        unfold allocStep at h1
        cases h2 : expire s.slots x.first s.active s.free with
        | none => rw [h2] at h1; cases h1
        | some AF =>
          obtain ⟨A, F⟩ := AF
          rw [h2] at h1
          simp only [Option.bind_some] at h1
          obtain ⟨hsuf, hlast⟩ := expire_suffix _ _ h2 hi.sorted
          have hAP : ∀ q : Interval → Bool, A.countP q ≤ P.countP q :=
            fun q => Nat.le_trans (hsuf.sublist.countP_le) (hi.sub q)
          have hAmem : ∀ a ∈ A, a ∈ P := by
            intro a ha
            have := hAP (fun b => decide (b = a))
            have h1 : 0 < A.countP (fun b => decide (b = a)) := List.countP_pos_iff.2 ⟨a, ha, by simp⟩
            obtain ⟨b, hb, e⟩ := List.countP_pos_iff.1 (Nat.lt_of_lt_of_le h1 this)
            simp at e; exact e ▸ hb
          -- not full
          have hfull : A.length ≠ machineRegs bad := by
            intro hfull
            have hall : ∀ a ∈ A, a.contains x.first = true := by
              intro a ha
              have h3 := hlast a ha
              have h4 : a.first ≤ x.first := by
                rw [← hsp, List.pairwise_append] at hs
                exact hs.2.2 a (hAmem a ha) x (by simp)
              simp [Interval.contains, h3, h4]
            have h5 : A.countP (Interval.contains x.first) = A.length := List.countP_eq_length.2 hall
            rcases he x (by rw [← hsp]; simp) with h6 | h6
            · have h7 := hp x.first
              rw [← hsp, List.countP_append, List.countP_cons] at h7
              have h8 := hAP (Interval.contains x.first)
              have h9 : Interval.contains x.first x = true := by simp [Interval.contains, h6]
              rw [h9] at h7
              simp at h7
              omega
            · have hne : A ≠ [] := by intro e; rw [e] at hfull; simp at hfull; omega
              obtain ⟨a, ha⟩ := List.exists_mem_of_ne_nil A hne
              have h7 := h6 a (by rw [← hsp]; exact List.mem_append_left _ (hAmem a ha))
              have := hlast a ha
              omega
          unfold assign at h1
          rw [if_neg (by exact hfull)] at h1
          dsimp only at h1
          split at h1
          · cases h1
          · simp only [Option.some.injEq] at h1
            rw [← h1]
            constructor <;> dsimp only
            · exact hi.none
            · exact insertActive_sorted x A (hi.sorted.sublist hsuf.sublist)
            · intro q
              rw [(insertActive_perm x A).countP_eq, List.countP_append, List.countP_cons, List.countP_cons]
              have := hAP q
              simp
              omega
  exact loop sorted [] _ rfl ⟨rfl, by simp, by simp⟩ hst

/-! ## tests -/

/-- The intervals in the test `test_lscan1`, with two machine registers. -/
example : (allocate (fun i => decide (2 ≤ i)) [⟨0, 0, 3⟩, ⟨1, 0, 3⟩, ⟨2, 3, 4⟩]).map
    (fun st => ((List.range 3).map st.slots, st.spills)) = some ([0, 1, 100], 1) := by decide +kernel

/-- An interval that is active is spilled in place of the new one, and a register is used again. -/
example : (allocate (fun i => decide (2 ≤ i)) [⟨0, 0, 9⟩, ⟨1, 1, 4⟩, ⟨2, 2, 3⟩, ⟨3, 5, 6⟩]).map
    (fun st => ((List.range 4).map st.slots, st.spills)) = some ([100, 1, 0, 0], 1) := by decide +kernel

/-- Without a machine register the element before the first one of the list of active intervals is read. -/
theorem alloc_no_register_counterexample : ∃ sorted, sorted.Pairwise (fun a b => a.first ≤ b.first) ∧
    (sorted.map (·.reg)).Nodup ∧ (allocate (fun _ => true) sorted).isNone := by
  refine ⟨[⟨0, 0, 1⟩], by simp, by simp, by decide +kernel⟩

example : ∃ sorted st, sorted.length = 3 ∧ (sorted.Pairwise fun a b => a.first ≤ b.first) ∧
    (∀ a ∈ sorted, a.first ≤ a.last ∨ ∀ b ∈ sorted, b.last < a.first) ∧
    (∀ p, sorted.countP (Interval.contains p) ≤ machineRegs (fun i => decide (2 ≤ i))) ∧
    allocate (fun i => decide (2 ≤ i)) sorted = some st := by
  have hm : machineRegs (fun i => decide (2 ≤ i)) = 2 := by decide +kernel
  obtain ⟨st, h, _⟩ := alloc_correct (fun i => decide (2 ≤ i)) ⟨0, by decide, by decide⟩ [⟨0, 0, 2⟩, ⟨1, 1, 3⟩, ⟨2, 3, 4⟩]
    (by simp) (by simp)
  refine ⟨_, st, rfl, by simp, by simp, ?_, h⟩
  intro p
  rw [hm]
  simp only [List.countP_cons, List.countP_nil, Interval.contains]
  simp only [Bool.and_eq_true, decide_eq_true_eq]
  split <;> split <;> split <;> omega

end Verif.Code
