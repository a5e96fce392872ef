import Verif.Obj.KindModel
import Verif.Obj.Model

/-
C76: sizes of objects allow the kind of an object to be changed in place, and the
change keeps the items that both kinds have.
-/

namespace Verif.Obj.Kind

/-! ### Specification -/

/-- Kinds between which an object may change, in either direction and in any number
    of steps. -/
inductive Linked (changes : List (Nat × Nat)) : Nat → Nat → Prop
  | refl (a : Nat) : Linked changes a a
  | to {a b c : Nat} : (a, b) ∈ changes → Linked changes b c → Linked changes a c
  | from_ {a b c : Nat} : (b, a) ∈ changes → Linked changes b c → Linked changes a c

/-- Bytes that an object of a kind needs: the header and a word for each item. -/
def needed (c : Class) (k : Nat) : Nat := 16 + 8 * popcount (c.hasOf k)

/-- All kinds in the table of changes exist. -/
def Closed (c : Class) : Prop := ∀ p ∈ c.changes, p.1 < c.lastKind ∧ p.2 < c.lastKind

/-- The items of a set in order. -/
def itemsOf (has : Nat) : List Nat := (List.range 64).filter has.testBit

/-! ### Sizes -/

theorem Linked.trans {ch : List (Nat × Nat)} {a b c : Nat} (h : Linked ch a b) (g : Linked ch b c) :
    Linked ch a c := by
  induction h with
  | refl => exact g
  | to m _ ih => exact .to m (ih g)
  | from_ m _ ih => exact .from_ m (ih g)

theorem sum_set_lt (s : List Nat) (i v : Nat) (hi : i < s.length) (h : at0 s i < v) :
    s.sum < (s.set i v).sum := by
  induction s generalizing i with
  | nil => simp at hi
  | cons x xs ih =>
    cases i with
    | zero => simp [at0] at h; simp; exact h
    | succ i =>
      simp only [List.set_cons_succ, List.sum_cons]
      have := ih i (by simpa using hi) (by simpa [at0] using h)
      omega

theorem at0_set (s : List Nat) (i v k : Nat) (hi : i < s.length) :
    at0 (s.set i v) k = if i = k then v else at0 s k := by
  unfold at0
  rw [List.getElem?_set]
  split
  · rename_i e; subst e; simp [hi]
  · rfl

theorem maxSize_aux (ch : List (Nat × Nat)) (s : List Nat) (i : Nat) (m : Nat) :
    let r := ch.foldl (fun m p =>
      if p.1 = i then max m (at0 s p.2)
      else if p.2 = i then max m (at0 s p.1)
      else m) m
    m ≤ r ∧ (∀ p ∈ ch, p.1 = i → at0 s p.2 ≤ r) ∧ (∀ p ∈ ch, p.1 ≠ i → p.2 = i → at0 s p.1 ≤ r) ∧
    (r = m ∨ ∃ p ∈ ch, (p.1 = i ∧ r = at0 s p.2) ∨ (p.2 = i ∧ r = at0 s p.1)) := by
  induction ch generalizing m with
  | nil => simp
  | cons q qs ih =>
    simp only [List.foldl_cons]
    by_cases h1 : q.1 = i
    · simp only [h1, if_true]
      obtain ⟨a, b, c, d⟩ := ih (max m (at0 s q.2))
      refine ⟨by omega, ?_, ?_, ?_⟩
      · intro p hp e
        rcases List.mem_cons.mp hp with hq | hq
        · subst hq; omega
        · exact b p hq e
      · intro p hp e e2
        rcases List.mem_cons.mp hp with hq | hq
        · subst hq; exact absurd h1 e
        · exact c p hq e e2
      · rcases d with d | ⟨p, hp, d⟩
        · rw [d]
          rcases Nat.le_total m (at0 s q.2) with h | h
          · exact .inr ⟨q, List.mem_cons_self, .inl ⟨h1, Nat.max_eq_right h⟩⟩
          · exact .inl (Nat.max_eq_left h)
        · exact .inr ⟨p, List.mem_cons_of_mem _ hp, d⟩
    · by_cases h2 : q.2 = i
      · simp only [h1, h2, if_true, if_false]
        obtain ⟨a, b, c, d⟩ := ih (max m (at0 s q.1))
        refine ⟨by omega, ?_, ?_, ?_⟩
        · intro p hp e
          rcases List.mem_cons.mp hp with hq | hq
          · subst hq; exact absurd e h1
          · exact b p hq e
        · intro p hp e e2
          rcases List.mem_cons.mp hp with hq | hq
          · subst hq; omega
          · exact c p hq e e2
        · rcases d with d | ⟨p, hp, d⟩
          · rw [d]
            rcases Nat.le_total m (at0 s q.1) with h | h
            · exact .inr ⟨q, List.mem_cons_self, .inr ⟨h2, Nat.max_eq_right h⟩⟩
            · exact .inl (Nat.max_eq_left h)
          · exact .inr ⟨p, List.mem_cons_of_mem _ hp, d⟩
      · simp only [h1, h2, if_false]
        obtain ⟨a, b, c, d⟩ := ih m
        refine ⟨a, ?_, ?_, ?_⟩
        · intro p hp e
          rcases List.mem_cons.mp hp with hq | hq
          · subst hq; exact absurd e h1
          · exact b p hq e
        · intro p hp e e2
          rcases List.mem_cons.mp hp with hq | hq
          · subst hq; exact absurd e2 h2
          · exact c p hq e e2
        · rcases d with d | ⟨p, hp, d⟩
          · exact .inl d
          · exact .inr ⟨p, List.mem_cons_of_mem _ hp, d⟩

/-- What is true of the sizes between rounds. -/
structure Good (c : Class) (s : List Nat) : Prop where
  len : s.length = c.lastKind
  enough : ∀ k, k < c.lastKind → needed c k ≤ at0 s k
  least : ∀ k, k < c.lastKind → ∃ j, j < c.lastKind ∧ Linked c.changes k j ∧ at0 s k = needed c j

theorem Good.init (c : Class) : Good c (initSizes c) := by
  have key : ∀ k, k < c.lastKind → at0 (initSizes c) k = needed c k := by
    intro k hk
    simp only [Class.lastKind] at hk
    simp [at0, initSizes, needed, Class.hasOf, hk, Nat.mul_comm]
  exact ⟨by simp [initSizes, Class.lastKind], fun k hk => by rw [key k hk]; exact Nat.le_refl _,
    fun k hk => ⟨k, hk, .refl k, key k hk⟩⟩

theorem Good.step {c : Class} (hc : Closed c) {st : List Nat × Bool} (h : Good c st.1) {i : Nat}
    (hi : i < c.lastKind) :
    Good c (sweepStep c.changes st i).1 ∧ st.1.sum ≤ (sweepStep c.changes st i).1.sum ∧
    (st.2 = false → (sweepStep c.changes st i).2 = true →
      st.1.sum < (sweepStep c.changes st i).1.sum) ∧
    ((sweepStep c.changes st i).2 = false →
      sweepStep c.changes st i = st ∧ maxSize c.changes st.1 i = at0 st.1 i) := by
  obtain ⟨ge, _, _, src⟩ := maxSize_aux c.changes st.1 i (at0 st.1 i)
  change at0 st.1 i ≤ maxSize c.changes st.1 i at ge
  change maxSize c.changes st.1 i = at0 st.1 i ∨ ∃ p ∈ c.changes,
    (p.1 = i ∧ maxSize c.changes st.1 i = at0 st.1 p.2) ∨
    (p.2 = i ∧ maxSize c.changes st.1 i = at0 st.1 p.1) at src
  unfold sweepStep
  by_cases hne : maxSize c.changes st.1 i ≠ at0 st.1 i
  · rw [if_pos hne]
    have hlt : at0 st.1 i < maxSize c.changes st.1 i := by omega
    have hil : i < st.1.length := by rw [h.len]; exact hi
    have hs := sum_set_lt st.1 i _ hil hlt
    refine ⟨⟨by simp [h.len], ?_, ?_⟩, Nat.le_of_lt hs, fun _ _ => hs, by simp⟩
    · intro k hk
      simp only [at0_set _ _ _ _ hil]
      split
      · rename_i e; subst e
        have := h.enough i hk
        omega
      · exact h.enough k hk
    · intro k hk
      simp only [at0_set _ _ _ _ hil]
      split
      · rename_i e; subst e
        rcases src with e | ⟨p, hp, ⟨e, v⟩ | ⟨e, v⟩⟩
        · exact absurd e hne
        · obtain ⟨j, hj, hl, hv⟩ := h.least p.2 (hc p hp).2
          refine ⟨j, hj, .to (b := p.2) ?_ hl, by rw [v, hv]⟩
          rw [← e]; exact hp
        · obtain ⟨j, hj, hl, hv⟩ := h.least p.1 (hc p hp).1
          refine ⟨j, hj, .from_ (b := p.1) ?_ hl, by rw [v, hv]⟩
          rw [← e]; exact hp
      · exact h.least k hk
  · rw [if_neg hne]
    have e : maxSize c.changes st.1 i = at0 st.1 i := by
      by_cases g : maxSize c.changes st.1 i = at0 st.1 i
      · exact g
      · exact absurd g hne
    refine ⟨h, Nat.le_refl _, ?_, fun _ => ⟨rfl, e⟩⟩
    intro a b; rw [a] at b; exact absurd b (by simp)

theorem sweep_aux {c : Class} (hc : Closed c) (l : List Nat) (hl : ∀ i ∈ l, i < c.lastKind)
    (st : List Nat × Bool) (h : Good c st.1) :
    let r := l.foldl (sweepStep c.changes) st
    Good c r.1 ∧ st.1.sum ≤ r.1.sum ∧ (st.2 = false → r.2 = true → st.1.sum < r.1.sum) ∧
    (st.2 = true → r.2 = true) ∧
    (r.2 = false → r = st ∧ ∀ i ∈ l, maxSize c.changes st.1 i = at0 st.1 i) := by
  induction l generalizing st with
  | nil =>
    refine ⟨h, Nat.le_refl _, ?_, fun g => g, fun _ => ⟨rfl, by simp⟩⟩
    intro a b; simp only [List.foldl_nil] at b; rw [a] at b; exact absurd b (by simp)
  | cons i is ih =>
    obtain ⟨g1, g2, g3, g4⟩ := Good.step hc h (hl i List.mem_cons_self)
    obtain ⟨r1, r2, r3, r4, r5⟩ := ih (fun j hj => hl j (List.mem_cons_of_mem _ hj)) _ g1
    simp only [List.foldl_cons]
    refine ⟨r1, Nat.le_trans g2 r2, ?_, ?_, ?_⟩
    · intro a b
      by_cases f : (sweepStep c.changes st i).2 = true
      · exact Nat.lt_of_lt_of_le (g3 a f) r2
      · exact Nat.lt_of_le_of_lt g2 (r3 (by simpa using f) b)
    · intro a
      refine r4 ?_
      unfold sweepStep
      split
      · rfl
      · exact a
    · intro b
      have f : (sweepStep c.changes st i).2 = false := by
        cases hh : (sweepStep c.changes st i).2
        · rfl
        · rw [r4 hh] at b; exact absurd b (by simp)
      obtain ⟨e, v⟩ := g4 f
      obtain ⟨e2, v2⟩ := r5 b
      refine ⟨by rw [e2, e], ?_⟩
      intro j hj
      rcases List.mem_cons.mp hj with hq | hq
      · subst hq; exact v
      · rw [e] at v2; exact v2 j hq

/-- No size is above the largest need, so the sum is bounded. -/
theorem sum_le (s : List Nat) (M : Nat) (h : ∀ k, k < s.length → at0 s k ≤ M) : s.sum ≤ s.length * M := by
  induction s with
  | nil => simp
  | cons x xs ih =>
    have h0 := h 0 (by simp)
    have := ih fun k hk => by simpa [at0] using h (k + 1) (by simpa using hk)
    simp [at0] at h0
    simp only [List.sum_cons, List.length_cons, Nat.add_mul]
    omega

theorem exists_bound (c : Class) : ∃ M, ∀ k, k < c.lastKind → needed c k ≤ M := by
  refine ⟨16 + 8 * 64, fun k _ => ?_⟩
  have : popcount (c.hasOf k) ≤ 64 := by
    unfold popcount
    exact Nat.le_trans (List.length_filter_le _ _) (by simp)
  unfold needed
  omega

theorem rounds_end {c : Class} (hc : Closed c) (M : Nat) (hM : ∀ k, k < c.lastKind → needed c k ≤ M)
    (n : Nat) (s : List Nat) (h : Good c s) (hn : c.lastKind * M < n + s.sum) :
    ∃ r, rounds c n s = some r ∧ Good c r ∧
      ∀ i, i < c.lastKind → maxSize c.changes r i = at0 r i := by
  induction n generalizing s with
  | zero =>
    exfalso
    have := sum_le s M fun k hk => by
      rw [h.len] at hk
      obtain ⟨j, hj, _, e⟩ := h.least k hk
      rw [e]; exact hM j hj
    rw [h.len] at this
    omega
  | succ n ih =>
    obtain ⟨r1, r2, r3, _, r5⟩ := sweep_aux hc (List.range c.lastKind)
      (fun i hi => List.mem_range.mp hi) (s, false) h
    change Good c (sweep c s).1 at r1
    change s.sum ≤ (sweep c s).1.sum at r2
    change false = false → (sweep c s).2 = true → s.sum < (sweep c s).1.sum at r3
    change (sweep c s).2 = false → sweep c s = (s, false) ∧ _ at r5
    rw [rounds]
    by_cases f : (sweep c s).2 = true
    · rw [if_pos f]
      have := r3 rfl f
      exact ih _ r1 (by omega)
    · rw [if_neg f]
      have f' : (sweep c s).2 = false := by simpa using f
      obtain ⟨e, v⟩ := r5 f'
      refine ⟨_, rfl, r1, ?_⟩
      intro i hi
      rw [e]
      exact v i (List.mem_range.mpr hi)

theorem rounds_more (c : Class) (n : Nat) (s r : List Nat) (h : rounds c n s = some r) (m : Nat) :
    rounds c (n + m) s = some r := by
  induction n generalizing s with
  | zero => simp [rounds] at h
  | succ n ih =>
    rw [show n + 1 + m = (n + m) + 1 by omega]
    rw [rounds] at h ⊢
    split at h
    · rename_i f; rw [if_pos f]; exact ih _ h
    · rename_i f; rw [if_neg f]; exact h

/-- **C76.**  The computation of sizes ends. -/
theorem sizes_end (c : Class) (hc : Closed c) : ∃ n s, rounds c n (initSizes c) = some s := by
  obtain ⟨M, hM⟩ := exists_bound c
  obtain ⟨s, hs, _⟩ := rounds_end hc M hM (c.lastKind * M + 1) (initSizes c) (.init c) (by omega)
  exact ⟨_, s, hs⟩

/-- **C76.**  Every kind has room for its items, kinds between which an object may change
    have the same size, and no size is larger than that makes necessary. -/
theorem sizes (c : Class) (hc : Closed c) (n : Nat) (s : List Nat)
    (h : rounds c n (initSizes c) = some s) :
    s.length = c.lastKind ∧
    (∀ k, k < c.lastKind → needed c k ≤ at0 s k) ∧
    (∀ a b, a < c.lastKind → Linked c.changes a b → at0 s a = at0 s b) ∧
    (∀ k, k < c.lastKind → ∃ j, j < c.lastKind ∧ Linked c.changes k j ∧ at0 s k = needed c j) := by
  obtain ⟨M, hM⟩ := exists_bound c
  obtain ⟨s', hs, hg, hm⟩ := rounds_end hc M hM (c.lastKind * M + 1) (initSizes c) (.init c) (by omega)
  have e1 := rounds_more c _ _ _ h (c.lastKind * M + 1)
  have e2 := rounds_more c _ _ _ hs n
  rw [Nat.add_comm, e2] at e1
  cases e1
  have one : ∀ a b, (a, b) ∈ c.changes → at0 s a = at0 s b := by
    intro a b hab
    obtain ⟨ha, hb⟩ := hc _ hab
    obtain ⟨_, p1, _, _⟩ := maxSize_aux c.changes s a (at0 s a)
    obtain ⟨_, _, p2, _⟩ := maxSize_aux c.changes s b (at0 s b)
    have e1 := p1 _ hab rfl
    change at0 s b ≤ maxSize c.changes s a at e1
    rw [hm a ha] at e1
    by_cases e : a = b
    · rw [e]
    · have e2 := p2 _ hab e rfl
      change at0 s a ≤ maxSize c.changes s b at e2
      rw [hm b hb] at e2
      omega
  refine ⟨hg.len, hg.enough, ?_, hg.least⟩
  intro a b _ h
  induction h with
  | refl => rfl
  | to m _ ih => rw [one _ _ m]; exact ih (hc _ m).2
  | from_ m _ ih => rw [← one _ _ m]; exact ih (hc _ m).1

/-! ### Positions of items -/

/-- The number of items of a set before a given one. -/
def pos (has b : Nat) : Nat := ((List.range b).filter has.testBit).length

theorem pos_succ (has b : Nat) : pos has (b + 1) = pos has b + if has.testBit b then 1 else 0 := by
  unfold pos
  rw [List.range_succ, List.filter_append, List.length_append]
  congr 1
  by_cases h : has.testBit b <;> simp [h]

theorem pos_mono (has : Nat) {b d : Nat} (h : b ≤ d) : pos has b ≤ pos has d := by
  induction h with
  | refl => exact Nat.le_refl _
  | step _ ih => rw [pos_succ]; omega

theorem pos_lt (has : Nat) {b d : Nat} (hb : has.testBit b) (h : b < d) : pos has b < pos has d := by
  have := pos_mono has (show b + 1 ≤ d from h)
  rw [pos_succ, if_pos hb] at this
  omega

theorem popcount_eq (has : Nat) : popcount has = pos has 64 := rfl

theorem popcount_below (has b : Nat) (hb : b ≤ 64) : popcount (has &&& (2 ^ b - 1)) = pos has b := by
  have e : 64 = b + (64 - b) := by omega
  unfold popcount pos
  rw [e, List.range_add, List.filter_append, List.length_append]
  have h1 : (List.range b).filter (has &&& (2 ^ b - 1)).testBit = (List.range b).filter has.testBit := by
    refine List.filter_congr fun x hx => ?_
    have := List.mem_range.mp hx
    simp [Nat.testBit_and, Nat.testBit_two_pow_sub_one, this]
  have h2 : ((List.range (64 - b)).map (b + ·)).filter (has &&& (2 ^ b - 1)).testBit = [] := by
    refine List.filter_eq_nil_iff.mpr fun x hx => ?_
    obtain ⟨y, _, rfl⟩ := List.mem_map.mp hx
    have : ¬ b + y < b := by omega
    simp [Nat.testBit_and, Nat.testBit_two_pow_sub_one, this]
  rw [h1, h2]
  rfl

/-- **C76.**  Different items of an object are at different words, all below the number of
    items, so that `lookup_item` never takes one item for another. -/
theorem lookup_distinct (has : Nat) (mem : List Nat) (hm : popcount has ≤ mem.length) :
    (∀ b, b < 64 → has.testBit b = true →
      ∃ i, i < popcount has ∧ lookupItem has mem b = mem[i]? ∧ (itemsOf has)[i]? = some b) ∧
    (∀ b, has.testBit b = false → lookupItem has mem b = none) := by
  refine ⟨fun b hb h => ⟨pos has b, ?_, ?_, ?_⟩, fun b h => by simp [lookupItem, h]⟩
  · rw [popcount_eq]; exact pos_lt has h hb
  · rw [lookupItem, if_pos h, popcount_below has b (Nat.le_of_lt hb)]
  · have e : 64 = b + (1 + (63 - b)) := by omega
    unfold itemsOf pos
    rw [e, List.range_add, List.filter_append, List.getElem?_append_right (Nat.le_refl _), Nat.sub_self,
      List.range_add]
    simp [h]

/-! ### Changing the kind -/

/-- An item that only the old kind has, although the new one has an item after it. -/
def passed (old new b : Nat) : Bool :=
  old.testBit b && !new.testBit b && (List.range 64).any fun d => decide (b < d) && new.testBit d

/-- The arrays that are freed between item `b` and the end. -/
def freedFrom (old new : Nat) (tmp : List Nat) (b : Nat) : List Nat :=
  ((List.range' b (64 - b)).filter fun d => passed old new d && Tables.itemArray.contains d).map
    fun d => at0 tmp (pos old d)

theorem freedFrom_succ (old new : Nat) (tmp : List Nat) (b : Nat) (hb : b < 64) :
    freedFrom old new tmp b =
      (if passed old new b && Tables.itemArray.contains b then [at0 tmp (pos old b)] else [])
        ++ freedFrom old new tmp (b + 1) := by
  unfold freedFrom
  rw [show 64 - b = (64 - (b + 1)) + 1 by omega, List.range'_succ, List.filter_cons]
  split <;> simp

theorem passed_of_lt {old new b : Nat} (h : pos new b < pos new 64) (hb : b < 64)
    (ho : old.testBit b = true) (hn : new.testBit b = false) : passed old new b = true := by
  have : ∃ d, b < d ∧ d < 64 ∧ new.testBit d = true := by
    by_cases g : ∃ d, b < d ∧ d < 64 ∧ new.testBit d = true
    · exact g
    · exfalso
      have none_ : ∀ e, b ≤ e → e ≤ 64 → pos new e = pos new b := by
        intro e h1
        induction h1 with
        | refl => intro _; rfl
        | step h1 ih =>
          rename_i m
          intro h2
          have := ih (by omega)
          rw [pos_succ, this]
          have hm : new.testBit m = false := by
            by_cases q : m = b
            · rw [q]; exact hn
            · cases hh : new.testBit m
              · rfl
              · exact absurd ⟨m, by simp at h1; omega, by omega, hh⟩ g
          rw [hm]; rfl
      have := none_ 64 (by omega) (by omega)
      omega
  obtain ⟨d, h1, h2, h3⟩ := this
  unfold passed
  rw [ho, hn]
  simp only [Bool.not_false, Bool.and_self, Bool.true_and, List.any_eq_true]
  exact ⟨d, List.mem_range.mpr h2, by simp [h1, h3]⟩

theorem getElem?_at0 {l : List Nat} {i : Nat} (h : i < l.length) : l[i]? = some (at0 l i) := by
  simp [at0, h]

theorem loop (old new : Nat) (tmp : List Nat) (ht : pos old 64 ≤ tmp.length) (f : Nat) :
    ∀ (b : Nat) (mem freed : List Nat), f + b = 64 → pos new 64 ≤ mem.length →
    ∃ mem', changeLoop old new (pos new 64) tmp f b (pos old b) (pos new b) mem freed
        = some (mem', freed ++ freedFrom old new tmp b) ∧
      mem'.length = mem.length ∧
      (∀ i : Nat, i < pos new b ∨ pos new 64 ≤ i → mem'[i]? = mem[i]?) ∧
      (∀ d : Nat, b ≤ d → d < 64 → new.testBit d = true →
        mem'[pos new d]? = some (if old.testBit d then at0 tmp (pos old d) else 0)) := by
  induction f with
  | zero =>
    intro b mem freed hb _
    have hb : b = 64 := by omega
    subst hb
    refine ⟨mem, ?_, rfl, fun _ _ => rfl, fun d h1 h2 => by omega⟩
    rw [changeLoop, if_neg (Nat.lt_irrefl _)]
    simp [freedFrom]
  | succ f ih =>
    intro b mem freed hb hlen
    have hb64 : b < 64 := by omega
    rw [changeLoop]
    by_cases hn : pos new b < pos new 64
    · rw [if_pos hn]
      have so := pos_succ old b
      have sn := pos_succ new b
      have fs := freedFrom_succ old new tmp b hb64
      cases ho : old.testBit b
      · -- not in the old set
        have np : passed old new b = false := by simp [passed, ho]
        rw [np] at fs
        simp only [Bool.false_and, Bool.false_eq_true, if_false, List.nil_append] at fs
        rw [ho] at so
        simp only [Bool.false_eq_true, if_false, Nat.add_zero] at so
        cases hw : new.testBit b
        · rw [hw] at sn
          simp only [Bool.false_eq_true, if_false, Nat.add_zero] at sn
          simp only [Bool.and_false, Bool.false_eq_true, if_false]
          obtain ⟨m, h1, h2, h3, h4⟩ := ih (b + 1) mem freed (by omega) hlen
          rw [so, sn] at h1
          rw [sn] at h3
          refine ⟨m, by rw [h1, fs], h2, h3, fun d g1 g2 g3 => ?_⟩
          by_cases e : b = d
          · subst e; rw [hw] at g3; exact absurd g3 (by simp)
          · exact h4 d (by omega) g2 g3
        · rw [hw] at sn
          simp only [if_true] at sn
          simp only [Bool.false_and, Bool.false_eq_true, if_false, if_true]
          obtain ⟨m, h1, h2, h3, h4⟩ := ih (b + 1) (mem.set (pos new b) 0) freed (by omega) (by simpa using hlen)
          rw [so, sn] at h1
          rw [sn] at h3
          refine ⟨m, by rw [h1, fs], by rw [h2]; simp, ?_, ?_⟩
          · intro i hi
            rw [h3 i (by omega), List.getElem?_set_ne (by omega)]
          · intro d g1 g2 g3
            by_cases e : b = d
            · subst e
              rw [h3 _ (by omega), List.getElem?_set_self (by omega), ho]; rfl
            · exact h4 d (by omega) g2 g3
      · rw [ho] at so
        simp only [if_true] at so
        have hop : pos old b < tmp.length := Nat.lt_of_lt_of_le (pos_lt old ho hb64) ht
        cases hw : new.testBit b
        · rw [hw] at sn
          simp only [Bool.false_eq_true, if_false, Nat.add_zero] at sn
          rw [passed_of_lt hn hb64 ho hw, Bool.true_and] at fs
          simp only [Bool.and_false, Bool.false_eq_true, if_false, if_true, getElem?_at0 hop]
          obtain ⟨m, h1, h2, h3, h4⟩ := ih (b + 1) mem
            (if Tables.itemArray.contains b then freed ++ [at0 tmp (pos old b)] else freed) (by omega) hlen
          rw [so, sn] at h1
          rw [sn] at h3
          refine ⟨m, ?_, h2, h3, fun d g1 g2 g3 => ?_⟩
          · rw [h1, fs]
            split <;> simp
          · by_cases e : b = d
            · subst e; rw [hw] at g3; exact absurd g3 (by simp)
            · exact h4 d (by omega) g2 g3
        · rw [hw] at sn
          simp only [if_true] at sn
          have np : passed old new b = false := by simp [passed, hw]
          rw [np] at fs
          simp only [Bool.false_and, Bool.false_eq_true, if_false, List.nil_append] at fs
          simp only [Bool.and_true, if_true, getElem?_at0 hop]
          obtain ⟨m, h1, h2, h3, h4⟩ := ih (b + 1) (mem.set (pos new b) (at0 tmp (pos old b))) freed
            (by omega) (by simpa using hlen)
          rw [so, sn] at h1
          rw [sn] at h3
          refine ⟨m, by rw [h1, fs], by rw [h2]; simp, ?_, ?_⟩
          · intro i hi
            rw [h3 i (by omega), List.getElem?_set_ne (by omega)]
          · intro d g1 g2 g3
            by_cases e : b = d
            · subst e
              rw [h3 _ (by omega), List.getElem?_set_self (by omega), ho]; rfl
            · exact h4 d (by omega) g2 g3
    · rw [if_neg hn]
      have nobits : ∀ d, b ≤ d → d < 64 → new.testBit d = false := by
        intro d h1 h2
        cases hh : new.testBit d
        · rfl
        · exfalso
          have := pos_lt new hh h2
          have := pos_mono new h1
          omega
      refine ⟨mem, ?_, rfl, fun _ _ => rfl, fun d h1 h2 h3 => by rw [nobits d h1 h2] at h3; exact absurd h3 (by simp)⟩
      have : freedFrom old new tmp b = [] := by
        unfold freedFrom
        rw [List.filter_eq_nil_iff.mpr]
        · rfl
        · intro d hd
          have hd1 := List.mem_range'_1.mp hd
          have : passed old new d = false := by
            unfold passed
            have : ((List.range 64).any fun e => decide (d < e) && new.testBit e) = false := by
              rw [List.any_eq_false]
              intro e he
              by_cases q : d < e
              · rw [nobits e (by omega) (List.mem_range.mp he)]; simp
              · simp [q]
            rw [this]; simp
          rw [this]; simp
      rw [this]; simp

/-- **C76.**  A change that is allowed, of an object with room for both kinds: the items that
    both kinds have keep their values, the items that only the new kind has are zero, and
    the words behind are as before.  Freed are the arrays that only the old kind has, as far
    as an item of the new kind follows. -/
theorem change_kind (c : Class) (a b : Nat) (mem : List Nat) (hab : (a, b) ∈ c.changes) (hne : a ≠ b)
    (ha : popcount (c.hasOf a) ≤ mem.length) (hb : popcount (c.hasOf b) ≤ mem.length) :
    ∃ mem' freed, changeKind c a b mem = .done mem' freed ∧ mem'.length = mem.length ∧
      (∀ d, d < 64 → (c.hasOf a).testBit d = true → (c.hasOf b).testBit d = true →
        lookupItem (c.hasOf b) mem' d = lookupItem (c.hasOf a) mem d) ∧
      (∀ d, d < 64 → (c.hasOf a).testBit d = false → (c.hasOf b).testBit d = true →
        lookupItem (c.hasOf b) mem' d = some 0) ∧
      (∀ i : Nat, popcount (c.hasOf b) ≤ i → mem'[i]? = mem[i]?) ∧
      freed.map some = ((itemsOf (c.hasOf a)).filter fun d =>
          Tables.itemArray.contains d && !(c.hasOf b).testBit d &&
          (itemsOf (c.hasOf b)).any fun e => decide (d < e)).map
        (lookupItem (c.hasOf a) mem) := by
  have hany : c.changes.any (fun p => p.1 == a && p.2 == b) = true :=
    List.any_eq_true.mpr ⟨_, hab, by simp⟩
  have hmax : ¬ max (popcount (c.hasOf a)) (popcount (c.hasOf b)) > mem.length := by omega
  have htl : pos (c.hasOf a) 64 ≤
      (mem.take (max (popcount (c.hasOf a)) (popcount (c.hasOf b)))).length := by
    rw [List.length_take, ← popcount_eq]; omega
  obtain ⟨m, h1, h2, h3, h4⟩ := loop (c.hasOf a) (c.hasOf b) _ htl 64 0 mem [] rfl hb
  have tmpat : ∀ d, d < 64 → (c.hasOf a).testBit d = true →
      lookupItem (c.hasOf a) mem d
        = some (at0 (mem.take (max (popcount (c.hasOf a)) (popcount (c.hasOf b)))) (pos (c.hasOf a) d)) := by
    intro d hd h
    have hp := pos_lt _ h hd
    rw [← popcount_eq] at hp
    rw [lookupItem, if_pos h, popcount_below _ _ (Nat.le_of_lt hd), getElem?_at0 (by omega)]
    unfold at0
    rw [List.getElem?_take_of_lt (by omega)]
  refine ⟨m, freedFrom (c.hasOf a) (c.hasOf b) (mem.take (max (popcount (c.hasOf a)) (popcount (c.hasOf b)))) 0,
    ?_, h2, ?_, ?_, fun i hi => h3 i (.inr hi), ?_⟩
  · unfold changeKind
    rw [if_neg (fun e => hne e.symm)]
    simp only [hany, Bool.not_true, Bool.false_eq_true, if_false, if_neg hmax]
    rw [popcount_eq (c.hasOf b), popcount_eq (c.hasOf a)] at *
    have e1 : pos (c.hasOf a) 0 = 0 := rfl
    have e2 : pos (c.hasOf b) 0 = 0 := rfl
    rw [e1, e2, List.nil_append] at h1
    rw [h1]; rfl
  · intro d hd h5 h6
    rw [tmpat d hd h5, lookupItem, if_pos h6, popcount_below _ _ (Nat.le_of_lt hd), h4 d (by omega) hd h6, if_pos h5]
  · intro d hd h5 h6
    rw [lookupItem, if_pos h6, popcount_below _ _ (Nat.le_of_lt hd), h4 d (by omega) hd h6, h5]; rfl
  · unfold freedFrom itemsOf
    rw [List.map_map, List.filter_filter, Nat.sub_zero, ← List.range_eq_range']
    have e : ∀ d, (passed (c.hasOf a) (c.hasOf b) d && Tables.itemArray.contains d)
        = ((Tables.itemArray.contains d && !(c.hasOf b).testBit d &&
          ((List.range 64).filter (c.hasOf b).testBit).any fun e => decide (d < e)) && (c.hasOf a).testBit d) := by
      intro d
      unfold passed
      rw [List.any_filter]
      have : (fun d_1 => decide (d < d_1) && (c.hasOf b).testBit d_1)
          = (fun x => (c.hasOf b).testBit x && decide (d < x)) := by funext x; rw [Bool.and_comm]
      rw [this]
      generalize ((List.range 64).any fun x => (c.hasOf b).testBit x && decide (d < x)) = z
      cases z <;> cases (c.hasOf a).testBit d <;> cases (c.hasOf b).testBit d <;>
        cases Tables.itemArray.contains d <;> rfl
    rw [List.filter_congr (fun d _ => e d)]
    refine List.map_congr_left fun d hd => ?_
    obtain ⟨h5, h6⟩ := List.mem_filter.mp hd
    have h7 : (c.hasOf a).testBit d = true := by
      rw [Bool.and_eq_true] at h6; exact h6.2
    rw [tmpat d (List.mem_range.mp h5) h7]; rfl

/-- **C76.**  With the sizes from `object_init`, an object has room for every kind to which it may
    change, so the hypotheses of `change_kind` hold, and it still does afterwards. -/
theorem change_in_place (c : Class) (hc : Closed c) (n : Nat) (s : List Nat)
    (h : rounds c n (initSizes c) = some s) (a b : Nat) (hab : (a, b) ∈ c.changes) (mem : List Nat)
    (hm : mem.length = (16 * units s a - 16) / 8) :
    popcount (c.hasOf a) ≤ mem.length ∧ popcount (c.hasOf b) ≤ mem.length ∧ units s a = units s b := by
  obtain ⟨_, h1, h2, _⟩ := sizes c hc n s h
  obtain ⟨ha, hb⟩ := hc _ hab
  have e := h2 a b ha (.to hab (.refl b))
  have na := h1 a ha
  have nb := h1 b hb
  unfold needed at na nb
  refine ⟨?_, ?_, by unfold units; rw [e]⟩
  · rw [hm]; unfold units; omega
  · rw [hm]; unfold units; omega

/-- **C76.**  A change of kind moves no object: with sizes from `object_init` the loops over an
    arena find all objects where they found them before. -/
theorem change_walk (c : Class) (hc : Closed c) (n : Nat) (s : List Nat)
    (h : rounds c n (initSizes c) = some s) (sch : Schema) (t : Nat)
    (hs : ∀ k, sch.units t k = units s k) (a b : Nat) (hab : (a, b) ∈ c.changes)
    (before after : List Object) (o o' : Object) (ho : o.tag = t ∧ o.kind = a)
    (ho' : o'.tag = t ∧ o'.kind = b) :
    (walk sch 0 (before ++ o' :: after)).map (·.1) = (walk sch 0 (before ++ o :: after)).map (·.1) ∧
    used sch (before ++ o' :: after) = used sch (before ++ o :: after) := by
  have e : sch.size o' = sch.size o := by
    unfold Schema.size
    rw [ho.1, ho.2, ho'.1, ho'.2, hs, hs]
    exact ((change_in_place c hc n s h a b hab _ (List.length_replicate (a := 0))).2.2).symm
  constructor
  · generalize 0 = x
    induction before generalizing x with
    | nil => simp [walk, e]
    | cons y ys ih => simp only [List.cons_append, walk, List.map_cons]; rw [ih]
  · simp [used, e]

/-! ### The tables -/

/-- **C76.**  Every item in the tables of the four classes has exactly one type, is below 64, and
    the kinds fit into 8 bits. -/
theorem tables_typed :
    (∀ t ∈ [Tables.treeItems, Tables.typeItems, Tables.vlogItems, Tables.pslItems],
      t.length < 256 ∧ ∀ k ∈ t, ∀ b ∈ k, b < 64 ∧
        ([Tables.itemIdent, Tables.itemObject, Tables.itemArray, Tables.itemInt64, Tables.itemInt32,
          Tables.itemDouble, Tables.itemText, Tables.itemNumber].filter fun l => l.contains b).length = 1) := by
  decide +kernel

theorem tree_closed : Closed treeClass := by
  have : (treeClass.changes.all fun p => decide (p.1 < treeClass.lastKind ∧ p.2 < treeClass.lastKind)) = true := by
    decide +kernel
  intro p hp
  exact of_decide_eq_true (List.all_eq_true.mp this p hp)

/-- **C76.**  No change of kind in tree.c loses an array without freeing it: an item of the new
    kind follows on every array that only the old kind has. -/
theorem tree_frees_all : ∀ p ∈ treeClass.changes,
    ∀ d ∈ itemsOf (treeClass.hasOf p.1), d ∈ Tables.itemArray → (treeClass.hasOf p.2).testBit d = false →
      ∃ e ∈ itemsOf (treeClass.hasOf p.2), d < e := by
  have : (treeClass.changes.all fun p => (itemsOf (treeClass.hasOf p.1)).all fun d =>
      !Tables.itemArray.contains d || (treeClass.hasOf p.2).testBit d ||
      (itemsOf (treeClass.hasOf p.2)).any fun e => decide (d < e)) = true := by decide +kernel
  intro p hp d hd ha hn
  have h := List.all_eq_true.mp (List.all_eq_true.mp this p hp) d hd
  rw [hn, List.contains_iff_mem.mpr ha] at h
  simp only [Bool.not_true, Bool.false_or] at h
  obtain ⟨e, he, hlt⟩ := List.any_eq_true.mp h
  exact ⟨e, he, of_decide_eq_true hlt⟩

/-- **C76.**  A change of kind neither makes an object a root for garbage collection nor stops it
    from being one. -/
theorem tree_roots : ∀ p ∈ treeClass.changes, p.1 ∈ Tables.treeRoots ↔ p.2 ∈ Tables.treeRoots := by
  decide +kernel

/-- **C76.**  With other tables an array that comes after the last item of the new kind would be
    lost: the loop stops when all items of the new kind have their values. -/
theorem leak_counterexample :
    ∃ c a b mem, (a, b) ∈ c.changes ∧ Closed c ∧ popcount (c.hasOf a) ≤ mem.length ∧
      lookupItem (c.hasOf a) mem 5 = some 7 ∧ 5 ∈ Tables.itemArray ∧ (c.hasOf b).testBit 5 = false ∧
      changeKind c a b mem = .done [3, 7] [] :=
  ⟨⟨[33, 1], [(0, 1)]⟩, 0, 1, [3, 7], by decide, by unfold Closed; decide, by decide, by decide, by decide,
    by decide, by decide⟩

/-- T_DESIGN_UNIT becomes T_ENTITY: the context is kept. -/
example : changeKind treeClass 64 0 [9, 1, 2, 3, 4, 5, 6] = .done [0, 0, 0, 0, 0, 9, 0] [] := by decide +kernel

/-- T_DESIGN_UNIT becomes T_CONFIGURATION: the context is freed. -/
example : changeKind treeClass 64 65 [9, 1, 2, 3, 4, 5, 6] = .done [0, 0, 0, 0, 0, 5, 6] [9] := by decide +kernel

example : (rounds treeClass 10 (initSizes treeClass)).map (fun s => (at0 s 64, at0 s 0, at0 s 67, at0 s 8, at0 s 72))
    = some (72, 72, 72, 64, 64) := by decide +kernel

end Verif.Obj.Kind
