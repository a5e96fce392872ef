import Verif.Bounds.CaseModel

/-!
# The coverage check accepts the complete, non-overlapping choices (C34)

The statement is false in general (three counterexamples below); it holds when no value is covered
twice, and when the choices are written in ascending order.
-/

namespace Verif.Bounds

/-! ## Specification -/

/-- How many choices contain a value. -/
def times (choices : List (Int × Int)) (v : Int) : Nat :=
  choices.countP (fun c => decide (c.1 ≤ v ∧ v ≤ c.2))

/-- Every value of the type is in exactly one choice. -/
def ExactlyOnce (tlow thigh : Int) (choices : List (Int × Int)) : Prop :=
  ∀ v, tlow ≤ v → v ≤ thigh → times choices v = 1

/-- The bounds of every choice belong to the type. -/
def InRange (tlow thigh : Int) (choices : List (Int × Int)) : Prop :=
  ∀ c ∈ choices, (tlow ≤ c.1 ∧ c.1 ≤ thigh) ∧ (tlow ≤ c.2 ∧ c.2 ≤ thigh)

/-- No null range among the choices. -/
def NonNull (choices : List (Int × Int)) : Prop := ∀ c ∈ choices, c.1 ≤ c.2

/-! ## Counting -/

/-- Total of the lengths of intervals. -/
def total : List Interval → Int
  | [] => 0
  | it :: rest => (it.high - it.low + 1) + total rest

/-- Total of the lengths of choices. -/
def lens : List (Int × Int) → Int
  | [] => 0
  | c :: rest => (c.2 - c.1 + 1) + lens rest

theorem gaps_total (walk thigh : Int) (xs : List Interval) :
    gaps walk thigh xs = thigh + 1 - walk - total xs := by
  induction xs generalizing walk with
  | nil => simp [gaps, total]
  | cons it rest ih => rw [gaps, total, ih]; omega

theorem cover_total (l h : Int) (xs : List Interval) (hf : (cover l h xs).2 = false) :
    total (cover l h xs).1 = total xs + (h - l + 1) := by
  induction xs with
  | nil => simp [cover, total]
  | cons it rest ih =>
    unfold cover at hf ⊢
    split
    · rename_i c
      rw [if_pos c] at hf
      split
      · rename_i c2; rw [if_pos c2] at hf; simp at hf
      · rename_i c2
        rw [if_neg c2] at hf
        split
        · simp only [total]; omega
        · rename_i c3
          rw [if_neg c3] at hf
          split
          · simp only [total]; omega
          · rename_i c4
            rw [if_neg c4] at hf
            have := ih hf
            simp only [total]; omega
    · simp only [total]; omega

/-- The choices inserted one after the other; the flag tells whether an overlap was reported. -/
def coverAll : List Interval → List (Int × Int) → List Interval × Bool
  | xs, [] => (xs, false)
  | xs, c :: cs =>
    let r := cover c.1 c.2 xs
    let r2 := coverAll r.1 cs
    (r2.1, r.2 || r2.2)

theorem coverAll_total (cs : List (Int × Int)) : ∀ xs, (coverAll xs cs).2 = false →
    total (coverAll xs cs).1 = total xs + lens cs := by
  induction cs with
  | nil => intro xs _; simp [coverAll, lens]
  | cons c cs ih =>
    intro xs h
    simp only [coverAll, Bool.or_eq_false_iff] at h ⊢
    rw [ih _ h.2, cover_total _ _ _ h.1, lens]
    omega

theorem fold_inRange (tlow thigh : Int) (cs : List (Int × Int)) (h : InRange tlow thigh cs) :
    ∀ xs e, cs.foldl (step tlow thigh) ⟨xs, false, e⟩ =
      ⟨(coverAll xs cs).1, false, e || (coverAll xs cs).2⟩ := by
  induction cs with
  | nil => intro xs e; simp [coverAll]
  | cons c cs ih =>
    intro xs e
    have hc := h c (by simp)
    have hcs : InRange tlow thigh cs := fun x hx => h x (by simp [hx])
    rw [List.foldl_cons]
    have hs : step tlow thigh ⟨xs, false, e⟩ c =
        ⟨(cover c.1 c.2 xs).1, false, e || (cover c.1 c.2 xs).2⟩ := by
      have hb : ¬ (tlow ≤ thigh ∧
          (¬ (tlow ≤ c.1 ∧ c.1 ≤ thigh) ∨ ¬ (tlow ≤ c.2 ∧ c.2 ≤ thigh))) := by omega
      unfold step
      simp only [decide_eq_false hb, Bool.or_false, Bool.false_eq_true, if_false]
    rw [hs, ih hcs]
    simp only [coverAll, Bool.or_assoc]

theorem fold_error (tlow thigh : Int) (cs : List (Int × Int)) :
    ∀ s : St, s.error = true → (cs.foldl (step tlow thigh) s).error = true := by
  induction cs with
  | nil => intro s h; exact h
  | cons c cs ih =>
    intro s h
    rw [List.foldl_cons]
    apply ih
    unfold step
    dsimp only
    split <;> simp [h]

theorem fold_outOfRange (tlow thigh : Int) (ht : tlow ≤ thigh) (cs : List (Int × Int))
    (h : ¬ InRange tlow thigh cs) : ∀ s, (cs.foldl (step tlow thigh) s).error = true := by
  induction cs with
  | nil => exact absurd (fun c hc => by simp at hc) h
  | cons c cs ih =>
    intro s
    rw [List.foldl_cons]
    by_cases hc : (tlow ≤ c.1 ∧ c.1 ≤ thigh) ∧ (tlow ≤ c.2 ∧ c.2 ≤ thigh)
    · apply ih
      intro hcs
      apply h
      intro x hx
      rcases List.mem_cons.1 hx with rfl | hx
      · exact hc
      · exact hcs x hx
    · apply fold_error
      have hb : tlow ≤ thigh ∧
          (¬ (tlow ≤ c.1 ∧ c.1 ≤ thigh) ∨ ¬ (tlow ≤ c.2 ∧ c.2 ≤ thigh)) := by omega
      unfold step
      simp only [decide_eq_true hb, Bool.or_true, if_true]

/-- Exactly what is accepted: the bounds are in range, no overlap is noticed, and the sum of the
lengths of the choices equals the size of the type modulo 2^32. -/
theorem accepts_iff (tlow thigh : Int) (ht : tlow ≤ thigh) (cs : List (Int × Int)) :
    accepts tlow thigh cs = true ↔
      InRange tlow thigh cs ∧ (coverAll [] cs).2 = false ∧
        (thigh - tlow + 1 - lens cs) % 2 ^ 32 = 0 := by
  by_cases h : InRange tlow thigh cs
  · unfold accepts
    rw [fold_inRange tlow thigh cs h]
    simp only [Bool.false_or, Bool.and_eq_true, noneMissing, decide_eq_true_eq, gaps_total,
      Bool.not_eq_true']
    constructor
    · rintro ⟨h1, h2⟩
      rw [coverAll_total cs [] h1] at h2
      simp only [total] at h2
      exact ⟨h, h1, by rw [← h2]; congr 1; omega⟩
    · rintro ⟨_, h1, h2⟩
      rw [coverAll_total cs [] h1]
      simp only [total]
      exact ⟨h1, by rw [← h2]; congr 1; omega⟩
  · constructor
    · intro ha
      unfold accepts at ha
      dsimp only at ha
      rw [fold_outOfRange tlow thigh ht cs h] at ha
      simp at ha
    · exact fun ha => absurd ha.1 h

/-- Sum of a function over `0..n-1`. -/
def sum (f : Nat → Nat) : Nat → Nat
  | 0 => 0
  | n + 1 => sum f n + f n

theorem sum_add (f g : Nat → Nat) (n : Nat) : sum (fun k => f k + g k) n = sum f n + sum g n := by
  induction n with
  | zero => rfl
  | succ n ih => simp only [sum, ih]; omega

theorem sum_zero (n : Nat) : sum (fun _ => 0) n = 0 := by
  induction n with
  | zero => rfl
  | succ n ih => simp [sum, ih]

theorem sum_le (f : Nat → Nat) (n : Nat) (h : ∀ k < n, f k ≤ 1) :
    sum f n ≤ n ∧ (sum f n = n ↔ ∀ k < n, f k = 1) := by
  induction n with
  | zero => simp [sum]
  | succ n ih =>
    obtain ⟨i1, i2⟩ := ih (fun k hk => h k (by omega))
    have hn := h n (by omega)
    refine ⟨by simp only [sum]; omega, ?_⟩
    constructor
    · intro hs k hk
      simp only [sum] at hs
      by_cases c : k = n
      · subst c; omega
      · exact i2.1 (by omega) k (by omega)
    · intro hk
      have h1 := i2.2 (fun k h => hk k (by omega))
      have h2 := hk n (by omega)
      simp only [sum]; omega

theorem sum_indicator (a b : Nat) (hab : a ≤ b) (n : Nat) :
    sum (fun k => if a ≤ k ∧ k ≤ b then 1 else 0) n = min n (b + 1) - min n a := by
  induction n with
  | zero => simp [sum]
  | succ n ih =>
    rw [sum, ih]
    split <;> omega

theorem times_cons (c : Int × Int) (cs : List (Int × Int)) (v : Int) :
    times (c :: cs) v = (if c.1 ≤ v ∧ v ≤ c.2 then 1 else 0) + times cs v := by
  unfold times
  rw [List.countP_cons]
  simp only [decide_eq_true_eq]
  omega

theorem double_count (tlow thigh : Int) (ht : tlow ≤ thigh) (cs : List (Int × Int))
    (h : InRange tlow thigh cs) (hn : NonNull cs) :
    (sum (fun k => times cs (tlow + k)) (thigh - tlow + 1).toNat : Int) = lens cs := by
  induction cs with
  | nil =>
    have : (fun k : Nat => times [] (tlow + k)) = fun _ => 0 := by funext k; rfl
    rw [this, sum_zero]; rfl
  | cons c cs ih =>
    have i := ih (fun x hx => h x (by simp [hx])) (fun x hx => hn x (by simp [hx]))
    have hc := h c (by simp)
    have hcn := hn c (by simp)
    have e : (fun k : Nat => times (c :: cs) (tlow + k)) = fun k : Nat =>
        (if (c.1 - tlow).toNat ≤ k ∧ k ≤ (c.2 - tlow).toNat then 1 else 0) +
          times cs (tlow + k) := by
      funext k
      rw [times_cons]
      congr 1
      have : (c.1 ≤ tlow + (k : Int) ∧ tlow + (k : Int) ≤ c.2) ↔
          ((c.1 - tlow).toNat ≤ k ∧ k ≤ (c.2 - tlow).toNat) := by omega
      simp only [this]
    rw [e, sum_add, sum_indicator _ _ (by omega), lens, ← i]
    omega

/-- Given that no value is covered twice: complete iff the lengths add up. -/
theorem exactlyOnce_iff (tlow thigh : Int) (ht : tlow ≤ thigh) (cs : List (Int × Int))
    (h : InRange tlow thigh cs) (hn : NonNull cs) (hd : ∀ v, times cs v ≤ 1) :
    ExactlyOnce tlow thigh cs ↔ lens cs = thigh - tlow + 1 := by
  have dc := double_count tlow thigh ht cs h hn
  obtain ⟨s1, s2⟩ := sum_le (fun k => times cs (tlow + k)) (thigh - tlow + 1).toNat
    (fun k _ => hd _)
  constructor
  · intro he
    have := s2.2 (fun k hk => he _ (by omega) (by omega))
    omega
  · intro hl v h1 h2
    have := s2.1 (by omega) (v - tlow).toNat (by omega)
    rw [(by omega : tlow + ((v - tlow).toNat : Int) = v)] at this
    exact this

theorem lens_le (tlow thigh : Int) (ht : tlow ≤ thigh) (cs : List (Int × Int))
    (h : InRange tlow thigh cs) (hn : NonNull cs) (hd : ∀ v, times cs v ≤ 1) :
    0 ≤ lens cs ∧ lens cs ≤ thigh - tlow + 1 := by
  have dc := double_count tlow thigh ht cs h hn
  obtain ⟨s1, _⟩ := sum_le (fun k => times cs (tlow + k)) (thigh - tlow + 1).toNat
    (fun k _ => hd _)
  omega

/-! ## Values in the list of intervals -/

def In (v : Int) (xs : List Interval) : Prop := ∃ it ∈ xs, it.low ≤ v ∧ v ≤ it.high

def Proper (xs : List Interval) : Prop := ∀ it ∈ xs, it.low ≤ it.high

theorem in_cons (v : Int) (it : Interval) (rest : List Interval) :
    In v (it :: rest) ↔ (it.low ≤ v ∧ v ≤ it.high) ∨ In v rest := by
  simp [In]

theorem cover_flag (l h : Int) (hlh : l ≤ h) (xs : List Interval) (hp : Proper xs)
    (hf : (cover l h xs).2 = true) : ∃ v, l ≤ v ∧ v ≤ h ∧ In v xs := by
  induction xs with
  | nil => simp [cover] at hf
  | cons it rest ih =>
    have hit := hp it (by simp)
    have hr : Proper rest := fun x hx => hp x (by simp [hx])
    unfold cover at hf
    split at hf
    · split at hf
      · exact ⟨max l it.low, by omega, by omega, (in_cons _ _ _).2 (Or.inl (by omega))⟩
      · split at hf
        · simp at hf
        · split at hf
          · simp at hf
          · obtain ⟨v, h1, h2, h3⟩ := ih hr hf
            exact ⟨v, h1, h2, (in_cons _ _ _).2 (Or.inr h3)⟩
    · simp at hf

theorem cover_values (l h : Int) (hlh : l ≤ h) (xs : List Interval) (hp : Proper xs)
    (hf : (cover l h xs).2 = false) :
    Proper (cover l h xs).1 ∧ ∀ v, In v (cover l h xs).1 ↔ (In v xs ∨ (l ≤ v ∧ v ≤ h)) := by
  induction xs with
  | nil =>
    refine ⟨fun it hi => ?_, fun v => ?_⟩
    · simp [cover] at hi; subst hi; exact hlh
    · simp [cover, In]
  | cons it rest ih =>
    have hit := hp it (by simp)
    have hr : Proper rest := fun x hx => hp x (by simp [hx])
    unfold cover at hf ⊢
    by_cases c1 : it.low ≤ h
    · rw [if_pos c1] at hf ⊢
      by_cases c2 : l ≤ it.high ∧ it.low ≤ h
      · rw [if_pos c2] at hf; simp at hf
      · rw [if_neg c2] at hf ⊢
        rw [if_neg (by omega : ¬ h = it.low - 1)] at hf ⊢
        by_cases c3 : l = it.high + 1
        · rw [if_pos c3]
          refine ⟨fun x hx => ?_, fun v => ?_⟩
          · rcases List.mem_cons.1 hx with rfl | hx
            · exact c1
            · exact hr x hx
          · rw [in_cons, in_cons]
            constructor
            · rintro (e | e)
              · dsimp only at e
                by_cases q : v ≤ it.high
                · exact Or.inl (Or.inl ⟨e.1, q⟩)
                · exact Or.inr ⟨by omega, e.2⟩
              · exact Or.inl (Or.inr e)
            · rintro ((e | e) | e)
              · exact Or.inl ⟨e.1, by dsimp only; omega⟩
              · exact Or.inr e
              · exact Or.inl ⟨by dsimp only; omega, e.2⟩
        · rw [if_neg c3] at hf ⊢
          obtain ⟨i1, i2⟩ := ih hr hf
          refine ⟨fun x hx => ?_, fun v => ?_⟩
          · rcases List.mem_cons.1 hx with rfl | hx
            · exact hit
            · exact i1 x hx
          · rw [in_cons, in_cons, i2]
            constructor
            · rintro (e | e | e)
              · exact Or.inl (Or.inl e)
              · exact Or.inl (Or.inr e)
              · exact Or.inr e
            · rintro ((e | e) | e)
              · exact Or.inl e
              · exact Or.inr (Or.inl e)
              · exact Or.inr (Or.inr e)
    · rw [if_neg c1]
      refine ⟨fun x hx => ?_, fun v => ?_⟩
      · rcases List.mem_cons.1 hx with rfl | hx
        · exact hlh
        · exact hp x hx
      · rw [in_cons]
        constructor
        · rintro (e | e)
          · exact Or.inr e
          · exact Or.inl e
        · rintro (e | e)
          · exact Or.inr e
          · exact Or.inl e

/-- Disjoint choices are never reported. -/
theorem coverAll_disjoint (cs : List (Int × Int)) (hn : NonNull cs) :
    ∀ xs, Proper xs → (∀ v, times cs v ≤ 1) → (∀ v, In v xs → times cs v = 0) →
      (coverAll xs cs).2 = false := by
  induction cs with
  | nil => intro xs _ _ _; rfl
  | cons c cs ih =>
    intro xs hp hd hx
    have hc := hn c (by simp)
    have hcs : NonNull cs := fun x hx => hn x (by simp [hx])
    have hf : (cover c.1 c.2 xs).2 = false := by
      cases e : (cover c.1 c.2 xs).2 with
      | false => rfl
      | true =>
        obtain ⟨v, h1, h2, h3⟩ := cover_flag c.1 c.2 hc xs hp e
        have := hx v h3
        rw [times_cons, if_pos ⟨h1, h2⟩] at this
        omega
    obtain ⟨p1, p2⟩ := cover_values c.1 c.2 hc xs hp hf
    simp only [coverAll, hf, Bool.false_or]
    apply ih hcs _ p1
    · intro v; have := hd v; rw [times_cons] at this; omega
    · intro v hv
      rcases (p2 v).1 hv with e | e
      · have := hx v e; rw [times_cons] at this; omega
      · have := hd v; rw [times_cons, if_pos e] at this; omega

/-! ## Properties -/

/-- If no value is in two choices, and none of them is null, the check accepts exactly the
complete lists.  Missing for C34: lists with a value in two choices, for which the check
may wrongly accept (`duplicate_counterexample`), null ranges (`null_counterexample`) and types
with 2^32 values or more (`size_counterexample`). -/
theorem case_disjoint_partial (tlow thigh : Int) (ht : tlow ≤ thigh)
    (hs : thigh - tlow + 1 < 2 ^ 32) (cs : List (Int × Int)) (hn : NonNull cs)
    (hd : ∀ v, times cs v ≤ 1) :
    accepts tlow thigh cs = true ↔ InRange tlow thigh cs ∧ ExactlyOnce tlow thigh cs := by
  rw [accepts_iff tlow thigh ht]
  have hf := coverAll_disjoint cs hn [] (fun _ h => by simp at h) hd
    (fun v hv => by simp [In] at hv)
  constructor
  · rintro ⟨h1, _, h3⟩
    refine ⟨h1, (exactlyOnce_iff tlow thigh ht cs h1 hn hd).2 ?_⟩
    have := lens_le tlow thigh ht cs h1 hn hd
    omega
  · rintro ⟨h1, h2⟩
    have := (exactlyOnce_iff tlow thigh ht cs h1 hn hd).1 h2
    exact ⟨h1, hf, by omega⟩

/-- In ascending order: intervals with gaps between them. -/
structure Asc (m : Int) (xs : List Interval) : Prop where
  proper : Proper xs
  gap : xs.Pairwise (fun a b => a.high + 1 < b.low)
  le : ∀ it ∈ xs, it.low ≤ m

theorem cover_asc (l h m : Int) (hlh : l ≤ h) (hm : m ≤ l) (xs : List Interval) (ha : Asc m xs)
    (hf : (cover l h xs).2 = false) :
    Asc l (cover l h xs).1 ∧ (∀ v, l ≤ v → v ≤ h → ¬ In v xs) ∧
      ∀ it ∈ (cover l h xs).1, it.low = l ∨ ∃ jt ∈ xs, jt.low = it.low := by
  induction xs with
  | nil =>
    refine ⟨⟨?_, ?_, ?_⟩, ?_, ?_⟩
    · intro it hi; simp [cover] at hi; subst hi; exact hlh
    · simp [cover]
    · intro it hi; simp [cover] at hi; subst hi; exact Int.le_refl l
    · intro v _ _ hv; simp [In] at hv
    · intro it hi; simp [cover] at hi; subst hi; exact Or.inl rfl
  | cons it rest ih =>
    have hit := ha.proper it (by simp)
    have hle := ha.le it (by simp)
    have hgap := List.pairwise_cons.1 ha.gap
    have har : Asc m rest := ⟨fun x hx => ha.proper x (by simp [hx]), hgap.2,
      fun x hx => ha.le x (by simp [hx])⟩
    unfold cover at hf ⊢
    rw [if_pos (by omega : it.low ≤ h)] at hf ⊢
    by_cases c2 : l ≤ it.high ∧ it.low ≤ h
    · rw [if_pos c2] at hf; simp at hf
    · rw [if_neg c2] at hf ⊢
      rw [if_neg (by omega : ¬ h = it.low - 1)] at hf ⊢
      by_cases c3 : l = it.high + 1
      · have hrest : rest = [] := by
          cases rest with
          | nil => rfl
          | cons b _ =>
            have h1 := hgap.1 b (by simp)
            have h2 := ha.le b (by simp)
            omega
        subst hrest
        rw [if_pos c3]
        refine ⟨⟨?_, ?_, ?_⟩, ?_, ?_⟩
        · intro x hx; simp at hx; subst hx; dsimp only; omega
        · simp
        · intro x hx; simp at hx; subst hx; dsimp only; omega
        · intro v h1 h2 hv
          rcases (in_cons _ _ _).1 hv with e | e
          · omega
          · simp [In] at e
        · intro x hx; simp at hx; subst hx
          exact Or.inr ⟨it, by simp, rfl⟩
      · rw [if_neg c3] at hf ⊢
        obtain ⟨i1, i2, i3⟩ := ih har hf
        refine ⟨⟨?_, ?_, ?_⟩, ?_, ?_⟩
        · intro x hx
          rcases List.mem_cons.1 hx with rfl | hx
          · exact hit
          · exact i1.proper x hx
        · refine List.pairwise_cons.2 ⟨?_, i1.gap⟩
          intro b hb
          rcases i3 b hb with e | ⟨j, hj, e⟩
          · omega
          · have := hgap.1 j hj; omega
        · intro x hx
          rcases List.mem_cons.1 hx with rfl | hx
          · omega
          · exact i1.le x hx
        · intro v h1 h2 hv
          rcases (in_cons _ _ _).1 hv with e | e
          · omega
          · exact i2 v h1 h2 e
        · intro x hx
          rcases List.mem_cons.1 hx with rfl | hx
          · exact Or.inr ⟨x, by simp, rfl⟩
          · rcases i3 x hx with e | ⟨j, hj, e⟩
            · exact Or.inl e
            · exact Or.inr ⟨j, by simp [hj], e⟩

theorem coverAll_asc (cs : List (Int × Int)) (hn : NonNull cs) :
    ∀ m xs, Asc m xs → cs.Pairwise (fun a b => a.1 ≤ b.1) → (∀ c ∈ cs, m ≤ c.1) →
      (coverAll xs cs).2 = false →
      ∀ v, times cs v ≤ 1 ∧ (In v xs → times cs v = 0) := by
  induction cs with
  | nil => intro m xs _ _ _ _ v; exact ⟨by simp [times], fun _ => by simp [times]⟩
  | cons c cs ih =>
    intro m xs ha hs hm hf v
    have hc := hn c (by simp)
    have hcs : NonNull cs := fun x hx => hn x (by simp [hx])
    have hs' := List.pairwise_cons.1 hs
    simp only [coverAll, Bool.or_eq_false_iff] at hf
    obtain ⟨a1, a2, _⟩ := cover_asc c.1 c.2 m hc (hm c (by simp)) xs ha hf.1
    obtain ⟨_, p2⟩ := cover_values c.1 c.2 hc xs ha.proper hf.1
    obtain ⟨t1, t2⟩ := ih hcs c.1 _ a1 hs'.2 hs'.1 hf.2 v
    rw [times_cons]
    by_cases q : c.1 ≤ v ∧ v ≤ c.2
    · rw [if_pos q]
      have := t2 ((p2 v).2 (Or.inr q))
      exact ⟨by omega, fun e => absurd e (a2 v q.1 q.2)⟩
    · rw [if_neg q]
      exact ⟨by omega, fun e => by have := t2 ((p2 v).2 (Or.inl e)); omega⟩

/-- Choices written in ascending order, none of them null: accepted iff every value is in
exactly one choice. -/
theorem case_ascending_partial (tlow thigh : Int) (ht : tlow ≤ thigh)
    (hs : thigh - tlow + 1 < 2 ^ 32) (cs : List (Int × Int)) (hn : NonNull cs)
    (ho : cs.Pairwise (fun a b => a.1 ≤ b.1)) :
    accepts tlow thigh cs = true ↔ InRange tlow thigh cs ∧ ExactlyOnce tlow thigh cs := by
  have key (hd : ∀ v, times cs v ≤ 1) := case_disjoint_partial tlow thigh ht hs cs hn hd
  constructor
  · intro h
    have hi := (accepts_iff tlow thigh ht cs).1 h
    have hd : ∀ v, times cs v ≤ 1 := by
      cases hcs : cs with
      | nil => intro v; simp [times]
      | cons c cs' =>
        intro v
        rw [← hcs]
        refine (coverAll_asc cs hn c.1 [] ⟨fun _ h => by simp at h, List.Pairwise.nil,
          fun _ h => by simp at h⟩ ho ?_ hi.2.1 v).1
        intro x hx
        rw [hcs] at hx ho
        rcases List.mem_cons.1 hx with rfl | hx
        · exact Int.le_refl _
        · exact (List.pairwise_cons.1 ho).1 x hx
    exact (key hd).1 h
  · rintro ⟨h1, h2⟩
    refine (key ?_).2 ⟨h1, h2⟩
    intro v
    by_cases c : tlow ≤ v ∧ v ≤ thigh
    · rw [h2 v c.1 c.2]; omega
    · have : times cs v = 0 := by
        unfold times
        rw [List.countP_eq_zero]
        intro x hx
        have := h1 x hx
        simp only [decide_eq_true_eq]
        omega
      omega

/-- A duplicate may be overlooked and make up for a missing value: the choices 2, 1, 2 are
accepted for a type with the values 1, 2, 3. -/
theorem duplicate_counterexample :
    accepts 1 3 [(2, 2), (1, 1), (2, 2)] = true ∧ times [(2, 2), (1, 1), (2, 2)] 2 = 2 ∧
      times [(2, 2), (1, 1), (2, 2)] 3 = 0 := by decide

/-- The number of missing values is an `int`: only 0 is covered, but 2^32 missing values count as
none. -/
theorem size_counterexample :
    accepts 0 (2 ^ 32) [(0, 0)] = true ∧ times [(0, 0)] 1 = 0 := by decide

/-- A null range, which covers nothing, is reported as already covered. -/
theorem null_counterexample :
    accepts 1 3 [(1, 3), (3, 2)] = false ∧ ExactlyOnce 1 3 [(1, 3), (3, 2)] := by
  refine ⟨by decide, ?_⟩
  intro v h1 h2
  have : v = 1 ∨ v = 2 ∨ v = 3 := by omega
  rcases this with rfl | rfl | rfl <;> decide

/-! ## Examples -/

example : accepts 1 6 [(1, 2), (3, 3), (4, 6)] = true := by decide
example : accepts 1 6 [(4, 6), (1, 2), (3, 3)] = true := by decide
example : accepts 1 6 [(1, 2), (4, 6)] = false := by decide
example : accepts 1 6 [(1, 2), (2, 6)] = false := by decide
example : NonNull [(4, 6), (1, 2), (3, 3)] ∧ InRange 1 6 [(4, 6), (1, 2), (3, 3)] := by
  unfold NonNull InRange; decide
example : ∀ v, times [(4, 6), (1, 2), (3, 3)] v ≤ 1 := by
  intro v
  rw [times_cons, times_cons, times_cons]
  simp only [times, List.countP_nil]
  split <;> split <;> split <;> omega

end Verif.Bounds
