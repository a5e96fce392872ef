import Verif.FourState.Props

/-
Property C91, second part: equality, relations, arithmetic, conversions and nets.
-/

namespace Verif.FourState

/-! ## Equality -/

theorem spec_eq_cons (a b : L) (l r : List L) : Spec.eq (a :: l) (b :: r) =
    Spec.and1 (Spec.not1 (Spec.xor1 a b)) (Spec.eq l r) := by
  simp only [Spec.eq, ext_cons, List.zipWith_cons_cons, List.foldr_cons]

theorem spec_eq_nil_r (a : L) (l : List L) : Spec.eq (a :: l) [] =
    Spec.and1 (Spec.not1 (Spec.xor1 a .zero)) (Spec.eq l []) := by
  simp only [Spec.eq, List.length_nil, ext_nil, ext_of_nil, List.map_cons, List.zipWith_cons_cons,
    List.foldr_cons]

theorem spec_eq_nil_l (b : L) (r : List L) : Spec.eq [] (b :: r) =
    Spec.and1 (Spec.not1 (Spec.xor1 .zero b)) (Spec.eq [] r) := by
  simp only [Spec.eq, List.length_nil, ext_nil, ext_of_nil, List.map_cons, List.zipWith_cons_cons,
    List.foldr_cons]

theorem and1_zero (a : L) : Spec.and1 .zero a = .zero := by cases a <;> rfl
theorem and1_one (a : L) (h : a ≠ .Z) : Spec.and1 .one a = a := by
  cases a <;> first | rfl | exact absurd rfl h
theorem and1_X (a : L) : Spec.and1 .X a = .zero ∨ Spec.and1 .X a = .X := by cases a <;> decide
theorem and1_ne (a b : L) : Spec.and1 a b ≠ .Z := by cases a <;> cases b <;> decide

theorem spec_eq_ne (l r : List L) : Spec.eq l r ≠ .Z := by
  cases l with
  | nil =>
    cases r with
    | nil => decide
    | cons b r => rw [spec_eq_nil_l]; exact and1_ne _ _
  | cons a l =>
    cases r with
    | nil => rw [spec_eq_nil_r]; exact and1_ne _ _
    | cons b r => rw [spec_eq_cons]; exact and1_ne _ _

theorem eqLoop_nil (res : L) (r : List L) : eqLoop res [] r = eqRest res r := by
  cases r <;> rfl

theorem caseEq_nil (r : List L) : caseEq [] r = caseRest r := by
  cases r <;> rfl

theorem eq_loop (l r : List L) (res : L) : eqLoop res l r =
    if unkIn l ∨ unkIn r then .X
    else if Spec.eq l r = .zero then .zero else res := by
  induction l generalizing r res with
  | nil =>
    induction r generalizing res with
    | nil =>
      have h : Spec.eq [] [] = .one := rfl
      simp [eqLoop, eqRest, unkIn, h]
    | cons b r ih =>
      rw [eqLoop_nil]
      simp only [eqLoop_nil] at ih
      have hz := spec_eq_ne [] r
      have hn : ¬ unkIn [] := by simp [unkIn]
      cases b <;> simp only [eqRest, reduceCtorEq, if_false, if_true, ne_eq, not_true_eq_false,
        not_false_eq_true, ih, unk_cons, Spec.known, spec_eq_nil_l, hn, false_or, true_or]
      · have h1 : Spec.not1 (Spec.xor1 .zero .zero) = .one := rfl
        rw [h1, and1_one _ hz]
      · have h1 : Spec.not1 (Spec.xor1 .zero .one) = .zero := rfl
        rw [h1, and1_zero]
        simp
  | cons a l ih =>
    cases r with
    | nil =>
      have h0 : ∀ (res : L) (m : List L), eqLoop res m [] = eqRest res m := by
        intro res m; cases m <;> rfl
      have ih := ih []
      rw [h0]
      simp only [h0] at ih
      have hz := spec_eq_ne l []
      have hn : ¬ unkIn [] := by simp [unkIn]
      cases a <;> simp only [eqLoop, eqRest, reduceCtorEq, if_false, if_true, ne_eq, not_true_eq_false,
        not_false_eq_true, ih, unk_cons, Spec.known, spec_eq_nil_r, hn, or_false, false_or, true_or]
      · have h1 : Spec.not1 (Spec.xor1 .zero .zero) = .one := rfl
        rw [h1, and1_one _ hz]
      · have h1 : Spec.not1 (Spec.xor1 .one .zero) = .zero := rfl
        rw [h1, and1_zero]
        simp
    | cons b r =>
      have hz := spec_eq_ne l r
      cases a <;> cases b <;> simp only [eqLoop, reduceCtorEq, and_true, and_false, or_false,
        false_or, or_true, true_or, if_false, if_true, ne_eq, not_true_eq_false, not_false_eq_true,
        ih, unk_cons, Spec.known, spec_eq_cons, and_self]
      · have h1 : Spec.not1 (Spec.xor1 .zero .zero) = .one := rfl
        rw [h1, and1_one _ hz]
      · have h1 : Spec.not1 (Spec.xor1 .zero .one) = .zero := rfl
        rw [h1, and1_zero]
        simp
      · have h1 : Spec.not1 (Spec.xor1 .one .zero) = .zero := rfl
        rw [h1, and1_zero]
        simp
      · have h1 : Spec.not1 (Spec.xor1 .one .one) = .one := rfl
        rw [h1, and1_one _ hz]

/-- The values of the comparison of the standard. -/
def EqVal (u : Prop) (e : L) : Prop := e = .zero ∨ (u ∧ e = .X) ∨ (¬ u ∧ e = .one)

theorem eqval_step (a b e : L) (u : Prop) (h : EqVal u e) :
    EqVal ((Spec.known a = none ∨ Spec.known b = none) ∨ u)
      (Spec.and1 (Spec.not1 (Spec.xor1 a b)) e) := by
  rcases h with rfl | ⟨hu, rfl⟩ | ⟨hu, rfl⟩
  · refine .inl ?_
    cases a <;> cases b <;> decide
  · cases a <;> cases b <;> simp [EqVal, hu, Spec.known] <;> decide
  · cases a <;> cases b <;> simp [EqVal, hu, Spec.known] <;> decide

theorem eqval_congr {u v : Prop} {e : L} (h : EqVal u e) (hv : u ↔ v) : EqVal v e := by
  have : u = v := propext hv
  rwa [← this]

theorem spec_eq_val (l r : List L) : EqVal (unkIn l ∨ unkIn r) (Spec.eq l r) := by
  induction l generalizing r with
  | nil =>
    induction r with
    | nil => exact .inr (.inr ⟨by simp [unkIn], rfl⟩)
    | cons b r ih =>
      rw [spec_eq_nil_l]
      refine eqval_congr (eqval_step .zero b _ _ ih) ?_
      simp [unk_cons, Spec.known]
      exact or_left_comm
  | cons a l ih =>
    cases r with
    | nil =>
      rw [spec_eq_nil_r]
      refine eqval_congr (eqval_step a .zero _ _ (ih [])) ?_
      simp [unk_cons, Spec.known, or_assoc]
    | cons b r =>
      rw [spec_eq_cons]
      refine eqval_congr (eqval_step a b _ _ (ih r)) ?_
      simp only [unk_cons]
      constructor
      · rintro ((h | h) | (h | h)) <;> simp [h]
      · rintro ((h | h) | (h | h)) <;> simp [h]

/-- **C91**: `==` is right except for vectors which have an unknown bit and differ
in a known one. -/
theorem eq_correct_iff (l r : List L) :
    eq l r = Spec.eq l r ↔ ¬ ((unkIn l ∨ unkIn r) ∧ Spec.eq l r = .zero) := by
  unfold eq
  rw [eq_loop]
  rcases spec_eq_val l r with h | ⟨hu, h⟩ | ⟨hu, h⟩
  · by_cases hu : unkIn l ∨ unkIn r <;> simp [h, hu]
  · simp [h, hu]
  · simp [h, hu]

/-- `2'b0x == 2'b1x` is x, though the left bits differ. -/
theorem eq_counterexample : eq [.X, .zero] [.X, .one] = .X ∧
    Spec.eq [.X, .zero] [.X, .one] = .zero := by decide

/-- **C91**: `===` and `!==` are those of the standard. -/
theorem case_eq_correct (l r : List L) : caseEq l r = Spec.caseEq l r := by
  induction l generalizing r with
  | nil =>
    induction r with
    | nil => rfl
    | cons b r ih =>
      rw [caseEq_nil] at ih ⊢
      simp only [Spec.caseEq, List.length_nil, ext_nil, ext_of_nil] at ih ⊢
      simp only [caseRest, ih, List.map_cons]
      cases b <;> simp <;> rfl
  | cons a l ih =>
    cases r with
    | nil =>
      have h := ih []
      have h0 : caseEq l [] = caseRest l := by cases l <;> rfl
      rw [h0] at h
      simp only [Spec.caseEq, List.length_nil, ext_nil, ext_of_nil] at h ⊢
      simp only [caseEq, caseRest, h, List.map_cons]
      cases a <;> simp <;> rfl
    | cons b r =>
      simp only [Spec.caseEq, ext_cons, caseEq, ih]
      cases a <;> cases b <;> simp <;> rfl

theorem case_ne_correct (l r : List L) : caseNe l r = !Spec.caseEq l r := by
  rw [caseNe, case_eq_correct]

/-! ## Numbers -/

theorem num_cons (a : L) (l : List L) : Spec.num (a :: l) =
    match Spec.known a, Spec.num l with
    | some b, some n => some (b.toNat + 2 * n)
    | _, _ => none := rfl

theorem num_none (l : List L) : Spec.num l = none ↔ unkIn l := by
  induction l with
  | nil => simp [Spec.num, unkIn]
  | cons a l ih =>
    rw [unk_cons, ← ih, num_cons]
    cases Spec.known a <;> cases Spec.num l <;> simp

theorem num_lt {l : List L} {n : Nat} (h : Spec.num l = some n) : n < 2 ^ l.length := by
  induction l generalizing n with
  | nil => cases h; decide
  | cons a l ih =>
    rw [num_cons] at h
    split at h
    · next b m _ hm =>
      have := ih hm
      cases h
      rw [List.length_cons, Nat.pow_succ]
      cases b <;> simp <;> omega
    · cases h

theorem num_append {l r : List L} {n m : Nat} (hl : Spec.num l = some n) (hr : Spec.num r = some m) :
    Spec.num (l ++ r) = some (n + 2 ^ l.length * m) := by
  induction l generalizing n with
  | nil => cases hl; simpa using hr
  | cons a l ih =>
    rw [num_cons] at hl
    split at hl
    · next b k hb hk =>
      cases hl
      rw [List.cons_append, num_cons, hb, ih hk]
      simp only [List.length_cons, Nat.pow_succ, Option.some.injEq]
      rw [Nat.mul_add, Nat.mul_comm (2 ^ l.length) 2, Nat.mul_assoc, Nat.add_assoc]
    · cases hl

theorem num_zeros (k : Nat) : Spec.num (List.replicate k .zero) = some 0 := by
  induction k with
  | zero => rfl
  | succ k ih => rw [List.replicate_succ, num_cons, ih]; rfl

theorem num_zero {l : List L} : Spec.num l = some 0 ↔ ∀ a ∈ l, a = .zero := by
  induction l with
  | nil => simp [Spec.num]
  | cons a l ih =>
    rw [num_cons, List.forall_mem_cons, ← ih]
    cases a <;> cases Spec.num l <;> simp [Spec.known]
    omega

/-- The parts of a number. -/
theorem num_split {l : List L} {n : Nat} (k : Nat) (h : Spec.num l = some n) :
    ∃ a b, Spec.num (l.take k) = some a ∧ Spec.num (l.drop k) = some b ∧
      n = a + 2 ^ (l.take k).length * b := by
  cases h1 : Spec.num (l.take k) with
  | none =>
    obtain ⟨x, hx, hk⟩ := (num_none _).mp h1
    have := (num_none l).mpr ⟨x, List.mem_of_mem_take hx, hk⟩
    rw [h] at this
    cases this
  | some a =>
    cases h2 : Spec.num (l.drop k) with
    | none =>
      obtain ⟨x, hx, hk⟩ := (num_none _).mp h2
      have := (num_none l).mpr ⟨x, List.mem_of_mem_drop hx, hk⟩
      rw [h] at this
      cases this
    | some b =>
      refine ⟨a, b, rfl, rfl, ?_⟩
      have := num_append h1 h2
      rw [List.take_append_drop, h] at this
      exact Option.some.inj this

/-! ## Relations -/

theorem lt_loop_append (ps : List (L × L)) (p : L × L) : ltLoop (ps ++ [p]) =
    if ps.all (fun q => decide (q.1 = q.2)) then ltLoop [p] else ltLoop ps := by
  induction ps with
  | nil => rfl
  | cons q ps ih =>
    obtain ⟨a, b⟩ := q
    simp only [List.cons_append, ltLoop, ih, List.all_cons]
    cases a <;> cases b <;> first | rfl | simp

theorem gt_loop_append (ps : List (L × L)) (p : L × L) : gtLoop (ps ++ [p]) =
    if ps.all (fun q => decide (q.1 = q.2)) then gtLoop [p] else gtLoop ps := by
  induction ps with
  | nil => rfl
  | cons q ps ih =>
    obtain ⟨a, b⟩ := q
    simp only [List.cons_append, gtLoop, ih, List.all_cons]
    cases a <;> cases b <;> first | rfl | simp

theorem num_some_cons {a : L} {l : List L} {n : Nat} (h : Spec.num (a :: l) = some n) :
    ∃ m, Spec.num l = some m ∧ ((a = .zero ∧ n = 2 * m) ∨ (a = .one ∧ n = 2 * m + 1)) := by
  rw [num_cons] at h
  cases a <;> simp only [Spec.known, reduceCtorEq] at h
  · cases hm : Spec.num l with
    | none => rw [hm] at h; cases h
    | some m => rw [hm] at h; cases h; exact ⟨m, rfl, .inl ⟨rfl, by simp⟩⟩
  · cases hm : Spec.num l with
    | none => rw [hm] at h; cases h
    | some m => rw [hm] at h; cases h; exact ⟨m, rfl, .inr ⟨rfl, by simp; omega⟩⟩

/-- Vectors of one length compare from the left. -/
theorem loops_num {l r : List L} {n m : Nat} (hlen : l.length = r.length)
    (hl : Spec.num l = some n) (hr : Spec.num r = some m) :
    ltLoop (l.zip r).reverse = Spec.ofBool (decide (n < m)) ∧
    gtLoop (l.zip r).reverse = Spec.ofBool (decide (n > m)) ∧
    ((l.zip r).all (fun q => decide (q.1 = q.2)) = true ↔ n = m) := by
  induction l generalizing r n m with
  | nil =>
    cases r with
    | nil => cases hl; cases hr; decide
    | cons b r => cases hlen
  | cons a l ih =>
    cases r with
    | nil => cases hlen
    | cons b r =>
      obtain ⟨n', hn', hn⟩ := num_some_cons hl
      obtain ⟨m', hm', hm⟩ := num_some_cons hr
      obtain ⟨h1, h2, h3⟩ := ih (Nat.succ.inj hlen) hn' hm'
      simp only [List.zip_cons_cons, List.reverse_cons, lt_loop_append, gt_loop_append,
        List.all_reverse, List.all_cons, Bool.and_eq_true]
      rw [h1, h2]
      by_cases he : n' = m'
      · have h3' := h3.mpr he
        simp only [h3', if_true, and_true]
        subst he
        have q1 : 2 * n' < 2 * n' + 1 := by omega
        have q2 : ¬ 2 * n' + 1 < 2 * n' := by omega
        rcases hn with ⟨rfl, rfl⟩ | ⟨rfl, rfl⟩ <;> rcases hm with ⟨rfl, rfl⟩ | ⟨rfl, rfl⟩ <;>
          simp [ltLoop, gtLoop, q1, q2, Spec.ofBool]
      · have h3' : ¬ ((l.zip r).all (fun q => decide (q.1 = q.2))) = true := fun h => he (h3.mp h)
        simp only [h3', if_false, and_false, false_iff, Bool.false_eq_true]
        refine ⟨?_, ?_, ?_⟩
        · congr 1
          rcases hn with ⟨rfl, rfl⟩ | ⟨rfl, rfl⟩ <;> rcases hm with ⟨rfl, rfl⟩ | ⟨rfl, rfl⟩ <;>
            simp <;> omega
        · congr 1
          rcases hn with ⟨rfl, rfl⟩ | ⟨rfl, rfl⟩ <;> rcases hm with ⟨rfl, rfl⟩ | ⟨rfl, rfl⟩ <;>
            simp <;> omega
        · omega

/-- No bit beyond the other vector is set. -/
def NoExcess (l r : List L) : Prop :=
  (∀ a ∈ l.drop r.length, a = .zero) ∧ (∀ a ∈ r.drop l.length, a = .zero)

instance (l r : List L) : Decidable (NoExcess l r) := inferInstanceAs (Decidable (_ ∧ _))

theorem loop_val (ps : List (L × L)) : (ltLoop ps = .zero ∨ ltLoop ps = .one) ∧
    (gtLoop ps = .zero ∨ gtLoop ps = .one) := by
  induction ps with
  | nil => exact ⟨.inl rfl, .inl rfl⟩
  | cons p ps ih =>
    obtain ⟨a, b⟩ := p
    simp only [ltLoop, gtLoop]
    constructor <;> (repeat' split) <;> simp [ih.1, ih.2]

/-- The results are never unknown. -/
theorem lt_gt_val (l r : List L) :
    (lt l r = .zero ∨ lt l r = .one) ∧ (gt l r = .zero ∨ gt l r = .one) := by
  have h := loop_val (l.zip r).reverse
  unfold lt gt
  constructor
  · repeat' split
    · simp
    · simp
    · exact h.1
  · repeat' split
    · simp
    · simp
    · exact h.2

theorem zip_take (l r : List L) : l.zip r = (l.take r.length).zip (r.take l.length) := by
  induction l generalizing r with
  | nil => simp
  | cons a l ih =>
    cases r with
    | nil => simp
    | cons b r => simp [ih r]

theorem any_excess {l : List L} {n : Nat} (h : Spec.num l = some n) :
    (l.any (· == .one) = true ↔ n ≠ 0) ∧ (l.any (· != .zero) = true ↔ n ≠ 0) := by
  have hz : n = 0 ↔ ∀ a ∈ l, a = .zero := by
    rw [← num_zero, h]
    simp
  have hk : ∀ a ∈ l, a = .zero ∨ a = .one := by
    intro a ha
    have : ¬ unkIn l := fun hu => by
      have := (num_none l).mpr hu
      rw [h] at this
      cases this
    cases a with
    | zero => exact .inl rfl
    | one => exact .inr rfl
    | X => exact absurd ⟨_, ha, rfl⟩ this
    | Z => exact absurd ⟨_, ha, rfl⟩ this
  have h2 : l.any (· != .zero) = true ↔ n ≠ 0 := by
    rw [ne_eq, hz]
    simp
  refine ⟨?_, h2⟩
  rw [← h2]
  simp only [List.any_eq_true, beq_iff_eq, bne_iff_ne]
  constructor
  · rintro ⟨a, ha, rfl⟩
    exact ⟨_, ha, by simp⟩
  · rintro ⟨a, ha, hne⟩
    exact ⟨a, ha, (hk a ha).resolve_left hne⟩

/-- The comparisons of known vectors, with the numbers of the common and of the
other bits. -/
theorem lt_gt_known {l r : List L} {n m : Nat} (hl : Spec.num l = some n)
    (hr : Spec.num r = some m) :
    (lt l r = (if NoExcess l r then Spec.ofBool (decide (n < m)) else Spec.ofBool (decide (n ≥ m))))
      ∧ (gt l r = (if NoExcess l r then Spec.ofBool (decide (n > m))
          else Spec.ofBool (decide (n ≤ m)))) := by
  obtain ⟨a, b, ha, hb, hn⟩ := num_split r.length hl
  obtain ⟨c, d, hc, hd, hm⟩ := num_split l.length hr
  have hlen : (l.take r.length).length = (r.take l.length).length := by
    simp [Nat.min_comm]
  obtain ⟨h1, h2, _⟩ := loops_num hlen ha hc
  rw [← zip_take] at h1 h2
  have hlt : a < 2 ^ (l.take r.length).length := num_lt ha
  have hlt' : c < 2 ^ (l.take r.length).length := by rw [hlen]; exact num_lt hc
  rw [← hlen] at hm
  have e1 := any_excess hb
  have e2 := any_excess hd
  have hx : NoExcess l r ↔ b = 0 ∧ d = 0 := by
    unfold NoExcess
    rw [← num_zero, ← num_zero, hb, hd]
    simp
  -- only one vector is longer
  have hone : b = 0 ∨ d = 0 := by
    rcases Nat.le_total l.length r.length with h | h
    · rw [List.drop_eq_nil_of_le h] at hb
      cases hb
      exact .inl rfl
    · rw [List.drop_eq_nil_of_le h] at hd
      cases hd
      exact .inr rfl
  unfold lt gt
  rw [h1, h2]
  generalize 2 ^ (l.take r.length).length = p at *
  by_cases hb0 : b = 0
  · by_cases hd0 : d = 0
    · have f1 : ¬ ((l.drop r.length).any (· == .one)) = true := fun h => (e1.1.mp h) hb0
      have f2 : ¬ ((r.drop l.length).any (· != .zero)) = true := fun h => (e2.2.mp h) hd0
      rw [if_neg f1, if_neg f2, if_neg f1, if_neg f2, if_pos (hx.mpr ⟨hb0, hd0⟩),
        if_pos (hx.mpr ⟨hb0, hd0⟩)]
      subst hb0 hd0
      simp only [Nat.mul_zero, Nat.add_zero] at hn hm
      subst hn hm
      exact ⟨rfl, rfl⟩
    · have f1 : ¬ ((l.drop r.length).any (· == .one)) = true := fun h => (e1.1.mp h) hb0
      have f2 : ((r.drop l.length).any (· != .zero)) = true := e2.2.mpr hd0
      have f3 : ¬ NoExcess l r := fun h => hd0 (hx.mp h).2
      rw [if_neg f1, if_pos f2, if_neg f1, if_pos f2, if_neg f3, if_neg f3]
      have : p * 1 ≤ p * d := Nat.mul_le_mul_left _ (by omega)
      subst hb0
      have hlt2 : n < m := by rw [hn, hm, Nat.mul_zero]; omega
      simp [Nat.le_of_lt hlt2, Nat.not_le.mpr hlt2, Spec.ofBool]
  · have hd0 : d = 0 := hone.resolve_left hb0
    have f1 : ((l.drop r.length).any (· == .one)) = true := e1.1.mpr hb0
    have f3 : ¬ NoExcess l r := fun h => hb0 (hx.mp h).1
    rw [if_pos f1, if_pos f1, if_neg f3, if_neg f3]
    have : p * 1 ≤ p * b := Nat.mul_le_mul_left _ (by omega)
    subst hd0
    have hlt2 : m < n := by rw [hn, hm, Nat.mul_zero]; omega
    simp [Nat.le_of_lt hlt2, Nat.not_le.mpr hlt2, Spec.ofBool]

/-- The form of the four theorems below. -/
theorem rel_iff {f : L} {l r : List L} {p : Nat → Nat → Bool} (hf : f = .zero ∨ f = .one)
    (hk : ∀ n m, Spec.num l = some n → Spec.num r = some m →
      f = if NoExcess l r then Spec.ofBool (p n m) else Spec.ofBool (!p n m)) :
    f = Spec.rel p l r ↔ ¬ unkIn l ∧ ¬ unkIn r ∧ NoExcess l r := by
  rw [← num_none, ← num_none]
  unfold Spec.rel
  cases hl : Spec.num l with
  | none => rcases hf with rfl | rfl <;> simp
  | some n =>
    cases hr : Spec.num r with
    | none => rcases hf with rfl | rfl <;> simp
    | some m =>
      rw [hk n m hl hr]
      by_cases h : NoExcess l r
      · simp [h]
      · simp only [h, if_false, and_false, iff_false]
        cases p n m <;> decide

/-- **C91**: `<`, `>`, `<=` and `>=` are right exactly for known operands where the
longer one has only zeros beyond the other. -/
theorem lt_correct_iff (l r : List L) : lt l r = Spec.rel (fun a b => decide (a < b)) l r ↔
    ¬ unkIn l ∧ ¬ unkIn r ∧ NoExcess l r :=
  rel_iff (lt_gt_val l r).1 (fun n m hl hr => by
    rw [(lt_gt_known hl hr).1]
    congr 2
    rw [← decide_not]
    congr 1
    simp)

theorem gt_correct_iff (l r : List L) : gt l r = Spec.rel (fun a b => decide (a > b)) l r ↔
    ¬ unkIn l ∧ ¬ unkIn r ∧ NoExcess l r :=
  rel_iff (lt_gt_val l r).2 (fun n m hl hr => by
    rw [(lt_gt_known hl hr).2]
    congr 2
    rw [← decide_not]
    congr 1
    simp)

theorem not_ofBool (b : Bool) : not2 (Spec.ofBool b) = Spec.ofBool (!b) := by cases b <;> rfl

theorem le_correct_iff (l r : List L) : le l r = Spec.rel (fun a b => decide (a ≤ b)) l r ↔
    ¬ unkIn l ∧ ¬ unkIn r ∧ NoExcess l r :=
  rel_iff (by unfold le; rcases (lt_gt_val l r).2 with h | h <;> rw [h] <;> simp [not2])
    (fun n m hl hr => by
    unfold le
    rw [(lt_gt_known hl hr).2]
    split
    · rw [not_ofBool, ← decide_not]
      congr 2
      simp
    · rw [not_ofBool])

theorem ge_correct_iff (l r : List L) : ge l r = Spec.rel (fun a b => decide (a ≥ b)) l r ↔
    ¬ unkIn l ∧ ¬ unkIn r ∧ NoExcess l r :=
  rel_iff (by unfold ge; rcases (lt_gt_val l r).1 with h | h <;> rw [h] <;> simp [not2])
    (fun n m hl hr => by
    unfold ge
    rw [(lt_gt_known hl hr).1]
    split
    · rw [not_ofBool, ← decide_not]
      congr 2
      simp
    · rw [not_ofBool])

/-- `2'b10 < 1'b1` is 1, and `2'b10 > 1'b1` is 0. -/
theorem lt_counterexample : lt [.zero, .one] [.one] = .one ∧ gt [.zero, .one] [.one] = .zero ∧
    Spec.rel (fun a b => decide (a < b)) [.zero, .one] [.one] = .zero ∧
    Spec.rel (fun a b => decide (a > b)) [.zero, .one] [.one] = .one := by decide

/-- `1'bx < 1'b1` is 0, and `1'bx >= 1'b1` is 1. -/
theorem lt_unknown_counterexample : lt [.X] [.one] = .zero ∧ ge [.X] [.one] = .one ∧
    Spec.rel (fun a b => decide (a < b)) [.X] [.one] = .X := by decide

/-! ## Arithmetic -/

theorem bits_length (w n : Nat) : (Spec.bits w n).length = w := by
  induction w generalizing n with
  | zero => rfl
  | succ w ih => simp [Spec.bits, ih]

theorem known_ofBool {a : L} {b : Bool} (h : Spec.known a = some b) : a = Spec.ofBool b := by
  cases a <;> cases h <;> rfl

theorem addU_bits {l r : List L} {n m : Nat} (c : Bool) (hlen : l.length = r.length)
    (hl : Spec.num l = some n) (hr : Spec.num r = some m) :
    addU l r (Spec.ofBool c) = Spec.bits l.length (n + m + c.toNat) := by
  induction l generalizing r n m c with
  | nil =>
    cases r with
    | nil => rfl
    | cons b r => cases hlen
  | cons a l ih =>
    cases r with
    | nil => cases hlen
    | cons b r =>
      obtain ⟨n', hn', hn⟩ := num_some_cons hl
      obtain ⟨m', hm', hm⟩ := num_some_cons hr
      have key : ∀ (x y : Bool), a = Spec.ofBool x → b = Spec.ofBool y → n = 2 * n' + x.toNat →
          m = 2 * m' + y.toNat → addU (a :: l) (b :: r) (Spec.ofBool c) =
            Spec.bits (l.length + 1) (n + m + c.toNat) := by
        intro x y hx hy hn2 hm2
        clear hn hm
        subst hx hy
        have hc : or2 (or2 (and2 (Spec.ofBool c) (Spec.ofBool x)) (and2 (Spec.ofBool c) (Spec.ofBool y)))
            (and2 (Spec.ofBool x) (Spec.ofBool y)) = Spec.ofBool ((c && x) || (c && y) || (x && y)) := by
          cases c <;> cases x <;> cases y <;> rfl
        have hs : xor2 (xor2 (Spec.ofBool c) (Spec.ofBool x)) (Spec.ofBool y) =
            Spec.ofBool ((n + m + c.toNat) % 2 == 1) := by
          have : (n + m + c.toNat) % 2 = (x.toNat + y.toNat + c.toNat) % 2 := by omega
          rw [this]
          cases c <;> cases x <;> cases y <;> rfl
        have hd : (n + m + c.toNat) / 2 = n' + m' + ((c && x) || (c && y) || (x && y)).toNat := by
          subst hn2 hm2
          cases c <;> cases x <;> cases y <;> simp <;> omega
        simp only [addU, Spec.bits]
        rw [hc, hs, hd, ih _ (Nat.succ.inj hlen) hn' hm']
      rcases hn with ⟨rfl, hn⟩ | ⟨rfl, hn⟩ <;> rcases hm with ⟨rfl, hm⟩ | ⟨rfl, hm⟩
      · exact key false false rfl rfl hn hm
      · exact key false true rfl rfl hn hm
      · exact key true false rfl rfl hn hm
      · exact key true true rfl rfl hn hm

/-- **C91**: `resize` cuts a vector or extends it with zeros. -/
theorem resize_correct (l : List L) (n : Nat) : resize l n = (Spec.ext n l).take n := by
  unfold resize Spec.ext
  split
  · next h => subst h; simp
  · split
    · next h =>
      rw [show n - l.length = 0 by omega]
      simp
    · next h1 h2 =>
      rw [List.take_of_length_le]
      simp
      omega

theorem resize_length (l : List L) (n : Nat) : (resize l n).length = n := by
  rw [resize_correct]
  simp [Spec.ext]
  omega

theorem resize_num {l : List L} {n k : Nat} (h : Spec.num l = some n) (hk : l.length ≤ k) :
    Spec.num (resize l k) = some n := by
  rw [resize_correct, List.take_of_length_le (by simp [Spec.ext]; omega)]
  have := num_append h (num_zeros (k - l.length))
  simpa [Spec.ext] using this

/-- **C91**: the sum of known vectors is right, modulo the length of the longer. -/
theorem add_correct_partial (l r : List L) (hl : ¬ unkIn l) (hr : ¬ unkIn r) :
    add l r = Spec.arith (max l.length r.length) (fun a b => a + b) l r := by
  rw [← num_none] at hl hr
  unfold Spec.arith
  cases h1 : Spec.num l with
  | none => exact absurd h1 hl
  | some n =>
    cases h2 : Spec.num r with
    | none => exact absurd h2 hr
    | some m =>
      have e1 := resize_num h1 (Nat.le_max_left l.length r.length)
      have e2 := resize_num h2 (Nat.le_max_right l.length r.length)
      have := addU_bits false (by rw [resize_length, resize_length]) e1 e2
      rw [resize_length] at this
      simpa [add, Spec.ofBool] using this

/-- `2'bx0 + 2'b01` is `2'bx1`, with a known bit. -/
theorem add_unknown_counterexample :
    add [.zero, .X] [.one, .zero] = [.one, .X] ∧
    Spec.arith 2 (fun a b => a + b) [.zero, .X] [.one, .zero] = [.X, .X] := by decide

theorem bits_take (w n k : Nat) (h : k ≤ w) : (Spec.bits w n).take k = Spec.bits k n := by
  induction k generalizing w n with
  | zero => rfl
  | succ k ih =>
    obtain ⟨v, rfl⟩ : ∃ v, w = v + 1 := ⟨w - 1, by omega⟩
    simp only [Spec.bits, List.take_succ_cons]
    rw [ih v _ (by omega)]

/-- A sum assigned to a target which is not longer than the operands is right. -/
theorem add_assign_partial (l r : List L) (k : Nat) (hl : ¬ unkIn l) (hr : ¬ unkIn r)
    (hk : k ≤ max l.length r.length) :
    resize (add l r) k = Spec.arith k (fun a b => a + b) l r := by
  rw [add_correct_partial l r hl hr]
  rw [← num_none] at hl hr
  unfold Spec.arith
  cases h1 : Spec.num l with
  | none => exact absurd h1 hl
  | some n =>
    cases h2 : Spec.num r with
    | none => exact absurd h2 hr
    | some m =>
      show resize (Spec.bits _ (n + m)) k = Spec.bits k (n + m)
      rw [resize_correct]
      have : Spec.ext k (Spec.bits (max l.length r.length) (n + m)) =
          Spec.bits (max l.length r.length) (n + m) := by
        simp only [Spec.ext, bits_length, show k - max l.length r.length = 0 by omega,
          List.replicate_zero, List.append_nil]
      rw [this, bits_take _ _ _ hk]

/-- The carry of `1'b1 + 1'b1` is lost in an assignment to two bits. -/
theorem carry_counterexample : resize (add [.one] [.one]) 2 = [.zero, .zero] ∧
    Spec.arith 2 (fun a b => a + b) [.one] [.one] = [.zero, .one] := by decide

theorem neg_bits {l : List L} {n : Nat} (c : Bool) (hl : Spec.num l = some n) :
    negLoop l (Spec.ofBool c) = Spec.bits l.length (2 ^ l.length - 1 - n + c.toNat) := by
  induction l generalizing n c with
  | nil => rfl
  | cons a l ih =>
    obtain ⟨n', hn', hn⟩ := num_some_cons hl
    have hlt := num_lt hn'
    have key : ∀ x : Bool, a = Spec.ofBool x → n = 2 * n' + x.toNat →
        negLoop (a :: l) (Spec.ofBool c) =
          Spec.bits (l.length + 1) (2 ^ (l.length + 1) - 1 - n + c.toNat) := by
      intro x hx hn2
      clear hn
      subst hx
      rw [Nat.pow_succ]
      have ih := fun c => ih c hn'
      generalize 2 ^ l.length = p at *
      have hc : and2 (Spec.ofBool c) (not2 (Spec.ofBool x)) = Spec.ofBool (c && !x) := by
        cases c <;> cases x <;> rfl
      have hs : xor2 (not2 (Spec.ofBool x)) (Spec.ofBool c) =
          Spec.ofBool ((p * 2 - 1 - n + c.toNat) % 2 == 1) := by
        have : (p * 2 - 1 - n + c.toNat) % 2 = ((!x).toNat + c.toNat) % 2 := by
          cases c <;> cases x <;> simp at hn2 ⊢ <;> omega
        rw [this]
        cases c <;> cases x <;> rfl
      have hd : (p * 2 - 1 - n + c.toNat) / 2 =
          p - 1 - n' + (c && !x).toNat := by
        cases c <;> cases x <;> simp at hn2 ⊢ <;> omega
      simp only [negLoop, Spec.bits]
      rw [hc, hs, hd, ih]
    rcases hn with ⟨rfl, hn⟩ | ⟨rfl, hn⟩
    · exact key false rfl hn
    · exact key true rfl hn

/-- **C91**: the negation of a known vector is right. -/
theorem neg_correct_partial (l : List L) (hl : ¬ unkIn l) :
    neg l = Spec.arith l.length (fun a _ => 2 ^ l.length - a) l [] := by
  rw [← num_none] at hl
  unfold Spec.arith
  cases h1 : Spec.num l with
  | none => exact absurd h1 hl
  | some n =>
    have := neg_bits true h1
    have hlt := num_lt h1
    show neg l = Spec.bits l.length (2 ^ l.length - n)
    rw [show 2 ^ l.length - n = 2 ^ l.length - 1 - n + true.toNat by simp; omega]
    exact this

end Verif.FourState
