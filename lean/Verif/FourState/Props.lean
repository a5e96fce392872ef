import Verif.FourState.Model

/-
Property C91: the operators of Verilog on four-state values.
-/

namespace Verif.FourState

/-! ## Single bits -/

/-- **C91**: negation and exclusive or are those of the standard. -/
theorem not_correct (a : L) : not2 a = Spec.not1 a := by cases a <;> rfl

theorem xor_correct (a b : L) : xor2 a b = Spec.xor1 a b := by cases a <;> cases b <;> rfl

/-- **C91**: conjunction is right except for 0 with an unknown bit. -/
theorem and_correct_iff (a b : L) : and2 a b = Spec.and1 a b ↔
    ¬ ((a = .zero ∧ Spec.known b = none) ∨ (Spec.known a = none ∧ b = .zero)) := by
  cases a <;> cases b <;> decide

/-- **C91**: disjunction is right except for 1 with an unknown bit. -/
theorem or_correct_iff (a b : L) : or2 a b = Spec.or1 a b ↔
    ¬ ((a = .one ∧ Spec.known b = none) ∨ (Spec.known a = none ∧ b = .one)) := by
  cases a <;> cases b <;> decide

/-- `0 & x` is x, not 0. -/
theorem and_counterexample : and2 .zero .X = .X ∧ Spec.and1 .zero .X = .zero := by decide

/-- `1 | x` is x, not 1. -/
theorem or_counterexample : or2 .one .X = .X ∧ Spec.or1 .one .X = .one := by decide

theorem and_comm (a b : L) : and2 a b = and2 b a := by cases a <;> cases b <;> rfl
theorem or_comm (a b : L) : or2 a b = or2 b a := by cases a <;> cases b <;> rfl
theorem xor_comm (a b : L) : xor2 a b = xor2 b a := by cases a <;> cases b <;> rfl

/-! ## Bitwise operators of vectors -/

theorem not_array_correct (l : List L) : notA l = l.map Spec.not1 := by
  unfold notA
  congr 1
  funext a
  exact not_correct a

theorem ext_cons (a b : L) (l r : List L) :
    Spec.ext (b :: r).length (a :: l) = a :: Spec.ext r.length l := by
  simp [Spec.ext]

theorem bitwise_cons (f : L → L → L) (a b : L) (l r : List L) :
    Spec.bitwise f (a :: l) (b :: r) = f a b :: Spec.bitwise f l r := by
  simp only [Spec.bitwise, ext_cons, List.zipWith_cons_cons]

theorem ext_nil (l : List L) : Spec.ext 0 l = l := by simp [Spec.ext]

theorem ext_of_nil (l : List L) : Spec.ext l.length [] = l.map (fun _ => .zero) := by
  simp [Spec.ext, List.map_const']

theorem bitwise_nil_r (f : L → L → L) (l : List L) :
    Spec.bitwise f l [] = l.map (fun a => f a .zero) := by
  simp only [Spec.bitwise, List.length_nil, ext_nil, ext_of_nil]
  induction l with
  | nil => rfl
  | cons a l ih => simp [ih]

theorem bitwise_nil_l (f : L → L → L) (l : List L) :
    Spec.bitwise f [] l = l.map (fun a => f .zero a) := by
  simp only [Spec.bitwise, List.length_nil, ext_nil, ext_of_nil]
  induction l with
  | nil => rfl
  | cons a l ih => simp [ih]

/-- **C91**: `&` of vectors is right exactly if it is right for each pair of bits. -/
theorem and_array_correct_iff (l r : List L) : arr2 and2 l r = Spec.bitwise Spec.and1 l r ↔
    ∀ p ∈ l.zip r, and2 p.1 p.2 = Spec.and1 p.1 p.2 := by
  induction l generalizing r with
  | nil =>
    rw [bitwise_nil_l]
    simp only [List.zip_nil_left, List.not_mem_nil, false_implies, implies_true, iff_true]
    cases r with
    | nil => rfl
    | cons b r =>
      simp only [arr2]
      exact List.map_congr_left (fun a _ => by cases a <;> rfl)
  | cons a l ih =>
    cases r with
    | nil =>
      rw [bitwise_nil_r]
      simp only [List.zip_nil_right, List.not_mem_nil, false_implies, implies_true, iff_true, arr2]
      exact List.map_congr_left (fun a _ => by cases a <;> rfl)
    | cons b r =>
      rw [bitwise_cons]
      simp only [arr2, List.cons.injEq, ih, List.zip_cons_cons, List.forall_mem_cons]

/-- **C91**: `|` of vectors is right exactly if it is right for each pair of bits
and the longer vector has only zeros beyond the other. -/
theorem or_array_correct_iff (l r : List L) : arr2 or2 l r = Spec.bitwise Spec.or1 l r ↔
    (∀ p ∈ l.zip r, or2 p.1 p.2 = Spec.or1 p.1 p.2) ∧
    (∀ a ∈ l.drop r.length, a = .zero) ∧ (∀ a ∈ r.drop l.length, a = .zero) := by
  induction l generalizing r with
  | nil =>
    rw [bitwise_nil_l]
    simp only [List.zip_nil_left, List.not_mem_nil, false_implies, implies_true, true_and,
      List.drop_nil, List.length_nil, List.drop_zero]
    have h : arr2 or2 [] r = r.map (fun _ => L.zero) := by cases r <;> rfl
    rw [h]
    clear h
    induction r with
    | nil => simp
    | cons b r ih =>
      simp only [List.map_cons, List.cons.injEq, List.forall_mem_cons]
      exact and_congr (by cases b <;> decide) ih
  | cons a l ih =>
    cases r with
    | nil =>
      rw [bitwise_nil_r]
      simp only [List.zip_nil_right, List.not_mem_nil, false_implies, implies_true, true_and,
        List.drop_nil, List.length_nil, List.drop_zero, and_true, arr2]
      clear ih
      generalize a :: l = m
      induction m with
      | nil => simp
      | cons b r ih =>
        simp only [List.map_cons, List.cons.injEq, List.forall_mem_cons]
        exact and_congr (by cases b <;> decide) ih
    | cons b r =>
      rw [bitwise_cons]
      simp only [arr2, List.cons.injEq, ih, List.zip_cons_cons, List.forall_mem_cons,
        List.length_cons, List.drop_succ_cons, and_assoc]

/-- `2'b10 | 1'b1` is `2'b01`. -/
theorem or_length_counterexample : arr2 or2 [.zero, .one] [.one] = [.one, .zero] ∧
    Spec.bitwise Spec.or1 [.zero, .one] [.one] = [.one, .one] := by decide

/-! ## Reductions and gates -/

theorem foldl_rev (f : L → L → L) (hf : ∀ a b, f a b = f b a) (e : L) (l : List L) :
    l.reverse.foldl f e = l.foldr f e := by
  rw [List.foldl_reverse]
  congr 1
  funext a b
  exact hf b a

def unkIn (l : List L) : Prop := ∃ a ∈ l, Spec.known a = none

instance (l : List L) : Decidable (unkIn l) := inferInstanceAs (Decidable (∃ a ∈ l, _))

theorem unk_cons (a : L) (l : List L) : unkIn (a :: l) ↔ Spec.known a = none ∨ unkIn l := by
  simp [unkIn]

theorem and_fold (l : List L) (e : L) (he : Spec.known e ≠ none) : l.foldr and2 e =
    if unkIn l then .X else if .zero ∈ l then .zero else e := by
  induction l with
  | nil => simp [unkIn]
  | cons a l ih =>
    rw [List.foldr_cons, ih]
    simp only [unk_cons, List.mem_cons]
    by_cases h1 : unkIn l <;> by_cases h2 : L.zero ∈ l <;> cases a <;> cases e <;>
      simp_all [and2, Spec.known]

theorem and_fold_spec (l : List L) : l.foldr Spec.and1 .one =
    if .zero ∈ l then .zero else if unkIn l then .X else .one := by
  induction l with
  | nil => simp [unkIn]
  | cons a l ih =>
    rw [List.foldr_cons, ih]
    simp only [unk_cons, List.mem_cons]
    by_cases h1 : unkIn l <;> by_cases h2 : L.zero ∈ l <;> cases a <;>
      simp_all [Spec.known] <;> decide

theorem or_fold (l : List L) (e : L) : l.foldr or2 e =
    if unkIn l then .X else if .one ∈ l then (if Spec.known e = none then .X else .one)
      else (if l = [] then e else or2 .zero e) := by
  induction l with
  | nil => simp [unkIn]
  | cons a l ih =>
    rw [List.foldr_cons, ih]
    simp only [unk_cons, List.mem_cons]
    by_cases h1 : unkIn l <;> by_cases h2 : L.one ∈ l <;> by_cases h3 : l = [] <;> cases a <;>
      cases e <;> simp_all [or2, Spec.known]

theorem or_fold_spec (l : List L) : l.foldr Spec.or1 .zero =
    if .one ∈ l then .one else if unkIn l then .X else .zero := by
  induction l with
  | nil => simp [unkIn]
  | cons a l ih =>
    rw [List.foldr_cons, ih]
    simp only [unk_cons, List.mem_cons]
    by_cases h1 : unkIn l <;> by_cases h2 : L.one ∈ l <;> cases a <;>
      simp_all [Spec.known] <;> decide

/-- **C91**: an and gate is right except for inputs with a 0 and an unknown bit. -/
theorem and_reduce_correct_iff (l : List L) :
    andRed l = Spec.reduce Spec.and1 .one l ↔ ¬ (.zero ∈ l ∧ unkIn l) := by
  unfold andRed Spec.reduce
  rw [foldl_rev _ and_comm, and_fold _ _ (by decide), and_fold_spec]
  by_cases h1 : unkIn l <;> by_cases h2 : L.zero ∈ l <;> simp [h1, h2]

/-- **C91**: an or gate is right except for inputs with a 1 and an unknown bit. -/
theorem or_reduce_correct_iff (l : List L) :
    orRed l = Spec.reduce Spec.or1 .zero l ↔ ¬ (.one ∈ l ∧ unkIn l) := by
  unfold orRed Spec.reduce
  rw [foldl_rev _ or_comm, or_fold, or_fold_spec]
  by_cases h1 : unkIn l <;> by_cases h2 : L.one ∈ l <;> simp [h1, h2, or2, Spec.known]

theorem nand_reduce_correct_iff (l : List L) :
    nandRed l = Spec.not1 (Spec.reduce Spec.and1 .one l) ↔ ¬ (.zero ∈ l ∧ unkIn l) := by
  rw [← and_reduce_correct_iff]
  constructor
  · intro h
    rw [nandRed, not_correct] at h
    have h1 : andRed l ≠ .Z := by
      unfold andRed
      rw [foldl_rev _ and_comm, and_fold _ _ (by decide)]
      split <;> (try split) <;> simp
    have h2 : Spec.reduce Spec.and1 .one l ≠ .Z := by
      unfold Spec.reduce
      rw [and_fold_spec]
      split <;> (try split) <;> simp
    revert h h1 h2
    generalize andRed l = a
    generalize Spec.reduce Spec.and1 .one l = b
    cases a <;> cases b <;> decide
  · intro h
    rw [nandRed, h, not_correct]

theorem nor_reduce_correct_iff (l : List L) :
    norRed l = Spec.not1 (Spec.reduce Spec.or1 .zero l) ↔ ¬ (.one ∈ l ∧ unkIn l) := by
  rw [← or_reduce_correct_iff]
  constructor
  · intro h
    rw [norRed, not_correct] at h
    have h1 : orRed l ≠ .Z := by
      unfold orRed
      rw [foldl_rev _ or_comm, or_fold]
      repeat' split
      all_goals simp_all [or2, Spec.known]
    have h2 : Spec.reduce Spec.or1 .zero l ≠ .Z := by
      unfold Spec.reduce
      rw [or_fold_spec]
      split <;> (try split) <;> simp
    revert h h1 h2
    generalize orRed l = a
    generalize Spec.reduce Spec.or1 .zero l = b
    cases a <;> cases b <;> decide
  · intro h
    rw [norRed, h, not_correct]

theorem xor_fold (l : List L) (h : l ≠ [.Z]) : xorRed l = l.reverse.foldl xor2 .zero := by
  unfold xorRed
  have h' : l.reverse ≠ [.Z] := fun e => h (by
    have := congrArg List.reverse e
    simpa using this)
  generalize l.reverse = m at h'
  cases m with
  | nil => rfl
  | cons a m =>
    cases m with
    | nil => cases a <;> first | rfl | exact absurd rfl h'
    | cons b m =>
      simp only [List.foldl_cons]
      congr 1
      cases a <;> cases b <;> rfl

/-- **C91**: an exclusive-or gate is right, except that one with the single input
z passes it on. -/
theorem xor_reduce_correct_iff (l : List L) :
    xorRed l = Spec.reduce Spec.xor1 .zero l ↔ l ≠ [.Z] := by
  constructor
  · rintro h rfl
    exact absurd h (by decide)
  · intro h
    rw [xor_fold l h, foldl_rev _ xor_comm]
    unfold Spec.reduce
    congr 1
    funext a b
    exact xor_correct a b

theorem xnor_reduce_correct (l : List L) :
    xnorRed l = Spec.not1 (Spec.reduce Spec.xor1 .zero l) := by
  by_cases h : l = [.Z]
  · subst h
    decide
  · rw [xnorRed, (xor_reduce_correct_iff l).mpr h, not_correct]

/-! ## Logical operators -/

/-- **C91**: `||` is right except for operands with both a 1 and an unknown bit. -/
theorem log_or_correct_iff (l r : List L) :
    logOr l r = Spec.or1 (Spec.truth l) (Spec.truth r) ↔
      ¬ ((.one ∈ l ∨ .one ∈ r) ∧ (unkIn l ∨ unkIn r)) := by
  unfold logOr
  rw [foldl_rev _ or_comm, foldl_rev _ or_comm, or_fold, or_fold]
  have e1 : Spec.truth l = if .one ∈ l then .one else if unkIn l then .X else .zero := rfl
  have e2 : Spec.truth r = if .one ∈ r then .one else if unkIn r then .X else .zero := rfl
  rw [e1, e2]
  by_cases h1 : unkIn l <;> by_cases h2 : L.one ∈ l <;> by_cases h3 : unkIn r <;>
    by_cases h4 : L.one ∈ r <;> by_cases h5 : r = [] <;>
    simp_all [or2, Spec.known] <;> decide

/-- What `&&` gives: never 1. -/
theorem log_and_value (l r : List L) : logAnd l r = if unkIn l ∨ unkIn r then .X else .zero := by
  unfold logAnd
  rw [foldl_rev _ and_comm, foldl_rev _ and_comm, and_fold l _ (by decide)]
  by_cases h1 : unkIn l
  · simp only [h1, if_true, true_or]
    clear h1
    induction r with
    | nil => rfl
    | cons a r ih => rw [List.foldr_cons, ih]; cases a <;> rfl
  · simp only [h1, if_false, ite_self, false_or]
    rw [and_fold _ _ (by decide)]
    simp

/-- **C91**: `&&` is right only if an operand is zero or the result is unknown. -/
theorem log_and_correct_iff (l r : List L) :
    logAnd l r = Spec.and1 (Spec.truth l) (Spec.truth r) ↔
      (¬ unkIn l ∧ ¬ unkIn r ∧ (.one ∉ l ∨ .one ∉ r)) ∨
      ((unkIn l ∨ unkIn r) ∧ (Spec.truth l ≠ .zero ∧ Spec.truth r ≠ .zero) ∧
        (.one ∉ l ∨ .one ∉ r)) := by
  rw [log_and_value]
  have e1 : Spec.truth l = if .one ∈ l then .one else if unkIn l then .X else .zero := rfl
  have e2 : Spec.truth r = if .one ∈ r then .one else if unkIn r then .X else .zero := rfl
  rw [e1, e2]
  by_cases h1 : unkIn l <;> by_cases h2 : L.one ∈ l <;> by_cases h3 : unkIn r <;>
    by_cases h4 : L.one ∈ r <;> simp_all <;> decide

/-- `1 && 1` is 0. -/
theorem log_and_counterexample : logAnd [.one] [.one] = .zero ∧
    Spec.and1 (Spec.truth [.one]) (Spec.truth [.one]) = .one := by decide

theorem not_loop (res : L) (hres : Spec.known res ≠ none) (l : List L) : notLoop res l =
    if unkIn l then .X else if .one ∈ l then .zero else res := by
  induction l generalizing res with
  | nil => simp [notLoop, unkIn]
  | cons a l ih =>
    cases a with
    | zero => rw [notLoop, ih _ hres]; simp [unk_cons, Spec.known]
    | one => rw [notLoop, ih _ (by decide)]; simp [unk_cons, Spec.known]
    | X => simp [notLoop, unk_cons, Spec.known]
    | Z => simp [notLoop, unk_cons, Spec.known]

/-- **C91**: `!` of a vector is right except for operands with both a 1 and an
unknown bit. -/
theorem log_not_correct_iff (l : List L) :
    logNot l = Spec.not1 (Spec.truth l) ↔ ¬ (.one ∈ l ∧ unkIn l) := by
  unfold logNot
  rw [not_loop _ (by decide)]
  have e1 : Spec.truth l = if .one ∈ l then .one else if unkIn l then .X else .zero := rfl
  have e2 : unkIn l.reverse ↔ unkIn l := by simp [unkIn]
  rw [e1]
  simp only [e2, List.mem_reverse]
  by_cases h1 : unkIn l <;> by_cases h2 : L.one ∈ l <;> simp_all <;> decide

end Verif.FourState
