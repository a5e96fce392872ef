import Verif.Predef.Lemmas

/-
Logical operators, reductions, MINIMUM and MAXIMUM.
-/

namespace Verif.Predef

open Spec

theorem emitOp_eq (op : LogicOp) (a b : Bool) : emitOp op a b = op.apply a b := by
  cases op <;> cases a <;> cases b <;> rfl

theorem apply_comm (op : LogicOp) (a b : Bool) : op.apply a b = op.apply b a := by
  cases op <;> cases a <;> cases b <;> rfl

/-- An array with the bounds of `a`. -/
def Arr.like (a : Arr α) (l : List β) : Arr β :=
  { left := a.left, right := a.right, down := a.down, data := l }

/-- The logical operators of two arrays: element by element, with the bounds
of the left operand; a failure if and only if the lengths differ. -/
theorem vec_correct {op : LogicOp} {a b : Arr Bool} (ha : a.wf) (hb : b.wf)
    (r : Res (Arr Bool)) :
    VecYields op a b r ↔
      r = if a.data.length = b.data.length
          then .ok (a.like (List.zipWith op.apply a.data b.data)) else .failure := by
  have ha' : a.len = (a.data.length : Int) := ha.symm
  have hb' : b.len = (b.data.length : Int) := hb.symm
  unfold VecYields
  by_cases h : a.data.length = b.data.length
  · rw [if_pos (by omega), if_pos h]
    have hy : Yields (vecStep op a b) (0, Mem.empty)
        (.ok (a.like (List.zipWith op.apply a.data b.data))) := by
      have hlen : (List.zipWith op.apply a.data b.data).length = a.data.length := by
        rw [List.length_zipWith]; omega
      refine fill_top (L := List.zipWith op.apply a.data b.data) ?_ ?_
      · intro i v m hv
        have hi : i < a.data.length := hlen ▸ (List.getElem?_eq_some_iff.mp hv).1
        unfold vecStep
        dsimp only
        rw [ha', if_neg (by omega), load_nat, load_nat, List.getElem?_eq_getElem hi,
          List.getElem?_eq_getElem (show i < b.data.length by omega)]
        dsimp only
        rw [List.getElem?_zipWith, List.getElem?_eq_getElem hi,
          List.getElem?_eq_getElem (show i < b.data.length by omega)] at hv
        rw [emitOp_eq]
        exact congrArg (fun x => Step.next ((i : Int) + 1, m.store i x))
          (Option.some.inj hv)
      · intro m hf
        unfold vecStep
        dsimp only
        rw [ha', if_pos (by omega)]
        exact congrArg Step.done (wrap_eq (by omega) hf)
    exact ⟨fun hr => hr.unique hy, fun hr => by rw [hr]; exact hy⟩
  · rw [if_neg (by omega), if_neg h]

/-- The operator "not" of an array. -/
theorem not_correct {a : Arr Bool} (ha : a.wf) (r : Res (Arr Bool)) :
    NotYields a r ↔ r = .ok (a.like (a.data.map (!·))) := by
  have ha' : a.len = (a.data.length : Int) := ha.symm
  have hy : Yields (notStep a) (0, Mem.empty) (.ok (a.like (a.data.map (!·)))) := by
    have hlen : (a.data.map (!·)).length = a.data.length := List.length_map ..
    refine fill_top (L := a.data.map (!·)) ?_ ?_
    · intro i v m hv
      have hi : i < a.data.length := hlen ▸ (List.getElem?_eq_some_iff.mp hv).1
      unfold notStep
      dsimp only
      rw [ha', if_neg (by omega), load_nat, List.getElem?_eq_getElem hi]
      dsimp only
      rw [List.getElem?_map, List.getElem?_eq_getElem hi] at hv
      exact congrArg (fun x => Step.next ((i : Int) + 1, m.store i x))
        (Option.some.inj hv)
    · intro m hf
      unfold notStep
      dsimp only
      rw [ha', if_pos (by omega)]
      exact congrArg Step.done (wrap_eq (by omega) hf)
  exact ⟨fun hr => Yields.unique hr hy, fun hr => by rw [hr]; exact hy⟩

/-- The logical operators of an array and a scalar, on whichever side. -/
theorem mixed_correct {op : LogicOp} {a : Arr Bool} {s : Bool} (ha : a.wf)
    (r : Res (Arr Bool)) :
    (MixedYields op a s r ↔ r = .ok (a.like (a.data.map (fun x => op.apply x s)))) ∧
    (MixedYields op a s r ↔ r = .ok (a.like (a.data.map (fun x => op.apply s x)))) := by
  have ha' : a.len = (a.data.length : Int) := ha.symm
  have hcomm : (fun x => op.apply s x) = (fun x => op.apply x s) := by
    funext x; exact apply_comm op s x
  rw [hcomm]
  have key : MixedYields op a s r ↔
      r = .ok (a.like (a.data.map (fun x => op.apply x s))) := by
    unfold MixedYields
    by_cases hn : a.data = []
    · rw [if_pos ((Arr.null_iff ha).mpr hn), wrap_null ha hn, hn]
      rfl
    · rw [if_neg (fun h => hn ((Arr.null_iff ha).mp h))]
      have hlen : (a.data.map (fun x => op.apply x s)).length = a.data.length :=
        List.length_map ..
      have hy : Yields (mixedStep op a s) (0, Mem.empty)
          (.ok (a.like (a.data.map (fun x => op.apply x s)))) := by
        refine fill_bottom (L := a.data.map (fun x => op.apply x s)) (by simp [hn]) ?_ ?_
        · intro i v m hv hne
          have hi : i < a.data.length := hlen ▸ (List.getElem?_eq_some_iff.mp hv).1
          unfold mixedStep
          dsimp only
          rw [ha', load_nat, List.getElem?_eq_getElem hi]
          dsimp only
          rw [if_neg (by omega), emitOp_eq]
          rw [List.getElem?_map, List.getElem?_eq_getElem hi] at hv
          exact congrArg (fun x => Step.next ((i : Int) + 1, m.store i x))
            (Option.some.inj hv)
        · intro i v m hv he hf
          have hi : i < a.data.length := hlen ▸ (List.getElem?_eq_some_iff.mp hv).1
          unfold mixedStep
          dsimp only
          rw [ha', load_nat, List.getElem?_eq_getElem hi]
          dsimp only
          rw [if_pos (by omega), emitOp_eq]
          rw [List.getElem?_map, List.getElem?_eq_getElem hi] at hv
          have hv : op.apply a.data[i] s = v := Option.some.inj hv
          rw [hv]
          exact congrArg Step.done (wrap_eq (by omega) hf)
      exact ⟨fun hr => hr.unique hy, fun hr => by rw [hr]; exact hy⟩
  exact ⟨key, key⟩

/-! ## Reductions -/

theorem foldl_and : ∀ (l : List Bool) (c : Bool),
    l.foldl (fun c s => c && s) c = (c && l.all id)
  | [], c => by simp
  | x :: t, c => by rw [List.foldl_cons, foldl_and t]; simp [Bool.and_assoc]

theorem foldl_or : ∀ (l : List Bool) (c : Bool),
    l.foldl (fun c s => c || s) c = (c || l.any id)
  | [], c => by simp
  | x :: t, c => by rw [List.foldl_cons, foldl_or t]; simp [Bool.or_assoc]

theorem foldl_xor : ∀ (l : List Bool) (c : Bool),
    l.foldl (fun c s => xor c s) c = xor c (decide (ones l % 2 = 1))
  | [], c => by simp [ones]
  | x :: t, c => by
    rw [List.foldl_cons, foldl_xor t]
    cases x
    · have e : ones (false :: t) = ones t := by simp [ones]
      rw [e, Bool.xor_false]
    · have e : ones (true :: t) = ones t + 1 := by simp [ones]
      rw [e]
      rcases Nat.mod_two_eq_zero_or_one (ones t) with h | h
      · have h' : (ones t + 1) % 2 = 1 := by omega
        rw [h, h']; cases c <;> rfl
      · have h' : (ones t + 1) % 2 = 0 := by omega
        rw [h, h']; cases c <;> rfl

theorem any_not : ∀ l : List Bool, l.any (!·) = !(l.all id)
  | [] => rfl
  | x :: t => by simp only [List.any_cons, List.all_cons, any_not t]; cases x <;> simp

theorem all_not : ∀ l : List Bool, l.all (!·) = !(l.any id)
  | [] => rfl
  | x :: t => by simp only [List.any_cons, List.all_cons, all_not t]; cases x <;> simp

theorem reduce_fold (op : LogicOp) (l : List Bool) :
    reduceRet op (l.foldl (reduceOp op) (reduceInit op)) = reduce op l := by
  cases op
  · exact (foldl_and l true).trans (Bool.true_and _)
  · exact (foldl_or l false).trans (Bool.false_or _)
  · exact (foldl_xor l false).trans (Bool.false_xor _)
  · show (!(l.foldl (fun c s => c && s) true)) = _
    rw [foldl_and, Bool.true_and, reduce, any_not]
  · show (!(l.foldl (fun c s => c || s) false)) = _
    rw [foldl_or, Bool.false_or, reduce, all_not]
  · show (!(l.foldl (fun c s => xor c s) false)) = _
    rw [foldl_xor, Bool.false_xor, reduce]
    rcases Nat.mod_two_eq_zero_or_one (ones l) with h | h <;> rw [h] <;> rfl

/-- The unary logical operators, with the results of the LRM for null
arrays. -/
theorem reduce_correct {op : LogicOp} {a : Arr Bool} (ha : a.wf) (r : Res Bool) :
    ReduceYields op a r ↔ r = .ok (reduce op a.data) := by
  have ha' : a.len = (a.data.length : Int) := ha.symm
  unfold ReduceYields
  by_cases hn : a.data = []
  · rw [if_pos ((Arr.null_iff ha).mpr hn), ← reduce_fold, hn]
    rfl
  · rw [if_neg (fun h => hn ((Arr.null_iff ha).mp h))]
    have hy : Yields (reduceStep op a) (0, reduceInit op) (.ok (reduce op a.data)) := by
      have := fold_bottom (st := reduceStep op a) (g := reduceOp op)
        (fin := fun v => Res.ok (reduceRet op v)) a.data (reduceInit op) hn (by
          intro i x c hx
          unfold reduceStep
          dsimp only
          rw [ha', load_nat, hx]
          dsimp only
          by_cases he : i + 1 = a.data.length
          · rw [if_pos he, if_pos (by omega)]
          · rw [if_neg he, if_neg (by omega)])
      rw [← reduce_fold]
      exact this
    exact ⟨fun hr => hr.unique hy, fun hr => by rw [hr]; exact hy⟩

/-! ## MINIMUM and MAXIMUM of the elements -/

theorem foldl_max : ∀ (l : List Int) (c : Int), (∀ x ∈ l, x ≥ c) → l ≠ [] →
    l.foldl (fun c x => if decide (x > c) = true then x else c) c ∈ l ∧
    ∀ x ∈ l, x ≤ l.foldl (fun c x => if decide (x > c) = true then x else c) c := by
  have aux : ∀ (l : List Int) (c : Int),
      (l.foldl (fun c x => if decide (x > c) = true then x else c) c ∈ c :: l) ∧
      c ≤ l.foldl (fun c x => if decide (x > c) = true then x else c) c ∧
      ∀ x ∈ l, x ≤ l.foldl (fun c x => if decide (x > c) = true then x else c) c := by
    intro l
    induction l with
    | nil => intro c; simp
    | cons y t ih =>
      intro c
      rw [List.foldl_cons]
      by_cases hy : y > c
      · rw [if_pos (decide_eq_true hy)]
        obtain ⟨h1, h2, h3⟩ := ih y
        refine ⟨List.mem_cons_of_mem _ h1, by omega, fun x hx => ?_⟩
        rcases List.mem_cons.mp hx with rfl | hx
        · exact h2
        · exact h3 x hx
      · rw [if_neg (by simpa using hy)]
        obtain ⟨h1, h2, h3⟩ := ih c
        refine ⟨?_, h2, fun x hx => ?_⟩
        · rcases List.mem_cons.mp h1 with h | h
          · rw [h]; simp
          · exact List.mem_cons_of_mem _ (List.mem_cons_of_mem _ h)
        · rcases List.mem_cons.mp hx with rfl | hx
          · omega
          · exact h3 x hx
  intro l c hc hne
  obtain ⟨h1, h2, h3⟩ := aux l c
  refine ⟨?_, h3⟩
  rcases List.mem_cons.mp h1 with h | h
  · cases l with
    | nil => exact absurd rfl hne
    | cons y t =>
      have hy := h3 y (by simp)
      have hy' := hc y (by simp)
      rw [h] at hy ⊢
      have : y = c := by omega
      rw [this]; simp
  · exact h

theorem foldl_min : ∀ (l : List Int) (c : Int), (∀ x ∈ l, x ≤ c) → l ≠ [] →
    l.foldl (fun c x => if decide (x < c) = true then x else c) c ∈ l ∧
    ∀ x ∈ l, l.foldl (fun c x => if decide (x < c) = true then x else c) c ≤ x := by
  have aux : ∀ (l : List Int) (c : Int),
      (l.foldl (fun c x => if decide (x < c) = true then x else c) c ∈ c :: l) ∧
      l.foldl (fun c x => if decide (x < c) = true then x else c) c ≤ c ∧
      ∀ x ∈ l, l.foldl (fun c x => if decide (x < c) = true then x else c) c ≤ x := by
    intro l
    induction l with
    | nil => intro c; simp
    | cons y t ih =>
      intro c
      rw [List.foldl_cons]
      by_cases hy : y < c
      · rw [if_pos (decide_eq_true hy)]
        obtain ⟨h1, h2, h3⟩ := ih y
        refine ⟨List.mem_cons_of_mem _ h1, by omega, fun x hx => ?_⟩
        rcases List.mem_cons.mp hx with rfl | hx
        · exact h2
        · exact h3 x hx
      · rw [if_neg (by simpa using hy)]
        obtain ⟨h1, h2, h3⟩ := ih c
        refine ⟨?_, h2, fun x hx => ?_⟩
        · rcases List.mem_cons.mp h1 with h | h
          · rw [h]; simp
          · exact List.mem_cons_of_mem _ (List.mem_cons_of_mem _ h)
        · rcases List.mem_cons.mp hx with rfl | hx
          · omega
          · exact h3 x hx
  intro l c hc hne
  obtain ⟨h1, h2, h3⟩ := aux l c
  refine ⟨?_, h3⟩
  rcases List.mem_cons.mp h1 with h | h
  · cases l with
    | nil => exact absurd rfl hne
    | cons y t =>
      have hy := h3 y (by simp)
      have hy' := hc y (by simp)
      rw [h] at hy ⊢
      have : y = c := by omega
      rw [this]; simp
  · exact h

/-- The bounds of the element type, by its direction. -/
def ElemRange.low (e : ElemRange) (down : Bool) : Int := if down then e.right else e.left
def ElemRange.high (e : ElemRange) (down : Bool) : Int := if down then e.left else e.right

/-- The loop folds the elements with the comparison. -/
theorem minMax_yields (gt : Bool) (e : ElemRange) {a : Arr Int} (ha : a.wf) :
    MinMaxYields gt e a (.ok (a.data.foldl (fun c x =>
      if (if gt then decide (x > c) else decide (x < c)) = true then x else c)
      (minMaxDef gt e))) := by
  have ha' : a.len = (a.data.length : Int) := ha.symm
  unfold MinMaxYields
  by_cases hn : a.data = []
  · rw [if_pos ((Arr.null_iff ha).mpr hn), hn]
    rfl
  · rw [if_neg (fun h => hn ((Arr.null_iff ha).mp h))]
    exact fold_bottom (st := minMaxStep gt a)
      (g := fun c x => if (if gt then decide (x > c) else decide (x < c)) = true then x else c)
      (fin := fun v => Res.ok v) a.data (minMaxDef gt e) hn (by
        intro i x c hx
        unfold minMaxStep
        dsimp only
        rw [ha', load_nat, hx]
        dsimp only
        by_cases he : i + 1 = a.data.length
        · rw [if_pos he, if_pos (by omega)]
        · rw [if_neg he, if_neg (by omega)])

theorem MinMaxYields.unique {gt : Bool} {e : ElemRange} {a : Arr Int} {r r' : Res Int}
    (h : MinMaxYields gt e a r) (h' : MinMaxYields gt e a r') : r = r' := by
  unfold MinMaxYields at h h'
  split at h
  · rename_i h0; rw [if_pos h0] at h'; rw [h, h']
  · rename_i h0; rw [if_neg h0] at h'; exact Yields.unique h h'

/-- MAXIMUM and MINIMUM of an array whose element type has a range written
with a direction, for all arrays whose elements belong to the type. -/
theorem min_max_correct_partial {e : ElemRange} {a : Arr Int} {down : Bool} (ha : a.wf)
    (hk : e.kind = if down then .downto else .to)
    (hr : ∀ x ∈ a.data, e.low down ≤ x ∧ x ≤ e.high down) (r : Res Int) :
    (MinMaxYields true e a r → ∃ v, r = .ok v ∧ IsMaximum (e.low down) a.data v) ∧
    (MinMaxYields false e a r → ∃ v, r = .ok v ∧ IsMinimum (e.high down) a.data v) := by
  have d1 : minMaxDef true e = e.low down := by
    unfold minMaxDef ElemRange.low; cases down <;> simp [hk]
  have d2 : minMaxDef false e = e.high down := by
    unfold minMaxDef ElemRange.high; cases down <;> simp [hk]
  refine ⟨fun h => ⟨_, h.unique (minMax_yields true e ha), ?_⟩,
    fun h => ⟨_, h.unique (minMax_yields false e ha), ?_⟩⟩
  · unfold IsMaximum
    rw [d1]
    by_cases hn : a.data = []
    · rw [if_pos hn, hn]; rfl
    · rw [if_neg hn]
      exact foldl_max a.data _ (fun x hx => (hr x hx).1) hn
  · unfold IsMinimum
    rw [d2]
    by_cases hn : a.data = []
    · rw [if_pos hn, hn]; rfl
    · rw [if_neg hn]
      exact foldl_min a.data _ (fun x hx => (hr x hx).2) hn

/-- If the range of the element type is written as an attribute, ascending,
MAXIMUM starts with the greatest value and returns it whatever the elements
are. -/
theorem maximum_expr_counterexample {left right : Int} {a : Arr Int} (ha : a.wf)
    (hr : ∀ x ∈ a.data, left ≤ x ∧ x < right) (hlr : left < right) :
    MinMaxYields true { kind := .expr, left := left, right := right } a (.ok right) ∧
    ¬ IsMaximum left a.data right := by
  have h := minMax_yields true { kind := .expr, left := left, right := right } ha
  have d : minMaxDef true { kind := .expr, left := left, right := right } = right := by
    simp [minMaxDef]
  rw [d] at h
  have stay : ∀ l : List Int, (∀ x ∈ l, x < right) → l.foldl (fun c x =>
      if (if true then decide (x > c) else decide (x < c)) = true then x else c) right = right := by
    intro l
    induction l with
    | nil => intro _; rfl
    | cons y t ih =>
      intro hl
      rw [List.foldl_cons]
      have hy := hl y (by simp)
      have : ¬ y > right := by omega
      simp only [if_true, decide_eq_false this, Bool.false_eq_true, if_false]
      exact ih (fun x hx => hl x (by simp [hx]))
  rw [stay a.data (fun x hx => (hr x hx).2)] at h
  refine ⟨h, ?_⟩
  unfold IsMaximum
  split
  · omega
  · rintro ⟨h1, _⟩
    have := (hr _ h1).2
    omega

/-! ## Examples -/

def v123 : Arr Int := { left := 0, right := 2, down := false, data := [1, 3, 2] }

example : v123.wf := by unfold Arr.wf; decide
example : ∀ x ∈ v123.data,
    ({ kind := .downto, left := 7, right := 0 } : ElemRange).low true ≤ x ∧
    x ≤ ({ kind := .downto, left := 7, right := 0 } : ElemRange).high true := by decide
example : IsMaximum 0 v123.data 3 := by
  unfold IsMaximum; rw [if_neg (by decide)]; decide
example : ∀ x ∈ v123.data, (0 : Int) ≤ x ∧ x < 7 := by decide
def b101 : Arr Bool := { left := 2, right := 0, down := true, data := [true, false, true] }
example : b101.wf := by unfold Arr.wf; decide
example : ReduceYields .xnor b101 (.ok true) :=
  (reduce_correct (by unfold Arr.wf; decide) _).mpr (by decide)
example : VecYields .nand b101 b101 (.ok (b101.like [false, true, false])) :=
  (vec_correct (by unfold Arr.wf; decide) (by unfold Arr.wf; decide) _).mpr (by decide)

end Verif.Predef
