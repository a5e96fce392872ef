import Verif.Predef.Lemmas

/-
Shift and rotate operators of BIT and BOOLEAN arrays.
-/

namespace Verif.Predef

open Spec

/-! ## Closed forms of the repeated basic operations -/

theorem shl1_length (f : Bool) (l : List Bool) : (shl1 f l).length = l.length := by
  cases l <;> simp [shl1]

theorem shr1_length (f : Bool) (l : List Bool) : (shr1 f l).length = l.length := by
  unfold shr1
  split
  · rename_i h; rw [h]
  · rename_i h
    have := List.length_pos_iff.mpr h
    simp
    omega

theorem rotl1_length (l : List Bool) : (rotl1 l).length = l.length := by
  cases l <;> simp [rotl1]

theorem rotr1_eq (l : List Bool) : rotr1 l = shr1 (l.getLast?.getD false) l := by
  unfold rotr1 shr1
  cases hl : l.getLast? with
  | none => rw [List.getLast?_eq_none_iff.mp hl]; simp
  | some x =>
    have : l ≠ [] := fun h => by rw [h] at hl; simp at hl
    simp [this]

theorem rotr1_length (l : List Bool) : (rotr1 l).length = l.length := by
  rw [rotr1_eq, shr1_length]

theorem times_length {g : List Bool → List Bool} (h : ∀ l, (g l).length = l.length) :
    ∀ (k : Nat) (l : List Bool), (times g k l).length = l.length
  | 0, _ => rfl
  | k + 1, l => by rw [times, times_length h k, h]

theorem shl1_get (f : Bool) (l : List Bool) (j : Nat) (hj : j < l.length) :
    (shl1 f l)[j]? = if j + 1 < l.length then l[j + 1]? else some f := by
  cases l with
  | nil => simp at hj
  | cons x t =>
    simp only [shl1, List.length_cons] at hj ⊢
    split
    · rw [List.getElem?_append_left (by omega), List.getElem?_cons_succ]
    · have : j = t.length := by omega
      subst this
      simp

theorem shr1_get (f : Bool) (l : List Bool) (j : Nat) (hj : j < l.length) :
    (shr1 f l)[j]? = if j = 0 then some f else l[j - 1]? := by
  have hne : l ≠ [] := fun h => by rw [h] at hj; simp at hj
  rw [shr1, if_neg hne]
  cases j with
  | zero => simp
  | succ j => simp [List.getElem?_dropLast]; omega

theorem times_shl1_get (f : Bool) : ∀ (k : Nat) (l : List Bool) (i : Nat), i < l.length →
    (times (shl1 f) k l)[i]? = if i + k < l.length then l[i + k]? else some f
  | 0, l, i, hi => by rw [times, Nat.add_zero, if_pos hi]
  | k + 1, l, i, hi => by
    rw [times, times_shl1_get f k _ i (by rw [shl1_length]; exact hi), shl1_length]
    by_cases h : i + k < l.length
    · rw [if_pos h, shl1_get f l _ h, Nat.add_assoc]
    · rw [if_neg h, if_neg (by omega)]

theorem times_shr1_get (f : Bool) : ∀ (k : Nat) (l : List Bool) (i : Nat), i < l.length →
    (times (shr1 f) k l)[i]? = if k ≤ i then l[i - k]? else some f
  | 0, l, i, hi => by rw [times, if_pos (by omega), Nat.sub_zero]
  | k + 1, l, i, hi => by
    rw [times, times_shr1_get f k _ i (by rw [shr1_length]; exact hi)]
    by_cases h : k ≤ i
    · rw [if_pos h, shr1_get f l _ (by omega)]
      by_cases h' : i - k = 0
      · rw [if_pos h', if_neg (by omega)]
      · rw [if_neg h', if_pos (by omega), Nat.sub_sub]
    · rw [if_neg h, if_neg (by omega)]

theorem sla1_times : ∀ (k : Nat) (l : List Bool),
    times sla1 k l = times (shl1 (l.getLast?.getD false)) k l
  | 0, _ => rfl
  | k + 1, l => by
    rw [times, times, sla1_times k, sla1]
    cases l with
    | nil => rfl
    | cons x t => simp [shl1]

theorem sra1_times : ∀ (k : Nat) (l : List Bool),
    times sra1 k l = times (shr1 (l.head?.getD false)) k l
  | 0, _ => rfl
  | k + 1, l => by
    rw [times, times, sra1_times k, sra1]
    cases l with
    | nil => rfl
    | cons x t => simp [shr1]

theorem rotl1_get (l : List Bool) (j : Nat) (hj : j < l.length) :
    (rotl1 l)[j]? = l[(j + 1) % l.length]? := by
  cases l with
  | nil => simp at hj
  | cons x t =>
    simp only [rotl1, List.length_cons] at hj ⊢
    by_cases h : j < t.length
    · rw [List.getElem?_append_left h, Nat.mod_eq_of_lt (by omega), List.getElem?_cons_succ]
    · have : j = t.length := by omega
      subst this
      simp

theorem times_rotl1_get : ∀ (k : Nat) (l : List Bool) (i : Nat), i < l.length →
    (times rotl1 k l)[i]? = l[(i + k) % l.length]?
  | 0, l, i, hi => by rw [times, Nat.add_zero, Nat.mod_eq_of_lt hi]
  | k + 1, l, i, hi => by
    rw [times, times_rotl1_get k _ i (by rw [rotl1_length]; exact hi), rotl1_length,
      rotl1_get l _ (Nat.mod_lt _ (by omega)), Nat.mod_add_mod, Nat.add_assoc]

theorem rotr1_get (l : List Bool) (j : Nat) (hj : j < l.length) :
    (rotr1 l)[j]? = l[(j + (l.length - 1)) % l.length]? := by
  rw [rotr1_eq, shr1_get _ l j hj]
  by_cases h : j = 0
  · subst h
    rw [if_pos rfl, Nat.zero_add, Nat.mod_eq_of_lt (by omega)]
    cases hl : l.getLast? with
    | none => rw [List.getLast?_eq_none_iff.mp hl] at hj; simp at hj
    | some x => rw [List.getLast?_eq_getElem?] at hl; rw [hl]; rfl
  · rw [if_neg h]
    have : (j + (l.length - 1)) = (j - 1) + l.length := by omega
    rw [this, Nat.add_mod_right, Nat.mod_eq_of_lt (by omega)]

theorem times_rotr1_get : ∀ (k : Nat) (l : List Bool) (i : Nat), i < l.length →
    (times rotr1 k l)[i]? = l[(i + k * (l.length - 1)) % l.length]?
  | 0, l, i, hi => by rw [times, Nat.zero_mul, Nat.add_zero, Nat.mod_eq_of_lt hi]
  | k + 1, l, i, hi => by
    rw [times, times_rotr1_get k _ i (by rw [rotr1_length]; exact hi), rotr1_length,
      rotr1_get l _ (Nat.mod_lt _ (by omega)), Nat.mod_add_mod, Nat.add_assoc,
      Nat.succ_mul]

/-- The closed forms with integers. -/
theorem shl_get (f : Bool) (l : List Bool) (n : Int) (hn : 0 ≤ n) (i : Nat)
    (hi : i < l.length) :
    (times (shl1 f) n.toNat l)[i]? =
      if (i : Int) < (l.length : Int) - n then load l ((i : Int) + n) else some f := by
  rw [times_shl1_get f _ l i hi]
  have e : (i : Int) + n = ((i + n.toNat : Nat) : Int) := by omega
  rw [e, load_nat]
  by_cases h : i + n.toNat < l.length
  · rw [if_pos h, if_pos (by omega)]
  · rw [if_neg h, if_neg (by omega)]

theorem shr_get (f : Bool) (l : List Bool) (n : Int) (hn : 0 ≤ n) (i : Nat)
    (hi : i < l.length) :
    (times (shr1 f) n.toNat l)[i]? =
      if (i : Int) ≥ n then load l ((i : Int) - n) else some f := by
  rw [times_shr1_get f _ l i hi]
  by_cases h : n.toNat ≤ i
  · have e : (i : Int) - n = ((i - n.toNat : Nat) : Int) := by omega
    rw [if_pos h, if_pos (by omega), e, load_nat]
  · rw [if_neg h, if_neg (by omega)]

theorem load_mod (l : List Bool) (x : Int) (hl : 0 < l.length) :
    load l (x % l.length) = l[(x % l.length).toNat]? := by
  have := Int.emod_nonneg x (b := (l.length : Int)) (by omega)
  unfold load
  rw [if_neg (by omega)]

theorem rol_get (l : List Bool) (n : Int) (hn : 0 ≤ n) (i : Nat) (hi : i < l.length) :
    (times rotl1 n.toNat l)[i]? = load l (((i : Int) + n) % l.length) := by
  rw [times_rotl1_get _ l i hi]
  have e : ((i : Int) + n) % l.length = (((i + n.toNat) % l.length : Nat) : Int) := by
    have : (i : Int) + n = ((i + n.toNat : Nat) : Int) := by omega
    rw [this]; rfl
  rw [e, load_nat]

theorem ror_get (l : List Bool) (n : Int) (hn : 0 ≤ n) (i : Nat) (hi : i < l.length) :
    (times rotr1 n.toNat l)[i]? = load l (((i : Int) - n) % l.length) := by
  rw [times_rotr1_get _ l i hi]
  have e : ((i : Int) - n) % l.length =
      (((i + n.toNat * (l.length - 1)) % l.length : Nat) : Int) := by
    have h1 : ((i + n.toNat * (l.length - 1) : Nat) : Int) =
        (i : Int) - n + n * l.length := by
      have hc : ((l.length - 1 : Nat) : Int) = (l.length : Int) - 1 := by omega
      have hn' : (n.toNat : Int) = n := by omega
      rw [Int.natCast_add, Int.natCast_mul, hc, hn', Int.mul_sub]
      omega
    rw [Int.natCast_emod, h1, Int.add_mul_emod_self_right]
  rw [e, load_nat]

/-! ## The generated code -/

/-- The array with other elements. -/
def Arr.withData (a : Arr Bool) (l : List Bool) : Arr Bool := { a with data := l }

theorem shift_core {op : ShiftOp} {a : Arr Bool} {n : Int} {dv : Bool} {L : List Bool}
    (hw : a.wf) (hlen : L.length = a.data.length)
    (hL : ∀ i : Nat, i < a.data.length → L[i]? =
      if shiftCmp op a.data.length n i then
        load a.data (shiftSrc op a.data.length n i) else some dv) :
    Yields (shiftStep op a n dv) (0, Mem.empty) (.ok (a.withData L)) := by
  have hw' : a.len = (a.data.length : Int) := hw.symm
  refine fill_top (L := L) ?_ ?_
  · intro i v m hv
    have hi : i < L.length := (List.getElem?_eq_some_iff.mp hv).1
    have h := hL i (by omega)
    rw [hv] at h
    unfold shiftStep
    dsimp only
    rw [hw', if_neg (by omega)]
    cases hc : shiftCmp op a.data.length n i with
    | true =>
      rw [hc] at h
      simp only [if_true] at h ⊢
      rw [← h]
    | false =>
      rw [hc] at h
      simp only [Bool.false_eq_true, if_false, Option.some.injEq] at h ⊢
      rw [h]
  · intro m hf
    unfold shiftStep
    dsimp only
    rw [hw', if_pos (by omega)]
    exact congrArg Step.done (wrap_eq (by rw [hw', hlen]) hf)

theorem shift_length (op : ShiftOp) (l : List Bool) (n : Int) :
    (shift op l n).length = l.length := by
  have hb : ∀ op : ShiftOp, ∀ l, (basic op l).length = l.length := by
    intro op l
    cases op
    · exact shl1_length _ l
    · exact shr1_length _ l
    · exact shl1_length _ l
    · exact shr1_length _ l
    · exact rotl1_length l
    · exact rotr1_length l
  unfold shift
  split
  · exact times_length (hb op) _ l
  · exact times_length (hb _) _ l

theorem fmod_len (x len : Int) (h : 0 ≤ len) : Int.fmod (x + len) len = x % len := by
  rw [Int.fmod_eq_emod_of_nonneg _ h, Int.add_emod_right]

/-- The elements of a logical shift with a fill, whichever the sign. -/
theorem shift_left_get (f : Bool) (l : List Bool) (n : Int) (i : Nat) (hi : i < l.length)
    (op : ShiftOp) (ho : op = .sll ∨ op = .sla) :
    (if 0 ≤ n then times (shl1 f) n.toNat l else times (shr1 f) (-n).toNat l)[i]? =
      if shiftCmp op l.length n i then load l (shiftSrc op l.length n i) else some f := by
  have e1 : shiftCmp op l.length n i =
      if n < 0 then decide ((i : Int) ≥ -n) else decide ((i : Int) < (l.length : Int) - n) := by
    rcases ho with rfl | rfl <;> rfl
  have e2 : shiftSrc op l.length n i = (i : Int) + n := by
    rcases ho with rfl | rfl <;> rfl
  rw [e1, e2]
  by_cases hn : 0 ≤ n
  · rw [if_pos hn, if_neg (show ¬ n < 0 by omega), shl_get f l n hn i hi]
    simp only [decide_eq_true_iff]
  · rw [if_neg hn, if_pos (show n < 0 by omega), shr_get f l (-n) (by omega) i hi, Int.sub_neg]
    simp only [decide_eq_true_iff]

theorem shift_right_get (f : Bool) (l : List Bool) (n : Int) (i : Nat) (hi : i < l.length)
    (op : ShiftOp) (ho : op = .srl ∨ op = .sra) :
    (if 0 ≤ n then times (shr1 f) n.toNat l else times (shl1 f) (-n).toNat l)[i]? =
      if shiftCmp op l.length n i then load l (shiftSrc op l.length n i) else some f := by
  have e1 : shiftCmp op l.length n i =
      if n < 0 then decide ((i : Int) < (l.length : Int) + n) else decide ((i : Int) ≥ n) := by
    rcases ho with rfl | rfl <;> rfl
  have e2 : shiftSrc op l.length n i = (i : Int) - n := by
    rcases ho with rfl | rfl <;> rfl
  rw [e1, e2]
  by_cases hn : 0 ≤ n
  · rw [if_pos hn, if_neg (show ¬ n < 0 by omega), shr_get f l n hn i hi]
    simp only [decide_eq_true_iff]
  · rw [if_neg hn, if_pos (show n < 0 by omega), shl_get f l (-n) (by omega) i hi, Int.sub_neg,
      ← Int.sub_eq_add_neg]
    simp only [decide_eq_true_iff]

/-- What the code computes: the arithmetic shifts fill with the element at the
wrong end unless the amount is negative. -/
def coded (op : ShiftOp) (l : List Bool) (n : Int) : List Bool :=
  match op with
  | .sra =>
    if 0 ≤ n then times (shr1 (l.getLast?.getD false)) n.toNat l
    else times (shl1 (l.getLast?.getD false)) (-n).toNat l
  | .sla =>
    if 0 ≤ n then times (shl1 (l.head?.getD false)) n.toNat l
    else times (shr1 (l.head?.getD false)) (-n).toNat l
  | op => shift op l n

theorem shift_yields {op : ShiftOp} {a : Arr Bool} {n : Int} (hw : a.wf) :
    ShiftYields op a n (.ok (a.withData (coded op a.data n))) := by
  unfold ShiftYields
  have hw' : a.len = (a.data.length : Int) := hw.symm
  by_cases h0 : a.len = 0
  · rw [if_pos h0]
    have hnil : a.data = [] := List.length_eq_zero_iff.mp (by omega)
    have hc : (coded op a.data n).length = 0 := by
      have : a.data.length = 0 := by rw [hnil]; rfl
      unfold coded
      split
      · split
        · rw [times_length (shr1_length _)]; exact this
        · rw [times_length (shl1_length _)]; exact this
      · split
        · rw [times_length (shl1_length _)]; exact this
        · rw [times_length (shr1_length _)]; exact this
      · rw [shift_length]; exact this
    rw [Arr.withData, List.length_eq_zero_iff.mp hc, ← hnil]
  · rw [if_neg h0]
    have hpos : 0 < a.data.length := by omega
    have hlast : load a.data (a.len - 1) = some (a.data.getLast?.getD false) := by
      have e : a.len - 1 = ((a.data.length - 1 : Nat) : Int) := by omega
      rw [e, load_nat, List.getLast?_eq_getElem?, List.getElem?_eq_getElem (by omega)]
      rfl
    have hfirst : load a.data 0 = some (a.data.head?.getD false) := by
      have : load a.data 0 = a.data[0]? := load_nat a.data 0
      rw [this, List.head?_eq_getElem?, List.getElem?_eq_getElem hpos]
      rfl
    cases op with
    | sll =>
      exact shift_core hw (shift_length _ _ _)
        (fun i hi => shift_left_get false a.data n i hi .sll (Or.inl rfl))
    | srl =>
      exact shift_core hw (shift_length _ _ _)
        (fun i hi => shift_right_get false a.data n i hi .srl (Or.inl rfl))
    | sla =>
      simp only [shiftDef, hfirst]
      refine shift_core hw ?_
        (fun i hi => shift_left_get _ a.data n i hi .sla (Or.inr rfl))
      unfold coded
      dsimp only
      split
      · exact times_length (shl1_length _) _ _
      · exact times_length (shr1_length _) _ _
    | sra =>
      simp only [shiftDef, hlast]
      refine shift_core hw ?_
        (fun i hi => shift_right_get _ a.data n i hi .sra (Or.inr rfl))
      unfold coded
      dsimp only
      split
      · exact times_length (shr1_length _) _ _
      · exact times_length (shl1_length _) _ _
    | rol =>
      refine shift_core hw (shift_length _ _ _) (fun i hi => ?_)
      have e : shiftSrc .rol a.data.length n i = ((i : Int) + n) % a.data.length := by
        show Int.fmod ((i : Int) + (a.data.length + n)) a.data.length = _
        rw [← fmod_len _ _ (by omega)]
        congr 1
        omega
      show (shift .rol a.data n)[i]? = load a.data _
      rw [e]
      unfold shift
      by_cases hn : 0 ≤ n
      · rw [if_pos hn]; exact rol_get a.data n hn i hi
      · rw [if_neg hn]
        have := ror_get a.data (-n) (by omega) i hi
        rw [Int.sub_neg] at this
        exact this
    | ror =>
      refine shift_core hw (shift_length _ _ _) (fun i hi => ?_)
      have e : shiftSrc .ror a.data.length n i = ((i : Int) - n) % a.data.length := by
        show Int.fmod ((i : Int) + (a.data.length - n)) a.data.length = _
        rw [← fmod_len _ _ (by omega)]
        congr 1
        omega
      show (shift .ror a.data n)[i]? = load a.data _
      rw [e]
      unfold shift
      by_cases hn : 0 ≤ n
      · rw [if_pos hn]; exact ror_get a.data n hn i hi
      · rw [if_neg hn]
        have := rol_get a.data (-n) (by omega) i hi
        rw [← Int.sub_eq_add_neg] at this
        exact this

theorem ShiftYields.unique {op : ShiftOp} {a : Arr Bool} {n : Int} {r r' : Res (Arr Bool)}
    (h : ShiftYields op a n r) (h' : ShiftYields op a n r') : r = r' := by
  unfold ShiftYields at h h'
  split at h
  · rename_i h0; rw [if_pos h0] at h'; rw [h, h']
  · rename_i h0
    rw [if_neg h0] at h'
    split at h
    · rename_i hd; rw [hd] at h'; rw [h, h']
    · rename_i dv hd; rw [hd] at h'; exact Yields.unique h h'

/-- The shift and rotate operators which do not depend on the sign bit: for
every array and every amount, positive or negative and however large, the
result is that of the LRM, with the bounds of the operand; no element is read
outside of the operand. -/
theorem shift_correct {op : ShiftOp} {a : Arr Bool} {n : Int} (hw : a.wf)
    (ho : op = .sll ∨ op = .srl ∨ op = .rol ∨ op = .ror) (r : Res (Arr Bool)) :
    ShiftYields op a n r ↔ r = .ok (a.withData (shift op a.data n)) := by
  have h := shift_yields (op := op) (n := n) hw
  have e : coded op a.data n = shift op a.data n := by
    rcases ho with rfl | rfl | rfl | rfl <;> rfl
  rw [e] at h
  exact ⟨fun hr => hr.unique h, fun hr => by rw [hr]; exact h⟩

/-- The arithmetic shifts by zero or a negative amount, or of an array with
the same element at both ends. -/
theorem arith_shift_correct_partial {op : ShiftOp} {a : Arr Bool} {n : Int} (hw : a.wf)
    (ho : op = .sla ∨ op = .sra) (hn : n ≤ 0 ∨ a.data.head? = a.data.getLast?)
    (r : Res (Arr Bool)) :
    ShiftYields op a n r ↔ r = .ok (a.withData (shift op a.data n)) := by
  have h := shift_yields (op := op) (n := n) hw
  have e : coded op a.data n = shift op a.data n := by
    unfold shift
    rcases ho with rfl | rfl
    · show (if _ then _ else _) = if _ then times sla1 n.toNat a.data
        else times sra1 (-n).toNat a.data
      rw [sla1_times, sra1_times]
      rcases hn with hn | hn
      · by_cases h0 : 0 ≤ n
        · have : n = 0 := by omega
          subst this
          rfl
        · rw [if_neg h0, if_neg h0]
      · rw [hn]
    · show (if _ then _ else _) = if _ then times sra1 n.toNat a.data
        else times sla1 (-n).toNat a.data
      rw [sla1_times, sra1_times]
      rcases hn with hn | hn
      · by_cases h0 : 0 ≤ n
        · have : n = 0 := by omega
          subst this
          rfl
        · rw [if_neg h0, if_neg h0]
      · rw [hn]
  rw [e] at h
  exact ⟨fun hr => hr.unique h, fun hr => by rw [hr]; exact h⟩

/-- `sra` by a positive amount is wrong for every array whose ends differ: the
new leftmost element is the old rightmost one. -/
theorem sra_counterexample {a : Arr Bool} {n : Int} (hw : a.wf) (hn : 0 < n)
    (hd : a.data.head? ≠ a.data.getLast?) :
    ∃ l, ShiftYields .sra a n (.ok (a.withData l)) ∧ l ≠ shift .sra a.data n := by
  refine ⟨_, shift_yields hw, ?_⟩
  have hpos : 0 < a.data.length := by
    apply List.length_pos_iff.mpr
    intro h; rw [h] at hd; exact hd rfl
  intro h
  have h0 := congrArg (fun l : List Bool => l[0]?) h
  have c : coded .sra a.data n = times (shr1 (a.data.getLast?.getD false)) n.toNat a.data := by
    show (if _ then _ else _) = _
    rw [if_pos (by omega)]
  have s : shift .sra a.data n = times (shr1 (a.data.head?.getD false)) n.toNat a.data := by
    unfold shift
    rw [if_pos (by omega)]
    exact sra1_times _ _
  rw [c, s, times_shr1_get _ _ _ 0 hpos, times_shr1_get _ _ _ 0 hpos,
    if_neg (by omega), if_neg (by omega), Option.some.injEq] at h0
  apply hd
  rw [List.getLast?_eq_getElem?, List.head?_eq_getElem?] at h0 ⊢
  rw [List.getElem?_eq_getElem hpos,
    List.getElem?_eq_getElem (show a.data.length - 1 < a.data.length by omega)] at h0 ⊢
  simp only [Option.getD_some] at h0
  rw [h0]

/-- `sla` by a positive amount is wrong for every array whose ends differ. -/
theorem sla_counterexample {a : Arr Bool} {n : Int} (hw : a.wf) (hn : 0 < n)
    (hd : a.data.head? ≠ a.data.getLast?) :
    ∃ l, ShiftYields .sla a n (.ok (a.withData l)) ∧ l ≠ shift .sla a.data n := by
  refine ⟨_, shift_yields hw, ?_⟩
  have hpos : 0 < a.data.length := by
    apply List.length_pos_iff.mpr
    intro h; rw [h] at hd; exact hd rfl
  intro h
  have h0 := congrArg (fun l : List Bool => l[a.data.length - 1]?) h
  have c : coded .sla a.data n = times (shl1 (a.data.head?.getD false)) n.toNat a.data := by
    show (if _ then _ else _) = _
    rw [if_pos (by omega)]
  have s : shift .sla a.data n = times (shl1 (a.data.getLast?.getD false)) n.toNat a.data := by
    unfold shift
    rw [if_pos (by omega)]
    exact sla1_times _ _
  rw [c, s, times_shl1_get _ _ _ _ (by omega), times_shl1_get _ _ _ _ (by omega),
    if_neg (by omega), if_neg (by omega), Option.some.injEq] at h0
  apply hd
  rw [List.getLast?_eq_getElem?, List.head?_eq_getElem?] at h0 ⊢
  rw [List.getElem?_eq_getElem hpos,
    List.getElem?_eq_getElem (show a.data.length - 1 < a.data.length by omega)] at h0 ⊢
  simp only [Option.getD_some] at h0
  rw [h0]

/-! ## Examples -/

def b1000 : Arr Bool :=
  { left := 3, right := 0, down := true, data := [true, false, false, false] }

example : b1000.wf := by unfold Arr.wf; decide
example : b1000.data.head? ≠ b1000.data.getLast? := by decide
example : shift .sra b1000.data 1 = [true, true, false, false] := by decide
example : coded .sra b1000.data 1 = [false, true, false, false] := by decide
example : shift .rol b1000.data (-5) = [false, true, false, false] := by decide
example : ShiftYields .sll b1000 (-4) (.ok (b1000.withData [false, false, false, false])) :=
  (shift_correct (by unfold Arr.wf; decide) (Or.inl rfl) _).mpr (by decide)

end Verif.Predef
