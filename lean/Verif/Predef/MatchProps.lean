import Verif.Predef.Lemmas

/-
Matching relational operators.
-/

namespace Verif.Predef

open Spec

theorem decode_code (s : Std) : decode (code s) = s := by cases s <;> rfl

theorem lookup_eq (l r : Std) : lookup eqTable l r = some (matchEq l r) := by
  cases l <;> cases r <;> rfl

theorem lookup_lt (l r : Std) : lookup ltTable l r = some (matchLt l r) := by
  cases l <;> cases r <;> rfl

theorem lookup_or (l r : Std) : lookup orTable l r = some (Spec.or l r) := by
  cases l <;> cases r <;> rfl

theorem stdNot_eq (a : Std) : stdNot a = some (Spec.not a) := by
  cases a <;> rfl

theorem or_comm (a b : Std) : Spec.or a b = Spec.or b a := by
  cases a <;> cases b <;> rfl

/-- The six operators of STD_ULOGIC agree with the LRM for all operands. -/
theorem match_correct (op : MatchOp) (l r : Std) :
    matchOp op l r = some (matching op l r) := by
  cases op <;>
    simp only [matchOp, matchCmp, matchScalar, lookup_eq, lookup_lt, lookup_or, stdNot_eq,
      matching, or_comm (matchEq l r)] <;> simp

/-- The assertion of the ordering operators fails if and only if an operand is
'-'. -/
theorem match_asserts (op : MatchOp) (l r : Std) :
    matchAsserts op l r = true ↔
      (op = .lt ∨ op = .le ∨ op = .gt ∨ op = .ge) ∧ (l = .dash ∨ r = .dash) := by
  cases op <;> cases l <;> cases r <;> decide

/-- Only the first seven characters of the message are reported. -/
theorem match_message_counterexample :
    matchReported = "STD_LOG" ∧ matchReported ≠ matchText := by
  decide +kernel

/-- The six operators of BIT. -/
theorem match_bit_correct (op : MatchOp) (l r : Bool) :
    matchBit op l r = matchingBit op l r := by
  cases op <;> cases l <;> cases r <;> rfl

/-! ## Arrays -/

/-- What "and" of a vector of results is. -/
def andSpec (c : List Std) : Std :=
  if Std.zero ∈ c then .zero
  else if Std.U ∈ c then .U
  else if Std.X ∈ c then .X
  else .one

theorem andReduce_eq : ∀ c : List Std,
    (∀ x ∈ c, x = .U ∨ x = .X ∨ x = .zero ∨ x = .one) → andReduce c = some (andSpec c)
  | [], _ => rfl
  | x :: t, h => by
    have ih := andReduce_eq t (fun y hy => h y (List.mem_cons_of_mem _ hy))
    rw [andReduce, ih]
    dsimp only
    by_cases h0 : Std.zero ∈ t <;> by_cases hU : Std.U ∈ t <;> by_cases hX : Std.X ∈ t <;>
      rcases h x (by simp) with rfl | rfl | rfl | rfl <;>
      simp only [andSpec, h0, hU, hX, List.mem_cons, reduceCtorEq, or_false, or_true,
        if_true, if_false] <;> rfl

theorem matchEq_range (l r : Std) :
    matchEq l r = .U ∨ matchEq l r = .X ∨ matchEq l r = .zero ∨ matchEq l r = .one := by
  cases l <;> cases r <;> decide

/-- `?=` and `?/=` of two arrays of STD_ULOGIC: a failure if and only if the
lengths differ, otherwise the result of the LRM for all elements; two null
arrays match. -/
theorem match_array_correct {a b : Arr Std} (ha : a.wf) (hb : b.wf) (neg : Bool)
    (r : Res Std) :
    MatchYields neg a b r ↔
      r = if a.data.length = b.data.length then
            .ok (if neg then Spec.not (matchArray a.data b.data)
                 else matchArray a.data b.data)
          else .failure := by
  have ha' : a.len = (a.data.length : Int) := ha.symm
  have hb' : b.len = (b.data.length : Int) := hb.symm
  unfold MatchYields
  by_cases h : a.data.length = b.data.length
  · rw [if_pos (by omega), if_pos h]
    let L := List.zipWith matchEq a.data b.data
    have hlen : L.length = a.data.length := by
      show (List.zipWith _ _ _).length = _
      rw [List.length_zipWith]; omega
    let A : Arr Std := { left := a.left, right := a.right, down := a.down, data := L }
    have hred : andReduce L = some (matchArray a.data b.data) := by
      refine andReduce_eq L (fun x hx => ?_)
      obtain ⟨i, hi, rfl⟩ := List.mem_iff_getElem.mp hx
      show (List.zipWith matchEq a.data b.data)[i] = _ ∨ _
      rw [List.getElem_zipWith]
      exact matchEq_range _ _
    have hq : ∀ q, (if a.len = 0 then q = wrap a Mem.empty
        else Yields (matchStep a b) (0, Mem.empty) q) ↔ q = .ok A := by
      intro q
      by_cases h0 : a.len = 0
      · rw [if_pos h0]
        have hn : a.data = [] := List.length_eq_zero_iff.mp (by omega)
        have hL : L = [] := List.length_eq_zero_iff.mp (by omega)
        rw [wrap_null ha hn]
        show _ ↔ q = .ok { left := a.left, right := a.right, down := a.down, data := L }
        rw [hL]
      · rw [if_neg h0]
        have hne : L ≠ [] := List.length_pos_iff.mp (by omega)
        have hy : Yields (matchStep a b) (0, Mem.empty) (.ok A) := by
          refine fill_bottom (L := L) hne ?_ ?_
          · intro i v m hv hne'
            have hi : i < a.data.length := hlen ▸ (List.getElem?_eq_some_iff.mp hv).1
            unfold matchStep
            dsimp only
            rw [ha', load_nat, load_nat, List.getElem?_eq_getElem hi,
              List.getElem?_eq_getElem (show i < b.data.length by omega)]
            dsimp only
            rw [lookup_eq]
            dsimp only
            rw [if_neg (by omega)]
            rw [List.getElem?_zipWith, List.getElem?_eq_getElem hi,
              List.getElem?_eq_getElem (show i < b.data.length by omega)] at hv
            exact congrArg (fun x => Step.next ((i : Int) + 1, m.store i x))
              (Option.some.inj hv)
          · intro i v m hv he hf
            have hi : i < a.data.length := hlen ▸ (List.getElem?_eq_some_iff.mp hv).1
            unfold matchStep
            dsimp only
            rw [ha', load_nat, load_nat, List.getElem?_eq_getElem hi,
              List.getElem?_eq_getElem (show i < b.data.length by omega)]
            dsimp only
            rw [lookup_eq]
            dsimp only
            rw [if_pos (by omega)]
            rw [List.getElem?_zipWith, List.getElem?_eq_getElem hi,
              List.getElem?_eq_getElem (show i < b.data.length by omega)] at hv
            have hv : matchEq a.data[i] b.data[i] = v := Option.some.inj hv
            rw [hv]
            exact congrArg Step.done (wrap_eq (by omega) hf)
        exact ⟨fun hr => hr.unique hy, fun hr => by rw [hr]; exact hy⟩
    have hres : (match (Res.ok A : Res (Arr Std)) with
        | .ok c =>
          match andReduce c.data with
          | some v => if neg then (match stdNot v with | some w => Res.ok w | none => .ub)
                      else .ok v
          | none => .ub
        | .failure => .failure
        | .ub => .ub) = Res.ok (if neg then Spec.not (matchArray a.data b.data)
          else matchArray a.data b.data) := by
      show (match andReduce L with
          | some v => if neg then (match stdNot v with | some w => Res.ok w | none => .ub)
                      else .ok v
          | none => .ub) = _
      rw [hred]
      dsimp only
      rw [stdNot_eq]
      cases neg <;> rfl
    constructor
    · rintro ⟨q, h1, rfl⟩
      rw [(hq q).mp h1]
      exact hres
    · intro hr
      exact ⟨.ok A, (hq _).mpr rfl, by rw [hr]; exact hres.symm⟩
  · rw [if_neg (by omega), if_neg h]

/-! ## Examples -/

def v1X : Arr Std := { left := 0, right := 1, down := false, data := [.one, .dash] }
def vH0 : Arr Std := { left := 1, right := 0, down := true, data := [.H, .zero] }

example : v1X.wf ∧ vH0.wf := by unfold Arr.wf; decide
example : MatchYields false v1X vH0 (.ok .one) :=
  (match_array_correct (by unfold Arr.wf; decide) (by unfold Arr.wf; decide) _ _).mpr
    (by decide)
example : matching .le .zero .dash = .one ∧ matching .ge .Z .one = .X := by decide

end Verif.Predef
