import Verif.Vcode.EmitCorrect

/-
C63: programs for which the emitted code is wrong.  Each needs only values in their declared types.
-/

namespace Verif.Vcode

open Verif.Mir (Rep Ty Cmp Fits Out tBool truth reg checked)

/-- The 64 bit `integer` of VHDL-2019. -/
def tInteger64 : Ty := ⟨-9223372036854775808, 9223372036854775807, .i64⟩

/-- What runs, for one or two inputs with the range of their type; `none` if the compiler fails. -/
def runOn (ty : Ty) (x y : Int) (e : Expr) : Option (Out Int) :=
  (emit (inputUnit [(ty, ty.low, ty.high), (ty, ty.low, ty.high)]) e).map
    (runEmitted fun k => if k = 0 then x else y)

/-- What is meant. -/
def meant (ty : Ty) (x y : Int) (e : Expr) : Out Int :=
  e.eval [ty, ty] fun k => if k = 0 then x else y

/-- Whether a range check of the result is left out. -/
def skips (ty : Ty) (e : Expr) (lo hi : Int) : Option Bool :=
  (emit (inputUnit [(ty, ty.low, ty.high), (ty, ty.low, ty.high)]) e).map
    fun p => skipCheck p.1 p.2 lo hi

/-- The sum of two 64 bit integers is emitted without overflow check, although it may overflow: the
saturated bounds are never outside the representation.  The error is lost. -/
theorem emit_overflow64_counterexample :
    meant tInteger64 9223372036854775807 1 (.bin .add (.input 0) (.input 1)) = .trap ∧
    runOn tInteger64 9223372036854775807 1 (.bin .add (.input 0) (.input 1)) ≠ some .trap ∧
    (emit (inputUnit [(tInteger64, tInteger64.low, tInteger64.high),
      (tInteger64, tInteger64.low, tInteger64.high)]) (.bin .add (.input 0) (.input 1))).map
      (fun p => p.1.nodes.drop 2) = some [⟨.op .add, tInteger64, [0, 1]⟩] := by decide

/-- In fact the check of a sum, difference or product of 64 bit integers is only kept when the upper
bound is negative. -/
theorem inRepr_i64 {lo hi : Int} (hl : Fits lo) (hh : Fits hi) (h : 0 ≤ hi) :
    InRepr .i64 lo hi := by
  unfold Fits Mir.i64min Mir.i64max at *
  unfold InRepr reprLow reprHigh toU64
  dsimp only
  split <;> omega

/-- The sum of two constants is computed by the compiler, and its overflow is not noticed: the
result is not a value of the type. -/
theorem emit_fold_counterexample :
    meant tInteger 0 0 (.bin .add (.const tInteger 2147483647) (.const tInteger 1)) = .trap ∧
    runOn tInteger 0 0 (.bin .add (.const tInteger 2147483647) (.const tInteger 1)) ≠
      some .trap := by decide

/-- With 64 bits the sum is not even computed: signed overflow in the compiler. -/
theorem emit_foldUb_counterexample :
    runOn tInteger64 0 0 (.bin .add (.const tInteger64 9223372036854775807)
      (.const tInteger64 1)) = none := by decide

/-- The same for the division of the least integer by -1. -/
theorem emit_divUb_counterexample :
    runOn tInteger64 0 0 (.bin .div (.const tInteger64 (-9223372036854775808))
      (.const tInteger64 (-1))) = none := by decide

/-- `0 - x` is emitted as a negation without overflow check. -/
theorem emit_zeroSub_counterexample :
    meant tInteger (-2147483648) 0 (.bin .sub (.const tInteger 0) (.input 0)) = .trap ∧
    runOn tInteger (-2147483648) 0 (.bin .sub (.const tInteger 0) (.input 0)) ≠ some .trap := by
  decide

/-- `abs x` has no overflow check. -/
theorem emit_abs_counterexample :
    meant tInteger (-2147483648) 0 (.un .abs (.input 0)) = .trap ∧
    runOn tInteger (-2147483648) 0 (.un .abs (.input 0)) ≠ some .trap := by decide

/-- The result for an input with the given range, and whether its range check is left out. -/
def skipsRange (ty : Ty) (x lo' hi' : Int) (e : Expr) (lo hi : Int) :
    Option (Out Int × Bool) :=
  (emit (inputUnit [(ty, lo', hi')]) e).map
    fun p => (runEmitted (fun _ => x) p, skipCheck p.1 p.2 lo hi)

/-- The range of `x / (-2)` has its bounds exchanged, `-1 .. -50` for `x` between 2 and 100, so that
the check against `-1 to 0` is left out: -50 is taken for a value of this subtype. -/
theorem emit_divRange_counterexample :
    skipsRange tInteger 100 2 100 (.bin .div (.input 0) (.const tInteger (-2))) (-1) 0 =
      some (.ok (-50), true) := by decide

/-- `type t is range -10 to 10`: in 8 bits. -/
def tTen : Ty := ⟨-10, 10, .i8⟩

/-- `x ** y` gets the range of the type, although intermediate results only have to be in the
machine representation: for `type t is range -10 to 10` the result 25 passes for a `t`, as the
check of `5 ** 2` is left out. -/
theorem emit_expRange_counterexample :
    runOn tTen 5 2 (.bin .exp (.input 0) (.input 1)) = some (.ok 25) ∧
    skips tTen (.bin .exp (.input 0) (.input 1)) tTen.low tTen.high = some true := by decide

/-- `type t is range -10 to 5`. -/
def tLopsided : Ty := ⟨-10, 5, .i8⟩

/-- The negation gets the range of the type: `-(-10)` passes for a value of `range -10 to 5`. -/
theorem emit_negRange_counterexample :
    runOn tLopsided (-10) 0 (.un .neg (.input 0)) = some (.ok 10) ∧
    skips tLopsided (.un .neg (.input 0)) tLopsided.low tLopsided.high = some true := by decide

/-- The same for the absolute value. -/
theorem emit_absRange_counterexample :
    runOn tLopsided (-10) 0 (.un .abs (.input 0)) = some (.ok 10) ∧
    skips tLopsided (.un .abs (.input 0)) tLopsided.low tLopsided.high = some true := by decide

/-- The same for a quotient whose divisor is not constant. -/
theorem emit_divVarRange_counterexample :
    runOn tLopsided (-10) (-1) (.bin .div (.input 0) (.input 1)) = some (.ok 10) ∧
    skips tLopsided (.bin .div (.input 0) (.input 1)) tLopsided.low tLopsided.high =
      some true := by decide

/-- The remainder of values of `range -10 to -3`: `-10 rem -5` is 0. -/
theorem emit_remRange_counterexample :
    runOn ⟨-10, -3, .i8⟩ (-10) (-5) (.bin .rem (.input 0) (.input 1)) = some (.ok 0) ∧
    skips ⟨-10, -3, .i8⟩ (.bin .rem (.input 0) (.input 1)) (-10) (-3) = some true := by decide

/-- `type t is range 0 to 1` is represented in one bit, but the overflow check is that of 8 bits:
the range of `1 + 1` is thought to be `0 .. 1`, and the result 2 passes for a `t`. -/
theorem emit_oneBit_counterexample :
    runOn ⟨0, 1, .u1⟩ 1 1 (.bin .add (.input 0) (.input 1)) = some (.ok 2) ∧
    skips ⟨0, 1, .u1⟩ (.bin .add (.input 0) (.input 1)) 0 1 = some true := by decide

end Verif.Vcode
