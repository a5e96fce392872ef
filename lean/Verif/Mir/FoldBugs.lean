import Verif.Mir.FoldProps

/-
C29 and C30 are false for some foldings: expressions whose construction changes their value, and
stamps that are wrong and make a comparison be folded wrongly.
-/

namespace Verif.Mir

/-- A signed 32-bit type, as `integer` of VHDL. -/
def tInt : Ty := ⟨-2147483648, 2147483647, .i32⟩

/-- Building the expression changes what it computes, although the parameters are within their
ranges. -/
def Miscompiled (ps : List (Option Stamp)) (env : Nat → Int) (e : Expr) : Prop :=
  (∀ (i : Nat) s, ps[i]? = some s → Within s (env i) ∧ ValidStamp s) ∧
  e.eval env ≠ .undef ∧ runBuilt env (build (emptyUnit ps) e) ≠ e.eval env

theorem no_params (env : Nat → Int) :
    ∀ (i : Nat) s, ([] : List (Option Stamp))[i]? = some s → Within s (env i) ∧ ValidStamp s := by
  intro i s h; simp at h

/-- **C29 is false**: `0 - x` is built as `x` (mir-node.c 1038-1039). -/
theorem build_sub_counterexample : Miscompiled [] (fun _ => 5)
    (.bin .sub tOffset (.const tOffset 0) (.param 0)) := by
  refine ⟨no_params _, ?_, ?_⟩ <;> decide

/-- The same for the subtraction that checks for overflow: `0 - x` is `-5` but `5` is returned. -/
theorem build_trap_sub_counterexample : Miscompiled [] (fun _ => 5)
    (.bin .trapSub tInt (.const tInt 0) (.param 0)) := by
  refine ⟨no_params _, ?_, ?_⟩ <;> decide

/-- **C29 is false**: `mir_build_trap_mul` calls the builder of a subtraction, so `x * x` is built
as `0` ... -/
theorem build_square_counterexample : Miscompiled [] (fun _ => 5)
    (.bin .trapMul tInt (.param 0) (.param 0)) := by
  refine ⟨no_params _, ?_, ?_⟩ <;> decide

/-- ... `6 * 4` as `2` ... -/
theorem build_trap_mul_counterexample : Miscompiled [] (fun _ => 5)
    (.bin .trapMul tInt (.const tInt 6) (.const tInt 4)) := by
  refine ⟨no_params _, ?_, ?_⟩ <;> decide

/-- ... and the stamp of the product is that of the difference: `x * y < 0` with `x` in `0 .. 10`
and `y` in `20 .. 30` is folded to true. -/
theorem build_trap_mul_stamp_counterexample :
    Miscompiled [some ⟨0, 10⟩, some ⟨20, 30⟩] (fun i => if i = 0 then 2 else 25)
      (.bin (.cmp .lt) tBool (.bin .trapMul tInt (.param 0) (.param 1)) (.const tInt 0)) := by
  refine ⟨?_, by decide, by decide⟩
  intro i s h
  match i, h with
  | 0, h =>
    cases h
    exact ⟨within_some (by decide) (by decide), by
      intro s h; cases h; unfold Stamp.Valid; decide⟩
  | 1, h =>
    cases h
    exact ⟨within_some (by decide) (by decide), by
      intro s h; cases h; unfold Stamp.Valid; decide⟩
  | i + 2, h => simp at h

/-- **C29 is false**: a trapping addition of two constants is folded without looking at the type:
`2147483647 + 1` does not trap. -/
theorem build_trap_add_counterexample : Miscompiled [] (fun _ => 0)
    (.bin .trapAdd tInt (.const tInt 2147483647) (.const tInt 1)) := by
  refine ⟨no_params _, ?_, ?_⟩ <;> decide

/-- **C29 is false because C30 is, for selections**: nothing is known about `-x`, so the stamp of
`if t then -x else 5` is `5 .. 5`, and comparing it with 4 is folded to true. -/
theorem build_select_counterexample :
    Miscompiled [] (fun i => if i = 0 then 1 else 7)
      (.bin (.cmp .gt) tBool
        (.select tInt (.param 0) (.un .neg tInt (.param 1)) (.const tInt 5)) (.const tInt 4)) := by
  refine ⟨no_params _, ?_, ?_⟩ <;> decide

/-- **C29 is false because C30 is, for remainders**: `x rem y > 0` with `x` in `0 .. 100` and `y` in
`-100 .. 1` is folded to false. -/
theorem build_rem_counterexample :
    Miscompiled [some ⟨0, 100⟩, some ⟨-100, 1⟩] (fun i => if i = 0 then 50 else -100)
      (.bin (.cmp .gt) tBool (.bin .rem tInt (.param 0) (.param 1)) (.const tInt 0)) := by
  refine ⟨?_, by decide, by decide⟩
  intro i s h
  match i, h with
  | 0, h =>
    cases h
    exact ⟨within_some (by decide) (by decide), by
      intro s h; cases h; unfold Stamp.Valid; decide⟩
  | 1, h =>
    cases h
    exact ⟨within_some (by decide) (by decide), by
      intro s h; cases h; unfold Stamp.Valid; decide⟩
  | i + 2, h => simp at h

/-- **C29 is false because C30 is, for casts**: a value in `0 .. 1000` after a cast to `0 .. 255` is
taken to be at most 255, but the cast generates no code. -/
theorem build_cast_counterexample :
    Miscompiled [some ⟨0, 1000⟩] (fun _ => 300)
      (.bin (.cmp .gt) tBool (.un .cast ⟨0, 255, .u8⟩ (.param 0)) (.const tInt 255)) := by
  refine ⟨?_, by decide, by decide⟩
  intro i s h
  match i, h with
  | 0, h =>
    cases h
    exact ⟨within_some (by decide) (by decide), by
      intro s h; cases h; unfold Stamp.Valid; decide⟩
  | i + 1, h => simp at h

/-- The builder itself divides `INT64_MIN` by `-1` when both are constants (mir-node.c 1173-1174),
which is undefined in C (and stops the compiler on x86): the quotient is no 64-bit value.  The same
for `-INT64_MIN` and its absolute value. -/
theorem build_int64_min_counterexample :
    ∃ a b : Int, Fits a ∧ Fits b ∧ b ≠ 0 ∧ ¬ Fits (a.tdiv b) ∧ ¬ Fits (-a) ∧
      ¬ Fits (a.natAbs : Int) ∧
      getConst (build (emptyUnit []) (.bin .div tOffset (.const tOffset a) (.const tOffset b))).1
        (build (emptyUnit []) (.bin .div tOffset (.const tOffset a) (.const tOffset b))).2 =
        some (a.tdiv b) := by
  refine ⟨i64min, -1, ?_⟩
  decide

/-! ### Expressions to which the theorem applies -/

/-- `(x mod 8) + (if x < 100 then x * 3 else 7)` with `x` in `0 .. 50`: the `mod` becomes a `rem`,
the comparison is folded to true. -/
def exampleExpr : Expr :=
  .bin .add tOffset (.bin .mod tOffset (.param 0) (.const tOffset 8))
    (.select tOffset (.bin (.cmp .lt) tBool (.param 0) (.const tOffset 100))
      (.bin .mul tOffset (.param 0) (.const tOffset 3)) (.const tOffset 7))

example : (build (emptyUnit [some ⟨0, 50⟩]) exampleExpr).1.nodes.map (·.op) =
    [.rem, .mul, .add] := by decide

example : (build (emptyUnit [some ⟨0, 50⟩]) exampleExpr).1.nodes.map (·.stamp) =
    [some ⟨0, 7⟩, some ⟨0, 150⟩, some ⟨0, 157⟩] := by decide

example : exampleExpr.Sound (emptyUnit [some ⟨0, 50⟩]) := by
  simp only [exampleExpr, Expr.Sound, Sound2, true_and, and_true]
  exact .inl (by decide)

example : exampleExpr.eval (fun _ => 13) = .ok 44 := by decide

example : runBuilt (fun _ => 13) (build (emptyUnit [some ⟨0, 50⟩]) exampleExpr) = .ok 44 := by
  decide

/-- A trapping expression: `x + y` with a sum out of range traps after it was built. -/
example : runBuilt (fun _ => 2147483647)
    (build (emptyUnit []) (.bin .trapAdd tInt (.param 0) (.const tInt 1))) = .trap := by decide

/-- `not (not x)` is `x`. -/
example : (build (emptyUnit []) (.un .not tBool (.un .not tBool
    (.bin (.cmp .lt) tBool (.param 0) (.param 1))))).2 = .node 0 := by decide

/-- Large constants are nodes. -/
example : (build (emptyUnit []) (.const tOffset 134217728)).2 = .node 0 ∧
    (build (emptyUnit []) (.const tOffset 134217727)).2 = .const 268435455 := by decide

end Verif.Mir
