import Verif.Mir.FoldModel
import Verif.Mir.StampProps

/-
What the operations of the mid-level intermediate representation compute, independently of the
folding done when they are built, and how a list of nodes runs.
-/

namespace Verif.Mir

/-- The outcome of an operation: a value, a trap (the program stops with an overflow error), or
nothing is said (undefined behaviour of the generated code, or operands outside of their type). -/
inductive Out (α : Type) where
  | ok (a : α)
  | trap
  | undef
deriving DecidableEq

/-- The first outcome if it is not a value, otherwise the second computation. -/
def Out.bind {α β : Type} (o : Out α) (f : α → Out β) : Out β :=
  match o with
  | .ok a => f a
  | .trap => .trap
  | .undef => .undef

/-- Lowest value of the machine representation (`irgen_jit_size` and `irgen_repr_signed`,
jit-irgen.c 873-885: a single bit is held in a byte). -/
def Rep.low : Rep → Int
  | .i8 => -128
  | .i16 => -32768
  | .i32 => -2147483648
  | .i64 => -9223372036854775808
  | _ => 0

/-- Highest value of the machine representation. -/
def Rep.high : Rep → Int
  | .u1 | .u8 => 255
  | .i8 => 127
  | .u16 => 65535
  | .i16 => 32767
  | .u32 => 4294967295
  | .i32 => 2147483647
  | .u64 => 18446744073709551615
  | .i64 => 9223372036854775807

/-- A value of the machine representation. -/
abbrev Rep.Has (r : Rep) (x : Int) : Prop := r.low ≤ x ∧ x ≤ r.high

/-- The value whose negation overflows (`irgen_op_trap_neg`, jit-irgen.c 1633-1645: by size only). -/
def Rep.least : Rep → Int
  | .u1 | .u8 | .i8 => -128
  | .u16 | .i16 => -32768
  | .u32 | .i32 => -2147483648
  | .u64 | .i64 => -9223372036854775808

/-- A result in a 64-bit register: overflow is undefined. -/
def reg (x : Int) : Out Int := if Fits x then .ok x else .undef

/-- A result that is checked against the machine representation. -/
def checked (r : Rep) (x : Int) : Out Int := if r.Has x then reg x else .trap

/-- A Boolean operand is 0 or 1. -/
abbrev IsBit (x : Int) : Prop := x = 0 ∨ x = 1

/-- What an operation computes from its operands. -/
def Op.meaning (op : Op) (ty : Ty) (xs : List Int) : Out Int :=
  match op, xs with
  | .const v, [] => reg v
  | .add, [x, y] => reg (x + y)
  | .sub, [x, y] => reg (x - y)
  | .mul, [x, y] => reg (x * y)
  | .trapAdd, [x, y] => if ty.repr.Has x ∧ ty.repr.Has y then checked ty.repr (x + y) else .undef
  | .trapSub, [x, y] => if ty.repr.Has x ∧ ty.repr.Has y then checked ty.repr (x - y) else .undef
  | .trapMul, [x, y] => if ty.repr.Has x ∧ ty.repr.Has y then checked ty.repr (x * y) else .undef
  | .div, [x, y] => if y = 0 then .undef else reg (x.tdiv y)
  | .rem, [x, y] => if y = 0 then .undef else reg (x.tmod y)
  | .mod, [x, y] => if y = 0 then .undef else reg (x.fmod y)
  | .exp, [x, y] => if y < 0 then .undef else reg (x ^ y.toNat)
  | .trapExp, [x, y] =>
    if ty.repr.Has x ∧ 0 ≤ y then checked ty.repr (x ^ y.toNat) else .undef
  | .neg, [x] => reg (-x)
  | .trapNeg, [x] => if x ≤ ty.repr.least then .trap else reg (-x)
  | .abs, [x] => reg x.natAbs
  | .and, [x, y] => if IsBit x ∧ IsBit y then .ok (truth (x = 1 ∧ y = 1)) else .undef
  | .nand, [x, y] => if IsBit x ∧ IsBit y then .ok (truth (¬ (x = 1 ∧ y = 1))) else .undef
  | .or, [x, y] => if IsBit x ∧ IsBit y then .ok (truth (x = 1 ∨ y = 1)) else .undef
  | .nor, [x, y] => if IsBit x ∧ IsBit y then .ok (truth (¬ (x = 1 ∨ y = 1))) else .undef
  | .xor, [x, y] => if IsBit x ∧ IsBit y then .ok (truth (x ≠ y)) else .undef
  | .xnor, [x, y] => if IsBit x ∧ IsBit y then .ok (truth (x = y)) else .undef
  | .not, [x] => if IsBit x then .ok (truth (x = 0)) else .undef
  | .cmp c, [x, y] => .ok (truth (c.Holds x y))
  | .select, [t, x, y] => if IsBit t then reg (if t = 1 then x else y) else .undef
  | .cast, [x] => reg x
  | _, _ => .undef

/-- What an expression means, given the values of the parameters: its operands are computed in
order, then the operation. -/
def Expr.eval (env : Nat → Int) : Expr → Out Int
  | .const _ v => reg v
  | .param i => .ok (env i)
  | .un op ty a => (a.eval env).bind fun x => op.meaning ty [x]
  | .bin op ty a b => (a.eval env).bind fun x => (b.eval env).bind fun y => op.meaning ty [x, y]
  | .select ty t a b =>
    (t.eval env).bind fun c => (a.eval env).bind fun x => (b.eval env).bind fun y =>
      Op.select.meaning ty [c, x, y]

/-- The number a value stands for, given the parameters and the results of the nodes. -/
def valueOf (env : Nat → Int) (vals : List Int) : Value → Option Int
  | .const id => some (id.val - bias)
  | .enum id => some id.val
  | .param i => some (env i)
  | .node i => vals[i]?

/-- The numbers a list of values stands for. -/
def valuesOf (env : Nat → Int) (vals : List Int) : List Value → Option (List Int)
  | [] => some []
  | v :: vs =>
    match valueOf env vals v, valuesOf env vals vs with
    | some x, some xs => some (x :: xs)
    | _, _ => none

/-- The result of one node. -/
def runNode (env : Nat → Int) (vals : List Int) (n : Node) : Out Int :=
  match valuesOf env vals n.args with
  | some xs => n.op.meaning n.ty xs
  | none => .undef

/-- Run the nodes of a block in order. -/
def runNodes (env : Nat → Int) : List Node → List Int → Out (List Int)
  | [], vals => .ok vals
  | n :: ns, vals => (runNode env vals n).bind fun v => runNodes env ns (vals ++ [v])

/-- The outcome of running everything that was built, and reading a value. -/
def runBuilt (env : Nat → Int) (p : MUnit × Value) : Out Int :=
  (runNodes env p.1.nodes []).bind fun vals =>
    match valueOf env vals p.2 with
    | some x => .ok x
    | none => .undef

/-- The empty unit with parameters whose ranges are given. -/
def emptyUnit (params : List (Option Stamp)) : MUnit := ⟨params, []⟩

end Verif.Mir
