import Verif.Mir.FoldSpec

/-
Model of how the intermediate code of nvc is emitted: the arithmetic and logical operations of
`src/vcode.c`, with the constant folding done on the way, the ranges ("bounds") that are attached to
registers, the overflow checks that are left out because of these ranges, and the range checks that
are left out because of them (`vcode_can_elide_bounds`, and `lower_check_scalar_bounds` of
`src/lower.c`).

Simplifications: only integers (no reals, offsets, pointers or arrays); one block, every operation
of which has a result, so that registers are numbered as operations are; debug loci and the checks
in `VCODE_ASSERT` are left out.  The type of a register never changes, its range may be set again.
Signed overflow in the compiler itself, and division of `INT64_MIN` by -1, are undefined behaviour
of C: the result is then `none`.

The integer types, the kinds of comparison, the saturating operations (which are the same as in
`src/mir/mir-type.c`) and the operations are those of `Verif/Mir`.
-/

namespace Verif.Vcode

open Verif.Mir (Rep Ty Cmp Fits sadd64 ssub64 smul64 i64min i64max tBool cmpConst bit cxor)

/-- The operations, or a register that is given: a parameter or a variable that was loaded. -/
inductive Op where
  | input (k : Nat)
  | op (o : Mir.Op)
deriving DecidableEq

/-- `op_t` (vcode.c 49-92): operation, type of the result register, argument registers. -/
structure Node where
  op : Op
  ty : Ty
  args : List Nat
deriving DecidableEq

/-- The parts of a unit used here: the operations, and for every register its range, the field
`bounds` of `reg_t`. -/
structure Unit where
  nodes : List Node
  bounds : List (Int × Int)
deriving DecidableEq

/-- `vcode_reg_type`. -/
def regTy (u : Unit) (r : Nat) : Option Ty := (u.nodes[r]?).map (·.ty)

/-- `vcode_reg_bounds`. -/
def regBounds (u : Unit) (r : Nat) : Option (Int × Int) := u.bounds[r]?

/-- `vcode_reg_const` (vcode.c 613-633): a register whose range is one value. -/
def regConst (u : Unit) (r : Nat) : Option Int :=
  match regBounds u r with
  | some (lo, hi) => if lo = hi then some lo else none
  | none => none

/-- The last operation that satisfies the test: `VCODE_FOR_EACH_MATCHING_OP` (vcode.c 204-210) goes
from the last operation of the block to the first. -/
def lastIdx (p : Node → Bool) : List Node → Nat → Option Nat
  | [], _ => none
  | n :: ns, i =>
    match lastIdx p ns (i + 1) with
    | some j => some j
    | none => if p n then some i else none

/-- `vcode_add_op` and `vcode_add_reg` (vcode.c 244-255): a new operation whose result has the range
of the type. -/
def addNode (u : Unit) (op : Mir.Op) (ty : Ty) (args : List Nat) : Unit × Nat :=
  (⟨u.nodes ++ [⟨.op op, ty, args⟩], u.bounds ++ [(ty.low, ty.high)]⟩, u.nodes.length)

/-- The range of a register is set. -/
def setBounds (p : Unit × Nat) (lo hi : Int) : Unit × Nat :=
  (⟨p.1.nodes, p.1.bounds.set p.2 (lo, hi)⟩, p.2)

/-- `emit_const` (vcode.c 3481-3502). -/
def emitConst (u : Unit) (ty : Ty) (v : Int) : Unit × Nat :=
  match lastIdx (fun n => n.op == .op (.const v) && n.ty == ty) u.nodes 0 with
  | some i => (u, i)
  | none => setBounds (addNode u (.const v) ty []) v v

/-- A constant computed by the compiler with `int64_t` arithmetic. -/
def emitFold (u : Unit) (ty : Ty) (v : Int) : Option (Unit × Nat) :=
  if Fits v then some (emitConst u ty v) else none

/-- `emit_arith` (vcode.c 3849-3874): an earlier operation with the same arguments is used again. -/
def emitArith (u : Unit) (op : Mir.Op) (ty : Ty) (l r : Nat) : Unit × Nat :=
  match lastIdx (fun n => n.op == .op op && n.args == [l, r]) u.nodes 0 with
  | some i => (u, i)
  | none => addNode u op ty [l, r]

/-- `vtype_repr_low` (vcode.c 2881-2895). -/
def reprLow : Rep → Int
  | .i8 => -128
  | .i16 => -32768
  | .i32 => -2147483648
  | .i64 => -9223372036854775808
  | _ => 0

/-- `vtype_repr_high` (vcode.c 2897-2911). -/
def reprHigh : Rep → Int
  | .u1 => 1
  | .u8 => 255
  | .i8 => 127
  | .u16 => 65535
  | .i16 => 32767
  | .u32 => 4294967295
  | .i32 => 2147483647
  | .u64 => 18446744073709551615
  | .i64 => 9223372036854775807

/-- The conversion from `int64_t` to `uint64_t`. -/
def toU64 (x : Int) : Int := if x < 0 then x + 18446744073709551616 else x

/-- The conversion from `uint64_t` to `int64_t`. -/
def toI64 (x : Int) : Int := if x ≤ 9223372036854775807 then x else x - 18446744073709551616

/-- The test of `vtype_clamp_to_repr` (vcode.c 2918).  The right comparison is one of unsigned
numbers, because `clamp_high` is a `uint64_t`. -/
abbrev InRepr (repr : Rep) (lo hi : Int) : Prop := lo ≥ reprLow repr ∧ toU64 hi ≤ reprHigh repr

/-- `vtype_clamp_to_repr` (vcode.c 2913-2925): the range after clamping. -/
def clampToRepr (repr : Rep) (lo hi : Int) : Int × Int :=
  if InRepr repr lo hi then (lo, hi)
  else (max (reprLow repr) lo, toI64 (min (reprHigh repr) (toU64 hi)))

/-- The last part of `emit_add_op`, `emit_sub_op` and `emit_mul_op` (vcode.c 3918-3932, 4068-4082,
4123-4137): the checked operation `trapping` is replaced by the unchecked one `plain` when the range
says so.  `trap` tells whether a checked operation is asked for. -/
def emitRanged (u : Unit) (trap : Bool) (trapping plain : Mir.Op) (ty : Ty) (l r : Nat)
    (lo hi : Int) : Unit × Nat :=
  if trap then
    let b := clampToRepr ty.repr lo hi
    setBounds (emitArith u (if InRepr ty.repr lo hi then plain else trapping) ty l r) b.1 b.2
  else setBounds (emitArith u plain ty l r) lo hi

/-- `emit_neg` (vcode.c 4389-4400). -/
def emitNeg (u : Unit) (v : Nat) : Option (Unit × Nat) :=
  match regTy u v with
  | some ty =>
    match regConst u v with
    | some c => emitFold u ty (-c)
    | none => some (addNode u .neg ty [v])
  | none => none

/-- `emit_add_op` (vcode.c 4043-4082). -/
def emitAdd (u : Unit) (trap : Bool) (l r : Nat) : Option (Unit × Nat) :=
  match regTy u l, regBounds u l, regBounds u r with
  | some ty, some (ll, lh), some (rl, rh) =>
    match regConst u l, regConst u r with
    | some a, some b => emitFold u ty (a + b)
    | some a, none =>
      if a = 0 then some (u, r)
      else some (emitRanged u trap .trapAdd .add ty l r (sadd64 ll rl) (sadd64 lh rh))
    | none, some b =>
      if b = 0 then some (u, l)
      else some (emitRanged u trap .trapAdd .add ty l r (sadd64 ll rl) (sadd64 lh rh))
    | none, none => some (emitRanged u trap .trapAdd .add ty l r (sadd64 ll rl) (sadd64 lh rh))
  | _, _, _ => none

/-- `emit_sub_op` (vcode.c 4099-4138). -/
def emitSub (u : Unit) (trap : Bool) (l r : Nat) : Option (Unit × Nat) :=
  match regTy u l, regBounds u l, regBounds u r with
  | some ty, some (ll, lh), some (rl, rh) =>
    match regConst u l, regConst u r with
    | some a, some b => emitFold u ty (a - b)
    | some a, none =>
      if a = 0 then emitNeg u r
      else some (emitRanged u trap .trapSub .sub ty l r (ssub64 ll rh) (ssub64 lh rl))
    | none, some b =>
      if b = 0 then some (u, l)
      else some (emitRanged u trap .trapSub .sub ty l r (ssub64 ll rh) (ssub64 lh rl))
    | none, none => some (emitRanged u trap .trapSub .sub ty l r (ssub64 ll rh) (ssub64 lh rl))
  | _, _, _ => none

/-- The smallest and the largest of the four products of bounds (vcode.c 3910-3916). -/
def mulLow (ll lh rl rh : Int) : Int :=
  min (min (smul64 ll rl) (smul64 ll rh)) (min (smul64 lh rl) (smul64 lh rh))

def mulHigh (ll lh rl rh : Int) : Int :=
  max (max (smul64 ll rl) (smul64 ll rh)) (max (smul64 lh rl) (smul64 lh rh))

/-- The rest of `emit_mul_op`. -/
def emitMulRest (u : Unit) (trap : Bool) (ty : Ty) (l r : Nat) (ll lh rl rh : Int) : Unit × Nat :=
  emitRanged u trap .trapMul .mul ty l r (mulLow ll lh rl rh) (mulHigh ll lh rl rh)

/-- `emit_mul_op` (vcode.c 3876-3933). -/
def emitMul (u : Unit) (trap : Bool) (l r : Nat) : Option (Unit × Nat) :=
  match regTy u l, regBounds u l, regBounds u r with
  | some ty, some (ll, lh), some (rl, rh) =>
    match regConst u l, regConst u r with
    | some a, some b => emitFold u ty (a * b)
    | some a, none =>
      if a = 1 then some (u, r)
      else if a = 0 then some (emitConst u ty 0)
      else some (emitMulRest u trap ty l r ll lh rl rh)
    | none, some b =>
      if b = 1 then some (u, l)
      else if b = 0 then some (emitConst u ty 0)
      else some (emitMulRest u trap ty l r ll lh rl rh)
    | none, none => some (emitMulRest u trap ty l r ll lh rl rh)
  | _, _, _ => none

/-- `emit_div` (vcode.c 3950-3974): `/` of C rounds towards zero. -/
def emitDiv (u : Unit) (l r : Nat) : Option (Unit × Nat) :=
  match regTy u l, regBounds u l with
  | some ty, some (ll, lh) =>
    match regConst u l, regConst u r with
    | some a, some b =>
      if b ≠ 0 then emitFold u ty (a.tdiv b)
      else some (emitArith u .div ty l r)
    | none, some b =>
      if b = 1 then some (u, l)
      else if b ≠ 0 then
        if Fits (ll.tdiv b) ∧ Fits (lh.tdiv b) then
          some (setBounds (emitArith u .div ty l r) (ll.tdiv b) (lh.tdiv b))
        else none
      else some (emitArith u .div ty l r)
    | _, none => some (emitArith u .div ty l r)
  | _, _ => none

/-- The condition for folding in `emit_rem` and `emit_mod` (vcode.c 4002-4003, 4026-4027). -/
def remConst (u : Unit) (l r : Nat) : Option Int :=
  match regConst u l, regConst u r with
  | some a, some b => if a > 0 ∧ b > 0 then some (a.tmod b) else none
  | _, _ => none

/-- `emit_mod` (vcode.c 3999-4021). -/
def emitMod (u : Unit) (l r : Nat) : Option (Unit × Nat) :=
  match regTy u l, regBounds u l, regBounds u r with
  | some ty, some (ll, _), some (rl, rh) =>
    match remConst u l r with
    | some c => emitFold u ty c
    | none =>
      if ll ≥ 0 ∧ rl ≥ 0 then
        if Fits (rh - 1) then some (setBounds (emitArith u .rem ty l r) 0 (max 0 (rh - 1)))
        else none
      else some (emitArith u .mod ty l r)
  | _, _, _ => none

/-- `emit_rem` (vcode.c 4023-4041). -/
def emitRem (u : Unit) (l r : Nat) : Option (Unit × Nat) :=
  match regTy u l, regBounds u l, regBounds u r with
  | some ty, some (ll, _), some (rl, rh) =>
    match remConst u l r with
    | some c => emitFold u ty c
    | none =>
      if ll ≥ 0 ∧ rl ≥ 0 then
        if Fits (rh - 1) then some (setBounds (emitArith u .rem ty l r) 0 (rh - 1))
        else none
      else some (emitArith u .rem ty l r)
  | _, _, _ => none

/-- `emit_trap_exp` (vcode.c 3981-3997). -/
def emitTrapExp (u : Unit) (l r : Nat) : Option (Unit × Nat) :=
  match regTy u l with
  | some ty =>
    match regConst u r with
    | some b =>
      if b = 0 then some (emitConst u ty 1)
      else if b = 1 then some (u, l)
      else some (emitArith u .trapExp ty l r)
    | none => some (emitArith u .trapExp ty l r)
  | none => none

/-- `emit_trap_neg` (vcode.c 4402-4420). -/
def emitTrapNeg (u : Unit) (v : Nat) : Option (Unit × Nat) :=
  match regTy u v, regBounds u v with
  | some ty, some (lo, _) =>
    match regConst u v with
    | some c =>
      if c ≥ 0 then emitFold u ty (-c)
      else some (addNode u .trapNeg ty [v])
    | none =>
      if lo ≥ 0 then emitNeg u v
      else some (addNode u .trapNeg ty [v])
  | _, _ => none

/-- `emit_abs` (vcode.c 4422-4433). -/
def emitAbs (u : Unit) (v : Nat) : Option (Unit × Nat) :=
  match regTy u v with
  | some ty =>
    match regConst u v with
    | some c => emitFold u ty c.natAbs
    | none => some (addNode u .abs ty [v])
  | none => none

/-- `emit_not` (vcode.c 4591-4605). -/
def emitNot (u : Unit) (v : Nat) : Unit × Nat :=
  match regConst u v with
  | some c => emitConst u tBool (bit (c == 0))
  | none => addNode u .not tBool [v]

/-- The six logical operations of `emit_logical`. -/
inductive Logic where
  | and | or | xor | xnor | nand | nor
deriving DecidableEq

def Logic.op : Logic → Mir.Op
  | .and => .and
  | .or => .or
  | .xor => .xor
  | .xnor => .xnor
  | .nand => .nand
  | .nor => .nor

/-- `emit_logical_identity` (vcode.c 4481-4493). -/
def emitIdentity (u : Unit) (op : Logic) (v : Nat) (b : Bool) : Unit × Nat :=
  match op with
  | .and => if b then (u, v) else emitConst u tBool 0
  | .or => if b then emitConst u tBool 1 else (u, v)
  | .xor => if b then emitNot u v else (u, v)
  | .xnor => if b then (u, v) else emitNot u v
  | .nand => if b then emitNot u v else emitConst u tBool 1
  | .nor => if b then emitConst u tBool 0 else emitNot u v

/-- The logical operation of two constants (vcode.c 4504-4509); for `cxor` see `Verif/Mir`. -/
def logicConst (op : Logic) (a b : Int) : Int :=
  match op with
  | .and => bit (a != 0 && b != 0)
  | .or => bit (a != 0 || b != 0)
  | .xor => cxor a b
  | .xnor => bit (cxor a b == 0)
  | .nand => bit (!(a != 0 && b != 0))
  | .nor => bit (!(a != 0 || b != 0))

/-- Equal operands (vcode.c 4518-4531). -/
def emitSame (u : Unit) (op : Logic) (v : Nat) : Unit × Nat :=
  match op with
  | .and | .or => (u, v)
  | .nand | .nor => emitNot u v
  | .xor => emitConst u tBool 0
  | .xnor => emitConst u tBool 1

/-- `emit_logical` (vcode.c 4495-4542). -/
def emitLogical (u : Unit) (op : Logic) (l r : Nat) : Unit × Nat :=
  match regConst u l, regConst u r with
  | some a, some b => emitConst u tBool (logicConst op a b)
  | some a, none => emitIdentity u op r (a != 0)
  | none, some b => emitIdentity u op l (b != 0)
  | none, none => if l = r then emitSame u op l else emitArith u op.op tBool l r

/-- The comparison of a register with itself (vcode.c 3337-3346). -/
def cmpSame : Cmp → Int
  | .eq | .leq | .geq => 1
  | .neq | .lt | .gt => 0

/-- `emit_cmp` (vcode.c 3335-3385). -/
def emitCmp (u : Unit) (c : Cmp) (l r : Nat) : Unit × Nat :=
  if l = r then emitConst u tBool (cmpSame c)
  else
    match regConst u l, regConst u r with
    | some a, some b => emitConst u tBool (bit (cmpConst c a b))
    | _, _ => emitArith u (.cmp c) tBool l r

/-- `emit_select` (vcode.c 4451-4479). -/
def emitSelect (u : Unit) (t vtrue vfalse : Nat) : Option (Unit × Nat) :=
  match regTy u vtrue with
  | some ty =>
    match regConst u t with
    | some c => some (u, if c ≠ 0 then vtrue else vfalse)
    | none =>
      if vtrue = vfalse then some (u, vtrue)
      else
        match lastIdx (fun n => n.op == .op .select && n.args == [t, vtrue, vfalse]) u.nodes 0 with
        | some i => some (u, i)
        | none => some (addNode u .select ty [t, vtrue, vfalse])
  | none => none

/-- `emit_cast` (vcode.c 4217-4280) between integer types; `lo` and `hi` are the argument `bounds`. -/
def emitCast (u : Unit) (ty : Ty) (lo hi : Int) (v : Nat) : Option (Unit × Nat) :=
  match regTy u v, regBounds u v with
  | some from_, some (vl, vh) =>
    if from_ = ty then some (u, v)
    else
      match regConst u v with
      | some c => some (emitConst u ty c)
      | none =>
        match lastIdx (fun n => n.op == .op .cast && n.ty == ty && n.args == [v]) u.nodes 0 with
        | some i => some (u, i)
        | none =>
          some (setBounds (addNode u .cast ty [v])
            (max (max ty.low vl) lo) (min (min ty.high vh) hi))
  | _, _ => none

/-- Expressions of the source: the predefined operators that `lower_builtin` and `lower_arith`
(lower.c 1624-1656, 2102-2166) translate.  `add`, `sub` and `mul` are those of integer types,
`padd`, `psub` and `pmul` those of physical types. -/
inductive BinOp where
  | add | sub | mul | padd | psub | pmul | div | rem | mod | exp
  | logic (op : Logic)
  | cmp (c : Cmp)
deriving DecidableEq

inductive UnOp where
  | neg | abs | not
deriving DecidableEq

/-- `lower_arith` (lower.c 1624-1656) and the comparison and logical operators. -/
def emitBin (u : Unit) (op : BinOp) (l r : Nat) : Option (Unit × Nat) :=
  match op with
  | .add => emitAdd u true l r
  | .sub => emitSub u true l r
  | .mul => emitMul u true l r
  | .padd => emitAdd u false l r
  | .psub => emitSub u false l r
  | .pmul => emitMul u false l r
  | .div => emitDiv u l r
  | .rem => emitRem u l r
  | .mod => emitMod u l r
  | .exp => emitTrapExp u l r
  | .logic op => some (emitLogical u op l r)
  | .cmp c => some (emitCmp u c l r)

/-- `lower_builtin` (lower.c 2151-2166), with one operand. -/
def emitUn (u : Unit) (op : UnOp) (v : Nat) : Option (Unit × Nat) :=
  match op with
  | .neg => emitTrapNeg u v
  | .abs => emitAbs u v
  | .not => some (emitNot u v)

inductive Expr where
  /-- a register that is already there -/
  | input (i : Nat)
  | const (ty : Ty) (v : Int)
  | un (op : UnOp) (a : Expr)
  | bin (op : BinOp) (a b : Expr)
  | select (t a b : Expr)
  /-- a conversion to the type, whose value was checked to be in the range -/
  | cast (ty : Ty) (lo hi : Int) (a : Expr)
deriving DecidableEq

/-- Emit an expression, operands first. -/
def emit (u : Unit) : Expr → Option (Unit × Nat)
  | .input i => if i < u.nodes.length then some (u, i) else none
  | .const ty v => emitFold u ty v
  | .un op a => (emit u a).bind fun p => emitUn p.1 op p.2
  | .bin op a b => (emit u a).bind fun p => (emit p.1 b).bind fun q => emitBin q.1 op p.2 q.2
  | .select t a b =>
    (emit u t).bind fun p => (emit p.1 a).bind fun q => (emit q.1 b).bind fun s =>
      emitSelect s.1 p.2 q.2 s.2
  | .cast ty lo hi a => (emit u a).bind fun p => emitCast p.1 ty lo hi p.2

/-! ### Checks that are left out -/

/-- The direction of a range (`range_kind_t`, `RANGE_TO` and `RANGE_DOWNTO`). -/
inductive Dir where
  | to | downto
deriving DecidableEq

/-- `vcode_can_elide_bounds` (vcode.c 5723-5762) for integers with a constant direction: the range
check of the register is left out. -/
def canElide (u : Unit) (v left right : Nat) (dir : Dir) : Bool :=
  match regConst u left, regConst u right, regBounds u v with
  | some a, some b, some (lo, hi) =>
    match dir with
    | .to => (lo ≥ a && hi ≤ b) || (!decide (a > b) && (v == left || v == right))
    | .downto => (lo ≥ b && hi ≤ a) || (!decide (b > a) && (v == left || v == right))
  | _, _, _ => false

/-- The test at the start of `lower_check_scalar_bounds` (lower.c 1012-1022) for a type with the
constant range `low .. high`: no check is generated at all. -/
def skipCheck (u : Unit) (v : Nat) (low high : Int) : Bool :=
  match regBounds u v with
  | some (lo, hi) => decide (low ≤ high) && (lo ≥ low && hi ≤ high)
  | none => false

/-- `emit_zero_check` (vcode.c 5703-5721): the check of a divisor is left out. -/
def skipZeroCheck (u : Unit) (v : Nat) : Bool :=
  match regConst u v with
  | some c => c != 0
  | none => false

/-- `emit_exponent_check` (vcode.c 5684-5701): the check of an exponent is left out. -/
def skipExponentCheck (u : Unit) (v : Nat) : Bool :=
  match regConst u v with
  | some c => decide (c ≥ 0)
  | none => false

end Verif.Vcode
