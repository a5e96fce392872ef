import Verif.Mir.StampModel

/-
Model of how the mid-level intermediate representation of nvc is built: `src/mir/mir-node.c`.
The functions that build an arithmetic or logical operation fold it when its operands are constant,
when an algebraic identity applies, or when the ranges ("stamps") of the operands decide it.

Simplifications: only integers (no reals, pointers or arrays); one basic block, whose nodes are
those of the unit in order; debug loci are left out (an operation is a trapping one by its code);
the checks in `MIR_ASSERT` are left out.
-/

namespace Verif.Mir

/-- `mir_repr_t` (`src/mir/mir-node.h` 286-296). -/
inductive Rep where
  | u1 | i8 | u8 | i16 | u16 | i32 | u32 | i64 | u64
deriving DecidableEq

/-- An integer type: `u.intg` and `repr` of `type_data_t` (`src/mir/mir-structs.h`). -/
structure Ty where
  low : Int
  high : Int
  repr : Rep
deriving DecidableEq

/-- `mir_bool_type`: the range `0 .. 1`. -/
def tBool : Ty := ⟨0, 1, .u1⟩

/-- `mir_offset_type` (mir-type.c 484-497). -/
def tOffset : Ty := ⟨i64min, i64max, .i64⟩

/-- The arithmetic and logical operations of `mir_op_t` (`src/mir/mir-node.h`).  The comparison
carries its kind, which in the program is the first argument. -/
inductive Op where
  | const (v : Int)
  | add | trapAdd | sub | trapSub | mul | trapMul | div | rem | mod | exp | trapExp
  | neg | trapNeg | abs
  | and | nand | or | nor | xor | xnor | not
  | cmp (c : Cmp)
  | select | cast
deriving DecidableEq

/-- `SMALL_CONST_BIAS` (mir-node.c 30, with `_MIR_ID_BITS` 28). -/
def bias : Int := 134217728

/-- `mir_value_t` (`src/mir/mir-node.h` 44-60): a tag and 28 bits. -/
inductive Value where
  /-- `MIR_TAG_CONST`: a small constant, biased -/
  | const (id : Fin 268435456)
  /-- `MIR_TAG_ENUM` -/
  | enum (id : Fin 268435456)
  /-- `MIR_TAG_PARAM` -/
  | param (i : Nat)
  /-- `MIR_TAG_NODE` -/
  | node (i : Nat)
deriving DecidableEq

/-- `node_data_t` (`src/mir/mir-structs.h`). -/
structure Node where
  op : Op
  ty : Ty
  args : List Value
  stamp : Option Stamp
deriving DecidableEq

/-- The parts of `mir_unit_t` used here: the stamps of the parameters, and the nodes. -/
structure MUnit where
  params : List (Option Stamp)
  nodes : List Node
deriving DecidableEq

/-- `mir_get_const` (mir-node.c 509-532). -/
def getConst (u : MUnit) : Value → Option Int
  | .const id => some (id.val - bias)
  | .enum id => some id.val
  | .param _ => none
  | .node i =>
    match u.nodes[i]? with
    | some n => match n.op with
      | .const v => some v
      | _ => none
    | none => none

/-- `mir_get_stamp` (mir-node.c 565-582). -/
def getStamp (u : MUnit) : Value → Option Stamp
  | .const id => intStamp (id.val - bias) (id.val - bias)
  | .enum _ => none
  | .param i => match u.params[i]? with
    | some s => s
    | none => none
  | .node i => match u.nodes[i]? with
    | some n => n.stamp
    | none => none

/-- `mir_get_op`. -/
def getOp (u : MUnit) : Value → Option Op
  | .node i => match u.nodes[i]? with
    | some n => some n.op
    | none => none
  | _ => none

/-- `mir_get_arg`. -/
def getArg (u : MUnit) (v : Value) (nth : Nat) : Value :=
  match v with
  | .node i => match u.nodes[i]? with
    | some n => n.args.getD nth v
    | none => v
  | _ => v

/-- `mir_add_node` (mir-node.c 314-328) with `mir_build_1` .. `mir_build_3`: append a node. -/
def addNode (u : MUnit) (op : Op) (ty : Ty) (stamp : Option Stamp) (args : List Value) :
    MUnit × Value :=
  ({ u with nodes := u.nodes ++ [⟨op, ty, args, stamp⟩] }, .node u.nodes.length)

/-- `mir_const` (mir-node.c 828-850). -/
def mkConst (u : MUnit) (ty : Ty) (v : Int) : MUnit × Value :=
  if v ≥ -bias ∧ v ≤ bias - 1 then (u, .const (Fin.ofNat _ (v + bias).toNat))
  else addNode u (.const v) ty (intStamp v v) []

/-- `mir_build_add_op` (mir-node.c 983-1014), integers; `op` is `add` or `trapAdd`. -/
def buildAddOp (u : MUnit) (op : Op) (ty : Ty) (l r : Value) : MUnit × Value :=
  match getConst u l, getConst u r with
  | some a, some b =>
    if a = 0 then (u, r)
    else if b = 0 then (u, l)
    else if Fits (a + b) then mkConst u ty (a + b)
    else addNode u op ty (stampAdd (getStamp u l) (getStamp u r)) [l, r]
  | some a, none =>
    if a = 0 then (u, r) else addNode u op ty (stampAdd (getStamp u l) (getStamp u r)) [l, r]
  | none, some b =>
    if b = 0 then (u, l) else addNode u op ty (stampAdd (getStamp u l) (getStamp u r)) [l, r]
  | none, none => addNode u op ty (stampAdd (getStamp u l) (getStamp u r)) [l, r]

/-- The last part of `mir_build_sub_op`: equal operands (mir-node.c 1045-1047), otherwise a node
(1058-1062). -/
def buildSubRest (u : MUnit) (op : Op) (ty : Ty) (l r : Value) : MUnit × Value :=
  if l = r then mkConst u ty 0
  else addNode u op ty (stampSub (getStamp u l) (getStamp u r)) [l, r]

/-- `mir_build_sub_op` (mir-node.c 1030-1063), integers; `op` is `sub`, `trapSub` or, as
`mir_build_trap_mul` calls it, `trapMul`. -/
def buildSubOp (u : MUnit) (op : Op) (ty : Ty) (l r : Value) : MUnit × Value :=
  match getConst u l, getConst u r with
  | some a, some b =>
    if a = 0 then (u, r)
    else if b = 0 then (u, l)
    else if Fits (a - b) then mkConst u ty (a - b)
    else buildSubRest u op ty l r
  | some a, none => if a = 0 then (u, r) else buildSubRest u op ty l r
  | none, some b => if b = 0 then (u, l) else buildSubRest u op ty l r
  | none, none => buildSubRest u op ty l r

/-- `mir_build_mul_op` (mir-node.c 1123-1151), integers; it is only called for `mul`. -/
def buildMulOp (u : MUnit) (op : Op) (ty : Ty) (l r : Value) : MUnit × Value :=
  match getConst u l, getConst u r with
  | some a, some b =>
    if a = 0 then (u, l)
    else if b = 0 then (u, r)
    else if Fits (a * b) then mkConst u ty (a * b)
    else addNode u op ty (stampMul (getStamp u l) (getStamp u r)) [l, r]
  | some a, none =>
    if a = 0 then (u, l) else addNode u op ty (stampMul (getStamp u l) (getStamp u r)) [l, r]
  | none, some b =>
    if b = 0 then (u, r) else addNode u op ty (stampMul (getStamp u l) (getStamp u r)) [l, r]
  | none, none => addNode u op ty (stampMul (getStamp u l) (getStamp u r)) [l, r]

/-- `mir_build_neg` (mir-node.c 1078-1090). -/
def buildNeg (u : MUnit) (ty : Ty) (v : Value) : MUnit × Value :=
  match getConst u v with
  | some c => mkConst u ty (-c)
  | none => addNode u .neg ty none [v]

/-- `mir_build_trap_neg` (mir-node.c 1092-1107). -/
def buildTrapNeg (u : MUnit) (ty : Ty) (v : Value) : MUnit × Value :=
  match getConst u v with
  | some c => if c ≥ 0 then mkConst u ty (-c) else addNode u .trapNeg ty none [v]
  | none => addNode u .trapNeg ty none [v]

/-- `mir_build_abs` (mir-node.c 1109-1121). -/
def buildAbs (u : MUnit) (ty : Ty) (v : Value) : MUnit × Value :=
  match getConst u v with
  | some c => mkConst u ty c.natAbs
  | none => addNode u .abs ty none [v]

/-- `mir_build_trap_mul` (mir-node.c 1159-1164): it calls `mir_build_sub_op`. -/
def buildTrapMul (u : MUnit) (ty : Ty) (l r : Value) : MUnit × Value :=
  buildSubOp u .trapMul ty l r

/-- `mir_build_div` (mir-node.c 1166-1184): `/` of C rounds towards zero. -/
def buildDiv (u : MUnit) (ty : Ty) (l r : Value) : MUnit × Value :=
  match getConst u l, getConst u r with
  | some a, some b =>
    if b ≠ 0 then mkConst u ty (a.tdiv b)
    else addNode u .div ty (stampDiv (getStamp u l) (getStamp u r)) [l, r]
  | none, some b =>
    if b = 1 then (u, l) else addNode u .div ty (stampDiv (getStamp u l) (getStamp u r)) [l, r]
  | _, none => addNode u .div ty (stampDiv (getStamp u l) (getStamp u r)) [l, r]

/-- The condition for folding in `mir_build_rem` and `mir_build_mod` (mir-node.c 1193, 1211). -/
def remConst (u : MUnit) (l r : Value) : Option Int :=
  match getConst u l, getConst u r with
  | some a, some b => if a > 0 ∧ b > 0 then some (a.tmod b) else none
  | _, _ => none

/-- `mir_build_rem` (mir-node.c 1186-1202). -/
def buildRem (u : MUnit) (ty : Ty) (l r : Value) : MUnit × Value :=
  match remConst u l r with
  | some c => mkConst u ty c
  | none => addNode u .rem ty (stampRem (getStamp u l) (getStamp u r)) [l, r]

/-- `mir_build_mod` (mir-node.c 1204-1233). -/
def buildMod (u : MUnit) (ty : Ty) (l r : Value) : MUnit × Value :=
  match remConst u l r with
  | some c => mkConst u ty c
  | none =>
    match getStamp u l, getStamp u r with
    | some a, some b =>
      if a.low ≥ 0 ∧ b.low ≥ 0 then addNode u .rem ty (stampRem (some a) (some b)) [l, r]
      else addNode u .mod ty none [l, r]
    | _, _ => addNode u .mod ty none [l, r]

/-- `mir_build_trap_exp` (mir-node.c 1242-1261). -/
def buildTrapExp (u : MUnit) (ty : Ty) (l r : Value) : MUnit × Value :=
  match getConst u r with
  | some b =>
    if b = 0 then mkConst u ty 1
    else if b = 1 then (u, l)
    else addNode u .trapExp ty none [l, r]
  | none => addNode u .trapExp ty none [l, r]

/-- A truth value of C. -/
def bit (b : Bool) : Int := if b then 1 else 0

/-- `mir_build_and` (mir-node.c 1278-1294). -/
def buildAnd (u : MUnit) (l r : Value) : MUnit × Value :=
  match getConst u l, getConst u r with
  | some a, some b => mkConst u tBool (bit (a != 0 && b != 0))
  | some a, none => if a ≠ 0 then (u, r) else mkConst u tBool 0
  | none, some b => if b ≠ 0 then (u, l) else mkConst u tBool 0
  | none, none => addNode u .and tBool none [l, r]

/-- `mir_build_nand` (mir-node.c 1296-1308). -/
def buildNand (u : MUnit) (l r : Value) : MUnit × Value :=
  match getConst u l, getConst u r with
  | some a, some b => mkConst u tBool (bit (!(a != 0 && b != 0)))
  | _, _ => addNode u .nand tBool none [l, r]

/-- `mir_build_or` (mir-node.c 1310-1326). -/
def buildOr (u : MUnit) (l r : Value) : MUnit × Value :=
  match getConst u l, getConst u r with
  | some a, some b => mkConst u tBool (bit (a != 0 || b != 0))
  | some a, none => if a ≠ 0 then mkConst u tBool 1 else (u, r)
  | none, some b => if b ≠ 0 then mkConst u tBool 1 else (u, l)
  | none, none => addNode u .or tBool none [l, r]

/-- `mir_build_nor` (mir-node.c 1328-1340). -/
def buildNor (u : MUnit) (l r : Value) : MUnit × Value :=
  match getConst u l, getConst u r with
  | some a, some b => mkConst u tBool (bit (!(a != 0 || b != 0)))
  | _, _ => addNode u .nor tBool none [l, r]

/-- `^` of C on the two lowest values; the operands are checked to be Boolean.  Other operands do
not occur; the model keeps the bitwise operation on non-negative numbers. -/
def cxor (a b : Int) : Int := ((a.toNat ^^^ b.toNat : Nat) : Int)

/-- `mir_build_xor` (mir-node.c 1342-1356). -/
def buildXor (u : MUnit) (l r : Value) : MUnit × Value :=
  match getConst u l, getConst u r with
  | some a, some b => mkConst u tBool (cxor a b)
  | _, _ => if l = r then mkConst u tBool 0 else addNode u .xor tBool none [l, r]

/-- `mir_build_xnor` (mir-node.c 1358-1370). -/
def buildXnor (u : MUnit) (l r : Value) : MUnit × Value :=
  match getConst u l, getConst u r with
  | some a, some b => mkConst u tBool (bit (cxor a b == 0))
  | _, _ => addNode u .xnor tBool none [l, r]

/-- `mir_build_not` (mir-node.c 1372-1389). -/
def buildNot (u : MUnit) (v : Value) : MUnit × Value :=
  match getConst u v with
  | some c => mkConst u tBool (bit (c == 0))
  | none =>
    if getOp u v = some .not then (u, getArg u v 0)
    else addNode u .not tBool none [v]

/-- The comparison of two constants (mir-node.c 1401-1411). -/
def cmpConst : Cmp → Int → Int → Bool
  | .eq, a, b => a == b
  | .neq, a, b => a != b
  | .lt, a, b => a < b
  | .gt, a, b => a > b
  | .geq, a, b => a ≥ b
  | .leq, a, b => a ≤ b

/-- The part of `mir_build_cmp` that looks at stamps (mir-node.c 1413-1423). -/
def buildCmpStamp (u : MUnit) (c : Cmp) (l r : Value) : MUnit × Value :=
  match stampConst (stampCmp c (getStamp u l) (getStamp u r)) with
  | some k => mkConst u tBool k
  | none => addNode u (.cmp c) tBool (stampCmp c (getStamp u l) (getStamp u r)) [l, r]

/-- `mir_build_cmp` (mir-node.c 1391-1429). -/
def buildCmp (u : MUnit) (c : Cmp) (l r : Value) : MUnit × Value :=
  match getConst u l, getConst u r with
  | some a, some b => mkConst u tBool (bit (cmpConst c a b))
  | _, _ => buildCmpStamp u c l r

/-- `mir_build_select` (mir-node.c 1786-1810). -/
def buildSelect (u : MUnit) (ty : Ty) (t vtrue vfalse : Value) : MUnit × Value :=
  match getConst u t with
  | some c => (u, if c ≠ 0 then vtrue else vfalse)
  | none =>
    if vtrue = vfalse then (u, vtrue)
    else addNode u .select ty (stampUnion (getStamp u vtrue) (getStamp u vfalse))
      [t, vtrue, vfalse]

/-- `mir_get_type` (mir-node.c 550-562) of a node; constants have the null type and the types of
parameters are not modelled. -/
def getType (u : MUnit) : Value → Option Ty
  | .node i => match u.nodes[i]? with
    | some n => some n.ty
    | none => none
  | _ => none

/-- `mir_build_cast` (mir-node.c 2999-3013), integers. -/
def buildCast (u : MUnit) (ty : Ty) (v : Value) : MUnit × Value :=
  if getType u v = some ty then (u, v)
  else
    match getConst u v with
    | some c => mkConst u ty c
    | none => addNode u .cast ty (stampCast ty.low ty.high (getStamp u v)) [v]

/-- The builder of an operation with one operand. -/
def build1 (u : MUnit) (op : Op) (ty : Ty) (v : Value) : MUnit × Value :=
  match op with
  | .neg => buildNeg u ty v
  | .trapNeg => buildTrapNeg u ty v
  | .abs => buildAbs u ty v
  | .not => buildNot u v
  | .cast => buildCast u ty v
  | op => addNode u op ty none [v]

/-- The builder of an operation with two operands. -/
def build2 (u : MUnit) (op : Op) (ty : Ty) (l r : Value) : MUnit × Value :=
  match op with
  | .add => buildAddOp u .add ty l r
  | .trapAdd => buildAddOp u .trapAdd ty l r
  | .sub => buildSubOp u .sub ty l r
  | .trapSub => buildSubOp u .trapSub ty l r
  | .mul => buildMulOp u .mul ty l r
  | .trapMul => buildTrapMul u ty l r
  | .div => buildDiv u ty l r
  | .rem => buildRem u ty l r
  | .mod => buildMod u ty l r
  | .trapExp => buildTrapExp u ty l r
  | .and => buildAnd u l r
  | .nand => buildNand u l r
  | .or => buildOr u l r
  | .nor => buildNor u l r
  | .xor => buildXor u l r
  | .xnor => buildXnor u l r
  | .cmp c => buildCmp u c l r
  | op => addNode u op ty none [l, r]

/-- An expression to be built.  This stands for the callers of the builder, such as the import of
the older representation (`src/mir/mir-vcode.c` 480-700), which build the operands of an operation
before the operation. -/
inductive Expr where
  | const (ty : Ty) (v : Int)
  | param (i : Nat)
  | un (op : Op) (ty : Ty) (a : Expr)
  | bin (op : Op) (ty : Ty) (a b : Expr)
  | select (ty : Ty) (t a b : Expr)
deriving DecidableEq

/-- Build an expression, operands first. -/
def build (u : MUnit) : Expr → MUnit × Value
  | .const ty v => mkConst u ty v
  | .param i => (u, .param i)
  | .un op ty a =>
    let p := build u a
    build1 p.1 op ty p.2
  | .bin op ty a b =>
    let p := build u a
    let q := build p.1 b
    build2 q.1 op ty p.2 q.2
  | .select ty t a b =>
    let p := build u t
    let q := build p.1 a
    let s := build q.1 b
    buildSelect s.1 ty p.2 q.2 s.2

/-- The code that `irgen_op_mod` (jit-irgen.c 1675-1709) generates for a modulus: the remainder,
corrected by adding the divisor when their signs differ.  Simplification: the two conditional jumps
with `ccmp` are a disjunction. -/
def irgenMod (numer denom : Int) : Int :=
  let r := numer.tmod denom
  if (r > 0 ∧ denom < 0) ∨ (r < 0 ∧ denom > 0) then r + denom else r

end Verif.Mir
