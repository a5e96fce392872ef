import Verif.Vcode.EmitModel

/-
What expressions of the source mean, and how the emitted operations run, independently of the
folding and of the ranges.
-/

namespace Verif.Vcode

open Verif.Mir (Rep Ty Cmp Fits Out tBool truth reg checked)

/-- A value in the range of the type. -/
abbrev InTy (ty : Ty) (x : Int) : Prop := ty.low ≤ x ∧ x ≤ ty.high

/-- The range of the type is part of its machine representation and of `int64_t`. -/
abbrev GoodTy (ty : Ty) : Prop :=
  (ty.repr.low ≤ ty.low ∧ ty.high ≤ ty.repr.high) ∧ Fits ty.low ∧ Fits ty.high

/-- A result of arithmetic of physical types: nothing is said about overflow. -/
def unchecked (r : Rep) (x : Int) : Out Int := if r.Has x then reg x else .undef

def Logic.meaning (op : Logic) (x y : Int) : Out Int :=
  if (x = 0 ∨ x = 1) ∧ (y = 0 ∨ y = 1) then
    .ok <| match op with
      | .and => truth (x = 1 ∧ y = 1)
      | .or => truth (x = 1 ∨ y = 1)
      | .xor => truth (x ≠ y)
      | .xnor => truth (x = y)
      | .nand => truth (¬ (x = 1 ∧ y = 1))
      | .nor => truth (¬ (x = 1 ∨ y = 1))
  else .undef

/-- What an operator of the source means for operands of the given type: the mathematical result,
or an error (`trap`) when the machine representation of the type does not have it.  Division by
zero and negative exponents are checked by separate operations. -/
def BinOp.meaning (op : BinOp) (ty : Ty) (x y : Int) : Out Int :=
  match op with
  | .add => checked ty.repr (x + y)
  | .sub => checked ty.repr (x - y)
  | .mul => checked ty.repr (x * y)
  | .padd => unchecked ty.repr (x + y)
  | .psub => unchecked ty.repr (x - y)
  | .pmul => unchecked ty.repr (x * y)
  | .div => if y = 0 then .undef else checked ty.repr (x.tdiv y)
  | .rem => if y = 0 then .undef else checked ty.repr (x.tmod y)
  | .mod => if y = 0 then .undef else checked ty.repr (x.fmod y)
  | .exp => if y < 0 then .undef else checked ty.repr (x ^ y.toNat)
  | .logic op => op.meaning x y
  | .cmp c => .ok (truth (c.Holds x y))

def UnOp.meaning (op : UnOp) (ty : Ty) (x : Int) : Out Int :=
  match op with
  | .neg => checked ty.repr (-x)
  | .abs => checked ty.repr x.natAbs
  | .not => if x = 0 ∨ x = 1 then .ok (truth (x = 0)) else .undef

/-- The type of an expression, if it is well formed, given the types of the inputs. -/
def Expr.typeOf (tys : List Ty) : Expr → Option Ty
  | .input i => tys[i]?
  | .const ty _ => if GoodTy ty then some ty else none
  | .un op a =>
    match a.typeOf tys with
    | some t => if op = .not ∧ t ≠ tBool then none else some t
    | none => none
  | .bin op a b =>
    match a.typeOf tys, b.typeOf tys with
    | some s, some t =>
      if s = t then
        match op with
        | .logic _ => if s = tBool then some tBool else none
        | .cmp _ => some tBool
        | _ => some s
      else none
    | _, _ => none
  | .select t a b =>
    match t.typeOf tys, a.typeOf tys, b.typeOf tys with
    | some r, some s, some t => if r = tBool ∧ s = t then some s else none
    | _, _, _ => none
  | .cast ty _ _ a =>
    match a.typeOf tys with
    | some _ => if GoodTy ty then some ty else none
    | none => none

/-- The meaning of an expression, given the types and values of the inputs.  A conversion is only
asked for values in the range, as the caller checks. -/
def Expr.eval (tys : List Ty) (env : Nat → Int) : Expr → Out Int
  | .input i => .ok (env i)
  | .const ty v => if ty.repr.Has v then reg v else .undef
  | .un op a =>
    match a.typeOf tys with
    | some ty => (a.eval tys env).bind fun x => op.meaning ty x
    | none => .undef
  | .bin op a b =>
    match a.typeOf tys with
    | some ty => (a.eval tys env).bind fun x => (b.eval tys env).bind fun y => op.meaning ty x y
    | none => .undef
  | .select t a b =>
    (t.eval tys env).bind fun c => (a.eval tys env).bind fun x => (b.eval tys env).bind fun y =>
      if c = 0 ∨ c = 1 then .ok (if c = 1 then x else y) else .undef
  | .cast ty lo hi a =>
    (a.eval tys env).bind fun x => if InTy ty x ∧ lo ≤ x ∧ x ≤ hi then .ok x else .undef

/-! ### Running the emitted operations -/

/-- The values of registers. -/
def valuesOf (vals : List Int) : List Nat → Option (List Int)
  | [] => some []
  | r :: rs =>
    match vals[r]?, valuesOf vals rs with
    | some x, some xs => some (x :: xs)
    | _, _ => none

/-- The result of one operation; what operations compute is `Mir.Op.meaning`. -/
def runNode (env : Nat → Int) (vals : List Int) (n : Node) : Out Int :=
  match n.op with
  | .input k => .ok (env k)
  | .op o =>
    match valuesOf vals n.args with
    | some xs => o.meaning n.ty xs
    | none => .undef

/-- Run the operations of a block in order. -/
def runNodes (env : Nat → Int) : List Node → List Int → Out (List Int)
  | [], vals => .ok vals
  | n :: ns, vals => (runNode env vals n).bind fun v => runNodes env ns (vals ++ [v])

/-- Run everything that was emitted, and read a register. -/
def runEmitted (env : Nat → Int) (p : Unit × Nat) : Out Int :=
  (runNodes env p.1.nodes []).bind fun vals =>
    match vals[p.2]? with
    | some x => .ok x
    | none => .undef

/-- The operations for the inputs from the `k`-th on. -/
def inputNodes : Nat → List Ty → List Node
  | _, [] => []
  | k, ty :: tys => ⟨.input k, ty, []⟩ :: inputNodes (k + 1) tys

/-- A block that so far only has the inputs, with their types and ranges. -/
def inputUnit (ins : List (Ty × Int × Int)) : Unit := ⟨inputNodes 0 (ins.map (·.1)), ins.map (·.2)⟩

end Verif.Vcode
