import Verif.Predef.Spec

/-
Model of the code which src/lower.c (10256-10465, 10523-10846, 10899-11000)
and src/vhdl/vhdl-predef.c (43-452) generate for the predefined operators of
arrays.  The generated code is modelled, as a program: the basic blocks of one
turn of a loop are one step, values of type offset are unbounded integers
(lengths are below 2^31 and shift amounts are 32-bit, so that the sums fit 64
bits), and a load outside of the operand is undefined behaviour.
-/

namespace Verif.Predef

open Spec (ShiftOp LogicOp MatchOp Std Ty count)

/-- Result of a generated function. -/
inductive Res (α : Type) where
  | ok (a : α)
  | failure          -- report with severity FAILURE
  | ub               -- load outside of an operand, or of memory not written
  deriving DecidableEq, Repr

/-- One step of a program. -/
inductive Step (σ ρ : Type) where
  | next (s : σ)
  | done (r : ρ)

/-- Run a program with a limit of steps. -/
def run (f : σ → Step σ ρ) : Nat → σ → Option ρ
  | 0, _ => none
  | n + 1, s =>
    match f s with
    | .done r => some r
    | .next s' => run f n s'

/-- The program ends with the result. -/
def Yields (f : σ → Step σ ρ) (s : σ) (r : ρ) : Prop := ∃ n, run f n s = some r

/-- An array of one dimension at run time: the bounds and the elements. -/
structure Arr (α : Type) where
  left : Int
  right : Int
  down : Bool
  data : List α
  deriving DecidableEq, Repr

/-- `emit_uarray_len` (src/vcode.c): the length by the bounds. -/
def Arr.len (a : Arr α) : Int :=
  if a.down then max 0 (a.left - a.right + 1) else max 0 (a.right - a.left + 1)

/-- `emit_range_null`: the range is null. -/
def Arr.null (a : Arr α) : Bool :=
  if a.down then decide (a.left < a.right) else decide (a.right < a.left)

/-- The memory behind the pointer has as many elements as the bounds say. -/
def Arr.wf (a : Arr α) : Prop := (a.data.length : Int) = a.len

/-- `emit_load_indirect(emit_array_ref(data, i))`. -/
def load (d : List α) (i : Int) : Option α :=
  if i < 0 then none else d[i.toNat]?

/-- Memory of `emit_alloc`: what has been stored so far. -/
abbrev Mem (α : Type) := Int → Option α

def Mem.empty : Mem α := fun _ => none

def Mem.store (m : Mem α) (i : Int) (v : α) : Mem α :=
  fun j => if j = i then some v else m j

/-- The elements from `i` on. -/
def Mem.slice (m : Mem α) : Nat → Int → Option (List α)
  | 0, _ => some []
  | n + 1, i =>
    match m i, m.slice n (i + 1) with
    | some v, some t => some (v :: t)
    | _, _ => none

/-- `emit_wrap(mem, dims)` with the bounds of an operand. -/
def wrap (a : Arr α) (m : Mem β) : Res (Arr β) :=
  match m.slice a.len.toNat 0 with
  | some l => .ok { left := a.left, right := a.right, down := a.down, data := l }
  | none => .ub

/-! ## Shifts: src/vhdl/vhdl-predef.c 43-199. -/

/-- vhdl-predef.c 80-96: the value for the places shifted in. -/
def shiftDef (op : ShiftOp) (a : Arr Bool) : Option Bool :=
  match op with
  | .sll | .srl | .rol | .ror => some false
  | .sra => load a.data (a.len - 1)
  | .sla => load a.data 0

/-- vhdl-predef.c 112-143: is the element taken from the operand. -/
def shiftCmp (op : ShiftOp) (len shift i : Int) : Bool :=
  match op with
  | .srl | .sra =>
    if shift < 0 then decide (i < len + shift) else decide (i ≥ shift)
  | .sll | .sla =>
    if shift < 0 then decide (i ≥ -shift) else decide (i < len - shift)
  | .rol | .ror => true

/-- vhdl-predef.c 153-178: from which place. -/
def shiftSrc (op : ShiftOp) (len shift i : Int) : Int :=
  match op with
  | .sll | .sla => i + shift
  | .srl | .sra => i - shift
  | .rol => Int.fmod (i + (len + shift)) len
  | .ror => Int.fmod (i + (len - shift)) len

/-- vhdl-predef.c 102-189: the loop. -/
def shiftStep (op : ShiftOp) (a : Arr Bool) (shift : Int) (dv : Bool) :
    Int × Mem Bool → Step (Int × Mem Bool) (Res (Arr Bool))
  | (i, mem) =>
    if i = a.len then .done (wrap a mem)
    else if shiftCmp op a.len shift i then
      match load a.data (shiftSrc op a.len shift i) with
      | some v => .next (i + 1, mem.store i v)
      | none => .done .ub
    else .next (i + 1, mem.store i dv)

/-- vhdl-predef.c 43-199 `predef_bit_shift`: a null operand is returned as it
is. -/
def ShiftYields (op : ShiftOp) (a : Arr Bool) (shift : Int)
    (r : Res (Arr Bool)) : Prop :=
  if a.len = 0 then r = .ok a
  else match shiftDef op a with
    | none => r = .ub
    | some dv => Yields (shiftStep op a shift dv) (0, Mem.empty) r

/-! ## Ordering: src/lower.c 10256-10402. -/

/-- lower.c 10307-10381 with VCODE_CMP_LT or VCODE_CMP_LEQ and scalar
elements: one turn of the loop. -/
def ordStep (leq : Bool) (l r : List Int) (llen rlen : Int) :
    Int → Step Int (Res Bool)
  | i =>
    if i ≥ llen then .done (.ok true)            -- 10320 exit_bb
    else if i ≥ rlen then .done (.ok false)      -- 10325 fail_bb
    else match load l i, load r i with
      | some a, some b =>
        let inc := i + 1
        let cmp := if leq then decide (a ≤ b) else decide (a < b)
        let done := !(decide (a = b)) ||
          (decide (llen = rlen) && decide (inc = llen))
        if done then .done (.ok cmp) else .next inc
      | _, _ => .done .ub

/-- lower.c 10383-10402 `lower_predef_array_cmp`. -/
def OrdYields (leq : Bool) (a b : Arr Int) (r : Res Bool) : Prop :=
  Yields (ordStep leq a.data b.data a.len b.len) 0 r

/-- lower.c 10837-10846 `lower_predef_negate`. -/
def Res.not : Res Bool → Res Bool
  | .ok b => .ok (!b)
  | .failure => .failure
  | .ub => .ub

/-- lower.c 10920-10931: which function serves each operator. -/
def LtYields (a b : Arr Int) (r : Res Bool) : Prop := OrdYields false a b r
def LeYields (a b : Arr Int) (r : Res Bool) : Prop := OrdYields true a b r
def GeYields (a b : Arr Int) (r : Res Bool) : Prop :=
  ∃ q, LtYields a b q ∧ r = q.not
def GtYields (a b : Arr Int) (r : Res Bool) : Prop :=
  ∃ q, LeYields a b q ∧ r = q.not

/-! ## Equality: src/lower.c 10256-10402 with VCODE_CMP_EQ. -/

/-- The turns of the loop with the index from `i` on (10312-10315): `body i`
is the comparison of the elements `i`, the number of turns left is the
recursion. -/
def eqLoop (body : Nat → Bool) : Nat → Nat → Bool
  | 0, _ => true
  | n + 1, i => body i && eqLoop body n (i + 1)

/-- lower.c 10256-10381 with VCODE_CMP_EQ: the lengths of the dimensions are
multiplied (10275-10285) and the products compared (10301-10304), then the
elements; both element pointers are advanced by the stride of the left
operand (10334-10345).  Elements which are records are left out. -/
def eqInner : Ty → Ty → (Nat → Int) → (Nat → Int) → Nat → Nat → Bool
  | .arr ls e, .arr rs f, lm, rm, lp, rp =>
      decide (count ls = count rs) &&
      eqLoop (fun i => eqInner e f lm rm (lp + i * e.size) (rp + i * e.size))
        (count ls) 0
  | _, _, lm, rm, lp, rp => decide (lm lp = rm rp)

/-! ## Logical operators: src/lower.c 10523-10759. -/

/-- lower.c 10585-10596: the operation on two elements. -/
def emitOp : LogicOp → Bool → Bool → Bool
  | .and, a, b => a && b
  | .or, a, b => a || b
  | .xor, a, b => xor a b
  | .nand, a, b => !(a && b)
  | .nor, a, b => !(a || b)
  | .xnor, a, b => !(xor a b)

/-- lower.c 10563-10609: the loop of the operator on two arrays. -/
def vecStep (op : LogicOp) (a b : Arr Bool) :
    Int × Mem Bool → Step (Int × Mem Bool) (Res (Arr Bool))
  | (i, mem) =>
    if i = a.len then .done (wrap a mem)
    else match load a.data i, load b.data i with
      | some x, some y => .next (i + 1, mem.store i (emitOp op x y))
      | _, _ => .done .ub

/-- lower.c 10523-10621 `lower_predef_bit_vec_op`. -/
def VecYields (op : LogicOp) (a b : Arr Bool) (r : Res (Arr Bool)) : Prop :=
  if a.len = b.len then Yields (vecStep op a b) (0, Mem.empty) r
  else r = .failure

/-- The same for S_ARRAY_NOT. -/
def notStep (a : Arr Bool) :
    Int × Mem Bool → Step (Int × Mem Bool) (Res (Arr Bool))
  | (i, mem) =>
    if i = a.len then .done (wrap a mem)
    else match load a.data i with
      | some x => .next (i + 1, mem.store i (!x))
      | none => .done .ub

def NotYields (a : Arr Bool) (r : Res (Arr Bool)) : Prop :=
  Yields (notStep a) (0, Mem.empty) r

/-- lower.c 10655-10680: the loop with one scalar operand.  The element of
the array is the first operand of the operation on whichever side it was. -/
def mixedStep (op : LogicOp) (a : Arr Bool) (s : Bool) :
    Int × Mem Bool → Step (Int × Mem Bool) (Res (Arr Bool))
  | (i, mem) =>
    match load a.data i with
    | some x =>
      let mem' := mem.store i (emitOp op x s)
      if i + 1 = a.len then .done (wrap a mem') else .next (i + 1, mem')
    | none => .done .ub

/-- lower.c 10623-10691 `lower_predef_mixed_bit_vec_op`. -/
def MixedYields (op : LogicOp) (a : Arr Bool) (s : Bool)
    (r : Res (Arr Bool)) : Prop :=
  if a.null then r = wrap a Mem.empty
  else Yields (mixedStep op a s) (0, Mem.empty) r

/-- lower.c 10703-10704: the initial value. -/
def reduceInit : LogicOp → Bool
  | .and | .nand => true
  | _ => false

/-- lower.c 10729-10743: the operation with one more element. -/
def reduceOp : LogicOp → Bool → Bool → Bool
  | .or, c, s => c || s
  | .nor, c, s => c || s
  | .and, c, s => c && s
  | .nand, c, s => c && s
  | .xor, c, s => xor c s
  | .xnor, c, s => xor c s

/-- lower.c 10755-10758: the value returned. -/
def reduceRet : LogicOp → Bool → Bool
  | .nor, v => !v
  | .nand, v => !v
  | .xnor, v => !v
  | _, v => v

/-- lower.c 10723-10753: the loop. -/
def reduceStep (op : LogicOp) (a : Arr Bool) :
    Int × Bool → Step (Int × Bool) (Res Bool)
  | (i, cur) =>
    match load a.data i with
    | some s =>
      let res := reduceOp op cur s
      if i + 1 = a.len then .done (.ok (reduceRet op res)) else .next (i + 1, res)
    | none => .done .ub

/-- lower.c 10693-10759 `lower_predef_reduction_op`. -/
def ReduceYields (op : LogicOp) (a : Arr Bool) (r : Res Bool) : Prop :=
  if a.null then r = .ok (reduceRet op (reduceInit op))
  else Yields (reduceStep op a) (0, reduceInit op) r

/-! ## MINIMUM and MAXIMUM: src/lower.c 10761-10835. -/

/-- `tree_subkind` of the range of the element type: written with a direction
or as an attribute of an array. -/
inductive RangeKind where
  | to | downto | expr
  deriving DecidableEq, Repr

structure ElemRange where
  kind : RangeKind
  left : Int
  right : Int
  deriving DecidableEq, Repr

/-- lower.c 10779-10784: the value to start with. -/
def minMaxDef (gt : Bool) (e : ElemRange) : Int :=
  if (gt = true ∧ e.kind = .to) ∨ (gt = false ∧ e.kind = .downto) then e.left
  else e.right

/-- lower.c 10801-10817: the loop; `gt` is VCODE_CMP_GT (MAXIMUM). -/
def minMaxStep (gt : Bool) (a : Arr Int) :
    Int × Int → Step (Int × Int) (Res Int)
  | (i, cur) =>
    match load a.data i with
    | some x =>
      let c := if gt then decide (x > cur) else decide (x < cur)
      let next := if c then x else cur
      if i + 1 = a.len then .done (.ok next) else .next (i + 1, next)
    | none => .done .ub

/-- lower.c 10761-10819 `lower_predef_min_max` with one operand. -/
def MinMaxYields (gt : Bool) (e : ElemRange) (a : Arr Int) (r : Res Int) : Prop :=
  if a.null then r = .ok (minMaxDef gt e)
  else Yields (minMaxStep gt a) (0, minMaxDef gt e) r

/-- lower.c 10820-10834: MINIMUM and MAXIMUM of two arrays call "<" or ">". -/
def MinMax2Yields (gt : Bool) (a b : Arr Int) (r : Res (Arr Int)) : Prop :=
  ∃ q, (if gt then GtYields a b q else LtYields a b q) ∧
    r = (match q with
      | .ok true => .ok a
      | .ok false => .ok b
      | .failure => .failure
      | .ub => .ub)

/-! ## Matching operators: src/vhdl/vhdl-predef.c 201-452. -/

/-- vhdl-predef.c 30-41: the codes of STD_ULOGIC. -/
def code : Std → Nat
  | .U => 0 | .X => 1 | .zero => 2 | .one => 3 | .Z => 4
  | .W => 5 | .L => 6 | .H => 7 | .dash => 8

def decode : Nat → Std
  | 0 => .U | 1 => .X | 2 => .zero | 3 => .one | 4 => .Z
  | 5 => .W | 6 => .L | 7 => .H | _ => .dash

/-- vhdl-predef.c 366-376 `match_eq_table`, row by row. -/
def eqTable : List Nat :=
  [0, 0, 0, 0, 0, 0, 0, 0, 3,
   0, 1, 1, 1, 1, 1, 1, 1, 3,
   0, 1, 3, 2, 1, 1, 3, 2, 3,
   0, 1, 2, 3, 1, 1, 2, 3, 3,
   0, 1, 1, 1, 1, 1, 1, 1, 3,
   0, 1, 1, 1, 1, 1, 1, 1, 3,
   0, 1, 3, 2, 1, 1, 3, 2, 3,
   0, 1, 2, 3, 1, 1, 2, 3, 3,
   3, 3, 3, 3, 3, 3, 3, 3, 3]

/-- vhdl-predef.c 378-388 `match_lt_table`, row by row. -/
def ltTable : List Nat :=
  [0, 0, 0, 0, 0, 0, 0, 0, 1,
   0, 1, 1, 1, 1, 1, 1, 1, 1,
   0, 1, 2, 3, 1, 1, 2, 3, 1,
   0, 1, 2, 2, 1, 1, 2, 2, 1,
   0, 1, 1, 1, 1, 1, 1, 1, 1,
   0, 1, 1, 1, 1, 1, 1, 1, 1,
   0, 1, 2, 3, 1, 1, 2, 3, 1,
   0, 1, 2, 2, 1, 1, 2, 2, 1,
   1, 1, 1, 1, 1, 1, 1, 1, 1]

/-- vhdl-predef.c 427-437: the load from the table. -/
def tableAt (t : List Nat) (l r : Std) : Option Nat := t[code l * 9 + code r]?

/-- lib/ieee.08/std_logic_1164-body.vhdl 100-113 `and_table`. -/
def andTable : List Nat :=
  [0, 0, 2, 0, 0, 0, 2, 0, 0,
   0, 1, 2, 1, 1, 1, 2, 1, 1,
   2, 2, 2, 2, 2, 2, 2, 2, 2,
   0, 1, 2, 3, 1, 1, 2, 3, 1,
   0, 1, 2, 1, 1, 1, 2, 1, 1,
   0, 1, 2, 1, 1, 1, 2, 1, 1,
   2, 2, 2, 2, 2, 2, 2, 2, 2,
   0, 1, 2, 3, 1, 1, 2, 3, 1,
   0, 1, 2, 1, 1, 1, 2, 1, 1]

/-- std_logic_1164-body.vhdl 116-129 `or_table`. -/
def orTable : List Nat :=
  [0, 0, 0, 3, 0, 0, 0, 3, 0,
   0, 1, 1, 3, 1, 1, 1, 3, 1,
   0, 1, 2, 3, 1, 1, 2, 3, 1,
   3, 3, 3, 3, 3, 3, 3, 3, 3,
   0, 1, 1, 3, 1, 1, 1, 3, 1,
   0, 1, 1, 3, 1, 1, 1, 3, 1,
   0, 1, 2, 3, 1, 1, 2, 3, 1,
   3, 3, 3, 3, 3, 3, 3, 3, 3,
   0, 1, 1, 3, 1, 1, 1, 3, 1]

/-- std_logic_1164-body.vhdl 148-152 `not_table`. -/
def notTable : List Nat := [0, 1, 3, 2, 1, 1, 3, 2, 1]

/-- A value read from one of the tables. -/
def lookup (t : List Nat) (l r : Std) : Option Std := (tableAt t l r).map decode

/-- `"not"` of std_logic_1164. -/
def stdNot (a : Std) : Option Std := (notTable[code a]?).map decode

/-- vhdl-predef.c 205-224: comparison and inversion for each operator. -/
inductive MatchCmp where
  | eq | lt | leq
  deriving DecidableEq, Repr

def matchCmp : MatchOp → MatchCmp × Bool
  | .neq => (.eq, true)
  | .eq => (.eq, false)
  | .ge => (.lt, true)
  | .lt => (.lt, false)
  | .gt => (.leq, true)
  | .le => (.leq, false)

/-- vhdl-predef.c 341-438: the result before inversion for STD_ULOGIC. -/
def matchScalar (c : MatchCmp) (l r : Std) : Option Std :=
  match c with
  | .leq =>
    match lookup eqTable l r, lookup ltTable l r with
    | some eq, some less => lookup orTable eq less
    | _, _ => none
  | .lt => lookup ltTable l r
  | .eq => lookup eqTable l r

/-- vhdl-predef.c 201-452 `predef_match_op` for two values of STD_ULOGIC;
`none` is a load outside of a table. -/
def matchOp (op : MatchOp) (l r : Std) : Option Std :=
  match matchScalar (matchCmp op).1 l r with
  | none => none
  | some v => if (matchCmp op).2 then stdNot v else some v

/-- vhdl-predef.c 395-410: the condition of the assertion made for `?<`, and so
for the operators which call it (and for `?>=`). -/
def matchAsserts (op : MatchOp) (l r : Std) : Bool :=
  match (matchCmp op).1 with
  | .eq => false
  | _ => !(decide (code l ≠ code .dash) && decide (code r ≠ code .dash))

/-- vhdl-predef.c 401-405: the text of the assertion; the length is the size
of a pointer less one. -/
def matchText : String := "STD_LOGIC_1164: '-' operand for matching ordering operator"

def matchTextLen : Nat := 8 - 1

def matchReported : String := String.ofList (matchText.toList.take matchTextLen)

/-- vhdl-predef.c 339-340, 440-441 for two values of BIT. -/
def matchBit (op : MatchOp) (l r : Bool) : Bool :=
  let v := match (matchCmp op).1 with
    | .eq => l == r
    | .lt => decide (l.toNat < r.toNat)
    | .leq => decide (l.toNat ≤ r.toNat)
  if (matchCmp op).2 then !v else v

/-- vhdl-predef.c 292-321: the loop which matches the elements. -/
def matchStep (a b : Arr Std) :
    Int × Mem Std → Step (Int × Mem Std) (Res (Arr Std))
  | (i, mem) =>
    match load a.data i, load b.data i with
    | some x, some y =>
      match lookup eqTable x y with
      | some v =>
        let mem' := mem.store i v
        if i + 1 = a.len then .done (wrap a mem') else .next (i + 1, mem')
      | none => .done .ub
    | _, _ => .done .ub

/-- std_logic_1164-body.vhdl 491-498: "and" of a vector. -/
def andReduce : List Std → Option Std
  | [] => some .one
  | x :: t =>
    match andReduce t with
    | some r => lookup andTable x r
    | none => none

/-- vhdl-predef.c 238-338, 440-451: `?=` and `?/=` of two arrays of
STD_ULOGIC. -/
def MatchYields (neg : Bool) (a b : Arr Std) (r : Res Std) : Prop :=
  if a.len = b.len then
    ∃ q, (if a.len = 0 then q = wrap a Mem.empty
          else Yields (matchStep a b) (0, Mem.empty) q) ∧
      r = (match q with
        | .ok c =>
          match andReduce c.data with
          | some v => if neg then (match stdNot v with | some w => .ok w | none => .ub)
                      else .ok v
          | none => .ub
        | .failure => .failure
        | .ub => .ub)
  else r = .failure

end Verif.Predef
