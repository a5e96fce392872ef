/-
Specification of the predefined operators of arrays (IEEE Std 1076, section
9.2, and the MINIMUM/MAXIMUM functions of section 5.3.2.4).  Nothing here
refers to the generated code.
-/

namespace Verif.Predef.Spec

/-! ## Shift operators: the LRM defines them by repeating a basic shift. -/

/-- The basic left shift: drop the leftmost element, append the fill. -/
def shl1 (fill : Bool) : List Bool → List Bool
  | [] => []
  | _ :: t => t ++ [fill]

/-- The basic right shift: drop the rightmost element, prepend the fill. -/
def shr1 (fill : Bool) (l : List Bool) : List Bool :=
  if l = [] then [] else fill :: l.dropLast

/-- Basic rotation to the left. -/
def rotl1 : List Bool → List Bool
  | [] => []
  | x :: t => t ++ [x]

/-- Basic rotation to the right. -/
def rotr1 (l : List Bool) : List Bool :=
  match l.getLast? with
  | none => []
  | some x => x :: l.dropLast

/-- Repeat a basic operation. -/
def times (f : List Bool → List Bool) : Nat → List Bool → List Bool
  | 0, l => l
  | n + 1, l => times f n (f l)

/-- Basic arithmetic shift to the left fills with the rightmost element
`L(L'RIGHT)`. -/
def sla1 (l : List Bool) : List Bool := shl1 (l.getLast?.getD false) l

/-- Basic arithmetic shift to the right fills with the leftmost element
`L(L'LEFT)`. -/
def sra1 (l : List Bool) : List Bool := shr1 (l.head?.getD false) l

inductive ShiftOp where
  | sll | srl | sla | sra | rol | ror
  deriving DecidableEq, Repr

/-- The basic operation for a non-negative amount. -/
def basic : ShiftOp → List Bool → List Bool
  | .sll => shl1 false
  | .srl => shr1 false
  | .sla => sla1
  | .sra => sra1
  | .rol => rotl1
  | .ror => rotr1

/-- The operator which a negative amount stands for. -/
def opposite : ShiftOp → ShiftOp
  | .sll => .srl
  | .srl => .sll
  | .sla => .sra
  | .sra => .sla
  | .rol => .ror
  | .ror => .rol

/-- `L op R`. -/
def shift (op : ShiftOp) (l : List Bool) (n : Int) : List Bool :=
  if 0 ≤ n then times (basic op) n.toNat l
  else times (basic (opposite op)) (-n).toNat l

/-! ## Ordering of arrays. -/

/-- `L < R` (9.2.3): the left operand is null and the right is not, or both
are non-null and either the leftmost element of the left is less than that of
the right, or they are equal and the rest is less. -/
def lt : List Int → List Int → Bool
  | _, [] => false
  | [], _ :: _ => true
  | a :: l, b :: r => decide (a < b) || (decide (a = b) && lt l r)

/-- `L <= R`: less or equal. -/
def le (l r : List Int) : Bool := lt l r || decide (l = r)

/-- `L > R` and `L >= R` are the other two. -/
def gt (l r : List Int) : Bool := lt r l
def ge (l r : List Int) : Bool := lt r l || decide (l = r)

/-! ## Equality of arrays, arrays of arrays and matrices. -/

/-- Type of an array object: lengths of the dimensions and type of the
elements. -/
inductive Ty where
  | scalar
  | arr (lens : List Nat) (elem : Ty)
  deriving DecidableEq, Repr

def count : List Nat → Nat
  | [] => 1
  | n :: t => n * count t

/-- Number of scalars of an object of the type. -/
def Ty.size : Ty → Nat
  | .scalar => 1
  | .arr lens e => count lens * e.size

/-- Both operands are arrays of the same kind. -/
def Ty.similar : Ty → Ty → Prop
  | .scalar, .scalar => True
  | .arr ls e, .arr rs f => ls.length = rs.length ∧ similar e f
  | _, _ => False

/-- Every array has one dimension. -/
def Ty.oneDim : Ty → Prop
  | .scalar => True
  | .arr ls e => ls.length = 1 ∧ e.oneDim

/-- Two array values are equal if for each element of one there is a matching
element of the other, and the matching elements are equal.  Elements match if
they have the same place in every dimension; the scalars of each operand are
stored in the row-major order of its own type. -/
def equal : Ty → Ty → (Nat → Int) → (Nat → Int) → Nat → Nat → Prop
  | .arr ls e, .arr rs f, lm, rm, lp, rp =>
      (ls = rs ∨ (count ls = 0 ∧ count rs = 0)) ∧
      ∀ i : Nat, i < count ls →
        equal e f lm rm (lp + i * e.size) (rp + i * f.size)
  | _, _, lm, rm, lp, rp => lm lp = rm rp

/-! ## Logical operators. -/

inductive LogicOp where
  | and | or | xor | nand | nor | xnor
  deriving DecidableEq, Repr

def LogicOp.apply : LogicOp → Bool → Bool → Bool
  | .and, a, b => a && b
  | .or, a, b => a || b
  | .xor, a, b => a != b
  | .nand, a, b => !(a && b)
  | .nor, a, b => !(a || b)
  | .xnor, a, b => a == b

/-- Number of elements which are true. -/
def ones (l : List Bool) : Nat := (l.filter id).length

/-- The unary logical operators (9.2.2).  For a null operand `and`, `nor` and
`xnor` give '1' and the others '0'. -/
def reduce : LogicOp → List Bool → Bool
  | .and, l => l.all id
  | .or, l => l.any id
  | .xor, l => decide (ones l % 2 = 1)
  | .nand, l => l.any (!·)
  | .nor, l => l.all (!·)
  | .xnor, l => decide (ones l % 2 = 0)

/-! ## MINIMUM and MAXIMUM of the elements of an array. -/

/-- The result is an element not less than any other, or the least value of
the element type for a null array. -/
def IsMaximum (low : Int) (l : List Int) (r : Int) : Prop :=
  if l = [] then r = low else r ∈ l ∧ ∀ x ∈ l, x ≤ r

def IsMinimum (high : Int) (l : List Int) (r : Int) : Prop :=
  if l = [] then r = high else r ∈ l ∧ ∀ x ∈ l, r ≤ x

/-! ## Matching relational operators. -/

/-- STD_ULOGIC in the order of its declaration. -/
inductive Std where
  | U | X | zero | one | Z | W | L | H | dash
  deriving DecidableEq, Repr

/-- What a value stands for: `none` is no logic level. -/
def Std.level : Std → Option Bool
  | .zero | .L => some false
  | .one | .H => some true
  | _ => none

def Std.ofBool (b : Bool) : Std := if b then .one else .zero

/-- `?=`: '-' matches everything, then 'U' wins, then 'X'. -/
def matchEq (l r : Std) : Std :=
  if l = .dash ∨ r = .dash then .one
  else if l = .U ∨ r = .U then .U
  else match l.level, r.level with
    | some a, some b => Std.ofBool (a == b)
    | _, _ => .X

/-- `?<`: with '-' it is an error and the result is 'X'. -/
def matchLt (l r : Std) : Std :=
  if l = .dash ∨ r = .dash then .X
  else if l = .U ∨ r = .U then .U
  else match l.level, r.level with
    | some a, some b => Std.ofBool (!a && b)
    | _, _ => .X

/-- Logical `not` and `or` of STD_ULOGIC. -/
def not (a : Std) : Std :=
  if a = .U then .U
  else match a.level with
    | some b => Std.ofBool (!b)
    | none => .X

def or (a b : Std) : Std :=
  if a.level = some true ∨ b.level = some true then .one
  else if a = .U ∨ b = .U then .U
  else if a.level = some false ∧ b.level = some false then .zero
  else .X

inductive MatchOp where
  | eq | neq | lt | le | gt | ge
  deriving DecidableEq, Repr

/-- The matching operators of two values of STD_ULOGIC. -/
def matching : MatchOp → Std → Std → Std
  | .eq, l, r => matchEq l r
  | .neq, l, r => not (matchEq l r)
  | .lt, l, r => matchLt l r
  | .le, l, r => or (matchLt l r) (matchEq l r)
  | .gt, l, r => not (or (matchLt l r) (matchEq l r))
  | .ge, l, r => not (matchLt l r)

/-- The matching operators of two values of BIT. -/
def matchingBit : MatchOp → Bool → Bool → Bool
  | .eq, l, r => l == r
  | .neq, l, r => l != r
  | .lt, l, r => !l && r
  | .le, l, r => !l || r
  | .gt, l, r => l && !r
  | .ge, l, r => l || !r

/-- `?=` of two arrays of the same length: '0' if some pair does not match,
otherwise 'U' or 'X' if some pair is undecided. -/
def matchArray (l r : List Std) : Std :=
  let c := List.zipWith matchEq l r
  if Std.zero ∈ c then .zero
  else if Std.U ∈ c then .U
  else if Std.X ∈ c then .X
  else .one

end Verif.Predef.Spec
