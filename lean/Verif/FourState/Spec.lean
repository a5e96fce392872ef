/-
The operators of Verilog on four-state values, IEEE Std 1800-2017, 11.4, and the
values of nets, 28.12.  A vector is a list whose first element is bit 0.
-/

namespace Verif.FourState

/-- lib/nvc/verilog.vhd 28. -/
inductive L where
  | X | Z | zero | one
  deriving DecidableEq, Repr

namespace Spec

/-- The bit, if it is known. -/
def known : L → Option Bool
  | .zero => some false
  | .one => some true
  | _ => none

/-- What the bit may be. -/
def comps : L → List Bool
  | .zero => [false]
  | .one => [true]
  | _ => [false, true]

def ofBool : Bool → L
  | true => .one
  | false => .zero

/-- The value on which all agree, X if they do not. -/
def agree (rs : List Bool) : L :=
  if rs.all (fun b => b) then .one else if rs.all (fun b => !b) then .zero else .X

/-- Tables 11-9 to 11-13: a result is known if it does not depend on unknown bits. -/
def op1 (f : Bool → Bool) (a : L) : L := agree ((comps a).map f)

def op2 (f : Bool → Bool → Bool) (a b : L) : L :=
  agree ((comps a).flatMap (fun x => (comps b).map (f x)))

def not1 : L → L := op1 (fun x => !x)
def and1 : L → L → L := op2 (fun x y => x && y)
def or1 : L → L → L := op2 (fun x y => x || y)
def xor1 : L → L → L := op2 (fun x y => x != y)

/-- 11.6.1: operands are extended with zeros. -/
def ext (n : Nat) (l : List L) : List L := l ++ List.replicate (n - l.length) .zero

def bitwise (f : L → L → L) (l r : List L) : List L :=
  List.zipWith f (ext r.length l) (ext l.length r)

/-- 11.4.9: reduction operators and n-input gates. -/
def reduce (f : L → L → L) (e : L) (l : List L) : L := l.foldr f e

/-- 11.4.7: a vector as a truth value. -/
def truth (l : List L) : L :=
  if .one ∈ l then .one else if ∃ a ∈ l, known a = none then .X else .zero

/-- The number, if all bits are known. -/
def num : List L → Option Nat
  | [] => some 0
  | a :: l =>
    match known a, num l with
    | some b, some n => some (b.toNat + 2 * n)
    | _, _ => none

/-- The bits of a number. -/
def bits : Nat → Nat → List L
  | 0, _ => []
  | w + 1, n => ofBool (n % 2 == 1) :: bits w (n / 2)

/-- 11.4.4: a relation is unknown if a bit is. -/
def rel (p : Nat → Nat → Bool) (l r : List L) : L :=
  match num l, num r with
  | some a, some b => ofBool (p a b)
  | _, _ => .X

/-- 11.4.3: arithmetic, with all bits unknown if one bit is. -/
def arith (w : Nat) (f : Nat → Nat → Nat) (l r : List L) : List L :=
  match num l, num r with
  | some a, some b => bits w (f a b)
  | _, _ => List.replicate w .X

/-- 11.4.5: equality is unknown if it depends on unknown bits. -/
def eq (l r : List L) : L :=
  (List.zipWith (fun a b => not1 (xor1 a b)) (ext r.length l) (ext l.length r)).foldr and1 .one

/-- 11.4.5: case equality. -/
def caseEq (l r : List L) : Bool := ext r.length l == ext l.length r

/-- Table 6-2: the value of a wire of two drivers. -/
def wire : L → L → L
  | .Z, b => b
  | a, .Z => a
  | a, b => if a = b then a else .X

end Spec

end Verif.FourState
