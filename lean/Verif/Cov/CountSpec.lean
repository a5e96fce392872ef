import Verif.Cov.Spec

/-!
# What the bins of signals and expressions count

From `/repo/nvc.1` lines 650-699 and 784-850.
-/

namespace Verif.Cov

/-- The values of `std_ulogic` in the order of their declaration. -/
inductive Std where
  | U | X | l0 | l1 | Z | W | L | H | D
  deriving DecidableEq, Repr

/-- The position of a value, which is the byte that holds it. -/
def Std.pos : Std → Nat
  | .U => 0 | .X => 1 | .l0 => 2 | .l1 => 3 | .Z => 4 | .W => 5 | .L => 6 | .H => 7 | .D => 8

/-- A change from 0 to 1, or with the options, one that counts as such. -/
def Rises (undefined z : Bool) (a b : Std) : Prop :=
  (a = .l0 ∧ b = .l1) ∨ (undefined = true ∧ (a = .U ∨ a = .X) ∧ b = .l1) ∨
    (z = true ∧ ((a = .l0 ∧ b = .Z) ∨ (a = .Z ∧ b = .l1)))

/-- A change from 1 to 0, or with the options, one that counts as such. -/
def Falls (undefined z : Bool) (a b : Std) : Prop :=
  (a = .l1 ∧ b = .l0) ∨ (undefined = true ∧ (a = .U ∨ a = .X) ∧ b = .l0) ∨
    (z = true ∧ ((a = .l1 ∧ b = .Z) ∨ (a = .Z ∧ b = .l0)))

instance (u z a b) : Decidable (Rises u z a b) := by unfold Rises; infer_instance
instance (u z a b) : Decidable (Falls u z a b) := by unfold Falls; infer_instance

/-- The number of changes from one value of a history to the next. -/
def changes {α : Type} (p : α → α → Bool) : List α → Nat
  | a :: b :: l => (if p a b then 1 else 0) + changes p (b :: l)
  | _ => 0

/-! ## Arrays -/

/-- An index range. -/
structure Dim where
  left : Int
  right : Int
  downto : Bool
  deriving DecidableEq, Repr

def Dim.length (d : Dim) : Nat := if d.downto then (d.left - d.right + 1).toNat else (d.right - d.left + 1).toNat

/-- How far an index is from the left of the range. -/
def Dim.offset (d : Dim) (i : Int) : Int := if d.downto then d.left - i else i - d.left

/-- A type made of `std_ulogic` by arrays, of some other elements, or with bounds that are not known when the
design is compiled (`none`). -/
inductive Ty where
  | bit
  | array (dims : List (Option Dim)) (elem : Ty)
  | other
  deriving Repr

def volume : List Dim → Nat
  | [] => 1
  | d :: ds => d.length * volume ds

/-- The indices of an element in an array, and its position: as in all arrays the last index varies fastest. -/
inductive Elem : List Dim → List Int → Nat → Prop where
  | nil : Elem [] [] 0
  | cons (d : Dim) (ds : List Dim) (i : Int) (p : List Int) (n k : Nat) :
      (n : Int) = d.offset i → n < d.length → Elem ds p k → Elem (d :: ds) (i :: p) (n * volume ds + k)

/-- All bounds, if they are known. -/
def known : List (Option Dim) → Option (List Dim)
  | [] => some []
  | none :: _ => none
  | some d :: l => (known l).map fun l => d :: l

/-- The dimensions of an array with those of its elements, if all are known. -/
def Ty.dims : Ty → Option (List Dim)
  | .bit => some []
  | .array ds elem => (known ds).bind fun l => elem.dims.map fun l' => l ++ l'
  | .other => none

/-! ## Expressions -/

inductive Op where
  | and | or | nand | nor | xor | xnor
  deriving DecidableEq, Repr

/-- The combinations of operands for which changing one operand changes the result. -/
def sensitive (f : Bool → Bool → Bool) (a b : Bool) : Prop := f (!a) b ≠ f a b ∨ f a (!b) ≠ f a b

def Op.eval : Op → Bool → Bool → Bool
  | .and, a, b => a && b
  | .or, a, b => a || b
  | .nand, a, b => !(a && b)
  | .nor, a, b => !(a || b)
  | .xor, a, b => a ^^ b
  | .xnor, a, b => !(a ^^ b)

end Verif.Cov
