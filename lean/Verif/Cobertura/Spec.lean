/-
Specification for the Cobertura report, property C102: what the items of a
class say about a line.
-/

namespace Verif.Cobertura.Spec

abbrev Text := List Nat

inductive Kind where
  | stmt | branch | other
  deriving DecidableEq

/-- A coverage item: its kind, line, count and flags. -/
structure Item where
  kind : Kind
  line : Nat
  data : Nat
  flags : Nat
  deriving DecidableEq

/-- Items that make a line. -/
def onLine (n : Nat) (i : Item) : Bool := i.kind != .other && i.line == n

/-- How often the statements of a line were executed. -/
def executed (n : Nat) (is : List Item) : Nat :=
  ((is.filter fun i => i.kind == .stmt && i.line == n).map (·.data)).sum

/-- A branch of the line with a flag was taken. -/
def Taken (n k : Nat) (is : List Item) : Prop :=
  ∃ i ∈ is, i.kind = .branch ∧ i.line = n ∧ i.data > 0 ∧ i.flags.testBit k = true

end Verif.Cobertura.Spec
