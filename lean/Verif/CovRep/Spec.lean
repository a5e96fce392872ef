/-
Specification for the numbers of the coverage report, property C103.
-/

namespace Verif.CovRep.Spec

/-- A coverage item, as far as the report looks at it. -/
structure Item where
  data : Int
  atleast : Int
  excluded : Bool
  unreachable : Bool
  deriving DecidableEq

/-- Reached as often as asked for. -/
def covered (i : Item) : Bool := decide (i.atleast > 0) && decide (i.atleast ≤ i.data)

/-- Not covered, but not asked for. -/
def waived (i : Item) : Bool := !covered i && (i.excluded || i.unreachable)

/-- Neither. -/
def missed (i : Item) : Bool := !covered i && !waived i

end Verif.CovRep.Spec
