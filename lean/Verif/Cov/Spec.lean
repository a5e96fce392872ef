/-!
# What merging coverage databases means

`/repo/nvc.1` lines 634-636 and 729-736: bins count from zero and saturate at 2147483647; merging sums the
bins with equal paths and makes the union of all bins.  A toggle bin of a port driven by a constant is marked
as unreachable, and the mark stays (`/repo/src/cov/cov-data.c` lines 730-736).
-/

namespace Verif.Cov

/-- A bin that has been counted, or is unreachable. -/
inductive Bin where
  | count (n : Nat)
  | unreachable
  deriving DecidableEq, Repr

/-- The largest count. -/
def limit : Nat := 2147483647

/-- The sum of two bins. -/
def Bin.add : Bin → Bin → Bin
  | .count a, .count b => .count (min limit (a + b))
  | _, _ => .unreachable

/-- The union of two databases at one bin. -/
def union : Option Bin → Option Bin → Option Bin
  | none, b => b
  | a, none => a
  | some a, some b => some (a.add b)

theorem Bin.add_comm (a b : Bin) : a.add b = b.add a := by
  cases a <;> cases b <;> simp [Bin.add, Nat.add_comm]

theorem Bin.add_assoc (a b c : Bin) : (a.add b).add c = a.add (b.add c) := by
  cases a <;> cases b <;> cases c <;> simp [Bin.add]
  omega

theorem union_comm (a b : Option Bin) : union a b = union b a := by
  cases a <;> cases b <;> simp [union, Bin.add_comm]

theorem union_assoc (a b c : Option Bin) : union (union a b) c = union a (union b c) := by
  cases a <;> cases b <;> cases c <;> simp [union, Bin.add_assoc]

/-- The union of any number of databases at one bin. -/
def unions (l : List (Option Bin)) : Option Bin := l.foldr union none

example : unions [some (.count 3), none, some (.count 4)] = some (.count 7) := by decide
example : unions [some (.count limit), some (.count 1)] = some (.count limit) := by decide
example : unions [some .unreachable, some (.count 1)] = some .unreachable := by decide

end Verif.Cov
