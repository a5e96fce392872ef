/-
Specification for exclusions from coverage, property C101: lines of words,
the last pragma before a line, and sums that do not overflow.
-/

namespace Verif.CovEx.Spec

abbrev Text := List Nat

/-- A line of words, each with a space before it and perhaps more, and spaces
at the end. -/
def lineOf : List (Nat × Text) → Nat → Text
  | [], k => List.replicate k 32
  | (n, w) :: ws, k => List.replicate (n + 1) 32 ++ w ++ lineOf ws k

/-- A word: not empty and without spaces, newlines, zeros or comments. -/
def Word (w : Text) : Prop := w ≠ [] ∧ ∀ c ∈ w, c ≠ 32 ∧ c ≠ 35 ∧ c ≠ 10 ∧ c ≠ 0

/-- The small letters of ISO 8859-1 that have a capital letter: a to z, and the
31 codes from 0xe0 without the division sign. -/
def smallLetters : List Nat := List.range' 97 26 ++ (List.range' 0xe0 31).filter (· ≠ 0xf7)

/-- A command. -/
inductive Cmd where
  | exclude (hier : Text)
  | fold (target source : Text)
  deriving DecidableEq

/-- The last pragma before a line, if any: `true` is off. -/
def lastBefore (l : Int) : List (Bool × Int) → Option Bool
  | [] => none
  | p :: ps =>
    match lastBefore l ps with
    | some b => some b
    | none => if p.2 < l then some p.1 else none

/-- A sum of counts with a limit of 2^31 - 1. -/
def sumTo (l : List Nat) : Nat := min (2 ^ 31 - 1) l.sum

end Verif.CovEx.Spec
