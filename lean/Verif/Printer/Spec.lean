/-
Specification for values shown in the shell, property C99: what a text says,
written down without reference to how it is made.
-/

namespace Verif.Printer.Spec

abbrev Text := List Nat

/-- The value of a digit. -/
def digitVal (c : Nat) : Nat := if c < 58 then c - 48 else c - 97 + 10

/-- The value of digits in a base. -/
def valueOf (b : Nat) (t : Text) : Nat := t.foldl (fun a c => a * b + digitVal c) 0

/-- The integer that a decimal text with an optional sign says. -/
def intOf : Text → Int
  | 45 :: t => - (valueOf 10 t : Int)
  | t => (valueOf 10 t : Int)

/-- The characters of a string literal after its first quote: a doubled quote
is one character, a single one ends the literal and must be the last. -/
def body : Text → Option Text
  | [] => none
  | [34] => some []
  | 34 :: 34 :: t => (body t).map fun r => 34 :: r
  | 34 :: _ => none
  | c :: t => (body t).map fun r => c :: r

/-- The characters that a string literal says. -/
def stringOf : Text → Option Text
  | 34 :: t => body t
  | _ => none

/-- A text in which the separator of lists is not found, also not when it is
followed by one. -/
def clean : Text → Bool
  | [] => true
  | [c] => c != 44
  | c :: d :: t => !(c == 44 && d == 32) && clean (d :: t)

end Verif.Printer.Spec
