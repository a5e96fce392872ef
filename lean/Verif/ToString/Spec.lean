/-
Specification for TO_HSTRING and TO_OSTRING of bit vectors, property C104: the
number that a vector and a text stand for.
-/

namespace Verif.ToString.Spec

/-- The number of a vector, the leftmost bit first; anything but 0 is a one. -/
def value (v : List Nat) : Nat := v.foldl (fun n b => 2 * n + if b = 0 then 0 else 1) 0

/-- The digit of a character. -/
def digit (c : Nat) : Nat := if c < 65 then c - 48 else c - 55

/-- The number of a text in a base. -/
def number (base : Nat) (t : List Nat) : Nat := t.foldl (fun n c => base * n + digit c) 0

/-- The units of TIME as STANDARD declares them, each by the one before. -/
def units : List (String × Nat) :=
  [("fs", 1), ("ps", 1000), ("ns", 1000 * 1000), ("us", 1000 * 1000 * 1000),
    ("ms", 1000 * 1000 * 1000 * 1000), ("sec", 1000 * 1000 * 1000 * 1000 * 1000),
    ("min", 60 * (1000 * 1000 * 1000 * 1000 * 1000)),
    ("hr", 60 * (60 * (1000 * 1000 * 1000 * 1000 * 1000)))]

end Verif.ToString.Spec
