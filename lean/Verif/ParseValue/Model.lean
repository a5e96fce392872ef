import Verif.ParseValue.Spec

/-
Model of `parse_value` (src/common.c 256–414 in /repo), which reads the values
of generics given with `-g` (src/elab.c 1001–1007) and of forced signals
(src/rt/shell.c 709).

Simplified: characters are those of the string before its end; `strtod` and the
product with a unit are parameters, and values of type real are left out.
-/

namespace Verif.ParseValue

open Spec (Lit)

/-- What the function does: a value, `false`, or undefined behaviour or a crash. -/
inductive Res (α : Type) where
  | ok (v : α)
  | fail
  | ub
  deriving DecidableEq, Repr

/-- `isspace_iso88591` (src/util.c 1166–1170). -/
def isSpace (c : Char) : Bool :=
  c.toNat == 32 || c.toNat == 9 || c.toNat == 10 || c.toNat == 11 || c.toNat == 12 || c.toNat == 13
    || c.toNat == 160

/-- `isdigit_iso88591` (src/util.c 1172–1175). -/
def isDigit (c : Char) : Bool := decide (48 ≤ c.toNat) && decide (c.toNat ≤ 57)

/-- `toupper_iso88591` (src/util.c 1141–1149). -/
def toUpper (c : Char) : Char :=
  if 97 ≤ c.toNat ∧ c.toNat ≤ 122 then Char.ofNat (c.toNat - 32)
  else if (0xe0 ≤ c.toNat ∧ c.toNat ≤ 0xf6) ∨ (0xf8 ≤ c.toNat ∧ c.toNat ≤ 0xfe) then Char.ofNat (c.toNat - 0x20)
  else c

/-- The check at the end (src/common.c 269–274 and 408–411). -/
def onlySpaces : List Char → Bool
  | [] => true
  | c :: l => if !isSpace c then false else onlySpaces l

/-- The table of character literals (src/common.c 270–276): entry `c` after
literals from position `i`; `none` is INT_MAX. -/
def mapLoop (c : Char) : List Lit → Nat → Option Nat → Option Nat
  | [], _, m => m
  | .chr d :: l, i, m => mapLoop c l (i + 1) (if d = c then some i else m)
  | .id _ :: l, i, m => mapLoop c l (i + 1) m

def charMap (lits : List Lit) (c : Char) : Option Nat := mapLoop c lits 0 none

/-- Spaces which are no literals (src/common.c 278–279). -/
def skipForeign (lits : List Lit) : List Char → List Char
  | [] => []
  | c :: l => if charMap lits c = none ∧ isSpace c = true then skipForeign lits l else c :: l

/-- The loop over the characters (src/common.c 287–289); elements are of one
byte (src/common.h 109). -/
def bodyLoop (lits : List Lit) : List Char → List Nat × List Char
  | [] => ([], [])
  | c :: l =>
    match charMap lits c with
    | none => ([], c :: l)
    | some m => ((m % 256) :: (bodyLoop lits l).1, (bodyLoop lits l).2)

/-- src/common.c 280–306. -/
def arrayRest (lits : List Lit) (str : List Char) : Res (List Nat) :=
  match str with
  | '"' :: l =>
    if charMap lits '"' = none then
      match (bodyLoop lits l).2 with
      | [] => .fail
      | c :: r =>
        if c ≠ '"' then .fail
        else if onlySpaces r then .ok (bodyLoop lits l).1 else .fail
    else if onlySpaces (bodyLoop lits str).2 then .ok (bodyLoop lits str).1 else .fail
  | _ => if onlySpaces (bodyLoop lits str).2 then .ok (bodyLoop lits str).1 else .fail

/-- `parse_value` for an array of characters (src/common.c 261–309). The
literals are asked of the type of the elements: if that is a subtype, which has
none, the program stops (src/type.c 34 and 406–410). -/
def parseArray (elemIsSubtype : Bool) (lits : List Lit) (str : List Char) : Res (List Nat) :=
  if elemIsSubtype then .ub else arrayRest lits (skipForeign lits str)

/-- src/common.c 311–312. -/
def skipSpace : List Char → List Char
  | [] => []
  | c :: l => if isSpace c then skipSpace l else c :: l

/-- The loop over the digits (src/common.c 322–329): sum, number of digits and
the rest; `none` is an overflow. -/
def intLoop : List Char → Int → Nat → Option (Int × Nat × List Char)
  | [], sum, n => some (sum, n, [])
  | c :: l, sum, n =>
    if isDigit c = true ∨ c = '_' then
      if c ≠ '_' then
        if sum * 10 + (c.toNat - 48 : Nat) < 2 ^ 63 then
          intLoop l (sum * 10 + (c.toNat - 48 : Nat)) (n + 1)
        else none
      else intLoop l sum n
    else some (sum, n, c :: l)

/-- src/common.c 318–334 after the sign. -/
def intRest (neg : Bool) (str : List Char) : Res Int :=
  match intLoop str 0 0 with
  | none => .ub
  | some (sum, n, rest) =>
    if n = 0 then .fail
    else if onlySpaces rest then .ok (if neg then -sum else sum) else .fail

/-- `parse_value` for an integer (src/common.c 315–336). -/
def parseInt (str : List Char) : Res Int :=
  match skipSpace str with
  | '-' :: l => intRest true l
  | l => intRest false l

/-- The word up to a space, upper case up to a quote (src/common.c 342–348). -/
def wordLoop : List Char → Bool → List Char × List Char
  | [], _ => ([], [])
  | c :: l, up =>
    if isSpace c then ([], c :: l)
    else
      ((if up && decide (c ≠ '\'') then toUpper c else c) :: (wordLoop l (up && decide (c ≠ '\''))).1,
       (wordLoop l (up && decide (c ≠ '\''))).2)

/-- The search of a literal (src/common.c 355–361). -/
def litLoop (w : List Char) : List Lit → Nat → Option Nat
  | [], _ => none
  | l :: ls, i => if l.text = w then some i else litLoop w ls (i + 1)

/-- `parse_value` for an enumeration (src/common.c 338–366). -/
def parseEnum (lits : List Lit) (str : List Char) : Res Nat :=
  match litLoop (wordLoop (skipSpace str) true).1 lits 0 with
  | none => .fail
  | some i => if onlySpaces (wordLoop (skipSpace str) true).2 then .ok i else .fail

/-- The unit (src/common.c 382–385). -/
def unitWord : List Char → List Char × List Char
  | [] => ([], [])
  | c :: l => if isSpace c then ([], c :: l) else (toUpper c :: (unitWord l).1, (unitWord l).2)

/-- The search of a unit (src/common.c 394–400); -1 if there is none. -/
def unitLoop {N : Type} (mul : N → Int → Int) (x : N) (w : List Char) : List (List Char × Int) → Int
  | [] => -1
  | (u, k) :: l => if u = w then mul x k else unitLoop mul x w l

/-- `parse_value` for a physical type (src/common.c 376–405). -/
def parsePhys {N : Type} (strtod : List Char → N × List Char) (mul : N → Int → Int)
    (units : List (List Char × Int)) (str : List Char) : Res Int :=
  if (unitWord (skipSpace (strtod (skipSpace str)).2)).1 = [] then .fail
  else if unitLoop mul (strtod (skipSpace str)).1 (unitWord (skipSpace (strtod (skipSpace str)).2)).1 units = -1 then .fail
  else if onlySpaces (unitWord (skipSpace (strtod (skipSpace str)).2)).2 then
    .ok (unitLoop mul (strtod (skipSpace str)).1 (unitWord (skipSpace (strtod (skipSpace str)).2)).1 units)
  else .fail

end Verif.ParseValue
