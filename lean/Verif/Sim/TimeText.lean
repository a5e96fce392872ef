/-
C48: how times are printed, `fmt_time_r` (src/rt/model.c 178-198); C64: how ordinal numbers are
printed in messages, `ordinal_str` (src/util.c 1108-1128).

Text is a list of characters.  The number conversion of `printf` (`%PRIi64`, `%d`) is modelled by
`decimal`.
-/

namespace Verif.TimeText

/-- The digits of a number, the most significant one first, at most `fuel` of them. -/
def digits : Nat → Nat → List Nat
  | 0, _ => []
  | fuel + 1, n => if n < 10 then [n] else digits fuel (n / 10) ++ [n % 10]

/-- The character of a digit. -/
def digitChar (d : Nat) : Char := Char.ofNat (48 + d)

/-- `printf` of an `int64_t` with `%PRIi64`: it has at most 19 digits. -/
def decimal (x : Int) : List Char :=
  (if x < 0 then ['-'] else []) ++ (digits 20 x.natAbs).map digitChar

/-- The table `units` (model.c 180-190) without its end marker. -/
def units : List (Int × List Char) :=
  [(1, ['f', 's']), (1000, ['p', 's']), (1000000, ['n', 's']), (1000000000, ['u', 's']),
   (1000000000000, ['m', 's'])]

/-- The loop (model.c 192-194): the unit `u` is kept if the next one, at the head of the list, does
not divide the time; `%` of C. -/
def pickUnit (t : Int) : Int × List Char → List (Int × List Char) → Int × List Char
  | u, [] => u
  | u, v :: rest => if t.tmod v.1 = 0 then pickUnit t v rest else u

/-- The unit that is chosen. -/
def unitOf (t : Int) : Int × List Char := pickUnit t (1, ['f', 's']) (units.drop 1)

/-- `fmt_time_r`: the text that is written to the buffer; `/` of C. -/
def fmtTime (t : Int) (sep : List Char) : List Char :=
  decimal (t.tdiv (unitOf t).1) ++ (sep ++ (unitOf t).2)

/-- `checked_sprintf` (util.c 1386-1401): `none` if the buffer is too small, which stops the program.
The terminating zero needs one byte. -/
def fmtTimeR (len : Nat) (t : Int) (sep : List Char) : Option (List Char) :=
  if (fmtTime t sep).length ≥ len then none else some (fmtTime t sep)

/-- `ordinal_str` for `n ≥ 1`.  The third test repeats the second. -/
def ordinalStr (n : Nat) : List Char :=
  if n = 1 then "first".toList
  else if n = 2 then "second".toList
  else if n = 3 then "third".toList
  else if n > 20 ∧ n % 10 = 1 then decimal n ++ ['s', 't']
  else if n > 20 ∧ n % 10 = 2 then decimal n ++ ['n', 'd']
  else if n > 20 ∧ n % 10 = 2 then decimal n ++ ['r', 'd']
  else decimal n ++ ['t', 'h']

/-! ### What is meant -/

/-- The number that a text of digits denotes. -/
def readDigits (cs : List Char) : Nat := cs.foldl (fun n c => 10 * n + (c.toNat - 48)) 0

/-- A number with an optional sign. -/
def readNumber : List Char → Int
  | '-' :: cs => -(readDigits cs : Int)
  | cs => readDigits cs

def numeric (c : Char) : Bool := c == '-' || c.isDigit

/-- Femtoseconds per unit. -/
def readUnit : List Char → Option Int
  | ['f', 's'] => some 1
  | ['p', 's'] => some (10 ^ 3)
  | ['n', 's'] => some (10 ^ 6)
  | ['u', 's'] => some (10 ^ 9)
  | ['m', 's'] => some (10 ^ 12)
  | _ => none

/-- Read a time: a number, the separator, a unit. -/
def readTime (sep : List Char) (text : List Char) : Option Int :=
  let rest := text.dropWhile numeric
  if sep.isPrefixOf rest then
    (readUnit (rest.drop sep.length)).map fun u => readNumber (text.takeWhile numeric) * u
  else none

end Verif.TimeText
