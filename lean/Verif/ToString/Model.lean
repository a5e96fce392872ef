import Verif.ToString.Spec

/-
Model of `bit_vec_to_string` and of the check of formats for reals,
src/rt/standard.c:32-57 and 122-139, and of `_std_to_string_time`, lines 67-98.
-/

namespace Verif.ToString

/-- `left_pad`, src/rt/standard.c:38. -/
def leftPad (k n : Nat) : Nat := (k - n % k) % k

/-- `result_len`, src/rt/standard.c:37. -/
def resultLen (k n : Nat) : Nat := (n + k - 1) / k

/-- `!!vec_ptr[n]` -/
def bit (v : List Nat) (n : Nat) : Nat := if v.getD n 0 = 0 then 0 else 1

/-- The inner loop, src/rt/standard.c:42-48; `k` is `log_base`. -/
def nibble (k : Nat) (v : List Nat) (i : Nat) : Nat :=
  (List.range k).foldl (fun n j =>
    if i > 0 ∨ j ≥ leftPad k v.length then n * 2 + bit v (i * k + j - leftPad k v.length) else n) 0

/-- The table of digits, src/rt/standard.c:50: "0123456789ABCDEF". -/
def digits : List Nat := [48, 49, 50, 51, 52, 53, 54, 55, 56, 57, 65, 66, 67, 68, 69, 70]

/-- `bit_vec_to_string`, src/rt/standard.c:32-57. -/
def toStr (k : Nat) (v : List Nat) : List Nat :=
  (List.range (resultLen k v.length)).map fun i => digits.getD (nibble k v i) 0

/-- A character of a format, src/rt/standard.c:127-138. -/
def okChar (c : Nat) : Bool :=
  [101, 69, 102, 70, 103, 71, 97, 65].contains c || (decide (48 ≤ c) && decide (c ≤ 57)) ||
    c == 46 || c == 45

/-- The check of `_std_to_string_real_format`, src/rt/standard.c:122-139, for
texts without zeros. -/
def okFormat : List Nat → Bool
  | 37 :: p => p.all okChar
  | _ => false

/-- The names of units, src/rt/standard.c:73-85; `none` is the error. -/
def unitStr (unit : Int) : Option String :=
  if unit = 1 then some "fs"
  else if unit = 1000 then some "ps"
  else if unit = 1000000 then some "ns"
  else if unit = 1000000000 then some "us"
  else if unit = 1000000000000 then some "ms"
  else if unit = 1000000000000000 then some "sec"
  else if unit = 60000000000000000 then some "min"
  else if unit = 3600000000000000000 then some "hr"
  else none

/-- What is printed for a time: a whole number, or the quotient of two doubles,
which is left open here. -/
inductive Shown where
  | whole (n : Int) (unit : String)
  | quotient (value unit : Int) (name : String)
  deriving Repr, DecidableEq

/-- `_std_to_string_time`, src/rt/standard.c:67-98. -/
def timeShown (value unit : Int) : Option Shown :=
  (unitStr unit).map fun u =>
    if value.tmod unit = 0 then .whole (value.tdiv unit) u else .quotient value unit u

end Verif.ToString
