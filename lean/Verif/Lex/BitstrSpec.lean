/-
Bit string literals as the standard has them (IEEE Std 1076-2008, 15.8),
independent of the code.
-/

namespace Verif.Lex

/-- The character is the digit for the number, in either case. -/
def DigitValue (c : Char) (v : Nat) : Prop :=
  "0123456789abcdef".toList[v]? = some c ∨ "0123456789ABCDEF".toList[v]? = some c

/-- A graphic character of ISO 8859-1. -/
def Graphic (c : Char) : Prop :=
  (32 ≤ c.toNat ∧ c.toNat < 127) ∨ (160 ≤ c.toNat ∧ c.toNat < 256)

/-- The number that a string of bits stands for. -/
def binary (ds : List Char) : Nat := ds.foldl (fun a c => 2 * a + if c = '1' then 1 else 0) 0

/-- The string has only bits and stands for the number. -/
def Binary (ds : List Char) (v : Nat) : Prop := (∀ d ∈ ds, d = '0' ∨ d = '1') ∧ binary ds = v

/-- What a character of a literal of base `2 ^ k` is replaced by: a digit by its
    bits; since 2008, any other graphic character by as many copies. -/
def Replaced (std08 : Bool) (k : Nat) (c : Char) (ds : List Char) : Prop :=
  ds.length = k ∧
    ((∃ v, DigitValue c v ∧ v < 2 ^ k ∧ Binary ds v) ∨
     (std08 = true ∧ (∀ v, DigitValue c v → 2 ^ k ≤ v) ∧ Graphic c ∧ ∀ d ∈ ds, d = c))

/-- The expanded bit string value. -/
inductive Expanded (std08 : Bool) (k : Nat) : List Char → List Char → Prop
  | nil : Expanded std08 k [] []
  | cons {c ds cs es} : Replaced std08 k c ds → Expanded std08 k cs es →
      Expanded std08 k (c :: cs) (ds ++ es)

/-- An unsigned value is adjusted to a length: zeros are added or removed at the
    left. -/
def FitUnsigned (length : Nat) (ex out : List Char) : Prop :=
  out.length = length ∧
    ((∃ zs, (∀ z ∈ zs, z = '0') ∧ out = zs ++ ex) ∨ (∃ zs, (∀ z ∈ zs, z = '0') ∧ ex = zs ++ out))

/-- A signed value is adjusted to a length: copies of the leftmost element are
    added, or elements are removed that are the same as the leftmost that
    remains. -/
def FitSigned (length : Nat) (ex out : List Char) : Prop :=
  out.length = length ∧
    (ex = out ∨ (∃ zs s, ex.head? = some s ∧ (∀ z ∈ zs, z = s) ∧ out = zs ++ ex) ∨
      (∃ zs s, out.head? = some s ∧ (∀ z ∈ zs, z = s) ∧ ex = zs ++ out))

/-- The number that decimal digits stand for. -/
def decimalValue : List Char → Option Nat
  | [] => some 0
  | c :: cs =>
    if 48 ≤ c.toNat ∧ c.toNat < 58 then
      (decimalValue cs).map fun v => (c.toNat - 48) * 10 ^ cs.length + v
    else none

/-- A lexeme: the length, the sign, the base, and what is between the
    quotation marks. -/
structure Lexeme where
  length : List Char
  sign : List Char
  base : Char
  body : List Char
deriving DecidableEq, Repr

def Lexeme.text (l : Lexeme) : List Char :=
  l.length ++ l.sign ++ [l.base, '"'] ++ l.body ++ ['"']

/-- The letter stands for base `2 ^ k`. -/
def Letter (c : Char) (k : Nat) : Prop :=
  ((c = 'B' ∨ c = 'b') ∧ k = 1) ∨ ((c = 'O' ∨ c = 'o') ∧ k = 3) ∨ ((c = 'X' ∨ c = 'x') ∧ k = 4)

/-- The lexeme has the length, or none. -/
def HasLength (l : Lexeme) (len : Option Nat) : Prop :=
  (len = none ∧ l.length = []) ∨
  (∃ n, len = some n ∧ l.length ≠ [] ∧ decimalValue l.length = some n)

def Signed (l : Lexeme) : Prop := l.sign = ['S'] ∨ l.sign = ['s']
def Unsigned (l : Lexeme) : Prop := l.sign = [] ∨ l.sign = ['U'] ∨ l.sign = ['u']

/-- What the value is without the underscores. -/
def Lexeme.value (l : Lexeme) : List Char := l.body.filter (· ≠ '_')

/-- Every underscore is between two other characters. -/
def Spaced (body : List Char) : Prop :=
  ∀ (i : Nat), body[i]? = some '_' →
    (∃ c, 0 < i ∧ body[i - 1]? = some c ∧ c ≠ '_') ∧ (∃ c, body[i + 1]? = some c ∧ c ≠ '_')

/-- Neither a quotation mark nor a percent sign. -/
def Plain (body : List Char) : Prop := '"' ∉ body ∧ '%' ∉ body

end Verif.Lex
