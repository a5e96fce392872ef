import Verif.Lex.BitstrSpec

/-
Integer literals as the standard has them (IEEE Std 1076-2008, 15.5),
independent of the code.
-/

namespace Verif.Lex

/-- `integer` and `based_integer`: digits of the base, single underscores between
    them, and the number they stand for. -/
inductive Numeral (base : Nat) : List Char → Nat → Prop
  | one {c d} : DigitValue c d → d < base → Numeral base [c] d
  | more {cs c v d} : Numeral base cs v → DigitValue c d → d < base →
      Numeral base (cs ++ [c]) (v * base + d)
  | under {cs c v d} : Numeral base cs v → DigitValue c d → d < base →
      Numeral base (cs ++ ['_', c]) (v * base + d)

/-- The exponent of an integer literal, which may be missing. -/
inductive Exponent : List Char → Nat → Prop
  | none : Exponent [] 0
  | some {e sign x n} : e = 'E' ∨ e = 'e' → sign = [] ∨ sign = ['+'] → Numeral 10 x n →
      Exponent (e :: (sign ++ x)) n

/-- A decimal literal without a point, and its value. -/
def DecimalLit (text : List Char) (v : Nat) : Prop :=
  ∃ i m x n, text = i ++ x ∧ Numeral 10 i m ∧ Exponent x n ∧ v = m * 10 ^ n

/-- A based literal without a point, and its value.  The number signs may be
    replaced by colons if both are. -/
def BasedLit (text : List Char) (v : Nat) : Prop :=
  ∃ b base hash i m x n, text = b ++ hash :: (i ++ hash :: x) ∧ (hash = '#' ∨ hash = ':') ∧
    Numeral 10 b base ∧ 2 ≤ base ∧ base ≤ 16 ∧ Numeral base i m ∧ Exponent x n ∧ v = m * base ^ n

/-- What the scanner takes for an integer, /repo/src/lexer.l:115: a digit, then
    digits and underscores. -/
def Digits (cs : List Char) : Prop :=
  ∃ c rest, cs = c :: rest ∧ (∃ d, d < 10 ∧ DigitValue c d) ∧
    ∀ r ∈ rest, r = '_' ∨ ∃ d, d < 10 ∧ DigitValue r d

/-- What it takes for an exponent or none, /repo/src/lexer.l:116. -/
def Tail (cs : List Char) : Prop :=
  cs = [] ∨ ∃ e sign x, cs = e :: (sign ++ x) ∧ (e = 'E' ∨ e = 'e') ∧
    (sign = [] ∨ sign = ['+'] ∨ sign = ['-']) ∧ Digits x

/-- What it takes for a based integer, /repo/src/lexer.l:118. -/
def Hex (cs : List Char) : Prop :=
  ∃ c rest, cs = c :: rest ∧ ((∃ d, DigitValue c d) ∨ c ∈ "zZxX".toList) ∧
    ∀ r ∈ rest, r = '_' ∨ (∃ d, DigitValue r d) ∨ r ∈ "zZxX".toList

end Verif.Lex
