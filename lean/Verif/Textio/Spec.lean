/-
The texts of values in lines, IEEE Std 1076-2019, 16.4, stated without the
procedures that read and write them.
-/

namespace Verif.Textio.Spec

/-- 16.4: blanks, tabs and the like, which reading skips. -/
def White (c : Char) : Prop := c.toNat = 32 ∨ c.toNat = 13 ∨ c.toNat = 10 ∨ c.toNat = 9 ∨ c.toNat = 160

instance (c : Char) : Decidable (White c) := inferInstanceAs (Decidable (_ ∨ _))

/-- A decimal digit. -/
def Dig (c : Char) : Prop := 48 ≤ c.toNat ∧ c.toNat ≤ 57

instance (c : Char) : Decidable (Dig c) := inferInstanceAs (Decidable (_ ∧ _))

/-- The number of a sequence of digits, from the right. -/
def decR : List Char → Nat
  | [] => 0
  | c :: l => (c.toNat - 48) + 10 * decR l

def dec (l : List Char) : Nat := decR l.reverse

/-- The text of a natural number. -/
def natText (n : Nat) : List Char :=
  if n < 10 then [Char.ofNat (48 + n)] else natText (n / 10) ++ [Char.ofNat (48 + n % 10)]

/-- The text of an integer. -/
def intText (v : Int) : List Char :=
  if v < 0 then '-' :: natText v.natAbs else natText v.natAbs

/-- An integer of the language. -/
def IsInt (v : Int) : Prop := -2147483648 ≤ v ∧ v ≤ 2147483647

instance (v : Int) : Decidable (IsInt v) := inferInstanceAs (Decidable (_ ∧ _))

/-- What an integer with sign means. -/
inductive Denotes : List Char → Int → Prop where
  | plain {ds} : ds ≠ [] → (∀ c ∈ ds, Dig c) → Denotes ds (dec ds)
  | plus {ds} : ds ≠ [] → (∀ c ∈ ds, Dig c) → Denotes ('+' :: ds) (dec ds)
  | minus {ds} : ds ≠ [] → (∀ c ∈ ds, Dig c) → Denotes ('-' :: ds) (-(dec ds))

/-- A text in a field. -/
def field (s : List Char) (left : Bool) (w : Nat) : List Char :=
  let pad := List.replicate (w - s.length) ' '
  if left then s ++ pad else pad ++ s

/-- The number of bits, the first of which is the most significant. -/
def num : List Bool → Nat
  | [] => 0
  | b :: l => b.toNat * 2 ^ l.length + num l

/-- The number of digits of a base. -/
def base (b : Nat) : List Nat → Nat
  | [] => 0
  | d :: l => d * b ^ l.length + base b l

/-- Digits with single underscores between them. -/
inductive Under (val : Char → Option Nat) : List Nat → List Char → Prop where
  | one {c d} : val c = some d → Under val [d] [c]
  | digit {c d ds t} : val c = some d → Under val ds t → Under val (d :: ds) (c :: t)
  | under {c d ds t} : val c = some d → Under val ds t → Under val (d :: ds) (c :: '_' :: t)

/-- The lines of a file: the text to the first LF, and what follows. -/
def cut : List Char → List Char × List Char
  | [] => ([], [])
  | c :: l => if c = '\n' then ([], l) else (c :: (cut l).1, (cut l).2)

/-- 16.3, type TIME: the units, each by the one before, in femtoseconds. -/
inductive TimeUnit : List Char → Int → Prop where
  | fs : TimeUnit "fs".toList 1
  | ps {x} : TimeUnit "fs".toList x → TimeUnit "ps".toList (1000 * x)
  | ns {x} : TimeUnit "ps".toList x → TimeUnit "ns".toList (1000 * x)
  | us {x} : TimeUnit "ns".toList x → TimeUnit "us".toList (1000 * x)
  | ms {x} : TimeUnit "us".toList x → TimeUnit "ms".toList (1000 * x)
  | sec {x} : TimeUnit "ms".toList x → TimeUnit "sec".toList (1000 * x)
  | min {x} : TimeUnit "sec".toList x → TimeUnit "min".toList (60 * x)
  | hr {x} : TimeUnit "min".toList x → TimeUnit "hr".toList (60 * x)

end Verif.Textio.Spec
