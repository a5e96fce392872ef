/-
The texts of values given on the command line (`-g`) and to the `force`
command, stated without the function that reads them.
-/

namespace Verif.ParseValue.Spec

/-- White space of ISO 8859-1. -/
def White (c : Char) : Prop :=
  c.toNat = 32 ∨ (9 ≤ c.toNat ∧ c.toNat ≤ 13) ∨ c.toNat = 160

instance (c : Char) : Decidable (White c) := inferInstanceAs (Decidable (_ ∨ _))

def AllWhite (l : List Char) : Prop := ∀ c ∈ l, White c

instance (l : List Char) : Decidable (AllWhite l) := inferInstanceAs (Decidable (∀ c ∈ l, White c))

def Dig (c : Char) : Prop := 48 ≤ c.toNat ∧ c.toNat ≤ 57

instance (c : Char) : Decidable (Dig c) := inferInstanceAs (Decidable (_ ∧ _))

/-- An enumeration literal: a character literal or an identifier. -/
inductive Lit where
  | chr (c : Char)
  | id (t : List Char)
  deriving DecidableEq, Repr

/-- The text of a literal. -/
def Lit.text : Lit → List Char
  | .chr c => ['\'', c, '\'']
  | .id t => t

/-- The character stands for the value at that position of the type. -/
def Stands (lits : List Lit) (c : Char) (i : Nat) : Prop := lits[i]? = some (.chr c)

/-- The character is no literal of the type. -/
def Foreign (lits : List Lit) (c : Char) : Prop := Lit.chr c ∉ lits

instance (lits : List Lit) (c : Char) : Decidable (Foreign lits c) := inferInstanceAs (Decidable (¬ _))

/-- The characters stand for the values, in order. -/
inductive Body (lits : List Lit) : List Char → List Nat → Prop where
  | nil : Body lits [] []
  | cons {c i cs is} : Stands lits c i → Body lits cs is → Body lits (c :: cs) (i :: is)

/-- A text for an array of characters: white space that is not itself a
literal may stand before it and any may stand after it; it may be in quotes if the
quote is not itself a literal. -/
inductive ArrayText (lits : List Lit) : List Char → List Nat → Prop where
  | plain {ws cs ts is} : AllWhite ws → (∀ c ∈ ws, Foreign lits c) → Body lits cs is → AllWhite ts →
      (∀ c r, ts = c :: r → Foreign lits c) → (cs = [] → ts = []) → ArrayText lits (ws ++ cs ++ ts) is
  | quoted {ws cs ts is} : AllWhite ws → (∀ c ∈ ws, Foreign lits c) → Foreign lits '"' → Body lits cs is →
      AllWhite ts → ArrayText lits (ws ++ '"' :: cs ++ '"' :: ts) is

/-- The number of a sequence of digits; underscores do not count. -/
def number : Nat → List Char → Nat
  | a, [] => a
  | a, c :: l => if c = '_' then number a l else number (10 * a + (c.toNat - 48)) l

/-- Digits and underscores with at least one digit. -/
def Digits (l : List Char) : Prop := (∀ c ∈ l, Dig c ∨ c = '_') ∧ ∃ c ∈ l, Dig c

/-- 15.5.2: an integer: digits, between which single underscores may stand. -/
inductive Integer : List Char → Prop where
  | one {c} : Dig c → Integer [c]
  | digit {c l} : Dig c → Integer l → Integer (c :: l)
  | under {c l} : Dig c → Integer l → Integer (c :: '_' :: l)

/-- Small letters of ISO 8859-1 and their capitals. -/
def letters : List (Char × Char) :=
  ("abcdefghijklmnopqrstuvwxyzàáâãäåæçèéêëìíîïðñòóôõöøùúûüýþ".toList).zip
  ("ABCDEFGHIJKLMNOPQRSTUVWXYZÀÁÂÃÄÅÆÇÈÉÊËÌÍÎÏÐÑÒÓÔÕÖØÙÚÛÜÝÞ".toList)

/-- The capital of a letter, and any other character itself. -/
def upper (c : Char) : Char := ((letters.find? (fun p => p.1 == c)).map Prod.snd).getD c

/-- The spelling of a literal that is looked for: capitals up to a quote. -/
def spelling : List Char → List Char
  | [] => []
  | c :: l => if c = '\'' then c :: l else upper c :: spelling l

end Verif.ParseValue.Spec
