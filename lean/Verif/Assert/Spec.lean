/-
Specification for messages of assertions, property C100: the grammar of
formats, what padding is, and what is counted in a history.
-/

namespace Verif.Assert.Spec

abbrev Text := List Nat

/-! ## Formats, with the grammar of the LRM as quoted in src/rt/assert.c:95-100 -/

/-- `"<" | ">" | "^"` -/
def aligns : List Nat := [60, 62, 94]

/-- `"s" | "S" | "r" | "t" | "i"` -/
def variables : List Nat := [115, 83, 114, 116, 105]

/-- `[ [fill] align ]` -/
inductive FillAlign where
  | none
  | align (a : Nat)
  | both (fill a : Nat)

/-- `variable [ ":" [[fill] align] [width] ["." precision] ]` -/
structure Form where
  var : Nat
  colon : Bool
  fa : FillAlign
  width : Text
  prec : Option Text

def faText : FillAlign → Text
  | .none => []
  | .align a => [a]
  | .both f a => [f, a]

def precText : Option Text → Text
  | none => []
  | some t => 46 :: t

def formText (f : Form) : Text :=
  f.var :: if f.colon then 58 :: (faText f.fa ++ (f.width ++ precText f.prec)) else []

/-- A form of the grammar, given the names of units of time. -/
structure Valid (names : List Text) (f : Form) : Prop where
  var : f.var ∈ variables
  plain : f.colon = false → f.fa = .none ∧ f.width = [] ∧ f.prec = none
  fa : match f.fa with
    | .none => True
    | .align a => a ∈ aligns
    | .both c a => c ≠ 125 ∧ a ∈ aligns
  width : ∀ c ∈ f.width, 48 ≤ c ∧ c ≤ 57
  prec : ∀ t : Text, f.prec = some t → t ∈ names ∧ f.var = 116

/-- The number that digits say. -/
def number (t : Text) : Nat := t.foldl (fun a c => a * 10 + (c - 48)) 0

/-! ## Padding -/

/-- A text padded on both sides. -/
def padded (l r fill : Nat) (t : Text) : Text :=
  List.replicate l fill ++ t ++ List.replicate r fill

/-! ## Histories -/

/-- What happens to assertions, in order. -/
inductive Event where
  | report (sev : Nat)
  | clear
  | enable (sev : Nat) (on : Bool)

/-- Whether messages of a severity are enabled, given what happened, newest
first. -/
def enabled (s : Nat) : List Event → Bool
  | [] => true
  | .enable t on :: h => if t = s then on else enabled s h
  | _ :: h => enabled s h

/-- The number of messages of a severity since the last clear, newest first. -/
def number_of (s : Nat) : List Event → Nat
  | [] => 0
  | .clear :: _ => 0
  | .report t :: h => if t = s ∧ enabled s h = true then number_of s h + 1 else number_of s h
  | _ :: h => number_of s h

end Verif.Assert.Spec
