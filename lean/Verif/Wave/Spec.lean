/-
Specification for waveform dumps, property C97: what the texts in the file
mean, independently of how they are made.
-/

namespace Verif.Wave.Spec

/-- A text as the codes of its characters. -/
abbrev Text := List Nat

/-! ## Binary numbers -/

def Digits (t : Text) : Prop := ∀ c ∈ t, c = 48 ∨ c = 49

/-- The value of a binary number, most significant digit first. -/
def binVal : Text → Nat
  | [] => 0
  | c :: t => (c - 48) * 2 ^ t.length + binVal t

/-- A number of `n` bits in two's complement. -/
def signedVal (n u : Nat) : Int := if 2 ^ n ≤ 2 * u then (u : Int) - 2 ^ n else u

/-- The text shows the value of an integer type whose lower bound is `lo`. -/
def ShowsInt (lo v : Int) (t : Text) : Prop :=
  Digits t ∧ (if lo < 0 then signedVal t.length (binVal t) else (binVal t : Int)) = v

/-! ## Enumerations -/

/-- Lower case in ISO 8859-1. -/
def lower (c : Nat) : Nat :=
  if 65 ≤ c ∧ c ≤ 90 ∨ 192 ≤ c ∧ c ≤ 222 ∧ c ≠ 215 then c + 32 else c

/-- Character literals and extended identifiers, in which case matters. -/
def Quoted (a : Text) : Prop := a.head? = some 39 ∨ a.head? = some 92

/-- Two names of literals which mean the same. -/
def SameLit (a b : Text) : Prop :=
  (Quoted a ∨ Quoted b → a = b) ∧ (¬ (Quoted a ∨ Quoted b) → a.map lower = b.map lower)

/-! ## Arrays -/

/-- One dimension: left bound, direction (true for `to`) and length. -/
structure Dim where
  left : Int
  asc : Bool
  length : Nat

/-- The element at a position. -/
def Dim.at (d : Dim) (i : Nat) : Int := if d.asc then d.left + i else d.left - i

/-- The number of vectors of an array of arrays: all dimensions but the last. -/
def vectors : List Dim → Nat
  | [] => 1
  | [_] => 1
  | d :: ds => d.length * vectors ds

/-- The vector with the positions `ps` is the one at this offset in the
storage, the last index running fastest. -/
inductive AtOffset : List Dim → List Nat → Nat → Prop
  | last (d : Dim) : AtOffset [d] [] 0
  | more (d e : Dim) (ds : List Dim) (p : Nat) (ps : List Nat) (k : Nat) :
      p < d.length → AtOffset (e :: ds) ps k →
      AtOffset (d :: e :: ds) (p :: ps) (p * vectors (e :: ds) + k)

/-- The indexes of the positions. -/
def indexes : List Dim → List Nat → List Int
  | d :: ds, p :: ps => d.at p :: indexes ds ps
  | _, _ => []

/-! ## The file -/

/-- An entry of the file. -/
inductive Item (α : Type) where
  | time (t : Nat)
  | change (x : α)

/-- The changes with their times: a change is at the last time before it. -/
def trace {α : Type} : Option Nat → List (Item α) → List (Option Nat × α)
  | _, [] => []
  | _, .time t :: r => trace (some t) r
  | t, .change x :: r => (t, x) :: trace t r

def times {α : Type} : List (Item α) → List Nat
  | [] => []
  | .time t :: r => t :: times r
  | .change _ :: r => times r

/-! ## Files with names -/

def isSpace (c : Nat) : Bool := c == 32 || (decide (9 ≤ c) && decide (c ≤ 13))

/-- The first word of a text. -/
def firstWord (t : Text) : Text := (t.dropWhile isSpace).takeWhile fun c => !isSpace c

/-- The text before a comment. -/
def noComment (t : Text) : Text := t.takeWhile fun c => c != 35

/-- The name that a line gives. -/
def lineGlob (t : Text) : Option Text :=
  if firstWord (noComment t) = [] then none else some (firstWord (noComment t))

end Verif.Wave.Spec
