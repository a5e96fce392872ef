/-
Mark bits of an arena of objects: `zero_mark_bits` and `object_marked_p`,
/repo/src/object.c:135-190, with the generation numbers of
`object_next_generation`, /repo/src/object.c:1025-1028.

An object is known by its number `bit`, its distance from the start of the arena
in units of OBJECT_ALIGN.  A word of `mark_bits` is a function from the position
to a bit.
-/

namespace Verif.Obj

/-- The fields of `object_arena_t` for the marks.  `words` is what is in memory,
    with anything in words that have not been cleared. -/
structure Arena where
  allocated : Bool
  words : Nat → Nat → Bool
  low : Nat
  high : Nat
  generation : Nat

/-- `zero_mark_bits`, /repo/src/object.c:135-146. -/
def zeroBits (words : Nat → Nat → Bool) (first count : Nat) : Nat → Nat → Bool :=
  fun w b => if first ≤ w ∧ w < first + count then false else words w b

/-- `object_marked_p`, /repo/src/object.c:148-190.  `garbage` is what `xmalloc`
    returns. -/
def markedP (garbage : Nat → Nat → Bool) (a : Arena) (bit generation : Nat) : Bool × Arena :=
  let word := bit / 64
  let a :=
    if a.allocated = false then
      { allocated := true, words := zeroBits garbage word 1, low := word, high := word, generation := generation }
    else if a.generation ≠ generation then
      { a with words := zeroBits a.words word 1, low := word, high := word, generation := generation }
    else a
  let a :=
    if word < a.low then { a with words := zeroBits a.words word (a.low - word), low := word }
    else if word > a.high then
      { a with words := zeroBits a.words (a.high + 1) (word - a.high), high := word }
    else a
  (a.words word (bit % 64),
   { a with words := fun w b => if w = word ∧ b = bit % 64 then true else a.words w b })

/-- `mark_sz` in bytes, /repo/src/object.c:156-157. -/
def markSize (nbits : Nat) : Nat := (nbits + 63) / 64 * 64 / 8

/-- `object_arena_new`, /repo/src/object.c:1190-1210: `xcalloc`. -/
def Arena.new : Arena := ⟨false, fun _ _ => false, 0, 0, 0⟩

/-- A sequence of calls; the results in the same order. -/
def calls (garbage : Nat → Nat → Bool) : Arena → List (Nat × Nat) → List Bool × Arena
  | a, [] => ([], a)
  | a, (bit, g) :: rest =>
    let r := markedP garbage a bit g
    let s := calls garbage r.2 rest
    (r.1 :: s.1, s.2)

/-- The generation of the `n`th traversal, /repo/src/object.c:1025-1028: a
    16-bit counter that starts with 1. -/
def generationOf (n : Nat) : Nat := (n + 1) % 65536

end Verif.Obj
