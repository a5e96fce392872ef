/-
Specification for random numbers, property C98: the generator MT19937 of
Matsumoto and Nishimura as a recurrence on words of 32 bits.
-/

namespace Verif.Random.Spec

abbrev Word := BitVec 32

/-- The product of a row vector and the matrix A of the recurrence. -/
def timesA (v : Word) : Word :=
  if v.getLsbD 0 then (v >>> 1) ^^^ 0x9908B0DF#32 else v >>> 1

/-- The highest bit of one word and the other bits of the next. -/
def joined (u l : Word) : Word := BitVec.append (u.extractLsb' 31 1) (l.extractLsb' 0 31)

/-- The words of the generator with a seed: the first 624 are made from the
seed, the others by the recurrence. -/
structure Words (seed : Word) (x : Nat → Word) : Prop where
  first : x 0 = seed
  init : ∀ i : Nat, i + 1 < 624 →
    x (i + 1) = 1812433253#32 * (x i ^^^ (x i >>> 30)) + BitVec.ofNat 32 (i + 1)
  recur : ∀ k : Nat, x (k + 624) = x (k + 397) ^^^ timesA (joined (x k) (x (k + 1)))

/-- The tempering of a word before it is given out. -/
def temper (x : Word) : Word :=
  let y1 := x ^^^ (x >>> 11)
  let y2 := y1 ^^^ ((y1 <<< 7) &&& 0x9D2C5680#32)
  let y3 := y2 ^^^ ((y2 <<< 15) &&& 0xEFC60000#32)
  y3 ^^^ (y3 >>> 18)

end Verif.Random.Spec
