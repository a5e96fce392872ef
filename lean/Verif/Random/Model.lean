import Verif.Random.Spec

/-
Model of the random numbers, src/rt/random.c.

Simplifications: the array is a function; the lock makes every call whole
(C41); `unsigned long` is cut to 32 bits at every assignment, which makes no
difference for these operations.
-/

namespace Verif.Random

open Spec

abbrev Mem := Nat → Word

def set (mt : Mem) (k : Nat) (v : Word) : Mem := fun i => if i = k then v else mt i

/-- The state: `mt` and `mti`, src/rt/random.c:31-32. -/
structure State where
  mt : Mem
  mti : Nat

/-- The state at the start: `mti` is 625. -/
def start : State := ⟨fun _ => 0, 625⟩

/-- The loop of `mt19937_init`, src/rt/random.c:38-39, up to `mti = n`. -/
def initLoop (n : Nat) (mt : Mem) : Mem :=
  (List.range n).foldl (fun mt i =>
    set mt (i + 1) (1812433253#32 * (mt i ^^^ (mt i >>> 30)) + BitVec.ofNat 32 (i + 1))) mt

/-- `mt19937_init`, src/rt/random.c:35-42. -/
def init (mt : Mem) (seed : Word) : State := ⟨initLoop 623 (set mt 0 seed), 624⟩

/-- `mag01[y & 0x1UL]`, src/rt/random.c:46. -/
def mag01 (y : Word) : Word := if y &&& 1#32 = 0#32 then 0#32 else 0x9908B0DF#32

/-- The word `y` of the loops, src/rt/random.c:53. -/
def mix (u l : Word) : Word := (u &&& 0x80000000#32) ||| (l &&& 0x7FFFFFFF#32)

/-- The new word in the loops, src/rt/random.c:54. -/
def word (m u l : Word) : Word := m ^^^ (mix u l >>> 1) ^^^ mag01 (mix u l)

/-- The first loop of the twist, src/rt/random.c:52-55, up to `kk = n`. -/
def loop1 (n : Nat) (mt : Mem) : Mem :=
  (List.range n).foldl (fun mt kk => set mt kk (word (mt (kk + 397)) (mt kk) (mt (kk + 1)))) mt

/-- The second loop, src/rt/random.c:56-59, from `kk = 227`, with `n` steps. -/
def loop2 (n : Nat) (mt : Mem) : Mem :=
  (List.range n).foldl (fun mt i =>
    set mt (227 + i) (word (mt (227 + i - 227)) (mt (227 + i)) (mt (227 + i + 1)))) mt

/-- The twist, src/rt/random.c:50-65: MT_N - MT_M is 227. -/
def twist (mt : Mem) : Mem :=
  let mt := loop2 396 (loop1 227 mt)
  set mt 623 (word (mt 396) (mt 623) (mt 0))

/-- The tempering, src/rt/random.c:73-77. -/
def temperWord (y : Word) : Word :=
  let y := y ^^^ (y >>> 11)
  let y := y ^^^ ((y <<< 7) &&& 0x9D2C5680#32)
  let y := y ^^^ ((y <<< 15) &&& 0xEFC60000#32)
  y ^^^ (y >>> 18)

/-- `mt19937_next`, src/rt/random.c:44-80; `none` if the assertion fails. -/
def next (s : State) : Option (Word × State) :=
  if s.mti = 624 then
    let mt := twist s.mt
    some (temperWord (mt 0), ⟨mt, 1⟩)
  else if s.mti < 624 then some (temperWord (s.mt s.mti), ⟨s.mt, s.mti + 1⟩)
  else none

/-- `get_random`, src/rt/random.c:82-90. -/
def getRandom (seed : Word) (s : State) : Option (Word × State) :=
  if s.mti > 624 then next (init s.mt seed) else next s

/-- The results of so many calls. -/
def calls (seed : Word) : Nat → State → Option (List Word)
  | 0, _ => some []
  | n + 1, s =>
    match getRandom seed s with
    | none => none
    | some (y, s2) => (calls seed n s2).map fun l => y :: l

end Verif.Random
