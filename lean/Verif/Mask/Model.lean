/-!
# Bit masks

Model of `/repo/src/mask.c` and the macros of `/repo/src/mask.h`.  `none` stands for an
access outside the word array, a shift by 64 or more, or a failed assertion.
-/

namespace Verif.Mask

/-- A 64-bit word. -/
abbrev W := BitVec 64

/-- `bit_mask_t`, mask.h 27-33.  The union is split: `bits` is meaningful when
`size ≤ 64`, `ptr` when `size > 64`. -/
structure Mask where
  size : Nat
  bits : W
  ptr : List W
  deriving DecidableEq

/-- `mask_init`, mask.c 25-32. -/
def init (size : Nat) : Mask :=
  if size > 64 then { size := size, bits := 0, ptr := List.replicate ((size + 63) / 64) 0 }
  else { size := size, bits := 0, ptr := [] }

/-- Load of `m->ptr[i]`. -/
def load (ptr : List W) (i : Nat) : Option W := ptr[i]?

/-- Store to `m->ptr[i]`. -/
def store (ptr : List W) (i : Nat) (w : W) : Option (List W) :=
  if i < ptr.length then some (ptr.set i w) else none

/-- `mask_for_range`, mask.c 43-60 (arguments of type `int`). -/
def maskForRange (low high : Int) : Option W :=
  if high < low then some 0
  else if low < 0 ∨ low ≥ 64 ∨ high < 0 ∨ high ≥ 64 then none
  else
    let mask : W := BitVec.allOnes 64
    let mask := if high < 63 then mask &&& ((1#64 <<< (high.toNat + 1)) - 1#64) else mask
    let mask := if low > 0 then mask &&& ~~~((1#64 <<< low.toNat) - 1#64) else mask
    some mask

/-- Bit test on a word: `!!(w & (UINT64_C(1) << k))`, mask.h 35-41. -/
def testBitW (w : W) (k : Nat) : Bool := (w &&& (1#64 <<< k)) ≠ 0#64

/-- `mask_test`, mask.h 35-41. -/
def test (m : Mask) (bit : Nat) : Option Bool :=
  if bit < m.size then
    if m.size > 64 then (load m.ptr (bit / 64)).map fun w => testBitW w (bit % 64)
    else some (testBitW m.bits (bit % 64))
  else none

/-- `mask_set`, mask.h 43-50. -/
def set (m : Mask) (bit : Nat) : Option Mask :=
  if bit < m.size then
    if m.size > 64 then do
      let w ← load m.ptr (bit / 64)
      let p ← store m.ptr (bit / 64) (w ||| (1#64 <<< (bit % 64)))
      some { m with ptr := p }
    else some { m with bits := m.bits ||| (1#64 <<< (bit % 64)) }
  else none

/-- `mask_clear`, mask.h 52-59. -/
def clear (m : Mask) (bit : Nat) : Option Mask :=
  if bit < m.size then
    if m.size > 64 then do
      let w ← load m.ptr (bit / 64)
      let p ← store m.ptr (bit / 64) (w &&& ~~~(1#64 <<< (bit % 64)))
      some { m with ptr := p }
    else some { m with bits := m.bits &&& ~~~(1#64 <<< (bit % 64)) }
  else none

/-- The main loop of `mask_clear_range` (mask.c 79-83) and `mask_set_range`
(mask.c 111-115): complete words are overwritten by `full`.  Returns words, start and
count. -/
def rangeWords (full : W) (ptr : List W) (start count : Nat) : Option (List W × Nat × Nat) :=
  if _h : count ≥ 64 then
    match store ptr (start / 64) full with
    | none => none
    | some p => rangeWords full p (start + 64) (count - 64)
  else some (ptr, start, count)
termination_by count

/-- The out-of-line branch shared by `mask_clear_range` (mask.c 69-91) and
`mask_set_range` (mask.c 101-123).  `upd w mask` is the partial-word update, `full` the
value stored into complete words. -/
def rangeUpd (upd : W → W → W) (full : W) (ptr : List W) (start count : Nat) :
    Option (List W) := do
  -- Pre-loop
  let (ptr, start, count) ←
    (if count > 0 ∧ start % 64 ≠ 0 then do
      let low := start % 64
      let high := min (low + count - 1) 63
      let nbits := high - low + 1
      let w ← load ptr (start / 64)
      let mk ← maskForRange low high
      let p ← store ptr (start / 64) (upd w mk)
      some (p, start + nbits, count - nbits)
    else some (ptr, start, count))
  -- Main loop
  let (ptr, start, count) ← rangeWords full ptr start count
  -- Post-loop
  if count > 0 then do
    let high := min (count - 1) 63
    let w ← load ptr (start / 64)
    let mk ← maskForRange 0 high
    store ptr (start / 64) (upd w mk)
  else some ptr

/-- `mask_clear_range`, mask.c 62-92. -/
def clearRange (m : Mask) (start count : Nat) : Option Mask :=
  if m.size ≤ 64 then
    (maskForRange start ((start : Int) + count - 1)).map fun k =>
      { m with bits := m.bits &&& ~~~k }
  else (rangeUpd (fun w k => w &&& ~~~k) 0#64 m.ptr start count).map fun p => { m with ptr := p }

/-- `mask_set_range`, mask.c 94-124. -/
def setRange (m : Mask) (start count : Nat) : Option Mask :=
  if m.size ≤ 64 then
    (maskForRange start ((start : Int) + count - 1)).map fun k =>
      { m with bits := m.bits ||| k }
  else (rangeUpd (fun w k => w ||| k) (BitVec.allOnes 64) m.ptr start count).map fun p =>
    { m with ptr := p }

/-- The main loop of `mask_test_range`, mask.c 144-150; `none` inside means "return
true". -/
def testWords (ptr : List W) (start count : Nat) : Option (Option (Nat × Nat)) :=
  if _h : count ≥ 64 then
    match load ptr (start / 64) with
    | none => none
    | some w => if w ≠ 0#64 then some none else testWords ptr (start + 64) (count - 64)
  else some (some (start, count))
termination_by count

/-- The part of `mask_test_range` after the pre-loop, mask.c 144-163. -/
def testTail (ptr : List W) (start count : Nat) : Option Bool :=
  match testWords ptr start count with
  | none => none
  | some none => some true
  | some (some (start, count)) =>
    if count > 0 then do
      let high := min (count - 1) 63
      let w ← load ptr (start / 64)
      let mk ← maskForRange 0 high
      some (w &&& mk ≠ 0#64)
    else some false

/-- `mask_test_range`, mask.c 126-164. -/
def testRange (m : Mask) (start count : Nat) : Option Bool :=
  if m.size ≤ 64 then
    (maskForRange start ((start : Int) + count - 1)).map fun k => m.bits &&& k ≠ 0#64
  else if count > 0 ∧ start % 64 ≠ 0 then do
    let low := start % 64
    let high := min (low + count - 1) 63
    let nbits := high - low + 1
    let w ← load m.ptr (start / 64)
    let mk ← maskForRange low high
    if w &&& mk ≠ 0#64 then some true
    else testTail m.ptr (start + nbits) (count - nbits)
  else testTail m.ptr start count

/-- `__builtin_popcountll`. -/
def popcountW (w : W) : Nat := (List.range 64).countP fun i => w.getLsbD i

/-- `mask_popcount`, mask.c 166-176. -/
def popcount (m : Mask) : Nat :=
  if m.size > 64 then (m.ptr.map popcountW).sum else popcountW m.bits

/-- `mask_setall`, mask.c 178-181. -/
def setAll (m : Mask) : Option Mask := setRange m 0 m.size

/-- `mask_clearall`, mask.c 183-186. -/
def clearAll (m : Mask) : Option Mask := clearRange m 0 m.size

/-- `mask_test_and_set`, mask.c 188-195. -/
def testAndSet (m : Mask) (bit : Nat) : Option (Bool × Mask) := do
  let b ← test m bit
  if b then some (true, m)
  else do
    let m' ← set m bit
    some (false, m')

/-- `63 - __builtin_clzll(w)`: the position of the highest set bit (undefined for 0). -/
def highBit (w : W) : Option Nat := (List.range 64).reverse.find? fun i => w.getLsbD i

/-- `__builtin_ffsll(w)`: one plus the position of the lowest set bit, or 0. -/
def ffs (w : W) : Nat :=
  match (List.range 64).find? fun i => w.getLsbD i with
  | some i => i + 1
  | none => 0

/-- The word loop of `mask_scan_backwards`, mask.c 210-217, for the index
`i = 64 * k - 1` (so `i > 0` is `k > 0` and `i / 64 = k - 1`); result -1 or
`(i | 63) - clz`. -/
def scanWords (ptr : List W) : Nat → Option Int
  | 0 => some (-1)
  | k + 1 => do
    let w ← load ptr k
    if w = 0#64 then scanWords ptr k
    else (highBit w).map fun (h : Nat) => ((64 * k + h : Nat) : Int)

/-- `mask_scan_backwards`, mask.c 197-218. -/
def scanBackwards (m : Mask) (bit : Nat) : Option Int :=
  if m.size ≤ 64 then do
    let mk ← maskForRange 0 bit
    let word0 := m.bits &&& mk
    if word0 = 0#64 then some (-1) else (highBit word0).map fun (h : Nat) => (h : Int)
  else do
    let w ← load m.ptr (bit / 64)
    let mk ← maskForRange 0 (bit % 64 : Nat)
    let word0 := w &&& mk
    if word0 ≠ 0#64 then
      -- (bit | 63) - clz = 64 * (bit / 64) + highest bit
      (highBit word0).map fun (h : Nat) => ((64 * (bit / 64) + h : Nat) : Int)
    else scanWords m.ptr (bit / 64)

/-- The word loop of `mask_count_clear`, mask.c 249: skips zero words that are not the
last one. -/
def countWords (size : Nat) (ptr : List W) (bit count : Nat) : Option (Nat × Nat) :=
  if _h : bit + 64 < size then
    match load ptr (bit / 64) with
    | none => none
    | some w => if w = 0#64 then countWords size ptr (bit + 64) (count + 64) else some (bit, count)
  else some (bit, count)
termination_by size - bit

/-- The part of `mask_count_clear` after the first word, mask.c 244-255. -/
def countTail (m : Mask) (bit count : Nat) : Option Nat :=
  if bit = m.size then some count
  else do
    let (bit, count) ← countWords m.size m.ptr bit count
    let w ← load m.ptr (bit / 64)
    let fs := ffs w
    if fs > 0 then some (count + fs - 1) else some (count + m.size - bit)

/-- `mask_count_clear`, mask.c 220-256. -/
def countClear (m : Mask) (bit : Nat) : Option Nat :=
  if ¬ bit < m.size then none
  else if m.size ≤ 64 then do
    let mk ← maskForRange bit 63
    let fs := ffs (m.bits &&& mk)
    some (if fs > 0 then fs - 1 - bit else m.size - bit)
  else
    let modbits := bit % 64
    let maxbits := min 64 (m.size - (bit - bit % 64))
    if modbits > 0 then do
      let w ← load m.ptr (bit / 64)
      let mk ← maskForRange modbits ((maxbits : Int) - 1)
      let fs := ffs (w &&& mk)
      if fs > 0 then some (fs - 1 - modbits)
      else countTail m (bit + maxbits - modbits) (maxbits - modbits)
    else countTail m bit 0

/-- Word-wise combination, used by `mask_subtract` (mask.c 258-268), `mask_union`
(270-280), `mask_intersect` (282-292) and `mask_copy` (294-304); `none` when the size
assertion fails or the arrays have different lengths. -/
def combine (f : W → W → W) (m m2 : Mask) : Option Mask :=
  if m.size ≠ m2.size then none
  else if m.size > 64 then
    if m.ptr.length ≠ m2.ptr.length then none
    else some { m with ptr := List.zipWith f m.ptr m2.ptr }
  else some { m with bits := f m.bits m2.bits }

/-- `mask_subtract`, mask.c 258-268. -/
def subtract (m m2 : Mask) : Option Mask := combine (fun a b => a &&& ~~~b) m m2
/-- `mask_union`, mask.c 270-280. -/
def union (m m2 : Mask) : Option Mask := combine (fun a b => a ||| b) m m2
/-- `mask_intersect`, mask.c 282-292. -/
def intersect (m m2 : Mask) : Option Mask := combine (fun a b => a &&& b) m m2
/-- `mask_copy`, mask.c 294-304. -/
def copy (m m2 : Mask) : Option Mask := combine (fun _ b => b) m m2

/-- `mask_eq`, mask.c 306-320. -/
def eq (m m2 : Mask) : Option Bool :=
  if m.size ≠ m2.size then none
  else if m.size > 64 then some (m.ptr == m2.ptr)
  else some (m.bits == m2.bits)

/-- The word loop of `mask_iter`, mask.c 340-348: `n` words remain from `word` on. -/
def iterWords (ptr : List W) : Nat → Nat → Option (Option Nat)
  | _, 0 => some none
  | word, n + 1 => do
    let w ← load ptr word
    let fs := ffs w
    if fs > 0 then some (some (word * 64 + fs - 1)) else iterWords ptr (word + 1) n

/-- `mask_iter`, mask.c 322-356.  The argument is `*bit + 1` (the C caller starts with
`*bit = -1`); the result is the new `*bit` if the function returns true. -/
def iter (m : Mask) (next : Nat) : Option (Option Nat) :=
  if next ≥ m.size then some none
  else if m.size > 64 then
    let word := next / 64
    if next % 64 > 0 then do
      let w ← load m.ptr word
      let mk ← maskForRange 0 ((next - 1) % 64 : Nat)
      let fs := ffs (w &&& ~~~mk)
      if fs > 0 then some (some (word * 64 + fs - 1))
      else iterWords m.ptr (word + 1) ((m.size + 63) / 64 - (word + 1))
    else iterWords m.ptr word ((m.size + 63) / 64 - word)
  else do
    let mk ← maskForRange 0 ((next : Int) - 1)
    let fs := ffs (m.bits &&& ~~~mk)
    some (if fs > 0 then some (fs - 1) else none)

end Verif.Mask
