import Verif.Fbuf.VarintModel
/-!
# Numbers of Verilog

Model of `/repo/src/vlog/vlog-number.c`: `number_new`, `number_bit`, `number_width`,
`number_is_defined`, `number_integer`, `number_pack`, `number_write`, `number_read`.

A four-state digit is a number below 4: `LOGIC_X` = 0, `LOGIC_Z` = 1, `LOGIC_0` = 2, `LOGIC_1` = 3
(vlog-number.h 25-30).  Machine words are natural numbers with explicit reduction.  A `none` result
is `abort`, a failed assertion, or an access outside an array.

Simplifications:
* `strtol` and `strtoll` are called on text without blanks and signs: the scanner (lexer.l 115-134)
  lets only digits, letters and underscores through.  The prefix `0b`, which recent C libraries
  accept for base 2, is not modelled; `0x` is.
* `errorf` does not stop `number_new`: the result has a flag.
* Reading digits above the 28 that fit in `small.packed` gives zeros.  (The shift count is then not
  smaller than the width of the bit-field, which some compilers treat as undefined.)
-/
namespace Verif.Vlog

/-- `number_t`, vlog-number.h 58-81; `packed` of a big number has the most significant word first. -/
inductive Num where
  | small (signed : Bool) (width packed : Nat)
  | intg (signed : Bool) (width packed : Nat)
  | big (signed : Bool) (width : Nat) (words : List Nat)
deriving DecidableEq, Repr

/-- `SMALL_PACKED_ZERO`, `BIG_PACKED_ZERO`, vlog-number.c 40-41. -/
def smallZero : Nat := 0xaaaaaaaaaaaaaa
def bigZero : Nat := 0xaaaaaaaaaaaaaaaa

/-- `BIGNUM_WORDS`, vlog-number.c 42. -/
def bignumWords (w : Nat) : Nat := (w + 31) / 32

/-! ## Literals -/

/-- The loop of `number_shift_left` over the words of a big number, vlog-number.c 53-58, from the
last word to the first.  The second component is the carry out of the first word. -/
def shiftBig (count : Nat) : List Nat → Nat → List Nat × Nat
  | [], carry => ([], carry)
  | w :: ws, carry =>
    let r := shiftBig count ws carry
    (((w <<< (count * 2)) % 2 ^ 64 ||| r.2) :: r.1, w >>> (64 - count * 2))

/-- `number_shift_left`, vlog-number.c 47-70.  The carry is not used for small numbers. -/
def shiftLeft (count carry : Nat) : Num → Num
  | .small s width packed =>
    .small s width (if count < width then (packed <<< (count * 2)) % 2 ^ 56 else 0)
  | .big s width words => .big s width (shiftBig count words carry).1
  | n => n

/-- The value of a digit for `strtol`, in a base up to 16. -/
def digitVal (base : Nat) (c : Char) : Option Nat :=
  let v := if '0' ≤ c ∧ c ≤ '9' then c.toNat - 48
    else if 'a' ≤ c ∧ c ≤ 'f' then c.toNat - 87
    else if 'A' ≤ c ∧ c ≤ 'F' then c.toNat - 55
    else 16
  if v < base then some v else none

/-- The digits at the start of a text: their value, added to `acc`, and the rest. -/
def scanDigits (base : Nat) : Nat → List Char → Nat × List Char
  | acc, [] => (acc, [])
  | acc, c :: cs =>
    match digitVal base c with
    | some v => scanDigits base (acc * base + v) cs
    | none => (acc, c :: cs)

/-- In base 16, `0x` or `0X` before a digit is skipped. -/
def skipPrefix (base : Nat) : List Char → List Char
  | '0' :: x :: c :: cs =>
    if base = 16 ∧ (x = 'x' ∨ x = 'X') ∧ (digitVal 16 c).isSome then c :: cs else '0' :: x :: c :: cs
  | cs => cs

/-- `strtoll` (and `strtol`): the value is at most `INT64_MAX`. -/
def strtoll (base : Nat) (cs : List Char) : Nat × List Char :=
  let r := scanDigits base 0 (skipPrefix base cs)
  (min r.1 (2 ^ 63 - 1), r.2)

/-- A `long` converted to `int`. -/
def toInt32 (n : Nat) : Int := (BitVec.ofNat 32 n).toInt

/-- The digits of a binary literal, vlog-number.c 190-197. -/
def binDigit (c : Char) : Option Nat :=
  if c = '0' then some 2 else if c = '1' then some 3 else if c = 'x' then some 0
  else if c = 'z' then some 1 else none

/-- `MAKE_HEX`, vlog-number.c 44-45. -/
def makeHex (a b c d : Nat) : Nat := a <<< 6 ||| b <<< 4 ||| c <<< 2 ||| d

/-- The digits of a hexadecimal literal, vlog-number.c 206-227. -/
def hexDigit (c : Char) : Option Nat :=
  if c = '0' then some (makeHex 2 2 2 2)
  else if c = '1' then some (makeHex 2 2 2 3)
  else if c = '2' then some (makeHex 2 2 3 2)
  else if c = '3' then some (makeHex 2 2 3 3)
  else if c = '4' then some (makeHex 2 3 2 2)
  else if c = '5' then some (makeHex 2 3 2 3)
  else if c = '6' then some (makeHex 2 3 3 2)
  else if c = '7' then some (makeHex 2 3 3 3)
  else if c = '8' then some (makeHex 3 2 2 2)
  else if c = '9' then some (makeHex 3 2 2 3)
  else if c = 'a' then some (makeHex 3 2 3 2)
  else if c = 'b' then some (makeHex 3 2 3 3)
  else if c = 'c' then some (makeHex 3 3 2 2)
  else if c = 'd' then some (makeHex 3 3 2 3)
  else if c = 'e' then some (makeHex 3 3 3 2)
  else if c = 'f' then some (makeHex 3 3 3 3)
  else if c = 'x' then some (makeHex 0 0 0 0)
  else if c = 'z' then some (makeHex 1 1 1 1)
  else none

/-- The loop over the digits, vlog-number.c 186-237.  `X` is shifted in for a bad character. -/
def digitLoop (hex : Bool) : List Char → Num × Bool → Num × Bool
  | [], r => r
  | c :: cs, r =>
    match (if hex then hexDigit c else binDigit c) with
    | some v => digitLoop hex cs (shiftLeft (if hex then 4 else 1) v r.1, r.2)
    | none => digitLoop hex cs (shiftLeft (if hex then 4 else 1) 0 r.1, true)

/-- vlog-number.c 169-184: the number before the loop. -/
def initial (width : Int) : Num :=
  if width ≤ 31 then .small false (width % 32).toNat smallZero
  else .big false width.toNat (List.replicate (bignumWords width.toNat) bigZero)

/-- `number_new` after the width and the base, vlog-number.c 104-240. -/
def newDigits (width : Int) (base : Nat) (p : List Char) : Option (Num × Bool) :=
  let xz := p.any fun c => c = 'x' || c = 'z'
  if !xz && width ≤ 32 then
    let r := strtoll base p
    let r := match r.2 with
      | '_' :: _ => strtoll base (p.filter (· ≠ '_'))
      | _ => r
    some (.intg false (width % 64).toNat (r.1 % 2 ^ 32), !r.2.isEmpty)
  else if base = 10 then
    let r := strtoll 10 p
    if width ≤ 32 then some (.intg false (width % 64).toNat (r.1 % 2 ^ 32), !r.2.isEmpty)
    else none
  else some (digitLoop (base == 16) p (initial width, false))

/-- vlog-number.c 96-102. -/
def newBase (width : Int) : List Char → Option (Num × Bool)
  | 'b' :: p => newDigits width 2 p
  | 'h' :: p => newDigits width 16 p
  | 'd' :: p => newDigits width 10 p
  | p => newDigits width 10 p

/-- `number_new`, vlog-number.c 81-241. -/
def numberNew (str : List Char) : Option (Num × Bool) :=
  match str.dropWhile (· ≠ '\'') with
  | [] => newBase 32 str
  | _ :: p =>
    if str.head? = some '\'' then newBase 32 p
    else
      let r := strtoll 10 str
      if r.2.head? = some '\'' then newBase (toInt32 r.1) p else none

/-! ## Queries -/

/-- `number_width`, vlog-number.c 339-352. -/
def numberWidth : Num → Nat
  | .small _ w _ => w
  | .intg _ w _ => w
  | .big _ w _ => w

/-- `number_bit`, vlog-number.c 354-371. -/
def numberBit (v : Num) (n : Nat) : Option Nat :=
  match v with
  | .small _ w p => if n < w then some ((p >>> (n * 2)) &&& 3) else none
  | .intg _ w p => if n < w then some (((p >>> n) &&& 1) ||| 2) else none
  | .big _ w ws =>
    if n < w then (ws[(w - n - 1) / 32]?).map fun x => (x >>> (n % 32 * 2)) &&& 3 else none

/-- `number_is_defined`, vlog-number.c 291-308. -/
def isDefined : Num → Bool
  | .small _ _ p => p &&& smallZero == smallZero
  | .intg _ _ _ => true
  | .big _ w ws => (ws.take (bignumWords w)).all fun x => x &&& bigZero == bigZero

/-- The loop of `number_integer`, vlog-number.c 322-326, for the lower `n` digits. -/
def integerLoop (v : Num) : Nat → Nat → Option Nat
  | 0, acc => some acc
  | n + 1, acc =>
    match numberBit v n with
    | none => none
    | some b => integerLoop v n ((acc <<< 1) % 2 ^ 64 ||| (b &&& 1))

/-- `number_integer`, vlog-number.c 310-337: the bits of an `int64_t`. -/
def numberInteger (v : Num) : Option Nat :=
  if numberWidth v ≤ 64 ∧ isDefined v = true then
    match v with
    | .intg _ _ p => some p
    | v => integerLoop v (numberWidth v) 0
  else none

/-! ## Values of signals -/

/-- The loop over the digits of one word, vlog-number.c 383-386, 399-402, 422-425: `b` bits for each
digit in a word of `w` bits. -/
def packLoop (w b : Nat) (f : Nat → Nat) (bits : List Nat) (init : Nat) : Nat :=
  bits.foldl (fun p x => (p <<< b) % 2 ^ w ||| f x) init

/-- The words of a big number, vlog-number.c 419-426; `n` words. -/
def packWords : Nat → List Nat → List Nat
  | 0, _ => []
  | n + 1, bits => packLoop 64 2 (· &&& 3) (bits.take 32) bigZero :: packWords n (bits.drop 32)

/-- `number_pack`, vlog-number.c 373-430; `bits` has the most significant digit first. -/
def numberPack (bits : List Nat) : Num :=
  let width := bits.length
  let xz := bits.any fun x => x &&& 3 == 0 || x &&& 3 == 1
  if !xz && width ≤ 32 then .intg false width (packLoop 64 1 (fun x => x &&& 3 &&& 1) bits 0 % 2 ^ 32)
  else if width ≤ 31 then .small false width (packLoop 64 2 (· &&& 3) bits smallZero % 2 ^ 56)
  else .big false width (packWords (bignumWords width) bits)

/-! ## Files -/

/-- `number_t.bits` of a small number or an integer, vlog-number.h 58-81: the fields in the order of
the declaration, from the least significant bit. -/
def encode : Num → Nat
  | .small s w p => 1 + 4 * s.toNat + 8 * w + 256 * p
  | .intg s w p => 2 + 4 * s.toNat + 8 * w + 512 * p
  | .big _ _ _ => 0

/-- The fields again. -/
def decode (bits : Nat) : Num :=
  if bits % 4 = 1 then .small (bits / 4 % 2 = 1) (bits / 8 % 32) (bits / 256 % 2 ^ 56)
  else .intg (bits / 4 % 2 = 1) (bits / 8 % 64) (bits / 512 % 2 ^ 32)

/-- The bytes of a word in memory, least significant first. -/
def wordBytes (w : Nat) : List Nat := (List.range 8).map fun i => w / 256 ^ i % 256

/-- `number_write`, vlog-number.c 447-458: `-width` of an `unsigned` is below `2^32`. -/
def numberWrite : Num → List Nat
  | .big s w ws =>
    Fbuf.putUint 0 ++ Fbuf.putInt (BitVec.ofNat 64 (if s then (2 ^ 32 - w) % 2 ^ 32 else w)) ++
      (ws.take (bignumWords w)).flatMap wordBytes
  | v => Fbuf.putUint (encode v)

/-- The words of a list of bytes. -/
def readWords : Nat → List Nat → Option (List Nat × List Nat)
  | 0, bs => some ([], bs)
  | n + 1, b₀ :: b₁ :: b₂ :: b₃ :: b₄ :: b₅ :: b₆ :: b₇ :: bs =>
    (readWords n bs).map fun r =>
      (((((((((b₇ * 256 + b₆) * 256 + b₅) * 256 + b₄) * 256 + b₃) * 256 + b₂) * 256 + b₁) * 256 + b₀)
        :: r.1), r.2)
  | _, _ => none

/-- `number_read`, vlog-number.c 460-477. -/
def numberRead (bs : List Nat) : Option (Num × List Nat) :=
  match Fbuf.getUint bs with
  | .ok bits rest =>
    if bits % 4 = 0 then
      match Fbuf.getInt rest with
      | .ok enc rest =>
        let width := enc.toInt.natAbs % 2 ^ 32
        (readWords (bignumWords width) rest).map fun r => (.big (enc.toInt < 0) width r.1, r.2)
      | _ => none
    else if bits % 4 = 3 then none
    else some (decode bits, rest)
  | _ => none

end Verif.Vlog
