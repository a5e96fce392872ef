/-!
# Accelerated vector arithmetic

Model of `/repo/src/jit/jit-intrin.c`.  A vector is the list of its elements, leftmost
first; an element is the position of the `std_ulogic` value (U 0, X 1, '0' 2, '1' 3, Z 4,
W 5, L 6, H 7, - 8; jit-intrin.c 60-70).

Simplifications: buffers are fresh (the C code lets the result share memory with an
operand in places where each position is read before it is written); sizes fit in `int`;
the array bounds stored beside the pointer are represented by the length of the list; a null
pointer with length zero is the empty list; warnings are a flag.
-/

namespace Verif.Numeric

abbrev Vec := List Nat

/-- A little-endian load of bytes. -/
def load : List Nat → Nat
  | [] => 0
  | b :: bs => b + 256 * load bs

/-- The `n` bytes of a little-endian store. -/
def store : Nat → Nat → List Nat
  | 0, _ => []
  | n + 1, v => v % 256 :: store n (v / 256)

/-- `__builtin_bswap64`. -/
def bswap64 (v : Nat) : Nat := load (store 8 v).reverse

/-! ## Elements -/

/-- `IS_01` for 64 bits, jit-intrin.c 72-76. -/
def is01w (x : Nat) : Bool := x &&& 0x0e0e0e0e0e0e0e0e = 0x0202020202020202

/-- `IS_01` for 8 bits, jit-intrin.c 76. -/
def is01b (x : Nat) : Bool := x &&& 0xe = 2

/-- `__all_01`, jit-intrin.c 344-361: eight elements at a time, then single ones. -/
def all01 (v : Vec) : Bool :=
  if 8 ≤ v.length then is01w (load (v.take 8)) && all01 (v.drop 8)
  else v.all is01b
termination_by v.length
decreasing_by simp; omega

/-- The loop of `ieee_to_01_slow`, jit-intrin.c 370-378: the flag is `bad`.  Positions of bad
elements are left as they are (they are overwritten afterwards). -/
def to01Loop : Vec → Vec × Bool
  | [] => ([], false)
  | b :: v =>
    let r := to01Loop v
    if b = 3 ∨ b = 7 then (3 :: r.1, r.2)
    else if b = 2 ∨ b = 6 then (2 :: r.1, r.2)
    else (b :: r.1, true)

/-- `ieee_to_01_slow`, jit-intrin.c 363-384. -/
def to01Slow (v : Vec) (xmap : Nat) : Vec :=
  let r := to01Loop v
  if r.2 then List.replicate v.length xmap else r.1

/-- `__to_01`, jit-intrin.c 386-396. -/
def to01 (v : Vec) (xmap : Nat) : Vec :=
  if all01 v then v else to01Slow v xmap

/-- `ieee_to_01`, jit-intrin.c 398-418. -/
def ieeeTo01 (v : Vec) (xmap : Nat) : Vec :=
  if v.length = 0 then [] else to01 v xmap

/-- `__resize_unsigned`, jit-intrin.c 420-437, and `ieee_resize_unsigned`, 464-474. -/
def resizeU (v : Vec) (newsize : Nat) : Vec :=
  if newsize < 1 then []
  else if v.length ≥ newsize then v.drop (v.length - newsize)
  else List.replicate (newsize - v.length) 2 ++ v

/-- `__resize_signed`, jit-intrin.c 439-462, and `ieee_resize_signed`, 476-486. -/
def resizeS (v : Vec) (newsize : Nat) : Vec :=
  if newsize < 1 then []
  else if v.length = newsize then v
  else if v.length = 0 then List.replicate newsize 2
  else
    let bound := min v.length newsize - 1
    List.replicate (newsize - bound) (v.headD 0) ++ v.drop (v.length - bound)

/-- `__invert_bits`, jit-intrin.c 294-302. -/
def invertBits (v : Vec) : Vec := v.map (· ^^^ 1)

/-! ## Eight bits at a time -/

/-- `__pack_low_bits`, jit-intrin.c 488-495: of the eight bytes at the pointer. -/
def packLowBits (v : Vec) : Nat :=
  (((load (v.take 8) &&& 0x0101010101010101) * 0x8040201008040201) % 2 ^ 64) >>> 56

/-- `__spread_bits`, jit-intrin.c 497-510: the eight bytes written.  The argument is converted to
`uint8_t` by the caller. -/
def spreadBits (packed : Nat) : Vec :=
  let p := packed % 256
  let mask1 := (p * 0x0000040010004001 % 2 ^ 64) &&& 0x0001000100010001
  let mask2 := (p * 0x0002000800200080 % 2 ^ 64) &&& 0x0100010001000100
  store 8 (bswap64 (mask1 ||| mask2 ||| 0x0202020202020202))

/-- First loop of `__ieee_packed_add`, jit-intrin.c 516-524.  `p` is `pos + 8`, the number of
positions not yet written; `acc` is what has been written, from position `p` on. -/
def addBytes (l r : Vec) (p carry : Nat) (acc : Vec) : Nat × Nat × Vec :=
  if 8 < p then
    let sum := packLowBits (l.drop (p - 8)) + packLowBits (r.drop (p - 8)) + carry
    addBytes l r (p - 8) (if sum &&& 0x100 ≠ 0 then 1 else 0) (spreadBits sum ++ acc)
  else (p, carry, acc)
termination_by p

/-- Second loop of `__ieee_packed_add`, jit-intrin.c 526-532. -/
def addBits (l r : Vec) : Nat → Nat → Vec → Vec
  | 0, _, acc => acc
  | p + 1, carry, acc =>
    let sum := (l.getD p 0 &&& 1) + (r.getD p 0 &&& 1) + carry
    addBits l r p (if sum &&& 2 ≠ 0 then 1 else 0) (((sum &&& 1) ||| 2) :: acc)

/-- `__ieee_packed_add`, jit-intrin.c 512-533. -/
def packedAdd (l r : Vec) (size carry : Nat) : Vec :=
  let s := addBytes l r size carry []
  addBits l r s.1 s.2.1 s.2.2

/-- The loop shared by `__to_unsigned` (jit-intrin.c 543-544) and `ieee_to_signed` (1253-1254): `n`
bytes, most significant last.  Result: what is left of `arg`, the last byte, the vector.
`arg & 0xff` is the remainder modulo 256 and `>>= 8` the arithmetic shift. -/
def spreadLoop : Nat → Int → Nat → Vec → Int × Nat × Vec
  | 0, arg, last, acc => (arg, last, acc)
  | n + 1, arg, _, acc =>
    let last := (arg % 256).toNat
    spreadLoop n (arg >>> 8) last (spreadBits last ++ acc)

/-- `roundup`, jit-intrin.c 539. -/
def roundup (size : Nat) : Nat := (size + 7) / 8 * 8

/-- `spill_mask`, jit-intrin.c 546: an 8-bit value. -/
def spillMask (size : Nat) : Nat := 255 - (2 ^ (8 + size - roundup size) - 1) % 256

/-- `__to_unsigned`, jit-intrin.c 535-551: vector and truncation warning. -/
def toUnsigned (arg : Int) (size : Nat) : Vec × Bool :=
  let s := spreadLoop (roundup size / 8) arg 0 []
  (s.2.2.drop (roundup size - size), s.1 ≠ 0 || (s.2.1 &&& spillMask size) ≠ 0)

/-- `ieee_to_unsigned`, jit-intrin.c 1221-1237. -/
def ieeeToUnsigned (arg : Int) (size : Nat) : Vec × Bool :=
  if size < 1 then ([], false) else toUnsigned arg size

/-- `ieee_to_signed`, jit-intrin.c 1239-1268. -/
def ieeeToSigned (arg : Int) (size : Nat) : Vec × Bool :=
  if size < 1 then ([], false)
  else
    let s := spreadLoop (roundup size / 8) arg 0 []
    let top := s.2.2.getD (roundup size - size) 0
    let m := spillMask size
    (s.2.2.drop (roundup size - size),
      (s.1 ≠ 0 && s.1 ≠ -1) || (s.1 = 0 && top = 3) || (s.1 = -1 && top = 2) ||
      (s.1 = 0 && (s.2.1 &&& m) ≠ 0) || (s.1 = -1 && (s.2.1 &&& m) ≠ m))

/-! ## Operators of NUMERIC_STD -/

/-- Common part of the four functions below: test for metavalues.  `left[0]` is read. -/
def guardX (l r : Vec) (k : Vec) : Vec :=
  if l.headD 0 = 1 then l else if r.headD 0 = 1 then r else k

/-- `ieee_plus_unsigned`, jit-intrin.c 553-588. -/
def plusU (left right : Vec) : Vec :=
  let size := max left.length right.length
  if left.length = 0 ∨ right.length = 0 then []
  else
    let l := to01 (resizeU left size) 1
    let r := to01 (resizeU right size) 1
    guardX l r (packedAdd l r size 0)

/-- `ieee_plus_signed`, jit-intrin.c 638-673. -/
def plusS (left right : Vec) : Vec :=
  let size := max left.length right.length
  if left.length = 0 ∨ right.length = 0 then []
  else
    let l := to01 (resizeS left size) 1
    let r := to01 (resizeS right size) 1
    guardX l r (packedAdd l r size 0)

/-- `ieee_minus_unsigned`, jit-intrin.c 675-711. -/
def minusU (left right : Vec) : Vec :=
  let size := max left.length right.length
  if left.length = 0 ∨ right.length = 0 then []
  else
    let l := to01 (resizeU left size) 1
    let r := to01 (resizeU right size) 1
    guardX l r (packedAdd l (invertBits r) size 1)

/-- `ieee_minus_signed`, jit-intrin.c 713-749. -/
def minusS (left right : Vec) : Vec :=
  let size := max left.length right.length
  if left.length = 0 ∨ right.length = 0 then []
  else
    let l := to01 (resizeS left size) 1
    let r := to01 (resizeS right size) 1
    guardX l r (packedAdd l (invertBits r) size 1)

/-- `ieee_plus_unsigned_natural`, jit-intrin.c 590-619, and with exchanged arguments
`ieee_plus_natural_unsigned`, 631-636: vector and truncation warning. -/
def plusUN (left : Vec) (right : Int) : Vec × Bool :=
  let size := left.length
  let t := toUnsigned right size
  if size = 0 then ([], t.2)
  else
    let l := to01 left 1
    if l.headD 0 = 1 ∨ right = 0 then (l, t.2)
    else (packedAdd l t.1 size 0, t.2)

/-- The loop of `ieee_mul_unsigned` (jit-intrin.c 779-788) and `ieee_mul_signed` (827-839).  The
first number is `i + 1`. -/
def mulLoop (signed : Bool) (left : Vec) (size : Nat) : Nat → Nat → Vec → Vec → Vec
  | 0, _, _, result => result
  | i + 1, shift, adval, result =>
    if left.getD i 0 = 3 then
      let adval := (adval.drop shift).take (size - shift) ++ List.replicate shift 2
      if signed ∧ i = 0 then
        let adval := invertBits adval
        mulLoop signed left size i 1 adval (packedAdd result adval size 1)
      else
        mulLoop signed left size i 1 adval (packedAdd result adval size 0)
    else mulLoop signed left size i (shift + 1) adval result

/-- `ieee_mul_unsigned`, jit-intrin.c 751-797. -/
def mulU (left right : Vec) : Vec :=
  let size := left.length + right.length
  if left.length = 0 ∨ right.length = 0 then []
  else
    let l := to01 left 1
    let r := to01 right 1
    if l.headD 0 = 1 ∨ r.headD 0 = 1 then List.replicate size 1
    else mulLoop false l size left.length 0 (resizeU r size) (List.replicate size 2)

/-- `ieee_mul_signed`, jit-intrin.c 799-848. -/
def mulS (left right : Vec) : Vec :=
  let size := left.length + right.length
  if left.length = 0 ∨ right.length = 0 then []
  else
    let l := to01 left 1
    let r := to01 right 1
    if l.headD 0 = 1 ∨ r.headD 0 = 1 then List.replicate size 1
    else mulLoop true l size left.length 0 (resizeS r size) (List.replicate size 2)

/-- The scan of `ieee_unsigned_cmp`, jit-intrin.c 883-887: the two elements compared. -/
def firstDiff : Vec → Vec → Nat × Nat
  | [a], [b] => (a, b)
  | a :: l, b :: r => if a = b then firstDiff l r else (a, b)
  | _, _ => (0, 0)

/-- `ieee_unsigned_cmp`, jit-intrin.c 850-891: `none` when it returns `false` (after a warning). -/
def cmpU (left right : Vec) : Option (Nat × Nat) :=
  if left.length < 1 ∨ right.length < 1 then none
  else
    let l := to01 left 1
    let r := to01 right 1
    if l.headD 0 = 1 ∨ r.headD 0 = 1 then none
    else
      let size := max left.length right.length
      some (firstDiff (resizeU l size) (resizeU r size))

/-- `ieee_less_unsigned`, `ieee_greater_unsigned`, `ieee_geq_unsigned`, `ieee_leq_unsigned`,
jit-intrin.c 893-931. -/
def lessU (l r : Vec) : Bool := match cmpU l r with | none => false | some (a, b) => a < b
def greaterU (l r : Vec) : Bool := match cmpU l r with | none => false | some (a, b) => a > b
def geqU (l r : Vec) : Bool := match cmpU l r with | none => false | some (a, b) => a ≥ b
def leqU (l r : Vec) : Bool := match cmpU l r with | none => false | some (a, b) => a ≤ b

/-! ## Operators of STD_LOGIC_ARITH, STD_LOGIC_SIGNED, STD_LOGIC_UNSIGNED -/

/-- `__is_x`, jit-intrin.c 1270-1274. -/
def isX (b : Nat) : Bool := b = 0 || b = 1 || b = 4 || b = 5 || b = 8

/-- `tbl_BINARY`, jit-intrin.c 1281. -/
def tblBinary : List Nat := [1, 1, 2, 3, 1, 1, 2, 3, 1]

/-- `__make_binary`, jit-intrin.c 1276-1293. -/
def makeBinary (v : Vec) : Vec :=
  if v.any isX then List.replicate v.length 1 else v.map (tblBinary.getD · 0)

/-- `__conv_unsigned`, jit-intrin.c 1306-1330, for `1 ≤ oldsize ≤ size`. -/
def convU (v : Vec) (size : Nat) : Vec :=
  if v.length = size ∧ all01 v then v
  else
    let b := makeBinary v
    if b.headD 0 = 1 then List.replicate size 1
    else List.replicate (size - v.length) 2 ++ b

/-- `__conv_signed`, jit-intrin.c 1332-1356, for `1 ≤ oldsize ≤ size`: the padding is the first
element as given, not as converted. -/
def convS (v : Vec) (size : Nat) : Vec :=
  if v.length = size ∧ all01 v then v
  else
    let b := makeBinary v
    if b.headD 0 = 1 then List.replicate size 1
    else List.replicate (size - v.length) (v.headD 0) ++ b

/-- `synopsys_plus_unsigned`, jit-intrin.c 1358-1383 (no operand null). -/
def synPlusU (left right : Vec) : Vec :=
  let n := max left.length right.length
  let l := convU left n
  let r := convU right n
  if l.headD 0 = 1 ∨ r.headD 0 = 1 then List.replicate n 1 else packedAdd l r n 0

/-- `synopsys_plus_signed`, jit-intrin.c 1385-1410. -/
def synPlusS (left right : Vec) : Vec :=
  let n := max left.length right.length
  let l := convS left n
  let r := convS right n
  if l.headD 0 = 1 ∨ r.headD 0 = 1 then List.replicate n 1 else packedAdd l r n 0

/-- `synopsys_minus_unsigned`, jit-intrin.c 1437-1464. -/
def synMinusU (left right : Vec) : Vec :=
  let n := max left.length right.length
  let l := convU left n
  let r := convU right n
  if l.headD 0 = 1 ∨ r.headD 0 = 1 then List.replicate n 1
  else packedAdd l (invertBits r) n 1

/-- `synopsys_mul_unsigned`, jit-intrin.c 1466-1510. -/
def synMulU (left right : Vec) : Vec :=
  let l := convU left left.length
  let r := convU right right.length
  let n := left.length + right.length
  if l.headD 0 = 1 ∨ r.headD 0 = 1 then List.replicate n 1
  else mulLoop false l n left.length 0 (List.replicate (n - right.length) 2 ++ r)
    (List.replicate n 2)

/-- `synopsys_mul_signed`, jit-intrin.c 1512-1559. -/
def synMulS (left right : Vec) : Vec :=
  let l := convS left left.length
  let r := convS right right.length
  let n := left.length + right.length
  if l.headD 0 = 1 ∨ r.headD 0 = 1 then List.replicate n 1
  else mulLoop true l n left.length 0 (List.replicate (n - right.length) (r.headD 0) ++ r)
    (List.replicate n 2)

/-- `synopsys_eql_unsigned`, jit-intrin.c 1561-1582. -/
def synEqlU (left right : Vec) : Bool :=
  let n := max left.length right.length
  convU left n = convU right n

/-- `synopsys_eql_signed`, jit-intrin.c 1584-1605. -/
def synEqlS (left right : Vec) : Bool :=
  let n := max left.length right.length
  convS left n = convS right n

end Verif.Numeric
