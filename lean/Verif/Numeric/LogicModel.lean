import Verif.Numeric.Model

/-!
# Logical operators on vectors, with their SSE4.1 and NEON versions

Model of `/repo/src/jit/jit-intrin.c`, lines 78-186, 304-342, 933-1219, 1607-1696.  The vector
versions read 16 bytes at a time, also past the end of the operands, so an operand is a
function from offsets to bytes, with anything after the last element.
The lanes of the instructions are modelled as documented by the vendors: `_mm_shuffle_epi8`
gives 0 for an index with bit 7 and otherwise uses the low four bits; `vqtbl1q_u8` gives
0 for an index above 15.
-/

namespace Verif.Numeric

/-- Memory at a pointer. -/
abbrev Mem := Nat → Nat

/-- `cvt_to_x01`, jit-intrin.c 78-80. -/
def cvtToX01 : List Nat :=
  [1, 1, 2, 3, 1, 1, 2, 3, 1, 255, 255, 255, 255, 255, 255, 255]

/-- `xor_table`, jit-intrin.c 82-95; missing entries are zero. -/
def xorTable : List (List Nat) :=
  [[0, 0, 0, 0, 0, 0, 0, 0, 0],
   [0, 1, 1, 1, 1, 1, 1, 1, 1],
   [0, 1, 2, 3, 1, 1, 2, 3, 1],
   [0, 1, 3, 2, 1, 1, 3, 2, 1],
   [0, 1, 1, 1, 1, 1, 1, 1, 1],
   [0, 1, 1, 1, 1, 1, 1, 1, 1],
   [0, 1, 2, 3, 1, 1, 2, 3, 1],
   [0, 1, 3, 2, 1, 1, 3, 2, 1],
   [0, 1, 1, 1, 1, 1, 1, 1, 1]]

/-- `and_table`, jit-intrin.c 97-110. -/
def andTable : List (List Nat) :=
  [[0, 0, 2, 0, 0, 0, 2, 0, 0],
   [0, 1, 2, 1, 1, 1, 2, 1, 1],
   [2, 2, 2, 2, 2, 2, 2, 2, 2],
   [0, 1, 2, 3, 1, 1, 2, 3, 1],
   [0, 1, 2, 1, 1, 1, 2, 1, 1],
   [0, 1, 2, 1, 1, 1, 2, 1, 1],
   [2, 2, 2, 2, 2, 2, 2, 2, 2],
   [0, 1, 2, 3, 1, 1, 2, 3, 1],
   [0, 1, 2, 1, 1, 1, 2, 1, 1]]

/-- `or_table`, jit-intrin.c 112-125. -/
def orTable : List (List Nat) :=
  [[0, 0, 0, 3, 0, 0, 0, 3, 0],
   [0, 1, 1, 3, 1, 1, 1, 3, 1],
   [0, 1, 2, 3, 1, 1, 2, 3, 1],
   [3, 3, 3, 3, 3, 3, 3, 3, 3],
   [0, 1, 1, 3, 1, 1, 1, 3, 1],
   [0, 1, 1, 3, 1, 1, 1, 3, 1],
   [0, 1, 2, 3, 1, 1, 2, 3, 1],
   [3, 3, 3, 3, 3, 3, 3, 3, 3],
   [0, 1, 1, 3, 1, 1, 1, 3, 1]]

/-- `compress_left`, jit-intrin.c 135-140. -/
def compressLeft : List Nat :=
  [0, 1, 2, 3, 1, 1, 2, 3, 1, 255, 255, 255, 255, 255, 255, 255]

/-- `compress_right`, jit-intrin.c 143-148. -/
def compressRight : List Nat :=
  [0 <<< 2, 1 <<< 2, 2 <<< 2, 3 <<< 2, 1 <<< 2, 1 <<< 2, 2 <<< 2, 3 <<< 2, 1 <<< 2,
   255, 255, 255, 255, 255, 255, 255]

/-- `small_or_table`, jit-intrin.c 151-159, as 16 bytes. -/
def smallOr : List Nat := [0, 0, 0, 3, 0, 1, 1, 3, 0, 1, 2, 3, 3, 3, 3, 3]

/-- `small_and_table`, jit-intrin.c 162-170. -/
def smallAnd : List Nat := [0, 0, 2, 0, 0, 1, 2, 1, 2, 2, 2, 2, 0, 1, 2, 3]

/-- `small_xor_table`, jit-intrin.c 173-181. -/
def smallXor : List Nat := [0, 0, 0, 0, 0, 1, 1, 1, 0, 1, 2, 3, 0, 1, 3, 2]

/-- A lane of `_mm_shuffle_epi8`. -/
def shuffleSSE (tbl : List Nat) (i : Nat) : Nat := if i ≥ 128 then 0 else tbl.getD (i % 16) 0

/-- A lane of `vqtbl1q_u8`. -/
def tblNeon (tbl : List Nat) (i : Nat) : Nat := if i ≥ 16 then 0 else tbl.getD i 0

/-- The loop over 16 lanes of the vector versions, e.g. jit-intrin.c 953-961: everything written
to the result. -/
def lanes (f : Nat → Nat → Nat) (left right : Mem) (size pos : Nat) : Vec :=
  if pos < size then
    (List.range 16).map (fun i => f (left (pos + i)) (right (pos + i))) ++
      lanes f left right size (pos + 16)
  else []
termination_by size - pos

/-- The body of the loop in the SSE4.1 versions, jit-intrin.c 954-960. -/
def laneSSE (tbl : List Nat) (a b : Nat) : Nat :=
  shuffleSSE tbl (shuffleSSE compressLeft a ||| shuffleSSE compressRight b)

/-- The body of the loop in the NEON versions, jit-intrin.c 990-996. -/
def laneNeon (tbl : List Nat) (a b : Nat) : Nat :=
  tblNeon tbl (tblNeon compressLeft a ||| tblNeon compressRight b)

/-- The loop of the scalar versions, jit-intrin.c 1020-1021, 1116-1117, 1212-1213. -/
def scalarLoop (tbl : List (List Nat)) (left right : Mem) (size : Nat) : Vec :=
  (List.range size).map (fun i => (tbl.getD (left i) []).getD (right i) 0)

/-- The instruction set used. -/
inductive Isa | scalar | sse | neon
  deriving DecidableEq

/-- The three tables used by an operator. -/
structure Tables where
  small : List Nat
  full : List (List Nat)

def opAnd : Tables := ⟨smallAnd, andTable⟩
def opOr : Tables := ⟨smallOr, orTable⟩
def opXor : Tables := ⟨smallXor, xorTable⟩

/-- `ieee_and_vector*` (jit-intrin.c 933-1027), `ieee_or_vector*` (1029-1123),
`ieee_xor_vector*`/`std_xor_vector` (1125-1219): the bytes written, `none` when the
lengths differ (a failure is reported). -/
def logicOp (isa : Isa) (t : Tables) (left : Mem) (lsize : Nat) (right : Mem) (rsize : Nat) :
    Option Vec :=
  if lsize ≠ rsize then none
  else some (match isa with
    | .scalar => scalarLoop t.full left right lsize
    | .sse => lanes (laneSSE t.small) left right lsize 0
    | .neon => lanes (laneNeon t.small) left right lsize 0)

/-- `std_to_x01_sse41` and `std_to_x01`, jit-intrin.c 304-342. -/
def toX01 (sse : Bool) (input : Mem) (size : Nat) : Vec :=
  if sse then lanes (fun a _ => shuffleSSE cvtToX01 a) input input size 0
  else (List.range size).map (fun i => cvtToX01.getD (input i) 0)

/-- Bytes `pos` to `pos + 15`. -/
def chunk (m : Mem) (pos : Nat) : List Nat := (List.range 16).map (fun i => m (pos + i))

/-- Bytewise exclusive or of two registers. -/
def xor16 (left right : Mem) (pos : Nat) : List Nat :=
  List.zipWith (· ^^^ ·) (chunk left pos) (chunk right pos)

/-- The mask of the last step, jit-intrin.c 1634-1635 and 1672-1673: lanes before the end. -/
def maskTail (n : Nat) : List Nat := (List.range 16).map (fun i => if i < n then 255 else 0)

/-- `_mm_test_all_zeros`. -/
def testAllZeros (a b : List Nat) : Bool := (List.zipWith (· &&& ·) a b).all (· == 0)

/-- `byte_vector_equal_sse41`, jit-intrin.c 1607-1644, from position `pos`. -/
def equalSSE (left right : Mem) (size pos : Nat) : Bool :=
  if pos + 15 < size then
    if !testAllZeros (xor16 left right pos) (List.replicate 16 255) then false
    else equalSSE left right size (pos + 16)
  else if pos < size then
    if !testAllZeros (xor16 left right pos) (maskTail (size - pos)) then false else true
  else true
termination_by size - pos

/-- `byte_vector_equal_neon`, jit-intrin.c 1647-1684: the register is tested as two 64-bit
lanes. -/
def equalNeon (left right : Mem) (size pos : Nat) : Bool :=
  if pos + 15 < size then
    let x := xor16 left right pos
    if load (x.take 8) ≠ 0 ∨ load (x.drop 8) ≠ 0 then false
    else equalNeon left right size (pos + 16)
  else if pos < size then
    let x := List.zipWith (· &&& ·) (xor16 left right pos) (maskTail (size - pos))
    if load (x.take 8) ≠ 0 ∨ load (x.drop 8) ≠ 0 then false else true
  else true
termination_by size - pos

/-- `byte_vector_equal*`, jit-intrin.c 1607-1696. -/
def vectorEqual (isa : Isa) (left : Mem) (lsize : Nat) (right : Mem) (rsize : Nat) : Bool :=
  if lsize ≠ rsize then false
  else match isa with
    | .scalar => (List.range lsize).all (fun i => left i == right i)
    | .sse => equalSSE left right lsize 0
    | .neon => equalNeon left right lsize 0

/-! ## Array bounds -/

/-- `ffi_array_length`, jit-ffi.h 66: exclusive or with the sign. -/
def ffiLength (d1 : BitVec 64) : BitVec 64 := d1 ^^^ (d1.sshiftRight 63)

/-- `ffi_array_right`, jit-ffi.h 67. -/
def ffiRight (d0 d1 : BitVec 64) : BitVec 64 :=
  (d0 + d1) + (if d1.slt 0 then 2 else -1)

/-- `ffi_array_dir`, jit-ffi.h 68: true for `downto`. -/
def ffiDir (d1 : BitVec 64) : Bool := d1.slt 0

end Verif.Numeric
