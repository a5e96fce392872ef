/-!
# Variable-length integers in file buffers

Model of `fbuf_put_uint`, `fbuf_get_uint`, `fbuf_put_int`, `fbuf_get_int`
(`/repo/src/fbuf.c`).  A byte is a natural number (below 256); the buffer is the
list of bytes still to be read or already written.
-/

namespace Verif.Fbuf

/-- `fbuf_put_uint`, fbuf.c 593-603: the bytes appended to the write buffer.
`val` is the 64-bit unsigned argument, given as a natural number (callers of the
theorems assume it is below `2^64`).  The `do … while` loop is a recursion.  The
call of `fbuf_maybe_flush` is modelled separately (`Verif.Fbuf.FileModel`). -/
def putUint (val : Nat) : List Nat :=
  let enc := val &&& 0x7f
  if _h : val >>> 7 = 0 then [enc]
  else (enc ||| 0x80) :: putUint (val >>> 7)
termination_by val
decreasing_by
  rw [Nat.shiftRight_eq_div_pow] at *
  omega

/-- Outcome of a read: a value with the remaining bytes, the end of the buffer
reached (the `ASSERT_AVAIL` macro aborts), or undefined behaviour in C (shift of
a 64-bit word by 64 or more). -/
inductive Rd (α : Type) where
  | ok (v : α) (rest : List Nat)
  | eof
  | ub
  deriving DecidableEq, Repr

/-- The `do … while` loop of `fbuf_get_uint`, fbuf.c 670-676.  `shift` is the C
variable of the same name; the accumulated 64-bit word is truncated as in C. -/
def getUintLoop (val shift : Nat) : List Nat → Rd Nat
  | [] => .eof
  | byte :: rest =>
    if shift ≥ 64 then .ub
    else
      let val' := val ||| (((byte &&& 0x7f) <<< shift) % 2 ^ 64)
      if byte &&& 0x80 ≠ 0 then getUintLoop val' (shift + 7) rest
      else .ok val' rest

/-- `fbuf_get_uint`, fbuf.c 660-679. -/
def getUint : List Nat → Rd Nat
  | [] => .eof
  | b0 :: rest =>
    if b0 &&& 0x80 = 0 then .ok b0 rest
    else getUintLoop (b0 &&& 0x7f) 7 rest

/-- `fbuf_put_int`, fbuf.c 605-609: `((uint64_t)val << 1) ^ (val >> 63)`, then
`fbuf_put_uint`. -/
def zigzag (val : BitVec 64) : BitVec 64 := (val <<< 1) ^^^ (val.sshiftRight 63)

/-- `fbuf_put_int`, fbuf.c 605-609. -/
def putInt (val : BitVec 64) : List Nat := putUint (zigzag val).toNat

/-- `fbuf_get_int`, fbuf.c 681-685: `(zz >> 1) ^ -(zz & 1)`. -/
def unzigzag (zz : BitVec 64) : BitVec 64 := (zz >>> 1) ^^^ (-(zz &&& 1))

/-- `fbuf_get_int`, fbuf.c 681-685. -/
def getInt (bs : List Nat) : Rd (BitVec 64) :=
  match getUint bs with
  | .ok zz rest => .ok (unzigzag (BitVec.ofNat 64 zz)) rest
  | .eof => .eof
  | .ub => .ub

end Verif.Fbuf
