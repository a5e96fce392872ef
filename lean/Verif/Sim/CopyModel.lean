import Verif.Sim.NexusModel

/-!
# Copying and comparing values

Model of `/repo/src/rt/copy.c`: `_copy2` (31-56), `cmp_bytes_sse41` (67-91), `_cmp_bytes` (97-105); of
`/repo/src/rt/copy.h`: `copy2` (26-34), `cmp_bytes` (40-46); of `/repo/src/rt/model.c`:
`copy_value_ptr` (1138-1150) and `cmp_values` (1152-1159).

Memory is a function from addresses to bytes; reading past the end of an object, which
`cmp_bytes_sse41` and `copy_value_ptr` do on purpose, is not a fault here.  Sizes are below 2^31, as
`pos` is an `int`.
-/

namespace Verif.Sim.Copy

open Verif.Sim.Nexus (Value valueSize)

/-- Memory -/
abbrev Mem := Nat → UInt8

/-- `n` bytes from address `p` -/
def read (m : Mem) (p n : Nat) : List UInt8 := (List.range n).map (fun i => m (p + i))

/-- Store bytes at address `p`. -/
def write (m : Mem) (p : Nat) (l : List UInt8) : Mem :=
  fun a => if p ≤ a ∧ a < p + l.length then l.getD (a - p) 0 else m a

/-- Body of the vector loop, copy.c 35-38: both loads come before the stores. -/
def stepVector (m : Mem) (p1 p2 src : Nat) : Mem :=
  let v2 := read m p2 16
  let vsrc := read m src 16
  write (write m p1 v2) p2 vsrc

/-- Body of the other loops, copy.c 43-44, 48-49, 53-54, for `c` bytes. -/
def stepCopy (c : Nat) (m : Mem) (p1 p2 src : Nat) : Mem :=
  let m := write m p1 (read m p2 c)
  write m p2 (read m src c)

/-- `for (; len > c - 1; len -= c, p1 += c, p2 += c, src += c)`: the memory and how many bytes are
done. -/
def loop (c : Nat) (step : Mem → Nat → Nat → Nat → Mem) (m : Mem) (p1 p2 src pos len : Nat) :
    Mem × Nat :=
  if h : 0 < c ∧ pos + c ≤ len then
    loop c step (step m (p1 + pos) (p2 + pos) (src + pos)) p1 p2 src (pos + c) len
  else (m, pos)
termination_by len - pos
decreasing_by omega

/-- `_copy2`, copy.c 31-56; `x86` says whether the vector loop is compiled in. -/
def copy2' (x86 : Bool) (m : Mem) (p1 p2 src len : Nat) : Mem :=
  let (m, pos) := if x86 then loop 16 stepVector m p1 p2 src 0 len else (m, 0)
  let (m, pos) := loop 8 (stepCopy 8) m p1 p2 src pos len
  let (m, pos) := loop 4 (stepCopy 4) m p1 p2 src pos len
  (loop 1 (stepCopy 1) m p1 p2 src pos len).1

/-- `copy2`, copy.h 26-34. -/
def copy2 (x86 : Bool) (m : Mem) (p1 p2 src len : Nat) : Mem :=
  if len = 1 then stepCopy 1 m p1 p2 src else copy2' x86 m p1 p2 src len

/-- The first loop of `cmp_bytes_sse41`, copy.c 72-78: `none` for a difference, else where it
ended. -/
def cmpLoop (m : Mem) (a b pos size : Nat) : Option Nat :=
  if _h : pos + 15 < size then
    if read m (a + pos) 16 = read m (b + pos) 16 then cmpLoop m a b (pos + 16) size else none
  else some pos
termination_by size - pos

/-- copy.c 80-88: the mask has all bits set in the lanes below `size - pos`. -/
def cmpTail (m : Mem) (a b pos size : Nat) : Bool :=
  (List.range 16).all (fun i =>
    let mask : UInt8 := if i < size - pos then 0xff else 0
    (m (a + pos + i) ^^^ m (b + pos + i)) &&& mask == 0)

/-- `cmp_bytes_sse41`, copy.c 67-91. -/
def cmpSse (m : Mem) (a b size : Nat) : Bool :=
  match cmpLoop m a b 0 size with
  | none => false
  | some pos => if pos < size then cmpTail m a b pos size else true

/-- `_cmp_bytes`, copy.c 97-105. -/
def cmpBytes' (sse : Bool) (m : Mem) (a b size : Nat) : Bool :=
  if sse then cmpSse m a b size else read m a size == read m b size

/-- `cmp_bytes`, copy.h 40-46. -/
def cmpBytes (sse : Bool) (m : Mem) (a b size : Nat) : Bool :=
  if size = 1 then m a == m b else cmpBytes' sse m a b size

/-- `copy_value_ptr`, rt/model.c 1138-1150, of a value of `n` bytes: small ones take eight bytes from
memory whatever their size; others are copied to the memory of the value. -/
def copyValue (n : Nat) (m : Mem) (p : Nat) : Value :=
  if n ≤ valueSize then .inl (read m p valueSize) else .ext (read m p n)

/-- `cmp_values`, rt/model.c 1152-1159; `none` if a value is not stored as its size requires. -/
def cmpValues (n : Nat) (a b : Value) : Option Bool :=
  if n ≤ valueSize then
    match a, b with
    | .inl x, .inl y => some (decide (x.take valueSize = y.take valueSize))
    | _, _ => none
  else
    match a, b with
    | .ext x, .ext y => if n ≤ x.length ∧ n ≤ y.length then some (decide (x.take n = y.take n)) else none
    | _, _ => none

end Verif.Sim.Copy
