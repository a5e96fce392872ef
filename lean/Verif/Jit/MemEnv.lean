import Verif.Jit.ArithProps

/-!
# An environment with flat memory

The parts of `/repo/src/jit/jit-interp.c` that touch memory and the arguments: lines 224-242, 429-506 and
739-790, for a little-endian machine whose first page is not mapped.  It is used to test theorems about
environments, and in counterexamples.  Addresses that are mapped, aligned or not, may all be accessed; there
are no calls and no allocation; an exit does not return, and its number is recorded.
-/

namespace Verif.Code

/-- `jit_interp_t` and memory. -/
structure Mem where
  args : Word → Word
  bytes : Word → BitVec 8
  exited : Option Word

/-- Number of bytes. -/
def Size.bytes : Size → Option Nat
  | .s8 => some 1
  | .s16 => some 2
  | .s32 => some 4
  | .s64 => some 8
  | .unspec => none

/-- Byte number `k` of a value. -/
def byteOf (v : Word) (k : Nat) : BitVec 8 := BitVec.ofNat 8 (v.toNat / 2 ^ (8 * k))

/-- Write `n` bytes at `p`. -/
def fill (m : Mem) (n : Nat) (p : Word) (f : Nat → BitVec 8) : Option Mem :=
  if n = 0 then some m
  else if p.toNat < 4096 ∨ 2 ^ 64 < p.toNat + n then none
  else some { m with bytes := fun q => if p.toNat ≤ q.toNat ∧ q.toNat < p.toNat + n then f (q.toNat - p.toNat) else m.bytes q }

/-- Read `n` bytes at `p`. -/
def fetch (m : Mem) (n : Nat) (p : Word) : Option Nat :=
  if p.toNat < 4096 ∨ 2 ^ 64 < p.toNat + n then none
  else some ((List.range n).foldl (fun x k => x + (m.bytes (p + BitVec.ofNat 64 k)).toNat * 2 ^ (8 * k)) 0)

/-- `interp_store`, jit-interp.c 429-454. -/
def memStore (m : Mem) (size : Size) (v p : Word) : Option Mem :=
  size.bytes.bind fun n => fill m n p (byteOf v)

/-- `interp_load` and `interp_uload`, jit-interp.c 456-506. -/
def memLoad (m : Mem) (size : Size) (signed : Bool) (p : Word) : Option Word :=
  size.bytes.bind fun n => (fetch m n p).map fun x => BitVec.ofInt 64 (wrap signed (8 * n) x)

/-- `memmove`, jit-interp.c 752-762. -/
def memMove (m : Mem) (n d s : Word) : Option Mem :=
  if n ≠ 0 ∧ (s.toNat < 4096 ∨ 2 ^ 64 < s.toNat + n.toNat) then none
  else fill m n.toNat d fun k => m.bytes (s + BitVec.ofNat 64 k)

/-- `memcpy`, jit-interp.c 739-750. -/
def memCopy (m : Mem) (n d s : Word) : Option Mem :=
  if d.toNat + n.toNat ≤ s.toNat ∨ s.toNat + n.toNat ≤ d.toNat then memMove m n d s else none

/-- `interp_memset`, jit-interp.c 772-790. -/
def memMemset (m : Mem) (size : Size) (n p v : Word) : Option Mem :=
  size.bytes.bind fun b => if n.toNat % b ≠ 0 then none else fill m n.toNat p fun k => byteOf v (k % b)

/-- `JIT_MAX_ARGS`, jit-priv.h 360. -/
def memEnv : Env Mem where
  cpool := 0x10000
  cover := id
  recv := fun w a => if a.toNat < 64 then some (w.args a) else none
  send := fun w a v => if a.toNat < 64 then some { w with args := fun q => if q = a then v else w.args q } else none
  load := memLoad
  store := memStore
  copy := memCopy
  move := memMove
  bzero := fun w n p => fill w n.toNat p fun _ => 0
  memset := memMemset
  sadd := fun _ _ _ _ => none
  galloc := fun _ _ => none
  lalloc := fun _ _ => none
  salloc := fun _ _ => none
  call := fun _ _ => none
  exit := fun w e => some (false, { w with exited := some e })
  getpriv := fun _ _ => none
  putpriv := fun _ _ _ => none
  trim := fun _ => none
  reexec := fun _ => none
  farith := fun _ _ _ => none
  fcompare := fun _ _ _ => false

/-- What a test looks at: how the function ended, and something of the world. -/
def outcome {W α} (obs : W → α) : Option (Res W) → Option (Bool × α)
  | some (.halt r s) => some (r, obs s.world)
  | _ => none

end Verif.Code
