/-!
# Small arithmetic helpers

Model of functions of `/repo/src/util.c` and macros of `/repo/src/util.h`.
-/

namespace Verif.Util

/-- `next_power_of_2`, util.c 1199-1209, on 32-bit `int` with arithmetic shifts. -/
def nextPowerOf2 (n : BitVec 32) : BitVec 32 :=
  let n := n - 1#32
  let n := n ||| n.sshiftRight 1
  let n := n ||| n.sshiftRight 2
  let n := n ||| n.sshiftRight 4
  let n := n ||| n.sshiftRight 8
  let n := n ||| n.sshiftRight 16
  n + 1#32

/-- The range of `int64_t`. -/
def inI64 (x : Int) : Bool := decide (-2 ^ 63 ≤ x ∧ x < 2 ^ 63)

/-- Two's complement wrap to `int64_t`. -/
def wrapI64 (x : Int) : Int := (x + 2 ^ 63) % 2 ^ 64 - 2 ^ 63

/-- The loop of `ilog2`, util.c 1216-1221; `c <<= 1` is undefined when the result is not
representable (`none`).  The fuel of 64 is never exhausted because `c` doubles. -/
def ilog2Loop (n : Int) : Nat → Int → Nat → Option Nat
  | 0, _, _ => none
  | f + 1, c, r =>
    if c < n then
      if inI64 (c * 2) then ilog2Loop n f (c * 2) (r + 1) else none
    else some r

/-- `ilog2`, util.c 1211-1224, for an `int64_t` argument. -/
def ilog2 (n : Int) : Option Nat := if n ≤ 1 then some 0 else ilog2Loop n 64 1 0

/-- `__builtin_mul_overflow` on `int64_t`: wrapped product and overflow flag. -/
def mulOverflow (a b : Int) : Int × Bool := (wrapI64 (a * b), !inI64 (a * b))

/-- The loop of `ipow_safe`, util.c 1231-1236; state `x`, `r`, `overflow`, `xo`.  Note the
C short-circuit: when `xo` is set the product is not computed. -/
def ipowLoop (x : Int) (y : Nat) (r : Int) (overflow xo : Bool) : Int × Bool :=
  if _h : y = 0 then (r, overflow)
  else
    let (r, overflow) :=
      if y % 2 = 1 then
        if xo then (r, true)
        else ((mulOverflow r x).1, overflow || (mulOverflow r x).2)
      else (r, overflow)
    ipowLoop (mulOverflow x x).1 (y / 2) r overflow (xo || (mulOverflow x x).2)
termination_by y

/-- `ipow_safe`, util.c 1226-1239: result and "no overflow"; `none` when the assertion
`y >= 0` fails. -/
def ipowSafe (x y : Int) : Option (Int × Bool) :=
  if y < 0 then none
  else
    let (r, o) := ipowLoop x y.toNat 1 false false
    some (r, !o)

/-- `saturate_add`, util.h 473-478, for an unsigned type with maximum `2^w - 1`. -/
def saturateAddU (w : Nat) (a b : Nat) : Nat :=
  if a + b ≥ 2 ^ w then 2 ^ w - 1 else a + b

/-- `saturate_add`, util.h 473-478, for a signed type of `w` bits. -/
def saturateAddS (w : Nat) (a b : Int) : Int :=
  if a + b < -2 ^ (w - 1) ∨ a + b ≥ 2 ^ (w - 1) then 2 ^ (w - 1) - 1 else a + b

end Verif.Util
