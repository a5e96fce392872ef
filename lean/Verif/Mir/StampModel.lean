/-
Model of the ranges ("stamps") that the mid-level intermediate representation of nvc attaches to
integer values: `src/mir/mir-type.c`.

Simplification: only integer stamps are modelled.  Stamps of reals and of pointers, and the table
in which equal stamps are shared (`mir_build_stamp`, lines 885-905), are left out: a stamp is here
its two bounds, and `none` stands for `MIR_NULL_STAMP`, "nothing is known".
-/

namespace Verif.Mir

/-- `INT64_MIN`. -/
def i64min : Int := -9223372036854775808

/-- `INT64_MAX`. -/
def i64max : Int := 9223372036854775807

/-- Whether a mathematical integer is a value of `int64_t`. -/
abbrev Fits (x : Int) : Prop := i64min ≤ x ∧ x ≤ i64max

instance (x : Int) : Decidable (Fits x) := inferInstanceAs (Decidable (_ ∧ _))

/-- An integer stamp: `u.intg` of `stamp_data_t` (`src/mir/mir-structs.h`). -/
structure Stamp where
  low : Int
  high : Int
deriving DecidableEq, Repr

/-- `sadd64` (mir-type.c 33-40): saturating addition. -/
def sadd64 (a b : Int) : Int :=
  if Fits (a + b) then a + b else if b < 0 then i64min else i64max

/-- `ssub64` (mir-type.c 42-49): saturating subtraction. -/
def ssub64 (a b : Int) : Int :=
  if Fits (a - b) then a - b else if b > 0 then i64min else i64max

/-- `smul64` (mir-type.c 51-58): saturating multiplication. -/
def smul64 (a b : Int) : Int :=
  if Fits (a * b) then a * b
  else if (a > 0 ∧ b > 0) ∨ (a < 0 ∧ b < 0) then i64max else i64min

/-- `mir_int_stamp` (mir-type.c 913-923), without its assertion that `low <= high`, about which
there are separate theorems. -/
def intStamp (low high : Int) : Option Stamp := some ⟨low, high⟩

/-- `mir_stamp_add` (mir-type.c 977-1007), integers. -/
def stampAdd : Option Stamp → Option Stamp → Option Stamp
  | some l, some r => intStamp (sadd64 l.low r.low) (sadd64 l.high r.high)
  | _, _ => none

/-- `mir_stamp_sub` (mir-type.c 1009-1039), integers. -/
def stampSub : Option Stamp → Option Stamp → Option Stamp
  | some l, some r => intStamp (ssub64 l.low r.high) (ssub64 l.high r.low)
  | _, _ => none

/-- `mir_stamp_mul` (mir-type.c 1041-1081), integers. -/
def stampMul : Option Stamp → Option Stamp → Option Stamp
  | some l, some r =>
    let ll := smul64 l.low r.low
    let lh := smul64 l.low r.high
    let hl := smul64 l.high r.low
    let hh := smul64 l.high r.high
    intStamp (min (min ll lh) (min hl hh)) (max (max ll lh) (max hl hh))
  | _, _ => none

/-- `mir_stamp_div` (mir-type.c 1083-1089): never known. -/
def stampDiv (_ _ : Option Stamp) : Option Stamp := none

/-- `mir_stamp_rem` (mir-type.c 1091-1111), integers. -/
def stampRem : Option Stamp → Option Stamp → Option Stamp
  | some l, some r => if l.low ≥ 0 ∧ r.high > 0 then intStamp 0 (r.high - 1) else none
  | _, _ => none

/-- `mir_cmp_t` (`src/mir/mir-node.h`). -/
inductive Cmp where
  | eq | neq | lt | leq | gt | geq
deriving DecidableEq, Repr

/-- The tests that `mir_stamp_cmp` makes for `MIR_CMP_EQ` and `MIR_CMP_NEQ`, giving `trueval`
(mir-type.c 1136-1141). -/
def cmpDisjoint (l r : Stamp) (trueval : Int) : Option Stamp :=
  if max l.low r.low ≤ min l.high r.high then none else intStamp trueval trueval

/-- The tests for `MIR_CMP_GEQ` and `MIR_CMP_LT` (mir-type.c 1143-1152); `!trueval` is
`1 - trueval`. -/
def cmpBelow (l r : Stamp) (trueval : Int) : Option Stamp :=
  if l.high < r.low then intStamp trueval trueval
  else if l.low ≥ r.high then intStamp (1 - trueval) (1 - trueval)
  else none

/-- The tests for `MIR_CMP_LEQ` and `MIR_CMP_GT` (mir-type.c 1154-1163). -/
def cmpAbove (l r : Stamp) (trueval : Int) : Option Stamp :=
  if l.low > r.high then intStamp trueval trueval
  else if l.high ≤ r.low then intStamp (1 - trueval) (1 - trueval)
  else none

/-- `mir_stamp_cmp` (mir-type.c 1113-1176), integers. -/
def stampCmp (c : Cmp) : Option Stamp → Option Stamp → Option Stamp
  | some l, some r =>
    match c with
    | .eq => cmpDisjoint l r 0
    | .neq => cmpDisjoint l r 1
    | .geq => cmpBelow l r 0
    | .lt => cmpBelow l r 1
    | .leq => cmpAbove l r 0
    | .gt => cmpAbove l r 1
  | _, _ => none

/-- `mir_stamp_union` (mir-type.c 1178-1210), integers. -/
def stampUnion : Option Stamp → Option Stamp → Option Stamp
  | none, r => r
  | some l, none => some l
  | some l, some r => intStamp (min l.low r.low) (max l.high r.high)

/-- `mir_stamp_cast` (mir-type.c 1212-1232) to an integer type with bounds `low` and `high`. -/
def stampCast (low high : Int) : Option Stamp → Option Stamp
  | none => none
  | some s => intStamp (max low s.low) (min high s.high)

/-- `mir_stamp_const` (mir-type.c 1234-1246). -/
def stampConst : Option Stamp → Option Int
  | none => none
  | some s => if s.low = s.high then some s.low else none

end Verif.Mir
