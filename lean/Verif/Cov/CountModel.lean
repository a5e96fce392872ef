import Verif.Cov.CountSpec
import Verif.Cov.Model

/-!
# Counters of signals and expressions

Model of `/repo/src/rt/cover.c` lines 34-305, of `cover_add_toggle_items`, `cover_add_state_items_for` and the
functions that add items of expressions, `/repo/src/cov/cov-data.c` lines 236-373, 451-488 and 494-586, and of
`lower_logical` and `lower_short_circuit`, `/repo/src/lower.c` lines 1771-1847 and 1979-2080.

The memory for counters (jit-core.c 1387-1397) is a function from tags to numbers.  It is large enough for all
tags from the start (nvc.c 734-735).  A signal of `std_ulogic` elements is a list of bytes.
-/

namespace Verif.Cov

abbrev Mem := Nat → Int

/-- `increment_counter`, cover.c 54-57. -/
def inc (m : Mem) (a : Nat) : Mem := fun x => if x = a then satAdd (m a) 1 else m x

/-- Which counter a change increments: `true` is `toggle_01`. -/
abbrev Check := Nat → Nat → Option Bool

/-- `cover_toggle_check_0_1`, cover.c 59-66. -/
def check01 : Check := fun old new =>
  if old = 2 ∧ new = 3 then some true
  else if old = 3 ∧ new = 2 then some false
  else none

/-- `cover_toggle_check_0_1_u`, 68-80. -/
def check01u : Check := fun old new =>
  if old = 2 ∧ new = 3 then some true
  else if old = 3 ∧ new = 2 then some false
  else if (old = 0 ∨ old = 1) ∧ new = 3 then some true
  else if (old = 0 ∨ old = 1) ∧ new = 2 then some false
  else none

/-- `cover_toggle_check_0_1_z`, 82-98. -/
def check01z : Check := fun old new =>
  if old = 2 ∧ new = 3 then some true
  else if old = 3 ∧ new = 2 then some false
  else if old = 2 ∧ new = 4 then some true
  else if old = 4 ∧ new = 3 then some true
  else if old = 3 ∧ new = 4 then some false
  else if old = 4 ∧ new = 2 then some false
  else none

/-- `cover_toggle_check_0_1_u_z`, 100-123. -/
def check01uz : Check := fun old new =>
  if old = 2 ∧ new = 3 then some true
  else if old = 3 ∧ new = 2 then some false
  else if (old = 0 ∨ old = 1) ∧ new = 3 then some true
  else if (old = 0 ∨ old = 1) ∧ new = 2 then some false
  else if old = 2 ∧ new = 4 then some true
  else if old = 4 ∧ new = 3 then some true
  else if old = 3 ∧ new = 4 then some false
  else if old = 4 ∧ new = 2 then some false
  else none

/-- The choice of the function in `x_cover_setup_toggle_cb`, 250-260. -/
def pick (undefined z : Bool) : Check :=
  if undefined ∧ z then check01uz else if undefined then check01u else if z then check01z else check01

def apply (c : Check) (old new : Nat) (t01 t10 : Nat) (m : Mem) : Mem :=
  match c old new with
  | some true => inc m t01
  | some false => inc m t10
  | none => m

/-- The loop over the bytes of a batch, 178-185, from byte `j`, with the number of bytes left. -/
def walk (c : Check) (old new : List Nat) (tag : Nat) : Nat → Nat → Mem → Mem
  | _, 0, m => m
  | j, n + 1, m =>
    walk c old new tag (j + 1) n
      (if new[j]?.getD 0 ≠ old[j]?.getD 0 then
        apply c (old[j]?.getD 0) (new[j]?.getD 0) (tag + 2 * j) (tag + 2 * j + 1) m
      else m)

/-- One batch, 160-187.  Comparing the words is comparing their 8 bytes. -/
def batch (c : Check) (old new : List Nat) (tag size i : Nat) (m : Mem) : Mem :=
  let batches := (size - 1) / 8 + 1
  if i < batches - 1 then
    if (new.drop (8 * i)).take 8 ≠ (old.drop (8 * i)).take 8 then walk c old new tag (8 * i) 8 m else m
  else walk c old new tag (8 * i) ((size - 1) % 8 + 1) m

/-- The loop over the batches, 158-187, from batch `i`, with the number of batches left. -/
def batchesFrom (c : Check) (old new : List Nat) (tag size : Nat) : Nat → Nat → Mem → Mem
  | _, 0, m => m
  | i, n + 1, m => batchesFrom c old new tag size (i + 1) n (batch c old new tag size i m)

/-- The callback, 151-189.  A size of 0 would make `s_size - 1` the largest number of 32 bits; the hypotheses
exclude it. -/
def toggleCb (c : Check) (tag : Nat) (old new : List Nat) (m : Mem) : Mem :=
  batchesFrom c old new tag new.length 0 ((new.length - 1) / 8 + 1) m

/-- The callback is called with each new value of the signal and the one before. -/
def toggleRun (c : Check) (tag : Nat) : List (List Nat) → Mem → Mem
  | old :: new :: l, m => toggleRun c tag (new :: l) (toggleCb c tag old new m)
  | _, m => m

/-- The loop for ports driven by constants, 233-247: element `i`, with the number of elements left. -/
def markFrom (tag : Nat) : Nat → Nat → Mem → Mem
  | _, 0, m => m
  | i, n + 1, m =>
    markFrom tag (i + 1) n fun x => if x = tag + 2 * i ∨ x = tag + 2 * i + 1 then unreachMark else m x

/-! ## Items of signals -/

/-- What the items of a signal differ in: the indices in their path, and the bin.  `true` is
`COV_FLAG_TOGGLE_TO_1`. -/
abbrev Bit := List Int × Bool

/-- `cover_add_toggle_items_one_bit`, cov-data.c 251-266: the items so far, and the index of the first new one. -/
def addBit (acc : List Bit) (p : List Int) : List Bit × Option Nat := (acc ++ [(p, true), (p, false)], some acc.length)

def Dim.low (d : Dim) : Int := if d.downto then d.right else d.left
def Dim.high (d : Dim) : Int := if d.downto then d.left else d.right

/-- `cover_skip_array_toggle`, 236-249. -/
def skipArray (limit : Nat) (mems : Bool) (depth : Nat) (size : Int) : Bool :=
  (decide (limit ≠ 0) && decide (limit ≤ size)) || (!mems && decide (0 < depth))

/-- The loop over the indices, 336-364, from index `i`, with the number of indices left. -/
def addLoop (f : List Bit → Int → List Bit × Option Nat) (inc : Int) : Int → Nat → List Bit → List Bit × Option Nat
  | _, 0, acc => (acc, none)
  | i, n + 1, acc =>
    let (acc1, first) := f acc i
    let (acc2, _) := addLoop f inc (i + inc) n acc1
    (acc2, first)

/-- `cover_add_toggle_items` for an array, 297-373, from one of its dimensions on; `elem` is for the elements. -/
def addDims (limit : Nat) (mems : Bool) (elem : Nat → List Bit → List Int → List Bit × Option Nat) :
    List (Option Dim) → Nat → List Bit → List Int → List Bit × Option Nat
  | [], depth, acc, p => elem depth acc p
  | none :: _, _, acc, _ => (acc, none)
  | some d :: ds, depth, acc, p =>
    if d.high < d.low then (acc, none)
    else if skipArray limit mems depth (d.high - d.low + 1) then (acc, none)
    else if d.downto then
      addLoop (fun acc i => addDims limit mems elem ds (depth + 1) acc (p ++ [i])) (-1) d.high (d.high - d.low + 1).toNat acc
    else
      addLoop (fun acc i => addDims limit mems elem ds (depth + 1) acc (p ++ [i])) 1 d.low (d.high - d.low + 1).toNat acc

/-- `cover_add_toggle_items`, 268-373.  The type of the elements is looked at first (276-285), so nothing is
added for another one. -/
def addTy (limit : Nat) (mems : Bool) : Ty → Nat → List Bit → List Int → List Bit × Option Nat
  | .bit, _, acc, p => addBit acc p
  | .array ds elem, depth, acc, p => addDims limit mems (addTy limit mems elem) ds depth acc p
  | .other, _, acc, _ => (acc, none)

/-! ## States -/

/-- The address of a counter in `cover_state_cb`, cover.c 272-284 and 301: the tag less the lowest state is kept
as a pointer, that is modulo 2^64, and the state is added. -/
def stateTag (tag low value : Int) : Int := (((tag - low) % 2 ^ 64 + value) % 2 ^ 64 : Int).bmod (2 ^ 32)

/-- `cover_state_cb`. -/
def stateCb (tag low : Int) (value : Int) (m : Mem) : Mem := inc m (stateTag tag low value).toNat

/-- `x_cover_setup_state_cb`, 286-304: the first counter is set. -/
def stateSetup (tag : Nat) (m : Mem) : Mem := fun x => if x = tag then 1 else m x

def stateRun (tag low : Int) : List Int → Mem → Mem
  | [], m => m
  | v :: l, m => stateRun tag low l (stateCb tag low v m)

/-! ## Expressions -/

/-- The bins in the order of their items, cov-data.c 494-542 and 568-579. -/
def opBins : Op → List (Bool × Bool)
  | .xor | .xnor => [(false, false), (false, true), (true, false), (true, true)]
  | .and | .nand => [(false, true), (true, false), (true, true)]
  | .or | .nor => [(false, false), (false, true), (true, false)]

/-- The tests that `lower_logical` emits, lower.c 1807-1843: which of the counters are incremented. -/
def logicalHits (op : Op) (lhs rhs : Bool) : List Bool :=
  (opBins op).map fun (a, b) => (if a then lhs else !lhs) && (if b then rhs else !rhs)

/-- `lower_short_circuit` and the operators that always evaluate both operands: which counters are incremented.
`free` is `lower_side_effect_free` of the right operand; if it is false then it is evaluated only when needed, and
the counters are used only then (2024-2076). -/
def exprHits (op : Op) (free : Bool) (lhs rhs : Bool) : List Bool :=
  match op with
  | .xor | .xnor => logicalHits op lhs rhs
  | .and | .nand => if free ∨ lhs = true then logicalHits op lhs rhs else (opBins op).map fun _ => false
  | .or | .nor => if free ∨ lhs = false then logicalHits op lhs rhs else (opBins op).map fun _ => false

/-- `lower_logic_expr_coverage` for operators on `std_ulogic`, lower.c 1849-1903: the operands are compared with the
positions of '0' and '1'. -/
def stdHits (op : Op) (lhs rhs : Nat) : List Bool :=
  (opBins op).map fun (a, b) => decide (lhs = if a then 3 else 2) && decide (rhs = if b then 3 else 2)

/-- The bins that are marked as unreachable, 2062-2068. -/
def unreachable (op : Op) (free : Bool) : List Bool :=
  (opBins op).map fun (a, _) =>
    match op with
    | .xor | .xnor => false
    | .and | .nand => !free && !a
    | .or | .nor => !free && a

end Verif.Cov
