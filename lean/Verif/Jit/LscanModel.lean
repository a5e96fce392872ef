import Verif.Jit.CfgModel

/-!
# Linear-scan register allocation

Model of `/repo/src/jit/jit-optim.c` lines 1277-1437.

A read or write outside an array and a failed assertion are `none`.  Simplifications: the sorted array is
any list that `qsort` may return, that is, a permutation sorted by the first position (it is not stable);
the recursion is bounded by the number of blocks, which is enough because every call marks one; the 32
bits of `freeregs` and `badmask` are functions.
-/

namespace Verif.Code

/-- `lscan_interval_t`, 1277-1281. -/
structure Interval where
  reg : Nat
  first : Nat
  last : Nat
  deriving DecidableEq, Repr

/-- `UINT_MAX`. -/
def uintMax : Nat := 2 ^ 32 - 1

/-- The intervals at the beginning, 1360-1365. -/
def noIntervals : Nat → Interval := fun r => ⟨r, uintMax, 0⟩

/-- `lscan_grow_range`, 1283-1288; the array has `nregs` elements. -/
def grow (nregs : Nat) (li : Nat → Interval) (p : Nat × Nat) : Option (Nat → Interval) :=
  if p.1 < nregs then
    some fun r => if r = p.1 then ⟨(li r).reg, min (li r).first p.2, max (li r).last p.2⟩ else li r
  else none

/-- The bits set in a mask with `n` bits, in the order of `mask_iter`. -/
def maskBits (n : Nat) (m : Mask) : List Nat := (List.range n).filter m

/-- The registers of one instruction, 1306-1313. -/
def Ir.regs (ir : Ir) : List Nat := ir.result.toList ++ ir.arg1.regOf.toList ++ ir.arg2.regOf.toList

/-- What a block grows, in this order, 1300-1317. -/
def blockGrows (f : Func) (b : Block) (out : Mask) : List (Nat × Nat) :=
  (maskBits (f.nregs + 1) (liveIn f b out)).map (·, b.first) ++
  ((blockIrs f b).zipIdx b.first).flatMap (fun (ir, i) => ir.regs.map (·, i)) ++
  (maskBits (f.nregs + 1) out).map (·, b.last)

/-- The intervals and the blocks visited. -/
abbrev Walk := (Nat → Interval) × (Nat → Bool)

/-- `lscan_walk_cfg`, 1290-1323. -/
def walk (f : Func) (blocks : List Block) (out : Nat → Mask) : Nat → Nat → Walk → Option Walk
  | 0, _, _ => none
  | depth + 1, bi, st =>
    if st.2 bi then some st
    else
      match blocks[bi]? with
      | none => none
      | some b =>
        ((blockGrows f b (out bi)).foldlM (grow f.nregs) st.1).bind fun li =>
          b.out.foldlM (fun st c => walk f blocks out depth c st) (li, fun c => if c = bi then true else st.2 c)

/-- `STACK_BASE`, jit-priv.h 402. -/
def stackBase : Nat := 100

/-- Number of machine registers in `freeregs`. -/
def nmachine : Nat := 32

/-- The state of the loop, 1376-1381. -/
structure Alloc where
  slots : Nat → Nat
  free : Nat → Bool
  active : List Interval
  spills : Nat

def setSlot (slots : Nat → Nat) (r s : Nat) : Nat → Nat := fun q => if q = r then s else slots q

/-- Expire old intervals, 1384-1397. -/
def expire (slots : Nat → Nat) (first : Nat) : List Interval → (Nat → Bool) → Option (List Interval × (Nat → Bool))
  | [], free => some ([], free)
  | a :: rest, free =>
    if first ≤ a.last then some (a :: rest, free)
    else if slots a.reg < stackBase then
      expire slots first rest fun i => if i = slots a.reg then true else free i
    else none

/-- Add to the active list, sorted by increasing end point, 1424-1432. -/
def insertActive (x : Interval) (active : List Interval) : List Interval :=
  active.takeWhile (fun a => decide (a.last ≤ x.last)) ++ x :: active.dropWhile (fun a => decide (a.last ≤ x.last))

/-- Give the interval a slot, 1401-1433. -/
def assign (rint : Nat) (st : Alloc) (x : Interval) : Option Alloc :=
  if st.active.length = rint then
    match st.active.getLast? with
    | none => none
    | some spill =>
      if x.last < spill.last then
        some { st with
          slots := setSlot (setSlot st.slots x.reg (st.slots spill.reg)) spill.reg (stackBase + st.spills)
          active := insertActive x st.active.dropLast
          spills := st.spills + 1 }
      else
        some { st with slots := setSlot st.slots x.reg (stackBase + st.spills), spills := st.spills + 1 }
  else
    match (List.range nmachine).find? st.free with
    | none => none
    | some bit =>
      some { st with
        slots := setSlot st.slots x.reg bit
        free := fun i => if i = bit then false else st.free i
        active := insertActive x st.active }

/-- One round of the loop, 1383-1434. -/
def allocStep (rint : Nat) (st : Alloc) (x : Interval) : Option Alloc :=
  (expire st.slots x.first st.active st.free).bind fun (active, free) =>
    assign rint { st with active := active, free := free } x

/-- `Rint`, 1376. -/
def machineRegs (bad : Nat → Bool) : Nat := (List.range nmachine).countP fun i => !bad i

/-- The loop over the sorted intervals, 1376-1434. -/
def allocate (bad : Nat → Bool) (sorted : List Interval) : Option Alloc :=
  sorted.foldlM (allocStep (machineRegs bad))
    { slots := fun _ => uintMax, free := fun i => decide (i < nmachine) && !bad i, active := [], spills := 0 }

/-- What `qsort` with `lscan_interval_cmp`, 1325-1336, may return. -/
def SortedBy (l sorted : List Interval) : Prop := sorted.Perm l ∧ sorted.Pairwise fun a b => a.first ≤ b.first

/-- The intervals, 1356-1370. -/
def intervals (f : Func) (blocks : List Block) (out : Nat → Mask) : Option (List Interval) :=
  (walk f blocks out (blocks.length + 1) 0 (noIntervals, fun _ => false)).map fun st =>
    (List.range f.nregs).map st.1

end Verif.Code
