import Verif.Obj.Tables

/-
Sizes of objects, access to items and change of kind, /repo/src/object.c and
/repo/src/object.h.  A set of items is a natural number below 2^64 (`imask_t`); the
memory of the items of an object is a list of words, where the value 0 stands for
NULL or zero.
-/

namespace Verif.Obj.Kind

/-- `__builtin_popcountll`. -/
def popcount (n : Nat) : Nat := ((List.range 64).filter n.testBit).length

/-- `object_class_t` as far as sizes and kinds are concerned, /repo/src/object.h:211-222.
    `changes` is `change_allowed` without the end marker. -/
structure Class where
  has : List Nat
  changes : List (Nat × Nat)

def Class.lastKind (c : Class) : Nat := c.has.length

def Class.hasOf (c : Class) (k : Nat) : Nat := c.has[k]?.getD 0

def at0 (s : List Nat) (i : Nat) : Nat := s[i]?.getD 0

/-- `object_init`, /repo/src/object.c:345-352: the size in bytes for the items alone. -/
def initSizes (c : Class) : List Nat := c.has.map fun h => 16 + popcount h * 8

/-- /repo/src/object.c:358-366: the largest size among a kind and those that it can
    change to or from at once. -/
def maxSize (changes : List (Nat × Nat)) (s : List Nat) (i : Nat) : Nat :=
  changes.foldl
    (fun m p =>
      if p.1 = i then max m (at0 s p.2)
      else if p.2 = i then max m (at0 s p.1)
      else m)
    (at0 s i)

/-- /repo/src/object.c:357-372, the body of the loop over kinds. -/
def sweepStep (changes : List (Nat × Nat)) (st : List Nat × Bool) (i : Nat) : List Nat × Bool :=
  if maxSize changes st.1 i ≠ at0 st.1 i then (st.1.set i (maxSize changes st.1 i), true)
  else st

/-- /repo/src/object.c:356-372, one round. -/
def sweep (c : Class) (s : List Nat) : List Nat × Bool :=
  (List.range c.lastKind).foldl (sweepStep c.changes) (s, false)

/-- /repo/src/object.c:354-373: rounds until nothing changes; none if that takes more
    than the given number of rounds. -/
def rounds (c : Class) : Nat → List Nat → Option (List Nat)
  | 0, _ => none
  | n + 1, s =>
    if (sweep c s).2 then rounds c n (sweep c s).1 else some (sweep c s).1

/-- `ALIGN_UP(class->object_size[kind], OBJECT_ALIGN)` in units of 16 bytes, for
    instance /repo/src/object.c:457. -/
def units (s : List Nat) (k : Nat) : Nat := (at0 s k + 15) / 16

/-- `lookup_item`, /repo/src/object.h:109-122: the word at which the item is; none if the kind
    does not have the item, which is fatal, or if the word is outside the object. -/
def lookupItem (has : Nat) (mem : List Nat) (b : Nat) : Option Nat :=
  if has.testBit b then mem[popcount (has &&& (2 ^ b - 1))]? else none

/-- `object_change_kind`, /repo/src/object.c:314-326: the loop over the items.  The result is
    the memory of the items and the arrays that have been freed; none if the loop
    does not end with 64 items or if it reads outside the copy of the items. -/
def changeLoop (old new nn : Nat) (tmp : List Nat) :
    Nat → Nat → Nat → Nat → List Nat → List Nat → Option (List Nat × List Nat)
  | fuel, b, op, np, mem, freed =>
    if np < nn then
      match fuel with
      | 0 => none
      | f + 1 =>
        if old.testBit b && new.testBit b then
          match tmp[op]? with
          | some w => changeLoop old new nn tmp f (b + 1) (op + 1) (np + 1) (mem.set np w) freed
          | none => none
        else if old.testBit b then
          match tmp[op]? with
          | some w =>
            changeLoop old new nn tmp f (b + 1) (op + 1) np mem
              (if Tables.itemArray.contains b then freed ++ [w] else freed)
          | none => none
        else if new.testBit b then
          changeLoop old new nn tmp f (b + 1) op (np + 1) (mem.set np 0) freed
        else changeLoop old new nn tmp f (b + 1) op np mem freed
    else some (mem, freed)

/-- What `object_change_kind` does: a crash if the change is not allowed, undefined
    if the items are outside the memory of the object, or the new memory. -/
inductive Change where
  | fatal
  | undefined
  | done (mem freed : List Nat)
  deriving DecidableEq, Repr

def Change.ofOption : Option (List Nat × List Nat) → Change
  | none => .undefined
  | some r => .done r.1 r.2

/-- `object_change_kind`, /repo/src/object.c:287-329.  The items that are written are
    below the larger number of items, so it is enough to check that for `memcpy`. -/
def changeKind (c : Class) (from_ to_ : Nat) (mem : List Nat) : Change :=
  if to_ = from_ then .done mem []
  else if !c.changes.any (fun p => p.1 == from_ && p.2 == to_) then .fatal
  else
    let oldHas := c.hasOf from_
    let newHas := c.hasOf to_
    let maxItems := max (popcount oldHas) (popcount newHas)
    if maxItems > mem.length then .undefined
    else .ofOption (changeLoop oldHas newHas (popcount newHas) (mem.take maxItems) 64 0 0 0 mem [])

/-- A mask from the numbers of the items. -/
def maskOf (l : List Nat) : Nat := l.foldl (fun m b => m ||| 2 ^ b) 0

/-- `tree_object`, /repo/src/tree.c:470-482. -/
def treeClass : Class := { has := Tables.treeItems.map maskOf, changes := Tables.treeChanges }

end Verif.Obj.Kind
