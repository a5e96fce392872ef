/-!
# Coverage databases

Model of `/repo/src/cov/cov-data.c` lines 721-748 and 1149-1235, and of the structures in
`/repo/src/cov/cov-api.h` lines 24-178 and `/repo/src/cov/cov-data.h` lines 93-108.

A name is the list of its characters; identifiers are equal if and only if their characters are (C17).
A location is a number.  A list of scopes is a first scope, its children and the scopes after it.  Pointers
to parents, numbers for labels, lines to ignore and whether items are emitted, which are used only when
items are created, are left out.
-/

namespace Verif.Cov

abbrev Name := List Nat

/-- `cover_item_kind_t`, cov-api.h 24-71. -/
inductive Kind where
  | stmt | branch | toggle | expression | state | functional
  deriving DecidableEq, Repr

/-- `cover_item_t`, cov-api.h 96-155.  `data`, `flags`, `tag`, `consecutive` and `atleast` are 32-bit
numbers, of which `flags` is a set of bits. -/
structure Item where
  kind : Kind
  hier : Name
  flags : BitVec 32 := 0
  data : Int := 0
  tag : Int := 0
  consecutive : Int := 1
  atleast : Int := 1
  source : Nat := 0
  metadata : Int := 0
  loc : Nat := 0
  locLhs : Nat := 0
  locRhs : Nat := 0
  funcName : Option Name := none
  ranges : List (Int × Int) := []
  deriving DecidableEq, Repr

/-- What else a scope has, cov-data.h 93-108. -/
structure Info where
  isInstance : Bool := false
  hier : Name := []
  loc : Nat := 0
  blockName : Option Name := none
  deriving DecidableEq, Repr

/-- A list of scopes: `cover_scope_t` with its items and children, and its siblings. -/
inductive Scopes where
  | nil
  | cons (name : Name) (info : Info) (items : List Item) (children next : Scopes)
  deriving DecidableEq, Repr

/-- A database: its root. -/
structure Db where
  items : List Item := []
  children : Scopes := .nil
  deriving DecidableEq, Repr

/-- `saturate_add` for `int32_t`, util.h 473-478. -/
def satAdd (a b : Int) : Int := if -2147483648 ≤ a + b ∧ a + b ≤ 2147483647 then a + b else 2147483647

/-- `COV_FLAG_UNREACHABLE` as data, cov-api.h 177; the highest bit is set if and only if the number is
negative. -/
def unreachMark : Int := -2147483648

/-- `cover_merge_one_item`, 721-748. -/
def mergeData (k : Kind) (a b : Int) : Int :=
  match k with
  | .toggle => if a < 0 ∨ b < 0 then unreachMark else satAdd a b
  | _ => satAdd a b

/-- Two items are for the same bin, 1168. -/
def Item.same (a b : Item) : Bool := decide (a.hier = b.hier) && decide (a.flags = b.flags)

/-- The loop over the old items in `cover_merge_scope`, 1164-1184, from position `i`, with the number of
visits left. -/
def scan (new : Item) (old : List Item) : Nat → Nat → Option Nat
  | 0, _ => none
  | visits + 1, i =>
    if (old[i]?).any new.same then some i
    else scan new old visits (if i + 1 = old.length then 0 else i + 1)

/-- The loop over the new items, 1157-1190; `s` is `i - n_added`.  `none` is a failed assertion: in `AREF`, or
about the kinds. -/
def mergeLoop : List Item → Nat → List Item → Option (List Item)
  | [], _, old => some old
  | new :: rest, s, old =>
    if s < old.length then
      match scan new old old.length s with
      | some j => (old[j]?).bind fun o =>
          if new.kind = o.kind then mergeLoop rest (s + 1) (old.set j { o with data := mergeData o.kind o.data new.data })
          else none
      | none => mergeLoop rest s (old ++ [new])
    else none

def mergeItems (old new : List Item) : Option (List Item) := mergeLoop new 0 old

/-- The inner loop over the old children, 1195-1202; `f` merges the children of the new one. -/
def mergeInto (name : Name) (info : Info) (items : List Item) (children : Scopes) (f : Scopes → Option Scopes) :
    Scopes → Option Scopes
  | .nil => some (.cons name info items children .nil)
  | .cons name' info' items' children' next' =>
    if name = name' then
      (mergeItems items' items).bind fun items2 => (f children').map fun children2 =>
        .cons name' info' items2 children2 next'
    else (mergeInto name info items children f next').map fun n => .cons name' info' items' children' n

/-- The loop over the new children, 1192-1206.  The new scopes are the first argument. -/
def mergeKids : Scopes → Scopes → Option Scopes
  | .nil, old => some old
  | .cons name info items children next, old =>
    (mergeInto name info items children (mergeKids children) old).bind (mergeKids next)

/-- `cover_merge_scope` on the root, 1149-1207 and 1225. -/
def mergeDb (old new : Db) : Option Db :=
  (mergeItems old.items new.items).bind fun items => (mergeKids new.children old.children).map fun children =>
    ⟨items, children⟩

/-- `--cover-merge` with some files, nvc.c 1659-1675. -/
def mergeAll : Db → List Db → Option Db
  | db, [] => some db
  | db, new :: rest => (mergeDb db new).bind fun db => mergeAll db rest

end Verif.Cov
