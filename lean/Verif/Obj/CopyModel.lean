import Verif.Obj.Model

/-
Copying part of an object graph, `object_copy`, /repo/src/object.c:1069-1233.
-/

namespace Verif.Obj.Copy

/-! ### Which arenas -/

/-- The results that `object_copy_root_closure` has stored: `copyflag` of the arenas whose
    `copygen` is the generation of this copy. -/
abbrev Flags := List (Nat × Bool)

def Flags.get (fl : Flags) (a : Nat) : Option Bool := (fl.find? fun p => p.1 == a).map (·.2)

/-- The loop over the dependencies, /repo/src/object.c:1143-1144. -/
def closureList (visit : Flags → Nat → Option (Flags × Bool)) :
    Flags × Bool → List Nat → Option (Flags × Bool)
  | acc, [] => some acc
  | acc, d :: ds =>
    match visit acc.1 d with
    | none => none
    | some r => closureList visit (r.1, acc.2 || r.2) ds

/-- `object_copy_root_closure`, /repo/src/object.c:1133-1150, with the arenas of the roots.  The
    number bounds the depth of the recursion: none if that is not enough. -/
def closure (deps : Nat → List Nat) (roots : List Nat) : Nat → Flags → Nat → Option (Flags × Bool)
  | 0, _, _ => none
  | n + 1, fl, a =>
    match Flags.get fl a with
    | some b => some (fl, b)
    | none =>
      match closureList (closure deps roots n) (fl, roots.contains a) (deps a) with
      | none => none
      | some r => some ((a, r.2) :: r.1, r.2)

/-- The first loop of `object_copy`, /repo/src/object.c:1154-1157. -/
def closures (deps : Nat → List Nat) (roots : List Nat) (n : Nat) : Flags → List Nat → Option Flags
  | fl, [] => some fl
  | fl, a :: as =>
    match closure deps roots n fl a with
    | none => none
    | some r => closures deps roots n r.1 as

/-! ### Which objects -/

/-- The graph as `object_copy_mark` sees it: references in the order of the items, whether the
    arena of an object takes part, and the predicate `should_copy`. -/
structure Graph (α : Type) where
  refs : α → List α
  incl : α → Bool
  want : α → Bool

/-- The objects that are marked, and the keys of `copy_map` in the order in which the copies
    are allocated. -/
structure St (α : Type) where
  seen : List α
  map : List α

variable {α : Type} [DecidableEq α]

/-- The loop over the items, /repo/src/object.c:1099-1114. -/
def visitAll (visit : St α → α → Option (St α × Bool)) : St α × Bool → List α → Option (St α × Bool)
  | acc, [] => some acc
  | acc, y :: ys =>
    match visit acc.1 y with
    | none => none
    | some r => visitAll visit (r.1, acc.2 || r.2) ys

/-- Mark the object and if it is wanted allocate a copy at once, /repo/src/object.c:1081-1095. -/
def enter (g : Graph α) (st : St α) (x : α) : St α :=
  { seen := x :: st.seen, map := if g.want x then st.map ++ [x] else st.map }

/-- Allocate a copy if something below is copied, /repo/src/object.c:1116-1121. -/
def leave (g : Graph α) (x : α) (r : St α × Bool) : St α × Bool :=
  if r.2 && !g.want x then ({ r.1 with map := r.1.map ++ [x] }, true) else r

/-- `object_copy_mark`, /repo/src/object.c:1069-1122. -/
def mark (g : Graph α) : Nat → St α → α → Option (St α × Bool)
  | 0, _, _ => none
  | n + 1, st, x =>
    if !g.incl x then some (st, false)
    else if st.seen.contains x then some (st, st.map.contains x)
    else (visitAll (mark g n) (enter g st x, g.want x) (g.refs x)).map (leave g x)

/-- The second loop of `object_copy`, /repo/src/object.c:1159-1160. -/
def markRoots (g : Graph α) (n : Nat) : St α → List α → Option (St α)
  | st, [] => some st
  | st, x :: xs =>
    match mark g n st x with
    | none => none
    | some r => markRoots g n r.1 xs

/-! ### Copying -/

/-- An object in the world. -/
def objAt (sch : Schema) (w : World) (p : Ptr) : Option Object :=
  match w.get p.key with
  | some u => objectAt sch u.objects p.off
  | none => none

def refsOf (sch : Schema) (w : World) (p : Ptr) : List Ptr :=
  match objAt sch w p with
  | some o => o.items.flatMap Item.refs
  | none => []

/-- The copies are allocated one after the other in the global arena, which is filled up to
    `base`: the offset of the copy. -/
def copyOff (sch : Schema) (w : World) (base : Nat) : List Ptr → Ptr → Option Nat
  | [], _ => none
  | y :: ys, x =>
    if x = y then some base
    else
      match objAt sch w y with
      | some o => copyOff sch w (base + sch.size o) ys x
      | none => none

/-- `object_copy_map`, /repo/src/object.c:1124-1131. -/
def mapPtr (sch : Schema) (w : World) (gkey base : Nat) (m : List Ptr) (x : Ptr) : Ptr :=
  match copyOff sch w base m x with
  | some off => ⟨gkey, off⟩
  | none => x

/-- /repo/src/object.c:1181-1217; none is `should_not_reach_here`. -/
def copyItem (φ : Ptr → Ptr) : Item → Option Item
  | .ident n => some (.ident n)
  | .object p => some (.object (p.map φ))
  | .array none => some (.array none)
  | .array (some l) => some (.array (some (l.map fun p => p.map φ)))
  | .int v => some (.int v)
  | .double d => some (.double d)
  | .text _ => none
  | .number _ => none

def copyItems (φ : Ptr → Ptr) : List Item → Option (List Item)
  | [] => some []
  | i :: is =>
    match copyItem φ i, copyItems φ is with
    | some j, some js => some (j :: js)
    | _, _ => none

/-- /repo/src/object.c:1165-1220. -/
def copyObject (φ : Ptr → Ptr) (o : Object) : Option Object :=
  match copyItems φ o.items with
  | some js => some { o with items := js }
  | none => none

def copyObjects (sch : Schema) (w : World) (φ : Ptr → Ptr) : List Ptr → Option (List Object)
  | [] => some []
  | x :: xs =>
    match objAt sch w x with
    | none => none
    | some o =>
      match copyObject φ o, copyObjects sch w φ xs with
      | some c, some cs => some (c :: cs)
      | _, _ => none

/-- `__object_write_barrier`, /repo/src/object.c:222-243: none if an assertion fails. -/
def barrier (w : World) (gkey : Nat) (deps : List Nat) (p : Ptr) : Option (List Nat) :=
  if p.key = gkey then some deps
  else
    match w.get p.key with
    | none => none
    | some u =>
      if !u.frozen then none
      else if deps.contains p.key then some deps
      else some (deps ++ [p.key])

def barriers (w : World) (gkey : Nat) : List Nat → List Ptr → Option (List Nat)
  | deps, [] => some deps
  | deps, p :: ps =>
    match barrier w gkey deps p with
    | none => none
    | some deps => barriers w gkey deps ps

inductive Result (β : Type) where
  | ok (x : β)
  | exhausted
  | undefined

/-- `object_copy`, /repo/src/object.c:1152-1233, with the world, the key of the global arena,
    the roots and the predicate.  The callbacks are left out.  The copies are filled in
    the order of allocation and not in that of the hash table, which matters only
    for the order of the dependencies. -/
def objectCopy (sch : Schema) (n : Nat) (w : World) (gkey : Nat) (roots : List Ptr) (want : Ptr → Bool) :
    Result (World × List Ptr) :=
  match w.get gkey with
  | none => .undefined
  | some ga =>
    if ga.frozen then .undefined
    else
      match closures (fun a => match w.get a with | some u => u.deps | none => []) (roots.map (·.key)) n []
          (roots.map (·.key)) with
      | none => .undefined
      | some fl =>
        match markRoots ⟨refsOf sch w, fun p => (Flags.get fl p.key).getD false, want⟩ n ⟨[], []⟩ roots with
        | none => .undefined
        | some st =>
          let base := used sch ga.objects
          let φ := mapPtr sch w gkey base st.map
          match copyObjects sch w φ st.map with
          | none => .undefined
          | some copies =>
            if used sch (ga.objects ++ copies) > ga.limit then .exhausted
            else
              match barriers w gkey ga.deps (copies.flatMap fun c => c.items.flatMap Item.refs) with
              | none => .undefined
              | some deps =>
                .ok (w.set (gkey - 1) { ga with objects := ga.objects ++ copies, deps := deps }, roots.map φ)

end Verif.Obj.Copy
