/-
Objects, arenas, garbage collection when an arena is frozen, and the functions that
write an arena to a library file and read it back, /repo/src/object.c.

Offsets and sizes are in units of OBJECT_ALIGN (16 bytes).  They are natural
numbers: an arena of 4 GB or more, for which `woffset` would wrap, is not
modelled.  The file is a list of tokens; that each of them survives is the
subject of the models of fbuf.c, loc.c, ident.c and vlog-number.c.
-/

namespace Verif.Obj

/-- An identifier; `none` is NULL. -/
abbrev Name := Option (List Nat)

/-- A pointer to an object: the key of its arena and its offset. -/
structure Ptr where
  key : Nat
  off : Nat
  deriving DecidableEq, Repr

/-- The kinds of items, ITEM_IDENT to ITEM_NUMBER, /repo/src/object.c:66-88.
    ITEM_INT64 and ITEM_INT32 are treated alike. -/
inductive Field where
  | ident | object | array | int | double | text | number
  deriving DecidableEq, Repr

/-- `item_t`, /repo/src/object.h:146-154.  The pointer to an array may be NULL. -/
inductive Item where
  | ident (n : Name)
  | object (p : Option Ptr)
  | array (a : Option (List (Option Ptr)))
  | int (v : Int)
  | double (bits : Nat)
  | text (s : List Nat)
  | number (x : List Nat)
  deriving DecidableEq, Repr

def Item.field : Item → Field
  | .ident _ => .ident
  | .object _ => .object
  | .array _ => .array
  | .int _ => .int
  | .double _ => .double
  | .text _ => .text
  | .number _ => .number

/-- `struct _object`, /repo/src/object.h:158-165, without the arena.  Location 0 is
    LOC_INVALID. -/
structure Object where
  tag : Nat
  kind : Nat
  loc : Nat
  items : List Item
  deriving DecidableEq, Repr

/-- What `object_class_t` says about the objects of each tag and kind: the items,
    the size, whether it is a root for garbage collection, whether it has a
    location (by tag) and whether it has I_IDENT, which is the first item. -/
structure Schema where
  items : Nat → Nat → List Field
  units : Nat → Nat → Nat
  root : Nat → Nat → Bool
  hasLoc : Nat → Bool
  named : Nat → Nat → Bool
  lastKind : Nat → Nat

def Schema.size (sch : Schema) (o : Object) : Nat := sch.units o.tag o.kind

def Schema.isRoot (sch : Schema) (o : Object) : Bool := sch.root o.tag o.kind

/-- `object_arena_t`, /repo/src/object.c:40-63.  `objects` is what is between
    `base` and `alloc`; `forward` gives the offset in the file, none for a dead
    object; `root` is the offset of the root if it is not NULL. -/
structure Unit where
  objects : List Object
  limit : Nat
  forward : Option (Nat → Option Nat)
  liveUnits : Nat
  flags : Nat
  deps : List Nat
  root : Option Nat
  fresh : Bool
  std : Nat
  checksum : Nat
  frozen : Bool
  obsolete : Bool

/-- `all_arenas` without the dummy entry. -/
abbrev World := List Unit

/-- `all_arenas.items[key]`. -/
def World.get (w : World) (key : Nat) : Option Unit := if key = 0 then none else w[key - 1]?

/-- The loop over the objects of an arena, for instance
    /repo/src/object.c:556-568. -/
def walk (sch : Schema) : Nat → List Object → List (Nat × Object)
  | _, [] => []
  | off, o :: os => (off, o) :: walk sch (off + sch.size o) os

/-- The object at an address. -/
def objectAt (sch : Schema) (objs : List Object) (x : Nat) : Option Object :=
  ((walk sch 0 objs).find? fun p => p.1 == x).map (·.2)

/-- `arena->alloc - arena->base`. -/
def used (sch : Schema) (objs : List Object) : Nat := (objs.map sch.size).sum

/-- `object_new`, /repo/src/object.c:442-489, for the objects of an arena that is
    being read: none if there is no room.  Items that are not given are zero. -/
def objectNew (sch : Schema) (u : Unit) (o : Object) : Option Unit :=
  if u.limit - used sch u.objects < sch.size o then none
  else
    some { u with
      objects := u.objects ++ [o]
      root := if u.root = none ∧ sch.isRoot o = true then some (used sch u.objects) else u.root }

/-- The item I_IDENT, which is the first of those that there are. -/
def firstIdent : List Item → Name
  | .ident n :: _ => n
  | _ => none

/-- `object_arena_name`, /repo/src/object.c:122-134.  Question marks are 63. -/
def arenaName (sch : Schema) (u : Unit) : Name :=
  match objectAt sch u.objects (u.root.getD 0) with
  | some o =>
    if sch.named o.tag o.kind then firstIdent o.items
    else some [63, 63, 63]
  | none => some [63, 63, 63]

/-! ### Garbage collection -/

def Item.refs : Item → List Ptr
  | .object (some p) => [p]
  | .array (some l) => l.filterMap id
  | _ => []

/-- The objects of the arena that the one at `x` refers to, in the order in which
    `gc_mark_from_root` goes through them. -/
def refsIn (sch : Schema) (key : Nat) (objs : List Object) (x : Nat) : List Nat :=
  match objectAt sch objs x with
  | some o => ((o.items.flatMap Item.refs).filter fun p => p.key == key).map (·.off)
  | none => []

/-- `gc_mark_from_root`, /repo/src/object.c:491-520.  The first argument bounds the
    depth of the recursion. -/
def markFrom (refs : Nat → List Nat) : Nat → (Nat → Bool) → Nat → (Nat → Bool)
  | 0, m, _ => m
  | f + 1, m, x =>
    if m x then m
    else (refs x).foldl (fun m y => markFrom refs f m y) (fun y => if y = x then true else m y)

/-- The mark phase of `object_arena_gc`, /repo/src/object.c:555-568. -/
def markAll (sch : Schema) (key : Nat) (objs : List Object) : Nat → Bool :=
  (walk sch 0 objs).foldl
    (fun m p => if sch.isRoot p.2 then markFrom (refsIn sch key objs) (objs.length + 1) m p.1 else m)
    (fun _ => false)

/-- The forwarding addresses, /repo/src/object.c:576-602, with the offset `w` so
    far in the file. -/
def forwardFrom (sch : Schema) (live : Nat → Bool) : Nat → Nat → List Object → Nat → Option Nat
  | _, _, [], _ => none
  | w, off, o :: os, x =>
    if live off then
      if x = off then some w else forwardFrom sch live (w + sch.size o) (off + sch.size o) os x
    else if x = off then none
    else forwardFrom sch live w (off + sch.size o) os x

/-- `live_bytes`. -/
def liveFrom (sch : Schema) (live : Nat → Bool) (objs : List Object) : Nat :=
  (((walk sch 0 objs).filter fun p => live p.1).map fun p => sch.size p.2).sum

/-- `object_arena_freeze` for an arena that was not read from disk,
    /repo/src/object.c:1261-1293. -/
def freeze (sch : Schema) (key : Nat) (u : Unit) : Unit :=
  let live := markAll sch key u.objects
  { u with
    forward := some (forwardFrom sch live 0 0 u.objects)
    liveUnits := liveFrom sch live u.objects
    frozen := true }

/-! ### Writing -/

inductive Tok where
  | u32 (n : Nat)
  | uint (n : Nat)
  | int (v : Int)
  | double (bits : Nat)
  | ident (n : Name)
  | loc (l : Nat)
  | raw (s : List Nat)
  | number (x : List Nat)
  deriving DecidableEq, Repr

/-- The offset that is written for an object. -/
def stored (u : Unit) (off : Nat) : Nat :=
  match u.forward with
  | some f =>
    match f off with
    | some w => w
    | none => (2 ^ 32 - 1) >>> 4
  | none => off

/-- `object_write_ref`, /repo/src/object.c:775-790. -/
def writeRef (w : World) : Option Ptr → List Tok
  | none => [.uint 0]
  | some p =>
    match w.get p.key with
    | some u => [.uint p.key, .uint (stored u p.off)]
    | none => []

/-- /repo/src/object.c:847-880. -/
def writeItem (w : World) : Item → List Tok
  | .ident n => [.ident n]
  | .object p => writeRef w p
  | .array none => [.uint 0]
  | .array (some l) => .uint l.length :: l.flatMap (writeRef w)
  | .int v => [.int v]
  | .double b => [.double b]
  | .text s => [.uint s.length, .raw s]
  | .number x => [.number x]

/-- /repo/src/object.c:836-885. -/
def writeObject (sch : Schema) (w : World) (o : Object) : List Tok :=
  .uint (o.tag ||| o.kind <<< 2) :: ((if sch.hasLoc o.tag then [.loc o.loc] else []) ++ o.items.flatMap (writeItem w))

/-- The live objects in the order of their addresses. -/
def liveObjects (sch : Schema) (u : Unit) : List Object :=
  ((walk sch 0 u.objects).filter fun p =>
    match u.forward with
    | some f => (f p.1).isSome
    | none => true).map (·.2)

/-- ALIGN_UP to OBJECT_PAGE_SZ, in units. -/
def alignUp (n : Nat) : Nat := (n + 4095) / 4096 * 4096

/-- /repo/src/object.c:824-829. -/
def writeDep (sch : Schema) (w : World) (d : Nat) : List Tok :=
  match w.get d with
  | some u => [.uint d, .uint u.std, .uint u.checksum, .ident (arenaName sch u)]
  | none => []

/-- The result of `object_write`; `fatal` for a call of `fatal_trace`. -/
inductive Written where
  | tokens (l : List Tok)
  | fatal
  deriving DecidableEq

/-- `object_write`, /repo/src/object.c:792-893. -/
def objectWrite (sch : Schema) (digest standard : Nat) (w : World) (key : Nat) (root : Nat) : Written :=
  match w.get key with
  | none => .fatal
  | some u =>
    if root ≠ u.root.getD 0 then .fatal
    else if u.fresh = false then .fatal
    else if u.frozen = false then .fatal
    else if u.obsolete = true then .fatal
    else .tokens
      ([.u32 digest, .uint standard, .uint (alignUp u.liveUnits), .uint u.flags, .uint key,
        .ident (arenaName sch u), .uint (u.deps.foldl max key), .uint u.deps.length]
       ++ u.deps.flatMap (writeDep sch w)
       ++ (liveObjects sch u).flatMap (writeObject sch w)
       ++ [.uint 65535])

/-! ### Reading -/

/-- The result of reading: `fatal` is a message, `ub` a failed assertion, an access
    outside an array or a file of another shape. -/
inductive Rd (α : Type) where
  | ok (v : α) (rest : List Tok)
  | fatal
  | ub

def Rd.bind {α β : Type} (r : Rd α) (f : α → List Tok → Rd β) : Rd β :=
  match r with
  | .ok v rest => f v rest
  | .fatal => .fatal
  | .ub => .ub

def getUint : List Tok → Rd Nat
  | .uint n :: rest => .ok n rest
  | _ => .ub

def getIdent : List Tok → Rd Name
  | .ident n :: rest => .ok n rest
  | _ => .ub

/-- `object_read_ref`, /repo/src/object.c:895-911.  `arena` is the arena that is
    being read, not frozen yet, with its key; the map has `maxKey + 1` entries. -/
def readRef (sch : Schema) (w : World) (self maxKey : Nat) (keyMap : Nat → Nat) (toks : List Tok) : Rd (Option Ptr) :=
  (getUint toks).bind fun key toks =>
    if key = 0 then .ok none toks
    else if key > maxKey then .ub
    else (getUint toks).bind fun offset toks =>
      if keyMap key = 0 then .fatal
      else if keyMap key = self then .ok (some ⟨keyMap key, offset⟩) toks
      else match w.get (keyMap key) with
        | none => .ub
        | some u =>
          if u.frozen = true ∧ used sch u.objects ≤ offset then .ub
          else .ok (some ⟨keyMap key, offset⟩) toks

/-- The elements of an array, /repo/src/object.c:1017-1020. -/
def readRefs (sch : Schema) (w : World) (self maxKey : Nat) (keyMap : Nat → Nat) :
    Nat → List Tok → Rd (List (Option Ptr))
  | 0, toks => .ok [] toks
  | n + 1, toks =>
    (readRef sch w self maxKey keyMap toks).bind fun p toks =>
      (readRefs sch w self maxKey keyMap n toks).bind fun ps toks => .ok (p :: ps) toks

/-- /repo/src/object.c:1000-1045. -/
def readItem (sch : Schema) (w : World) (self maxKey : Nat) (keyMap : Nat → Nat) (f : Field) (toks : List Tok) :
    Rd Item :=
  match f with
  | .ident => (getIdent toks).bind fun n toks => .ok (.ident n) toks
  | .object => (readRef sch w self maxKey keyMap toks).bind fun p toks => .ok (.object p) toks
  | .array =>
    (getUint toks).bind fun count toks =>
      if count > 0 then
        (readRefs sch w self maxKey keyMap count toks).bind fun l toks => .ok (.array (some l)) toks
      else .ok (.array none) toks
  | .int =>
    match toks with
    | .int v :: rest => .ok (.int v) rest
    | _ => .ub
  | .double =>
    match toks with
    | .double v :: rest => .ok (.double v) rest
    | _ => .ub
  | .text =>
    (getUint toks).bind fun len toks =>
      match toks with
      | .raw s :: rest => if s.length = len then .ok (.text s) rest else .ub
      | _ => .ub
  | .number =>
    match toks with
    | .number v :: rest => .ok (.number v) rest
    | _ => .ub

def readItems (sch : Schema) (w : World) (self maxKey : Nat) (keyMap : Nat → Nat) :
    List Field → List Tok → Rd (List Item)
  | [], toks => .ok [] toks
  | f :: fs, toks =>
    (readItem sch w self maxKey keyMap f toks).bind fun i toks =>
      (readItems sch w self maxKey keyMap fs toks).bind fun is toks => .ok (i :: is) toks

def readLoc (has : Bool) (toks : List Tok) : Rd Nat :=
  if has then
    match toks with
    | .loc l :: rest => .ok l rest
    | _ => .ub
  else .ok 0 toks

/-- The loop over the objects, /repo/src/object.c:978-1050.  The first argument
    bounds the number of objects; it is enough if it is the number of tokens. -/
def readObjects (sch : Schema) (w : World) (self maxKey : Nat) (keyMap : Nat → Nat) :
    Nat → Unit → List Tok → Rd Unit
  | 0, _, _ => .ub
  | n + 1, u, toks =>
    (getUint toks).bind fun hdr toks =>
      if hdr = 65535 then .ok u toks
      else
        let tag := hdr &&& 3
        let kind := hdr >>> 2
        if kind ≥ sch.lastKind tag then .fatal
        else
          (readLoc (sch.hasLoc tag) toks).bind fun loc toks =>
            (readItems sch w self maxKey keyMap (sch.items tag kind) toks).bind fun items toks =>
              match objectNew sch u ⟨tag, kind, loc, items⟩ with
              | none => .fatal
              | some u => readObjects sch w self maxKey keyMap n u toks

/-- The search for a dependency, /repo/src/object.c:959-974: the first arena with
    the name, or what the loader returns. -/
def findDep (sch : Schema) (loader : World → Name → Option (World × Nat)) (w : World) (n : Name) :
    Option (World × Nat) :=
  match w.findIdx? fun u => decide (arenaName sch u = n) with
  | some i => some (w, i + 1)
  | none => loader w n

/-- The loop over the dependencies, /repo/src/object.c:953-976, with the map and
    the list of dependencies so far. -/
def readDeps (sch : Schema) (loader : World → Name → Option (World × Nat)) (maxKey : Nat) :
    Nat → World → (Nat → Nat) → List Nat → List Tok → Rd (World × (Nat → Nat) × List Nat)
  | 0, w, km, ds, toks => .ok (w, km, ds) toks
  | n + 1, w, km, ds, toks =>
    (getUint toks).bind fun dkey toks =>
      (getUint toks).bind fun dstd toks =>
        (getUint toks).bind fun checksum toks =>
          (getIdent toks).bind fun dep toks =>
            match findDep sch loader w dep with
            | none => .fatal
            | some (w, a) =>
              match w.get a with
              | none => .ub
              | some u =>
                if u.std ≠ dstd then .fatal
                else if u.checksum ≠ checksum then .fatal
                else if dkey > maxKey then .ub
                else readDeps sch loader maxKey n w (fun k => if k = dkey then a else km k) (ds ++ [a]) toks

/-- An arena as `object_arena_new` makes it, /repo/src/object.c:1241-1259. -/
def Unit.new (size std : Nat) (fresh : Bool) : Unit :=
  ⟨[], size, none, 0, 0, [], none, fresh, std, 0, false, false⟩

/-- `object_read`, /repo/src/object.c:913-1062: the world with the new arena, and
    the pointer that is returned.  `standard` is that of the process; the case of
    the very first unit, which sets it, is left out. -/
def objectRead (sch : Schema) (loader : World → Name → Option (World × Nat)) (digest standard : Nat) (w : World)
    (toks : List Tok) : Rd (World × Ptr) :=
  match toks with
  | .u32 ver :: toks =>
    if ver ≠ digest then .fatal
    else
      (getUint toks).bind fun std toks =>
        if std > standard then .fatal
        else
          (getUint toks).bind fun size toks =>
            if size % 4096 ≠ 0 then .fatal
            else
              (getUint toks).bind fun flags toks =>
                (getUint toks).bind fun key toks =>
                  (getIdent toks).bind fun _ toks =>
                    (getUint toks).bind fun maxKey toks =>
                      if key > maxKey then .ub
                      else
                        (getUint toks).bind fun ndeps toks =>
                          let self := w.length + 1
                          let u := { Unit.new size std false with flags := flags }
                          (readDeps sch loader maxKey ndeps (w ++ [u]) (fun k => if k = key then self else 0) [] toks).bind
                            fun (w, km, ds) toks =>
                              (readObjects sch w self maxKey km toks.length { u with deps := ds } toks).bind
                                fun u toks =>
                                  if alignUp (used sch u.objects) ≠ size then .ub
                                  else .ok (w.set (self - 1) { u with frozen := true }, ⟨self, 0⟩) toks
  | _ => .ub

/-! ### Loci -/

/-- The offset of `object_locus`, /repo/src/object.c:1311-1324. -/
def locus (u : Unit) (x : Nat) : Nat := stored u x

/-- The offset of the object in `object_from_locus`, /repo/src/object.c:1346-1373:
    none if the assertion fails. -/
def fromLocus (sch : Schema) (u : Unit) (offset : Nat) : Option Nat :=
  match u.forward with
  | some f => (List.range (used sch u.objects)).find? fun i => decide (f i = some offset)
  | none => some offset

end Verif.Obj
