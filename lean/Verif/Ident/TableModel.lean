/-!
# The identifier table

Model of the interning functions of `/repo/src/ident.c` as executed by one thread.
Identifiers are objects: the model numbers them in the order of their allocation, a slot
holds such a number, and two identifiers are the same pointer iff their numbers are equal.

Simplifications: one thread, so that every compare-and-swap succeeds, no slot carries
`MOVED_TAG` outside `grow_table` and `wait_for_resize` is not needed; memory is unlimited;
the slot number (`int`) does not overflow.
-/

namespace Verif.Ident

/-- `hash_update`, ident.c 78-90: DJB2, at most the given characters and not beyond a zero;
`char` is signed. -/
def hashUpdate (h : BitVec 32) : List Nat → BitVec 32
  | [] => h
  | b :: bs =>
    if b = 0 then h
    else hashUpdate (((h <<< 5) + h) + (BitVec.ofNat 8 b).signExtend 32) bs

/-- `HASH_INIT`, ident.c 36. -/
def hashInit : BitVec 32 := 5381#32

/-- `mix_bits_32`, util.h 180-185. -/
def mixBits32 (n : BitVec 32) : BitVec 32 :=
  let n := n * 0xcc9e2d51#32
  let n := (n <<< 15) ||| (n >>> 17)
  n * 0x1b873593#32

/-- `struct _ident`, ident.c 60-66, without the fields used for writing and the cached hash
that ignores case. -/
structure Obj where
  hash : BitVec 32
  bytes : List Nat
  deriving DecidableEq

/-- All identifiers allocated so far and the current `ident_tab_t`, ident.c 70-73. -/
structure Tab where
  objs : List Obj
  slots : List (Option Nat)

/-- `INITIAL_SIZE`, `REPROBE_LIMIT`, `MAX_LEN`, ident.c 39-42. -/
def initialSize : Nat := 1024
def reprobeLimit : Nat := 20
def maxLen : Nat := 65535

/-- The table made by the first `get_table`, ident.c 168-189. -/
def Tab.init : Tab := ⟨[], List.replicate initialSize none⟩

/-- `hash & (size - 1)`; the size is a power of two. -/
def slotOf (hash : BitVec 32) (size : Nat) : Nat := hash.toNat &&& (size - 1)

/-- `slot = (slot + i) & (size - 1)`. -/
def nextSlot (slot i size : Nat) : Nat := (slot + i) &&& (size - 1)

/-- Placement of one identifier in the new table, ident.c 124-134.  The C loop has no bound;
the model gives up after `fuel` probes. -/
def place (slots : List (Option Nat)) (id : Nat) : Nat → Nat → Nat → Option (List (Option Nat))
  | 0, _, _ => none
  | fuel + 1, slot, j =>
    match slots[slot]? with
    | some none => some (slots.set slot (some id))
    | some (some _) => place slots id fuel (nextSlot slot j slots.length) (j + 1)
    | none => none

/-- `copy_table`, ident.c 117-141. -/
def copyTable (objs : List Obj) : List (Option Nat) → List (Option Nat) →
    Option (List (Option Nat))
  | [], to => some to
  | none :: from', to => copyTable objs from' to
  | some id :: from', to =>
    match objs[id]? with
    | none => none
    | some o =>
      (place to id to.length (slotOf o.hash to.length) 1).bind (copyTable objs from')

/-- `grow_table`, ident.c 191-205. -/
def grow (t : Tab) : Option Tab :=
  (copyTable t.objs t.slots (List.replicate (t.slots.length * 2) none)).map
    fun s => { t with slots := s }

/-- Comparison with an existing identifier in `ident_from_bytes`, ident.c 232-234. -/
def sameBytes (hash : BitVec 32) (str : List Nat) (o : Obj) : Bool :=
  o.bytes.length = str.length && o.hash = hash && o.bytes = str

/-- The loop over the parts, ident.c 276-279: each part is compared with the bytes at the
current position. -/
def partsMatch : List (List Nat) → List Nat → Bool
  | [], _ => true
  | p :: ps, bs => (bs.take p.length == p) && partsMatch ps (bs.drop p.length)

/-- Comparison with an existing identifier in `ident_from_byte_vec`, ident.c 275-283. -/
def sameParts (parts : List (List Nat)) (o : Obj) : Bool :=
  o.bytes.length = (parts.map List.length).sum && partsMatch parts o.bytes

/-- What one pass over the table finds. -/
inductive Probe where
  | found (id : Nat)
  | free (slot : Nat)
  | limit
  | bad
  deriving DecidableEq

/-- The probe loop, ident.c 214-240 and 259-289.  `n` is the number of probes left before
`REPROBE_LIMIT` is reached. -/
def probe (t : Tab) (same : Obj → Bool) : Nat → Nat → Nat → Probe
  | 0, _, _ => .limit
  | n + 1, slot, i =>
    match t.slots[slot]? with
    | none => .bad
    | some none => .free slot
    | some (some id) =>
      match t.objs[id]? with
      | none => .bad
      | some o =>
        if same o then .found id else probe t same n (nextSlot slot i t.slots.length) (i + 1)

/-- Result of interning: the identifier and whether it existed before. -/
inductive InternRes where
  | ok (id : Nat) (existed : Bool) (t : Tab)
  | fatal
  | bad
  /-- still growing when the fuel ran out -/
  | growing

/-- The outer loop of `ident_from_bytes` and `ident_from_byte_vec`, ident.c 211-242 and
256-291; `fuel` bounds the number of rounds.  Installing a string that is too long is a
fatal error (`ident_install`, 105-106). -/
def internLoop (hash : BitVec 32) (same : Obj → Bool) (str : List Nat) : Nat → Tab → InternRes
  | 0, _ => .growing
  | fuel + 1, t =>
    match probe t same reprobeLimit (slotOf hash t.slots.length) 1 with
    | .found id => .ok id true t
    | .free slot =>
      if str.length ≥ maxLen then .fatal
      else .ok t.objs.length false
        { objs := t.objs ++ [⟨hash, str⟩], slots := t.slots.set slot (some t.objs.length) }
    | .limit =>
      match grow t with
      | none => .bad
      | some t => internLoop hash same str fuel t
    | .bad => .bad

/-- `ident_from_bytes`, ident.c 207-243, with the hash computed by its callers (for example
`ident_new_n`, 304-313). -/
def fromBytes (fuel : Nat) (t : Tab) (str : List Nat) : InternRes :=
  let hash := mixBits32 (hashUpdate hashInit str)
  internLoop hash (sameBytes hash str) str fuel t

/-- `ident_from_byte_vec`, ident.c 245-291, with the hash computed part by part by its
callers (for example `ident_prefix`, 504-520).  When `uniq` is set and the identifier
exists the C function returns NULL. -/
def fromVec (fuel : Nat) (t : Tab) (parts : List (List Nat)) : InternRes :=
  let hash := mixBits32 (parts.foldl hashUpdate hashInit)
  internLoop hash (sameParts parts) parts.flatten fuel t

/-- A call of one of the two interning functions. -/
inductive Op where
  | bytes (str : List Nat)
  | vec (uniq : Bool) (parts : List (List Nat))

/-- One call: the result is the identifier or NULL. -/
def step (fuel : Nat) (t : Tab) : Op → InternRes
  | .bytes str => fromBytes fuel t str
  | .vec _ parts => fromVec fuel t parts

/-- What the caller gets: NULL from a `uniq` call that finds the identifier. -/
def result (op : Op) (id : Nat) (existed : Bool) : Option Nat :=
  match op with
  | .vec true _ => if existed then none else some id
  | _ => some id

/-- A history of calls: the results and the final table, unless a call does not return. -/
def run (fuel : Nat) : Tab → List Op → Option (List (Option Nat) × Tab)
  | t, [] => some ([], t)
  | t, op :: ops =>
    match step fuel t op with
    | .ok id ex t => (run fuel t ops).map fun r => (result op id ex :: r.1, r.2)
    | _ => none

end Verif.Ident
