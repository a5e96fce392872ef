/-!
# The storage units (nexuses) of a signal

Model of the index and of splitting, `/repo/src/rt/model.c`: `map_index`, `unmap_index`, `index_valid`
(1283-1305), `build_index` (1307-1347), `update_index` (1349-1364), `lookup_index` (1366-1388),
`split_value` (1445-1478), `clone_nexus` (1553-1641), `split_nexus_slow` (1643-1669) and `split_nexus`
(1671-1683).

A nexus is a record in a list, which stands for the chain; the pointer to it is represented by its
byte offset `n->offset`, which never changes and differs between the nexuses of a signal.  A failed
assertion, an access outside an array or through a bad pointer is `none`.

Simplifications: numbers do not overflow; of the sources of a nexus only the values stored in their
waveforms are modelled; ports, that split the nexus at their other end in the same way, are not.
-/

namespace Verif.Sim.Nexus

/-- `NEXUS_INDEX_MIN`, rt/model.c 138. -/
def nexusIndexMin : Nat := 8

/-- `rt_value_t`, rt/structs.h 92-96: the bytes themselves, or a pointer to memory that holds the
given bytes from there on. -/
inductive Value where
  | inl (bytes : List UInt8)
  | ext (mem : List UInt8)
  deriving DecidableEq, Repr

/-- `sizeof(rt_value_t)` -/
def valueSize : Nat := 8

/-- `value_ptr`, rt/model.c 1129-1136: the `n` bytes of a value. -/
def contents (n : Nat) (v : Value) : Option (List UInt8) :=
  if n ≤ valueSize then
    match v with
    | .inl b => if n ≤ b.length then some (b.take n) else none
    | .ext _ => none
  else
    match v with
    | .inl _ => none
    | .ext m => if n ≤ m.length then some (m.take n) else none

/-- Copy over the first bytes of the inline value with contents `junk`. -/
def overwrite (src junk : List UInt8) : List UInt8 := src ++ junk.drop src.length

/-- The first eight bytes of memory, `*(uint64_t *)ext`. -/
def load (mem : List UInt8) : Option Value :=
  if valueSize ≤ mem.length then some (.inl (mem.take valueSize)) else none

/-- `split_value`, rt/model.c 1445-1478, with the width of the new nexus; gives the new and the old
value.  `junk` is what `v_new->bytes` holds before. -/
def splitValue (sz width : Nat) (junk : List UInt8) (v : Value) (offset : Nat) :
    Option (Value × Value) :=
  let split := offset * sz
  let oldsz := (offset + width) * sz
  let newsz := width * sz
  if split > valueSize ∧ newsz > valueSize then
    match v with
    | .ext m => if split ≤ m.length then some (.ext (m.drop split), v) else none
    | .inl _ => none
  else if newsz > valueSize then
    match v with
    | .ext m => if split ≤ m.length then (load m).map (fun o => (.ext (m.drop split), o)) else none
    | .inl _ => none
  else if split > valueSize then
    match v with
    | .ext m =>
      if split + newsz ≤ m.length then
        some (.inl (overwrite ((m.drop split).take newsz) junk), v)
      else none
    | .inl _ => none
  else if oldsz > valueSize then
    match v with
    | .ext m =>
      if split + newsz ≤ m.length then
        (load m).map (fun o => (.inl (overwrite ((m.drop split).take newsz) junk), o))
      else none
    | .inl _ => none
  else
    match v with
    | .inl b => some (.inl (b.drop split ++ List.replicate split 0), v)
    | .ext _ => none

/-- `rt_nexus_t`, rt/structs.h 182-198: width in elements, offset in bytes, and the values in the
waveforms of its drivers. -/
structure Nexus where
  width : Nat
  offset : Nat
  vals : List Value
  deriving DecidableEq, Repr

/-- `rt_index_t`, rt/structs.h 209-212. -/
structure Index where
  how : Int
  slots : List (Option Nat)
  deriving DecidableEq, Repr

/-- `rt_signal_t`, rt/structs.h 214-224, with the element size and `shared.size`. -/
structure Sig where
  sz : Nat
  bytes : Nat
  chain : List Nexus
  index : Option Index
  deriving DecidableEq, Repr

/-- rt/model.c 1283-1289 -/
def mapIndex (how : Int) (offset : Nat) : Nat :=
  if 0 ≤ how then offset >>> how.toNat else offset / how.natAbs

/-- rt/model.c 1291-1297 -/
def unmapIndex (how : Int) (key : Nat) : Nat :=
  if 0 ≤ how then key <<< how.toNat else key * how.natAbs

/-- rt/model.c 1299-1305 -/
def indexValid (how : Int) (offset : Nat) : Bool :=
  if 0 ≤ how then offset >>> how.toNat <<< how.toNat == offset else offset % how.natAbs == 0

/-- The inner loop of rt/model.c 1321-1325. -/
def euclid (gcd b : Nat) : Nat :=
  if h : 0 < b then euclid b (gcd % b) else gcd
termination_by b
decreasing_by exact Nat.mod_lt _ h

/-- `__builtin_ctz` for a positive argument -/
def ctz (n : Nat) : Nat :=
  if h : n = 0 then 0 else if n % 2 = 1 then 0 else ctz (n / 2) + 1
termination_by n
decreasing_by omega

/-- The first loop of `build_index`, rt/model.c 1311-1326; `none` is `INT_MAX`. -/
def scan (shift : Option Nat) (gcd offset : Nat) : List Nexus → Option Nat × Nat
  | [] => (shift, gcd)
  | n :: l =>
    let shift :=
      if offset > 0 then
        match shift with
        | none => some (ctz offset)
        | some s => some (min s (ctz offset))
      else shift
    scan shift (euclid gcd offset) (offset + n.width) l

/-- The second loop of `build_index`, rt/model.c 1339-1343. -/
def fill (how : Int) (slots : List (Option Nat)) (offset : Nat) :
    List Nexus → Option (List (Option Nat))
  | [] => some slots
  | n :: l =>
    if mapIndex how offset < slots.length then
      fill how (slots.set (mapIndex how offset) (some n.offset)) (offset + n.width) l
    else none

/-- `build_index`, rt/model.c 1307-1347.  With a single nexus the shift by `INT_MAX` is undefined. -/
def buildIndex (s : Sig) : Option Sig :=
  let signalW := s.bytes / s.sz
  match scan none 0 0 s.chain with
  | (none, _) => none
  | (some shift, gcd) =>
    let how : Int := if gcd > 1 ∧ gcd > 1 <<< shift ∧ gcd > 1 then -(gcd : Int) else shift
    let count := if how < 0 then (signalW + how.natAbs - 1) / how.natAbs else (signalW >>> shift) + 1
    (fill how (List.replicate count none) 0 s.chain).map
      (fun slots => { s with index := some ⟨how, slots⟩ })

/-- `update_index`, rt/model.c 1349-1364, for a nexus with the given byte offset. -/
def updateIndex (s : Sig) (ix : Index) (noff : Nat) : Option Sig :=
  let offset := noff / s.sz
  if indexValid ix.how offset = false then
    match buildIndex s with
    | none => none
    | some s' =>
      match s'.index with
      | none => none
      | some ix' => if ix'.slots[mapIndex ix'.how offset]? = some (some noff) then some s' else none
  else
    let elt := mapIndex ix.how offset
    if ix.slots[elt]? = some none then
      some { s with index := some { ix with slots := ix.slots.set elt (some noff) } }
    else none

/-- The loop of rt/model.c 1379-1385, from slot `k` down. -/
def search (slots : List (Option Nat)) : Nat → Option (Nat × Nat)
  | 0 => match slots[0]? with
    | some (some n) => some (0, n)
    | _ => none
  | k + 1 => match slots[k + 1]? with
    | some (some n) => some (k + 1, n)
    | _ => search slots k

/-- `lookup_index`, rt/model.c 1366-1388: the nexus, as its byte offset, and the offset that remains.
(The test `offset == 0` there is of the pointer and never true.) -/
def lookupIndex (s : Sig) (offset : Nat) : Option (Sig × Nat × Nat) :=
  match s.chain with
  | [] => none
  | first :: _ =>
    match s.index with
    | none => some (s, first.offset, offset)
    | some ix =>
      if indexValid ix.how offset = false then some ({ s with index := none }, first.offset, offset)
      else
        let key := mapIndex ix.how offset
        if key < ix.slots.length then
          match search ix.slots key with
          | some (k, n) => some (s, n, unmapIndex ix.how (key - k))
          | none => some (s, first.offset, offset)
        else none

/-- Which element of the chain a pointer points to. -/
def position (noff : Nat) : List Nexus → Option Nat
  | [] => none
  | n :: l => if n.offset = noff then some 0 else (position noff l).map (· + 1)

/-- The values of the drivers in `clone_source`, rt/model.c 1505-1546. -/
def splitVals (sz width offset : Nat) (junk : Nat → List UInt8) :
    Nat → List Value → Option (List Value × List Value)
  | _, [] => some ([], [])
  | j, v :: l =>
    match splitValue sz width (junk j) v offset, splitVals sz width offset junk (j + 1) l with
    | some (vn, vo), some (ln, lo) => some (vn :: ln, vo :: lo)
    | _, _ => none

/-- The new nexus and the rest of the old one, rt/model.c 1565-1577. -/
def splitOne (sz offset : Nat) (junk : Nat → List UInt8) (n : Nexus) : Option (Nexus × Nexus) :=
  (splitVals sz (n.width - offset) offset junk 0 n.vals).map fun (ln, lo) =>
    ({ width := offset, offset := n.offset, vals := lo },
     { width := n.width - offset, offset := n.offset + offset * sz, vals := ln })

/-- `clone_nexus`, rt/model.c 1553-1641, of element `i` of the chain. -/
def cloneNexus (junk : Nat → List UInt8) (s : Sig) (i offset : Nat) : Option Sig :=
  match s.chain[i]? with
  | none => none
  | some n =>
    if offset < n.width then
      match splitOne s.sz offset junk n with
      | none => none
      | some (old, new) =>
        let s := { s with chain := s.chain.take i ++ old :: new :: s.chain.drop (i + 1) }
        match s.index with
        | none => if s.chain.length ≥ nexusIndexMin then buildIndex s else some s
        | some ix => updateIndex s ix new.offset
    else none

/-- The iterations of `split_nexus_slow` that skip a nexus, rt/model.c 1648-1651: how many, and the
offset that remains. -/
def skip : Nat → List Nexus → Option (Nat × Nat)
  | _, [] => none
  | offset, n :: l =>
    if offset ≥ n.width then (skip (offset - n.width) l).map (fun (k, r) => (k + 1, r))
    else some (0, offset)

/-- The iterations that take a whole nexus, rt/model.c 1657-1665: how many, and the count that
remains. -/
def takeWhole : Nat → List Nexus → Option (Nat × Nat)
  | 0, _ => some (0, 0)
  | _ + 1, [] => none
  | count + 1, n :: l =>
    if n.width > count + 1 then some (0, count + 1)
    else (takeWhole (count + 1 - n.width) l).map (fun (k, r) => (k + 1, r))

/-- rt/model.c 1652-1656: split at the remaining offset; the next element to look at. -/
def atOffset (junk : Nat → List UInt8) (s : Sig) (i r : Nat) : Option (Sig × Nat) :=
  if r > 0 then (cloneNexus junk s i r).map (·, i + 1) else some (s, i)

/-- rt/model.c 1658-1659: split at the remaining count. -/
def atCount (junk : Nat → List UInt8) (s : Sig) (i r : Nat) : Option Sig :=
  if r > 0 then cloneNexus junk s i r else some s

/-- `split_nexus_slow`, rt/model.c 1643-1669.  The loop is written as its three kinds of iterations,
which follow each other in this order because `offset` stays 0 once it is 0. -/
def splitSlow (junk1 junk2 : Nat → List UInt8) (s : Sig) (offset count : Nat) : Option (Sig × Nat) :=
  match lookupIndex s offset with
  | none => none
  | some (s, noff, offset) =>
    match position noff s.chain with
    | none => none
    | some i =>
      match skip offset (s.chain.drop i) with
      | none => none
      | some (k, r) =>
        match atOffset junk1 s (i + k) r with
        | none => none
        | some (s, i) =>
          match takeWhole count (s.chain.drop i) with
          | none => none
          | some (m, q) => (atCount junk2 s (i + m) q).map (·, i)

/-- `split_nexus`, rt/model.c 1671-1683; gives the element of the chain that is returned. -/
def splitNexus (junk1 junk2 : Nat → List UInt8) (s : Sig) (offset count : Nat) :
    Option (Sig × Nat) :=
  match s.chain with
  | [] => none
  | n0 :: _ =>
    if offset = 0 ∧ n0.width = count then some (s, 0)
    else if offset = 0 ∧ count = s.bytes / s.sz then some (s, 0)
    else splitSlow junk1 junk2 s offset count

/-- `setup_signal`, rt/model.c 1685-1716. -/
def newSignal (count sz : Nat) (vals : List Value) : Sig :=
  { sz := sz, bytes := count * sz, chain := [{ width := count, offset := 0, vals := vals }],
    index := none }

end Verif.Sim.Nexus
