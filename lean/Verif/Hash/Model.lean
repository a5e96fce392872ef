import Verif.Util.Model

/-!
# Hash tables

Model of the sequential tables of `/repo/src/hash.c`.

Keys are values of an arbitrary type `K` compared with `=`: object identity for `hash_t`
and `hset_t`, contents for `shash_t` (`strcmp`, keys are private copies), 64-bit integers
for `ihash_t`, and equivalence classes of the comparison callback for `ghash_t`.  The
hash function (`hf`) is an arbitrary function to naturals, so the theorems hold for the
functions actually used.  Stored values are `Option V`, with `none` for the null pointer.
Table sizes are unbounded naturals (the C code overflows `unsigned` only beyond 2^31
slots).
-/

namespace Verif.Hash

/-- Abnormal outcomes: a probe loop that can never stop, or an out-of-bounds access or
failed assertion. -/
inductive Fail where
  | diverge
  | ub
  deriving DecidableEq

abbrev M := Except Fail

/-- The common layout: `struct _hash` hash.c 28-33, `struct _shash` 169-174,
`struct _ghash` 812-819.  A null key pointer is `none` in `keys`; a null value pointer is
`none` in `vals`. -/
structure Tab (K V : Type) where
  size : Nat
  members : Nat
  keys : List (Option K)
  vals : List (Option V)
  deriving DecidableEq

variable {K V : Type} [DecidableEq K]

/-- An all-null table of the given size (`xcalloc`). -/
def empty (size : Nat) : Tab K V :=
  { size := size, members := 0, keys := List.replicate size none,
    vals := List.replicate size none }

/-- `hash_new` hash.c 41-52, `shash_new` 192-203, `ihash_new` 330-348, `hset_new`
438-446, `ghash_new` 829-842. -/
def new (n : BitVec 32) : Tab K V := empty (Util.nextPowerOf2 n).toNat

/-- `hash_slot` 35-39 and its analogues `shash_slot`, `ihash_slot`, `ghash_slot`: the mixed
hash value masked by `size - 1`. -/
def slotOf (hf : K → Nat) (size : Nat) (k : K) : Nat := hf k &&& (size - 1)

/-- The probe loop `for (; ; slot = (slot + 1) & (size - 1))` shared by all operations:
stops at the key (`true`) or at a null key (`false`).  The loop body does not change the
table, and after `size` steps the slot is the initial one again, so running out of the
fuel `size` means that the C loop runs for ever. -/
def probe (keys : List (Option K)) (size : Nat) (k : K) : Nat → Nat → M (Nat × Bool)
  | 0, _ => .error .diverge
  | f + 1, slot =>
    match keys[slot]? with
    | none => .error .ub
    | some none => .ok (slot, false)
    | some (some k') =>
      if k' = k then .ok (slot, true) else probe keys size k f ((slot + 1) &&& (size - 1))

/-- Probe from the home slot. -/
def find (hf : K → Nat) (t : Tab K V) (k : K) : M (Nat × Bool) :=
  probe t.keys t.size k t.size (slotOf hf t.size k)

/-- The insertion loop without growth: `hash_put` 99-115, `shash_put_copy` 219-235,
`ihash_put` 394-409 and `hset_insert` 475-485.  Returns whether the key was present. -/
def insert (hf : K → Nat) (t : Tab K V) (k : K) (v : Option V) : M (Tab K V × Bool) :=
  match find hf t k with
  | .error e => .error e
  | .ok (i, true) => .ok ({ t with vals := t.vals.set i v }, true)
  | .ok (i, false) =>
    .ok ({ t with keys := t.keys.set i (some k), vals := t.vals.set i v,
                  members := t.members + 1 }, false)

/-! ## hash_t -/

/-- One iteration of the rebuild loop of `hash_put`, hash.c 79-94: live entries only; the
assertion excludes a key already present. -/
def hashRehashStep (hf : K → Nat) (t : Tab K V) (e : Option K × Option V) : M (Tab K V) :=
  match e with
  | (some k, some v) =>
    match insert hf t k (some v) with
    | .error e => .error e
    | .ok (_, true) => .error .ub
    | .ok (t', false) => .ok t'
  | _ => .ok t

/-- `hash_put`, hash.c 62-116. -/
def hashPut (hf : K → Nat) (t : Tab K V) (k : K) (v : Option V) : M (Tab K V × Bool) := do
  let t ← if t.members > t.size / 2 then
      (t.keys.zip t.vals).foldlM (hashRehashStep hf) (empty (t.size * 2))
    else .ok t
  insert hf t k v

/-- `hash_delete`, hash.c 118-130 (also `shash_delete` 277-288). -/
def delete (hf : K → Nat) (t : Tab K V) (k : K) : M (Tab K V) :=
  match find hf t k with
  | .error e => .error e
  | .ok (i, true) => .ok { t with vals := t.vals.set i none }
  | .ok (_, false) => .ok t

/-- `hash_get`, hash.c 132-142 (also `shash_get` 265-275). -/
def get (hf : K → Nat) (t : Tab K V) (k : K) : M (Option V) :=
  match find hf t k with
  | .error e => .error e
  | .ok (i, true) => match t.vals[i]? with | none => .error .ub | some v => .ok v
  | .ok (_, false) => .ok none

/-- The pairs that repeated calls of `hash_iter` (hash.c 144-159) deliver, from slot 0 to
the last. -/
def iterate (t : Tab K V) : List (K × V) :=
  (t.keys.zip t.vals).filterMap fun e =>
    match e with
    | (some k, some v) => some (k, v)
    | _ => none

/-- The common loop body `if (old_keys[i] != NULL) put(h, old_keys[i], old_values[i])` of
the rebuild loops of `shash_put` (254-257), `ihash_put` (383-386) and `ghash_put`
(869-872). -/
def onEntry {σ : Type} (f : σ → K → Option V → M σ) (s : σ) : Option K × Option V → M σ
  | (none, _) => .ok s
  | (some k, v) => f s k v

/-! ## shash_t -/

/-- `shash_put_copy`, hash.c 219-235. -/
def shashPutCopy (hf : K → Nat) (t : Tab K V) (k : K) (v : Option V) : M (Tab K V) := do
  let r ← insert hf t k v
  .ok r.1

/-- `shash_put`, hash.c 237-263: the rebuild loop keeps entries with null values. -/
def shashPut (hf : K → Nat) (t : Tab K V) (k : K) (v : Option V) : M (Tab K V) := do
  let t ← if t.members > t.size / 2 then
      (t.keys.zip t.vals).foldlM (onEntry (shashPutCopy hf)) (empty (t.size * 2))
    else .ok t
  shashPutCopy hf t k v

/-! ## ihash_t -/

/-- `struct _ihash`, hash.c 311-319.  The occupancy bit of slot `i` in `mask` is
represented by `keys[i]` being `some`.  `cachekey` starts undefined (`none`): it is not
initialised by `ihash_new`. -/
structure ITab (K V : Type) where
  tab : Tab K V
  cachekey : Option K
  cacheval : Option V

/-- `ihash_new`, hash.c 330-348. -/
def inew (n : BitVec 32) : ITab K V := { tab := new n, cachekey := none, cacheval := none }

/-- `ihash_put`, hash.c 358-410; `depth` bounds the recursion from the rebuild loop. -/
def ihashPut (hf : K → Nat) : Nat → ITab K V → K → Option V → M (ITab K V)
  | depth, t, k, v => do
    let t ← if t.tab.members > t.tab.size / 2 then
        match depth with
        | 0 => .error .diverge
        | d + 1 =>
          (t.tab.keys.zip t.tab.vals).foldlM (onEntry (ihashPut hf d))
            { t with tab := empty (t.tab.size * 2) }
      else .ok t
    let r ← insert hf t.tab k v
    .ok { tab := r.1, cachekey := some k, cacheval := v }

/-- `ihash_get`, hash.c 412-427.  Comparing with an undefined cache key is guarded by
`members > 0`; if it happened all the same the outcome would be undefined. -/
def ihashGet (hf : K → Nat) (t : ITab K V) (k : K) : M (Option V × ITab K V) :=
  if t.tab.members > 0 then
    match t.cachekey with
    | none => .error .ub
    | some c =>
      if k = c then .ok (t.cacheval, t)
      else do
        let v ← get hf t.tab k
        .ok (v, { t with cachekey := some k, cacheval := v })
  else do
    let v ← get hf t.tab k
    .ok (v, { t with cachekey := some k, cacheval := v })

/-! ## hset_t -/

/-- `hset_insert`, hash.c 456-486 (the `vals` component does not exist in C and is always
`some ()` here). -/
def hsetInsert (hf : K → Nat) : Nat → Tab K Unit → K → M (Tab K Unit)
  | depth, t, k => do
    let t ← if t.members > t.size / 2 then
        match depth with
        | 0 => .error .diverge
        | d + 1 =>
          (t.keys.zip t.vals).foldlM (onEntry (fun t k _ => hsetInsert hf d t k))
            (empty (t.size * 2))
      else .ok t
    match find hf t k with
    | .error e => .error e
    | .ok (_, true) => .ok t
    | .ok (i, false) =>
      .ok { t with keys := t.keys.set i (some k), vals := t.vals.set i (some ()),
                   members := t.members + 1 }

/-- `hset_contains`, hash.c 488-498. -/
def hsetContains (hf : K → Nat) (t : Tab K Unit) (k : K) : M Bool :=
  match find hf t k with
  | .error e => .error e
  | .ok (_, b) => .ok b

/-! ## ghash_t -/

/-- The insertion loop of `ghash_put`, hash.c 877-888: unlike the other tables it does not
stop at a matching key but overwrites its value and goes on to a null slot.  The loop may
change values but not keys, so exhausted fuel again means an infinite loop. -/
def ghashLoop (size : Nat) (k : K) (v : Option V) : Nat → Nat → Tab K V → M (Tab K V)
  | 0, _, _ => .error .diverge
  | f + 1, slot, t =>
    match t.keys[slot]? with
    | none => .error .ub
    | some none =>
      .ok { t with keys := t.keys.set slot (some k), vals := t.vals.set slot v,
                   members := t.members + 1 }
    | some (some k') =>
      ghashLoop size k v f ((slot + 1) &&& (size - 1))
        (if k' = k then { t with vals := t.vals.set slot v } else t)

/-- `ghash_put`, hash.c 852-889. -/
def ghashPut (hf : K → Nat) : Nat → Tab K V → K → Option V → M (Tab K V)
  | depth, t, k, v => do
    let t ← if t.members > t.size / 2 then
        match depth with
        | 0 => .error .diverge
        | d + 1 =>
          (t.keys.zip t.vals).foldlM (onEntry (ghashPut hf d)) (empty (t.size * 2))
      else .ok t
    ghashLoop t.size k v t.size (slotOf hf t.size k) t

/-- `ghash_get`, hash.c 891-901. -/
def ghashGet (hf : K → Nat) (t : Tab K V) (k : K) : M (Option V) := get hf t k

/-- `ghash_delete`, hash.c 903-915.  (The C code calls the comparison callback with a null
first argument before testing for a null key; that call is not represented.) -/
def ghashDelete (hf : K → Nat) (t : Tab K V) (k : K) : M (Tab K V) := delete hf t k

end Verif.Hash
