import Verif.Mask.Model
/-!
# The garbage collected heap

Model of `/repo/src/rt/mspace.c`: `mspace_new`, `mspace_try_alloc`, `mspace_alloc`,
`mspace_mark_root`, `mspace_gc`, `mspace_find`, `tlab_acquire` and `tlab_alloc`, with the variants of
the last one in `/repo/src/jit/jit-intrin.c` and in the code that `/repo/src/jit/jit-llvm.c` emits.

The heap is an array of lines of 32 bytes; pointers into it are numbers.  `headmask` and `markmask`
are the bit masks of `Verif/Mask/Model`, with all their accesses.  A `none` result is an access
outside an array or a failed assertion.

Simplifications:
* The free list is a list of pairs: the first line, and the number of lines.  Its nodes are not on
  this heap.  All addresses and sizes in it are multiples of `LINE_SIZE`.
* What the collector scans for roots (registers and stacks of the stopped threads, the `mptr_t`
  list, and the allocated part of the thread-local buffers) is one list of words.
* The contents of the heap do not change during a collection: the other threads are stopped.
* The byte that `mspace_try_alloc` writes (line 213) is not modelled; contents are an argument.
-/
namespace Verif.Gc

open Verif.Mask (Mask)

/-- `struct _mspace`, mspace.c 78-96.  `base` is the address of `space`, a multiple of 32. -/
structure Space where
  base : Nat
  maxlines : Nat
  heads : Mask
  free : List (Nat × Nat)
deriving DecidableEq

/-- `mspace_new`, mspace.c 103-132, for `size > 0`; `none` if the size is above `MAX_HEAP`. -/
def new (base size : Nat) : Option Space :=
  let maxsize := (size + 31) / 32 * 32
  let maxlines := (maxsize - 32) / 32
  if maxsize > 0x100000000 * 32 then none
  else do
    let heads ← Mask.setAll (Mask.init maxlines)
    some { base := base, maxlines := maxlines, heads := heads, free := [(0, maxlines)] }

/-! ## Allocation -/

/-- mspace.c 183: the number of lines of an object, in 64 bits. -/
def nlines (size : Nat) : Nat := (size + 32) % 2 ^ 64 / 32

/-- The loop of `mspace_try_alloc`, mspace.c 188-219: the first fragment that is large enough.  The
result is its first line and the new free list. -/
def fit (n : Nat) : List (Nat × Nat) → Option (Nat × List (Nat × Nat))
  | [] => none
  | f :: fs =>
    if f.2 ≥ n then some (f.1, if f.2 = n then fs else (f.1 + n, f.2 - n) :: fs)
    else (fit n fs).map fun r => (r.1, f :: r.2)

/-- `mspace_try_alloc`, mspace.c 179-222.  The result is the line of the object and the new heap, or
`some none` for `NULL`. -/
def tryAlloc (m : Space) (size : Nat) : Option (Option (Nat × Space)) :=
  match fit (nlines size) m.free with
  | none => some none
  | some (line, free) =>
    match Mask.set m.heads line with
    | none => none
    | some heads =>
      match (if nlines size > 1 then Mask.clearRange heads (line + 1) (nlines size - 1)
        else some heads) with
      | none => none
      | some heads => some (some (line, { m with heads := heads, free := free }))

/-! ## Collection -/

/-- `is_mspace_ptr`, mspace.c 415-418; `maxsize` is one line more than `maxlines`. -/
def isPtr (m : Space) (p : Nat) : Bool := m.base ≤ p && p < m.base + 32 * (m.maxlines + 1)

/-- mspace.c 427-433, 594-602: the object with this line, as its first line and length. -/
def objectAt (m : Space) (line : Nat) : Option (Nat × Nat) :=
  match Mask.scanBackwards m.heads line with
  | none => none
  | some head =>
    if head = -1 then none
    else if head.toNat + 1 < m.maxlines then
      (Mask.countClear m.heads (head.toNat + 1)).map fun n => (head.toNat, 1 + n)
    else some (head.toNat, 1)

/-- `gc_state_t`, mspace.c 61-68.  The last entry of the work list is the first here. -/
structure Marks where
  marks : Mask
  work : List Nat

/-- `mspace_mark_root`, mspace.c 420-442. -/
def markRoot (m : Space) (p : Nat) (st : Marks) : Option Marks :=
  if isPtr m p then
    match objectAt m ((p - m.base) / 32) with
    | none => none
    | some (line, objlen) =>
      match Mask.test st.marks line with
      | none => none
      | some true => some st
      | some false =>
        (Mask.setRange st.marks line objlen).map fun k => ⟨k, (line * 2 ^ 32 + objlen) :: st.work⟩
  else some st

/-- All words of a list. -/
def markAll (m : Space) : List Nat → Marks → Option Marks
  | [], st => some st
  | p :: ps, st => (markRoot m p st).bind (markAll m ps)

/-- The words of an object, mspace.c 522-527; `mem` has the words of the heap, four in each line. -/
def words (mem : Nat → Nat) (line objlen : Nat) : List Nat :=
  (List.range (4 * objlen)).map fun k => mem (4 * line + k)

/-- The loop of `mspace_gc`, mspace.c 517-528, for at most `fuel` rounds. -/
def drain (m : Space) (mem : Nat → Nat) : Nat → Marks → Option Marks
  | fuel, st =>
    match st.work with
    | [] => some st
    | enc :: work =>
      match fuel with
      | 0 => none
      | fuel + 1 =>
        (markAll m (words mem (enc / 2 ^ 32) (enc % 2 ^ 32)) { st with work := work }).bind
          (drain m mem fuel)

/-- mspace.c 543-565: every run of lines without a mark is a fragment of the free list.  The result
is the new head mask and the fragments.  The loop has at most `fuel` rounds. -/
def sweep (n : Nat) (marks : Mask) : Nat → Nat → Mask → Option (Mask × List (Nat × Nat))
  | 0, _, heads => some (heads, [])
  | fuel + 1, line, heads =>
    if line < n then
      match Mask.countClear marks line with
      | none => none
      | some 0 => sweep n marks fuel (line + 1) heads
      | some (k + 1) =>
        match Mask.setRange heads line (k + 1) with
        | none => none
        | some heads =>
          (sweep n marks fuel (line + (k + 1)) heads).map fun r => (r.1, (line, k + 1) :: r.2)
    else some (heads, [])

/-- `mspace_gc`, mspace.c 455-583.  That the numbers of rounds suffice is shown. -/
def gc (m : Space) (mem : Nat → Nat) (roots : List Nat) : Option Space := do
  let st ← markAll m roots ⟨Mask.init m.maxlines, []⟩
  let st ← drain m mem m.maxlines st
  let r ← sweep m.maxlines st.marks m.maxlines 0 m.heads
  some { m with heads := r.1, free := r.2 }

/-- `mspace_alloc`, mspace.c 224-251, of `size > 0`: two collections when there is no room.  `some
none`: out of memory.  Roots and contents may be different in the collections. -/
def alloc (m : Space) (size : Nat) (mem₁ mem₂ : Nat → Nat) (roots₁ roots₂ : List Nat) :
    Option (Option Nat × Space) :=
  match tryAlloc m size with
  | none => none
  | some (some (line, m)) => some (some line, m)
  | some none => do
    let m ← gc m mem₁ roots₁
    match ← tryAlloc m size with
    | some (line, m) => some (some line, m)
    | none => do
      let m ← gc m mem₂ roots₂
      some (none, m)

/-- `mspace_find`, mspace.c 585-604: the address and the size of the object with this address. -/
def find (m : Space) (p : Nat) : Option (Option (Nat × Nat)) :=
  if isPtr m p then
    (objectAt m ((p - m.base) / 32)).map fun o => some (m.base + 32 * o.1, 32 * o.2)
  else some none

/-! ## Thread-local buffers -/

/-- `tlab_t`, mspace.h 33-38, without the data.  Both fields are `uint32_t`. -/
structure Tlab where
  alloc : Nat
  limit : Nat
deriving DecidableEq

/-- The values `tlab_acquire` sets, mspace.c 363-366, where the data has offset 16. -/
def acquire : Tlab := ⟨0, 65536 - 32⟩

/-- `ALIGN_UP` to `a`, a power of two, in `w` bits, util.h 89-92. -/
def alignUp (w a n : Nat) : Nat := (n + (a - 1)) % 2 ^ w / a * a

/-- The asserts of mspace.c 403-404, jit-intrin.c 193-194. -/
def Tlab.ok (t : Tlab) : Bool := t.alloc ≤ t.limit && t.alloc % 8 == 0

/-- `tlab_alloc`, mspace.c 401-413: an offset in the data, or `some (none, t)` where `mspace_alloc` is
called.  `none`: an assertion fails.  The size is below `2^64`. -/
def tlabAlloc (t : Tlab) (size : Nat) : Option (Option Nat × Tlab) :=
  if !t.ok then none
  else if (t.alloc + size) % 2 ^ 64 ≤ t.limit then
    some (some t.alloc, { t with alloc := (t.alloc + alignUp 64 8 size) % 2 ^ 32 })
  else some (none, t)

/-- `__tlab_alloc`, jit-intrin.c 190-205.  `align` is a power of two. -/
def tlabAllocIntrin (t : Tlab) (size align : Nat) : Option (Option Nat × Tlab) :=
  if !t.ok || align % 8 != 0 then none
  else
    let base := alignUp 64 align t.alloc % 2 ^ 32
    if (base + alignUp 64 8 size) % 2 ^ 64 ≤ t.limit then
      some (some base, { t with alloc := (base + alignUp 64 8 size) % 2 ^ 32 })
    else some (none, t)

/-- The function emitted by `cgen_tlab_alloc_body`, jit-llvm.c 3093-3163: the size is truncated to 32
bits. -/
def tlabAllocLlvm (t : Tlab) (size : Nat) : Option Nat × Tlab :=
  let next := (t.alloc + alignUp 32 8 (size % 2 ^ 32)) % 2 ^ 32
  if next > t.limit then (none, t)
  else (some t.alloc, { t with alloc := next })

end Verif.Gc
