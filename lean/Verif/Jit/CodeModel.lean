/-!
# The cache of generated machine code

Model of `/repo/src/jit/jit-code.c`: `code_span_new` (212-231), `code_page_new` (233-255),
`code_cache_new` (257-265), `code_blob_new` (449-504), `code_blob_finalise` (506-556),
`code_blob_overflow` (558-568), `code_blob_emit` (570-582), `code_blob_mark` (600-621),
`code_blob_patch` (623-642), `code_cache_unwinder` (161-174), and of `jit_x86_patch`,
`/repo/src/jit/jit-x86.c` 1355-1374, with the jumps that use it (`asm_jmp`, `asm_jcc`, jit-x86.c
997-1063).

Threads work at the same time; each function is one step.  This is exact for the shared data: the
pages, the global free span and the list of spans are only used under the lock, the list of free
spans has an element per thread, and a blob belongs to one thread.  A new page is mapped at any address
that the operating system may choose.  Addresses are natural numbers that do not wrap around;
memory maps addresses to bytes.

Simplifications: `code_blob_align` is a use of `code_blob_emit`; the table of labels is a list;
the list of spans keeps those with names and is in the order of creation (oldest first, C has
newest first); loading of object files by `code_load_elf` is not modelled.
-/

namespace Verif.Jit.Code

/-- `CODE_PAGE_SIZE`, jit-code.c 88. -/
def pageSize : Nat := 0x400000
/-- `CODE_PAGE_ALIGN`, jit-code.c 87. -/
def pageAlign : Nat := 4096
/-- `THREAD_CACHE_SIZE`, jit-code.c 89. -/
def cacheSize : Nat := 0x10000
/-- `CODE_BLOB_ALIGN`, jit-code.c 90. -/
def blobAlign : Nat := 256
/-- `MIN_BLOB_SIZE`, jit-code.c 91. -/
def minBlob : Nat := 0x4000

/-- `ALIGN_UP`, `/repo/src/util.h`. -/
def alignUp (n : Nat) : Nat := (n + blobAlign - 1) / blobAlign * blobAlign

structure Region where
  base : Nat
  size : Nat
  deriving DecidableEq, Repr

/-- `code_span_t` with a name, jit-code.c 118-128. -/
structure Span where
  name : Nat
  base : Nat
  size : Nat
  deriving DecidableEq, Repr

/-- Size of the displacement of a jump. -/
inductive Width where
  | w8
  | w32
  deriving DecidableEq, Repr

def Width.len : Width → Nat
  | .w8 => 1
  | .w32 => 4

/-- What the code generator asked for; only recorded, to say what the code should be. -/
inductive Item where
  | bytes (bs : List Nat)
  | label (l : Nat)
  | branch (opc : List Nat) (l : Nat) (w : Width)
  deriving DecidableEq, Repr

/-- `code_blob_t`, `/repo/src/jit/jit-priv.h`; `sp` is the index of the span, whose base and size
at creation are kept here. -/
structure Blob where
  sp : Nat
  name : Nat
  base : Nat
  size : Nat
  wptr : Nat
  overflow : Bool
  labels : List (Nat × Nat)
  /-- label and address of the end of the jump -/
  patches : List (Nat × Nat)
  items : List Item
  deriving DecidableEq, Repr

/-- Code whose entry point was stored. -/
structure Done where
  name : Nat
  base : Nat
  size : Nat
  items : List Item
  deriving DecidableEq, Repr

/-- `code_cache_t`, jit-code.c 143-156, with the open blob of each thread and the memory. -/
structure St where
  pages : List Nat
  gfree : Region
  free : Nat → Option Region
  blob : Nat → Option Blob
  spans : List Span
  mem : Nat → Nat
  done : List Done
  /-- spans of blobs given up because they were too small; only recorded -/
  stale : List Span

/-- Result of an operation. -/
inductive Res (α : Type) where
  | ok (x : α)
  /-- `fatal_trace` -/
  | fatal
  /-- a failed assertion -/
  | assert

def Res.bind {α β : Type} : Res α → (α → Res β) → Res β
  | .ok x, f => f x
  | .fatal, _ => .fatal
  | .assert, _ => .assert

def upd (g : Nat → α) (k : Nat) (v : α) : Nat → α := fun x => if x = k then v else g x

/-- `code_cache_new`, jit-code.c 257-265, with a first page at the given address. -/
def cacheNew (page : Nat) (mem : Nat → Nat) : St :=
  { pages := [page], gfree := ⟨page, pageSize⟩, free := fun _ => none, blob := fun _ => none,
    spans := [], mem := mem, done := [], stale := [] }

/-- `code_page_new`, jit-code.c 233-255. -/
def pageNew (s : St) (page : Nat) : St :=
  { s with pages := page :: s.pages, gfree := ⟨page, pageSize⟩ }

/-- jit-code.c 461-487: take a piece of the global free span, after mapping a page if it is too
small. -/
def refill (s : St) (t reqsz page : Nat) : St :=
  let alignedsz := alignUp (max reqsz cacheSize)
  let s := if alignedsz > s.gfree.size then pageNew s page else s
  let take := min s.gfree.size alignedsz
  { s with free := upd s.free t (some ⟨s.gfree.base, take⟩),
           gfree := ⟨s.gfree.base + take, s.gfree.size - take⟩ }

/-- jit-code.c 489-503: the blob gets the whole free span of the thread. -/
def open_ (s : St) (t name : Nat) (fr : Region) : St :=
  { s with
    spans := s.spans ++ [⟨name, fr.base, fr.size⟩],
    free := upd s.free t (some ⟨fr.base + fr.size, 0⟩),
    blob := upd s.blob t (some ⟨s.spans.length, name, fr.base, fr.size, fr.base, false, [], [], []⟩) }

/-- jit-code.c 451-457. -/
def freeOf (s : St) (t : Nat) : Region := (s.free t).getD ⟨s.pages.headD 0, 0⟩

/-- jit-code.c 459. -/
def reqOf (hint : Nat) : Nat := if hint = 0 then minBlob else hint

/-- jit-code.c 461. -/
def ready (s : St) (t hint page : Nat) : St :=
  if (freeOf s t).size < reqOf hint then refill s t (reqOf hint) page else s

/-- `code_blob_new`, jit-code.c 449-504. -/
def blobNew (s : St) (t name hint page : Nat) : Res St :=
  let s' := ready s t hint page
  let fr := freeOf s' t
  if fr.size < reqOf hint then .assert
  else if fr.base % blobAlign ≠ 0 then .assert
  else .ok (open_ s' t name fr)

/-- `memcpy`. -/
def write (mem : Nat → Nat) (p : Nat) (bs : List Nat) : Nat → Nat :=
  fun a => if p ≤ a ∧ a < p + bs.length then bs.getD (a - p) 0 else mem a

/-- `code_blob_emit`, jit-code.c 570-582, with `code_blob_overflow`; `it` is the item recorded. -/
def emit (mem : Nat → Nat) (b : Blob) (bs : List Nat) (it : Item) : (Nat → Nat) × Blob :=
  if b.overflow then (mem, b)
  else if b.wptr + bs.length > b.base + b.size then
    (mem, { b with patches := [], overflow := true })
  else
    (write mem b.wptr bs, { b with wptr := b.wptr + bs.length, items := b.items ++ [it] })

/-- Byte `k` of a displacement, jit-x86.c 1367-1370. -/
def byteOf (rel : Int) (k : Nat) : Nat := (rel / (256 ^ k : Nat) % 256).toNat

/-- `jit_x86_patch`, jit-x86.c 1355-1374: `e` is the end of the jump. -/
def patchAt (mem : Nat → Nat) (e dest : Nat) : Res (Nat → Nat) :=
  let rel : Int := (dest : Int) - (e : Int)
  if mem (e - 1) = 8 then
    if -128 ≤ rel ∧ rel ≤ 127 then .ok (write mem (e - 1) [byteOf rel 0]) else .fatal
  else if mem (e - 1) = 32 then
    .ok (write mem (e - 4) [byteOf rel 0, byteOf rel 1, byteOf rel 2, byteOf rel 3])
  else .assert

def lookup (l : Nat) : List (Nat × Nat) → Option Nat
  | [] => none
  | (k, v) :: r => if k = l then some v else lookup l r

/-- The loop of `code_blob_mark`, jit-code.c 609-620. -/
def patchAll (l dest : Nat) : (Nat → Nat) → List (Nat × Nat) → Res ((Nat → Nat) × List (Nat × Nat))
  | mem, [] => .ok (mem, [])
  | mem, (k, e) :: r =>
    if k = l then (patchAt mem e dest).bind fun mem' => patchAll l dest mem' r
    else (patchAll l dest mem r).bind fun x => .ok (x.1, (k, e) :: x.2)

/-- `code_blob_mark`, jit-code.c 600-621. -/
def mark (mem : Nat → Nat) (b : Blob) (l : Nat) : Res ((Nat → Nat) × Blob) :=
  if b.overflow then .ok (mem, b)
  else (patchAll l b.wptr mem b.patches).bind fun x =>
    .ok (x.1, { b with labels := (l, b.wptr) :: b.labels, patches := x.2,
                       items := b.items ++ [.label l] })

/-- `code_blob_patch`, jit-code.c 623-642. -/
def patch (mem : Nat → Nat) (b : Blob) (l : Nat) : Res ((Nat → Nat) × Blob) :=
  if b.overflow then .ok (mem, b)
  else match lookup l b.labels with
    | some d => (patchAt mem b.wptr d).bind fun mem' => .ok (mem', b)
    | none => .ok (mem, { b with patches := (l, b.wptr) :: b.patches })

/-- The bytes which stand for a displacement not yet known; the last one is its size
(jit-x86.c 1004-1010). -/
def holder : Width → List Nat
  | .w8 => [8]
  | .w32 => [0, 0, 0, 32]

/-- A jump, jit-x86.c 1627-1639. -/
def branch (mem : Nat → Nat) (b : Blob) (opc : List Nat) (l : Nat) (w : Width) :
    Res ((Nat → Nat) × Blob) :=
  let x := emit mem b (opc ++ holder w) (.branch opc l w)
  patch x.1 x.2 l

/-- The size of a span is set, jit-code.c 509. -/
def setSize (l : List Span) (k size : Nat) : List Span :=
  match l[k]? with
  | some sp => l.set k { sp with size := size }
  | none => l

/-- `code_blob_finalise`, jit-code.c 506-556. -/
def finalise (s : St) (t : Nat) (b : Blob) : Res St :=
  let fr := freeOf s t
  let s := { s with spans := setSize s.spans b.sp (b.wptr - b.base), blob := upd s.blob t none }
  if fr.size ≠ 0 then .assert
  else if b.patches ≠ [] then .fatal
  else if b.overflow then
    .ok { s with free := upd s.free t (some ⟨b.base, fr.base - b.base⟩),
                 stale := s.stale ++ [⟨b.name, b.base, b.wptr - b.base⟩] }
  else if b.wptr - b.base = 0 then .fatal
  else
    .ok { s with free := upd s.free t (some ⟨alignUp b.wptr, fr.base - alignUp b.wptr⟩),
                 done := s.done ++ [⟨b.name, b.base, b.wptr - b.base, b.items⟩] }

/-- What a thread does. -/
inductive Op where
  /-- `page` is where a new page would be mapped -/
  | new (t name hint page : Nat)
  | emit (t : Nat) (bs : List Nat)
  | mark (t l : Nat)
  | branch (t : Nat) (opc : List Nat) (l : Nat) (w : Width)
  | finalise (t : Nat)

/-- Put back the memory and the blob. -/
def St.back (s : St) (t : Nat) (x : (Nat → Nat) × Blob) : St :=
  { s with mem := x.1, blob := upd s.blob t (some x.2) }

/-- `none` when there is no blob to work on. -/
def exec (s : St) : Op → Option (Res St)
  | .new t name hint page => if s.blob t = none then some (blobNew s t name hint page) else none
  | .emit t bs => (s.blob t).map fun b => .ok (s.back t (emit s.mem b bs (.bytes bs)))
  | .mark t l => (s.blob t).map fun b => (mark s.mem b l).bind fun x => .ok (s.back t x)
  | .branch t opc l w => (s.blob t).map fun b => (branch s.mem b opc l w).bind fun x => .ok (s.back t x)
  | .finalise t => (s.blob t).map fun b => finalise s t b

/-- Two pages do not overlap. -/
def Apart (p q : Nat) : Prop := p + pageSize ≤ q ∨ q + pageSize ≤ p

/-- How the operations are used: pages are mapped where nothing is mapped, the size asked for fits
in a page, and no label is marked twice in a function. -/
def Allowed (s : St) : Op → Prop
  | .new _ _ hint page =>
    hint ≤ pageSize ∧ page % pageAlign = 0 ∧ ∀ p ∈ s.pages, Apart p page
  | .mark t l => ∀ b, s.blob t = some b → lookup l b.labels = none
  | _ => True

/-- States which can be reached. -/
inductive Reach : St → Prop where
  | start (page mem) (h : page % pageAlign = 0) : Reach (cacheNew page mem)
  | step {s op s'} : Reach s → Allowed s op → exec s op = some (.ok s') → Reach s'

/-- `code_cache_unwinder`, jit-code.c 161-174: the loop has no `break`, so of the spans around the
address the last one in the list, the oldest, is taken. -/
def unwind (s : St) (pc : Nat) : Option Nat :=
  (s.spans.find? fun sp => sp.base ≤ pc && pc < sp.base + sp.size).map (·.name)

end Verif.Jit.Code
