/-!
# The event heap

Model of `/repo/src/rt/heap.c`.  `nodes` holds the first `size` entries of the C array
(index `i` of the C macros `NODE(h, i)` is list index `i - 1`).  The lock is not
modelled (every operation holds it from start to end).
-/

namespace Verif.Heap

/-- `struct heap_node`, heap.c 30-33; `key` is a `uint64_t`, represented by its value. -/
structure Node (α : Type) where
  key : Nat
  user : α

/-- `heap_t`: the live entries and `max_size`. -/
structure Heap (α : Type) where
  nodes : List (Node α)
  cap : Nat

variable {α : Type}

/-- `KEY(h, i)`, heap.c 36; 0 outside the live entries (never compared there). -/
def key (l : List (Node α)) (i : Nat) : Nat :=
  match l[i - 1]? with
  | some n => n.key
  | none => 0

/-- `exchange`, heap.c 39-44. -/
def exchange (l : List (Node α)) (i j : Nat) : List (Node α) :=
  match l[i - 1]?, l[j - 1]? with
  | some a, some b => (l.set (i - 1) b).set (j - 1) a
  | _, _ => l

theorem exchange_length (l : List (Node α)) (i j : Nat) :
    (exchange l i j).length = l.length := by
  unfold exchange; split <;> simp

/-- Selection of `smallest`, heap.c 52-60. -/
def smallest (l : List (Node α)) (i : Nat) : Nat :=
  let lc := i <<< 1
  let rc := (i <<< 1) + 1
  let s := if lc ≤ l.length ∧ key l lc < key l i then lc else i
  if rc ≤ l.length ∧ key l rc < key l s then rc else s

/-- `min_heapify`, heap.c 46-68.  (`smallest` is `i`, `2i` or `2i+1`; the last test in
the model is always true for `i ≥ 1` and is there for termination.) -/
def minHeapify (l : List (Node α)) (i : Nat) : List (Node α) :=
  let s := smallest l i
  if s = i then l
  else if _h : i < s ∧ s ≤ l.length then minHeapify (exchange l i s) s
  else l
termination_by l.length - i
decreasing_by
  rw [exchange_length]
  simp only [s] at *
  omega

/-- The loop of `heap_decrease_key`, heap.c 75-78 (the store of the key is made by the
callers of this function in the model). -/
def siftUp (l : List (Node α)) (i : Nat) : List (Node α) :=
  if _h : i > 1 ∧ key l (i >>> 1) > key l i then siftUp (exchange l i (i >>> 1)) (i >>> 1)
  else l
termination_by i
decreasing_by
  rw [Nat.shiftRight_eq_div_pow]; omega

/-- `heap_new`, heap.c 81-88. -/
def new (initSize : Nat) : Heap α := { nodes := [], cap := initSize }

/-- `heap_insert`, heap.c 124-140.  `none`: write outside the array (only possible when
the heap was created with size 0, because doubling 0 gives 0). -/
def insert (h : Heap α) (k : Nat) (u : α) : Option (Heap α) :=
  let cap := if h.nodes.length = h.cap then h.cap * 2 else h.cap
  if h.nodes.length < cap then
    some { nodes := siftUp (h.nodes ++ [⟨k, u⟩]) (h.nodes.length + 1), cap := cap }
  else none

/-- `heap_extract_min`, heap.c 96-107; `none` when the assertion fails. -/
def extractMin (h : Heap α) : Option (α × Heap α) :=
  match h.nodes[0]?, h.nodes[h.nodes.length - 1]? with
  | some m, some last =>
    some (m.user, { h with nodes := minHeapify ((h.nodes.set 0 last).dropLast) 1 })
  | _, _ => none

/-- `heap_min`, heap.c 109-114. -/
def min (h : Heap α) : Option α := (h.nodes[0]?).map Node.user

/-- `heap_min_key`, heap.c 116-121. -/
def minKey (h : Heap α) : Option Nat := (h.nodes[0]?).map Node.key

/-- Body of `heap_delete` for the 1-based index `i` found, heap.c 155-163. -/
def deleteAt (l : List (Node α)) (i : Nat) : List (Node α) :=
  if i = l.length then l.dropLast
  else
    match l[l.length - 1]? with
    | some last =>
      let l := (l.set (i - 1) last).dropLast
      minHeapify (siftUp l i) i
    | none => l

/-- `heap_delete`, heap.c 150-168: index of the first entry satisfying `fn`. -/
def delete (h : Heap α) (fn : Nat → α → Bool) : Bool × Heap α :=
  match h.nodes.findIdx? (fun n => fn n.key n.user) with
  | some i => (true, { h with nodes := deleteAt h.nodes (i + 1) })
  | none => (false, h)

end Verif.Heap
