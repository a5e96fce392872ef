import Verif.Thread.Count

/-!
# The concurrent hash table of `hash.c`

Model of `chash_put`, `chash_get` and the growing of the table, `/repo/src/hash.c` lines 500-784,
as a transition system of any number of threads: one step per access to shared memory,
sequentially consistent.

Simplifications:

* `chash_try_cas`/`chash_cas` (698-747) are not modelled, nothing but the unit tests calls them.
* Keys and values are numbers, `0` is the null pointer as a value.  `hash_slot` (35-40) is an
  arbitrary function of the size and the key.
* The table that replaces table number `t` is number `t + 1` and has twice the size (616-618);
  allocating it and trying to install it is one step since nobody else sees it before.  Likewise a
  slot of the new table is filled in one step (591-594): no other thread reads the new table before
  line 625.
* A table that has been replaced stays in memory: `async_free` (628) frees it only once no thread
  can be using it.
* `thread_sleep` and `spin_wait` do nothing.
* A failed assertion or `should_not_reach_here` stops all threads.
-/

namespace Verif.Hash.Chash

open Verif.Thread

/-- `chash_marker_t`, hash.c 527-532. -/
inductive Tag where
  | free
  | busy
  | inuse
  | moved
  deriving DecidableEq, Repr

/-- `chash_slot_t`, hash.c 505-508; the tagged key taken apart. -/
structure Slot where
  tag : Tag := .free
  key : Option Nat := none
  val : Nat := 0
  deriving DecidableEq, Repr

/-- What is fixed: the size of the first table and the hash function (hash.c 35-40). -/
structure Cfg where
  size0 : Nat
  hash : Nat → Nat → Nat

/-- Size of table number `t` (hash.c 536-540, 618). -/
def Cfg.size (c : Cfg) (t : Nat) : Nat := c.size0 * 2 ^ t

/-- The `d`-th slot that is tried for `k` in table `t` (for instance hash.c 646; the sizes are
powers of two, so that the mask is the remainder). -/
def Cfg.pos (c : Cfg) (t k d : Nat) : Nat := (c.hash (c.size t) k + d) % c.size t

/-- An operation. -/
inductive Op where
  | put (k v : Nat)
  | get (k : Nat)
  deriving DecidableEq, Repr

/-- The key of an operation. -/
def Op.key : Op → Nat
  | .put k _ => k
  | .get k => k

/-- Where a thread is.  `k v` are the arguments of `chash_put`, also while the thread is growing
the table for it; `t` the table it has loaded, `d` the number of slots tried. -/
inductive Pc where
  | idle
  /-- hash.c 638, 751 -/
  | load (o : Op)
  /-- hash.c 641 -/
  | check (k v t : Nat)
  /-- hash.c 647, 755 -/
  | probe (o : Op) (t d : Nat)
  /-- hash.c 657 -/
  | claim (k v t d : Nat)
  /-- hash.c 674 -/
  | own (k v t d : Nat)
  /-- hash.c 658, 675; `fresh` if the slot was free -/
  | write (k v t d : Nat) (fresh : Bool)
  /-- hash.c 660, 676 -/
  | publish (k v t d : Nat) (fresh : Bool)
  /-- hash.c 661 -/
  | count
  /-- hash.c 662, 677 -/
  | retp
  /-- hash.c 767 -/
  | readv (k t d : Nat)
  /-- hash.c 763, 768 -/
  | retg (r : Nat)
  /-- hash.c 616-620 -/
  | grow (k v t : Nat)
  /-- hash.c 552 -/
  | wait (o : Op)
  /-- hash.c 553-555 -/
  | wait2 (o : Op) (f : Nat)
  /-- hash.c 575-577: copying table `t`, at slot `i` -/
  | scan (k v t i : Nat)
  /-- hash.c 587-589: looking for a place for `kk` -/
  | find (k v t i kk d : Nat)
  /-- hash.c 590-592 -/
  | copy (k v t i kk d : Nat)
  /-- hash.c 604-609: `e` is the key that was seen, `none` if the slot was free -/
  | move (k v t i : Nat) (e : Option Nat)
  /-- hash.c 623-626 -/
  | swap (k v t : Nat)
  deriving DecidableEq, Repr

/-- `struct _chash` (hash.c 521-525), the tables and the threads. -/
structure St where
  tab : Nat := 0
  resizing : Nat := 0
  members : Nat := 0
  mem : Nat → Nat → Slot := fun _ _ => {}
  pc : Nat → Pc := fun _ => .idle
  dead : Bool := false

/-- What can be seen of a step. -/
inductive Label where
  /-- thread `x` calls `chash_put` -/
  | callPut (x k v : Nat)
  /-- thread `x` stores the value -/
  | write (x k v : Nat)
  | retPut (x : Nat)
  | callGet (x k : Nat)
  /-- `chash_get` returns `r` -/
  | retGet (x r : Nat)
  /-- thread `x` begins to overwrite the value of `k` while the table is being copied -/
  | race (x k : Nat)
  /-- an assertion fails in thread `x` -/
  | abort (x : Nat)
  | tau (x : Nat)
  deriving DecidableEq, Repr

/-- A thread goes on. -/
def St.goto (s : St) (x : Nat) (p : Pc) : St := { s with pc := upd s.pc x p }

/-- A slot changes. -/
def St.set (s : St) (t p : Nat) (v : Slot) : St :=
  { s with mem := upd s.mem t (upd (s.mem t) p v) }

/-- An assertion fails. -/
def St.kill (s : St) : St := { s with dead := true }

/-- One look at a slot: hash.c 651-689 for `put`, 758-775 for `get`. -/
def probeStep (c : Cfg) (s : St) (o : Op) (t d : Nat) : Pc :=
  let sl := s.mem t (c.pos t o.key d)
  match sl.tag, o with
  | .busy, o => .load o
  | .free, .put k v => .claim k v t d
  | .free, .get _ => .retg 0
  | .inuse, .put k v => if sl.key = some k then .own k v t d else .probe (.put k v) t (d + 1)
  | .inuse, .get k => if sl.key = some k then .readv k t d else .probe (.get k) t (d + 1)
  | .moved, o => .wait o

/-- hash.c 576-602: what to do with slot `i` of the table that is copied. -/
def scanStep (c : Cfg) (s : St) (k v t i : Nat) : Option Pc :=
  if i < c.size t then
    match (s.mem t i).tag, (s.mem t i).key with
    | .busy, _ => some (.scan k v t i)
    | .inuse, some kk => some (.find k v t i kk 0)
    | .free, _ => some (.move k v t i none)
    | _, _ => none
  else some (.swap k v t)

/-- The tag and the key that the compare-and-swap of line 605 expects. -/
def Slot.expects (sl : Slot) : Option Nat → Bool
  | none => sl.tag == .free && sl.key == none
  | some kk => sl.tag == .inuse && sl.key == some kk

/-- The next step of thread `x`; `none` if it has nothing to do. -/
def go (c : Cfg) (s : St) (x : Nat) : Option (Label × St) :=
  match s.pc x with
  | .idle => none
  | .load (.put k v) => some (.tau x, s.goto x (.check k v s.tab))
  | .load (.get k) => some (.tau x, s.goto x (.probe (.get k) s.tab 0))
  | .check k v t =>
    if s.members > c.size t / 2 then some (.tau x, s.goto x (.grow k v t))
    else some (.tau x, s.goto x (.probe (.put k v) t 0))
  | .probe o t d => some (.tau x, s.goto x (probeStep c s o t d))
  | .claim k v t d =>
    let p := c.pos t k d
    if (s.mem t p).expects none then
      some (.tau x, (s.set t p { s.mem t p with tag := .busy }).goto x (.write k v t d true))
    else some (.tau x, s.goto x (.load (.put k v)))
  | .own k v t d =>
    let p := c.pos t k d
    if (s.mem t p).expects (some k) then
      some (if s.tab = s.resizing then .tau x else .race x k,
        (s.set t p { s.mem t p with tag := .busy }).goto x (.write k v t d false))
    else some (.tau x, s.goto x (.load (.put k v)))
  | .write k v t d fresh =>
    let p := c.pos t k d
    some (.write x k v, (s.set t p { s.mem t p with val := v }).goto x (.publish k v t d fresh))
  | .publish k v t d fresh =>
    let p := c.pos t k d
    some (.tau x, (s.set t p { s.mem t p with tag := .inuse, key := some k }).goto x
      (if fresh then .count else .retp))
  | .count => some (.tau x, { s with members := s.members + 1 }.goto x .retp)
  | .retp => some (.retPut x, s.goto x .idle)
  | .readv k t d => some (.tau x, s.goto x (.retg (s.mem t (c.pos t k d)).val))
  | .retg r => some (.retGet x r, s.goto x .idle)
  | .grow k v t =>
    if s.resizing = t then
      some (.tau x, { s with resizing := t + 1 }.goto x (.scan k v t 0))
    else some (.tau x, s.goto x (.wait (.put k v)))
  | .wait o => some (.tau x, s.goto x (.wait2 o s.tab))
  | .wait2 o f =>
    if s.resizing = f then some (.tau x, s.goto x (.load o))
    else some (.tau x, s.goto x (.wait o))
  | .scan k v t i =>
    match scanStep c s k v t i with
    | some p => some (.tau x, s.goto x p)
    | none => some (.abort x, s.kill)
  | .find k v t i kk d =>
    let sl := s.mem (t + 1) (c.pos (t + 1) kk d)
    if sl.expects none then some (.tau x, s.goto x (.copy k v t i kk d))
    else if sl.expects (some kk) then some (.abort x, s.kill)
    else some (.tau x, s.goto x (.find k v t i kk (d + 1)))
  | .copy k v t i kk d =>
    some (.tau x, (s.set (t + 1) (c.pos (t + 1) kk d)
      { tag := .inuse, key := some kk, val := (s.mem t i).val }).goto x (.move k v t i (some kk)))
  | .move k v t i e =>
    if (s.mem t i).expects e then
      some (.tau x, (s.set t i { s.mem t i with tag := .moved }).goto x (.scan k v t (i + 1)))
    else if e = none then some (.tau x, s.goto x (.scan k v t i))
    else some (.abort x, s.kill)
  | .swap k v t =>
    if s.resizing = t + 1 ∧ s.tab = t then
      some (.tau x, { s with tab := t + 1 }.goto x (.load (.put k v)))
    else some (.abort x, s.kill)

/-- What happens next. -/
inductive Act where
  /-- thread `x` calls an operation -/
  | call (x : Nat) (o : Op)
  /-- thread `x` takes a step -/
  | go (x : Nat)
  deriving DecidableEq, Repr

/-- One step of the system; `none` if it cannot happen. -/
def step (c : Cfg) (s : St) (a : Act) : Option (Label × St) :=
  if s.dead then none
  else match a with
    | .call x o =>
      if s.pc x = .idle then
        some (match o with
          | .put k v => .callPut x k v
          | .get k => .callGet x k, s.goto x (.load o))
      else none
    | .go x => go c s x

/-- `s` is reached from the new table (hash.c 534-547) by steps with the labels `tr`, the oldest
first. -/
inductive Run (c : Cfg) : List Label → St → Prop where
  | new : Run c [] {}
  | step (tr s a l s') (h : Run c tr s) (hs : step c s a = some (l, s')) : Run c (tr ++ [l]) s'

/-- Runs a schedule. -/
def exec (c : Cfg) (s : St) : List Act → Option (List Label × St)
  | [] => some ([], s)
  | a :: as =>
    match step c s a with
    | none => none
    | some (l, s') => (exec c s' as).map fun r => (l :: r.1, r.2)

theorem Run.exec {c tr s} (h : Run c tr s) (as) : ∀ {tr' s'}, exec c s as = some (tr', s') →
    Run c (tr ++ tr') s' := by
  induction as generalizing tr s with
  | nil => intro tr' s' e; simp [Chash.exec] at e; obtain ⟨rfl, rfl⟩ := e; simpa using h
  | cons a as ih =>
    intro tr' s' e
    unfold Chash.exec at e
    split at e
    · simp at e
    · rename_i l s1 hs
      cases he : Chash.exec c s1 as with
      | none => simp [he] at e
      | some r =>
        simp [he] at e
        obtain ⟨rfl, rfl⟩ := e
        have := ih (Run.step _ _ _ _ _ h hs) he
        simpa using this

end Verif.Hash.Chash
