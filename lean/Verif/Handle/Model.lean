/-!
# Handles of files and of VPI and VHPI objects

Model of the tables of handles: `/repo/src/rt/fileio.c` lines 73-158 (files),
`/repo/src/vpi/vpi-model.c` lines 157-304 and `/repo/src/vhpi/vhpi-model.c` lines 510-677 (objects,
with reference counts).  The three are the same code for handles of 32 or 64 bits: the lower half of
a handle is the number of a slot, the upper half the generation of the slot.

Simplifications: what a slot refers to is a number; the name and the mode of a file are left out;
`fclose` and the recycling of callbacks and iterators (vpi-model.c 287-294) are left out; memory is
never exhausted.
-/

namespace Verif.Handle

/-- `half` is `HANDLE_BITS / 2` (16 for files, 32 for objects), `first` the size of the first table
(16 at fileio.c 120, 128 at vpi-model.c 247).  The generation has as many bits as half a handle
(`uint16_t` at fileio.c 78, `uint32_t` at vpi-model.c 163). -/
structure Cfg where
  half : Nat
  first : Nat
  pos : 0 < first

/-- Number of slots and of generations. -/
def Cfg.lim (c : Cfg) : Nat := 2 ^ c.half

def fileCfg : Cfg := ⟨16, 16, by decide⟩
def objCfg : Cfg := ⟨32, 128, by decide⟩

/-- `file_slot_t` (fileio.c 73-79), `handle_slot_t` (vpi-model.c 160-164).  Files have no
`refcount`. -/
structure Slot where
  obj : Option Nat := none
  ref : Nat := 0
  gen : Nat := 1
  deriving DecidableEq, Repr

/-- `handles`, `num_handles`, `free_hint` (fileio.c 84-86, vpi-model.c 172-174). -/
structure Tab where
  slots : List Slot := []
  hint : Nat := 0
  deriving DecidableEq, Repr

/-- The slot that `decode_handle` finds (fileio.c 88-105, vpi-model.c 196-215). -/
def decodeSlot (c : Cfg) (t : Tab) (h : Nat) : Option (Nat × Slot) :=
  if h = 0 then none
  else match t.slots[h % c.lim]? with
    | none => none
    | some s => if s.obj = none then none else if s.gen ≠ h / c.lim then none
      else some (h % c.lim, s)

/-- What the handle refers to. -/
def decode (c : Cfg) (t : Tab) (h : Nat) : Option Nat := (decodeSlot c t h).bind (·.2.obj)

/-- The search for a free slot (fileio.c 114-118, vpi-model.c 235-239). -/
def findFree (c : Cfg) : List Slot → Nat → Nat
  | [], i => i
  | s :: l, i => if s.obj = none ∧ s.gen < c.lim - 1 then i else findFree c l (i + 1)

/-- The slot to use (fileio.c 112-119, vpi-model.c 233-240). -/
def pick (c : Cfg) (t : Tab) : Nat :=
  match t.slots[t.hint]? with
  | some s => if s.obj = none then t.hint else findFree c t.slots 0
  | none => findFree c t.slots 0

/-- `handle_for` for something that has no handle (fileio.c 107-143, vpi-model.c 233-266); `none`:
too many handles. -/
def alloc (c : Cfg) (t : Tab) (o : Nat) : Option (Nat × Tab) :=
  let i := pick c t
  if i > c.lim - 1 then none
  else
    let slots := if i = t.slots.length then
        t.slots ++ List.replicate (max (t.slots.length * 2) c.first - t.slots.length) {}
      else t.slots
    match slots[i]? with
    | none => none
    | some s => some (s.gen * c.lim + i,
        { slots := slots.set i { s with obj := some o, ref := 1 }, hint := i + 1 })

/-- The end of `drop_handle` (fileio.c 153-156, vpi-model.c 279-285): `generation++` wraps around. -/
def release (c : Cfg) (t : Tab) (i : Nat) (s : Slot) : Tab :=
  { slots := t.slots.set i { obj := none, ref := 0, gen := (s.gen + 1) % c.lim }, hint := i }

/-- `drop_handle` for files (fileio.c 145-158). -/
def close (c : Cfg) (t : Tab) (h : Nat) : Tab :=
  match decodeSlot c t h with
  | none => t
  | some (i, s) => release c t i s

/-! ## Files -/

/-- What a program does with files. -/
inductive Ev where
  /-- a file was opened and has got the handle `h` -/
  | opened (h f : Nat)
  /-- `drop_handle` was called for any number `h` -/
  | closed (h : Nat)
  deriving DecidableEq, Repr

/-- The table after the events `tr`, the oldest first. -/
inductive Run (c : Cfg) : List Ev → Tab → Prop where
  | new : Run c [] {}
  | opened (tr t f h t') (hr : Run c tr t) (ha : alloc c t f = some (h, t')) :
      Run c (tr ++ [.opened h f]) t'
  | closed (tr t h) (hr : Run c tr t) : Run c (tr ++ [.closed h]) (close c t h)

/-! ## Objects -/

/-- The table and the field `handle` of the objects. -/
structure Objs where
  tab : Tab := {}
  handle : Nat → Nat := fun _ => 0

/-- `handle_for` (vpi-model.c 217-267, vhpi-model.c 588-638): `none` if an assertion fails or there
are too many handles. -/
def handleFor (c : Cfg) (s : Objs) (o : Nat) : Option (Nat × Objs) :=
  if s.handle o ≠ 0 then
    match decodeSlot c s.tab (s.handle o) with
    | none => none
    | some (i, sl) =>
      if sl.ref > 0 ∧ sl.obj = some o then
        some (s.handle o,
          { s with tab := { s.tab with slots := s.tab.slots.set i { sl with ref := sl.ref + 1 } } })
      else none
  else match alloc c s.tab o with
    | none => none
    | some (h, t) =>
      some (h, { tab := t, handle := fun o' => if o' = o then h else s.handle o' })

/-- `drop_handle` (vpi-model.c 269-295, vhpi-model.c 640-666): `none` if an assertion fails, also
the ones of `decode_handle` (vpi-model.c 211-212). -/
def dropHandle (c : Cfg) (s : Objs) (h : Nat) : Option Objs :=
  match decodeSlot c s.tab h with
  | none => some s
  | some (i, sl) =>
    match sl.obj with
    | none => none
    | some o =>
      if sl.ref > 0 ∧ s.handle o = h then
        if sl.ref - 1 > 0 then
          some { s with tab :=
            { s.tab with slots := s.tab.slots.set i { sl with ref := sl.ref - 1 } } }
        else some { tab := release c s.tab i sl,
                    handle := fun o' => if o' = o then 0 else s.handle o' }
      else none

/-- What a program does with objects. -/
inductive OEv where
  /-- the program has got the handle `h` for `o` -/
  | got (h o : Nat)
  | dropped (h : Nat)
  deriving DecidableEq, Repr

inductive ORun (c : Cfg) : List OEv → Objs → Prop where
  | new : ORun c [] {}
  | got (tr s o h s') (hr : ORun c tr s) (ha : handleFor c s o = some (h, s')) :
      ORun c (tr ++ [.got h o]) s'
  | dropped (tr s h s') (hr : ORun c tr s) (hd : dropHandle c s h = some s') :
      ORun c (tr ++ [.dropped h]) s'

end Verif.Handle
