import Verif.Fbuf.VarintModel

/-!
# Identifiers on disk

Model of `ident_write_begin`, `ident_write`, `ident_read_begin` and `ident_read`
(`/repo/src/ident.c`).  An identifier is represented by its bytes (identifiers are
interned, so equal bytes mean the same object, see `Verif.Ident.TableProps`).
-/

namespace Verif.Ident

open Verif.Fbuf

/-- The bytes of an identifier, without the terminating zero. -/
abbrev Name := List Nat

/-- Writing state of the whole process: the fields `write_gen` and `write_index` of every
identifier (`struct _ident`, ident.c 60-66) and the field `next_index` of every writer
context, which is identified by its `generation` (`struct ident_wr_ctx`, 54-58). -/
structure Sys where
  gen : Name → Nat
  index : Name → Nat
  next : Nat → Nat

/-- Initial state: `ident_alloc` sets `write_gen` and `write_index` to 0 (ident.c 98-99),
`ident_write_begin` starts with `next_index` 1 (329) and never uses generation 0. -/
def Sys.init : Sys := ⟨fun _ => 0, fun _ => 0, fun _ => 1⟩

/-- `ident_write`, ident.c 339-356, through the context with generation `g`: the bytes
written and the new state.  `-ident->length` is an `int`. -/
def write (s : Sys) (g : Nat) : Option Name → List Nat × Sys
  | none => (putInt 1#64, s)
  | some n =>
    if s.gen n = g then (putInt (BitVec.ofNat 64 ((s.index n + 1) % 2 ^ 32)), s)
    else
      (putInt (BitVec.ofInt 64 (-(n.length : Int))) ++ n,
       { gen := fun m => if m = n then g else s.gen m
         index := fun m => if m = n then s.next g else s.index m
         next := fun h => if h = g then s.next g + 1 else s.next h })

/-- Several contexts writing in turn: the bytes that reach the file of context `g`. -/
def fileOf (g : Nat) : Sys → List (Nat × Option Name) → List Nat
  | _, [] => []
  | s, (h, n) :: evs =>
    (if h = g then (write s h n).1 else []) ++ fileOf g (write s h n).2 evs

/-! ## Reader -/

/-- Outcome of a read: `fatal` is an error message, `ub` a failed assertion. -/
inductive Res (α : Type) where
  | ok (v : α) (rest : List Nat)
  | eof
  | fatal
  | ub
  deriving DecidableEq

/-- `struct ident_rd_ctx`, ident.c 43-52: cache and format flag. -/
structure RdCtx where
  cache : List (Option Name)
  newFormat : Bool

/-- `ident_read_begin`, ident.c 358-373: the first entry is the null identifier. -/
def readBegin : RdCtx := ⟨[none], true⟩

/-- The index, ident.c 384-385: a signed or unsigned number converted to `int32_t`. -/
def readIndex (ctx : RdCtx) (bs : List Nat) : Res Int :=
  if ctx.newFormat then
    match getInt bs with
    | .ok v rest => .ok (BitVec.ofNat 32 v.toNat).toInt rest
    | .eof => .eof
    | .ub => .ub
  else
    match getUint bs with
    | .ok v rest => .ok (BitVec.ofNat 32 v).toInt rest
    | .eof => .eof
    | .ub => .ub

/-- The zero-terminated bytes of the format before 1.13, ident.c 406-415. -/
def readOld : List Nat → Option (Name × List Nat)
  | [] => none
  | b :: bs => if b = 0 then some ([], bs) else (readOld bs).map fun r => (b :: r.1, r.2)

/-- `ident_new` applied to a zero-terminated buffer: the C string up to the first zero, which
must not be empty (assertion, ident.c 295-296), appended to the cache. -/
def internString (ctx : RdCtx) (buf : Name) (rest : List Nat) : Res (Option Name × RdCtx) :=
  let n := buf.takeWhile (· ≠ 0)
  if n = [] then .ub else .ok (some n, { ctx with cache := ctx.cache ++ [some n] }) rest

/-- `ident_read`, ident.c 382-429. -/
def read (ctx : RdCtx) (bs : List Nat) : Res (Option Name × RdCtx) :=
  match readIndex ctx bs with
  | .eof => .eof
  | .fatal => .fatal
  | .ub => .ub
  | .ok index bs =>
    if index < 0 then
      let len := (-index).toNat
      if bs.length < len then .eof
      else internString ctx (bs.take len) (bs.drop len)
    else if index = 0 then
      match readOld bs with
      | none => .eof
      | some (n, bs) => internString { ctx with newFormat := false } n bs
    else
      match ctx.cache[(index - 1).toNat]? with
      | some n => .ok (n, ctx) bs
      | none => .fatal

/-- A sequence of `ident_read` calls. -/
def readAll : Nat → RdCtx → List Nat → Res (List (Option Name))
  | 0, _, bs => .ok [] bs
  | n + 1, ctx, bs =>
    match read ctx bs with
    | .eof => .eof
    | .fatal => .fatal
    | .ub => .ub
    | .ok (i, ctx) bs =>
      match readAll n ctx bs with
      | .ok is bs => .ok (i :: is) bs
      | .eof => .eof
      | .fatal => .fatal
      | .ub => .ub

end Verif.Ident
