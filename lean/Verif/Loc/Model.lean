import Verif.Fbuf.VarintModel

/-!
# Source locations on disk

Model of `loc_write`, `loc_read` and `get_loc` (`/repo/src/diag.c`).  Bytes are natural
numbers below 256; file names are C strings (lists of non-zero bytes).  The global table
`loc_files` is the list of names: entry `i` has `.ref == i` since both places that extend
it (diag.c 143-149 and 371-377) set `.ref` to the old count; the conversion to 16 bits is
made explicit.
-/

namespace Verif.Loc

open Verif.Fbuf

/-- `loc_t`, diag.h 35-41 (bit fields of 20, 12, 8, 8 and 16 bits). -/
structure Loc where
  firstLine : Nat
  firstColumn : Nat
  lineDelta : Nat
  columnDelta : Nat
  fileRef : Nat
  deriving DecidableEq, Repr

/-- `LINE_INVALID` … `DELTA_INVALID`, diag.h 45-48. -/
def lineInvalid : Nat := 0xfffff
def columnInvalid : Nat := 0xfff
def fileInvalid : Nat := 0xffff
def deltaInvalid : Nat := 0xff

/-- `LOC_INVALID`, diag.h 50-54. -/
def locInvalid : Loc := ⟨lineInvalid, columnInvalid, deltaInvalid, deltaInvalid, fileInvalid⟩

/-- `get_loc`, diag.c 189-206; arguments are 32-bit unsigned, differences wrap. -/
def getLoc (firstLine firstColumn lastLine lastColumn fileRef : Nat) : Loc :=
  if firstLine > lastLine then locInvalid
  else if firstLine = lastLine ∧ firstColumn > lastColumn then locInvalid
  else
    { firstLine := min firstLine lineInvalid
      firstColumn := min firstColumn columnInvalid
      lineDelta := min ((lastLine + 2 ^ 32 - firstLine) % 2 ^ 32) deltaInvalid
      columnDelta := min ((lastColumn + 2 ^ 32 - firstColumn) % 2 ^ 32) deltaInvalid
      fileRef := fileRef }

/-! ## Writer -/

/-- `struct loc_wr_ctx`, diag.c 50-57. -/
structure WrCtx where
  firstLine : Nat := 0
  firstColumn : Nat := 0
  lineDelta : Nat := 0
  columnDelta : Nat := 0
  haveIndex : Bool := false

/-- `write_u16(LOC_MAGIC, …)`, diag.c 34 and 287: little endian. -/
def magicBytes : List Nat := [0x0f, 0xf0]

/-- The index of file names, diag.c 287-294: every name with its terminating zero. -/
def indexBytes (files : List (List Nat)) : List Nat :=
  magicBytes ++ putUint files.length ++
    files.flatMap fun n => putUint (n.length + 1) ++ (n ++ [0])

/-- `fbuf_put_int(f, new - old)`: the bit field is converted to `unsigned`, the difference
wraps to 32 bits and is then converted to `int64_t` without sign. -/
def putDelta (new old : Nat) : List Nat := putInt (BitVec.ofNat 64 ((new + 2 ^ 32 - old) % 2 ^ 32))

/-- `loc_write`, diag.c 284-309. -/
def write (files : List (List Nat)) (ctx : WrCtx) (l : Loc) : List Nat × WrCtx :=
  ((if ctx.haveIndex then [] else indexBytes files) ++
    putUint l.fileRef ++
    putDelta l.firstLine ctx.firstLine ++
    putDelta l.lineDelta ctx.lineDelta ++
    putDelta l.firstColumn ctx.firstColumn ++
    putDelta l.columnDelta ctx.columnDelta,
   { firstLine := l.firstLine, firstColumn := l.firstColumn, lineDelta := l.lineDelta,
     columnDelta := l.columnDelta, haveIndex := true })

/-- A sequence of `loc_write` calls with one context. -/
def writeAll (files : List (List Nat)) : WrCtx → List Loc → List Nat
  | _, [] => []
  | ctx, l :: ls => (write files ctx l).1 ++ writeAll files (write files ctx l).2 ls

/-! ## Reader -/

/-- `struct loc_rd_ctx`, diag.c 59-69.  An entry of `fileMap` is `none` after its string
has been handed over to `loc_files`. -/
structure RdCtx where
  fileMap : List (Option (List Nat)) := []
  refMap : List Nat := []
  firstLine : Nat := 0
  firstColumn : Nat := 0
  lineDelta : Nat := 0
  columnDelta : Nat := 0
  haveIndex : Bool := false

/-- Outcome of a read: `fatal` is an error message, `ub` an invalid memory access. -/
inductive Res (α : Type) where
  | ok (v : α) (rest : List Nat)
  | eof
  | fatal
  | ub

/-- Sequencing of reads. -/
def Res.bind {α β : Type} (x : Res α) (f : α → List Nat → Res β) : Res β :=
  match x with
  | .ok v rest => f v rest
  | .eof => .eof
  | .fatal => .fatal
  | .ub => .ub

/-- Lift of the readers of `Verif.Fbuf`. -/
def lift {α : Type} : Rd α → Res α
  | .ok v rest => .ok v rest
  | .eof => .eof
  | .ub => .ub

/-- `read_raw(buf, len, f)` followed by the terminating zero, diag.c 344-347; the result is
used as a C string, which ends at the first zero byte. -/
def readName (len : Nat) (bs : List Nat) : Res (List Nat) :=
  if bs.length < len then .eof else .ok ((bs.take len).takeWhile (· ≠ 0)) (bs.drop len)

/-- The loop over the index, diag.c 341-350. -/
def readNames : Nat → List Nat → Res (List (List Nat))
  | 0, bs => .ok [] bs
  | n + 1, bs =>
    (lift (getUint bs)).bind fun len bs =>
      (readName len bs).bind fun name bs =>
        (readNames n bs).bind fun names bs => .ok (name :: names) bs

/-- The index, diag.c 331-353. -/
def readIndex (ctx : RdCtx) (bs : List Nat) : Res RdCtx :=
  match bs with
  | a :: b :: bs =>
    if a ||| (b <<< 8) ≠ 0xf00f then .fatal
    else
      (lift (getUint bs)).bind fun n bs =>
        (readNames n bs).bind fun names bs =>
          .ok { ctx with fileMap := names.map some, refMap := List.replicate n fileInvalid,
                         haveIndex := true } bs
  | _ => .eof

/-- The search through `loc_files`, diag.c 362-366: the last entry with this name. -/
def searchRef (files : List (List Nat)) (name : List Nat) (ref : Nat) : Nat :=
  (files.zipIdx).foldl (fun r e => if e.1 = name then e.2 % 2 ^ 16 else r) ref

/-- Resolution of a file reference, diag.c 355-383. -/
def resolve (files : List (List Nat)) (ctx : RdCtx) (oldRef : Nat) (bs : List Nat) :
    Res (Nat × List (List Nat) × RdCtx) :=
  if oldRef = fileInvalid then .ok (fileInvalid, files, ctx) bs
  else if oldRef ≥ ctx.fileMap.length then .fatal
  else
    match ctx.refMap[oldRef]?, ctx.fileMap[oldRef]? with
    | some r, some entry =>
      if r ≠ fileInvalid then .ok (r, files, ctx) bs
      else
        match entry with
        | none => .ub
        | some name =>
          let r := searchRef files name fileInvalid
          if r ≠ fileInvalid then .ok (r, files, { ctx with refMap := ctx.refMap.set oldRef r }) bs
          else
            let new := files.length % 2 ^ 16
            .ok (new, files ++ [name],
              { ctx with refMap := ctx.refMap.set oldRef new,
                         fileMap := ctx.fileMap.set oldRef none }) bs
    | _, _ => .ub

/-- `ctx->field += fbuf_get_int(f)`, diag.c 385-388: 64-bit addition, then truncation to
32 bits. -/
def getDelta (old : Nat) (bs : List Nat) : Res Nat :=
  (lift (getInt bs)).bind fun d bs => .ok ((BitVec.ofNat 64 old + d).toNat % 2 ^ 32) bs

/-- `loc_read`, diag.c 328-395. -/
def read (files : List (List Nat)) (ctx : RdCtx) (bs : List Nat) :
    Res (Loc × List (List Nat) × RdCtx) :=
  (if ctx.haveIndex then .ok ctx bs else readIndex ctx bs).bind fun ctx bs =>
    (lift (getUint bs)).bind fun ref bs =>
      (resolve files ctx (ref % 2 ^ 16) bs).bind fun r bs =>
        (getDelta ctx.firstLine bs).bind fun fl bs =>
          (getDelta ctx.lineDelta bs).bind fun ld bs =>
            (getDelta ctx.firstColumn bs).bind fun fc bs =>
              (getDelta ctx.columnDelta bs).bind fun cd bs =>
                .ok ({ firstLine := min fl lineInvalid, firstColumn := min fc columnInvalid,
                       lineDelta := min ld deltaInvalid, columnDelta := min cd deltaInvalid,
                       fileRef := r.1 },
                     r.2.1,
                     { r.2.2 with firstLine := fl, firstColumn := fc, lineDelta := ld,
                                  columnDelta := cd }) bs

/-- `n` calls of `loc_read` with one context. -/
def readAll : Nat → List (List Nat) → RdCtx → List Nat → Res (List Loc × List (List Nat))
  | 0, files, _, bs => .ok ([], files) bs
  | n + 1, files, ctx, bs =>
    (read files ctx bs).bind fun r bs =>
      (readAll n r.2.1 r.2.2 bs).bind fun rs bs => .ok (r.1 :: rs.1, rs.2) bs

end Verif.Loc
