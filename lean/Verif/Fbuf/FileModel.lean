import Verif.Fbuf.VarintModel
import Verif.Fbuf.AdlerModel
import Verif.Fastlz.Model

/-!
# File buffers as a whole

Model of `fbuf_open`, `fbuf_close`, `fbuf_maybe_flush`, the typed write and read
functions, and the file layout (`/repo/src/fbuf.c`).  The operating system is reduced to
"the bytes written to the file are the bytes read from it".  ZSTD is not modelled; it is
a pair of functions about which the theorems make an explicit assumption.
-/

namespace Verif.Fbuf

/-- `SPILL_SIZE`, fbuf.c 35. -/
def spillSize : Nat := 65536
/-- `BLOCK_SIZE`, fbuf.c 36: `SPILL_SIZE - SPILL_SIZE / 16`. -/
def blockSize : Nat := 61440

/-- `fbuf_zip_t`, fbuf.h 33-37, with the character stored in the header. -/
inductive Zip where
  | none | fastlz | zstd
  deriving DecidableEq, Repr

/-- Header byte of the compression format, fbuf.h 33-37. -/
def Zip.byte : Zip → Nat
  | .none => 45 | .fastlz => 70 | .zstd => 90

/-- `fbuf_cs_t`, fbuf.h 28-31. -/
inductive Cs where
  | none
  | adler (impl : AdlerImpl)
  deriving DecidableEq, Repr

/-- Header byte of the checksum algorithm, fbuf.h 28-31. -/
def Cs.byte : Cs → Nat
  | .none => 45 | .adler _ => 65

/-- `checksum_update`, fbuf.c 245-254. -/
def Cs.update : Cs → Adler → List Nat → Adler
  | .none, s, _ => s
  | .adler impl, s, d => checksumUpdate impl s d

/-- `checksum_finish`, fbuf.c 256-264. -/
def Cs.finish : Cs → Adler → Nat
  | .none, _ => 0
  | .adler _, s => checksumFinish s

/-- The ZSTD library as used by fbuf.c 342-353 and 493-511: `enc` is the concatenated
output of `ZSTD_compressStream2` for the given input buffers, the last one with
`ZSTD_e_end`; `dec` is `ZSTD_decompress` (`none`: error). -/
structure Zstd where
  enc : List (List Nat) → List Nat
  dec : List Nat → Option (List Nat)

/-- `PACK_BE32`, util.h 448-451. -/
def packBE32 (u : Nat) : List Nat :=
  [(u >>> 16 >>> 8) &&& 0xff, (u >>> 16) &&& 0xff, (u >>> 8) &&& 0xff, u &&& 0xff]

/-- `UNPACK_BE32`, util.h 442-444, of the first four bytes of a list. -/
def unpackBE32 : List Nat → Option Nat
  | a :: b :: c :: d :: _ => some (((a <<< 8 ||| b) <<< 16) ||| (c <<< 8 ||| d))
  | _ => Option.none

/-! ## Writer -/

/-- Writer side of `struct _fbuf`, fbuf.c 68-85.  `blocks` are the contents of `wbuf` at
each flush (the bytes they produce in the file are computed by `payload`; the file is
only ever appended to), `pend` is `wbuf[0 .. wpend)`. -/
structure Wr where
  zip : Zip
  cs : Cs
  sum : Adler
  blocks : List (List Nat)
  wtotal : Nat
  pend : List Nat

/-- `fbuf_open` for output, fbuf.c 430-469. -/
def openOut (zip : Zip) (cs : Cs) : Wr :=
  { zip := zip, cs := cs, sum := adlerInit, blocks := [], wtotal := 0, pend := [] }

/-- `fbuf_maybe_flush`, fbuf.c 513-548. -/
def maybeFlush (w : Wr) (more : Nat) : Wr :=
  if w.pend.length + more > blockSize then
    let pend :=
      if w.zip = .fastlz ∧ w.pend.length < 16 then
        w.pend ++ List.replicate (16 - w.pend.length) 0
      else w.pend
    { w with
      sum := w.cs.update w.sum pend
      blocks := w.blocks ++ [pend]
      wtotal := w.wtotal + pend.length
      pend := [] }
  else w

/-- The bytes a flushed block adds to the file, fbuf.c 481-491 and 524-541 (FASTLZ: block
size then compressed data). -/
def blockBytes (b : List Nat) : List Nat :=
  packBE32 (Fastlz.compress b).length ++ Fastlz.compress b

/-- The file contents after the header, fbuf.c 524-541. -/
def payload (z : Zstd) (w : Wr) : List Nat :=
  match w.zip with
  | .none => w.blocks.flatten
  | .fastlz => w.blocks.flatMap blockBytes
  | .zstd => if w.blocks = [] then [] else z.enc w.blocks

/-- `fbuf_close` of an output file, fbuf.c 550-591, with `fbuf_write_header` 287-300 and
`fbuf_update_header` 302-317: the final contents of the file. -/
def closeOut (z : Zstd) (w : Wr) : List Nat :=
  let w := maybeFlush w blockSize
  let p := payload z w
  [70, 66, 85, 70, w.zip.byte, w.cs.byte, 20, 0] ++ packBE32 w.wtotal ++
    packBE32 (w.cs.finish w.sum) ++ packBE32 (20 + p.length) ++ p

/-- A typed datum, one per public write function. -/
inductive Field where
  | u8 (v : BitVec 8)
  | u16 (v : BitVec 16)
  | u32 (v : BitVec 32)
  | u64 (v : BitVec 64)
  | double (bits : BitVec 64)
  | raw (bs : List Nat)
  | uint (v : BitVec 64)
  | int (v : BitVec 64)
  deriving DecidableEq, Repr

/-- The stores `*(f->wbuf + f->wpend++) = (u >> 8*i) & 0xff` for `i < k`, fbuf.c
611-646. -/
def putLE (k v : Nat) : List Nat := (List.range k).map fun i => (v >>> (8 * i)) &&& 0xff

/-- Bytes stored by each write function, fbuf.c 593-658. -/
def Field.bytes : Field → List Nat
  | .u8 v => putLE 1 v.toNat
  | .u16 v => putLE 2 v.toNat
  | .u32 v => putLE 4 v.toNat
  | .u64 v => putLE 8 v.toNat
  | .double v => putLE 8 v.toNat
  | .raw bs => bs
  | .uint v => putUint v.toNat
  | .int v => putInt v

/-- Argument passed to `fbuf_maybe_flush` by each write function, fbuf.c 593-658. -/
def Field.more : Field → Nat
  | .u8 _ => 1 | .u16 _ => 2 | .u32 _ => 4 | .u64 _ => 8 | .double _ => 8
  | .raw bs => bs.length
  | .uint _ => 10 | .int _ => 10

/-- A write call, fbuf.c 593-658; `none` when the assertion `more <= BLOCK_SIZE`
(fbuf.c 515) fails. -/
def writeField (w : Wr) (f : Field) : Option Wr :=
  if f.more ≤ blockSize then
    let w := maybeFlush w f.more
    some { w with pend := w.pend ++ f.bytes }
  else Option.none

/-- A sequence of write calls. -/
def writeFields (w : Wr) : List Field → Option Wr
  | [] => some w
  | f :: fs => match writeField w f with
    | some w' => writeFields w' fs
    | Option.none => Option.none

/-! ## Reader -/

/-- Reader side of `struct _fbuf` after `fbuf_open`. -/
structure Rdr where
  cs : Cs
  rbuf : List Nat
  sum : Adler
  expect : Nat

/-- Result of opening a file for input: success, a `fatal` message, or undefined
behaviour (access outside a buffer). -/
inductive Open where
  | ok (r : Rdr)
  | fatal
  | ub

/-- `fbuf_decompress_fastlz`, fbuf.c 319-340.  `dst` is the output so far, `src` the
remaining payload; writing more than `origsz` bytes is undefined behaviour (the buffer
has that size), as is reading the block size past the end.  `fuel` bounds the number of
blocks. -/
def unpackBlocks (al : Fastlz.Align) (cs : Cs) (origsz : Nat) :
    Nat → List Nat → Adler → List Nat → Option (Option (List Nat × Adler))
  | 0, _, _, _ => Option.none
  | fuel + 1, dst, sum, src =>
    if dst.length < origsz then
      match unpackBE32 src with
      | Option.none => Option.none
      | some blksz =>
        if blksz > spillSize then some Option.none
        else
          let src := src.drop 4
          if blksz > src.length then some Option.none
          else
            match Fastlz.decompress al (src.take blksz) spillSize with
            | .ub => Option.none
            | .err => some Option.none
            | .ok blk =>
              if blk.length = 0 then some Option.none
              else if dst.length + blk.length > origsz then Option.none
              else unpackBlocks al cs origsz fuel (dst ++ blk) (cs.update sum blk) (src.drop blksz)
    else some (some (dst, sum))

/-- `fbuf_open` for input, fbuf.c 430-469, with `fbuf_decompress` 355-428, for files
with the 20-byte header this version writes (`header_sz` 16 and 24 of other versions
are reported as `fatal` in the model). -/
def openIn (z : Zstd) (al : Fastlz.Align) (cs : Cs) (file : List Nat) : Open :=
  match file with
  | 70 :: 66 :: 85 :: 70 :: zip :: csb :: hsz :: _ :: rest =>
    if csb ≠ cs.byte then .fatal
    else if hsz ≠ 20 then .fatal
    else
      match unpackBE32 rest, unpackBE32 (rest.drop 4), unpackBE32 (rest.drop 8) with
      | some len, some checksum, some filesz =>
        if filesz > file.length then .fatal
        else
          let payload := (file.take filesz).drop 20
          if zip = 70 then
            match unpackBlocks al cs len (len + 1) [] adlerInit payload with
            | some (some (dst, sum)) => .ok ⟨cs, dst, sum, checksum⟩
            | some Option.none => .fatal
            | Option.none => .ub
          else if zip = 45 then
            if payload.length < len then .ub
            else .ok ⟨cs, payload.take len, cs.update adlerInit (payload.take len), checksum⟩
          else if zip = 90 then
            match z.dec payload with
            | Option.none => .fatal
            | some d =>
              if d.length ≠ len then .fatal
              else .ok ⟨cs, d, cs.update adlerInit d, checksum⟩
          else .fatal
      | _, _, _ => .fatal
  | _ => .fatal

/-- The checksum test of `fbuf_close` for input files, fbuf.c 555-559: `true` when the
file is accepted. -/
def closeIn (r : Rdr) : Bool := r.cs.finish r.sum = r.expect

/-- Which read function is called. -/
inductive Kind where
  | u8 | u16 | u32 | u64 | double
  | raw (len : Nat)
  | uint | int
  deriving DecidableEq, Repr

/-- The read function that corresponds to a write. -/
def Field.kind : Field → Kind
  | .u8 _ => .u8 | .u16 _ => .u16 | .u32 _ => .u32 | .u64 _ => .u64 | .double _ => .double
  | .raw bs => .raw bs.length
  | .uint _ => .uint | .int _ => .int

/-- `val |= (uintN_t)*(f->rbuf + f->rptr++) << 8*i` for `i, i+1, …`, fbuf.c 687-735;
`k` loads remain. -/
def getLE : Nat → Nat → Nat → List Nat → Rd Nat
  | 0, _, acc, rest => .ok acc rest
  | _ + 1, _, _, [] => .eof
  | k + 1, i, acc, b :: rest => getLE k (i + 1) (acc ||| (b <<< (8 * i))) rest

/-- Map over a successful read. -/
def Rd.map {α β : Type} (f : α → β) : Rd α → Rd β
  | .ok v rest => .ok (f v) rest
  | .eof => .eof
  | .ub => .ub

/-- The typed read functions, fbuf.c 660-743. -/
def readField : Kind → List Nat → Rd Field
  | .u8, l => (getLE 1 0 0 l).map fun v => .u8 (BitVec.ofNat 8 v)
  | .u16, l => (getLE 2 0 0 l).map fun v => .u16 (BitVec.ofNat 16 v)
  | .u32, l => (getLE 4 0 0 l).map fun v => .u32 (BitVec.ofNat 32 v)
  | .u64, l => (getLE 8 0 0 l).map fun v => .u64 (BitVec.ofNat 64 v)
  | .double, l => (getLE 8 0 0 l).map fun v => .double (BitVec.ofNat 64 v)
  | .raw n, l => if l.length < n then .eof else .ok (.raw (l.take n)) (l.drop n)
  | .uint, l => (getUint l).map fun v => .uint (BitVec.ofNat 64 v)
  | .int, l => (getInt l).map fun v => .int v

/-- A sequence of read calls. -/
def readFields : List Kind → List Nat → Rd (List Field)
  | [], l => .ok [] l
  | k :: ks, l =>
    match readField k l with
    | .ok f rest => (readFields ks rest).map (f :: ·)
    | .eof => .eof
    | .ub => .ub

end Verif.Fbuf
