import Verif.Fbuf.VarintModel

/-!
# Packed JIT code

Model of `/repo/src/jit/jit-pack.c`.  `encode_number` (62-74) and `decode_number` (76-94) are
the same loops as `fbuf_put_uint` and `fbuf_get_uint`, hence `putUint` and `getUint`;
`pack_int` (124-128) and `unpack_int` (403-407) are `putInt` and `getInt`.

Simplifications: the compression by ZSTD between the two sides is left out; function
handles and object references are represented by the names and offsets from which the
reader looks them up again; `double` is its 64 bits; a failed assertion, a fatal error or
an access outside the string table is the outcome `ub`; the growth of the output buffer
(`pack_grow`) is list append.
-/

namespace Verif.Jit

open Verif.Fbuf

abbrev Name := List Nat

/-- Sequencing of reads. -/
def rbind {α β : Type} (x : Rd α) (f : α → List Nat → Rd β) : Rd β :=
  match x with
  | .ok v rest => f v rest
  | .eof => .eof
  | .ub => .ub

/-- `jit_value_t`, jit-priv.h 204-219, with kinds 180-195.  `L` is the type of locations, which
differs between writer and reader.  Fields that a kind does not use are left out. -/
inductive Val (L : Type) where
  | invalid
  | reg (r : Nat)
  | int64 (v : BitVec 64)
  | double (bits : BitVec 64)
  | addrReg (r : Nat) (disp : BitVec 32)
  | addrAbs (v : BitVec 64)
  | addrCpool (v : BitVec 64)
  | addrCover (v : BitVec 64)
  | label (l : BitVec 32)
  | handle (h : Option Name)
  | exit (e : Nat)
  | loc (l : L)
  | vpos (block op : BitVec 32)
  | locus (module : Name) (offset : Nat)

/-- A location on the writing side: reference into `loc_files` (`none` for `FILE_INVALID`), line,
column and extent. -/
structure WLoc where
  file : Option Nat
  line : Nat
  column : Nat
  lineDelta : Nat
  columnDelta : Nat

/-- A location on the reading side; the file is given by its name. -/
structure RLoc where
  file : Option Name
  line : Nat
  column : Nat
  lineDelta : Nat
  columnDelta : Nat
  deriving DecidableEq

/-- `LOC_INVALID`, diag.h 50-54. -/
def wInvalid : WLoc := ⟨none, 0xfffff, 0xfff, 0xff, 0xff⟩
def rInvalid : RLoc := ⟨none, 0xfffff, 0xfff, 0xff, 0xff⟩

/-- `jit_ir_t`, jit-priv.h 223-231: bit fields of 8, 3, 1 and 4 bits, 16-bit result. -/
structure Ir (L : Type) where
  op : Nat
  size : Nat
  target : Nat
  cc : Nat
  result : Nat
  arg1 : Val L
  arg2 : Val L

/-- The fields of `jit_func_t` (jit-priv.h 290-311) that are stored. -/
structure Func (L : Type) where
  nregs : Nat
  cpoolsz : Nat
  spec : BitVec 64
  framesz : Nat
  linktab : List (Name × Nat)
  module : Name
  offset : Nat
  irs : List (Ir L)

/-! ## Writer -/

/-- `pack_writer_t`, jit-pack.c 49-57: the string table, its index (`strhash`; 0 for absent) and
the last location. -/
structure PW where
  tab : List Nat
  index : Name → Nat
  last : WLoc

/-- `pack_writer_new`, jit-pack.c 272-287: the table starts with one zero byte. -/
def PW.new : PW := ⟨[0], fun _ => 0, wInvalid⟩

/-- `pack_writer_get_string`, jit-pack.c 289-302. -/
def getString (pw : PW) : Option Name → Nat × PW
  | none => (0, pw)
  | some s =>
    if pw.index s ≠ 0 then (pw.index s, pw)
    else
      (pw.tab.length,
       { pw with tab := pw.tab ++ (s ++ [0])
                 index := fun x => if x = s then pw.tab.length else pw.index x })

/-- `pack_str`, jit-pack.c 130-133. -/
def packStr (pw : PW) (s : Option Name) : List Nat × PW :=
  (putUint (getString pw s).1, (getString pw s).2)

/-- `loc_invalid_p`, diag.c 182-187. -/
def locInvalid (l : WLoc) : Bool := l.line = 0xfffff || l.file.isNone

/-- `loc_file_str`, diag.c 154-160. -/
def locFileStr (files : List Name) (l : WLoc) : Option Name := l.file.bind (files[·]?)

/-- `pack_loc`, jit-pack.c 135-152: the bit fields are promoted to `int`. -/
def packLoc (files : List Name) (pw : PW) (l : WLoc) : List Nat × PW :=
  if locInvalid pw.last || l.file ≠ pw.last.file then
    let r := packStr pw (locFileStr files l)
    (r.1 ++ putUint l.line ++ putUint l.column, { r.2 with last := l })
  else
    ([0] ++ putInt (BitVec.ofInt 64 ((l.line : Int) - pw.last.line)) ++
      putInt (BitVec.ofInt 64 ((l.column : Int) - pw.last.column)), { pw with last := l })

/-- `pack_reg`, jit-pack.c 154-157; `JIT_REG_INVALID` is 65535. -/
def packReg (r : Nat) : List Nat := putUint (if r = 65535 then 0 else r + 1)

/-- `pack_value`, jit-pack.c 183-234, with `pack_double`, `pack_handle` and `pack_locus`
(159-181).  `disp` is sign extended by the conversion to `uint64_t`. -/
def packValue (files : List Name) (pw : PW) : Val WLoc → List Nat × PW
  | .vpos _ _ => ([0], pw)
  | .invalid => ([0], pw)
  | .reg r => (1 :: packReg r, pw)
  | .int64 v => (2 :: putInt v, pw)
  | .double b => (3 :: putUint b.toNat, pw)
  | .addrReg r d => (4 :: (packReg r ++ putUint (d.signExtend 64).toNat), pw)
  | .addrAbs v => (5 :: putUint v.toNat, pw)
  | .addrCpool v => (6 :: putUint v.toNat, pw)
  | .addrCover v => (7 :: putUint v.toNat, pw)
  | .label l => (8 :: putUint l.toNat, pw)
  | .handle h => (9 :: (packStr pw h).1, (packStr pw h).2)
  | .exit e => ([10, e % 256], pw)
  | .loc l => (11 :: (packLoc files pw l).1, (packLoc files pw l).2)
  | .locus m o => (13 :: ((packStr pw (some m)).1 ++ putUint o), (packStr pw (some m)).2)

/-- `enc`, jit-pack.c 262-264, and `pack_u16`, 111-116. -/
def packEnc (op size target cc : Nat) : List Nat :=
  let enc := ((op <<< 8) ||| (size <<< 5) ||| (target <<< 4) ||| cc) % 65536
  [enc &&& 0xff, enc >>> 8]

/-- One instruction, jit-pack.c 260-268. -/
def packIr (files : List Name) (pw : PW) (ir : Ir WLoc) : List Nat × PW :=
  let a := packValue files pw ir.arg1
  let b := packValue files a.2 ir.arg2
  (packEnc ir.op ir.size ir.target ir.cc ++ (packReg ir.result ++ (a.1 ++ b.1)), b.2)

/-- The loop over the instructions. -/
def packIrs (files : List Name) : PW → List (Ir WLoc) → List Nat × PW
  | pw, [] => ([], pw)
  | pw, ir :: irs =>
    let a := packIr files pw ir
    let b := packIrs files a.2 irs
    (a.1 ++ b.1, b.2)

/-- The loop over the link table, jit-pack.c 247-250. -/
def packLinks : PW → List (Name × Nat) → List Nat × PW
  | pw, [] => ([], pw)
  | pw, l :: ls =>
    let a := packStr pw (some l.1)
    let b := packLinks a.2 ls
    (a.1 ++ (putUint l.2 ++ b.1), b.2)

/-- `pack_func`, jit-pack.c 236-270. -/
def packFunc (files : List Name) (pw : PW) (f : Func WLoc) : List Nat × PW :=
  let pw := { pw with last := wInvalid }
  let l := packLinks pw f.linktab
  let m := packStr l.2 (some f.module)
  let i := packIrs files m.2 f.irs
  (putUint f.irs.length ++ (putUint f.nregs ++ (putUint f.linktab.length ++
    (putUint f.cpoolsz ++ (putUint f.spec.toNat ++ (putUint f.framesz ++
      (l.1 ++ (m.1 ++ (putUint f.offset ++ i.1)))))))), i.2)

/-! ## Reader -/

/-- The C string at an offset of the string table. -/
def cstr (tab : List Nat) (off : Nat) : Option Name :=
  if off < tab.length then some ((tab.drop off).takeWhile (· ≠ 0)) else none

/-- `unpack_str`, jit-pack.c 430-434: the offset is converted to `unsigned`. -/
def unpackStr (tab : List Nat) (bs : List Nat) : Rd (Option Name) :=
  rbind (getUint bs) fun off bs =>
    let off := off % 2 ^ 32
    if off = 0 then .ok none bs
    else
      match cstr tab off with
      | some s => .ok (some s) bs
      | none => .ub

/-- `ident_new(unpack_str(pf))`: null and the empty string fail an assertion (ident.c 296-297). -/
def unpackIdent (tab : List Nat) (bs : List Nat) : Rd Name :=
  rbind (unpackStr tab bs) fun s bs =>
    match s with
    | some (c :: s) => .ok (c :: s) bs
    | _ => .ub

/-- `unpack_reg`, jit-pack.c 417-422. -/
def unpackReg (bs : List Nat) : Rd Nat :=
  rbind (getUint bs) fun enc bs =>
    if enc < 65534 then .ok (if enc = 0 then 65535 else enc - 1) bs else .ub

/-- The name under which `loc_file_ref` (diag.c 125-152) registers a file: of two adjacent
slashes (47) the first is dropped.  (A file that is already registered under the very name
is found without this; registered names have no adjacent slashes.) -/
def stripSlashes : Name → Name
  | [] => []
  | [c] => [c]
  | a :: b :: s => if a = 47 ∧ b = 47 then stripSlashes (b :: s) else a :: stripSlashes (b :: s)

/-- `unpack_loc`, jit-pack.c 436-454: line and column are stored in 20 and 12 bits. -/
def unpackLoc (tab : List Nat) (last : RLoc) (bs : List Nat) : Rd RLoc :=
  rbind (unpackStr tab bs) fun file bs =>
    match file with
    | some n =>
      rbind (getUint bs) fun line bs =>
        rbind (getUint bs) fun col bs =>
          .ok ⟨some (stripSlashes n), line % 2 ^ 20, col % 2 ^ 12, 0, 0⟩ bs
    | none =>
      rbind (getInt bs) fun dl bs =>
        rbind (getInt bs) fun dc bs =>
          .ok { last with line := (BitVec.ofNat 64 last.line + dl).toNat % 2 ^ 20
                          column := (BitVec.ofNat 64 last.column + dc).toNat % 2 ^ 12 } bs

/-- `unpack_value`, jit-pack.c 472-520. -/
def unpackValue (tab : List Nat) (last : RLoc) : List Nat → Rd (Val RLoc × RLoc)
  | [] => .eof
  | 0 :: bs => .ok (.invalid, last) bs
  | 1 :: bs => rbind (unpackReg bs) fun r bs => .ok (.reg r, last) bs
  | 2 :: bs => rbind (getInt bs) fun v bs => .ok (.int64 v, last) bs
  | 3 :: bs => rbind (getUint bs) fun v bs => .ok (.double (BitVec.ofNat 64 v), last) bs
  | 4 :: bs =>
    rbind (unpackReg bs) fun r bs =>
      rbind (getUint bs) fun d bs => .ok (.addrReg r (BitVec.ofNat 32 d), last) bs
  | 5 :: bs => rbind (getUint bs) fun v bs => .ok (.addrAbs (BitVec.ofNat 64 v), last) bs
  | 6 :: bs => rbind (getUint bs) fun v bs => .ok (.addrCpool (BitVec.ofNat 64 v), last) bs
  | 7 :: bs => rbind (getUint bs) fun v bs => .ok (.addrCover (BitVec.ofNat 64 v), last) bs
  | 8 :: bs => rbind (getUint bs) fun v bs => .ok (.label (BitVec.ofNat 32 v), last) bs
  | 9 :: bs =>
    rbind (unpackStr tab bs) fun s bs =>
      match s with
      | none => .ok (.handle none, last) bs
      | some [] => .ub
      | some (c :: s) => .ok (.handle (some (c :: s)), last) bs
  | 10 :: bs =>
    match bs with
    | [] => .eof
    | e :: bs => .ok (.exit e, last) bs
  | 11 :: bs => rbind (unpackLoc tab last bs) fun l bs => .ok (.loc l, l) bs
  | 13 :: bs =>
    rbind (unpackIdent tab bs) fun m bs =>
      rbind (getUint bs) fun o bs => .ok (.locus m o, last) bs
  | _ :: _ => .ub

/-- `unpack_u16`, jit-pack.c 409-415, and the four fields, 587-591. -/
def unpackEnc : List Nat → Rd (Nat × Nat × Nat × Nat)
  | lo :: hi :: bs =>
    let enc := (lo ||| (hi <<< 8)) % 65536
    .ok (enc >>> 8, (enc >>> 5) &&& 7, (enc >>> 4) &&& 1, enc &&& 0xf) bs
  | _ => .eof

/-- One instruction, jit-pack.c 585-595. -/
def unpackIr (tab : List Nat) (last : RLoc) (bs : List Nat) : Rd (Ir RLoc × RLoc) :=
  rbind (unpackEnc bs) fun e bs =>
    rbind (unpackReg bs) fun r bs =>
      rbind (unpackValue tab last bs) fun a bs =>
        rbind (unpackValue tab a.2 bs) fun b bs =>
          .ok (⟨e.1, e.2.1, e.2.2.1, e.2.2.2, r, a.1, b.1⟩, b.2) bs

/-- The loop over the instructions. -/
def unpackIrs (tab : List Nat) : Nat → RLoc → List Nat → Rd (List (Ir RLoc))
  | 0, _, bs => .ok [] bs
  | n + 1, last, bs =>
    rbind (unpackIr tab last bs) fun ir bs =>
      rbind (unpackIrs tab n ir.2 bs) fun irs bs => .ok (ir.1 :: irs) bs

/-- The loop over the link table, jit-pack.c 574-577; `offset` is `unsigned`. -/
def unpackLinks (tab : List Nat) : Nat → List Nat → Rd (List (Name × Nat))
  | 0, bs => .ok [] bs
  | n + 1, bs =>
    rbind (unpackIdent tab bs) fun name bs =>
      rbind (getUint bs) fun off bs =>
        rbind (unpackLinks tab n bs) fun ls bs => .ok ((name, off % 2 ^ 32) :: ls) bs

/-- `jit_pack_fill`, jit-pack.c 558-598, after decompression; the counters are `unsigned`. -/
def unpackFunc (tab : List Nat) (bs : List Nat) : Rd (Func RLoc) :=
  rbind (getUint bs) fun nirs bs =>
    rbind (getUint bs) fun nregs bs =>
      rbind (getUint bs) fun nvars bs =>
        rbind (getUint bs) fun cpoolsz bs =>
          rbind (getUint bs) fun spec bs =>
            rbind (getUint bs) fun framesz bs =>
              rbind (unpackLinks tab (nvars % 2 ^ 32) bs) fun links bs =>
                rbind (unpackIdent tab bs) fun module bs =>
                  rbind (getUint bs) fun offset bs =>
                    rbind (unpackIrs tab (nirs % 2 ^ 32) rInvalid bs) fun irs bs =>
                      .ok ⟨nregs % 2 ^ 32, cpoolsz % 2 ^ 32, BitVec.ofNat 64 spec,
                        framesz % 2 ^ 32, links, module, offset, irs⟩ bs

/-! ## Several functions with one string table -/

/-- Packing a sequence of functions with one writer: a buffer for each. -/
def packAll (files : List Name) : PW → List (Func WLoc) → List (List Nat) × PW
  | pw, [] => ([], pw)
  | pw, f :: fs =>
    let a := packFunc files pw f
    let b := packAll files a.2 fs
    (a.1 :: b.1, b.2)

end Verif.Jit
