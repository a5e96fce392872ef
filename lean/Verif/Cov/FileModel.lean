import Verif.Cov.Model

/-!
# Files of coverage databases

Model of `cover_write_scope`, `cover_dump_items`, `cover_read_header`, `cover_read_one_item`, `cover_read_scope`
and `cover_read_items`, `/repo/src/cov/cov-data.c` lines 765-814, 840-865 and 1030-1147.

A file is the list of the values that are written, each with the function that writes it: a byte, a number of 64
bits (`fbuf_put_uint`, C01), an identifier (C07) and a location (C06).  That reading gives back one such value
after another is what those properties say.
-/

namespace Verif.Cov

inductive Tok where
  | byte (n : Nat)
  | word (n : Nat)
  | uint (n : BitVec 64)
  | ident (n : Option Name)
  | loc (n : Nat)
  deriving DecidableEq, Repr

/-- Control bytes, 42-46. -/
def ctrlPush : Nat := 0
def ctrlPop : Nat := 1
def ctrlEof : Nat := 2

/-- 63-64. -/
def magic : Nat := 0x6e636462
def version : BitVec 64 := 2

/-- The numbers of the kinds, cov-api.h 24-71. -/
def Kind.num : Kind → BitVec 64
  | .stmt => 0
  | .branch => 1
  | .toggle => 2
  | .expression => 3
  | .state => 4
  | .functional => 5

def Kind.ofNum (n : BitVec 64) : Option Kind :=
  [Kind.stmt, .branch, .toggle, .expression, .state, .functional][n.toNat]?

/-- Conversion of an `int32_t` or an `int64_t` to `uint64_t`. -/
def toU64 (x : Int) : BitVec 64 := BitVec.ofInt 64 x

/-- Conversion of a `uint64_t` to `int32_t`. -/
def toI32 (x : BitVec 64) : Int := (x.setWidth 32).toInt

/-- `COVER_FLAGS_LHS_RHS_BINS`, cov-api.h 184: the bits 3 to 6. -/
def lhsRhsBins : BitVec 32 := 0x78

def hasFuncName : Kind → Bool
  | .expression | .state | .functional => true
  | _ => false

def rangeToks (r : Int × Int) : List Tok := [.uint (toU64 r.1), .uint (toU64 r.2)]

/-- The loop over the items in `cover_write_scope`, 779-807. -/
def itemToks (x : Item) : List Tok :=
  [.uint x.kind.num, .uint (toU64 x.tag), .uint (toU64 x.data), .uint (x.flags.signExtend 64),
    .uint (BitVec.ofNat 64 x.source), .uint (toU64 x.consecutive), .uint (toU64 x.atleast),
    .uint (BitVec.ofNat 64 x.ranges.length), .uint (toU64 x.metadata)] ++
  x.ranges.flatMap rangeToks ++
  (.loc x.loc :: (if x.flags &&& lhsRhsBins = 0 then [] else [.loc x.locLhs, .loc x.locRhs])) ++
  (.ident (some x.hier) :: (if hasFuncName x.kind then [.ident x.funcName] else []))

/-- `cover_write_scope` up to the children, 770-807. -/
def headToks (name : Name) (info : Info) (items : List Item) : List Tok :=
  [.uint (if info.isInstance then 1 else 0), .ident (some name), .ident (some info.hier), .loc info.loc] ++
  (if info.isInstance then [.ident info.blockName] else []) ++
  (.uint (BitVec.ofNat 64 items.length) :: items.flatMap itemToks)

/-- The loop over the children, 809-811, with 768 and 813 of each of them. -/
def writeKids : Scopes → List Tok
  | .nil => []
  | .cons name info items children next =>
    .byte ctrlPush :: (headToks name info items ++ (writeKids children ++ .byte ctrlPop :: writeKids next))

/-- What of `cover_data_t` is in the file, and the root. -/
structure File where
  mask : BitVec 32
  arrayLimit : Int
  nextTag : Int
  name : Name
  info : Info
  db : Db
  deriving DecidableEq, Repr

/-- `cover_dump_items`, 849-861.  The mask is an unsigned number. -/
def writeFile (f : File) : List Tok :=
  .word magic :: .uint version :: .uint (f.mask.setWidth 64) :: .uint (toU64 f.arrayLimit) :: .uint (toU64 f.nextTag) ::
    (writeKids (.cons f.name f.info f.db.items f.db.children .nil) ++ [.byte ctrlEof])

/-! ## Reading; `none` is a fatal error or a value of another sort -/

def getUint : List Tok → Option (BitVec 64 × List Tok)
  | .uint n :: ts => some (n, ts)
  | _ => none

def getIdent : List Tok → Option (Option Name × List Tok)
  | .ident n :: ts => some (n, ts)
  | _ => none

def getLoc : List Tok → Option (Nat × List Tok)
  | .loc n :: ts => some (n, ts)
  | _ => none

/-- Repeat a reader. -/
def getMany {α : Type} (g : List Tok → Option (α × List Tok)) : Nat → List Tok → Option (List α × List Tok)
  | 0, ts => some ([], ts)
  | n + 1, ts => do
    let (x, ts) ← g ts
    let (l, ts) ← getMany g n ts
    some (x :: l, ts)

def getRange (ts : List Tok) : Option ((Int × Int) × List Tok) := do
  let (a, ts) ← getUint ts
  let (b, ts) ← getUint ts
  some ((a.toInt, b.toInt), ts)

/-- `cover_read_one_item`, 1047-1083.  What is not read is not set in the code; here it is 0. -/
def getItem (ts : List Tok) : Option (Item × List Tok) := do
  let (kind, ts) ← getUint ts
  let kind ← Kind.ofNum kind
  let (tag, ts) ← getUint ts
  let (data, ts) ← getUint ts
  let (flags, ts) ← getUint ts
  let (source, ts) ← getUint ts
  let (consecutive, ts) ← getUint ts
  let (atleast, ts) ← getUint ts
  let (n, ts) ← getUint ts
  let (metadata, ts) ← getUint ts
  let (ranges, ts) ← getMany getRange (toI32 n).toNat ts
  let (loc, ts) ← getLoc ts
  let (l, ts) ← if flags.setWidth 32 &&& lhsRhsBins = 0 then some ([], ts) else getMany getLoc 2 ts
  let (hier, ts) ← getIdent ts
  let hier ← hier
  let (funcName, ts) ← if hasFuncName kind then getIdent ts else some (none, ts)
  some ({ kind := kind, hier := hier, flags := flags.setWidth 32, data := toI32 data, tag := toI32 tag,
          consecutive := toI32 consecutive, atleast := toI32 atleast, source := (source.setWidth 32).toNat,
          metadata := metadata.toInt, loc := loc, locLhs := l[0]?.getD 0, locRhs := l[1]?.getD 0,
          funcName := funcName,
          ranges := ranges }, ts)

/-- `cover_read_scope` up to the children, 1088-1103. -/
def getHead (ts : List Tok) : Option ((Name × Info × List Item) × List Tok) := do
  let (type, ts) ← getUint ts
  let (name, ts) ← getIdent ts
  let name ← name
  let (hier, ts) ← getIdent ts
  let hier ← hier
  let (loc, ts) ← getLoc ts
  let (block, ts) ← if type.setWidth 32 = 1#32 then getIdent ts else some (none, ts)
  let (n, ts) ← getUint ts
  let (items, ts) ← getMany getItem (toI32 n).toNat ts
  some ((name, { isInstance := decide (type.setWidth 32 = 1#32), hier := hier, loc := loc, blockName := block }, items), ts)

/-- The loop over the children in `cover_read_scope`, 1105-1119, up to the end of the scope.  The first argument
bounds the number of scopes. -/
def getKids : Nat → List Tok → Option (Scopes × List Tok)
  | fuel + 1, .byte c :: ts =>
    if c = ctrlPush then do
      let ((name, info, items), ts) ← getHead ts
      let (children, ts) ← getKids fuel ts
      let (next, ts) ← getKids fuel ts
      some (.cons name info items children next, ts)
    else if c = ctrlPop then some (.nil, ts)
    else none
  | _, _ => none

/-- `cover_read_items`, 1121-1147, for a file with one root. -/
def readFile : List Tok → Option File
  | .word m :: ts =>
    if m = magic then do
      let (v, ts) ← getUint ts
      if v = version then do
        let (mask, ts) ← getUint ts
        let (limit, ts) ← getUint ts
        let (tag, ts) ← getUint ts
        match ts with
        | .byte c :: ts =>
          if c = ctrlPush then do
            let ((name, info, items), ts) ← getHead ts
            let (children, ts) ← getKids ts.length ts
            match ts with
            | .byte c :: _ =>
              if c = ctrlEof then
                some ⟨mask.setWidth 32, toI32 limit, toI32 tag, name, info, ⟨items, children⟩⟩
              else none
            | _ => none
          else none
        | _ => none
      else none
    else none
  | _ => none

end Verif.Cov
