/-!
# The FastLZ block codec

Model of `fastlz2_compress`, `fastlz1_decompress`, `fastlz2_decompress`,
`fastlz_compress_level(2, …)` and `fastlz_decompress`
(`/repo/thirdparty/fastlz.c`).  Bytes are natural numbers below 256; pointers into
the input are indices; the output buffer is the list of bytes written so far.
-/

namespace Verif.Fastlz

/-! ## Compressor (level 2) -/

/-- Input byte at index `i`.  One read of the C code can be at index `length`
(hash update after a far match that ends at the end of the block, fastlz.c 370-373);
the value read is irrelevant for the result, the model reads 0 there. -/
def inp (data : List Nat) (i : Nat) : Nat := data.getD i 0

/-- `FASTLZ_READU16`, fastlz.c 91-95 (little endian). -/
def readU16 (data : List Nat) (i : Nat) : Nat := inp data i ||| (inp data (i + 1) <<< 8)

/-- `HASH_FUNCTION`, fastlz.c 97-100. -/
def hashAt (data : List Nat) (i : Nat) : Nat :=
  let v := readU16 data i
  let v := v ^^^ (readU16 data (i + 1) ^^^ (v >>> 3))
  v &&& 8191

/-- Compressor variables that live across iterations of the main loop: the input
position `ip`, the hash table `htab`, the output so far `out` (`op` is its end) and
the literal counter `copy`. -/
structure Comp where
  ip : Nat
  htab : Nat → Nat
  out : List Nat
  copy : Nat

/-- The run loop, fastlz.c 265-271:
`while (ip < ip_bound) if (*ref++ != x) break; else ip++;`.  Returns `ip`.
`bound` is `length - 2`. -/
def runLoop (data : List Nat) (x bound : Nat) (ref ip : Nat) : Nat :=
  if h : ip < bound then
    if inp data ref ≠ x then ip else runLoop data x bound (ref + 1) (ip + 1)
  else ip
termination_by bound - ip

/-- The bounded comparison loop, fastlz.c 284-285:
`while (ip < ip_bound) if (*ref++ != *ip++) break;`.  Returns `ip`. -/
def cmpLoop (data : List Nat) (bound : Nat) (ref ip : Nat) : Nat :=
  if h : ip < bound then
    if inp data ref ≠ inp data ip then ip + 1 else cmpLoop data bound (ref + 1) (ip + 1)
  else ip
termination_by bound - ip

/-- The unrolled comparisons followed by the bounded loop, fastlz.c 273-287; `k` is
the number of unrolled comparisons left. -/
def cmpUnrolled (data : List Nat) (bound : Nat) : Nat → Nat → Nat → Nat
  | 0, ref, ip => cmpLoop data bound ref ip
  | k + 1, ref, ip =>
    if inp data ref ≠ inp data ip then ip + 1
    else cmpUnrolled data bound k (ref + 1) (ip + 1)

/-- `for (len -= 7; len >= 255; len -= 255) *op++ = 255; *op++ = len;`
(fastlz.c 316-318), for the already reduced length. -/
def lenCode (l : Nat) : List Nat :=
  if _h : l ≥ 255 then 255 :: lenCode (l - 255) else [l]
termination_by l
decreasing_by omega

/-- Encoding of a match with biased length `len` and biased distance `distance`,
fastlz.c 304-344 (level 2). -/
def encodeMatch (len distance : Nat) : List Nat :=
  if distance < 8191 then
    if len < 7 then
      [(len <<< 5) + (distance >>> 8), distance &&& 255]
    else
      ((7 <<< 5) + (distance >>> 8)) :: (lenCode (len - 7) ++ [distance &&& 255])
  else
    let distance := distance - 8191
    if len < 7 then
      [(len <<< 5) + 31, 255, distance >>> 8, distance &&& 255]
    else
      ((7 <<< 5) + 31) :: (lenCode (len - 7) ++ [255, distance >>> 8, distance &&& 255])

/-- Patching the literal count before a match, fastlz.c 289-295, and at the end,
fastlz.c 404-408: `if (copy) *(op-copy-1) = copy-1; else op--;`. -/
def patchCopy (out : List Nat) (copy : Nat) : List Nat :=
  if copy ≠ 0 then out.set (out.length - copy - 1) (copy - 1) else out.dropLast

/-- Emission of one literal with the counter wrap, fastlz.c 380-388 and 393-402:
`*op++ = byte; copy++; if (copy == MAX_COPY) { copy = 0; *op++ = MAX_COPY-1; }`. -/
def emitLiteral (out : List Nat) (copy byte : Nat) : List Nat × Nat :=
  let out := out ++ [byte]
  let copy := copy + 1
  if copy = 32 then (out ++ [31], 0) else (out, copy)

/-- What the head of the main loop decides (fastlz.c 205-257): literal, or a match with
the un-biased `distance`, the verified minimum length `len` and the position `ref` where
the comparison continues. -/
inductive Found where
  | literal
  | found (distance len ref : Nat)
  deriving DecidableEq

/-- fastlz.c 215-254 for level 2.  `htab` is the table before the update. -/
def findMatch (data : List Nat) (htab : Nat → Nat) (anchor : Nat) : Found :=
  if inp data anchor = inp data (anchor - 1) ∧
      readU16 data (anchor - 1) = readU16 data (anchor + 1) then
    .found 1 3 (anchor - 1 + 3)
  else
    let ref := htab (hashAt data anchor)
    let distance := anchor - ref
    if distance = 0 ∨ distance ≥ 65535 + 8191 - 1 ∨ inp data ref ≠ inp data anchor ∨
        inp data (ref + 1) ≠ inp data (anchor + 1) ∨
        inp data (ref + 2) ≠ inp data (anchor + 2) then .literal
    else if distance ≥ 8191 then
      if inp data (anchor + 3) ≠ inp data (ref + 3) ∨
          inp data (anchor + 4) ≠ inp data (ref + 4) then .literal
      else .found distance 5 (ref + 5)
    else .found distance 3 (ref + 3)

/-- The hash table after the head of the main loop: `*hslot = anchor` (fastlz.c 235)
unless the run check succeeded first. -/
def htabAfterFind (data : List Nat) (htab : Nat → Nat) (anchor : Nat) : Nat → Nat :=
  if inp data anchor = inp data (anchor - 1) ∧
      readU16 data (anchor - 1) = readU16 data (anchor + 1) then htab
  else fun h => if h = hashAt data anchor then anchor else htab h

/-- End of the match comparison (`ip` after fastlz.c 287), given the result of
`findMatch`. -/
def matchEnd (data : List Nat) (anchor distance len ref : Nat) : Nat :=
  let ip := anchor + len
  let bound := data.length - 2
  if distance - 1 = 0 then runLoop data (inp data (ip - 1)) bound ref ip
  else cmpUnrolled data bound 8 ref ip

/-- One iteration of the main loop, fastlz.c 204-389. -/
def compStep (data : List Nat) (st : Comp) : Comp :=
  let anchor := st.ip
  let htab := htabAfterFind data st.htab anchor
  match findMatch data st.htab anchor with
  | .literal =>
    let r := emitLiteral st.out st.copy (inp data anchor)
    { ip := anchor + 1, htab := htab, out := r.1, copy := r.2 }
  | .found distance len ref =>
    let ip := matchEnd data anchor distance len ref - 3
    let len := ip - anchor
    let out := patchCopy st.out st.copy ++ encodeMatch len (distance - 1)
    let htab := fun h => if h = hashAt data ip then ip else htab h
    let ip := ip + 1
    let htab := fun h => if h = hashAt data ip then ip else htab h
    let ip := ip + 1
    { ip := ip, htab := htab, out := out ++ [31], copy := 0 }

/-- The main loop, fastlz.c 204: `while (ip < ip_limit)` with
`ip_limit = length - 12`.  `fuel` bounds the iterations; `compress` supplies enough
(`Verif.Fastlz.compLoop_done`). -/
def compLoop (data : List Nat) : Nat → Comp → Comp
  | 0, st => st
  | fuel + 1, st =>
    if st.ip + 12 < data.length then compLoop data fuel (compStep data st) else st

/-- Left-over bytes as literals, fastlz.c 391-402. -/
def leftOver (data : List Nat) : Nat → List Nat → Nat → List Nat × Nat
  | ip, out, copy =>
    if h : ip < data.length then
      let r := emitLiteral out copy (inp data ip)
      leftOver data (ip + 1) r.1 r.2
    else (out, copy)
termination_by ip => data.length - ip

/-- `fastlz2_compress`, fastlz.c 164-416 with `FASTLZ_LEVEL` 2: the output bytes. -/
def compress (data : List Nat) : List Nat :=
  if data.length < 4 then
    if data.length ≠ 0 then (data.length - 1) :: data else []
  else
    let st0 : Comp :=
      { ip := 2, htab := fun _ => 0, out := [31, inp data 0, inp data 1], copy := 2 }
    let st := compLoop data data.length st0
    let r := leftOver data st.ip st.out st.copy
    let out := patchCopy r.1 r.2
    -- marker for fastlz2: *(flzuint8*)output |= (1 << 5)
    match out with
    | [] => []
    | b :: bs => (b ||| (1 <<< 5)) :: bs

/-! ## Decompressor -/

/-- Result of a decompressor call: output, the error return 0, or undefined behaviour
(reading past the end of the input, which the C code does not check for length codes
and offsets). -/
inductive Dec where
  | ok (out : List Nat)
  | err
  | ub
  deriving DecidableEq, Repr

/-- Byte-wise copy of `n` bytes from index `src` of the output to its end, fastlz.c
492-521 (strict alignment variant).  The run case (fastlz.c 476-485) writes the byte at
`ref - 1` each time, which is the same as copying from distance one. -/
def copyBytes (out : List Nat) (src : Nat) : Nat → List Nat
  | 0 => out
  | n + 1 => copyBytes (out ++ [out.getD src 0]) (src + 1) n

/-- The run case, fastlz.c 476-485: the same byte `n` times. -/
def copyRun (out : List Nat) (b : Nat) (n : Nat) : List Nat := out ++ List.replicate n b

/-- 16-bit copies, fastlz.c 506-518 (hosts without strict alignment): each step reads
two bytes at `src` and then writes two bytes. -/
def copyWords (out : List Nat) (src : Nat) : Nat → List Nat
  | 0 => out
  | n + 1 => copyWords (out ++ [out.getD src 0, out.getD (src + 1) 0]) (src + 2) n

/-- The non-strict copy of `len + 3` bytes, fastlz.c 492-518: three bytes, one more if
`len` is odd, then 16 bits at a time. -/
def copyFast (out : List Nat) (src len : Nat) : List Nat :=
  let out := copyBytes out src 3
  let src := src + 3
  if len &&& 1 = 1 then
    copyWords (copyBytes out src 1) (src + 1) ((len - 1) >>> 1)
  else copyWords out src (len >>> 1)

/-- Level-2 length code loop, fastlz.c 445-449:
`do { code = *ip++; len += code; } while (code == 255)`. -/
def readLen (len : Nat) : List Nat → Option (Nat × List Nat)
  | [] => none
  | code :: rest => if code = 255 then readLen (len + code) rest else some (len + code, rest)

/-- Which of the two copy variants was compiled. -/
inductive Align where
  | strict
  | fast
  deriving DecidableEq

/-- The copy part of a match, fastlz.c 476-523: `ref` is the C pointer (one past the
source byte) as an index. -/
def copyMatch (al : Align) (out : List Nat) (ref len : Nat) : List Nat :=
  if ref = out.length then copyRun out (out.getD (ref - 1) 0) (3 + len)
  else
    match al with
    | .strict => copyBytes out (ref - 1) (len + 3)
    | .fast => copyFast out (ref - 1) len

/-- Parse of the rest of a match after its control byte, fastlz.c 438-461: biased length
(after `len--` and additions), total backwards offset of `ref`, remaining input. -/
def readMatch (level : Nat) (ctrl : Nat) (rest : List Nat) : Option (Nat × Nat × List Nat) :=
  let len := (ctrl >>> 5) - 1
  let ofs := (ctrl &&& 31) <<< 8
  if level = 1 then
    if len = 6 then
      match rest with
      | c :: d :: rest => some (len + c, ofs + d, rest)
      | _ => none
    else
      match rest with
      | d :: rest => some (len, ofs + d, rest)
      | _ => none
  else
    match (if len = 6 then readLen len rest else some (len, rest)) with
    | none => none
    | some (len, rest) =>
      match rest with
      | [] => none
      | code :: rest =>
        if code = 255 ∧ ofs = 31 <<< 8 then
          match rest with
          | hi :: lo :: rest => some (len, (hi <<< 8) + lo + 8191, rest)
          | _ => none
        else some (len, ofs + code, rest)

/-- The decompressor loop, fastlz.c 427-544.  `rest` is the input from `ip` on, `out`
the output so far.  32-bit wrap of `len` is not modelled (it needs more than 16 million
length bytes; file buffers pass at most 65536).  `fuel` bounds the iterations. -/
def decLoop (al : Align) (level maxout : Nat) : Nat → Nat → List Nat → List Nat → Dec
  | 0, _, _, _ => .ub
  | fuel + 1, ctrl, rest, out =>
    if ctrl ≥ 32 then
      match readMatch level ctrl rest with
      | none => .ub
      | some (len, off, rest) =>
        if out.length + len + 3 > maxout then .err
        else if out.length < off + 1 then .err      -- ref - 1 < output
        else
          let out' := copyMatch al out (out.length - off) len
          match rest with
          | [] => .ok out'
          | c :: rest => decLoop al level maxout fuel c rest out'
    else
      let n := ctrl + 1
      if out.length + n > maxout then .err
      else if rest.length < n then .err             -- ip + ctrl > ip_limit
      else
        let out' := out ++ rest.take n
        match rest.drop n with
        | [] => .ok out'
        | c :: rest => decLoop al level maxout fuel c rest out'

/-- `fastlz_decompress`, fastlz.c 138-150, with `fastlz{1,2}_decompress` 418-547: the
level is taken from the first byte, whose level bits are then masked off. -/
def decompress (al : Align) (input : List Nat) (maxout : Nat) : Dec :=
  match input with
  | [] => .ub
  | b0 :: rest =>
    let level := (b0 >>> 5) + 1
    if level = 1 ∨ level = 2 then
      decLoop al level maxout (input.length + 1) (b0 &&& 31) rest []
    else .err

end Verif.Fastlz
