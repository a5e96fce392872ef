/-!
# The file checksum

Model of `adler32_update`, `adler32_update_avx2`, `checksum_init`,
`checksum_update` and `checksum_finish` (`/repo/src/fbuf.c` 90-264).
Bytes are natural numbers below 256.
-/

namespace Verif.Fbuf

/-- `ADLER_MOD`, fbuf.c 90. -/
def adlerMod : Nat := 65521

/-- The two accumulators of `adler32_t`, fbuf.c 53-59. -/
structure Adler where
  s1 : Nat
  s2 : Nat
  deriving DecidableEq, Repr

/-- `checksum_init` for `FBUF_CS_ADLER32`, fbuf.c 231-232. -/
def adlerInit : Adler := ⟨1, 0⟩

/-- One `s1 += *input++; s2 += s1;` on machine words of `w` bits
(`unsigned long`: `w = 64` on LP64 hosts, `w = 32` on the others). -/
def adlerByte (w : Nat) (s : Adler) (b : Nat) : Adler :=
  let s1 := (s.s1 + b) % 2 ^ w
  ⟨s1, (s.s2 + s1) % 2 ^ w⟩

/-- `if (s1 >= ADLER_MOD) s1 -= ADLER_MOD`, fbuf.c 192-193 and 210-211. -/
def adlerSub (s1 : Nat) : Nat := if s1 ≥ adlerMod then s1 - adlerMod else s1

/-- The loop over the first `length % 8` bytes, fbuf.c 186-190 (entered only when
`length % 8 != 0`, so the `do … while` is a `while`).  Returns the unread input. -/
def adlerHead (w : Nat) (s : Adler) : List Nat → Adler × List Nat
  | [] => (s, [])
  | b :: bs =>
    if (b :: bs).length % 8 ≠ 0 then adlerHead w (adlerByte w s b) bs
    else (s, b :: bs)

/-- The main loop, fbuf.c 197-214: eight bytes per iteration, delayed reduction of
`s2`.  The last equation covers a list whose length is not a multiple of eight,
which the C code never reaches (`adlerHead` has removed the odd bytes). -/
def adlerMain (w : Nat) (s : Adler) : List Nat → Adler
  | b0 :: b1 :: b2 :: b3 :: b4 :: b5 :: b6 :: b7 :: rest =>
    let s := [b0, b1, b2, b3, b4, b5, b6, b7].foldl (adlerByte w) s
    let s1 := adlerSub s.s1
    let s2 := if rest.length % 0x8000 = 0 then s.s2 % adlerMod else s.s2
    adlerMain w ⟨s1, s2⟩ rest
  | _ => s

/-- `adler32_update`, fbuf.c 177-221. -/
def adlerScalar (w : Nat) (s : Adler) (input : List Nat) : Adler :=
  if input.length % 8 ≠ 0 then
    let (s', rest) := adlerHead w s input
    adlerMain w ⟨adlerSub s'.s1, s'.s2 % adlerMod⟩ rest
  else adlerMain w s input

/-! ## AVX2 variant

A 256-bit register is a function from lane number to lane contents; only the
lanes that exist are ever read. -/

/-- `coeff_v`, fbuf.c 116-121: `_mm256_set_epi8` lists lane 31 first. -/
def avxCoeff (i : Nat) : Nat := 32 - i

/-- `_mm256_maddubs_epi16(chunk_v, coeff_v)`, fbuf.c 141: 16-bit lane `j`, with
signed saturation (all products here are non-negative). -/
def avxMaddubs (blk : Nat → Nat) (j : Nat) : Nat :=
  min (blk (2 * j) * avxCoeff (2 * j) + blk (2 * j + 1) * avxCoeff (2 * j + 1)) 32767

/-- `_mm256_madd_epi16(mad, one)`, fbuf.c 142: 32-bit lane `k`. -/
def avxMadd (mad : Nat → Nat) (k : Nat) : Nat := mad (2 * k) + mad (2 * k + 1)

/-- `_mm256_sad_epu8(chunk_v, 0)`, fbuf.c 144: the sum of eight bytes in the low
half of each 64-bit lane, seen as 32-bit lane `k`. -/
def avxSad (blk : Nat → Nat) (k : Nat) : Nat :=
  if k % 2 = 0 then
    blk (4 * k) + blk (4 * k + 1) + blk (4 * k + 2) + blk (4 * k + 3) +
    blk (4 * k + 4) + blk (4 * k + 5) + blk (4 * k + 6) + blk (4 * k + 7)
  else 0

/-- `avx2_reduce_add_8x32`, fbuf.c 100-109. -/
def avxReduce (v : Nat → Nat) : Nat :=
  let sum128 := fun i => (v i + v (i + 4)) % 2 ^ 32
  let hi64 := fun i => sum128 (2 + i % 2)
  let sum64 := fun i => (hi64 i + sum128 i) % 2 ^ 32
  let hi32 := fun i => sum64 (if i % 2 = 0 then i + 1 else i - 1)
  (sum64 0 + hi32 0) % 2 ^ 32

/-- One iteration of the inner loop, fbuf.c 138-144. -/
def avxBlock (sv s2v : Nat → Nat) (blk : Nat → Nat) : (Nat → Nat) × (Nat → Nat) :=
  let mad := avxMaddubs blk
  let s2v := fun k => (s2v k + avxMadd mad k) % 2 ^ 32
  let s2v := fun k => (s2v k + (sv k <<< 5) % 2 ^ 32) % 2 ^ 32
  let sv := fun k => (sv k + avxSad blk k) % 2 ^ 32
  (sv, s2v)

/-- The inner loop over `n` blocks of 32 bytes, fbuf.c 137-145. -/
def avxInner (sv s2v : Nat → Nat) : Nat → List Nat → (Nat → Nat) × (Nat → Nat)
  | 0, _ => (sv, s2v)
  | n + 1, data =>
    let r := avxBlock sv s2v (fun i => data.getD i 0)
    avxInner r.1 r.2 n (data.drop 32)

/-- `chunk_len` of fbuf.c 127-130; `ADLER_CHUNK_LEN_SIMD_32` is 5536. -/
def avxChunkLen (length : Nat) : Nat :=
  let c := length - length % 32
  if c > 5536 then 5536 else c

/-- The outer loop, fbuf.c 126-153: returns the state and the unread input. -/
def avxOuter (sum sum2 : Nat) (data : List Nat) : (Nat × Nat) × List Nat :=
  if _h : data.length ≥ 32 then
    let chunkLen := avxChunkLen data.length
    let r := avxInner (fun _ => 0) (fun _ => 0) (chunkLen / 32) data
    let sum2 := (sum2 + sum * chunkLen) % 2 ^ 32
    let sum2 := (sum2 + avxReduce r.2) % 2 ^ 32
    let sum := (sum + avxReduce r.1) % 2 ^ 32
    avxOuter (sum % adlerMod) (sum2 % adlerMod) (data.drop (avxChunkLen data.length))
  else ((sum, sum2), data)
termination_by data.length
decreasing_by
  simp only [List.length_drop, avxChunkLen]; split <;> omega

/-- `for (; data != chunk_end; data++) { sum += *data; sum2 += sum; }`,
fbuf.c 162-165. -/
def avxTailChunk (sum sum2 : Nat) : List Nat → Nat × Nat
  | [] => (sum, sum2)
  | b :: bs =>
    let sum := (sum + b) % 2 ^ 32
    avxTailChunk sum ((sum2 + sum) % 2 ^ 32) bs

/-- The tail loop, fbuf.c 155-169. -/
def avxTail (sum sum2 : Nat) (data : List Nat) : Nat × Nat :=
  if _h : data.length ≠ 0 then
    let chunkLen := if data.length > 5552 then 5552 else data.length
    let r := avxTailChunk sum sum2 (data.take chunkLen)
    avxTail (r.1 % adlerMod) (r.2 % adlerMod)
      (data.drop (if data.length > 5552 then 5552 else data.length))
  else (sum, sum2)
termination_by data.length
decreasing_by
  simp only [List.length_drop]; split <;> omega

/-- `adler32_update_avx2`, fbuf.c 111-173. -/
def adlerAvx2 (s : Adler) (data : List Nat) : Adler :=
  let r := avxOuter s.s1 s.s2 data
  let t := avxTail r.1.1 r.1.2 r.2
  ⟨t.1, t.2⟩

/-- Which `update` function `checksum_init` selects, fbuf.c 233-240. -/
inductive AdlerImpl where
  | scalar (w : Nat)
  | avx2
  deriving DecidableEq, Repr

/-- `checksum_update` for `FBUF_CS_ADLER32`, fbuf.c 245-254. -/
def checksumUpdate (impl : AdlerImpl) (s : Adler) (input : List Nat) : Adler :=
  match impl with
  | .scalar w => adlerScalar w s input
  | .avx2 => adlerAvx2 s input

/-- `checksum_finish` for `FBUF_CS_ADLER32`, fbuf.c 256-264. -/
def checksumFinish (s : Adler) : Nat := ((s.s1 <<< 16) % 2 ^ 32) ||| s.s2

/-- Checksum of data delivered in several `checksum_update` calls. -/
def checksumOf (impl : AdlerImpl) (chunks : List (List Nat)) : Nat :=
  checksumFinish (chunks.foldl (checksumUpdate impl) adlerInit)

end Verif.Fbuf
