/-!
# String functions on identifiers

Model of functions of `/repo/src/ident.c` that look at the characters of identifiers.  An
identifier is the list of its bytes (0..255, no zero); `none` is the null pointer.
-/

namespace Verif.Ident

/-- `ident_glob_walk`, ident.c 625-638; the character `*` has code 42. -/
def globWalk : List Nat → List Nat → Bool
  | [], g => g.isEmpty
  | _ :: _, [] => false
  | a :: s, b :: g =>
    if b = 42 then globWalk s (b :: g) || globWalk s g
    else if a = b then globWalk s g
    else false

/-- `ident_glob`, ident.c 640-645: the length of the pattern is ignored. -/
def glob (id pattern : List Nat) : Bool := globWalk id pattern

/-! ## Edit distance, ident.c 700-729 -/

/-- The inner loop, ident.c 715-721: from `v0[j]`, `v0[j + 1], …` and `v1[j]` compute
`v1[j + 1], …` for the remaining characters of `t`. -/
def distInner (c : Nat) : List Nat → List Nat → Nat → List Nat
  | [], _, _ => []
  | b :: t, v0j :: v0j1 :: v0, v1j =>
    let dc := v0j1 + 1
    let ic := v1j + 1
    let sc := if c = b then v0j else v0j + 1
    let x := min dc (min ic sc)
    x :: distInner c t (v0j1 :: v0) x
  | _ :: _, _, _ => []

/-- The outer loop, ident.c 712-726: `i` is the number of rows already done. -/
def distOuter (t : List Nat) : Nat → List Nat → List Nat → List Nat
  | _, [], v0 => v0
  | i, c :: s, v0 => distOuter t (i + 1) s ((i + 1) :: distInner c t v0 (i + 1))

/-- `ident_distance`, ident.c 700-729. -/
def distance (a b : List Nat) : Nat :=
  (distOuter b 0 a (List.range (b.length + 1))).getD b.length 0

/-! ## Splitting at a character -/

/-- The loop `for (; pos < i->length && i->bytes[pos] != c; pos++)`, ident.c 557 and 587. -/
def scanFwd (c : Nat) : List Nat → Nat
  | [] => 0
  | b :: bs => if b = c then 0 else scanFwd c bs + 1

/-- The loop `for (; pos >= 0 && i->bytes[pos] != c; pos--)`, ident.c 572 and 602, starting
at the terminating zero; the result is `none` for -1. -/
def scanBack (c : Nat) (bs : List Nat) : Nat → Option Nat
  | 0 => if (bs ++ [0]).getD 0 0 = c then some 0 else none
  | pos + 1 => if (bs ++ [0]).getD (pos + 1) 0 = c then some (pos + 1) else scanBack c bs pos

/-- `ident_until`, ident.c 552-565. -/
def until' (i : List Nat) (c : Nat) : List Nat :=
  let pos := scanFwd c i
  if pos = i.length then i else i.take pos

/-- `ident_runtil`, ident.c 567-580. -/
def runtil (i : List Nat) (c : Nat) : List Nat :=
  match scanBack c i i.length with
  | none => i
  | some pos => i.take pos

/-- `ident_from`, ident.c 582-595. -/
def from' (i : List Nat) (c : Nat) : Option (List Nat) :=
  let pos := scanFwd c i
  if pos = i.length then none else some (i.drop (pos + 1))

/-- `ident_rfrom`, ident.c 597-610. -/
def rfrom (i : List Nat) (c : Nat) : List Nat :=
  match scanBack c i i.length with
  | none => i
  | some pos => i.drop (pos + 1)

/-- `ident_prefix`, ident.c 496-521, with the separator 0 for none. -/
def prefix' (a b : Option (List Nat)) (sep : Nat) : Option (List Nat) :=
  match a, b with
  | none, b => b
  | some a, none => some a
  | some a, some b => if sep = 0 then some (a ++ b) else some (a ++ sep :: b)

/-- State of the scan in `ident_walk_selected`. -/
inductive Esc where
  | none
  | quote
  | backslash
  deriving DecidableEq

/-- The update of `escape`, ident.c 677-681: 39 is the quote, 92 the backslash. -/
def escNext (e : Esc) (b : Nat) : Esc :=
  if b = 39 ∧ e ≠ .backslash then (if e = .quote then .none else .quote)
  else if b = 92 ∧ e ≠ .quote then (if e = .backslash then .none else .backslash)
  else e

/-- The loop of `ident_walk_selected`, ident.c 674-682; 46 is the dot. -/
def scanSel (e : Esc) : List Nat → Nat
  | [] => 0
  | b :: bs => if b = 46 ∧ e = .none then 0 else scanSel (escNext e b) bs + 1

/-- `ident_walk_selected`, ident.c 667-698: the next component and the rest. -/
def walkSelected : Option (List Nat) → Option (List Nat) × Option (List Nat)
  | none => (none, none)
  | some i =>
    let pos := scanSel .none i
    if pos = i.length then (some i, none)
    else (some (i.take pos), some (i.drop (pos + 1)))

/-! ## Comparison without regard to case -/

/-- `toupper_iso88591`, util.c 1141-1149. -/
def toupper (ch : Nat) : Nat :=
  if 97 ≤ ch ∧ ch ≤ 122 then ch - 97 + 65
  else if (0xe0 ≤ ch ∧ ch ≤ 0xf6) ∨ (0xf8 ≤ ch ∧ ch ≤ 0xfe) then ch - 0x20
  else ch

/-- `tolower_iso88591`, util.c 1151-1159. -/
def tolower (ch : Nat) : Nat :=
  if 65 ≤ ch ∧ ch ≤ 90 then ch + 97 - 65
  else if (0xc0 ≤ ch ∧ ch ≤ 0xd6) ∨ (0xd8 ≤ ch ∧ ch ≤ 0xde) then ch + 0x20
  else ch

/-- One lane of the SSE code, ident.c 764-773: signed comparison of bytes with 'a' - 1 and
'z' + 1, subtraction of the masked difference. -/
def sseUpper (ch : BitVec 8) : BitVec 8 :=
  let mask : BitVec 8 := if (96#8).slt ch ∧ ch.slt 123#8 then 0xff#8 else 0#8
  ch - (mask &&& 32#8)

/-- The bytes of an identifier with the zero padding to a multiple of 16 that `ident_alloc`
provides (ident.c 94-95). -/
def padded (a : List Nat) : List Nat := a ++ List.replicate ((16 - a.length % 16)) 0

/-- The SSE loop over blocks of 16 bytes, ident.c 760-777. -/
def casecmpBlocks (a b : List Nat) (pos len : Nat) : Bool :=
  if _h : pos < len then
    (List.range 16).all (fun k =>
      sseUpper (BitVec.ofNat 8 (a.getD (pos + k) 0)) = sseUpper (BitVec.ofNat 8 (b.getD (pos + k) 0)))
    && casecmpBlocks a b (pos + 16) len
  else true
termination_by len - pos

/-- `ident_casecmp` on x86-64, ident.c 748-777. -/
def casecmpSse (a b : List Nat) : Bool :=
  if a = b then true
  else if a.length ≠ b.length then false
  else casecmpBlocks (padded a) (padded b) 0 a.length

/-- `ident_casecmp` elsewhere, ident.c 748-753 and 779-785. -/
def casecmpPlain (a b : List Nat) : Bool :=
  if a = b then true
  else if a.length ≠ b.length then false
  else (a.zip b).all fun p => toupper p.1 = toupper p.2

/-- `ident_casehash`, ident.c 736-746, before the final mixing. -/
def casehash (a : List Nat) : BitVec 32 :=
  a.foldl (fun h b => ((h <<< 5) + h) + (BitVec.ofNat 8 (toupper b)).signExtend 32) 5381#32

end Verif.Ident
