/-
Model of where the parts of a value are placed in memory.

Two computations place the parts of a VHDL value.  The code generator first
lowers the type (src/lower.c 268-279, 582-749) to a type of the intermediate
language and then takes sizes, alignments and offsets of that type
(src/jit/jit-irgen.c 739-871, 2051-2078, 4134-4178).  The runtime library
(reflection, VHPI and the FST writer) asks src/jit/jit-layout.c instead, which
works on the VHDL type.  Both are modelled here.

Simplified:
* The standard is VHDL-2008 or later (`standard() >= STD_08` holds).
* Sizes are unbounded numbers as long as they are computed; whenever the C
  stores one in an `int` the model checks that it fits and fails otherwise.
  The C would convert or overflow instead.
* A `type_t` is replaced by what these functions ask of it.  A record subtype
  is replaced by its base type: `type_fields` and `type_field` do the same and
  neither side looks at the constraints.
* Types are trees: a record that contains itself through an access type is
  cut at the access type, whose size does not depend on what it points to.
* Pointers have eight bytes.
* Results of `layout_of` are not cached.
-/

namespace Verif.Jit.Layout

/-- `INT_MAX` plus one. -/
def intLimit : Nat := 2147483648

/-- Storing a size in an `int`. -/
def fitNat (n : Nat) : Option Nat := if n < intLimit then some n else none

/-- Storing a count in an `int`. -/
def fitInt (n : Int) : Option Int :=
  if -2147483648 ≤ n ∧ n < 2147483648 then some n else none

/-- `ALIGN_UP` (src/util.h 89-92).  The assertion accepts zero because
`is_power_of_2(0)` holds (src/util.h 86), and then the mask is zero.  The other
alignments are powers of two, for which the mask rounds up. -/
def alignUp (p a : Nat) : Nat := if a = 0 then 0 else (p + (a - 1)) / a * a

/-- `bits_for_range` (src/common.c 882-910). -/
def bitsForRange (low high : Int) : Nat :=
  if high < low then 0
  else if low < 0 then
    if -128 ≤ low ∧ high ≤ 127 then 8
    else if -32768 ≤ low ∧ high ≤ 32767 then 16
    else if -2147483648 ≤ low ∧ high ≤ 2147483647 then 32
    else 64
  else
    if high ≤ 1 then 1
    else if high ≤ 255 then 8
    else if high ≤ 65535 then 16
    else if high ≤ 4294967295 then 32
    else 64

/-! ### VHDL types -/

/-- A range, as `folded_bounds` sees it (src/common.c 135-167): the bounds are
literals, or they are not known. -/
inductive Rng where
  | known (low high : Int)
  | unknown
deriving DecidableEq, Repr

/-- `folded_length` (src/common.c 124-133). -/
def Rng.length? : Rng → Option Nat
  | .known low high => some (high - low + 1).toNat
  | .unknown => none

/-- What the two sides ask of a `type_t`. -/
inductive Ty where
  /-- An integer type or subtype: the range of its base type and its own. -/
  | int (base own : Rng)
  /-- A physical type: the range of its base type. -/
  | phys (base : Rng)
  /-- An enumeration type with this number of literals. -/
  | enum (nlits : Nat)
  | real
  | access
  | file
  /-- An array type, or a subtype of one that has no index constraint. -/
  | array (ndims : Nat) (elem : Ty)
  /-- An array subtype with an index constraint. -/
  | sub (ranges : List Rng) (elem : Ty)
  | record (fields : List Ty)
deriving Repr

/-- `type_is_array` (src/type.c 639-646). -/
def Ty.isArray : Ty → Bool
  | .array _ _ => true
  | .sub _ _ => true
  | _ => false

/-- `type_is_record` (src/type.c 648-651). -/
def Ty.isRecord : Ty → Bool
  | .record _ => true
  | _ => false

/-- `type_is_scalar` (src/type.c 866-877). -/
def Ty.isScalar : Ty → Bool
  | .int _ _ => true
  | .phys _ => true
  | .enum _ => true
  | .real => true
  | _ => false

/-- `type_elem_recur` (src/type.c 946-951). -/
def Ty.elemRecur : Ty → Ty
  | .array _ e => e.elemRecur
  | .sub _ e => e.elemRecur
  | t => t

/-- `type_is_homogeneous` (src/type.c 984-992). -/
def Ty.isHomogeneous : Ty → Bool
  | .array _ e => e.isHomogeneous
  | .sub _ e => e.isHomogeneous
  | t => t.isScalar

mutual

/-- `type_is_unconstrained` (src/type.c 742-790). -/
def Ty.isUnconstrained : Ty → Bool
  | .array _ _ => true
  | .sub _ e => e.isUnconstrained
  | .record fs => anyUnconstrained fs
  | _ => false

/-- The loop over the fields of a record (src/type.c 782-788). -/
def anyUnconstrained : List Ty → Bool
  | [] => false
  | f :: fs => f.isUnconstrained || anyUnconstrained fs

end

/-- Every range of a list has known bounds. -/
def allKnown : List Rng → Bool
  | [] => true
  | .known _ _ :: rs => allKnown rs
  | .unknown :: _ => false

mutual

/-- `type_const_bounds` (src/type.c 906-936).  The test for an unconstrained
type comes first and recurs into fields and elements. -/
def Ty.constBounds : Ty → Bool
  | .array _ _ => false
  | .sub rs e => !(e.isUnconstrained) && allKnown rs && e.constBounds
  | .record fs => !(anyUnconstrained fs) && allConst fs
  | .int _ own => allKnown [own]
  | _ => true

/-- The loop over the fields of a record (src/type.c 911-918). -/
def allConst : List Ty → Bool
  | [] => true
  | f :: fs => f.constBounds && allConst fs

end

/-! ### The library: src/jit/jit-layout.c -/

/-- `layout_class_t` (src/jit/jit-layout.h 24-29). -/
inductive Cls where
  | data
  | bounds
  | offset
  | ext
deriving DecidableEq, Repr

/-- `layout_part_t` (src/jit/jit-layout.h 31-37). -/
structure LPart where
  offset : Nat
  size : Nat
  rep : Nat
  align : Nat
  cls : Cls
deriving DecidableEq, Repr

/-- `jit_layout_t` (src/jit/jit-layout.h 41-46). -/
structure Lay where
  size : Nat
  align : Nat
  parts : List LPart
deriving DecidableEq, Repr

/-- The loop of `count_sub_elements` over the dimensions (src/jit/jit-layout.c
37-45): the count so far times each length, or minus one at the first length
that is not known. -/
def countDims (n : Int) : List Rng → Int
  | [] => n
  | r :: rs =>
    match r.length? with
    | none => -1
    | some len => countDims (n * len) rs

/-- `count_sub_elements` (src/jit/jit-layout.c 28-51).  The unconstrained
element type is minus one too. -/
def countSub : Ty → Option Int
  | .array _ _ => some (-1)
  | .sub rs e =>
    if e.isUnconstrained then some (-1)
    else (countSub e).bind fun n => fitInt (countDims n rs)
  | _ => some 1

/-- The layout of a scalar of this many bytes (src/jit/jit-layout.c 79-108). -/
def scalarLay (bytes : Nat) : Lay :=
  { size := bytes, align := bytes, parts := [⟨0, bytes, 1, bytes, .data⟩] }

/-- The layout of an array whose length is not known (src/jit/jit-layout.c
131-147). -/
def wrappedLay (ndims : Nat) : Lay :=
  { size := 8 + ndims * 2 * 8
    align := 8
    parts := [⟨0, 8, 1, 8, .ext⟩, ⟨8, 8, ndims * 2, 8, .bounds⟩] }

/-- The layout of an array of known length (src/jit/jit-layout.c 114-128). -/
def arrayLay (nelems : Nat) (el : Lay) : Option Lay :=
  (fitNat (nelems * el.size)).map fun size =>
    { size := size, align := el.align, parts := [⟨0, el.size, nelems, el.align, .data⟩] }

/-- `ALIGN_UP(bits, 8) / 8` (src/jit/jit-layout.c 92). -/
def bytesForRange (low high : Int) : Nat := alignUp (bitsForRange low high) 8 / 8

/-- The layout of a type with this range (src/jit/jit-layout.c 79-97). -/
def rangeLay : Rng → Option Lay
  | .known low high => some (scalarLay (bytesForRange low high))
  | .unknown => none

/-- The two cases of an array subtype (src/jit/jit-layout.c 109-131): the type
at the end of the element types is used for the elements. -/
def subLay (ndims : Nat) (count : Option Int) (el : Option Lay) : Option Lay :=
  count.bind fun n =>
    if 0 ≤ n then el.bind (arrayLay n.toNat) else some (wrappedLay ndims)

mutual

/-- `layout_of` (src/jit/jit-layout.c 67-182) of a type, and of the type at the
end of its element types, which the array case asks for. -/
def layoutBoth : Ty → Option Lay × Option Lay
  | .int base _ => (rangeLay base, rangeLay base)
  | .phys base => (rangeLay base, rangeLay base)
  | .enum n => (rangeLay (.known 0 (n - 1)), rangeLay (.known 0 (n - 1)))
  | .real => (some (scalarLay 8), some (scalarLay 8))
  | .access => (none, none)
  | .file => (none, none)
  | .array nd e => (some (wrappedLay nd), (layoutBoth e).2)
  | .sub rs e => (subLay rs.length (countSub (.sub rs e)) (layoutBoth e).2, (layoutBoth e).2)
  | .record fs => (layoutFields 0 [] fs, layoutFields 0 [] fs)

/-- The loop over the fields of a record (src/jit/jit-layout.c 149-172). -/
def layoutFields (offset : Nat) (acc : List LPart) : List Ty → Option Lay
  | [] => some { size := offset, align := 8, parts := acc }
  | f :: fs =>
    (layoutBoth f).1.bind fun fl =>
      (fitNat (alignUp offset fl.align + fl.size)).bind fun next =>
        layoutFields next
          (acc ++ [⟨alignUp offset fl.align, fl.size, 1, fl.align, .data⟩]) fs

end

/-- `layout_of` (src/jit/jit-layout.c 67-182). -/
def layoutOf (t : Ty) : Option Lay := (layoutBoth t).1

/-- A constrained array in `signal_layout_of` (src/jit/jit-layout.c 239-269). -/
def signalFixed (homogeneous : Bool) : Lay :=
  if homogeneous then
    { size := 16, align := 8, parts := [⟨0, 8, 1, 8, .ext⟩, ⟨8, 8, 1, 8, .offset⟩] }
  else
    { size := 8, align := 8, parts := [⟨0, 8, 1, 8, .ext⟩] }

/-- Another array in `signal_layout_of` (src/jit/jit-layout.c 272-312). -/
def signalWrapped (homogeneous : Bool) (ndims : Nat) : Lay :=
  if homogeneous then
    { size := 16 + 8 * (ndims * 2), align := 8
      parts := [⟨0, 8, 1, 8, .ext⟩, ⟨8, 8, 1, 8, .offset⟩, ⟨16, 8, ndims * 2, 8, .bounds⟩] }
  else
    { size := 8 + 8 * (ndims * 2), align := 8
      parts := [⟨0, 8, 1, 8, .ext⟩, ⟨8, 8, ndims * 2, 8, .bounds⟩] }

mutual

/-- `signal_layout_of` (src/jit/jit-layout.c 184-319).  A type that is neither
scalar nor record nor array falls into the array cases; signals of these types
do not exist. -/
def signalLayoutOf : Ty → Option Lay
  | .record fs => signalFields 0 [] fs
  | .array nd e => some (signalWrapped e.isHomogeneous nd)
  | .sub rs e =>
    if (Ty.sub rs e).constBounds then some (signalFixed e.isHomogeneous)
    else some (signalWrapped e.isHomogeneous rs.length)
  | .access => none
  | .file => none
  | _ =>
    some { size := 16, align := 8, parts := [⟨0, 8, 1, 8, .ext⟩, ⟨8, 8, 1, 8, .offset⟩] }

/-- The loop over the fields of a record (src/jit/jit-layout.c 219-238). -/
def signalFields (offset : Nat) (acc : List LPart) : List Ty → Option Lay
  | [] => some { size := offset, align := 8, parts := acc }
  | f :: fs =>
    (signalLayoutOf f).bind fun fl =>
      (fitNat (alignUp offset fl.align + fl.size)).bind fun next =>
        signalFields next
          (acc ++ [⟨alignUp offset fl.align, fl.size, 1, fl.align, .data⟩]) fs

end

/-! ### The code generator: types of the intermediate language -/

/-- Types of the intermediate language that have a size.  What pointers,
accesses, files and signals refer to has no influence and is left out. -/
inductive MTy where
  | int (low high : Int)
  | offset
  | real
  | carray (size : Nat) (elem : MTy)
  | record (fields : List MTy)
  | uarray (dims : Nat) (elem : MTy)
  | access
  | pointer
  | context
  | trigger
  | file
  | signal
  | resolution
deriving Repr

/-- The class is `MIR_TYPE_SIGNAL`. -/
def MTy.isSignal : MTy → Bool
  | .signal => true
  | _ => false

/-- The bits of the representation that `mir_int_type` chooses
(src/mir/mir-type.c 451-472, `irgen_repr_bits`, src/jit/jit-irgen.c 739-749): a
null range is represented with 64 bits. -/
def reprBits (low high : Int) : Nat :=
  if bitsForRange low high = 0 then 64 else bitsForRange low high

/-- `irgen_align_of` (src/jit/jit-irgen.c 757-785). -/
def alignOf : MTy → Nat
  | .int low high => alignUp (reprBits low high) 8 / 8
  | .offset => 8
  | .real => 8
  | .record _ => 8
  | .file => 4
  | .carray _ e => alignOf e
  | _ => 8

mutual

/-- `irgen_size_bytes` (src/jit/jit-irgen.c 808-871). -/
def sizeOf : MTy → Option Nat
  | .int low high => some (alignUp (reprBits low high) 8 / 8)
  | .offset => some 8
  | .real => some 8
  | .carray n e => (sizeOf e).bind fun s => fitNat (n * s)
  | .record fs => (sizeFields 0 fs).bind fun bytes => fitNat (alignUp bytes 8)
  | .uarray d e => some ((if e.isSignal then 16 else 8) + 16 * d)
  | .access => some 8
  | .pointer => some 8
  | .context => some 8
  | .trigger => some 8
  | .file => some 4
  | .signal => some 12
  | .resolution => some 28

/-- The loop over the fields of a record (src/jit/jit-irgen.c 829-838). -/
def sizeFields (bytes : Nat) : List MTy → Option Nat
  | [] => some bytes
  | f :: fs => (sizeOf f).bind fun fb => sizeFields (alignUp bytes (alignOf f) + fb) fs

end

/-- `irgen_op_record_ref` (src/jit/jit-irgen.c 2063-2078): the offset of a
field, where `offset` is the end of the fields before. -/
def recordRef (offset : Nat) : List MTy → Nat → Option Nat
  | [], _ => none
  | f :: _, 0 => some (alignUp offset (alignOf f))
  | f :: fs, i + 1 =>
    (sizeOf f).bind fun fb => recordRef (alignUp offset (alignOf f) + fb) fs i

/-- The part of `irgen_locals` that places variables in the heap
(src/jit/jit-irgen.c 4134-4159): the offset of every variable and the size of
the frame. -/
def placeVars (sz : Nat) : List MTy → Option (List Nat × Nat)
  | [] => some ([], sz)
  | v :: vs =>
    (sizeOf v).bind fun s =>
      (placeVars (alignUp sz (alignOf v) + s) vs).map fun r =>
        (alignUp sz (alignOf v) :: r.1, r.2)

/-- The bytes in front of the variables (src/jit/jit-irgen.c 4136-4142): the
context, and for a process or procedure the state of a suspended procedure and
the number of the state. -/
def frameHeader (process : Bool) : Nat := if process then 20 else 8

/-- One access to memory: distance from the address and number of bytes. -/
structure Access where
  at_ : Nat
  bytes : Nat
deriving DecidableEq, Repr

/-- Accesses of eight bytes one after the other. -/
def words (start : Nat) : Nat → List Access
  | 0 => []
  | n + 1 => ⟨start, 8⟩ :: words (start + 8) n

/-- The stores of `irgen_store_addr` (src/jit/jit-irgen.c 1813-1877) and the
loads of `irgen_load_addr` (src/jit/jit-irgen.c 1738-1802); `none` for the
types that are only passed by address.  `irgen_slots_for_type` of the elements
of an unconstrained array is two for signals (src/jit/jit-irgen.c 712-737). -/
def accesses : MTy → Option (List Access)
  | .int low high => some [⟨0, alignUp (reprBits low high) 8 / 8⟩]
  | .offset => some [⟨0, 8⟩]
  | .real => some [⟨0, 8⟩]
  | .access => some [⟨0, 8⟩]
  | .pointer => some [⟨0, 8⟩]
  | .context => some [⟨0, 8⟩]
  | .trigger => some [⟨0, 8⟩]
  | .file => some [⟨0, 4⟩]
  | .uarray d e => some (words 0 ((if e.isSignal then 2 else 1) + 2 * d))
  | .signal => some [⟨0, 8⟩, ⟨8, 4⟩]
  | .resolution => some [⟨0, 8⟩, ⟨8, 8⟩, ⟨16, 8⟩, ⟨24, 4⟩]
  | .carray _ _ => none
  | .record _ => none

/-! ### The code generator: lowering of types -/

/-- The loop of `lower_array_const_size` (src/lower.c 582-593). -/
def constDims (n : Nat) : List Rng → Option Nat
  | [] => some n
  | r :: rs => r.length?.bind fun len => constDims (n * len) rs

/-- `lower_array_const_size` (src/lower.c 578-597) for a type that is an array,
and one for the other types. -/
def constSize : Ty → Option Nat
  | .array _ _ => none
  | .sub rs e => (constSize e).bind fun n => (constDims n rs).bind fitNat
  | _ => some 1

/-- The loop of `dims_for_type` (src/lower.c 272-275): the dimensions of the
element types as long as they are arrays without constant bounds. -/
def extraDims : Ty → Nat
  | .array nd e => nd + extraDims e
  | .sub rs e => if (Ty.sub rs e).constBounds then 0 else rs.length + extraDims e
  | _ => 0

/-- The type of an integer type with this range (src/lower.c 625-635). -/
def lowerRange : Rng → MTy
  | .known low high => .int low high
  | .unknown => .int (-9223372036854775808) 9223372036854775807

/-- The two cases of `lower_array_type` (src/lower.c 599-609). -/
def lowerSub (const : Bool) (dims : Nat) (size : Option Nat) (el : Option MTy) : Option MTy :=
  el.bind fun m => if const then size.map fun n => .carray n m else some (.uarray dims m)

mutual

/-- `lower_type` (src/lower.c 611-690) of a type, and of the type at the end of
its element types. -/
def lowerBoth : Ty → Option MTy × Option MTy
  | .int base _ => (some (lowerRange base), some (lowerRange base))
  | .phys base => (some (lowerRange base), some (lowerRange base))
  | .enum n => (some (.int 0 (n - 1)), some (.int 0 (n - 1)))
  | .real => (some .real, some .real)
  | .access => (some .access, some .access)
  | .file => (some .file, some .file)
  | .array nd e => (lowerSub false (nd + extraDims e) none (lowerBoth e).2, (lowerBoth e).2)
  | .sub rs e =>
    (lowerSub (Ty.sub rs e).constBounds (rs.length + extraDims e) (constSize (.sub rs e))
      (lowerBoth e).2, (lowerBoth e).2)
  | .record fs => ((lowerFields fs).map .record, (lowerFields fs).map .record)

/-- The loop over the fields of a record (src/lower.c 646-649). -/
def lowerFields : List Ty → Option (List MTy)
  | [] => some []
  | f :: fs => (lowerBoth f).1.bind fun m => (lowerFields fs).map fun ms => m :: ms

end

/-- `lower_type` (src/lower.c 611-690). -/
def lowerType (t : Ty) : Option MTy := (lowerBoth t).1

/-- The array cases of `lower_signal_type` (src/lower.c 715-731). -/
def lowerSignalSub (homogeneous const : Bool) (dims : Nat) (size : Option Nat)
    (el : Option MTy) : Option MTy :=
  if homogeneous then
    if const then some .signal else some (.uarray dims .signal)
  else
    el.bind fun m => if const then size.map fun n => .carray n m else some (.uarray dims m)

mutual

/-- `lower_signal_type` (src/lower.c 713-750) of a type, and of the type at the
end of its element types. -/
def lowerSignalBoth : Ty → Option MTy × Option MTy
  | .array nd e =>
    (lowerSignalSub e.isHomogeneous false (nd + extraDims e) none (lowerSignalBoth e).2,
      (lowerSignalBoth e).2)
  | .sub rs e =>
    (lowerSignalSub e.isHomogeneous (Ty.sub rs e).constBounds (rs.length + extraDims e)
      (constSize (.sub rs e)) (lowerSignalBoth e).2, (lowerSignalBoth e).2)
  | .record fs => ((lowerSignalFields fs).map .record, (lowerSignalFields fs).map .record)
  | .access => (none, none)
  | .file => (none, none)
  | _ => (some .signal, some .signal)

/-- The loop over the fields of a record (src/lower.c 740-742). -/
def lowerSignalFields : List Ty → Option (List MTy)
  | [] => some []
  | f :: fs => (lowerSignalBoth f).1.bind fun m => (lowerSignalFields fs).map fun ms => m :: ms

end

/-- `lower_signal_type` (src/lower.c 713-750). -/
def lowerSignalType (t : Ty) : Option MTy := (lowerSignalBoth t).1

/-! ### Constants -/

/-- `irgen_append_cpool` (src/jit/jit-irgen.c 995-1008): the place of a new
constant and the end of the pool after it.  The growing of the memory is left
out. -/
def appendPool (ptr sz align : Nat) : Nat × Nat := (alignUp ptr align, alignUp ptr align + sz)

/-- `memmem`: the first place at which `needle` occurs in `hay`. -/
def memmem (needle : List Nat) : List Nat → Option Nat
  | [] => if needle = [] then some 0 else none
  | b :: bs =>
    if needle.isPrefixOf (b :: bs) then some 0
    else (memmem needle bs).map (· + 1)

/-- `irgen_dedup_cpool` (src/jit/jit-irgen.c 1010-1026): the place at which the
constant just appended at `old` is to be found.  `pool` are the bytes up to the
end of the constant. -/
def dedupPool (prefix_ : Nat) (pool : List Nat) (old : Nat) : Nat :=
  match memmem (pool.drop old) (pool.take (min old prefix_)) with
  | some dup => dup
  | none => old

end Verif.Jit.Layout
