import Verif.Jit.LayoutModel

/-
What is expected of the places of the parts of a value, stated without the
functions that compute them.
-/

namespace Verif.Jit.Layout

/-- A place in memory: where it begins, its length, and its alignment. -/
structure Place where
  offset : Nat
  size : Nat
  align : Nat

/-- Places between `start` and `stop`, each aligned, one after the other and
without overlap. -/
structure WellPlaced (start stop : Nat) (ps : List Place) : Prop where
  aligned : ∀ (i : Nat) p, ps[i]? = some p → p.align ∣ p.offset
  after : ∀ (i : Nat) p, ps[i]? = some p → start ≤ p.offset
  before : ∀ (i : Nat) p, ps[i]? = some p → p.offset + p.size ≤ stop
  apart : ∀ (i j : Nat) p q, ps[i]? = some p → ps[j]? = some q → i < j →
    p.offset + p.size ≤ q.offset

/-- Where the generated code reads or writes when it accesses one scalar (or
one word of a handle) of a value.  The path says which: the numbers of fields
and elements on the way, then the number of the access. -/
inductive Leaf : MTy → List Nat → Access → Prop where
  | here {m as k a} : accesses m = some as → as[k]? = some a → Leaf m [k] a
  | elem {n e s k path a} : k < n → sizeOf e = some s → Leaf e path a →
      Leaf (.carray n e) (k :: path) ⟨k * s + a.at_, a.bytes⟩
  | field {fs i f off path a} : fs[i]? = some f → recordRef 0 fs i = some off →
      Leaf f path a → Leaf (.record fs) (i :: path) ⟨off + a.at_, a.bytes⟩

mutual

/-- Arrays inside the type have elements of a kind that may follow one another
without space: no handles of signals or resolution functions. -/
def Stackable : MTy → Bool
  | .carray _ e => elemOk e && Stackable e
  | .record fs => allStackable fs
  | _ => true

/-- The kinds that may be elements. -/
def elemOk : MTy → Bool
  | .signal => false
  | .resolution => false
  | .carray _ e => elemOk e
  | _ => true

/-- Every field is stackable. -/
def allStackable : List MTy → Bool
  | [] => true
  | f :: fs => Stackable f && allStackable fs

end

/-- Two accesses have no byte in common. -/
def Access.Apart (a b : Access) : Prop := a.at_ + a.bytes ≤ b.at_ ∨ b.at_ + b.bytes ≤ a.at_

/-- The library and the generated code agree about a type that is lowered to
`m` and has the layout `l`: the alignment is the same, the sizes are the same
except for the space at the end of a record, and the parts are at the same
places. -/
structure Agrees (l : Lay) (m : MTy) (record : Bool) : Prop where
  align : l.align = alignOf m
  size : sizeOf m = some (if record then alignUp l.size 8 else l.size)
  fields : ∀ ms, m = .record ms → l.parts.length = ms.length ∧
    ∀ (i : Nat) f, ms[i]? = some f → ∃ p, l.parts[i]? = some p ∧
      recordRef 0 ms i = some p.offset ∧ sizeOf f = some p.size ∧ p.align = alignOf f ∧
      p.rep = 1 ∧ p.cls = .data
  elems : ∀ n e, m = .carray n e → ∃ es, sizeOf e = some es ∧
    l.parts = [⟨0, es, n, alignOf e, .data⟩]
  wrapped : ∀ d e, m = .uarray d e →
    l.parts = [⟨0, 8, 1, 8, .ext⟩, ⟨8, 8, 2 * d, 8, .bounds⟩]
  scalar : (∃ low high, m = .int low high) ∨ m = .real →
    l.parts = [⟨0, l.size, 1, l.size, .data⟩] ∧ accesses m = some [⟨0, l.size⟩]

/-- A record is laid out without unused bytes at its end. -/
def Snug (t : Ty) : Prop := ∀ l, t.isRecord = true → layoutOf t = some l → 8 ∣ l.size

mutual

/-- All bounds of the type, and of what is inside it, are constants. -/
def Constant : Ty → Prop
  | .array _ _ => False
  | .sub rs e => (∀ r ∈ rs, ∃ low high, r = .known low high) ∧ Constant e
  | .record fs => allConstant fs
  | .int _ own => ∃ low high, own = .known low high
  | _ => True

/-- Every field is such. -/
def allConstant : List Ty → Prop
  | [] => True
  | f :: fs => Constant f ∧ allConstant fs

end

mutual

/-- Somewhere inside the type there is an array without bounds. -/
def Open : Ty → Prop
  | .array _ _ => True
  | .sub _ e => Open e
  | .record fs => anyOpen fs
  | _ => False

/-- Some field is such. -/
def anyOpen : List Ty → Prop
  | [] => False
  | f :: fs => Open f ∨ anyOpen fs

end

/-- The type is an array whose bounds are not constant; these are the arrays
that the code generator keeps behind a pointer. -/
def Loose : Ty → Prop
  | .array nd e => ¬ Constant (.array nd e)
  | .sub rs e => ¬ Constant (.sub rs e)
  | _ => False

/-- The number of elements of an array is not known: it has elements without
bounds or of a number that is not known, or one of its own bounds is not
constant, and none of its dimensions is empty. -/
def Uncounted : Ty → Prop
  | .sub rs e => Open e ∨ .unknown ∈ rs ∨
    ((∀ r ∈ rs, ∃ low high, r = .known low high ∧ low ≤ high) ∧ Uncounted e)
  | _ => False

/-- The number of pairs of bounds that are kept for an array: those of its own
dimensions and those of its elements as long as they are loose too. -/
inductive KeptDims : Ty → Nat → Prop where
  | stop {t} : ¬ Loose t → KeptDims t 0
  | array {nd e n} : KeptDims e n → KeptDims (.array nd e) (nd + n)
  | sub {rs e n} : Loose (.sub rs e) → KeptDims e n → KeptDims (.sub rs e) (rs.length + n)

mutual

/-- The types for which the library and the generated code agree:
* numbers have a known and not empty range;
* an array of unknown length does not have elements that are arrays of unknown
  length themselves;
* an array subtype has constant bounds altogether, or the library does not find
  a number of elements either;
* a record inside another type fills a multiple of eight bytes;
* there are no accesses and files. -/
def Faithful : Ty → Prop
  | .int base _ => ∃ low high, base = .known low high ∧ low ≤ high
  | .phys base => ∃ low high, base = .known low high ∧ low ≤ high
  | .enum n => 0 < n
  | .real => True
  | .access => False
  | .file => False
  | .array _ e => ¬ Loose e
  | .sub rs e =>
    (Constant (.sub rs e) ∧ Faithful e ∧ Snug e.elemRecur) ∨
    (¬ Constant (.sub rs e) ∧ ¬ Loose e ∧ Uncounted (.sub rs e))
  | .record fs => allFaithful fs

/-- Every field is of such a type, and a record among them is snug. -/
def allFaithful : List Ty → Prop
  | [] => True
  | f :: fs => Faithful f ∧ Snug f ∧ allFaithful fs

end

/-- The library and the generated code agree about the handles of the signals
of a type: the alignment is the same, the sizes are the same up to the space at
the end, and the parts are at the same places. -/
structure AgreesSignal (l : Lay) (m : MTy) : Prop where
  align : l.align = alignOf m
  size : ∃ s, sizeOf m = some s ∧ alignUp s 8 = l.size
  fields : ∀ ms, m = .record ms → l.parts.length = ms.length ∧
    ∀ (i : Nat) f, ms[i]? = some f → ∃ p s, l.parts[i]? = some p ∧
      recordRef 0 ms i = some p.offset ∧ sizeOf f = some s ∧ p.size = alignUp s 8 ∧
      p.align = alignOf f ∧ p.rep = 1 ∧ p.cls = .data
  handle : m = .signal → l.parts = [⟨0, 8, 1, 8, .ext⟩, ⟨8, 8, 1, 8, .offset⟩]
  wrapped : ∀ d e, m = .uarray d e → ∃ p ps, l.parts = ⟨0, 8, 1, 8, .ext⟩ :: ps ∧
    ps.getLast? = some p ∧ p.cls = .bounds ∧ p.rep = 2 * d ∧ p.size = 8 ∧
    p.offset = if e.isSignal then 16 else 8
  elems : ∀ n e, m ≠ .carray n e

mutual

/-- The types for whose signals the library and the generated code agree:
* an array of unknown length does not have elements that are arrays of unknown
  length themselves;
* an array of records does not have constant bounds;
* there are no accesses and files. -/
def FaithfulSignal : Ty → Prop
  | .array _ e => ¬ Loose e
  | .sub rs e =>
    (Constant (.sub rs e) ∧ e.elemRecur.isScalar = true) ∨ (¬ Constant (.sub rs e) ∧ ¬ Loose e)
  | .record fs => allFaithfulSignal fs
  | .access => False
  | .file => False
  | _ => True

/-- Every field is of such a type. -/
def allFaithfulSignal : List Ty → Prop
  | [] => True
  | f :: fs => FaithfulSignal f ∧ allFaithfulSignal fs

end

end Verif.Jit.Layout
