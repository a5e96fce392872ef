import Verif.Wave.Spec

/-
Model of waveform dumps, src/rt/wave.c.

Simplifications: a signal is the list of its elements as they are stored, read
without sign; the calls of the FST library are a list of outputs; numbers in
decimal are not written out as text; reals are their bits.  Access outside of
a buffer gives `none`.
-/

namespace Verif.Wave

open Spec

/-- `bits_for_range`, src/common.c:882-909. -/
def bitsForRange (low high : Int) : Nat :=
  if low > high then 0
  else if low < 0 then
    if low ≥ -128 ∧ high ≤ 127 then 8
    else if low ≥ -32768 ∧ high ≤ 32767 then 16
    else if low ≥ -2147483648 ∧ high ≤ 2147483647 then 32
    else 64
  else if high ≤ 1 then 1
  else if high ≤ 255 then 8
  else if high ≤ 65535 then 16
  else if high ≤ 4294967295 then 32
  else 64

/-- What is stored for a value in so many bytes, as read by `signal_expand`,
src/rt/model.c:827-840. -/
def stored (bytes : Nat) (v : Int) : Nat := (v % (2 ^ (8 * bytes) : Nat)).toNat

/-- The bytes of a type, src/jit/jit-layout.c:91. -/
def bytesFor (bits : Nat) : Nat := (bits + 7) / 8

/-- `fst_write_binary`, src/rt/wave.c:184-189: bit `j` is at `size - 1 - j`. -/
def writeBinary (val : Nat) : Nat → Text
  | 0 => []
  | n + 1 => (if val / 2 ^ n % 2 = 1 then 49 else 48) :: writeBinary val n

/-- A number as it is printed with `PRIi64`. -/
def printed (u : Nat) : Int := if 2 ^ 63 ≤ u then (u : Int) - 2 ^ 64 else u

/-- `fst_fmt_physical`, src/rt/wave.c:210-225: the number and the unit; `none`
if there is no unit that divides, when the loop goes past the end. -/
def fmtPhysical : List (Nat × Text) → Nat → Option (Int × Text)
  | [], _ => none
  | (m, n) :: us, val => if val % m = 0 then some (printed (val / m), n) else fmtPhysical us val

/-- `fst_make_unit_map`, src/rt/wave.c:274-288: last unit first. -/
def unitMap (units : List (Nat × Text)) : List (Nat × Text) := units.reverse

/-- The literals of an enumeration, src/rt/wave.c:402-416. -/
def literals (lits : List Text) : List Text := lits.map fun l => l.map lower

/-- What is written for one variable. -/
inductive Out where
  | text (t : Text)
  | real (bits : Nat)
  | phys (k : Int) (unit : Text)
  deriving DecidableEq

/-- The kinds of formatting, `fst_fmt_fn_t`. -/
inductive Fmt where
  | int (size : Nat)
  | real
  | phys (units : List (Nat × Text))
  | chars (map : Option Text)
  | enum (lits : List Text)

/-- `fst_fmt_chars`, src/rt/wave.c:227-241, of one variable. -/
def fmtChars (map : Option Text) (p : List Nat) : Option Text :=
  match map with
  | none => some p
  | some m => p.mapM fun c => m[c]?

/-- The part of the elements for variable `i`. -/
def part (vals : List Nat) (size i : Nat) : Option (List Nat) :=
  if (i + 1) * size ≤ vals.length then some ((vals.drop (i * size)).take size) else none

/-- The values written by an event, `data->type->fn`: variable and text.  The
text of an integer has `n` characters while the library reads `size`. -/
def emit (f : Fmt) (size count : Nat) (vals : List Nat) : Option (List (Nat × Out)) :=
  match f with
  | .int n => (List.range count).mapM fun i =>
      if size ≠ n then none
      else (vals[i]?).map fun v => (i, .text (writeBinary v n))
  | .real => (vals[0]?).map fun v => [(0, .real v)]
  | .phys us => (vals[0]?).bind fun v => (fmtPhysical us v).map fun k => [(0, .phys k.1 k.2)]
  | .chars m => (List.range count).mapM fun i =>
      (part vals size i).bind fun p => (fmtChars m p).map fun t => (i, .text t)
  | .enum ls => (vals[0]?).bind fun v => (ls[v]?).map fun t => [(0, .text t)]

/-- The element types of signals. -/
inductive Elem where
  | int (lo hi : Int)
  | real
  | phys (units : List (Nat × Text))
  /-- BIT and STD_ULOGIC -/
  | logic (map : Text)
  | enum (lits : List Text)
  /-- the element of STRING -/
  | char

/-- `fst_type_for`, src/rt/wave.c:290-481: formatting and size. -/
def typeFor : Elem → Fmt × Nat
  | .int lo hi => (.int (bitsForRange lo hi), bitsForRange lo hi)
  | .real => (.real, 0)
  | .phys us => (.phys (unitMap us), 0)
  | .logic m => (.chars (some m), 1)
  | .enum ls => (.enum (literals ls), 0)
  | .char => (.chars none, 1)

def isEnum : Elem → Bool
  | .logic _ => true
  | .enum _ => true
  | .char => true
  | _ => false

/-- Size and count of the variables of a signal:
`fst_create_scalar_var`, src/rt/wave.c:710-721, and `fst_create_array_var`,
612-696. -/
def layout (e : Elem) : List Nat → Nat × Nat
  | [] => ((typeFor e).2, 1)
  | [n] => if isEnum e then (n * (typeFor e).2, 1) else ((typeFor e).2, n)
  | n :: ds => (ds.getLast?.getD 1 * (typeFor e).2, n * (ds.dropLast).foldl (· * ·) 1)

/-- An event on a signal with these dimensions. -/
def dump (e : Elem) (dims : List Nat) (vals : List Nat) : Option (List (Nat × Out)) :=
  emit (typeFor e).1 (layout e dims).1 (layout e dims).2 vals

/-! ## Names -/

/-- `fst_create_memory`, src/rt/wave.c:560-583: the indexes in the names of
the variables, in the order of the handles. -/
def memNames : List Dim → List (List Int)
  | [] => []
  | [_] => [[]]
  | d :: e :: ds => (List.range d.length).flatMap fun i =>
      (memNames (e :: ds)).map fun r => d.at i :: r

/-! ## Times -/

/-- `fst_event_cb`, src/rt/wave.c:260-272, for a sequence of events; the last
time is that of the dumper. -/
def events {α : Type} (last : Nat) : List (Nat × α) → List (Item α)
  | [] => []
  | (now, x) :: r =>
    if now ≠ last then .time now :: .change x :: events now r
    else .change x :: events last r

/-- The time before the first event, UINT64_MAX, src/rt/wave.c:1063. -/
def noTime : Nat := 2 ^ 64 - 1

/-! ## Selection -/

/-- `wave_should_dump`, src/rt/wave.c:1200-1213; `glob` is `ident_glob` (C20). -/
def shouldDump (glob : Text → Text → Bool) (incl excl : List Text) (name : Text) : Bool :=
  if excl.any (glob name) then false
  else if incl.any (glob name) then true
  else decide (incl.length = 0)

/-- `fgets` with a buffer for 1023 characters, src/rt/wave.c:1170: the pieces
of a file, each with its newline if it has one. -/
def pieces (max : Nat) : Text → Text → List Text
  | acc, [] => if acc = [] then [] else [acc.reverse]
  | acc, c :: t =>
    if c = 10 ∨ acc.length + 1 ≥ max then (c :: acc).reverse :: pieces max [] t
    else pieces max (c :: acc) t

/-- The loop which erases comments, src/rt/wave.c:1171-1178: the string ends at
the first character that is set to zero. -/
def erase (t : Text) : Text := t.takeWhile fun c => c != 35 && c != 13 && c != 10

/-- `sscanf` with " %1023s ", src/rt/wave.c:1181. -/
def scanWord (t : Text) : Option Text :=
  let w := ((t.dropWhile isSpace).takeWhile fun c => !isSpace c).take 1023
  if w = [] then none else some w

/-- `wave_process_file`, src/rt/wave.c:1161-1190, of a file with no zero bytes. -/
def processFile (t : Text) : List Text :=
  (pieces 1023 [] t).filterMap fun l => scanWord (erase l)

/-! ## Scopes of the GTKWave file -/

/-- `fst_enter_scope`, src/rt/wave.c:943-946. -/
def enterScope (instance_ : Bool) (hier name : Text) : Text :=
  (if instance_ && decide (hier.length > 0) then hier ++ [46] else hier) ++ name

/-- `fst_leave_scope`, src/rt/wave.c:954-964: up to the last dot. -/
def leaveScope (hier : Text) : Text :=
  if hier.contains 46 then (hier.reverse.dropWhile (fun c => c != 46)).tail.reverse else hier

end Verif.Wave
