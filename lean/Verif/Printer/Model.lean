import Verif.Printer.Spec

/-
Model of the printers of the shell, src/rt/printer.c.

Simplifications: the text buffer is a list of bytes; the data of a signal is
the number stored in its bytes, or a list of bytes; types are numbers, with
functions for what is asked of them; the hash table is a list of pairs.  A
failed assertion, a fatal error or an access outside of an array is `none`.
-/

namespace Verif.Printer

open Spec

/-- Flags, src/rt/printer.h:25-29: the radix and whether to encode. -/
inductive Radix where
  | dflt | bin | hex | dec
  deriving DecidableEq

structure Flags where
  radix : Radix
  encode : Bool

/-- A digit as `printf` writes it. -/
def digit (d : Nat) : Nat := if d < 10 then 48 + d else 97 + (d - 10)

/-- A number as `printf` writes it; `f` bounds the number of digits. -/
def digits (b : Nat) : Nat → Nat → Text
  | 0, _ => []
  | f + 1, n => if n < b then [digit n] else digits b f (n / b) ++ [digit (n % b)]

/-- `%"PRIi64"`. -/
def decimal (v : Int) : Text :=
  if v < 0 then 45 :: digits 10 20 v.natAbs else digits 10 20 v.natAbs

/-- The loop of `int_printer` for binary, src/rt/printer.c:80-83. -/
def binary (wide : Nat) : Nat → Text
  | 0 => []
  | n + 1 => (if wide / 2 ^ n % 2 = 1 then 49 else 48) :: binary wide n

/-- Reading `size` bytes with sign, src/rt/printer.c:88-94. -/
def signed (size u : Nat) : Int := if 2 ^ (8 * size - 1) ≤ u then (u : Int) - 2 ^ (8 * size) else u

/-- `int_printer`, src/rt/printer.c:60-98; `u` is the number in the bytes
without sign. -/
def intPrinter (size u : Nat) (fl : Flags) : Option Text :=
  if size ≠ 1 ∧ size ≠ 2 ∧ size ≠ 4 ∧ size ≠ 8 then none
  else
    let e : Text := if fl.encode then [105] else []
    match fl.radix with
    | .bin => some (e ++ binary u (size * 8))
    | .hex => some (e ++ [48, 120] ++ digits 16 16 u)
    | _ => some (e ++ decimal (signed size u))

/-- `std_logic_map`, src/rt/printer.c:44. -/
def stdLogicMap : Text := [85, 88, 48, 49, 90, 87, 76, 72, 45]

/-- `begin_quote` and `end_quote`, src/rt/printer.c:46-58. -/
def quoted (fl : Flags) (enc : Nat) (t : Text) : Text :=
  if fl.encode then enc :: t else 34 :: t ++ [34]

/-- `std_logic_printer`, src/rt/printer.c:100-112. -/
def logicPrinter (v : Nat) (fl : Flags) : Option Text :=
  (stdLogicMap[v]?).map fun c => if fl.encode then [108, c] else [39, c, 39]

/-- `std_logic_vector_printer`, src/rt/printer.c:114-126. -/
def logicVecPrinter (vs : List Nat) (fl : Flags) : Option Text :=
  (vs.mapM fun v => stdLogicMap[v]?).map (quoted fl 76)

/-- `bit_printer`, src/rt/printer.c:128-138. -/
def bitPrinter (v : Nat) (fl : Flags) : Text :=
  if fl.encode then [98, if v = 0 then 48 else 49]
  else [39, if v = 0 then 48 else 49, 39]

/-- `bit_vector_printer`, src/rt/printer.c:140-149. -/
def bitVecPrinter (vs : List Nat) (fl : Flags) : Text :=
  quoted fl 66 (vs.map fun v => if v = 0 then 48 else 49)

/-- `physical_printer`, src/rt/printer.c:151-161: in the primary unit, the
radix is not passed on. -/
def physPrinter (unit : Text) (size u : Nat) (fl : Flags) : Option Text :=
  (intPrinter size u ⟨.dflt, false⟩).map fun t =>
    (if fl.encode then [112] else []) ++ t ++ [32] ++ unit

/-- `enum_printer`, src/rt/printer.c:163-172, with the map of
`make_enum_map`, :174-189: literal `i` is at `i * stride`, ended by a zero.
The assertion requires a size of one byte. -/
def enumPrinter (lits : List Text) (size v : Nat) (fl : Flags) : Option Text :=
  if size ≠ 1 then none
  else (lits[v]?).map fun t => (if fl.encode then [101] else []) ++ t

/-- Elements with `", "` between them, src/rt/printer.c:201-204. -/
def commas : List Text → Text
  | [] => []
  | [t] => t
  | t :: ts => t ++ [44, 32] ++ commas ts

/-- `enum_vector_printer`, src/rt/printer.c:191-207; `elem` prints an element
without encoding. -/
def enumVecPrinter (elem : Nat → Option Text) (vs : List Nat) (fl : Flags) : Option Text :=
  (vs.mapM elem).map fun ts => (if fl.encode then [69] else []) ++ [40] ++ commas ts ++ [41]

/-- `isprint_iso88591`, src/util.c:1161-1164. -/
def isPrint (c : Nat) : Bool := (0x20 ≤ c && c ≤ 0x7e) || (0xa0 ≤ c && c ≤ 0xff)

/-- `string_printer`, src/rt/printer.c:209-226; `chars` are the literals of
CHARACTER. -/
def stringPrinter (chars : List Text) (vs : List Nat) (fl : Flags) : Option Text :=
  if vs.all isPrint then some (quoted fl 83 vs)
  else enumVecPrinter (fun v => enumPrinter chars 1 v ⟨fl.radix, false⟩) vs fl

/-! ## The table of printers -/

/-- What `printer_for` asks of a base type, src/rt/printer.c:268-321. -/
inductive Kind where
  | int | logic | bit | enum | phys | logicVec | bitVec
  /-- STRING, with the type of its elements -/
  | string (elem : Nat)
  /-- another array of an enumeration -/
  | enumVec (elem : Nat)
  | other
  deriving DecidableEq

/-- The types of a design: base types (`type_base_recur`) and their kinds. -/
structure Types where
  base : Nat → Nat
  kind : Nat → Kind

/-- A `print_func_t`: the kind of its function, and its element printer. -/
structure Fn where
  kind : Kind
  elem : Option Nat
  deriving DecidableEq

/-- A `printer_t`: the table, newest first, and the number of functions
allocated with what they are. -/
structure Printer where
  map : List (Nat × Nat)
  fns : List Fn

def lookup (m : List (Nat × Nat)) (t : Nat) : Option Nat := (m.find? fun e => e.1 == t).map (·.2)

/-- What `printer_for` returns: a function, NULL, or not at all. -/
inductive Res where
  | fn (f : Nat)
  | null
  | fatal
  deriving DecidableEq

/-- The part of `printer_for` without recursion, src/rt/printer.c:253-291,
for scalar types: `make_enum_map` asks the type itself for its literals, which
is fatal for a subtype (src/type.c:406-416). -/
def scalarFor (T : Types) (p : Printer) (t : Nat) : Res × Printer :=
  match lookup p.map t with
  | some f => (.fn f, p)
  | none =>
    match lookup p.map (T.base t) with
    | some f => (.fn f, { p with map := (t, f) :: p.map })
    | none =>
      match T.kind (T.base t) with
      | .enum =>
        if t ≠ T.base t then (.fatal, p)
        else (.fn p.fns.length, ⟨(t, p.fns.length) :: p.map, p.fns ++ [⟨.enum, none⟩]⟩)
      | .string _ => (.null, p)
      | .enumVec _ => (.null, p)
      | .other => (.null, p)
      | k => (.fn p.fns.length, ⟨(t, p.fns.length) :: p.map, p.fns ++ [⟨k, none⟩]⟩)

/-- An array asks for the printer of its element, a scalar,
src/rt/printer.c:302-314.  Its function is allocated before that of the element
in the code, which makes no difference. -/
def arrayFor (T : Types) (p : Printer) (t : Nat) (k : Kind) (e : Nat) : Res × Printer :=
  match scalarFor T p e with
  | (.fatal, q) => (.fatal, q)
  | (.null, q) => (.fn q.fns.length, ⟨(t, q.fns.length) :: q.map, q.fns ++ [⟨k, none⟩]⟩)
  | (.fn f, q) => (.fn q.fns.length, ⟨(t, q.fns.length) :: q.map, q.fns ++ [⟨k, some f⟩]⟩)

/-- `printer_for`, src/rt/printer.c:253-329. -/
def printerFor (T : Types) (p : Printer) (t : Nat) : Res × Printer :=
  match lookup p.map t with
  | some f => (.fn f, p)
  | none =>
    match lookup p.map (T.base t) with
    | some f => (.fn f, { p with map := (t, f) :: p.map })
    | none =>
      match T.kind (T.base t) with
      | .string e => arrayFor T p t (.string e) e
      | .enumVec e => arrayFor T p t (.enumVec e) e
      | _ => scalarFor T p t

/-- `printer_new`, src/rt/printer.c:228-235. -/
def new : Printer := ⟨[], []⟩

/-- Requests one after the other, until one is fatal. -/
def requests (T : Types) : Printer → List Nat → Option Printer
  | p, [] => some p
  | p, t :: ts =>
    match printerFor T p t with
    | (.fatal, _) => none
    | (_, q) => requests T q ts

/-- `printer_free`, src/rt/printer.c:237-251: the functions freed. -/
def freed (p : Printer) : List Nat := p.map.map (·.2)

end Verif.Printer
