import Verif.Assert.Spec

/-
Model of the messages of assertions, src/rt/assert.c.

Simplifications: texts are lists of bytes without zero; a format is the list
of its replacements, each with the text before it, and the text after the
last; the time and the path of the process are given as texts; the output is
the text of the message, not where it goes.
-/

namespace Verif.Assert

open Spec

/-- `precision`, src/rt/assert.c:62-75: names and numbers of fs. -/
def precisions : List (Text × Nat) :=
  [([102, 115], 1), ([112, 115], 1000), ([110, 115], 1000000), ([117, 115], 1000000000),
   ([109, 115], 1000000000000), ([115, 101, 99], 1000000000000000),
   ([109], 60000000000000000), ([109, 105, 110], 60000000000000000),
   ([104, 114], 3600000000000000000)]

/-- `replacement_t`, src/rt/assert.c:44-51: precision and units. -/
structure Rep where
  var : Nat
  fill : Nat
  align : Nat
  width : Int
  prec : Option (Text × Nat)
  deriving DecidableEq

def isAlign (c : Nat) : Bool := c == 60 || c == 62 || c == 94

def isDigit (c : Nat) : Bool := 48 ≤ c && c ≤ 57

/-- The number of characters up to `}`, src/rt/assert.c:132-134. -/
def flen (p : Text) : Nat := (p.takeWhile (· != 125)).length

/-- Fill and align, src/rt/assert.c:136-145: fill, align and what is left. -/
def fillAlign (dflt : Nat) : Text → Nat × Nat × Text
  | c :: a :: r =>
    if 2 ≤ flen (c :: a :: r) ∧ isAlign a = true then (c, a, r)
    else if isAlign c then (32, c, a :: r) else (32, dflt, c :: a :: r)
  | [c] => if isAlign c then (32, c, []) else (32, dflt, [c])
  | [] => (32, dflt, [])

/-- `strtol` to an `int`: at most LONG_MAX, then the low 32 bits with sign. -/
def toInt (n : Nat) : Int :=
  let m : Nat := (if n < 2 ^ 63 then n else 2 ^ 63 - 1) % 2 ^ 32
  if m < 2 ^ 31 then m else (m : Int) - 2 ^ 32

/-- The width, src/rt/assert.c:147-148. -/
def width (p : Text) : Int × Text :=
  (if (p.takeWhile isDigit).isEmpty then 0 else toInt (number (p.takeWhile isDigit)),
    p.dropWhile isDigit)

/-- `strncmp(p, name, strlen(name)) == 0`, and `p` after it. -/
def strip : Text → Text → Option Text
  | [], p => some p
  | c :: n, d :: p => if c = d then strip n p else none
  | _ :: _, [] => none

/-- The loop for the precision, src/rt/assert.c:153-161: the first name in the
table. -/
def findPrec : List (Text × Nat) → Text → Option ((Text × Nat) × Text)
  | [], _ => none
  | e :: es, p =>
    match strip e.1 p with
    | some r => some (e, r)
    | none => findPrec es p

/-- The precision, src/rt/assert.c:150-172; `none` is an error. -/
def precision (var : Nat) : Text → Option (Option (Text × Nat) × Text)
  | 46 :: p =>
    match findPrec precisions p with
    | none => none
    | some (e, r) => if var = 116 then some (some e, r) else none
  | p => some (none, p)

/-- `}`, src/rt/assert.c:175-180. -/
def close (x : Rep) : Text → Option (Rep × Text)
  | 125 :: r => some (x, r)
  | _ => none

/-- The alignment if none is given, src/rt/assert.c:127. -/
def dfltAlign (v : Nat) : Nat := if v = 116 then 62 else 60

def isVar (c : Nat) : Bool := c == 115 || c == 83 || c == 114 || c == 116 || c == 105

/-- One replacement, after the `{`, src/rt/assert.c:115-181. -/
def replacement : Text → Option (Rep × Text)
  | [] => none
  | v :: p =>
    if isVar v then
      match p with
      | 58 :: q =>
        let fa := fillAlign (dfltAlign v) q
        let w := width fa.2.2
        match precision v w.2 with
        | none => none
        | some (pr, r) => close ⟨v, fa.1, fa.2.1, w.1, pr⟩ r
      | p => close ⟨v, 32, dfltAlign v, 0, none⟩ p
    else none

abbrev Format := List (Text × Rep) × Text

/-- `check_format`, src/rt/assert.c:93-193; `none` is an error, `n` bounds the
number of replacements. -/
def checkN : Nat → Text → Option Format
  | 0, _ => none
  | n + 1, s =>
    match s.dropWhile (· != 123) with
    | [] => some ([], s)
    | _ :: r =>
      match replacement r with
      | none => none
      | some (x, r2) =>
        (checkN n r2).map fun f => ((s.takeWhile (· != 123), x) :: f.1, f.2)

def check (s : Text) : Option Format := checkN (s.length + 1) s

/-- `%d` of a positive number; `n` bounds the digits. -/
def decimal : Nat → Nat → Text
  | 0, _ => []
  | n + 1, k => if k < 10 then [48 + k] else decimal n (k / 10) ++ [48 + k % 10]

/-- The name of a precision by its value, src/rt/assert.c:260-267. -/
def precName (v : Nat) : Text :=
  match precisions.find? fun e => e.2 == v with
  | some e => 46 :: e.1
  | none => []

/-- A replacement in `_std_env_get_assert_format`, src/rt/assert.c:249-270. -/
def showRep (x : Rep) : Text :=
  [123, x.var, 58, x.fill, x.align] ++
    ((if x.width > 0 then decimal 10 x.width.toNat else []) ++
      ((match x.prec with
        | some e => precName e.2
        | none => []) ++ [125]))

/-- `_std_env_get_assert_format`, src/rt/assert.c:236-276, if there is a
format. -/
def getFormat (f : Format) : Text := (f.1.flatMap fun e => e.1 ++ showRep e.2) ++ f.2

/-- The padding of a replacement, src/rt/assert.c:343-365; division is that
of C. -/
def pad (x : Rep) (t : Text) : Text :=
  let d := x.width - (t.length : Int)
  if x.align = 62 then padded d.toNat 0 x.fill t
  else if x.align = 60 then padded 0 d.toNat x.fill t
  else
    let l := d.tdiv 2
    padded l.toNat (d - max l 0).toNat x.fill t

/-- What replacements are replaced by. -/
structure Env where
  msg : Text
  lower : Text
  upper : Text
  path : Text
  time : Option (Text × Nat) → Text

/-- The text of a replacement, src/rt/assert.c:301-341. -/
def value (e : Env) (x : Rep) : Text :=
  if x.var = 114 then e.msg
  else if x.var = 115 then e.lower
  else if x.var = 83 then e.upper
  else if x.var = 116 then e.time x.prec
  else if x.var = 105 then e.path
  else []

/-- `apply_format`, src/rt/assert.c:288-370. -/
def apply (e : Env) (f : Format) : Text :=
  (f.1.flatMap fun p => p.1 ++ pad p.2 (value e p.2)) ++ f.2

/-! ## Counting -/

/-- The state, src/rt/assert.c:78-81, without the formats. -/
structure State where
  exitSev : Nat
  statusSev : Nat
  counts : Nat → Nat
  mask : Nat → Bool

/-- The state at the start. -/
def start : State := ⟨3, 2, fun _ => 0, fun _ => true⟩

/-- `x_report`, `x_assert_fail` and `emit_vhdl_diag`, src/rt/assert.c:384-488:
the state, whether there is a message, and whether the run is ended. -/
def report (s : State) (sev : Nat) : State × Bool × Bool :=
  if s.mask sev = true then
    ({ s with counts := fun i => if i = sev then (s.counts i + 1) % 2 ^ 32 else s.counts i },
      true, decide (sev ≥ s.exitSev))
  else (s, false, false)

/-- `clear_vhdl_assert`, src/rt/assert.c:513-517. -/
def clear (s : State) : State :=
  { s with counts := fun i => if i ≤ 3 then 0 else s.counts i }

/-- `set_vhdl_assert_enable`, src/rt/assert.c:519-527. -/
def setEnable (s : State) (sev : Nat) (on : Bool) : State :=
  { s with mask := fun i => if i = sev then on else s.mask i }

/-- `get_vhdl_assert_exit_status`, src/rt/assert.c:535-543: whether it is a
failure. -/
def exitStatus (s : State) : Bool :=
  (List.range 4).any fun i => decide (s.statusSev ≤ i) && decide (s.counts i > 0)

def step (s : State) : Event → State
  | .report sev => (report s sev).1
  | .clear => clear s
  | .enable sev on => setEnable s sev on

/-- A history, newest first. -/
def run (s : State) : List Event → State
  | [] => s
  | e :: h => step (run s h) e

end Verif.Assert
