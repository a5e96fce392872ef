import Verif.Udp.Spec

/-!
# User-defined primitives: model

Model of `vlog_lower_udp` (/repo/src/vlog/vlog-udp.c 115-373): what the process that is generated
for a primitive does.

Simplifications: conditions are trees instead of intermediate code (a condition has no side
effects); declarations, signals, the initial value and the delay of the assignment are left out; the
values of nets are already reduced to 0, 1, x and z (`to_logic`).
-/

namespace Verif.Udp

/-- Ways in which generating code can end. -/
inductive Res (α : Type) where
  | ok (a : α)
  /-- `CANNOT_HANDLE`: the compiler stops with a message -/
  | cannot
  /-- an element of `level_map` that was never set is used -/
  | undef
  /-- an assertion fails -/
  | assert
  deriving DecidableEq, Repr

def Res.bind : Res α → (α → Res β) → Res β
  | .ok a, f => f a
  | .cannot, _ => .cannot
  | .undef, _ => .undef
  | .assert, _ => .assert

/-- The generated conditions. -/
inductive Cond where
  /-- `in_regs[j] == l` -/
  | cur (j : Nat) (l : Logic)
  /-- the last value of the input `j` is `l` -/
  | last (j : Nat) (l : Logic)
  /-- `mir_build_event_flag` -/
  | event (j : Nat)
  /-- the output is `l` -/
  | out (l : Logic)
  | and (a b : Cond)
  deriving DecidableEq, Repr

/-- `level_map` (lines 190-193): set for four characters only. -/
def levelMap : Char → Option Logic
  | '0' => some .zero
  | '1' => some .one
  | 'x' => some .x
  | 'X' => some .x
  | _ => none

/-- The comparison with `level_map[c]`, unless `c` is '?' (lines 247-261). -/
def edgePart (mk : Logic → Cond) (c : Char) (acc : Cond) : Res Cond :=
  if c = '?' then .ok acc
  else match levelMap c with
    | none => .undef
    | some l => .ok (.and acc (mk l))

/-- The `switch` for the input `j` (lines 221-269): the condition, if there is one, and the rest of
the text. -/
def inCond (j : Nat) : List Char → Res (Option Cond × List Char)
  | [] => .cannot
  | c :: sp =>
    if c = '0' ∨ c = '1' ∨ c = 'x' ∨ c = 'X' then
      match levelMap c with
      | none => .undef
      | some l => .ok (some (.cur j l), sp)
    else if c = '*' then .ok (some (.event j), sp)
    else if c = 'b' then .ok (some (.and (.cur j .zero) (.cur j .one)), sp)
    else if c = '?' then .ok (none, sp)
    else if c = '(' then
      match sp with
      | a :: b :: _ :: rest =>
        (edgePart (.last j) a (.event j)).bind fun c1 =>
          (edgePart (.cur j) b c1).bind fun c2 => .ok (some c2, rest)
      | _ => .cannot
    else .cannot

/-- `and` of two conditions that may be missing (lines 271-274). -/
def both : Option Cond → Option Cond → Option Cond
  | none, c => c
  | a, none => a
  | some a, some c => some (.and a c)

/-- The loop over the inputs (lines 219-275), from the input `j` on. -/
def insCond : Nat → Nat → List Char → Option Cond → Res (Option Cond × List Char)
  | 0, _, sp, acc => .ok (acc, sp)
  | n + 1, j, sp, acc => (inCond j sp).bind fun r => insCond n (j + 1) r.2 (both acc r.1)

/-- The column of the current state (lines 280-308). -/
def stCond (acc : Option Cond) : List Char → Res (Option Cond × List Char)
  | c :: d :: sp =>
    (if c = '0' ∨ c = '1' ∨ c = 'x' ∨ c = 'X' then
      match levelMap c with
      | none => .undef
      | some l => .ok (some (.out l))
    else if c = '?' then .ok none
    else .cannot : Res (Option Cond)).bind fun cmp =>
      if d = ':' then .ok (both acc cmp, sp) else .assert
  | _ => .cannot

/-- What a row does (lines 321-340). -/
inductive Act where
  | drive (l : Logic)
  | keep
  deriving DecidableEq, Repr

def outAct : List Char → Res Act
  | [] => .cannot
  | c :: _ =>
    if c = '-' then .ok .keep
    else match levelMap c with
      | none => .cannot
      | some l => .ok (.drive l)

/-- The process: the rows, tested in turn; with `broken` the last test is followed by a jump to a
block without any code (lines 310-313: the loop is left before the block is filled). -/
structure Prog where
  rows : List (Cond × Act)
  broken : Bool
  deriving DecidableEq, Repr

/-- The condition of a row and the text of its output. -/
def rowCond (seq : Bool) (nin : Nat) (text : List Char) : Res (Option Cond × List Char) :=
  (insCond nin 0 text none).bind fun r =>
    match r.2 with
    | ':' :: sp => if seq then stCond r.1 sp else .ok (r.1, sp)
    | _ => .assert

/-- The loop over the rows (lines 209-344). -/
def compile (seq : Bool) (nin : Nat) : List (List Char) → Res Prog
  | [] => .ok ⟨[], false⟩
  | t :: ts =>
    (rowCond seq nin t).bind fun r =>
      match r.1 with
      | none => .ok ⟨[], true⟩
      | some c => (outAct r.2).bind fun a =>
        (compile seq nin ts).bind fun p => .ok { p with rows := (c, a) :: p.rows }

/-! ## Running the process -/

def Cond.eval (ins : List Input) (cur : Logic) : Cond → Bool
  | .cur j l => match ins[j]? with
    | none => false
    | some i => i.cur == l
  | .last j l => match ins[j]? with
    | none => false
    | some i => i.last == l
  | .event j => match ins[j]? with
    | none => false
    | some i => i.event
  | .out l => cur == l
  | .and a b => a.eval ins cur && b.eval ins cur

/-- The output after the process has run; `none` if control gets into the empty block. -/
def runRows (seq : Bool) (broken : Bool) (ins : List Input) (cur : Logic) :
    List (Cond × Act) → Option Logic
  | [] => if broken then none else if seq then some cur else some .x
  | (c, a) :: l =>
    if c.eval ins cur then
      match a with
      | .drive v => some v
      | .keep => some cur
    else runRows seq broken ins cur l

def Prog.run (p : Prog) (seq : Bool) (ins : List Input) (cur : Logic) : Option Logic :=
  runRows seq p.broken ins cur p.rows

end Verif.Udp
