/-!
# User-defined primitives: specification

After IEEE 1364-2005 clause 8.  A primitive has a table; its rows give for levels and changes of the
inputs (and for the current output, if it has a state) the next output.
-/

namespace Verif.Udp

/-- A value of a net; `z` on an input counts as `x` (8.1.6). -/
inductive Logic where
  | x | z | zero | one
  deriving DecidableEq, Repr

def Logic.norm : Logic → Logic
  | .z => .x
  | l => l

/-- Level symbols (8.1.4, 8.1.6).  The letters can be capitals. -/
inductive Lvl where
  | zero | one | x (upper : Bool) | any | b (upper : Bool)
  deriving DecidableEq, Repr

/-- The values for which a level symbol stands, of an input that is 0, 1 or x. -/
def Lvl.has : Lvl → Logic → Bool
  | .zero, v => v == .zero
  | .one, v => v == .one
  | .x _, v => v == .x
  | .any, _ => true
  | .b _, v => v == .zero || v == .one

/-- Edge symbols with a letter. -/
inductive Edge where
  | r | f | p | n
  deriving DecidableEq, Repr

def Edge.has : Edge → Logic → Logic → Bool
  | .r, a, b => a == .zero && b == .one
  | .f, a, b => a == .one && b == .zero
  | .p, a, b => (a == .zero && b == .one) || (a == .zero && b == .x) || (a == .x && b == .one)
  | .n, a, b => (a == .one && b == .zero) || (a == .one && b == .x) || (a == .x && b == .zero)

/-- What a row says about one input. -/
inductive Sym where
  | lvl (l : Lvl)
  /-- any change -/
  | star
  | letter (e : Edge) (upper : Bool)
  /-- a change from one level to another -/
  | edge (a b : Lvl)
  deriving DecidableEq, Repr

def Sym.isLevel : Sym → Bool
  | .lvl _ => true
  | _ => false

/-- Output of a row: 0, 1 or x, or `-` for no change. -/
inductive Out where
  | zero | one | x (upper : Bool) | same
  deriving DecidableEq, Repr

/-- A row: the inputs, the current state (for a table with state) and the next state. -/
structure Row where
  ins : List Sym
  st : Lvl := .any
  out : Out
  deriving DecidableEq, Repr

/-- An input: its value before and now, and whether the simulator reports an event. -/
structure Input where
  last : Logic
  cur : Logic
  event : Bool
  deriving DecidableEq, Repr

/-- The input matches the symbol. -/
def Sym.has (s : Sym) (i : Input) : Bool :=
  let a := i.last.norm
  let b := i.cur.norm
  match s with
  | .lvl l => l.has b
  | .star => a != b
  | .letter e _ => e.has a b
  | .edge p q => a != b && p.has a && q.has b

/-- The row matches: every input matches its symbol. -/
def insMatch : List Sym → List Input → Bool
  | [], [] => true
  | s :: ss, i :: is => s.has i && insMatch ss is
  | _, _ => false

def Row.matches (r : Row) (ins : List Input) (cur : Logic) : Bool :=
  insMatch r.ins ins && r.st.has cur.norm

/-- A level-sensitive row. -/
def Row.level (r : Row) : Bool := r.ins.all Sym.isLevel

/-- The output after the row, from the output before. -/
def Out.apply (o : Out) (cur : Logic) : Logic :=
  match o with
  | .zero => .zero
  | .one => .one
  | .x _ => .x
  | .same => cur

/-- `v` is the next output: that of a row that matches, of a level-sensitive one if there is one
(8.7), `x` if no row matches (8.1.4). -/
def Next (rows : List Row) (ins : List Input) (cur v : Logic) : Prop :=
  (∃ r ∈ rows, r.level ∧ r.matches ins cur ∧ v = r.out.apply cur) ∨
  ((∀ r ∈ rows, r.level → r.matches ins cur = false) ∧
    ∃ r ∈ rows, r.matches ins cur ∧ v = r.out.apply cur) ∨
  ((∀ r ∈ rows, r.matches ins cur = false) ∧ v = .x)

/-! ## The text of a row -/

def Lvl.char : Lvl → Char
  | .zero => '0'
  | .one => '1'
  | .x u => if u then 'X' else 'x'
  | .any => '?'
  | .b u => if u then 'B' else 'b'

def Edge.char : Edge → Bool → Char
  | .r, u => if u then 'R' else 'r'
  | .f, u => if u then 'F' else 'f'
  | .p, u => if u then 'P' else 'p'
  | .n, u => if u then 'N' else 'n'

/-- The text that the parser keeps of a row (`p_combinational_entry`, `p_sequential_entry`,
/repo/src/vlog/vlog-parse.c 3684-3840). -/
def Sym.text : Sym → List Char
  | .lvl l => [l.char]
  | .star => ['*']
  | .letter e u => [e.char u]
  | .edge a b => ['(', a.char, b.char, ')']

def Out.char : Out → Char
  | .zero => '0'
  | .one => '1'
  | .x u => if u then 'X' else 'x'
  | .same => '-'

def insText : List Sym → List Char
  | [] => []
  | s :: l => s.text ++ insText l

/-- `seq`: with a column for the current state. -/
def Row.text (seq : Bool) (r : Row) : List Char :=
  insText r.ins ++ ':' :: (if seq then r.st.char :: ':' :: [r.out.char] else [r.out.char])

end Verif.Udp
