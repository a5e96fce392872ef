import Verif.FourState.Spec
import Verif.Expr.VlogSpec

/-
Model of the package NVC.VERILOG, lib/nvc/verilog-body.vhd, and of the choice of
its functions in src/vlog/vlog-lower.c.

A `t_logic_array` is a list from right to left: the first element is index 0 of
the aliases `(length - 1 downto 0)`.
-/

namespace Verif.FourState

/-- 307-316 "and". -/
def and2 (l r : L) : L :=
  if l = .one ∧ r = .one then .one
  else if l = .X ∨ r = .X ∨ l = .Z ∨ r = .Z then .X
  else .zero

/-- 323-332 "or". -/
def or2 (l r : L) : L :=
  if l = .zero ∧ r = .zero then .zero
  else if l = .X ∨ r = .X ∨ l = .Z ∨ r = .Z then .X
  else .one

/-- 369-378 "xor". -/
def xor2 (l r : L) : L :=
  if (l = .one ∧ r = .zero) ∨ (l = .zero ∧ r = .one) then .one
  else if l = .X ∨ r = .X ∨ l = .Z ∨ r = .Z then .X
  else .zero

/-- 410-417 "not". -/
def not2 : L → L
  | .zero => .one
  | .one => .zero
  | _ => .X

/-- 334-344 "or" of arrays with one result; the loops go from left to right. -/
def logOr (l r : List L) : L := r.reverse.foldl or2 (l.reverse.foldl or2 .zero)

/-- 380-390 "and" of arrays with one result. -/
def logAnd (l r : List L) : L := r.reverse.foldl and2 (l.reverse.foldl and2 .zero)

/-- 346-362 and 392-408: "or" and "and" of arrays; elements which one array
lacks are '0'. -/
def arr2 (f : L → L → L) : List L → List L → List L
  | a :: l, b :: r => f a b :: arr2 f l r
  | [], r => r.map (fun _ => .zero)
  | l, [] => l.map (fun _ => .zero)

/-- 419-428 "not" of arrays. -/
def notA (l : List L) : List L := l.map not2

/-- 430-441: the loop of "not" with one result. -/
def notLoop : L → List L → L
  | res, [] => res
  | res, .zero :: l => notLoop res l
  | _, .one :: l => notLoop .zero l
  | _, _ :: _ => .X

def logNot (l : List L) : L := notLoop .one l.reverse

/-- 443-450 `and_reduce`, 457-464 `or_reduce`. -/
def andRed (l : List L) : L := l.reverse.foldl and2 .one
def orRed (l : List L) : L := l.reverse.foldl or2 .zero

/-- 471-482 `xor_reduce`. -/
def xorRed (l : List L) : L :=
  match l.reverse with
  | [] => .zero
  | a :: l => l.foldl xor2 a

/-- 452-455, 466-469, 484-487. -/
def nandRed (l : List L) : L := not2 (andRed l)
def norRed (l : List L) : L := not2 (orRed l)
def xnorRed (l : List L) : L := not2 (xorRed l)

/-- 288-299 `resize`. -/
def resize (l : List L) (n : Nat) : List L :=
  if n = l.length then l
  else if n < l.length then l.take n
  else l ++ List.replicate (n - l.length) .zero

/-- 489-501 `add_unsigned`, of arrays with one length. -/
def addU : List L → List L → L → List L
  | a :: l, b :: r, c =>
    xor2 (xor2 c a) b :: addU l r (or2 (or2 (and2 c a) (and2 c b)) (and2 a b))
  | _, _, _ => []

/-- 503-509 "+". -/
def add (l r : List L) : List L :=
  addU (resize l (max l.length r.length)) (resize r (max l.length r.length)) .zero

/-- 511-522: the loop of "-". -/
def negLoop : List L → L → List L
  | [], _ => []
  | a :: l, c => xor2 (not2 a) c :: negLoop l (and2 c (not2 a))

def neg (l : List L) : List L := negLoop l .one

/-- 541-559: the bits which only one array has. -/
def eqRest : L → List L → L
  | res, [] => res
  | res, a :: l => if a = .one then eqRest .zero l else if a ≠ .zero then .X else eqRest res l

/-- 524-561 "=" with a four-state result. -/
def eqLoop : L → List L → List L → L
  | res, a :: l, b :: r =>
    if (a = .one ∧ b = .zero) ∨ (a = .zero ∧ b = .one) then eqLoop .zero l r
    else if (a ≠ .one ∧ a ≠ .zero) ∨ (b ≠ .one ∧ b ≠ .zero) then .X
    else eqLoop res l r
  | res, l, [] => eqRest res l
  | res, [], r => eqRest res r

def eq (l r : List L) : L := eqLoop .one l r

/-- 576-587: the bits which only one array has. -/
def caseRest : List L → Bool
  | [] => true
  | a :: l => if a ≠ .zero then false else caseRest l

/-- 563-589 "=" with a boolean result. -/
def caseEq : List L → List L → Bool
  | a :: l, b :: r => if a ≠ b then false else caseEq l r
  | l, [] => caseRest l
  | [], r => caseRest r

/-- 591-594 "/=". -/
def caseNe (l r : List L) : Bool := !caseEq l r

/-- 616-622: the loop of "<", with the pairs from left to right. -/
def ltLoop : List (L × L) → L
  | [] => .zero
  | (a, b) :: ps => if a = .zero ∧ b = .one then .one else if a ≠ b then .zero else ltLoop ps

/-- 596-624 "<". -/
def lt (l r : List L) : L :=
  if (l.drop r.length).any (· == .one) then .one
  else if (r.drop l.length).any (· != .zero) then .zero
  else ltLoop (l.zip r).reverse

/-- 646-652: the loop of ">". -/
def gtLoop : List (L × L) → L
  | [] => .zero
  | (a, b) :: ps => if a = .one ∧ b = .zero then .one else if a ≠ b then .zero else gtLoop ps

/-- 626-654 ">". -/
def gt (l r : List L) : L :=
  if (l.drop r.length).any (· == .one) then .zero
  else if (r.drop l.length).any (· != .zero) then .one
  else gtLoop (l.zip r).reverse

/-- 656-664 "<=" and ">=". -/
def le (l r : List L) : L := not2 (gt l r)
def ge (l r : List L) : L := not2 (lt l r)

/-- 107-127: the loop of `to_logic`. -/
def toLogicLoop : Nat → Int → L → List L
  | 0, _, _ => []
  | w + 1, i, b => (if i % 2 = 0 then b else not2 b) :: toLogicLoop w (i.tdiv 2) b

/-- 107-127 `to_logic` of an integer. -/
def toLogic (v : Int) (w : Nat) : List L :=
  if v < 0 then toLogicLoop w (-(v + 1)) .one else toLogicLoop w v .zero

/-- One turn of the loop of `to_integer`; `none` is an overflow. -/
def toIntStep (r : Option Nat) (a : L) : Option Nat :=
  match r with
  | none => none
  | some r =>
    if r * 2 ≥ 2 ^ 63 then none
    else if a = .one then (if r * 2 + 1 ≥ 2 ^ 63 then none else some (r * 2 + 1))
    else some (r * 2)

/-- 176-187 `to_integer`; 189-200 `to_time` is the same. -/
def toInteger (l : List L) : Option Nat := l.reverse.foldl toIntStep (some 0)

def chr : L → Char
  | .X => 'X'
  | .Z => 'Z'
  | .zero => '0'
  | .one => '1'

/-- 276-286 `to_string`: the character `i` is element `i` of an alias which goes
down. -/
def toStr (l : List L) : List Char := l.map chr

/-- 'pos and 'val of `t_logic`. -/
def pos : L → Nat
  | .X => 0
  | .Z => 1
  | .zero => 2
  | .one => 3

def val : Nat → L
  | 0 => .X
  | 1 => .Z
  | 2 => .zero
  | _ => .one

/-- A net value: the value and the strengths 0 and 1, each from HiZ = 0 to Su = 7. -/
structure Net where
  v : L
  s0 : Nat
  s1 : Nat
  deriving DecidableEq, Repr

/-- 21-28 `encode_net`. -/
def encode (n : Net) : Nat := pos n.v + n.s0 * 4 + n.s1 * 32

/-- 30-37 `decode_net`. -/
def decode (c : Nat) : Net := ⟨val (c % 4), c / 4 % 8, c / 32 % 8⟩

/-- 55-70: one turn of the loop of `resolve_wire`; `St` is 6. -/
def resolve1 (d e : Net) : Net :=
  if e.v = .one ∧ e.s1 > d.s1 then ⟨.one, e.s0, e.s1⟩
  else if e.v = .zero ∧ e.s0 > d.s0 then ⟨.zero, e.s0, e.s1⟩
  else if (e.v = .zero ∧ d.v = .one ∧ e.s0 = d.s1) ∨ (e.v = .one ∧ d.v = .zero ∧ e.s1 = d.s0) then
    ⟨.X, 6, 6⟩
  else d

/-- 39-74 `resolve_wire`, on decoded values. -/
def resolve : List Net → Net
  | [] => ⟨.Z, 0, 0⟩
  | d :: l => l.foldl resolve1 d

/-- 129-133 `to_net`, with the strength ST_STRONG. -/
def strong (a : L) : Net := ⟨a, 6, 6⟩

/-- std_ulogic. -/
inductive U where
  | U | X | zero | one | Z | W | Lo | H | dc
  deriving DecidableEq, Repr

/-- 202-210 `to_vhdl`. -/
def toVhdl : L → U
  | .one => .one
  | .zero => .zero
  | .Z => .Z
  | .X => .U

/-- 212-235 `to_vhdl` of a net. -/
def netToVhdl (n : Net) : U :=
  match n.v with
  | .X => .U
  | .zero => if n.s0 = 3 ∨ n.s0 = 2 ∨ n.s0 = 1 then .Lo else .zero
  | .one => if n.s1 = 3 ∨ n.s1 = 2 ∨ n.s1 = 1 then .H else .one
  | .Z => .Z

/-- 237-245 `to_verilog`. -/
def toVerilog : U → L
  | .one | .H => .one
  | .zero | .Lo => .zero
  | .Z => .Z
  | _ => .X

/-- 247-274 `to_verilog` to a net. -/
def toVerilogNet : U → Net
  | .one => ⟨.one, 6, 6⟩
  | .H => ⟨.one, 3, 3⟩
  | .zero => ⟨.zero, 6, 6⟩
  | .Lo => ⟨.zero, 3, 3⟩
  | .Z => ⟨.Z, 0, 0⟩
  | _ => ⟨.X, 6, 6⟩

/-! ## The operators of expressions -/

/-- A value: one bit, a vector, or a truth value of the host. -/
inductive V where
  | bit (a : L)
  | vec (l : List L)
  | bool (b : Bool)
  deriving DecidableEq, Repr

/-- src/vlog/vlog-lower.c 382-465 `vlog_lower_binary`: `none` if there is no such
function in the package or no case for the operator. -/
def binary (op : Expr.Vlog.Bin) (l r : List L) : Option V :=
  match op with
  | .band => some (.vec (arr2 and2 l r))
  | .land => some (.bit (logAnd l r))
  | .bor => some (.vec (arr2 or2 l r))
  | .lor => some (.bit (logOr l r))
  | .caseEq => some (.bool (caseEq l r))
  | .logEq => some (.bit (eq l r))
  | .caseNeq => some (.bool (caseNe l r))
  | .plus => some (.vec (add l r))
  | .lt => some (.bit (lt l r))
  | .gt => some (.bit (gt l r))
  | .le => some (.bit (le l r))
  | .ge => some (.bit (ge l r))
  | _ => none

end Verif.FourState
