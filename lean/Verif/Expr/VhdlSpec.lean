/-
Expressions of VHDL (IEEE Std 1076, 9.1): the grammar of the versions of 2008
and 2019, and the more liberal one which the parser follows.
-/

namespace Verif.Expr.Vhdl

inductive Log where
  | and | or | nand | nor | xor | xnor
  deriving DecidableEq, Repr

inductive Rel where
  | eq | neq | lt | le | gt | ge | meq | mneq | mlt | mle | mgt | mge
  deriving DecidableEq, Repr

inductive Shift where
  | sll | srl | sla | sra | rol | ror
  deriving DecidableEq, Repr

inductive Add where
  | plus | minus | amp
  deriving DecidableEq, Repr

inductive Mul where
  | times | over | mod | rem
  deriving DecidableEq, Repr

/-- Operator tokens. -/
inductive Op where
  | log (o : Log) | rel (o : Rel) | shift (o : Shift) | add (o : Add) | mul (o : Mul)
  | pow | not | abs | cconv
  deriving DecidableEq, Repr

/-- Tokens; an atom is a name, a literal, a call, an allocator and so on. -/
inductive Tok where
  | atom (n : Nat)
  | op (o : Op)
  | lp | rp | other
  deriving DecidableEq, Repr

inductive Un where
  | not | abs | log (o : Log) | pos | neg | cconv
  deriving DecidableEq, Repr

inductive Bin where
  | log (o : Log) | rel (o : Rel) | shift (o : Shift) | add (o : Add) | mul (o : Mul) | pow
  deriving DecidableEq, Repr

inductive Expr where
  | atom (n : Nat)
  | un (u : Un) (e : Expr)
  | bin (b : Bin) (l r : Expr)
  deriving DecidableEq, Repr

/-- The grammars. -/
inductive G where
  | std08 | std19 | nvc
  deriving DecidableEq

/-- The syntactic categories: primary, unary expression, factor, term, simple
expression, shift expression, relation, a chain of relations with one operator
or with any, expression. -/
inductive Cat where
  | prim | una | fac | ter | sim | shi | rel
  | chn (o : Option Log)
  | exp
  deriving DecidableEq

namespace Spec

/-- Operators of a chain of any length. -/
def assoc : Log → Bool
  | .nand | .nor => false
  | _ => true

/-- Operators in front of a primary. -/
def unOp : Un → Option Op
  | .not => some .not
  | .abs => some .abs
  | .log o => some (.log o)
  | _ => none

/-- Signs. -/
def signOp : Un → Option Op
  | .pos => some (.add .plus)
  | .neg => some (.add .minus)
  | _ => none

/-- The left operand of `**`. -/
def powL : G → Cat
  | .std08 => .prim
  | _ => .una

/-- The right operand of `**`. -/
def powR : G → Cat
  | .std19 => .una
  | _ => .prim

/-- The left operand of a shift operator. -/
def shiftL : G → Cat
  | .nvc => .shi
  | _ => .sim

/-- The left operand of a relational operator. -/
def relL : G → Cat
  | .nvc => .rel
  | _ => .shi

/-- The left operand of nand and nor. -/
def nandL : G → Cat
  | .nvc => .chn none
  | _ => .rel

/-- Chains of the grammar: with one operator, except in the parser. -/
def chain : G → Option Log → Prop
  | .nvc, k => k = none
  | _, k => k ≠ none

/-- `D g c e ts`: the tokens are of the category and have the structure `e`. -/
inductive D (g : G) : Cat → Expr → List Tok → Prop where
  | atom (n : Nat) : D g .prim (.atom n) [.atom n]
  | paren {e : Expr} {ts : List Tok} : D g .exp e ts → D g .prim e (.lp :: (ts ++ [.rp]))
  | unaP {e : Expr} {ts : List Tok} : D g .prim e ts → D g .una e ts
  | unaU {u : Un} {o : Op} {e : Expr} {ts : List Tok} : unOp u = some o → D g .prim e ts →
      D g .una (.un u e) (.op o :: ts)
  | fac {e : Expr} {ts : List Tok} : D g .una e ts → D g .fac e ts
  | pow {l r : Expr} {tl tr : List Tok} : D g (powL g) l tl → D g (powR g) r tr →
      D g .fac (.bin .pow l r) (tl ++ .op .pow :: tr)
  | ter {e : Expr} {ts : List Tok} : D g .fac e ts → D g .ter e ts
  | mul (o : Mul) {l r : Expr} {tl tr : List Tok} : D g .ter l tl → D g .fac r tr →
      D g .ter (.bin (.mul o) l r) (tl ++ .op (.mul o) :: tr)
  | sim {e : Expr} {ts : List Tok} : D g .ter e ts → D g .sim e ts
  | sign {u : Un} {o : Op} {e : Expr} {ts : List Tok} : signOp u = some o → D g .ter e ts →
      D g .sim (.un u e) (.op o :: ts)
  | add (o : Add) {l r : Expr} {tl tr : List Tok} : D g .sim l tl → D g .ter r tr →
      D g .sim (.bin (.add o) l r) (tl ++ .op (.add o) :: tr)
  | shi {e : Expr} {ts : List Tok} : D g .sim e ts → D g .shi e ts
  | shift (o : Shift) {l r : Expr} {tl tr : List Tok} : D g (shiftL g) l tl → D g .sim r tr →
      D g .shi (.bin (.shift o) l r) (tl ++ .op (.shift o) :: tr)
  | rel {e : Expr} {ts : List Tok} : D g .shi e ts → D g .rel e ts
  | relop (o : Rel) {l r : Expr} {tl tr : List Tok} : D g (relL g) l tl → D g .shi r tr →
      D g .rel (.bin (.rel o) l r) (tl ++ .op (.rel o) :: tr)
  | chn {k : Option Log} {e : Expr} {ts : List Tok} : D g .rel e ts → D g (.chn k) e ts
  | log {k : Option Log} {o : Log} {l r : Expr} {tl tr : List Tok} : assoc o = true →
      (k = some o ∨ k = none) → D g (.chn k) l tl → D g .rel r tr →
      D g (.chn k) (.bin (.log o) l r) (tl ++ .op (.log o) :: tr)
  | exp {k : Option Log} {e : Expr} {ts : List Tok} : chain g k → D g (.chn k) e ts →
      D g .exp e ts
  | nand {o : Log} {l r : Expr} {tl tr : List Tok} : assoc o = false → D g (nandL g) l tl →
      D g .rel r tr → D g .exp (.bin (.log o) l r) (tl ++ .op (.log o) :: tr)
  | cconv {e : Expr} {ts : List Tok} : D g .prim e ts →
      D g .exp (.un .cconv e) (.op .cconv :: ts)

end Spec

end Verif.Expr.Vhdl
