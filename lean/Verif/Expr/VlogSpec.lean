/-
Expressions of SystemVerilog (IEEE Std 1800-2017, 11.3 and A.8.3): the
grammar with the precedence and the associativity of table 11-2.
-/

namespace Verif.Expr.Vlog

/-- Binary operators. -/
inductive Bin where
  | times | divide | mod | plus | minus
  | shiftLL | shiftRL | shiftLA | shiftRA
  | lt | gt | le | ge
  | caseEq | caseNeq | logEq | logNeq
  | band | bxor | bor | land | lor
  deriving DecidableEq, Repr

/-- Unary operators. -/
inductive Un where
  | ident | neg | bitneg | not | rand | ror | rxor
  deriving DecidableEq, Repr

/-- The text of an operator; some are unary and binary. -/
inductive Op where
  | star | slash | percent | plus | minus
  | ll | gg | lll | ggg                    -- << >> <<< >>>
  | lt | gt | le | ge
  | eqeqeq | noteqeq | eqeq | noteq        -- === !== == !=
  | amp | caret | bar | ampamp | barbar
  | tilde | bang
  deriving DecidableEq, Repr

/-- Tokens; an atom is a name with its selects, a literal or a call. -/
inductive Tok where
  | atom (n : Nat)
  | op (o : Op)
  | lp | rp | lb | rb | comma | question | colon
  deriving DecidableEq, Repr

mutual
inductive Expr where
  | atom (n : Nat)
  | un (u : Un) (e : Expr)
  | bin (b : Bin) (l r : Expr)
  | cond (c a b : Expr)
  | concat (es : Exprs)
  | repl (n : Expr) (es : Exprs)
inductive Exprs where
  | one (e : Expr)
  | cons (e : Expr) (t : Exprs)
end

namespace Spec

/-- Table 11-2: the level of a binary operator; the conditional operator has
level 1, unary operators bind tighter than all of these. -/
def prec : Bin → Nat
  | .times | .divide | .mod => 11
  | .plus | .minus => 10
  | .shiftLL | .shiftRL | .shiftLA | .shiftRA => 9
  | .lt | .gt | .le | .ge => 8
  | .caseEq | .caseNeq | .logEq | .logNeq => 7
  | .band => 6
  | .bxor => 5
  | .bor => 4
  | .land => 3
  | .lor => 2

/-- How binary operators are written. -/
def binText : Bin → Op
  | .times => .star | .divide => .slash | .mod => .percent | .plus => .plus | .minus => .minus
  | .shiftLL => .ll | .shiftRL => .gg | .shiftLA => .lll | .shiftRA => .ggg
  | .lt => .lt | .gt => .gt | .le => .le | .ge => .ge
  | .caseEq => .eqeqeq | .caseNeq => .noteqeq | .logEq => .eqeq | .logNeq => .noteq
  | .band => .amp | .bxor => .caret | .bor => .bar | .land => .ampamp | .lor => .barbar

/-- How unary operators are written. -/
def unText : Un → Op
  | .ident => .plus | .neg => .minus | .bitneg => .tilde | .not => .bang
  | .rand => .amp | .ror => .bar | .rxor => .caret

mutual
/-- `D ok p e ts`: the tokens `ts` are an expression of level `p` or above
whose structure is `e`, with the binary operators `ok`.  Level 13 is a
primary, 12 has the unary operators, 1 the conditional operator. -/
inductive D (ok : Bin → Prop) : Nat → Expr → List Tok → Prop where
  | atom (n : Nat) : D ok 13 (.atom n) [.atom n]
  | paren {e : Expr} {ts : List Tok} : D ok 1 e ts → D ok 13 e (.lp :: (ts ++ [.rp]))
  | concat {es : Exprs} {ts : List Tok} : Ds ok es ts → D ok 13 (.concat es) (.lb :: (ts ++ [.rb]))
  | repl {n : Expr} {tn : List Tok} {es : Exprs} {ts : List Tok} : D ok 1 n tn → Ds ok es ts →
      D ok 13 (.repl n es) (.lb :: (tn ++ .lb :: (ts ++ [.rb, .rb])))
  | un (u : Un) {e : Expr} {ts : List Tok} : D ok 13 e ts →
      D ok 12 (.un u e) (.op (unText u) :: ts)
  | bin (b : Bin) {l r : Expr} {tl tr : List Tok} : ok b → D ok (prec b) l tl →
      D ok (prec b + 1) r tr → D ok (prec b) (.bin b l r) (tl ++ .op (binText b) :: tr)
  | cond {c a b : Expr} {tc ta tb : List Tok} : D ok 2 c tc → D ok 1 a ta → D ok 1 b tb →
      D ok 1 (.cond c a b) (tc ++ .question :: (ta ++ .colon :: tb))
  | lift {p : Nat} {e : Expr} {ts : List Tok} : 1 ≤ p → D ok (p + 1) e ts → D ok p e ts
/-- A list of expressions separated by commas. -/
inductive Ds (ok : Bin → Prop) : Exprs → List Tok → Prop where
  | one {e : Expr} {ts : List Tok} : D ok 1 e ts → Ds ok (.one e) ts
  | cons {e : Expr} {es : Exprs} {te ts : List Tok} : D ok 1 e te → Ds ok es ts →
      Ds ok (.cons e es) (te ++ .comma :: ts)
end

end Spec

end Verif.Expr.Vlog
