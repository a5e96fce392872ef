import Verif.Expr.VlogSpec

/-
Model of the parser for Verilog expressions, src/vlog/vlog-parse.c 1130-1443.

The number which all functions take limits the depth of the recursion and the
number of turns of the loops.  `none` is a syntax error or a limit which is too
small; the recovery from errors is left out.  Simplified: names with selects,
literals and calls of system functions are single tokens; `++`, `--` and
attributes are left out.
-/

namespace Verif.Expr.Vlog

/-- 1224-1259 `p_binary_operator`. -/
def binOf : Op → Option Bin
  | .bar => some .bor
  | .amp => some .band
  | .eqeqeq => some .caseEq
  | .noteqeq => some .caseNeq
  | .eqeq => some .logEq
  | .noteq => some .logNeq
  | .barbar => some .lor
  | .ampamp => some .land
  | .ll => some .shiftLL
  | .gg => some .shiftRL
  | .lll => some .shiftLA
  | .ggg => some .shiftRA
  | .lt => some .lt
  | .gt => some .gt
  | .le => some .le
  | .ge => some .ge
  | .minus => some .minus
  | .star => some .times
  | .slash => some .divide
  | .percent => some .mod
  | .plus => some .plus
  | .caret | .tilde | .bang => none

/-- 1261-1277 `p_unary_operator`. -/
def unOf : Op → Option Un
  | .minus => some .neg
  | .tilde => some .bitneg
  | .bang => some .not
  | .amp => some .rand
  | .bar => some .ror
  | .caret => some .rxor
  | .plus => some .ident
  | _ => none

/-- 1372-1402 `peek_binary_operator`. -/
def peekBin : List Tok → Option Nat
  | .op o :: _ =>
    match o with
    | .star | .slash | .percent => some 11
    | .plus | .minus => some 10
    | .ll | .gg | .lll | .ggg => some 9
    | .lt | .gt | .le | .ge => some 8
    | .eqeqeq | .noteqeq | .eqeq | .noteq => some 7
    | .amp => some 6
    | .bar => some 4
    | .ampamp => some 3
    | .barbar => some 2
    | .caret | .tilde | .bang => none
  | .question :: _ => some 1
  | _ => none

/-- `consume`. -/
def eat (t : Tok) : List Tok → Option (List Tok)
  | x :: r => if x = t then some r else none
  | [] => none

abbrev P (α : Type) := Option (α × List Tok)

mutual
/-- 1433-1443 `p_expression`. -/
def pExpr : Nat → List Tok → P Expr
  | 0, _ => none
  | n + 1, ts =>
    match pNon n ts with
    | some (e, ts) => pBin n e 0 ts
    | none => none
/-- 1303-1345 `p_nonbinary_expression`. -/
def pNon : Nat → List Tok → P Expr
  | 0, _ => none
  | n + 1, .op o :: ts =>
    match unOf o with
    | some u =>
      match pPrim n ts with
      | some (e, ts) => some (.un u e, ts)
      | none => none
    | none => none
  | n + 1, ts => pPrim n ts
/-- 1177-1222 `p_primary`. -/
def pPrim : Nat → List Tok → P Expr
  | 0, _ => none
  | _ + 1, .atom a :: ts => some (.atom a, ts)
  | n + 1, .lp :: ts =>
    match pExpr n ts with
    | some (e, ts) =>
      match eat .rp ts with
      | some ts => some (e, ts)
      | none => none
    | none => none
  | n + 1, .lb :: ts =>
    match pExpr n ts with
    | some (head, .lb :: ts) =>                      -- 1161-1175 p_multiple_concatenation
      match pExpr n ts with
      | some (e, ts) =>
        match pList n e ts with
        | some (es, ts) =>
          match eat .rb ts with
          | some ts =>
            match eat .rb ts with
            | some ts => some (.repl head es, ts)
            | none => none
          | none => none
        | none => none
      | none => none
    | some (head, ts) =>                             -- 1139-1159 p_concatenation
      match pList n head ts with
      | some (es, ts) =>
        match eat .rb ts with
        | some ts => some (.concat es, ts)
        | none => none
      | none => none
    | none => none
  | _ + 1, _ => none
/-- 1153-1154: the rest of a list. -/
def pList : Nat → Expr → List Tok → P Exprs
  | 0, _, _ => none
  | n + 1, e, .comma :: ts =>
    match pExpr n ts with
    | some (e2, ts) =>
      match pList n e2 ts with
      | some (es, ts) => some (.cons e es, ts)
      | none => none
    | none => none
  | _ + 1, e, ts => some (.one e, ts)
/-- 1404-1431 `p_binary_expression`. -/
def pBin : Nat → Expr → Nat → List Tok → P Expr
  | 0, _, _, _ => none
  | n + 1, lhs, min, ts =>
    match peekBin ts with
    | none => some (lhs, ts)
    | some prec1 =>
      if prec1 ≥ min then
        match ts with
        | .question :: ts =>                         -- 1347-1370 p_conditional_expression
          match pExpr n ts with
          | some (a, ts) =>
            match eat .colon ts with
            | some ts =>
              match pExpr n ts with
              | some (b, ts) => pBin n (.cond lhs a b) min ts
              | none => none
            | none => none
          | none => none
        | .op o :: ts =>
          match binOf o with
          | some b =>
            match pNon n ts with
            | some (rhs, ts) =>
              match pInner n rhs prec1 ts with
              | some (rhs, ts) => pBin n (.bin b lhs rhs) min ts
              | none => none
            | none => none
          | none => none
        | _ => none
      else some (lhs, ts)
/-- 1420-1422: operators which bind tighter. -/
def pInner : Nat → Expr → Nat → List Tok → P Expr
  | 0, _, _, _ => none
  | n + 1, rhs, prec1, ts =>
    match peekBin ts with
    | none => some (rhs, ts)
    | some prec2 =>
      if prec2 > prec1 then
        match pBin n rhs (prec1 + (if prec2 > prec1 then 1 else 0)) ts with
        | some (rhs, ts) => pInner n rhs prec1 ts
        | none => none
      else some (rhs, ts)
end

end Verif.Expr.Vlog
