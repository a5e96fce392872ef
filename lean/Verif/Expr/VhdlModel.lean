import Verif.Expr.VhdlSpec

/-
Model of the parser for VHDL expressions, src/parse.c 4541-5047.

`n` limits the turns of the loops and the depth of parentheses; `none` is a
syntax error or a limit that is too small.  Simplified: names, literals,
calls, aggregates, qualified expressions, allocators and the functions of PSL
are single tokens; the standard is 2008 or later; union is left out, and so is
the injected operand of a property that turns out to be an expression.  The
functions which turn tokens to names of operators are the identity.
-/

namespace Verif.Expr.Vhdl

abbrev Parser := List Tok → Option (Expr × List Tok)

/-- 4541-4556 `p_aggregate_or_expression` and 4649-4709 `p_primary`; `ex` reads
an expression. -/
def prim (ex : Parser) : Parser
  | .atom a :: ts => some (.atom a, ts)
  | .lp :: ts =>
    match ex ts with
    | some (e, .rp :: ts) => some (e, ts)
    | _ => none
  | _ => none

/-- 4732-4777 `p_unary_expression`. -/
def una (ex : Parser) : Parser
  | .op .not :: ts => (prim ex ts).map (fun r => (.un .not r.1, r.2))
  | .op .abs :: ts => (prim ex ts).map (fun r => (.un .abs r.1, r.2))
  | .op (.log o) :: ts => (prim ex ts).map (fun r => (.un (.log o) r.1, r.2))
  | ts => prim ex ts

/-- 4779-4801 `p_factor`. -/
def fac (ex : Parser) (ts : List Tok) : Option (Expr × List Tok) :=
  match una ex ts with
  | some (l, .op .pow :: ts) =>
    match prim ex ts with
    | some (r, ts) => some (.bin .pow l r, ts)
    | none => none
  | r => r

/-- A loop over operators: `ops` are those it takes, `last` those after which it
ends. -/
def loop : Nat → Parser → (Op → Option Bin) → (Op → Bool) → Expr → List Tok →
    Option (Expr × List Tok)
  | 0, _, _, _, _, _ => none
  | n + 1, sub, ops, last, e, .op o :: ts =>
    match ops o with
    | some b =>
      match sub ts with
      | some (r, ts) =>
        if last o then some (.bin b e r, ts) else loop n sub ops last (.bin b e r) ts
      | none => none
    | none => some (e, .op o :: ts)
  | _ + 1, _, _, _, e, ts => some (e, ts)

/-- The first operand and the loop. -/
def chainOf (k : Nat) (first sub : Parser) (ops : Op → Option Bin) (last : Op → Bool)
    (ts : List Tok) : Option (Expr × List Tok) :=
  match first ts with
  | some (e, ts) => loop k sub ops last e ts
  | none => none

def mulOps : Op → Option Bin
  | .mul o => some (.mul o)
  | _ => none

/-- 4818-4837 `p_term`. -/
def ter (n : Nat) (ex : Parser) : Parser := chainOf n (fac ex) (fac ex) mulOps (fun _ => false)

def addOps : Op → Option Bin
  | .add o => some (.add o)
  | _ => none

/-- 4868-4880: the first term with its sign. -/
def signed (n : Nat) (ex : Parser) : Parser
  | .op (.add .plus) :: ts => (ter n ex ts).map (fun r => (.un .pos r.1, r.2))
  | .op (.add .minus) :: ts => (ter n ex ts).map (fun r => (.un .neg r.1, r.2))
  | ts => ter n ex ts

/-- 4864-4890 `p_simple_expression`. -/
def sim (n : Nat) (ex : Parser) : Parser :=
  chainOf n (signed n ex) (ter n ex) addOps (fun _ => false)

def shiftOps : Op → Option Bin
  | .shift o => some (.shift o)
  | _ => none

/-- 4911-4934 `p_shift_expression`. -/
def shi (n : Nat) (ex : Parser) : Parser :=
  chainOf n (sim n ex) (sim n ex) shiftOps (fun _ => false)

def relOps : Op → Option Bin
  | .rel o => some (.rel o)
  | _ => none

/-- 4968-4987 `p_relation`. -/
def rel (n : Nat) (ex : Parser) : Parser :=
  chainOf n (shi n ex) (shi n ex) relOps (fun _ => false)

def logOps : Op → Option Bin
  | .log o => some (.log o)
  | _ => none

/-- 5013-5019: the loop ends after nand and nor. -/
def logLast : Op → Bool
  | .log .nand => true
  | .log .nor => true
  | _ => false

/-- 4989-5030 `p_expression_with_head`. -/
def lg (n : Nat) (ex : Parser) : Parser := chainOf n (rel n ex) (rel n ex) logOps logLast

/-- 5032-5047 `p_expression`. -/
def pExpr : Nat → Parser
  | 0, _ => none
  | n + 1, .op .cconv :: ts => (prim (pExpr n) ts).map (fun r => (.un .cconv r.1, r.2))
  | n + 1, ts => lg n (pExpr n) ts

end Verif.Expr.Vhdl
