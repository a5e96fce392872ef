/-!
# Conditional analysis: specification

After IEEE 1076-2019 clause 24.2: texts with conditional analysis directives, what they say and what
remains of them.
-/

namespace Verif.Pp

/-- A string, as the codes of its characters. -/
abbrev Str := List Nat

/-- Relations between an identifier and a string. -/
inductive RelOp where
  | eq | ne | lt | le | gt | ge
  deriving DecidableEq, Repr

/-- Logical operators. -/
inductive LogOp where
  | and | or | xor | xnor
  deriving DecidableEq, Repr

/-- The tokens of the scanner.  `other` stands for any token that has no meaning for conditional
analysis. -/
inductive Tok where
  | id (n : Nat)
  | str (s : Str)
  | rel (r : RelOp)
  | log (l : LogOp)
  | not | lparen | rparen | then_ | if_
  | condIf | condElsif | condElse | condEnd | condError | condWarn
  | other (n : Nat)
  deriving DecidableEq, Repr

/-- The token is a directive. -/
def Tok.directive : Tok → Bool
  | .condIf | .condElsif | .condElse | .condEnd | .condError | .condWarn => true
  | _ => false

mutual
/-- `conditional_analysis_relation`. -/
inductive Rel where
  | paren (e : Expr)
  | not (e : Expr)
  | cmp (n : Nat) (r : RelOp) (s : Str)
/-- `conditional_analysis_expression`: a relation, or several with one operator. -/
inductive Expr where
  | one (r : Rel)
  | chain (o : LogOp) (r : Rel) (rs : Rels)
/-- One or more relations. -/
inductive Rels where
  | last (r : Rel)
  | cons (r : Rel) (rs : Rels)
end

/-- Lexical order of strings. -/
def strLt : Str → Str → Bool
  | [], [] => false
  | [], _ :: _ => true
  | _ :: _, [] => false
  | a :: l, b :: m => if a < b then true else if b < a then false else strLt l m

def RelOp.eval : RelOp → Str → Str → Bool
  | .eq, a, b => a == b
  | .ne, a, b => a != b
  | .lt, a, b => strLt a b
  | .le, a, b => strLt a b || a == b
  | .gt, a, b => strLt b a
  | .ge, a, b => strLt b a || a == b

def LogOp.eval : LogOp → Bool → Bool → Bool
  | .and, a, b => a && b
  | .or, a, b => a || b
  | .xor, a, b => a != b
  | .xnor, a, b => a == b

/-- The values of the conditional analysis identifiers. -/
abbrev Defs := Nat → Option Str

mutual
def Rel.eval (d : Defs) : Rel → Bool
  | .paren e => e.eval d
  | .not e => !e.eval d
  | .cmp n r s => match d n with
    | none => false
    | some v => r.eval v s
def Expr.eval (d : Defs) : Expr → Bool
  | .one r => r.eval d
  | .chain o r rs => rs.eval d o (r.eval d)
/-- From left to right. -/
def Rels.eval (d : Defs) (o : LogOp) (acc : Bool) : Rels → Bool
  | .last r => o.eval acc (r.eval d)
  | .cons r rs => rs.eval d o (o.eval acc (r.eval d))
end

mutual
/-- All identifiers are defined. -/
def Rel.defined (d : Defs) : Rel → Bool
  | .paren e => e.defined d
  | .not e => e.defined d
  | .cmp n _ _ => (d n).isSome
def Expr.defined (d : Defs) : Expr → Bool
  | .one r => r.defined d
  | .chain _ r rs => r.defined d && rs.defined d
def Rels.defined (d : Defs) : Rels → Bool
  | .last r => r.defined d
  | .cons r rs => r.defined d && rs.defined d
end

mutual
def Rel.toks : Rel → List Tok
  | .paren e => .lparen :: (e.toks ++ [.rparen])
  | .not e => .not :: .lparen :: (e.toks ++ [.rparen])
  | .cmp n r s => [.id n, .rel r, .str s]
def Expr.toks : Expr → List Tok
  | .one r => r.toks
  | .chain o r rs => r.toks ++ rs.toks o
def Rels.toks (o : LogOp) : Rels → List Tok
  | .last r => .log o :: r.toks
  | .cons r rs => .log o :: (r.toks ++ rs.toks o)
end

mutual
/-- A text with directives. -/
inductive Items where
  | nil
  | tok (t : Tok) (rest : Items)
  | msg (warn : Bool) (s : Str) (rest : Items)
  /-- `` `if e then body alt `end [if] `` and the rest -/
  | cond (e : Expr) (body : Items) (alt : Alt) (endIf : Bool) (rest : Items)
/-- The part from the first `` `elsif `` or `` `else `` on. -/
inductive Alt where
  | none
  | els (body : Items)
  | elsif (e : Expr) (body : Items) (alt : Alt)
end

/-- What comes out: tokens for the parser, messages asked for, and errors. -/
inductive Ev where
  | tok (t : Tok)
  | msg (warn : Bool) (s : Str)
  | error
  deriving DecidableEq, Repr

mutual
def Items.toks : Items → List Tok
  | .nil => []
  | .tok t rest => t :: rest.toks
  | .msg w s rest => (if w then .condWarn else .condError) :: .str s :: rest.toks
  | .cond e body alt endIf rest =>
    .condIf :: (e.toks ++ .then_ :: (body.toks ++ (alt.toks ++
      .condEnd :: ((if endIf then [.if_] else []) ++ rest.toks))))
def Alt.toks : Alt → List Tok
  | .none => []
  | .els body => .condElse :: body.toks
  | .elsif e body alt => .condElsif :: (e.toks ++ .then_ :: (body.toks ++ alt.toks))
end

mutual
/-- What remains of a text. -/
def Items.out (d : Defs) : Items → List Ev
  | .nil => []
  | .tok t rest => .tok t :: rest.out d
  | .msg w s rest => .msg w s :: rest.out d
  | .cond e body alt _ rest => (if e.eval d then body.out d else alt.out d) ++ rest.out d
def Alt.out (d : Defs) : Alt → List Ev
  | .none => []
  | .els body => body.out d
  | .elsif e body alt => if e.eval d then body.out d else alt.out d
end

end Verif.Pp
