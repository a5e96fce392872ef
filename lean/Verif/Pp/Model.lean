import Verif.Pp.Spec

/-!
# Conditional analysis: model

Model of `processed_yylex` and of the evaluation of conditional analysis expressions
(/repo/src/scan.c 360-480, 554-677).

The tokens come from a list; a token that was looked at and not used is still at its head
(`lookahead`).  Simplifications: locations, and the directives for macros (`pp_nvc_push`), are left
out; the text of a string is what is between its quotation marks; every error is reported (the code
reports only the first one outside of unit tests).
-/

namespace Verif.Pp

/-- `strcmp`: the sign of the difference. -/
def strcmp : Str → Str → Int
  | [], [] => 0
  | [], _ :: _ => -1
  | _ :: _, [] => 1
  | a :: l, b :: m => if a = b then strcmp l m else if a < b then -1 else 1

/-- `pp_expect` (lines 360-371): the token is consumed in any case; `false` with an error. -/
def expect (t : Tok) : List Tok → Bool × List Tok
  | [] => (false, [])
  | a :: ts => (a == t, ts)

/-- The relation (lines 412-436); `none`: "expected conditional analysis relation". -/
def relation (v cmp : Str) : Option RelOp → Option Bool
  | some .eq => some (strcmp v cmp == 0)
  | some .ne => some (strcmp v cmp != 0)
  | some .lt => some (decide (strcmp v cmp < 0))
  | some .le => some (decide (strcmp v cmp ≤ 0))
  | some .gt => some (decide (strcmp v cmp > 0))
  | some .ge => some (decide (strcmp v cmp ≥ 0))
  | none => none

def Tok.relOp? : Tok → Option RelOp
  | .rel r => some r
  | _ => none

/-- The result, the number of errors and the tokens that are left. -/
abbrev PRes := Bool × Nat × List Tok

/-- `if (!pp_expect(t)) error`. -/
def thenExpect (t : Tok) (r : PRes) : PRes :=
  let e := expect t r.2.2
  (r.1, r.2.1 + (if e.1 then 0 else 1), e.2)

/-- The case `tID` (lines 399-442). -/
def cmpRel (d : Defs) (n : Nat) (ts : List Tok) : PRes :=
  match ts with
  | [] => (false, 1, [])
  | r :: ts =>
    match ts with
    | .str s :: ts =>
      match d n with
      | none => (false, 1, ts)
      | some v => match relation v s r.relOp? with
        | none => (false, 1, ts)
        | some b => (b, 0, ts)
    | _ :: ts => (false, 1, ts)
    | [] => (false, 1, [])

/-- The operators of `pp_cond_analysis_expr` (lines 461-474). -/
def combine : LogOp → Bool → Bool → Bool
  | .and, r, lhs => r && lhs
  | .or, r, lhs => r || lhs
  | .xor, r, lhs => xor r lhs
  | .xnor, r, lhs => !(xor r lhs)

mutual
/-- `pp_cond_analysis_relation` (lines 373-449).  The number bounds the depth of the recursion. -/
def relM (d : Defs) : Nat → List Tok → PRes
  | 0, ts => (false, 1, ts)
  | n + 1, ts =>
    match ts with
    | .lparen :: ts => thenExpect .rparen (exprM d n ts)
    | .not :: ts =>
      let e := expect .lparen ts
      let r := exprM d n e.2
      thenExpect .rparen (!r.1, r.2.1 + (if e.1 then 0 else 1), r.2.2)
    | .id m :: ts => cmpRel d m ts
    | _ :: ts => (false, 1, ts)
    | [] => (false, 1, [])

/-- `pp_cond_analysis_expr` (lines 451-479). -/
def exprM (d : Defs) : Nat → List Tok → PRes
  | 0, ts => (false, 1, ts)
  | n + 1, ts =>
    let l := relM d n ts
    match l.2.2 with
    | .log o :: ts' =>
      let r := relM d n ts'
      (combine o r.1 l.1, l.2.1 + r.2.1, r.2.2)
    | _ => l
end

/-- Every level of the recursion takes a token, apart from the first. -/
def expr (d : Defs) (ts : List Tok) : PRes := exprM d (2 * ts.length + 2) ts

/-- `cond_state_t`: is the part that is being read to be kept (`result`), has a part been kept
(`taken`). -/
structure Cond where
  result : Bool
  taken : Bool
  deriving DecidableEq, Repr

/-- `cond_stack.count == 0 || ATOP(cond_stack).result`. -/
def active : List Cond → Bool
  | [] => true
  | c :: _ => c.result

def errs (n : Nat) : List Ev := List.replicate n .error

/-- One turn of the loop in `processed_yylex` (lines 558-677), the stack with its top first: the
stack and the tokens after it and what comes out; `none` at the end of the file. -/
def step (d : Defs) (st : List Cond) : List Tok → Option (List Cond × List Tok × List Ev)
  | [] => none
  | .condIf :: ts =>
    let r := thenExpect .then_ (expr d ts)
    let new := if active st then ⟨r.1, r.1⟩ else ⟨false, true⟩
    some (new :: st, r.2.2, errs r.2.1)
  | .condElsif :: ts =>
    let r := thenExpect .then_ (expr d ts)
    match st with
    | [] => some ([], r.2.2, errs (1 + r.2.1))
    | c :: st' =>
      let c' := if c.taken then ⟨false, c.taken⟩ else ⟨r.1, r.1⟩
      some (c' :: st', r.2.2, errs r.2.1)
  | .condElse :: ts =>
    match st with
    | [] => some ([], ts, errs 1)
    | c :: st' => some ({ c with result := !c.taken } :: st', ts, [])
  | .condEnd :: ts =>
    let ts' := match ts with
      | .if_ :: ts' => ts'
      | _ => ts
    match st with
    | [] => some ([], ts', errs 1)
    | _ :: st' => some (st', ts', [])
  | .condError :: ts => message false ts
  | .condWarn :: ts => message true ts
  | t :: ts => some (st, ts, if active st then [.tok t] else [])
where
  /-- Lines 629-650. -/
  message (warn : Bool) : List Tok → Option (List Cond × List Tok × List Ev)
  | .str s :: ts => some (st, ts, if active st then [.msg warn s] else [])
  | _ :: ts => some (st, ts, errs 1)
  | [] => some (st, [], errs 1)

/-- Several turns. -/
inductive Steps (d : Defs) : List Cond → List Tok → List Ev → List Cond → List Tok → Prop where
  | refl (st ts) : Steps d st ts [] st ts
  | cons {st ts st1 ts1 o st2 ts2 out} (h : step d st ts = some (st1, ts1, o))
      (hs : Steps d st1 ts1 out st2 ts2) : Steps d st ts (o ++ out) st2 ts2

/-- The whole file: at its end, an error for every block that was not terminated
(lines 652-658). -/
def Reads (d : Defs) (ts : List Tok) (out : List Ev) : Prop :=
  ∃ st o, Steps d [] ts o st [] ∧ out = o ++ errs st.length

end Verif.Pp
