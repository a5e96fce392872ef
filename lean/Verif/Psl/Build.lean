import Verif.Psl.Simplify

/-!
# Construction of PSL automata

Model of `build_node` of `/repo/src/psl/psl-fsm.c` for sequences and suffix implications:
Boolean expressions, concatenation, fusion, length matching conjunction, repetition, `next` and
`|->`, `|=>`.  `none` is a failing assertion.  The parser (`p_psl_sere`, parse.c 12205-12273) makes
one node of a chain of equal operators, so concatenation and fusion have a list of operands.
-/

namespace Verif.Psl

/-- psl-node.h 91-96. -/
inductive RepKind
  | plus
  | times
  | goto
  | equal
deriving DecidableEq, Repr

/-- The count of a repetition, psl-fsm.c 424-441.  Negative numbers, about which the program only
warns, are left out. -/
inductive Count
  | none
  | exact (n : Nat)
  | range (low high : Nat)
deriving DecidableEq, Repr

/-- The nodes that are modelled.  An expression is its number; the operand of `[->]` and `[=]` is an
expression (psl-sem.c 301-311). -/
inductive Psl
  | expr (p : Nat)
  | sere (fusion : Bool) (ops : List Psl)
  | conj (left right : Psl)
  | rep (kind : RepKind) (count : Count) (value : Psl)
  | next (cycles : Nat) (value : Psl)
  | suffix (overlap : Bool) (left right : Psl)

/-- The results of `get_repeat_bounds`. -/
structure Bounds where
  low : Nat
  high : Nat
  infinite : Bool
  noncon : Bool
  gotoRep : Bool
deriving DecidableEq, Repr

/-- psl-fsm.c 424-441: the range before line 448. -/
def countRange : RepKind → Count → Nat × Nat
  | .plus, _ => (1, 2147483647)
  | _, .none => (0, 2147483647)
  | _, .exact n => (n, n)
  | _, .range l h => (l, h)

/-- `get_repeat_bounds`, psl-fsm.c 400-452. -/
def repeatBounds (kind : RepKind) (count : Count) : Bounds :=
  { low := (countRange kind count).1
    high :=
      if (countRange kind count).2 = 2147483647 then (countRange kind count).1
      else (countRange kind count).2
    infinite := (countRange kind count).2 = 2147483647
    noncon := kind = .goto ∨ kind = .equal
    gotoRep := kind = .goto }

/-- A construction: from an automaton and a state to an automaton and a state. -/
abbrev Builder := Fsm → Nat → Option (Fsm × Nat)

/-- psl-fsm.c 605-610. -/
def buildExpr (same : Guard → Guard → Bool) (p : Nat) : Builder := fun f s =>
  some (addEdge same (addState f).1 s (addState f).2 true (.expr p), (addState f).2)

/-- psl-fsm.c 368-375: the way from the end of an operand to the start of the next one. -/
def bridge (same : Guard → Guard → Bool) (fusion : Bool) (s : Nat) (f : Fsm) (new : Nat) :
    Fsm × Nat :=
  if new ≠ s then (addEdge same (addState f).1 new (addState f).2 fusion .null, (addState f).2)
  else (f, new)

/-- psl-fsm.c 474-479: waiting for the expression in state `s`. -/
def addWait (same : Guard → Guard → Bool) (f : Fsm) (s : Nat) : Option Fsm :=
  match elseGuard (addState f).1 s with
  | none => none
  | some (g, fresh) =>
    some (addEdge same (addEdge same { (addState f).1 with fresh := fresh } s (addState f).2 true g)
      (addState f).2 s false .null)

/-- psl-fsm.c 489-499: cycles after the last repetition in which the expression is false. -/
def addTrail (same : Guard → Guard → Bool) (p : Nat) (f : Fsm) (t : Nat) : Option Fsm :=
  let aux := f.states.length
  let dead := aux + 1
  let wait := aux + 2
  let f3 := (addState (addState (addState f).1).1).1
  let f4 := addEdge same (addEdge same f3 t aux false .null) aux dead true (.expr p)
  match elseGuard f4 aux with
  | none => none
  | some (g, fresh) =>
    some (addEdge same (addEdge same (addEdge same { f4 with fresh := fresh } aux wait true g)
      wait aux false .null) wait t true .null)

/-- The loop of `build_repeat`, psl-fsm.c 468-500, with `n` iterations left, in iteration `i`.  The
result is the automaton, `state` and `last_but_one`. -/
def repLoop (same : Guard → Guard → Bool) (build : Builder) (value : Option Nat) (b : Bounds)
    (skip : Option Nat) : Nat → Nat → Fsm → Nat → Nat → Option (Fsm × Nat × Nat)
  | 0, _, f, s, lbo => some (f, s, lbo)
  | n + 1, i, f, s, _ =>
    match build f s with
    | none => none
    | some (f1, t) =>
      match (if b.noncon then addWait same f1 s else some f1) with
      | none => none
      | some f2 =>
        if n ≠ 0 then
          match (if i + 1 ≥ b.low then skip.map (fun k => addEdge same f2 t k true .null)
            else some f2) with
          | none => none
          | some f3 =>
            repLoop same build value b skip n (i + 1)
              (addEdge same (addState f3).1 t (addState f3).2 false .null) (addState f3).2 s
        else if b.noncon && !b.gotoRep then
          match value with
          | none => none
          | some p =>
            match addTrail same p f2 t with
            | none => none
            | some f3 => repLoop same build value b skip n (i + 1) f3 t s
        else repLoop same build value b skip n (i + 1) f2 t s

/-- psl-fsm.c 502-512: the end of `build_repeat`. -/
def repEnd (same : Guard → Guard → Bool) (b : Bounds) (skip : Option Nat) (initial : Nat) :
    Fsm × Nat × Nat → Fsm × Nat
  | (f, t, lbo) =>
    let f1 := match skip with
      | some k => addEdge same f k t true .null
      | none => f
    if initial ≠ t then
      let f2 := if b.low = 0 then addEdge same f1 initial t true .null else f1
      (if b.infinite then addEdge same f2 t lbo false .null else f2, t)
    else (f1, t)

/-- `build_repeat`, psl-fsm.c 454-513. -/
def buildRepeat (same : Guard → Guard → Bool) (build : Builder) (value : Option Nat) (b : Bounds) :
    Builder := fun f s =>
  let skip : Option Nat := if b.high > b.low then some f.states.length else none
  let f1 := if b.high > b.low then (addState f).1 else f
  (repLoop same build value b skip b.high 0 f1 s s).map (repEnd same b skip s)

/-- psl-fsm.c 519-523. -/
def nextLoop (same : Guard → Guard → Bool) : Nat → Fsm → Nat → Fsm × Nat
  | 0, f, s => (f, s)
  | n + 1, f, s => nextLoop same n (addEdge same (addState f).1 s (addState f).2 false .null)
      (addState f).2

/-! ## Conjunction -/

/-- The variables of the loop of `intersect_fsm`: the automaton, the table of pairs of states and
the list of work. -/
structure Inter where
  fsm : Fsm
  map : List ((Nat × Nat) × Nat)
  work : List (Nat × Nat × Nat)

/-- psl-fsm.c 221-235: the state for a pair of destinations. -/
def interDest (d1 d2 : Nat) (c : Inter) : Nat × Inter :=
  if d1 = d2 then (d1, c)
  else
    match c.map.find? (fun x => x.1 = (d1, d2)) with
    | some x => (x.2, c)
    | none =>
      ((addState c.fsm).2,
        { fsm := (addState c.fsm).1, map := ((d1, d2), (addState c.fsm).2) :: c.map
          work := (d1, d2, (addState c.fsm).2) :: c.work })

/-- psl-fsm.c 220-241: one edge of the left automaton. -/
def interEdges (same : Guard → Guard → Bool) (into : Nat) (e1 : Edge) : List Edge → Inter →
    Option Inter
  | [], c => some c
  | e2 :: es, c =>
    let d := interDest e1.dest e2.dest c
    if e1.eps ≠ e2.eps then none
    else
      let g := andGuard d.2.fsm.fresh e1.guard e2.guard
      interEdges same into e1 es
        { d.2 with fsm := addEdge same { d.2.fsm with fresh := g.2 } into d.1 e1.eps g.1 }

/-- psl-fsm.c 219-242. -/
def interState (same : Guard → Guard → Bool) (into : Nat) (right : List Edge) : List Edge → Inter →
    Option Inter
  | [], c => some c
  | e1 :: es, c =>
    match interEdges same into e1 right c with
    | none => none
    | some c' => interState same into right es c'

/-- psl-fsm.c 216-248, for at most `fuel` items. -/
def interLoop (same : Guard → Guard → Bool) (final : Nat) : Nat → Inter → Option Fsm
  | 0, _ => none
  | fuel + 1, c =>
    match c.work with
    | [] => some c.fsm
    | (l, r, into) :: work =>
      match c.fsm.states[l]?, c.fsm.states[r]? with
      | some ls, some rs =>
        match interState same into rs.edges ls.edges { c with work := work } with
        | none => none
        | some c' =>
          if ls.accept && rs.accept then
            let g := andGuard c'.fsm.fresh ls.guard rs.guard
            interLoop same final fuel
              { c' with fsm := addEdge same { c'.fsm with fresh := g.2 } into final true g.1 }
          else interLoop same final fuel c'
      | _, _ => none

/-- psl-fsm.c 199-200. -/
def setAccept (f : Fsm) (s : Nat) : Fsm := f.modify s fun st => { st with accept := true }

/-- `intersect_fsm`, psl-fsm.c 189-252. -/
def intersect (same : Guard → Guard → Bool) (fuel : Nat) (f : Fsm) (initial lInitial lFinal rInitial
    rFinal : Nat) : Option (Fsm × Nat) :=
  match simplify same (setAccept (setAccept f lFinal) rFinal) with
  | none => none
  | some f1 =>
    (interLoop same (addState f1).2 fuel
      { fsm := (addState f1).1, map := [], work := [(lInitial, rInitial, initial)] }).map
        fun f2 => (f2, (addState f1).2)

/-! ## Suffix implication -/

/-- psl-fsm.c 180-183: the recursive calls of `connect_default` for the edges of a state. -/
def defaultEdges (rec : Fsm → List Nat → Nat → Option (Fsm × List Nat)) : List Edge → Fsm → List Nat →
    Option (Fsm × List Nat)
  | [], f, vis => some (f, vis)
  | e :: es, f, vis =>
    match rec f vis e.dest with
    | none => none
    | some (f1, vis1) => defaultEdges rec es f1 vis1

/-- `connect_default`, psl-fsm.c 171-187, with a bound for the depth of the recursion. -/
def connectDefault (same : Guard → Guard → Bool) (to : Nat) :
    Nat → Fsm → List Nat → Nat → Option (Fsm × List Nat)
  | 0, _, _, _ => none
  | fuel + 1, f, vis, s =>
    match f.states[s]? with
    | none => none
    | some st =>
      if st.edges.isEmpty then some (f, vis)
      else if s ∈ vis then some (f, vis)
      else
        match defaultEdges (connectDefault same to fuel) st.edges f (s :: vis) with
        | none => none
        | some (f1, vis1) =>
          if st.edges.any (fun e => e.guard = .null) then some (f1, vis1)
          else
            match elseGuard f1 s with
            | none => none
            | some (g, fresh) => some (addEdge same { f1 with fresh := fresh } s to false g, vis1)

/-! ## All nodes -/

/-- The expression, if the node is one. -/
def Psl.asExpr : Psl → Option Nat
  | .expr p => some p
  | _ => none

mutual

/-- `build_node`, psl-fsm.c 596-634; `fuel` is a bound for the loop of `intersect_fsm`. -/
def build (same : Guard → Guard → Bool) (fuel : Nat) : Psl → Builder
  | .expr p => buildExpr same p
  | .sere fusion ops => buildOps same fuel fusion ops
  | .conj l r => fun f s =>
    match build same fuel l (addState f).1 (addState f).2 with
    | none => none
    | some (f1, lFinal) =>
      match build same fuel r (addState f1).1 (addState f1).2 with
      | none => none
      | some (f2, rFinal) => intersect same fuel f2 s (addState f).2 lFinal (addState f1).2 rFinal
  | .rep kind count value =>
    buildRepeat same (build same fuel value) value.asExpr (repeatBounds kind count)
  | .next n value => fun f s =>
    build same fuel value (nextLoop same n f s).1 (nextLoop same n f s).2
  | .suffix overlap l r => fun f s =>
    match build same fuel l f s with
    | none => none
    | some (f1, left) =>
      let right := f1.states.length
      let vacuous := right + 1
      let f2 := addEdge same (addState (addState f1).1).1 left right overlap .null
      match connectDefault same vacuous f2.states.length f2 [] s with
      | none => none
      | some (f3, _) =>
        match build same fuel r f3 right with
        | none => none
        | some (f4, final) => some (addEdge same f4 vacuous final true .null, final)

/-- psl-fsm.c 363-379: the loop of `build_sere` over the operands. -/
def buildOps (same : Guard → Guard → Bool) (fuel : Nat) (fusion : Bool) : List Psl → Builder
  | [] => fun f s => some (f, s)
  | p :: ps => fun f s =>
    match build same fuel p f s with
    | none => none
    | some (f1, new) =>
      match ps with
      | [] => some (f1, new)
      | _ :: _ =>
        buildOps same fuel fusion ps (bridge same fusion s f1 new).1 (bridge same fusion s f1 new).2

end

/-- `psl_fsm_new`, psl-fsm.c 784-788: the automaton before epsilon edges are removed, and its final
state; the initial state is number 0. -/
def newFsm (same : Guard → Guard → Bool) (fuel : Nat) (p : Psl) : Option (Fsm × Nat) :=
  (build same fuel p (addState Fsm.empty).1 0).map fun r => (setAccept r.1 r.2, r.2)

end Verif.Psl
