import Verif.Psl.Guard

/-!
# Removal of epsilon edges

Model of `psl_simplify` of `/repo/src/psl/psl-fsm.c` 684-734, which replaces in place each epsilon
edge of an automaton by the edges of its destination.  `none` is a failing assertion.
-/

namespace Verif.Psl

/-- psl-fsm.c 704-708: all edges of the destination but the first are added at the end.  The list is
read before the first edge is added: the destination is another state, as line 705 or 710 would fail
on an edge from a state to itself. -/
def addAll (same : Guard → Guard → Bool) (s : Nat) (g : Guard) : List Edge → Fsm → Option Fsm
  | [], f => some f
  | e2 :: es, f =>
    if e2.eps then none
    else
      addAll same s g es
        (addEdge same { f with fresh := (andGuard f.fresh g e2.guard).2 } s e2.dest e2.eps
          (andGuard f.fresh g e2.guard).1)

/-- psl-fsm.c 694-698: the state accepts if the destination of the edge does. -/
def addAccept (s : Nat) (st : State) (e : Edge) (d : State) (f : Fsm) : Fsm :=
  if d.accept then
    let guard := andGuard f.fresh e.guard d.guard
    let both := orGuard guard.2 st.guard guard.1
    { f with fresh := both.2 }.modify s (fun st => { st with guard := both.1, accept := true })
  else f

/-- psl-fsm.c 702. -/
def State.dropEdge (i : Nat) (st : State) : State := { st with edges := st.edges.eraseIdx i }

/-- psl-fsm.c 711-713. -/
def State.setEdge (i : Nat) (e : Edge) (st : State) : State := { st with edges := st.edges.set i e }

/-- psl-fsm.c 694-716 for the edge number `i` of the state `s`.  The result has the number of the
edge that comes next. -/
def expand (same : Guard → Guard → Bool) (f : Fsm) (s i : Nat) : Option (Fsm × Nat) :=
  match f.states[s]? with
  | none => none
  | some st =>
    match st.edges[i]? with
    | none => none
    | some e =>
      match f.states[e.dest]? with
      | none => none
      | some d =>
        match d.edges with
        | [] => some ((addAccept s st e d f).modify s (State.dropEdge i), i)
        | first :: rest =>
          match addAll same s e.guard rest (addAccept s st e d f) with
          | none => none
          | some f2 =>
            if first.eps then none
            else
              some ({ f2 with fresh := (andGuard f2.fresh e.guard first.guard).2 }.modify s
                (State.setEdge i
                  ⟨first.eps, first.dest, (andGuard f2.fresh e.guard first.guard).1⟩), i + 1)

/-- The loop of `psl_simplify_dfs`, psl-fsm.c 689-720, for the `n` edges from number `i` on; `rec` is
the recursive call.  The loop of the program also passes over the edges that were added at the end.
They are no epsilon edges (line 705), so that nothing happens. -/
def edgeLoop (same : Guard → Guard → Bool) (rec : Fsm → List Nat → Nat → Option (Fsm × List Nat))
    (s : Nat) : Nat → Nat → Fsm → List Nat → Option (Fsm × List Nat)
  | 0, _, f, vis => some (f, vis)
  | n + 1, i, f, vis =>
    match f.states[s]? with
    | none => none
    | some st =>
      match st.edges[i]? with
      | none => none
      | some e =>
        if e.eps then
          match (if e.dest ∈ vis then some (f, vis) else rec f vis e.dest) with
          | none => none
          | some (f1, vis1) =>
            match expand same f1 s i with
            | none => none
            | some (f2, i2) => edgeLoop same rec s n i2 f2 vis1
        else edgeLoop same rec s n (i + 1) f vis

/-- `psl_simplify_dfs`, psl-fsm.c 684-721, with a bound for the depth of the recursion. -/
def simplifyDfs (same : Guard → Guard → Bool) :
    Nat → Fsm → List Nat → Nat → Option (Fsm × List Nat)
  | 0, _, _, _ => none
  | fuel + 1, f, vis, s =>
    match f.states[s]? with
    | none => none
    | some st => edgeLoop same (simplifyDfs same fuel) s st.edges.length 0 f (s :: vis)

/-- The loop of `psl_simplify`, psl-fsm.c 728-731, over the states from number `s` on.  The depth of
the recursion is at most the number of states, as each call marks another state. -/
def simplifyLoop (same : Guard → Guard → Bool) :
    Nat → Nat → Fsm → List Nat → Option (Fsm × List Nat)
  | 0, _, f, vis => some (f, vis)
  | n + 1, s, f, vis =>
    match (if s ∈ vis then some (f, vis) else simplifyDfs same f.states.length f vis s) with
    | none => none
    | some (f1, vis1) => simplifyLoop same n (s + 1) f1 vis1

/-- `psl_simplify`, psl-fsm.c 723-734. -/
def simplify (same : Guard → Guard → Bool) (f : Fsm) : Option Fsm :=
  (simplifyLoop same f.states.length 0 f []).map (·.1)

end Verif.Psl
