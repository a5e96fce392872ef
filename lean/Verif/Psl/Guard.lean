/-!
# Guards of PSL automata

Model of the guards of the state machines that are built for PSL directives:
`/repo/src/psl/psl-fsm.c`, `/repo/src/psl/psl-fsm.h` and `psl_lower_guard` of
`/repo/src/psl/psl-lower.c`.

A guard is a tagged pointer.  A Boolean expression of the design is a number; the address of a
compound guard is a number as well.  Addresses come from `pool_malloc` of a pool which is never
freed while the automaton is built, so they are never reused: the model hands out increasing
numbers, and two pointers are the same exactly when the guards with their addresses are equal.
-/

namespace Verif.Psl

/-- psl-fsm.h 39-42. -/
inductive Op
  | and
  | or
deriving DecidableEq, Repr

/-- `psl_guard_t`, psl-fsm.h 30-48: the null pointer, an expression, the negation of an expression,
the pointer with tag `GUARD_FALSE`, or a compound guard with its address. -/
inductive Guard
  | null
  | expr (p : Nat)
  | not (p : Nat)
  | fls
  | binop (addr : Nat) (op : Op) (left right : Guard)
deriving DecidableEq, Repr

/-- `same_guard`, psl-fsm.c 57-78.  Line 71 reads the second operator from `g1`. -/
def sameGuard : Guard → Guard → Bool
  | .binop a1 op1 l1 r1, g2 =>
    if Guard.binop a1 op1 l1 r1 = g2 then true
    else
      match g2 with
      | .binop _ _ _ _ => if op1 ≠ op1 then false else sameGuard l1 l1 && sameGuard r1 r1
      | _ => false
  | g1, g2 => g1 = g2

/-- `same_guard` with `g2` in line 71. -/
def sameGuardRepaired : Guard → Guard → Bool
  | .binop a1 op1 l1 r1, g2 =>
    if Guard.binop a1 op1 l1 r1 = g2 then true
    else
      match g2 with
      | .binop _ op2 l2 r2 =>
        if op1 ≠ op2 then false else sameGuardRepaired l1 l2 && sameGuardRepaired r1 r2
      | _ => false
  | g1, g2 => g1 = g2

/-- `make_binop_guard`, psl-fsm.c 111-125; `fresh` is the next address. -/
def makeBinop (fresh : Nat) (op : Op) (left right : Guard) : Guard × Nat :=
  if left = .null then (right, fresh)
  else if right = .null ∨ left = right then (left, fresh)
  else (.binop fresh op left right, fresh + 1)

/-- `or_guard`, psl-fsm.c 127-131. -/
def orGuard (fresh : Nat) (left right : Guard) : Guard × Nat := makeBinop fresh .or left right

/-- `and_guard`, psl-fsm.c 133-137. -/
def andGuard (fresh : Nat) (left right : Guard) : Guard × Nat := makeBinop fresh .and left right

/-- `not_guard`, psl-fsm.c 139-145; `none` is the failing assertion.  The tag of the null pointer
is that of an expression. -/
def notGuard : Guard → Option Guard
  | .null => some .fls
  | .expr p => some (.not p)
  | _ => none

/-! ## Edges -/

/-- psl-fsm.h 50-55. -/
structure Edge where
  eps : Bool
  dest : Nat
  guard : Guard
deriving DecidableEq, Repr

/-- psl-fsm.h 57-69, without the flags `initial` and `strong` and the source location. -/
structure State where
  edges : List Edge
  guard : Guard
  accept : Bool
deriving DecidableEq, Repr

/-- psl-fsm.h 75-83: the states in the order of their numbers, and the next address of a compound
guard. -/
structure Fsm where
  states : List State
  fresh : Nat
deriving DecidableEq, Repr

/-- `psl_fsm_new`, psl-fsm.c 775-784, before the first state is added. -/
def Fsm.empty : Fsm := { states := [], fresh := 0 }

/-- `add_state`, psl-fsm.c 45-55. -/
def addState (f : Fsm) : Fsm × Nat :=
  ({ f with states := f.states ++ [{ edges := [], guard := .null, accept := false }] },
    f.states.length)

/-- A change of one state; a state that does not exist is not changed. -/
def Fsm.modify (f : Fsm) (s : Nat) (g : State → State) : Fsm :=
  match f.states[s]? with
  | some st => { f with states := f.states.set s (g st) }
  | none => f

/-- The loop of `add_edge`, psl-fsm.c 83-97, on the edges of the state; `same` is the comparison of
guards. -/
def insertEdge (same : Guard → Guard → Bool) (new : Edge) : List Edge → List Edge
  | [] => [new]
  | e :: es =>
    if e.eps ≠ new.eps ∨ e.dest ≠ new.dest then e :: insertEdge same new es
    else if same e.guard new.guard then e :: es
    else e :: insertEdge same new es

/-- `add_edge`, psl-fsm.c 80-98. -/
def addEdge (same : Guard → Guard → Bool) (f : Fsm) (src dest : Nat) (eps : Bool) (g : Guard) :
    Fsm :=
  f.modify src fun st => { st with edges := insertEdge same { eps, dest, guard := g } st.edges }

/-- The loop of `build_else_guard`, psl-fsm.c 149-154. -/
def elseLoop (fresh : Nat) (g : Guard) : List Edge → Option (Guard × Nat)
  | [] => some (g, fresh)
  | e :: es =>
    match notGuard e.guard with
    | none => none
    | some n => elseLoop (andGuard fresh g n).2 (andGuard fresh g n).1 es

/-- `build_else_guard`, psl-fsm.c 147-155. -/
def elseGuard (f : Fsm) (s : Nat) : Option (Guard × Nat) :=
  match f.states[s]? with
  | none => none
  | some st => elseLoop f.fresh .null st.edges

/-! ## Code for guards -/

/-- `psl_lower_guard`, psl-lower.c 87-112: the value that the emitted code computes if the
expressions have the values `v`.  `none` is the end of the compiler: the null pointer is taken for
an expression and dereferenced, `GUARD_FALSE` reaches line 110. -/
def lowerGuard (v : Nat → Bool) : Guard → Option Bool
  | .null => none
  | .expr p => some (v p)
  | .binop _ op l r =>
    match lowerGuard v l with
    | none => none
    | some a =>
      match lowerGuard v r with
      | none => none
      | some b =>
        match op with
        | .and => some (a && b)
        | .or => some (a || b)
  | .not p => some (!v p)
  | .fls => none

/-- The uses of guards, psl-lower.c 166-176 and 200-218: a null pointer is no test at all. -/
def testGuard (v : Nat → Bool) (g : Guard) : Option Bool :=
  if g = .null then some true else lowerGuard v g

end Verif.Psl
