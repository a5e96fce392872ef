import Verif.Psl.GuardSpec

/-!
# What an automaton does in a cycle

Independent of the removal of epsilon edges: epsilon edges are followed within a cycle, other edges
lead to the state of the next cycle.
-/

namespace Verif.Psl

/-- From state `s` an accepting state can be reached within a cycle, and its own guard is true. -/
inductive Accepts (f : Fsm) (v : Nat → Bool) : Nat → Prop
  | here {s : Nat} {st : State} : f.states[s]? = some st → st.accept = true → st.guard.True v →
      Accepts f v s
  | eps {s t : Nat} {st : State} : f.states[s]? = some st → Reaches st.edges true t v →
      Accepts f v t → Accepts f v s

/-- From state `s` in one cycle the automaton can go to state `t` in the next cycle. -/
inductive Moves (f : Fsm) (v : Nat → Bool) : Nat → Nat → Prop
  | next {s t : Nat} {st : State} : f.states[s]? = some st → Reaches st.edges false t v →
      Moves f v s t
  | eps {s t u : Nat} {st : State} : f.states[s]? = some st → Reaches st.edges true t v →
      Moves f v t u → Moves f v s u

/-- No epsilon edges start at the state. -/
def State.NoEps (st : State) : Prop := ∀ e ∈ st.edges, e.eps = false

/-- What is demanded of an automaton: edges lead to states; epsilon edges form no cycle (`r` numbers
the states such that they lead to smaller numbers); an unguarded epsilon edge is the only epsilon
edge of a state (both are checked by `psl_detect_loops`, psl-fsm.c 636-682); and epsilon edges start
only at states that do not accept themselves. -/
structure Proper (f : Fsm) (r : Nat → Nat) : Prop where
  dest : ∀ (s : Nat) (st : State), f.states[s]? = some st → ∀ e ∈ st.edges,
    e.dest < f.states.length
  acyclic : ∀ (s : Nat) (st : State), f.states[s]? = some st → ∀ e ∈ st.edges, e.eps = true →
    r e.dest < r s
  guarded : ∀ (s : Nat) (st : State), f.states[s]? = some st →
    (∀ e ∈ st.edges, e.eps = true → e.guard ≠ .null) ∨
      (st.edges.filter (fun e => e.eps)).length ≤ 1
  accept : ∀ (s : Nat) (st : State), f.states[s]? = some st → ¬ st.NoEps →
    st.accept = false ∧ st.guard = .null

end Verif.Psl
