/-!
# The objects that wait for an event on a nexus

Model of `sched_event` and `clear_event`, `/repo/src/rt/model.c` lines 2495-2551, of the list walked
by `notify_event` (2884-2894) and of the copy made by `clone_nexus` (1579-1594).

Objects are numbers.  The tagged pointer `n->pending` is one of three constructors.  Simplification:
`count` and `max` do not overflow.
-/

namespace Verif.Sim.Pending

/-- `PENDING_MIN`, rt/model.c 141. -/
def pendingMin : Nat := 4

/-- `n->pending`: null, a pointer with tag 1 to the only object, or a pointer to `rt_pending_t`
(rt/structs.h 108-112) with its array `wake` and allocated length `max`. -/
inductive Pending where
  | null
  | one (o : Nat)
  | arr (max : Nat) (wake : List (Option Nat))
  deriving DecidableEq, Repr

/-- The loop of rt/model.c 2516-2521. -/
def reuse (o : Nat) : List (Option Nat) → Option (List (Option Nat))
  | [] => none
  | x :: l => if x = none ∨ x = some o then some (some o :: l) else (reuse o l).map (x :: ·)

/-- Rt/model.c 2523-2528: the new `max`. -/
def grow (max count : Nat) : Nat := if count = max then Nat.max pendingMin (max * 2) else max

/-- `sched_event`, rt/model.c 2495-2532.  `none` if it would write outside the array. -/
def sched (o : Nat) : Pending → Option Pending
  | .null => some (.one o)
  | .one c => if c = o then some (.one c) else some (.arr pendingMin [some c, some o])
  | .arr max wake =>
    match reuse o wake with
    | some wake => some (.arr max wake)
    | none =>
      if wake.length < grow max wake.length then
        some (.arr (grow max wake.length) (wake ++ [some o]))
      else none

/-- The loop of rt/model.c 2543-2548. -/
def erase (o : Nat) : List (Option Nat) → List (Option Nat)
  | [] => []
  | x :: l => if x = some o then none :: l else x :: erase o l

/-- `clear_event`, rt/model.c 2534-2551. -/
def clear (o : Nat) : Pending → Pending
  | .null => .null
  | .one c => if c = o then .null else .one c
  | .arr max wake => .arr max (erase o wake)

/-- The copy for a new nexus, rt/model.c 1579-1594. -/
def clone : Pending → Pending
  | .arr _ wake => .arr wake.length wake
  | p => p

/-- The objects on which `notify_event` (rt/model.c 2884-2894) calls `wakeup_one`. -/
def notified : Pending → List Nat
  | .null => []
  | .one c => [c]
  | .arr _ wake => wake.filterMap id

/-- What happens to the pending objects of a nexus; `copied` is the copy becoming that of a new
nexus. -/
inductive Op where
  | sched (o : Nat)
  | clear (o : Nat)
  | copied
  deriving DecidableEq, Repr

def step (p : Pending) : Op → Option Pending
  | .sched o => sched o p
  | .clear o => some (clear o p)
  | .copied => some (clone p)

def run (p : Pending) (ops : List Op) : Option Pending := ops.foldlM step p

end Verif.Sim.Pending
