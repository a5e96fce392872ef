import Verif.Psl.Guard

/-!
# What guards mean

Independent of the model: when a guard is true in a cycle.  `v` says which expressions of the
design are true in the cycle.
-/

namespace Verif.Psl

/-- The truth of a guard: the absent guard is always true. -/
def Guard.True (v : Nat → Bool) : Guard → Prop
  | .null => _root_.True
  | .expr p => v p = true
  | .not p => v p = false
  | .fls => False
  | .binop _ .and l r => l.True v ∧ r.True v
  | .binop _ .or l r => l.True v ∨ r.True v

/-- The guard contains the null pointer or `GUARD_FALSE` nowhere, so there is code for it. -/
def Guard.Plain : Guard → Prop
  | .null => False
  | .expr _ => _root_.True
  | .not _ => _root_.True
  | .fls => False
  | .binop _ _ l r => l.Plain ∧ r.Plain

/-- A comparison of guards that only calls guards the same that are true in the same cycles. -/
def SameSound (same : Guard → Guard → Bool) : Prop :=
  ∀ g1 g2, same g1 g2 = true → ∀ v, g1.True v ↔ g2.True v

/-- The edges of a state reach `dest` with kind `eps` in a cycle. -/
def Reaches (es : List Edge) (eps : Bool) (dest : Nat) (v : Nat → Bool) : Prop :=
  ∃ e ∈ es, e.eps = eps ∧ e.dest = dest ∧ e.guard.True v

end Verif.Psl
