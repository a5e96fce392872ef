import Verif.Hash.ChashModel

/-!
# What a map that many threads share has to do

Said in terms of calls, returns and the order of the moments at which values are stored only.
-/

namespace Verif.Hash.Chash

/-- The value that `k` has after the events `tr`: the one stored last. -/
def lastWrite (tr : List Label) (k : Nat) : Option Nat :=
  tr.foldl (fun o l => match l with
    | .write _ k' v => if k' = k then some v else o
    | _ => o) none

/-- The event is a call, a return or a store of thread `x`. -/
def Label.of (x : Nat) : Label → Bool
  | .callPut y _ _ => y == x
  | .write y _ _ => y == x
  | .retPut y => y == x
  | .callGet y _ => y == x
  | .retGet y _ => y == x
  | _ => false

/-- The call of an operation. -/
def callOf (x : Nat) : Op → Label
  | .put k v => .callPut x k v
  | .get k => .callGet x k

/-- Thread `x` is in the operation `o` and has stored nothing yet. -/
def Open (tr : List Label) (x : Nat) (o : Op) : Prop :=
  ∃ p q, tr = p ++ callOf x o :: q ∧ ∀ l ∈ q, l.of x = false

/-- Thread `x` is in `chash_put` and has stored its value, once. -/
def Written (tr : List Label) (x k v : Nat) : Prop :=
  ∃ p q w, tr = p ++ .callPut x k v :: (q ++ .write x k v :: w) ∧
    (∀ l ∈ q, l.of x = false) ∧ ∀ l ∈ w, l.of x = false

/-- Thread `x` is in `chash_get (k)` and at some moment since it was called `k` had the value
`o`. -/
def Seen (tr : List Label) (x k : Nat) (o : Option Nat) : Prop :=
  ∃ p q w, tr = p ++ .callGet x k :: (q ++ w) ∧ (∀ l ∈ q ++ w, l.of x = false) ∧
    lastWrite (p ++ .callGet x k :: q) k = o

/-- No value was overwritten while the table was being copied. -/
def Clean (tr : List Label) : Prop := ∀ x k, Label.race x k ∉ tr

end Verif.Hash.Chash
