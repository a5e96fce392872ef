import Verif.Psl.Build

/-!
# What sequences mean

Independent of automata: which stretches of cycles a sequence describes (IEEE Std 1850, sequential
extended regular expressions).  `Match w p i j` says that `p` describes the cycles from `i` on, up to
but without `j`; `w i` says which expressions are true in cycle `i`.
-/

namespace Verif.Psl

/-- A relation between cycles `n` times in a row. -/
def Pow (M : Nat → Nat → Prop) : Nat → Nat → Nat → Prop
  | 0, i, j => i = j
  | n + 1, i, j => ∃ k, M i k ∧ Pow M n k j

/-- A relation between cycles some number of times in a row, from `low` on up to `high`. -/
def Repeated (M : Nat → Nat → Prop) (low : Nat) (high : Option Nat) (i j : Nat) : Prop :=
  ∃ n, low ≤ n ∧ (∀ h, high = some h → n ≤ h) ∧ Pow M n i j

/-- Up to the first cycle in which the expression is true. -/
def Goto (w : Nat → Nat → Bool) (p i j : Nat) : Prop :=
  i < j ∧ (∀ k, i ≤ k → k + 1 < j → w k p = false) ∧ w (j - 1) p = true

/-- Cycles in which the expression is false. -/
def Quiet (w : Nat → Nat → Bool) (p i j : Nat) : Prop :=
  i ≤ j ∧ ∀ k, i ≤ k → k < j → w k p = false

/-- The smallest number of repetitions. -/
def lowOf : RepKind → Count → Nat
  | .plus, _ => 1
  | .goto, .none => 1
  | _, .none => 0
  | _, .exact n => n
  | _, .range l _ => l

/-- The largest number of repetitions, if there is one; `inf` is the number 2147483647. -/
def highOf : RepKind → Count → Option Nat
  | .plus, _ => none
  | .goto, .none => some 1
  | _, .none => none
  | _, .exact n => some n
  | _, .range _ h => if h = 2147483647 then none else some h

mutual

/-- The stretches that a sequence describes. -/
def Match (w : Nat → Nat → Bool) : Psl → Nat → Nat → Prop
  | .expr p, i, j => j = i + 1 ∧ w i p = true
  | .sere false ops, i, j => MatchCat w ops i j
  | .sere true ops, i, j => MatchFuse w ops i j
  | .conj l r, i, j => Match w l i j ∧ Match w r i j
  | .rep kind count value, i, j =>
    match kind with
    | .plus => Repeated (Match w value) (lowOf .plus count) (highOf .plus count) i j
    | .times => Repeated (Match w value) (lowOf .times count) (highOf .times count) i j
    | .goto => ∃ p, value.asExpr = some p ∧
        Repeated (Goto w p) (lowOf .goto count) (highOf .goto count) i j
    | .equal => ∃ p, value.asExpr = some p ∧
        ∃ m, Repeated (Goto w p) (lowOf .equal count) (highOf .equal count) i m ∧ Quiet w p m j
  | .next _ _, _, _ => False
  | .suffix _ _ _, _, _ => False

/-- One after the other. -/
def MatchCat (w : Nat → Nat → Bool) : List Psl → Nat → Nat → Prop
  | [], i, j => i = j
  | p :: ps, i, j => ∃ k, Match w p i k ∧ MatchCat w ps k j

/-- One after the other, where the last cycle of one is the first cycle of the next. -/
def MatchFuse (w : Nat → Nat → Bool) : List Psl → Nat → Nat → Prop
  | [], i, j => i = j
  | [p], i, j => Match w p i j
  | p :: ps, i, j => ∃ k, Match w p i (k + 1) ∧ i ≤ k ∧ k < j ∧ MatchFuse w ps k j

end

mutual

/-- The sequences for which the construction is right: there is no conjunction, everything is
repeated at least once, and `[->]` has a count. -/
def Regular : Psl → Prop
  | .expr _ => True
  | .sere _ ops => ops ≠ [] ∧ RegularAll ops
  | .conj _ _ => False
  | .rep kind count value =>
    1 ≤ lowOf kind count ∧ (∀ h, highOf kind count = some h → lowOf kind count ≤ h) ∧
    (∀ n, count = .exact n → n < 2147483647) ∧ Regular value ∧
    (kind = .plus ∨ kind = .times ∨
      (((kind = .goto ∧ count ≠ .none) ∨ kind = .equal) ∧ ∃ p, value.asExpr = some p))
  | .next _ _ => False
  | .suffix _ _ _ => False

/-- All sequences of a list are regular. -/
def RegularAll : List Psl → Prop
  | [] => True
  | p :: ps => Regular p ∧ RegularAll ps

end

end Verif.Psl
