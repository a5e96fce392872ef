/-
What a case statement shall do, stated without any reference to the generated code
(IEEE 1076-2008, 10.9): the alternative that is executed is the one of whose choices one
covers the value of the expression, or else the alternative with the choice `others`.
-/
namespace Verif.Case

/-- A choice of a case statement over a scalar. -/
inductive Choice where
  | one (v : Int)
  | range (lo hi : Int)
  | others
  deriving DecidableEq, Repr

/-- The values that a choice stands for; `others` is dealt with by `Selected`. -/
def Choice.Covers : Choice → Int → Prop
  | .one x, v => v = x
  | .range lo hi, v => lo ≤ v ∧ v ≤ hi
  | .others, _ => False

/-- A choice of a case statement over an array of characters, given by the positions of the
elements. -/
inductive AChoice where
  | one (xs : List Nat)
  | others
  deriving DecidableEq, Repr

def AChoice.Covers : AChoice → List Nat → Prop
  | .one xs, v => v = xs
  | .others, _ => False

/-- Alternative `i` is the one for the value `v`, and it is its choice `j` that says so. -/
def Selected {C V : Type} (covers : C → V → Prop) (oth : C) (alts : List (List C)) (v : V)
    (i j : Nat) : Prop :=
  ∃ cs c, alts[i]? = some cs ∧ cs[j]? = some c ∧
    (covers c v ∨ (c = oth ∧ ∀ cs' ∈ alts, ∀ c' ∈ cs', ¬ covers c' v))

/-- No choice stands for the value. -/
def NoneSelected {C V : Type} (covers : C → V → Prop) (oth : C) (alts : List (List C)) (v : V) :
    Prop :=
  ∀ cs ∈ alts, ∀ c ∈ cs, ¬ covers c v ∧ c ≠ oth

/-- The rule that each value is represented once and only once: no value is covered by two
choices, and there is one `others` at the most. -/
def Disjoint {C V : Type} (covers : C → V → Prop) (oth : C) (alts : List (List C)) : Prop :=
  ∀ (i j i' j' : Nat) cs cs' c c',
    alts[i]? = some cs → cs[j]? = some c → alts[i']? = some cs' → cs'[j']? = some c' →
    ((∃ v, covers c v ∧ covers c' v) ∨ (c = oth ∧ c' = oth)) → i = i' ∧ j = j'

/-! ### The value of an array that is a choice -/

mutual
/-- An expression of an array type that can be a choice: a string literal, an aggregate with
an index range that starts at `left` and goes up or down, the name of a constant or alias, a
slice that starts at an offset. -/
inductive Arr where
  | str (chars : List Nat)
  | agg (left : Int) (up : Bool) (assocs : Assocs)
  | ref (value : Arr)
  | slice (base : Arr) (offset : Nat)

/-- The associations of an aggregate.  For those that have an array as their value its length
is known. -/
inductive Assocs where
  | nil
  | pos (x : Nat) (rest : Assocs)
  | concat (a : Arr) (len : Nat) (rest : Assocs)
  | named (index : Int) (x : Nat) (rest : Assocs)
  | range (left right : Int) (x : Nat) (rest : Assocs)
  | sliced (left right : Int) (a : Arr) (rest : Assocs)
  | others (x : Nat) (rest : Assocs)
end

/-- The offset of an index in an array. -/
def offsetOf (left : Int) (up : Bool) (index : Int) : Int :=
  if up then index - left else left - index

/-- One of the associations other than `others` stands for element `d`; the positional
associations that come before took `p` elements. -/
def Given (left : Int) (up : Bool) : Assocs → Nat → Nat → Prop
  | .nil, _, _ => False
  | .pos _ rest, p, d => d = p ∨ Given left up rest (p + 1) d
  | .concat _ len rest, p, d => (p ≤ d ∧ d < p + len) ∨ Given left up rest (p + len) d
  | .named i _ rest, p, d => offsetOf left up i = (d : Int) ∨ Given left up rest p d
  | .range l r _ rest, p, d =>
    (offsetOf left up l ≤ (d : Int) ∧ (d : Int) ≤ offsetOf left up r) ∨ Given left up rest p d
  | .sliced l r _ rest, p, d =>
    (offsetOf left up l ≤ (d : Int) ∧ (d : Int) ≤ offsetOf left up r) ∨ Given left up rest p d
  | .others _ rest, p, d => Given left up rest p d

mutual
/-- Element `d` (counted from the left) of the expression is `x`. -/
inductive Elem : Arr → Nat → Nat → Prop
  | str : chars[d]? = some x → Elem (.str chars) d x
  | agg : ElemA left up as 0 d x → Elem (.agg left up as) d x
  | aggOthers : ¬ Given left up as 0 d → Others as x → Elem (.agg left up as) d x
  | ref : Elem v d x → Elem (.ref v) d x
  | slice : Elem b (d + off) x → Elem (.slice b off) d x

/-- One of the associations other than `others` gives the value `x` to element `d`; the
positional associations that come before took `p` elements. -/
inductive ElemA : Int → Bool → Assocs → Nat → Nat → Nat → Prop
  | pos : ElemA left up (.pos x rest) p p x
  | posRest : ElemA left up rest (p + 1) d x → ElemA left up (.pos y rest) p d x
  | concat : k < len → Elem a k x → ElemA left up (.concat a len rest) p (p + k) x
  | concatRest : ElemA left up rest (p + len) d x → ElemA left up (.concat a len rest) p d x
  | named {i : Int} {d : Nat} : offsetOf left up i = (d : Int) → ElemA left up (.named i x rest) p d x
  | namedRest : ElemA left up rest p d x → ElemA left up (.named i y rest) p d x
  | range {l r : Int} {d : Nat} : offsetOf left up l ≤ (d : Int) → (d : Int) ≤ offsetOf left up r →
      ElemA left up (.range l r x rest) p d x
  | rangeRest : ElemA left up rest p d x → ElemA left up (.range l r y rest) p d x
  | sliced {l r : Int} {d k : Nat} : (d : Int) = offsetOf left up l + (k : Int) → (d : Int) ≤ offsetOf left up r →
      Elem a k x → ElemA left up (.sliced l r a rest) p d x
  | slicedRest : ElemA left up rest p d x → ElemA left up (.sliced l r a rest) p d x
  | othersRest : ElemA left up rest p d x → ElemA left up (.others y rest) p d x

/-- The value of the `others` association. -/
inductive Others : Assocs → Nat → Prop
  | here : Others (.others x rest) x
  | pos : Others rest x → Others (.pos y rest) x
  | concat : Others rest x → Others (.concat a len rest) x
  | named : Others rest x → Others (.named i y rest) x
  | range : Others rest x → Others (.range l r y rest) x
  | sliced : Others rest x → Others (.sliced l r a rest) x
end

end Verif.Case
