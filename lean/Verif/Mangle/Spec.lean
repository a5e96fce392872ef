/-
What names identify: the subprograms, types and design units of a design,
stated without the texts the compiler gives them.
-/

namespace Verif.Mangle.Spec

/-- IEEE Std 1076-2019, 15.4 and 4.2.1: basic identifiers, operator symbols and
extended identifiers, without the delimiters. -/
inductive Name where
  | basic (cs : List Char)
  | op (cs : List Char)
  | ext (cs : List Char)
  deriving DecidableEq, Repr

/-- A character which never stands in a basic identifier. -/
def Delim (c : Char) : Prop :=
  c = '.' ∨ c = '-' ∨ c = '(' ∨ c = '$' ∨ c = '"' ∨ c = '\\'

instance (c : Char) : Decidable (Delim c) := inferInstanceAs (Decidable (_ ∨ _))

def Digit (c : Char) : Prop := 48 ≤ c.toNat ∧ c.toNat ≤ 57

instance (c : Char) : Decidable (Digit c) := inferInstanceAs (Decidable (_ ∧ _))

/-- The names the claims are about: extended identifiers have no backslash. -/
def Name.WF : Name → Prop
  | .basic cs => cs ≠ [] ∧ ∀ c ∈ cs, ¬ Delim c
  | .op cs => '"' ∉ cs
  | .ext cs => '\\' ∉ cs

instance (n : Name) : Decidable n.WF := by
  cases n <;> unfold Name.WF <;> infer_instance

/-- The type of a parameter is known by its full name. -/
abbrev Ty := List Char

/-- The profile of a subprogram: the parameters (whether of class signal, and
the type), the type of the result of a function, and whether it is
predefined. -/
structure Sig where
  ports : List (Bool × Ty)
  result : Option Ty
  predef : Bool
  deriving DecidableEq, Repr

/-- The full name of a type does not begin with a digit. -/
def TyWF (t : Ty) : Prop := ∃ c r, t = c :: r ∧ ¬ Digit c

instance (t : Ty) : Decidable (TyWF t) :=
  match t with
  | [] => isFalse (by rintro ⟨c, r, h, _⟩; cases h)
  | c :: r => if h : Digit c then isFalse (by rintro ⟨_, _, h2, h3⟩; cases h2; exact h3 h)
    else isTrue ⟨c, r, rfl, h⟩

def Sig.WF (s : Sig) : Prop := (∀ p ∈ s.ports, TyWF p.2) ∧ ∀ t, s.result = some t → TyWF t

/-- One step into the design: a declarative region, or an architecture of an
entity (`dash`), or a subprogram. -/
inductive Elem where
  | unit (dash : Bool) (n : Name)
  | sub (n : Name) (s : Sig)
  deriving DecidableEq, Repr

def Elem.WF : Elem → Prop
  | .unit _ n => n.WF
  | .sub n s => n.WF ∧ s.WF

/-- A subprogram which has no profile to show: two declarations of its
designator in the same region are homographs, whatever they are
(12.3). -/
def Sig.bare (s : Sig) : Bool := s.ports.isEmpty && s.result.isNone && !s.predef

/-- What distinguishes the declarations of one region. -/
def Elem.key : Elem → Bool × Name × Option Sig
  | .unit d n => (d, n, none)
  | .sub n s => (false, n, if s.bare then none else some s)

/-- 15.4.3: in the text of an extended identifier a backslash is doubled. -/
def doubled : List Char → List Char
  | [] => []
  | c :: l => if c = '\\' then '\\' :: '\\' :: doubled l else c :: doubled l

end Verif.Mangle.Spec
