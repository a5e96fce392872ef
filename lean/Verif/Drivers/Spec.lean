/-
Property C96: names of signals, what they stand for, and which processes
have drivers for what.  Nothing here refers to the model.
-/

namespace Verif.Drivers.Spec

/-- An index: a literal, a static constant or generic, a static function
call, or something whose value can change. -/
inductive Idx where
  | lit (v : Int)
  | const (d : Nat)
  | call (k : Nat)
  | dyn (k : Nat)
  deriving DecidableEq

/-- The direction of the range of a slice; `expr` is a range attribute. -/
inductive Dir where
  | to
  | downto
  | expr
  deriving DecidableEq

inductive Name where
  | ref (d : Nat)
  | ext (x : Nat)
  | other (k : Nat)
  | index (n : Name) (is : List Idx)
  | slice (n : Name) (dir : Dir) (l r : Idx)
  | field (n : Name) (f : Nat)
  deriving DecidableEq

/-- The values of what is static, after elaboration. -/
structure Static where
  const : Nat → Int
  call : Nat → Int

def Idx.val (ρ : Static) (σ : Nat → Int) : Idx → Int
  | .lit v => v
  | .const d => ρ.const d
  | .call k => ρ.call k
  | .dyn k => σ k

/-- The way to a part of a signal: elements and fields. -/
inductive Step where
  | idx (is : List Int)
  | fld (f : Nat)
  deriving DecidableEq

/-- How many elements and fields a name selects: a slice has the indexes of
its prefix. -/
def depth : Name → Nat
  | .ref _ => 0
  | .ext _ => 0
  | .other _ => 0
  | .index n _ => depth n + 1
  | .slice n _ _ _ => depth n
  | .field n _ => depth n + 1

def Between (dir : Dir) (l r i : Int) : Prop :=
  match dir with
  | .downto => r ≤ i ∧ i ≤ l
  | _ => l ≤ i ∧ i ≤ r

/-- The part at `p` belongs to what the name stands for in a state. -/
def Covers (ρ : Static) (σ : Nat → Int) : Name → List Step → Prop
  | .ref _, _ => True
  | .ext _, _ => True
  | .other _, _ => True
  | .index n is, p => Covers ρ σ n p ∧ p[depth n]? = some (.idx (is.map (Idx.val ρ σ)))
  | .slice n dir l r, p => Covers ρ σ n p ∧
      ∃ i : Int, p[depth n]? = some (.idx [i]) ∧ Between dir (l.val ρ σ) (r.val ρ σ) i
  | .field n f, p => Covers ρ σ n p ∧ p[depth n]? = some (.fld f)

/-- The object that a name is a part of. -/
def root : Name → Name
  | .index n _ => root n
  | .slice n _ _ _ => root n
  | .field n _ => root n
  | n => n

def StaticIdx : Idx → Prop
  | .dyn _ => False
  | _ => True

/-- A static name (LRM 08 section 8.1). -/
def StaticName : Name → Prop
  | .index n is => StaticName n ∧ ∀ i ∈ is, StaticIdx i
  | .slice n _ l r => StaticName n ∧ StaticIdx l ∧ StaticIdx r
  | .field n _ => StaticName n
  | _ => True

/-- No slice by a range attribute. -/
def NoExpr : Name → Prop
  | .index n _ => NoExpr n
  | .slice n dir _ _ => NoExpr n ∧ dir ≠ .expr
  | .field n _ => NoExpr n
  | _ => True

inductive IsPrefix : Name → Name → Prop where
  | refl (n : Name) : IsPrefix n n
  | index {m n : Name} (is : List Idx) : IsPrefix m n → IsPrefix m (.index n is)
  | slice {m n : Name} (dir : Dir) (l r : Idx) : IsPrefix m n → IsPrefix m (.slice n dir l r)
  | field {m n : Name} (f : Nat) : IsPrefix m n → IsPrefix m (.field n f)

/-- The longest static prefix (LRM 08 section 8.1). -/
def IsLongest (p n : Name) : Prop :=
  IsPrefix p n ∧ StaticName p ∧ ∀ q : Name, IsPrefix q n → StaticName q → IsPrefix q p

/-- The modes of ports. -/
inductive Mode where
  | in
  | out
  | inout
  | buffer
  | linkage
  | view (v : Nat)
  deriving DecidableEq

/-- A port of this mode is a source of the signal that it is associated
with (LRM 08 section 6.4.2.2 and 14.7). -/
def Source : Mode → Prop
  | .in => False
  | _ => True

/-- The bounds of a signal, as far as they are known. -/
inductive Shape where
  | array (dir : Dir) (left right : Int)
  | record (n : Nat)
  | plain
  deriving DecidableEq

/-- The first step to a part of a signal. -/
def Valid : Shape → List Step → Prop
  | .array .to l r, p => ∃ i : Int, p[0]? = some (.idx [i]) ∧ l ≤ i ∧ i ≤ r
  | .array .downto l r, p => ∃ i : Int, p[0]? = some (.idx [i]) ∧ r ≤ i ∧ i ≤ l
  | .array .expr _ _, _ => True
  | .record n, p => ∃ f : Nat, p[0]? = some (.fld f) ∧ f < n
  | .plain, _ => True

/-- Every part of a signal is driven, and by one process or instance:
`ds` has the place and the name of every driver. -/
def Unique (ρ : Static) (σ : Nat → Int) (sh : Shape) (ds : List (Nat × Name)) : Prop :=
  ∀ p : List Step, Valid sh p →
    (∃ e ∈ ds, Covers ρ σ e.2 p) ∧
    (∀ e ∈ ds, ∀ f ∈ ds, Covers ρ σ e.2 p → Covers ρ σ f.2 p → e.1 = f.1)

/-! ## Statements -/

/-- The target of an assignment, or the actual of a call or port map; the
parts of an aggregate are listed without regard to their nesting. -/
inductive Target where
  | name (n : Name)
  | aggr (ns : List Name)

/-- What a process drives: a target, with a mode view if it is associated
with a parameter that has one. -/
structure Event where
  target : Target
  view : Option Nat

/-- Concurrent statements; `gen` is a generate statement with the statements
of all its alternatives. -/
inductive Stmt where
  | process (id : Nat) (evs : List Event)
  | inst (id : Nat) (map : List (Mode × Target))
  | block (id : Nat) (map : List (Mode × Target)) (body : List Stmt)
  | gen (body : List Stmt)

/-- What is driven through a port that is associated. -/
def mapEvent (m : Mode) (t : Target) : Event :=
  match m with
  | .view v => ⟨t, some v⟩
  | _ => ⟨t, none⟩

/-- The process, instance or block `w` of the statements drives a target,
where `ok` tells which modes of ports are sources; it is tentative if it is
in a generate statement. -/
inductive Occurs (ok : Mode → Prop) : List Stmt → Nat → Event → Bool → Prop where
  | process (ss : List Stmt) (w : Nat) (evs : List Event) (e : Event) :
      Stmt.process w evs ∈ ss → e ∈ evs → Occurs ok ss w e false
  | inst (ss : List Stmt) (w : Nat) (map : List (Mode × Target)) (m : Mode) (t : Target) :
      Stmt.inst w map ∈ ss → (m, t) ∈ map → ok m → Occurs ok ss w (mapEvent m t) false
  | port (ss : List Stmt) (w : Nat) (map : List (Mode × Target)) (body : List Stmt)
      (m : Mode) (t : Target) :
      Stmt.block w map body ∈ ss → (m, t) ∈ map → ok m → Occurs ok ss w (mapEvent m t) false
  | block (ss : List Stmt) (id : Nat) (map : List (Mode × Target)) (body : List Stmt)
      (w : Nat) (e : Event) (t : Bool) :
      Stmt.block id map body ∈ ss → Occurs ok body w e t → Occurs ok ss w e t
  | gen (ss body : List Stmt) (w : Nat) (e : Event) (t : Bool) :
      Stmt.gen body ∈ ss → Occurs ok body w e t → Occurs ok ss w e true

def names : Target → List Name
  | .name n => [n]
  | .aggr ns => ns

end Verif.Drivers.Spec
