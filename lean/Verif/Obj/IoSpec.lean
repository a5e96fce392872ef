import Verif.Obj.GcProps

/-
What it means that an arena has been copied into another process.
-/

namespace Verif.Obj

/-- Element by element. -/
inductive All2 {α β : Type} (R : α → β → Prop) : List α → List β → Prop
  | nil : All2 R [] []
  | cons {a b as bs} : R a b → All2 R as bs → All2 R (a :: as) (b :: bs)

/-- NULL stays NULL, and other pointers are moved by `φ`. -/
inductive RefImage (φ : Ptr → Option Ptr) : Option Ptr → Option Ptr → Prop
  | null : RefImage φ none none
  | ref {p q} : φ p = some q → RefImage φ (some p) (some q)

/-- A NULL array and an empty one are the same. -/
inductive ItemImage (φ : Ptr → Option Ptr) : Item → Item → Prop
  | ident (n) : ItemImage φ (.ident n) (.ident n)
  | object {p q} : RefImage φ p q → ItemImage φ (.object p) (.object q)
  | array {a b} : All2 (RefImage φ) (a.getD []) (b.getD []) → ItemImage φ (.array a) (.array b)
  | int (v) : ItemImage φ (.int v) (.int v)
  | double (v) : ItemImage φ (.double v) (.double v)
  | text (s) : ItemImage φ (.text s) (.text s)
  | number (x) : ItemImage φ (.number x) (.number x)

/-- The same object but for the pointers. -/
structure ObjectImage (φ : Ptr → Option Ptr) (o o' : Object) : Prop where
  tag : o'.tag = o.tag
  kind : o'.kind = o.kind
  loc : o'.loc = o.loc
  items : All2 (ItemImage φ) o.items o'.items

/-- The offset that an object of an arena has in a file; none if it is dead. -/
def offsetInFile (u : Unit) (x : Nat) : Option Nat :=
  match u.forward with
  | some f => f x
  | none => some x

/-- Where the objects of the arenas are, if that with key `d` has been read as
    `κ d`. -/
def place (w : World) (κ : Nat → Option Nat) (p : Ptr) : Option Ptr :=
  (κ p.key).bind fun d' => (w.get p.key).bind fun u => (offsetInFile u p.off).map fun off => ⟨d', off⟩

/-- Every arena of `w` that has been read is in `w'` as it was: its objects are at
    their places, and their pointers are to the places of what they were to. -/
def Copied (sch : Schema) (w w' : World) (κ : Nat → Option Nat) : Prop :=
  ∀ d d', κ d = some d' → ∃ u u', w.get d = some u ∧ w'.get d' = some u' ∧
    ∀ x o off, At sch u.objects x o → offsetInFile u x = some off →
      ∃ o', At sch u'.objects off o' ∧ ObjectImage (place w κ) o o'

/-- The objects have the items that belong to their kind. -/
structure WellTyped (sch : Schema) (o : Object) : Prop where
  tag : o.tag < 4
  kind : o.kind < sch.lastKind o.tag
  fields : o.items.map Item.field = sch.items o.tag o.kind
  loc : sch.hasLoc o.tag = false → o.loc = 0

/-- The dependencies are found one after the other as `κ` says, and they have the
    right standard and checksum. -/
inductive Finds (sch : Schema) (loader : World → Name → Option (World × Nat)) (w : World) (κ : Nat → Option Nat) :
    World → List Nat → World → Prop
  | nil {v} : Finds sch loader w κ v [] v
  | cons {v v1 v2 d d' u u' ds} : w.get d = some u → findDep sch loader v (arenaName sch u) = some (v1, d') →
      κ d = some d' → v <+: v1 → v1.get d' = some u' → u'.std = u.std → u'.checksum = u.checksum →
      Finds sch loader w κ v1 ds v2 → Finds sch loader w κ v (d :: ds) v2

end Verif.Obj
