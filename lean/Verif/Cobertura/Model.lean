import Verif.Cobertura.Spec

/-
Model of the Cobertura report, src/cov/cov-export.c:29-270.

Simplifications: here the walk over the scopes is the list of what it does, a class
asked for and items added to it; names of files and the XML around the numbers
are left out; counts are not negative; the separator of directories is `/`.
-/

namespace Verif.Cobertura

open Spec

/-- `cobertura_line_t`, src/cov/cov-export.c:48-53. -/
structure Line where
  lineno : Nat
  hits : Nat
  branch : Bool
  bflags : Nat
  deriving DecidableEq

/-- The loop over all lines but the last, src/cov/cov-export.c:95-99; what is
done with the line found is `f`. -/
def updFirst (f : Line → Line) (n : Nat) : List Line → Option (List Line)
  | [] => none
  | l :: ls => if l.lineno = n then some (f l :: ls) else (updFirst f n ls).map (l :: ·)

/-- `cobertura_get_line`, src/cov/cov-export.c:87-112. -/
def update (f : Line → Line) (n : Nat) (ls : List Line) : List Line :=
  match ls.getLast? with
  | none => [f ⟨n, 0, false, 0⟩]
  | some l =>
    if l.lineno = n then ls.dropLast ++ [f l]
    else match updFirst f n ls.dropLast with
      | some r => r ++ [l]
      | none => ls ++ [f ⟨n, 0, false, 0⟩]

/-- What an item changes, src/cov/cov-export.c:124-140: `hits` has 32 bits. -/
def change (i : Item) (l : Line) : Line :=
  match i.kind with
  | .stmt => { l with hits := (l.hits + i.data) % 2 ^ 32 }
  | .branch =>
    { l with branch := true, bflags := if i.data > 0 then l.bflags ||| i.flags else l.bflags }
  | .other => l

/-- An item of a class, src/cov/cov-export.c:121-141. -/
def addItem (ls : List Line) (i : Item) : List Line :=
  match i.kind with
  | .other => ls
  | _ => update (change i) i.line ls

/-- What the walk does. -/
inductive Ev where
  | enter (cls : Text)
  | item (cls : Text) (i : Item)

abbrev Report := List (Text × List Line)

/-- `cobertura_get_class`, src/cov/cov-export.c:70-85. -/
def getClass (c : Text) (r : Report) : Report := if r.any (·.1 == c) then r else (c, []) :: r

/-- `cobertura_export_scope`, src/cov/cov-export.c:114-145. -/
def step (r : Report) : Ev → Report
  | .enter c => getClass c r
  | .item c i => r.map fun e => if e.1 = c then (e.1, addItem e.2 i) else e

def run (evs : List Ev) : Report := evs.foldl step []

/-- The numbers of the report. -/
structure Stats where
  nlines : Nat
  hitlines : Nat
  nbranches : Nat
  hitbranches : Nat
  deriving DecidableEq

/-- One line in `cobertura_class_stats`, src/cov/cov-export.c:152-161. -/
def lineStats (s : Stats) (l : Line) : Stats :=
  let h := if l.hits > 0 then s.hitlines + 1 else s.hitlines
  if l.branch then
    { s with hitlines := h, nbranches := s.nbranches + 1,
             hitbranches := if l.bflags.testBit 0 && l.bflags.testBit 1
               then s.hitbranches + 1 else s.hitbranches }
  else { s with hitlines := h }

/-- `cobertura_class_stats`, src/cov/cov-export.c:147-162. -/
def classStats (s : Stats) (ls : List Line) : Stats :=
  ls.foldl lineStats { s with nlines := s.nlines + ls.length }

/-- The totals, src/cov/cov-export.c:219-221. -/
def totals (r : Report) : Stats := r.foldl (fun s e => classStats s e.2) ⟨0, 0, 0, 0⟩

/-- The percentage of a line, src/cov/cov-export.c:184-186. -/
def percent (l : Line) : Nat :=
  (if l.bflags.testBit 0 then 50 else 0) + (if l.bflags.testBit 1 then 50 else 0)

/-- `get_relative_path`, src/cov/cov-export.c:29-41. -/
def relativePath (path : Text) (relative : Option Text) : Text :=
  match relative with
  | none => path
  | some r =>
    if path.head? = some 47 then
      if r.isPrefixOf path then (path.drop r.length).dropWhile (· == 47) else path
    else path

end Verif.Cobertura
