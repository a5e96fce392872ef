import Verif.Drivers.Spec

/-
Model of how drivers are found, src/driver.c, and of
`longest_static_prefix`, `same_tree` and `name_to_ref`, src/common.c.

Simplifications: trees are the names of the specification; the two chains of
driver records are lists, found by the process and by the declaration as with
the one hash table of the code (C12), whose keys are different objects.  A
declaration that is a parameter of a procedure is told by `isParam`.
-/

namespace Verif.Drivers

open Spec

/-- `is_static`, src/common.c:1717-1812, for the kinds of index. -/
def isStatic : Idx → Bool
  | .lit _ => true
  | .const _ => true
  | .call _ => true
  | .dyn _ => false

/-- `longest_static_prefix`, src/common.c:1829-1882; the comparison of
pointers is one of names. -/
def lsp : Name → Name
  | .index n is =>
    if lsp n ≠ n then lsp n
    else if is.all isStatic then .index n is
    else lsp n
  | .slice n dir l r =>
    if lsp n ≠ n then lsp n
    else if dir = .expr then lsp n
    else if !isStatic l || !isStatic r then lsp n
    else .slice n dir l r
  | .field n f =>
    if lsp n ≠ n then lsp n
    else .field n f
  | n => n

/-- `name_to_ref`, src/common.c:1470-1487. -/
def rootRef : Name → Option Nat
  | .ref d => some d
  | .index n _ => rootRef n
  | .slice n _ _ _ => rootRef n
  | .field n _ => rootRef n
  | _ => none

/-- `same_tree`, src/common.c:2611-2668, of two indexes: function calls are
never the same.  Variables, which would be, are not in static prefixes. -/
def sameIdx : Idx → Idx → Bool
  | .lit a, .lit b => a == b
  | .const a, .const b => a == b
  | _, _ => false

/-- The loop over the indexes, src/common.c:2628-2633. -/
def sameIdxs : List Idx → List Idx → Bool
  | [], [] => true
  | a :: as, b :: bs => sameIdx a b && sameIdxs as bs
  | _, _ => false

/-- `same_tree`, src/common.c:2611-2668, of two names. -/
def sameTree : Name → Name → Bool
  | .ref a, .ref b => a == b
  | .index a is, .index b js => sameTree a b && sameIdxs is js
  | .slice a d1 l1 r1, .slice b d2 l2 r2 =>
    sameTree a b && (decide (d1 = d2) && decide (d1 ≠ .expr)) && (sameIdx l1 l2 && sameIdx r1 r2)
  | .field a f, .field b g => f == g && sameTree a b
  | _, _ => false

/-- `driver_info_t`, src/driver.h. -/
structure Driver where
  decl : Option Nat
  pre : Name
  wher : Nat
  view : Option Nat
  tentative : Bool

/-- `driver_set_t`, src/driver.c:43-46: the chain of a process and the chain
of a declaration. -/
structure Set where
  proc : Nat → List Driver
  decl : Nat → List Driver

def empty : Set := ⟨fun _ => [], fun _ => []⟩

def isRef : Name → Bool
  | .ref _ => true
  | _ => false

def isExt : Name → Bool
  | .ext _ => true
  | _ => false

def update (f : Nat → List Driver) (k : Nat) (l : List Driver) : Nat → List Driver :=
  fun j => if j = k then l else f j

/-- The search in the chain of the process, src/driver.c:91-99. -/
def already (chain : List Driver) (w d : Nat) (p : Name) : Bool :=
  chain.any fun c =>
    decide (c.wher = w) && decide (c.decl = some d) && (isRef c.pre || sameTree p c.pre)

/-- `drives_signal`, src/driver.c:67-127, of a name.  An external name has no
declaration: the chain is not followed, and the record becomes the head. -/
def drivesName (isParam : Nat → Bool) (s : Set) (w : Nat) (n : Name) (view : Option Nat)
    (tent : Bool) : Set :=
  let p := lsp n
  match rootRef p with
  | some d =>
    if isParam d then s
    else if already (s.proc w) w d p then s
    else
      let di : Driver := ⟨some d, p, w, view, tent⟩
      ⟨update s.proc w (s.proc w ++ [di]), update s.decl d (s.decl d ++ [di])⟩
  | none =>
    if isExt p then
      let di : Driver := ⟨none, p, w, view, tent⟩
      ⟨update s.proc w [di], s.decl⟩
    else s

/-- `drives_signal`, src/driver.c:67-78, of any target. -/
def drivesSignal (isParam : Nat → Bool) (s : Set) (w : Nat) (e : Event) (tent : Bool) : Set :=
  match e.target with
  | .name n => drivesName isParam s w n e.view tent
  | .aggr ns => ns.foldl (fun s n => drivesName isParam s w n none tent) s

/-- The modes that `visit_port_map`, src/driver.c:199-208, and
`driver_proc_cb`, 154-168, take as driving. -/
def portEvent (m : Mode × Target) : Option Event :=
  match m.1 with
  | .out => some ⟨m.2, none⟩
  | .inout => some ⟨m.2, none⟩
  | .view v => some ⟨m.2, some v⟩
  | _ => none

/-- `visit_port_map`, src/driver.c:175-210. -/
def portMap (id : Nat) (map : List (Mode × Target)) (tent : Bool) : List (Nat × Event × Bool) :=
  (map.filterMap portEvent).map fun e => (id, e, tent)

mutual
/-- `visit_block`, src/driver.c:218-266: what is driven, in the order of the
calls of `drives_signal`. -/
def visitStmt (tent : Bool) : Stmt → List (Nat × Event × Bool)
  | .process id evs => evs.map fun e => (id, e, tent)
  | .inst id map => portMap id map tent
  | .block id map body => portMap id map tent ++ visitBlock tent body
  | .gen body => visitBlock true body

def visitBlock (tent : Bool) : List Stmt → List (Nat × Event × Bool)
  | [] => []
  | s :: ss => visitStmt tent s ++ visitBlock tent ss
end

/-- `find_drivers`, src/driver.c:268-292. -/
def findDrivers (isParam : Nat → Bool) (ss : List Stmt) : Set :=
  (visitBlock false ss).foldl (fun s x => drivesSignal isParam s x.1 x.2.1 x.2.2) empty

/-! ## has_unique_driver -/

/-- The length and the lowest index of the signal, src/driver.c:335-353. -/
def bounds : Shape → Int × Int
  | .array .to l r => (max (r - l + 1) 0, l)
  | .array .downto l r => (max (l - r + 1) 0, r)
  | .array .expr _ _ => (0, 0)
  | .record n => (n, 0)
  | .plain => (0, 0)

/-- The outcome of the second pass: give up, an access outside of the mask,
or the mask. -/
inductive Scan where
  | giveUp
  | outside
  | mask (m : Nat → Bool)

/-- `mask_test_range` and `mask_set_range`, src/mask.c (C11), with `count`
bits from `zero`. -/
def setRange (length : Int) (m : Nat → Bool) (zero count : Int) : Scan :=
  if zero < 0 ∨ length < zero + count then .outside
  else if (List.range count.toNat).any fun k => m (zero.toNat + k) then .giveUp
  else .mask fun i => m i || (decide (zero ≤ (i : Int)) && decide ((i : Int) < zero + count))

/-- One driver in the second pass, src/driver.c:361-419. -/
def scanOne (length low : Int) (m : Nat → Bool) : Name → Scan
  | .index (.ref _) [.lit v] => setRange length m (v - low) 1
  | .slice (.ref _) .to (.lit a) (.lit b) =>
    if b < a then .giveUp else setRange length m (a - low) (b - a + 1)
  | .slice (.ref _) .downto (.lit a) (.lit b) =>
    if a < b then .giveUp else setRange length m (b - low) (a - b + 1)
  | .field (.ref _) f => setRange length m f 1
  | _ => .giveUp

def scan (length low : Int) (m : Nat → Bool) : List Driver → Scan
  | [] => .mask m
  | e :: es =>
    match scanOne length low m e.pre with
    | .mask m2 => scan length low m2 es
    | r => r

/-- `mask_popcount`, src/mask.c (C11). -/
def popcount (length : Nat) (m : Nat → Bool) : Nat := ((List.range length).filter m).length

/-- `has_unique_driver`, src/driver.c:310-429, of the chain of a declaration:
`none` for an access outside of the mask. -/
def hasUnique (sh : Shape) (ds : List Driver) : Option Bool :=
  match ds with
  | [] => some false
  | d0 :: _ =>
    if ds.any (fun e => e.tentative) then some false
    else
      let sawMultiple := ds.any fun e => decide (e.wher ≠ d0.wher)
      let sawRef := ds.any fun e => decide (e.wher = d0.wher) && isRef e.pre
      if sawRef && !sawMultiple then some true
      else
        let b := bounds sh
        if b.1 = 0 then some false
        else match scan b.1 b.2 (fun _ => false) ds with
          | .giveUp => some false
          | .outside => none
          | .mask m => some (decide (popcount b.1.toNat m = b.1.toNat))

end Verif.Drivers
