import Verif.Obj.IoProps2

/-
Loci, and what goes wrong with dependencies and roots.
-/

namespace Verif.Obj

/-! ### Loci -/

theorem forward_inj {sch : Schema} (hp : sch.Positive) (live : Nat → Bool) (os : List Object) : ∀ (w off x y z : Nat),
    forwardFrom sch live w off os x = some z → forwardFrom sch live w off os y = some z → x = y := by
  have ge : ∀ (os : List Object) (w off x z : Nat), forwardFrom sch live w off os x = some z → w ≤ z := by
    intro os w off x z h
    rw [forwardFrom_eq hp] at h
    split at h
    · cases h; omega
    · cases h
  induction os with
  | nil => intro w off x y z h; simp [forwardFrom] at h
  | cons o os ih =>
    intro w off x y z hx hy
    have hpos := hp.size o
    rw [forwardFrom] at hx hy
    cases hl : live off with
    | true =>
      rw [hl] at hx hy
      simp only [if_true] at hx hy
      split at hx
      · next e =>
        cases hx
        split at hy
        · next e' => rw [e, e']
        · have := ge _ _ _ _ _ hy; omega
      · split at hy
        · cases hy
          have := ge _ _ _ _ _ hx; omega
        · exact ih _ _ _ _ _ hx hy
    | false =>
      rw [hl] at hx hy
      simp only [Bool.false_eq_true, if_false] at hx hy
      split at hx
      · cases hx
      · split at hy
        · cases hy
        · exact ih _ _ _ _ _ hx hy

/-- The locus of a living object leads back to it in the process that made the
    arena. -/
theorem locus_same {sch : Schema} (hp : sch.Positive) (k : Nat) (u : Unit) (x : Nat) (o : Object)
    (ho : At sch u.objects x o) (off : Nat) (hoff : offsetInFile (freeze sch k u) x = some off) :
    fromLocus sch (freeze sch k u) (locus (freeze sch k u) x) = some x := by
  have hf : (freeze sch k u).forward = some (forwardFrom sch (markAll sch k u.objects) 0 0 u.objects) := rfl
  rw [locus, stored_eq hoff]
  unfold offsetInFile at hoff
  unfold fromLocus
  rw [hf] at hoff ⊢
  simp only at hoff ⊢
  have hx : x < used sch (freeze sch k u).objects := by
    have h4 : x + sch.size o ≤ 0 + used sch u.objects := walk_le _ 0 _ (at_walk.mp ho)
    have := hp.size o
    show x < used sch u.objects
    omega
  cases hfind : (List.range (used sch (freeze sch k u).objects)).find? fun i =>
      decide (forwardFrom sch (markAll sch k u.objects) 0 0 u.objects i = some off) with
  | none =>
    have := List.find?_eq_none.mp hfind x (List.mem_range.mpr hx)
    simp [hoff] at this
  | some y =>
    have := List.find?_some hfind
    rw [forward_inj hp _ _ _ _ _ _ _ hoff (of_decide_eq_true this)]

/-- In a process that has read the arena the locus leads to the place of the
    object. -/
theorem locus_copied {sch : Schema} (w v : World) (κ : Nat → Option Nat) (hc : Copied sch w v κ) (d d' : Nat)
    (hd : κ d = some d') (u u' : Unit) (hu : w.get d = some u) (hu' : v.get d' = some u') (hdisk : u'.forward = none)
    (x : Nat) (o : Object) (ho : At sch u.objects x o) (off : Nat) (hoff : offsetInFile u x = some off) :
    ∃ o' y, fromLocus sch u' (locus u x) = some y ∧ place w κ ⟨d, x⟩ = some ⟨d', y⟩ ∧ At sch u'.objects y o' ∧
      ObjectImage (place w κ) o o' := by
  obtain ⟨u1, u2, h1, h2, h3⟩ := hc d d' hd
  rw [hu] at h1; cases h1
  rw [hu'] at h2; cases h2
  obtain ⟨o', ho', hi⟩ := h3 x o off ho hoff
  refine ⟨o', off, ?_, ?_, ho', hi⟩
  · unfold fromLocus
    rw [hdisk, locus, stored_eq hoff]
  · simp [place, hd, hu, hoff]

/-! ### The root -/

/-- If the root is the first object of the arena, then it is what `object_read`
    returns. -/
theorem read_root_partial {sch : Schema} (hp : sch.Positive) (w : World) (k self : Nat) (u : Unit)
    (hs : Sound sch k u.objects) (hget : w.get k = some (freeze sch k u)) (κ : Nat → Option Nat)
    (o : Object) (post : List Object) (ho : u.objects = o :: post) (hr : sch.root o.tag o.kind = true) :
    place w (fun d => if d = k then some self else κ d) ⟨k, 0⟩ = some ⟨self, 0⟩ := by
  have hat : At sch u.objects 0 o := ⟨[], post, ho, rfl⟩
  have hal := Alive.root (key := k) hat hr
  have hm := (markAll_iff hp k _ hs 0).mpr hal
  have : offsetInFile (freeze sch k u) 0 = some 0 := by
    show forwardFrom sch (markAll sch k u.objects) 0 0 u.objects 0 = some 0
    rw [ho] at hm ⊢
    rw [forwardFrom, hm]
    simp
  simp [place, hget, this]

/-! ### Examples -/

/-- A loader for a process in which everything has been loaded. -/
def noLoader : World → Name → Option (World × Nat) := fun _ _ => none

/-- Refers to the object at 4 in the other arena, the last one. -/
def secondUnit : Unit :=
  { Unit.new 4096 0 true with
    objects := [⟨0, 0, 11, [.ident (some [66]), .array (some [some ⟨1, 4⟩])]⟩], root := some 0, deps := [1] }

def sampleWorld : World := [freeze sample 1 sampleUnit, freeze sample 2 secondUnit]

def tokensOf : Written → List Tok
  | .tokens l => l
  | .fatal => []

def firstTokens : List Tok := tokensOf (objectWrite sample 5 0 sampleWorld 1 0)
def secondTokens : List Tok := tokensOf (objectWrite sample 5 0 sampleWorld 2 0)

/-- The world after reading a file. -/
def worldOf : Rd (World × Ptr) → Option World
  | .ok r _ => some r.1
  | _ => none

def lookup (sch : Schema) (v : World) (p : Ptr) : Option Object :=
  (v.get p.key).bind fun u => objectAt sch u.objects p.off

/-- An element of the second item. -/
def element (o : Object) (n : Nat) : Option Ptr :=
  match o.items with
  | [_, .array (some l)] => (l[n]?).bind id
  | _ => none

/-- The location of what an element of the second item refers to. -/
def follow (sch : Schema) (v : World) (key x n : Nat) : Option Nat :=
  (lookup sch v ⟨key, x⟩).bind fun o => (element o n).bind fun p => (lookup sch v p).map (·.loc)

example : follow sample sampleWorld 2 0 0 = some 10 := by decide

example : ((worldOf (objectRead sample noLoader 5 0 [] firstTokens)).bind fun v =>
    (worldOf (objectRead sample noLoader 5 0 v secondTokens)).bind fun v => follow sample v 2 0 0) = some 10 := by
  decide

theorem sample_positive : sample.Positive := by
  intro t k; simp only [sample]; split <;> omega

theorem sample_writable : Writable sample sampleWorld 1 sampleUnit where
  here := ⟨by decide, rfl⟩
  fresh := rfl
  current := rfl
  sound := sound_of_check (by decide)
  typed := by
    intro o ho
    have : o = sampleObjects[0] ∨ o = sampleObjects[1] ∨ o = sampleObjects[2] ∨ o = sampleObjects[3] := by
      simpa [sampleUnit, sampleObjects] using ho
    rcases this with rfl | rfl | rfl | rfl <;> exact ⟨by decide, by decide, by decide, by decide⟩
  others := by
    intro x o p ho _ hm hne
    have h : (walk sample 0 sampleUnit.objects).all (fun q => (q.2.items.flatMap Item.refs).all fun r => r.key == 1) =
        true := by decide
    have h1 := List.all_eq_true.mp h _ (at_walk.mp ho)
    have h2 := List.all_eq_true.mp h1 _ (mentions_refs.mpr hm)
    exact absurd (by simpa using h2) hne
  deps := by decide

/-- The hypotheses of `write_read` hold for the first arena. -/
example : ∃ toks, objectWrite sample 5 0 sampleWorld 1 0 = .tokens toks ∧ ∀ rest, ∃ v3,
    objectRead sample noLoader 5 0 [] (toks ++ rest) = .ok (v3, ⟨1, 0⟩) rest ∧
      Copied sample sampleWorld v3 (fun d => if d = 1 then some 1 else none) := by
  obtain ⟨toks, h1, h2⟩ := write_read sample_positive (by intro t; simp [sample]) noLoader 5 0 0 (Nat.le_refl _) sampleWorld []
    _ 1 sampleUnit sample_writable (fun _ => none) rfl (by simp) .nil (by intro d d' h; cases h)
  refine ⟨toks, h1, fun rest => ?_⟩
  obtain ⟨v3, _, _, h3, h4, _⟩ := h2 rest
  exact ⟨v3, h3, h4⟩

/-! ### What goes wrong -/

/-- The arenas of a process that has analysed the first unit again: the same
    objects, and so the same file and the same checksum. -/
def reanalysed : World := [freeze sample 1 sampleUnit]

/-- The second unit is read in a process that has analysed the first one itself:
    the references are to the places in the file, but that arena has never been
    in a file.  Everything is accepted, and a reference is to another object. -/
theorem fresh_dependency_counterexample :
    objectWrite sample 5 0 sampleWorld 2 0 = .tokens secondTokens ∧
    tokensOf (objectWrite sample 5 0 reanalysed 1 0) = firstTokens ∧
    (worldOf (objectRead sample noLoader 5 0 reanalysed secondTokens)).isSome = true ∧
    follow sample sampleWorld 2 0 0 = some 10 ∧
    ((worldOf (objectRead sample noLoader 5 0 reanalysed secondTokens)).bind fun v => follow sample v 2 0 0) = some 9 := by
  decide

/-- An object that is not a root and is alive before the root. -/
def lateRoot : Unit :=
  { Unit.new 4096 0 true with
    objects := [⟨0, 1, 8, [.object none]⟩, ⟨0, 0, 7, [.ident (some [65]), .array (some [some ⟨1, 0⟩])]⟩]
    root := some 1 }

def kindAt (sch : Schema) (v : World) (p : Ptr) : Option Nat :=
  (lookup sch v p).map (·.kind)

/-- The kind of the object that has been returned. -/
def returnedKind (sch : Schema) : Rd (World × Ptr) → Option Nat
  | .ok r _ => kindAt sch r.1 r.2
  | _ => none

/-- `object_write` wants the root, but `object_read` returns the first object. -/
theorem read_root_counterexample : ∃ toks,
    objectWrite sample 5 0 [freeze sample 1 lateRoot] 1 1 = .tokens toks ∧
    kindAt sample [freeze sample 1 lateRoot] ⟨1, 1⟩ = some 0 ∧
    returnedKind sample (objectRead sample noLoader 5 0 [] toks) = some 1 := by
  refine ⟨tokensOf (objectWrite sample 5 0 [freeze sample 1 lateRoot] 1 1), by decide, by decide, by decide⟩

/-- Refers to the object at 2 of the first arena, which was not alive when that was
    frozen. -/
def deadReference : Unit :=
  { Unit.new 4096 0 true with
    objects := [⟨0, 0, 11, [.ident (some [66]), .array (some [some ⟨1, 2⟩])]⟩], root := some 0, deps := [1] }

def isUb : Rd (World × Ptr) → Bool
  | .ub => true
  | _ => false

/-- A reference to a dead object is written nevertheless, and fails when it is
    read. -/
theorem dead_reference_counterexample : ∃ toks,
    objectWrite sample 5 0 [freeze sample 1 sampleUnit, freeze sample 2 deadReference] 2 0 = .tokens toks ∧
    ((worldOf (objectRead sample noLoader 5 0 [] firstTokens)).map fun v =>
      isUb (objectRead sample noLoader 5 0 v toks)) = some true := by
  refine ⟨tokensOf (objectWrite sample 5 0 [freeze sample 1 sampleUnit, freeze sample 2 deadReference] 2 0),
    by decide, by decide⟩

end Verif.Obj
