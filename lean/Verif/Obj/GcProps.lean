import Verif.Obj.Lemmas

/-
What is alive when an arena is frozen, and where it goes.
-/

namespace Verif.Obj

/-! ### Specification -/

/-- The object `o` is at offset `x` of an arena with the objects `os`. -/
def At (sch : Schema) (os : List Object) (x : Nat) (o : Object) : Prop :=
  ∃ pre post, os = pre ++ o :: post ∧ x = (pre.map sch.size).sum

/-- The object refers to `p`. -/
def Mentions (o : Object) (p : Ptr) : Prop :=
  .object (some p) ∈ o.items ∨ ∃ l, .array (some l) ∈ o.items ∧ some p ∈ l

/-- Roots are alive, and so is what a living object of the arena refers to. -/
inductive Alive (sch : Schema) (key : Nat) (os : List Object) : Nat → Prop
  | root {x o} : At sch os x o → sch.root o.tag o.kind = true → Alive sch key os x
  | ref {x o y} : Alive sch key os x → At sch os x o → Mentions o ⟨key, y⟩ → Alive sch key os y

/-- A reference within the arena is to an object. -/
def Sound (sch : Schema) (key : Nat) (os : List Object) : Prop :=
  ∀ x o y, At sch os x o → Mentions o ⟨key, y⟩ → ∃ o', At sch os y o'

/-! ### Addresses -/

theorem walk_append {sch : Schema} (a b : List Object) : ∀ off,
    walk sch off (a ++ b) = walk sch off a ++ walk sch (off + (a.map sch.size).sum) b := by
  induction a with
  | nil => intro off; simp [walk]
  | cons o a ih =>
    intro off
    simp only [List.cons_append, walk, ih, List.map_cons, List.sum_cons]
    rw [Nat.add_assoc]

theorem mem_walk_iff {sch : Schema} (os : List Object) : ∀ (off x : Nat) (o : Object),
    (x, o) ∈ walk sch off os ↔ ∃ pre post, os = pre ++ o :: post ∧ x = off + (pre.map sch.size).sum := by
  induction os with
  | nil => intro off x o; simp [walk]
  | cons a os ih =>
    intro off x o
    simp only [walk, List.mem_cons, Prod.mk.injEq, ih]
    constructor
    · rintro (⟨rfl, rfl⟩ | ⟨pre, post, rfl, rfl⟩)
      · exact ⟨[], os, rfl, by simp⟩
      · exact ⟨a :: pre, post, rfl, by simp [Nat.add_assoc]⟩
    · rintro ⟨pre, post, e, hx⟩
      cases pre with
      | nil =>
        simp only [List.nil_append, List.cons.injEq] at e
        exact .inl ⟨by simpa using hx, e.1.symm⟩
      | cons p pre =>
        simp only [List.cons_append, List.cons.injEq] at e
        refine .inr ⟨pre, post, e.2, ?_⟩
        rw [hx, e.1]; simp [Nat.add_assoc]

theorem at_walk {sch : Schema} {os : List Object} {x : Nat} {o : Object} : At sch os x o ↔ (x, o) ∈ walk sch 0 os := by
  rw [mem_walk_iff]; simp [At]

theorem at_objectAt {sch : Schema} (hp : sch.Positive) {os : List Object} {x : Nat} {o : Object} :
    At sch os x o ↔ objectAt sch os x = some o := by rw [at_walk, objectAt_iff hp]

/-! ### Marks -/

theorem mentions_refs {o : Object} {p : Ptr} : p ∈ o.items.flatMap Item.refs ↔ Mentions o p := by
  simp only [List.mem_flatMap, Mentions]
  constructor
  · rintro ⟨i, hi, hp⟩
    match i with
    | .object (some q) =>
      simp only [Item.refs, List.mem_singleton] at hp
      exact .inl (hp ▸ hi)
    | .array (some l) =>
      simp only [Item.refs, List.mem_filterMap, id_eq, exists_eq_right] at hp
      exact .inr ⟨l, hi, hp⟩
    | .object none => simp [Item.refs] at hp
    | .array none => simp [Item.refs] at hp
    | .ident _ => simp [Item.refs] at hp
    | .int _ => simp [Item.refs] at hp
    | .double _ => simp [Item.refs] at hp
    | .text _ => simp [Item.refs] at hp
    | .number _ => simp [Item.refs] at hp
  · rintro (h | ⟨l, hl, hp⟩)
    · exact ⟨_, h, by simp [Item.refs]⟩
    · exact ⟨_, hl, by simp [Item.refs, hp]⟩

theorem refsIn_iff {sch : Schema} (hp : sch.Positive) {key : Nat} {os : List Object} {x y : Nat} :
    y ∈ refsIn sch key os x ↔ ∃ o, At sch os x o ∧ Mentions o ⟨key, y⟩ := by
  unfold refsIn
  cases h : objectAt sch os x with
  | none =>
    simp only [List.not_mem_nil, false_iff]
    rintro ⟨o, ho, _⟩
    rw [at_objectAt hp, h] at ho; cases ho
  | some o =>
    simp only [List.mem_map, List.mem_filter, beq_iff_eq]
    constructor
    · rintro ⟨p, ⟨hm, rfl⟩, rfl⟩
      exact ⟨o, (at_objectAt hp).mpr h, mentions_refs.mp hm⟩
    · rintro ⟨o', ho, hm⟩
      rw [at_objectAt hp, h] at ho
      cases ho
      exact ⟨⟨key, y⟩, ⟨mentions_refs.mpr hm, rfl⟩, rfl⟩

theorem path_alive {sch : Schema} (hp : sch.Positive) {key : Nat} {os : List Object} {x y : Nat}
    (h : Path (refsIn sch key os) x y) (hx : Alive sch key os x) : Alive sch key os y := by
  induction h with
  | refl => exact hx
  | step hr _ ih =>
    obtain ⟨o, ho, hm⟩ := (refsIn_iff hp).mp hr
    exact ih (.ref hx ho hm)

/-- The marks are what is alive. -/
theorem markAll_iff {sch : Schema} (hp : sch.Positive) (key : Nat) (os : List Object) (hs : Sound sch key os) (x : Nat) :
    markAll sch key os x = true ↔ Alive sch key os x := by
  let offs := (walk sch 0 os).map (·.1)
  let refs := refsIn sch key os
  have hoffs : ∀ y, y ∈ offs ↔ ∃ o, At sch os y o := by
    intro y
    simp only [offs, List.mem_map, at_walk]
    constructor
    · rintro ⟨⟨a, o⟩, h, rfl⟩; exact ⟨o, h⟩
    · rintro ⟨o, h⟩; exact ⟨(y, o), h, rfl⟩
  have hv : ∀ x ∈ offs, ∀ y ∈ refs x, y ∈ offs := by
    intro x _ y hy
    obtain ⟨o, ho, hm⟩ := (refsIn_iff hp).mp hy
    exact (hoffs y).mpr (hs x o y ho hm)
  have hlen : ∀ m, unmarked offs m < os.length + 1 := by
    intro m
    have : unmarked offs m ≤ offs.length := List.countP_le_length
    have h2 : offs.length = os.length := by simp [offs, walk_length]
    omega
  -- the loop
  have loop : ∀ (l : List (Nat × Object)) (m : Nat → Bool), (∀ p ∈ l, p ∈ walk sch 0 os) →
      (∀ y, m y = true → Alive sch key os y ∧ ∀ z ∈ refs y, m z = true) →
      let m' := l.foldl (fun m p => if sch.isRoot p.2 then markFrom refs (os.length + 1) m p.1 else m) m
      (∀ y, m y = true → m' y = true) ∧ (∀ y, m' y = true → Alive sch key os y ∧ ∀ z ∈ refs y, m' z = true) ∧
        (∀ p ∈ l, sch.isRoot p.2 = true → m' p.1 = true) := by
    intro l
    induction l with
    | nil => intro m _ hm; exact ⟨fun _ h => h, hm, by simp⟩
    | cons a l ih =>
      intro m hl hm
      obtain ⟨x, o⟩ := a
      simp only [List.foldl_cons]
      have hat : At sch os x o := at_walk.mpr (hl _ (by simp))
      cases hr : sch.isRoot o with
      | false =>
        simp only [Bool.false_eq_true, if_false]
        obtain ⟨h1, h2, h3⟩ := ih m (fun p hp' => hl p (by simp [hp'])) hm
        refine ⟨h1, h2, fun p hp' hrp => ?_⟩
        rcases List.mem_cons.mp hp' with rfl | hp'
        · rw [hr] at hrp; cases hrp
        · exact h3 p hp' hrp
      | true =>
        simp only [if_true]
        have hpost := markFrom_post refs offs hv (os.length + 1) m x ((hoffs x).mpr ⟨o, hat⟩) (hlen m)
        have hm' : ∀ y, markFrom refs (os.length + 1) m x y = true →
            Alive sch key os y ∧ ∀ z ∈ refs y, markFrom refs (os.length + 1) m x z = true := by
          intro y hy
          cases hmy : m y with
          | true =>
            obtain ⟨h1, h2⟩ := hm y hmy
            exact ⟨h1, fun z hz => hpost.mono z (h2 z hz)⟩
          | false =>
            obtain ⟨_, x', rfl, p⟩ := hpost.reach y hy hmy
            exact ⟨path_alive hp p (.root hat hr), hpost.closed y hy hmy⟩
        obtain ⟨h1, h2, h3⟩ := ih _ (fun p hp' => hl p (by simp [hp'])) hm'
        refine ⟨fun y hy => h1 y (hpost.mono y hy), h2, fun p hp' hrp => ?_⟩
        rcases List.mem_cons.mp hp' with rfl | hp'
        · exact h1 x (hpost.start x rfl)
        · exact h3 p hp' hrp
  obtain ⟨_, h2, h3⟩ := loop (walk sch 0 os) (fun _ => false) (fun p h => h) (by simp)
  constructor
  · intro h; exact (h2 x h).1
  · intro h
    induction h with
    | root ho hr => exact h3 _ (at_walk.mp ho) hr
    | ref hx ho hm ih => exact (h2 _ ih).2 _ ((refsIn_iff hp).mpr ⟨_, ho, hm⟩)

/-! ### The property -/

/-- What is alive keeps an address in the file, and nothing else does. -/
theorem gc_alive {sch : Schema} (hp : sch.Positive) (key : Nat) (u : Unit) (hs : Sound sch key u.objects) :
    ∃ f, (freeze sch key u).forward = some f ∧ ∀ x, (f x).isSome = true ↔ Alive sch key u.objects x := by
  refine ⟨_, rfl, fun x => ?_⟩
  rw [forwardFrom_eq hp]
  constructor
  · intro h
    split at h
    · next hc => exact (markAll_iff hp key _ hs x).mp hc.1
    · cases h
  · intro h
    have h1 := (markAll_iff hp key _ hs x).mpr h
    have h2 : x ∈ (walk sch 0 u.objects).map (·.1) := by
      have : ∃ o, At sch u.objects x o := by
        cases h with
        | root ho _ => exact ⟨_, ho⟩
        | ref _ ho hm => exact hs _ _ _ ho hm
      obtain ⟨o, ho⟩ := this
      exact List.mem_map.mpr ⟨(x, o), at_walk.mp ho, rfl⟩
    rw [if_pos ⟨h1, h2⟩]; rfl

theorem live_filter {sch : Schema} (hp : sch.Positive) (live : Nat → Bool) (os : List Object) :
    (walk sch 0 os).filter (fun p => (forwardFrom sch live 0 0 os p.1).isSome) =
      (walk sch 0 os).filter fun p => live p.1 := by
  apply List.filter_congr
  intro p hpm
  rw [forwardFrom_eq hp]
  have : p.1 ∈ (walk sch 0 os).map (·.1) := List.mem_map.mpr ⟨p, hpm, rfl⟩
  cases live p.1 <;> simp_all

/-- The objects that are written are those that are alive, in the same order: the
    address of each is where it is among them. -/
theorem gc_forward {sch : Schema} (hp : sch.Positive) (key : Nat) (u : Unit) (hs : Sound sch key u.objects)
    (x : Nat) (o : Object) (ho : At sch u.objects x o) (ha : Alive sch key u.objects x) :
    ∃ f w, (freeze sch key u).forward = some f ∧ f x = some w ∧ At sch (liveObjects sch (freeze sch key u)) w o := by
  obtain ⟨pre, post, e, hx⟩ := ho
  have hm := (markAll_iff hp key _ hs x).mpr ha
  have hmem : (x, o) ∈ walk sch 0 u.objects := at_walk.mp ⟨pre, post, e, hx⟩
  have hf : forwardFrom sch (markAll sch key u.objects) 0 0 u.objects x =
      some (0 + liveBefore sch (markAll sch key u.objects) 0 u.objects x) := by
    rw [forwardFrom_eq hp, if_pos ⟨hm, List.mem_map.mpr ⟨(x, o), hmem, rfl⟩⟩]
  refine ⟨_, _, rfl, hf, ?_⟩
  have hl : liveObjects sch (freeze sch key u) =
      ((walk sch 0 u.objects).filter fun p => markAll sch key u.objects p.1).map (·.2) := by
    unfold liveObjects freeze
    simp only
    rw [live_filter hp]
  rw [hl, Nat.zero_add]
  generalize markAll sch key u.objects = live at *
  generalize u.objects = os at *
  subst e
  have hw := walk_append (sch := sch) pre (o :: post) 0
  rw [Nat.zero_add, ← hx] at hw
  rw [walk] at hw
  refine ⟨((walk sch 0 pre).filter fun p => live p.1).map (·.2),
    ((walk sch (x + sch.size o) post).filter fun p => live p.1).map (·.2), ?_, ?_⟩
  · rw [hw, List.filter_append, List.filter_cons]
    simp [hm]
  · unfold liveBefore
    rw [hw, List.filter_append, List.filter_cons]
    have h1 : (walk sch 0 pre).filter (fun p => live p.1 && decide (p.1 < x)) =
        (walk sch 0 pre).filter fun p => live p.1 := by
      apply List.filter_congr
      intro p hpm
      have := walk_le pre 0 p hpm
      have := hp.size p.2
      unfold used at *
      have : p.1 < x := by omega
      simp [this]
    have h2 : (walk sch (x + sch.size o) post).filter (fun p => live p.1 && decide (p.1 < x)) = [] := by
      rw [List.filter_eq_nil_iff]
      intro p hpm
      have := walk_ge hpm
      simp; omega
    rw [h1, h2]
    simp
    rfl

/-- What is written has the size that is announced. -/
theorem gc_size {sch : Schema} (hp : sch.Positive) (key : Nat) (u : Unit) :
    (freeze sch key u).liveUnits = ((liveObjects sch (freeze sch key u)).map sch.size).sum := by
  unfold liveObjects freeze liveFrom
  simp only
  rw [live_filter hp, List.map_map]
  rfl

/-! ### An example -/

/-- For an example the hypothesis can be computed. -/
def soundCheck (sch : Schema) (key : Nat) (os : List Object) : Bool :=
  (walk sch 0 os).all fun p => (p.2.items.flatMap Item.refs).all fun q =>
    q.key != key || ((walk sch 0 os).map (·.1)).contains q.off

theorem sound_of_check {sch : Schema} {key : Nat} {os : List Object} (h : soundCheck sch key os = true) :
    Sound sch key os := by
  intro x o y ho hm
  have h1 := List.all_eq_true.mp h _ (at_walk.mp ho)
  have h2 := List.all_eq_true.mp h1 _ (mentions_refs.mpr hm)
  simp only [bne_self_eq_false, Bool.false_or, List.contains_iff_mem, List.mem_map] at h2
  obtain ⟨⟨a, o'⟩, h3, rfl⟩ := h2
  exact ⟨o', at_walk.mpr h3⟩

/-- Two kinds: a root with a name and an array, and an object with one reference. -/
def sample : Schema where
  items := fun _ k => if k = 0 then [.ident, .array] else [.object]
  units := fun _ k => if k = 0 then 2 else 1
  root := fun _ k => k == 0
  hasLoc := fun _ => true
  named := fun _ k => k == 0
  lastKind := fun _ => 2

/-- A root at 0; objects at 2, 3 and 4, of which the root refers to that at 4,
    which refers to that at 3, which refers to the root. -/
def sampleObjects : List Object :=
  [⟨0, 0, 7, [.ident (some [65]), .array (some [some ⟨1, 4⟩, none])]⟩, ⟨0, 1, 8, [.object (some ⟨1, 0⟩)]⟩,
   ⟨0, 1, 9, [.object (some ⟨1, 0⟩)]⟩, ⟨0, 1, 10, [.object (some ⟨1, 3⟩)]⟩]

def sampleUnit : Unit := { Unit.new 4096 0 true with objects := sampleObjects, root := some 0 }

example : sample.Positive := by
  intro t k; simp only [sample]; split <;> omega

example : Sound sample 1 sampleObjects := sound_of_check (by decide)

example : ((freeze sample 1 sampleUnit).forward.map fun f => [f 0, f 2, f 3, f 4]) =
    some [some 0, none, some 2, some 3] := by decide

example : Alive sample 1 sampleObjects 4 :=
  .ref (x := 0) (.root (o := sampleObjects[0]) ⟨[], _, rfl, rfl⟩ rfl) ⟨[], _, rfl, rfl⟩
    (.inr ⟨[some ⟨1, 4⟩, none], by decide, by decide⟩)

end Verif.Obj
