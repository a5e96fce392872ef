import Verif.Obj.Model

/-
Lemmas about arenas, marking and forwarding addresses.
-/

namespace Verif.Obj

/-! ### Walking through an arena -/

/-- Every object has a size. -/
def Schema.Positive (sch : Schema) : Prop := ∀ tag kind, 0 < sch.units tag kind

theorem Schema.Positive.size {sch : Schema} (h : sch.Positive) (o : Object) : 0 < sch.size o := h _ _

theorem walk_ge {sch : Schema} {os : List Object} : ∀ {off : Nat} {p : Nat × Object}, p ∈ walk sch off os → off ≤ p.1 := by
  induction os with
  | nil => intro off p h; simp [walk] at h
  | cons o os ih =>
    intro off p h
    simp only [walk, List.mem_cons] at h
    rcases h with rfl | h
    · exact Nat.le_refl _
    · have := ih h; omega

/-- Objects do not overlap. -/
theorem walk_apart {sch : Schema} (os : List Object) : ∀ {off : Nat},
    (walk sch off os).Pairwise fun p q => p.1 + sch.size p.2 ≤ q.1 := by
  induction os with
  | nil => intro off; exact .nil
  | cons o os ih =>
    intro off
    simp only [walk]
    exact .cons (fun q hq => walk_ge hq) ih

theorem walk_length {sch : Schema} (os : List Object) : ∀ off, (walk sch off os).length = os.length := by
  induction os with
  | nil => intro; rfl
  | cons o os ih => intro off; simp [walk, ih]

theorem walk_snd {sch : Schema} (os : List Object) : ∀ off, (walk sch off os).map (·.2) = os := by
  induction os with
  | nil => intro; rfl
  | cons o os ih => intro off; simp [walk, ih]

theorem walk_le {sch : Schema} (os : List Object) : ∀ off p, p ∈ walk sch off os →
    p.1 + sch.size p.2 ≤ off + used sch os := by
  induction os with
  | nil => intro off p h; simp [walk] at h
  | cons o os ih =>
    intro off p h
    simp only [walk, List.mem_cons] at h
    simp only [used, List.map_cons, List.sum_cons]
    rcases h with rfl | h
    · simp only; omega
    · have := ih _ _ h; simp only [used] at this; omega

theorem find_walk {sch : Schema} (hp : sch.Positive) (os : List Object) : ∀ off x o,
    ((walk sch off os).find? fun p => p.1 == x).map (·.2) = some o ↔ (x, o) ∈ walk sch off os := by
  induction os with
  | nil => intro off x o; simp [walk]
  | cons a os ih =>
    intro off x o
    simp only [walk, List.find?_cons, List.mem_cons, Prod.mk.injEq]
    by_cases e : off = x
    · subst e
      simp only [beq_self_eq_true, Option.map_some, Option.some.injEq]
      constructor
      · intro h; exact .inl ⟨trivial, h.symm⟩
      · rintro (⟨_, rfl⟩ | h)
        · rfl
        · have := walk_ge h
          have := hp.size a
          simp only at *
          omega
    · have : (off == x) = false := by simpa using e
      simp only [this]
      rw [ih]
      constructor
      · intro h; exact .inr h
      · rintro (⟨h, _⟩ | h)
        · exact absurd h.symm e
        · exact h

theorem objectAt_iff {sch : Schema} (hp : sch.Positive) {os : List Object} {x : Nat} {o : Object} :
    objectAt sch os x = some o ↔ (x, o) ∈ walk sch 0 os := find_walk hp os 0 x o

/-! ### Marking -/

/-- Can be reached over references. -/
inductive Path (refs : Nat → List Nat) : Nat → Nat → Prop
  | refl {x} : Path refs x x
  | step {x y z} : y ∈ refs x → Path refs y z → Path refs x z

def unmarked (offs : List Nat) (m : Nat → Bool) : Nat := offs.countP fun x => !m x

theorem unmarked_mono {offs : List Nat} {m m' : Nat → Bool} (h : ∀ y, m y = true → m' y = true) :
    unmarked offs m' ≤ unmarked offs m := by
  apply List.countP_mono_left
  intro x _ hx
  cases hm : m x
  · rfl
  · rw [h x hm] at hx; cases hx

theorem unmarked_set {offs : List Nat} {m : Nat → Bool} {x : Nat} (hx : x ∈ offs) (hm : m x = false) :
    unmarked offs (fun y => if y = x then true else m y) < unmarked offs m := by
  unfold unmarked
  induction offs with
  | nil => simp at hx
  | cons a offs ih =>
    simp only [List.countP_cons]
    by_cases e : a = x
    · subst e
      simp only [if_true, Bool.not_true, Bool.false_eq_true, if_false, hm, Bool.not_false]
      have : offs.countP (fun y => !(if y = a then true else m y)) ≤ offs.countP fun y => !m y := by
        apply List.countP_mono_left
        intro y _ hy
        by_cases e : y = a
        · simp [e] at hy
        · simpa [e] using hy
      omega
    · have := ih (by simpa [Ne.symm e] using hx)
      simp only at this
      simp only [e, if_false]
      omega

structure Marked (refs : Nat → List Nat) (offs : List Nat) (src : Nat → Prop) (m m' : Nat → Bool) : Prop where
  mono : ∀ y, m y = true → m' y = true
  start : ∀ x, src x → m' x = true
  closed : ∀ y, m' y = true → m y = false → ∀ z ∈ refs y, m' z = true
  reach : ∀ y, m' y = true → m y = false → y ∈ offs ∧ ∃ x, src x ∧ Path refs x y

theorem markFrom_post (refs : Nat → List Nat) (offs : List Nat) (hv : ∀ x ∈ offs, ∀ y ∈ refs x, y ∈ offs) :
    ∀ (f : Nat) (m : Nat → Bool) (x : Nat), x ∈ offs → unmarked offs m < f →
      Marked refs offs (· = x) m (markFrom refs f m x) := by
  intro f
  induction f with
  | zero => intro m x _ h; omega
  | succ f ih =>
    intro m x hx hc
    rw [markFrom]
    cases hm : m x with
    | true =>
      simp only [if_true]
      refine ⟨fun _ h => h, fun y hy => by rw [hy]; exact hm, fun y h1 h2 => ?_, fun y h1 h2 => ?_⟩ <;>
        (rw [h1] at h2; cases h2)
    | false =>
      simp only [Bool.false_eq_true, if_false]
      -- the references one after the other
      have fold : ∀ (l : List Nat) (m : Nat → Bool), (∀ y ∈ l, y ∈ offs) → unmarked offs m < f →
          Marked refs offs (· ∈ l) m (l.foldl (fun m y => markFrom refs f m y) m) := by
        intro l
        induction l with
        | nil =>
          intro m _ _
          exact ⟨fun _ h => h, fun y hy => by simp at hy, fun y h1 h2 => by simp_all, fun y h1 h2 => by simp_all⟩
        | cons a l ihl =>
          intro m hl hc
          have h1 := ih m a (hl a (by simp)) hc
          have h2 := ihl (markFrom refs f m a) (fun y hy => hl y (by simp [hy]))
            (Nat.lt_of_le_of_lt (unmarked_mono h1.mono) hc)
          simp only [List.foldl_cons]
          refine ⟨fun y hy => h2.mono y (h1.mono y hy), fun y hy => ?_, fun y h3 h4 => ?_, fun y h3 h4 => ?_⟩
          · rcases List.mem_cons.mp hy with rfl | hy
            · exact h2.mono _ (h1.start _ rfl)
            · exact h2.start _ hy
          · cases hmid : markFrom refs f m a y
            · exact h2.closed y h3 hmid
            · intro z hz; exact h2.mono z (h1.closed y hmid h4 z hz)
          · cases hmid : markFrom refs f m a y
            · obtain ⟨g, x, hx, p⟩ := h2.reach y h3 hmid
              exact ⟨g, x, by simp [hx], p⟩
            · obtain ⟨g, x, hx, p⟩ := h1.reach y hmid h4
              exact ⟨g, x, by simp [hx], p⟩
      have hlt := unmarked_set hx hm
      have h := fold (refs x) (fun y => if y = x then true else m y) (hv x hx) (by omega)
      refine ⟨fun y hy => h.mono y (by simp [hy]), fun y hy => h.mono y (by simp [hy]), fun y h1 h2 z hz => ?_,
        fun y h1 h2 => ?_⟩
      · by_cases e : y = x
        · subst e; exact h.start z hz
        · exact h.closed y h1 (by simp [e, h2]) z hz
      · by_cases e : y = x
        · subst e; exact ⟨hx, y, rfl, .refl⟩
        · obtain ⟨g, a, ha, p⟩ := h.reach y h1 (by simp [e, h2])
          exact ⟨g, x, rfl, .step ha p⟩

/-! ### Forwarding -/

/-- What is before `x` and alive. -/
def liveBefore (sch : Schema) (live : Nat → Bool) (off : Nat) (os : List Object) (x : Nat) : Nat :=
  (((walk sch off os).filter fun p => live p.1 && decide (p.1 < x)).map fun p => sch.size p.2).sum

theorem forwardFrom_eq {sch : Schema} (hp : sch.Positive) (live : Nat → Bool) (os : List Object) : ∀ (w off x : Nat),
    forwardFrom sch live w off os x =
      if live x = true ∧ x ∈ (walk sch off os).map (·.1) then some (w + liveBefore sch live off os x) else none := by
  induction os with
  | nil => intro w off x; simp [forwardFrom, walk]
  | cons o os ih =>
    intro w off x
    have hpos := hp.size o
    rw [forwardFrom]
    by_cases e : x = off
    · subst e
      simp only [if_true, walk, List.map_cons, List.mem_cons, true_or, and_true]
      have z : liveBefore sch live x (o :: os) x = 0 := by
        unfold liveBefore
        have : (walk sch x (o :: os)).filter (fun p => live p.1 && decide (p.1 < x)) = [] := by
          rw [List.filter_eq_nil_iff]
          intro p hp'
          have := walk_ge hp'
          simp; omega
        rw [this]; rfl
      rw [z]
      cases live x <;> simp
    · have hmem : x ∈ (walk sch off (o :: os)).map (·.1) ↔ x ∈ (walk sch (off + sch.size o) os).map (·.1) := by
        simp only [walk, List.map_cons, List.mem_cons, e, false_or]
      simp only [e, if_false]
      rw [ih, ih]
      simp only [hmem]
      by_cases hx : live x = true ∧ x ∈ (walk sch (off + sch.size o) os).map (·.1)
      · have hlt : off < x := by
          obtain ⟨p, hp', rfl⟩ := List.mem_map.mp hx.2
          have := walk_ge hp'; omega
        have hb : liveBefore sch live off (o :: os) x =
            (if live off then sch.size o else 0) + liveBefore sch live (off + sch.size o) os x := by
          unfold liveBefore
          simp only [walk, List.filter_cons]
          cases live off <;> simp [hlt]
        rw [hb]
        cases hl : live off
        · simp only [Bool.false_eq_true, if_false, if_pos hx]
          rw [Nat.zero_add]
        · simp only [if_true, if_pos hx]
          congr 1; omega
      · simp only [if_neg hx, ite_self]

end Verif.Obj
