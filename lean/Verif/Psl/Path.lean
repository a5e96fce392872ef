import Verif.Psl.GuardSpec

/-!
# Paths through an automaton

A path through a set of edges, with the cycles in which it starts and ends.  An epsilon edge stays in
the cycle, another edge leads to the next cycle.  `w i` says which expressions are true in cycle `i`.
-/

namespace Verif.Psl

/-- A set of edges with their sources. -/
abbrev Edges := Nat → Edge → Prop

/-- The number of cycles that an edge takes. -/
def cost (eps : Bool) : Nat := if eps then 0 else 1

/-- A path from state `s` in cycle `i` to state `t` in cycle `j`. -/
inductive Path (w : Nat → Nat → Bool) (R : Edges) (s i : Nat) : Nat → Nat → Prop
  | refl : Path w R s i s i
  | step {x j : Nat} {e : Edge} : Path w R s i x j → R x e → e.guard.True (w j) →
      Path w R s i e.dest (j + cost e.eps)

/-- One edge. -/
def single (x : Nat) (e : Edge) : Edges := fun y e' => y = x ∧ e' = e

/-- Two sets of edges together. -/
def both (R S : Edges) : Edges := fun x e => R x e ∨ S x e

variable {w : Nat → Nat → Bool}

theorem Path.mono {R S : Edges} (h : ∀ x e, R x e → S x e) {s i t j : Nat} (p : Path w R s i t j) :
    Path w S s i t j := by
  induction p with
  | refl => exact .refl
  | step _ hr hg ih => exact .step ih (h _ _ hr) hg

theorem Path.trans {R : Edges} {s i x k t j : Nat} (p : Path w R s i x k) (q : Path w R x k t j) :
    Path w R s i t j := by
  induction q with
  | refl => exact p
  | step _ hr hg ih => exact .step ih hr hg

theorem Path.congr {R S : Edges} (h : ∀ x e, R x e ↔ S x e) {s i t j : Nat} :
    Path w R s i t j ↔ Path w S s i t j :=
  ⟨Path.mono fun x e => (h x e).mp, Path.mono fun x e => (h x e).mpr⟩

theorem Path.le {R : Edges} {s i t j : Nat} (p : Path w R s i t j) : i ≤ j := by
  induction p with
  | refl => omega
  | step _ _ _ ih => omega

/-- The edges lie among a set of states. -/
def Within (R : Edges) (V : Nat → Prop) : Prop := ∀ x e, R x e → V x ∧ V e.dest

theorem Path.within {R : Edges} {V : Nat → Prop} (hR : Within R V) {s i t j : Nat} (hs : V s)
    (p : Path w R s i t j) : V t := by
  cases p with
  | refl => exact hs
  | step _ hr _ => exact (hR _ _ hr).2

/-! ## One after the other -/

/-- Two parts that have only the start of the second one in common. -/
theorem path_join {R1 R2 : Edges} {V1 V2 : Nat → Prop} (h1 : Within R1 V1) (h2 : Within R2 V2)
    {s m t : Nat} (hdisj : ∀ x, V1 x → V2 x → x = m) (hbare : ∀ e, ¬ R1 m e) (hs : V1 s)
    (hm : V2 m) (ht : V2 t) (i j : Nat) :
    Path w (both R1 R2) s i t j ↔ ∃ c, Path w R1 s i m c ∧ Path w R2 m c t j := by
  constructor
  · intro p
    have key : ∀ y j, Path w (both R1 R2) s i y j →
        (V1 y ∧ Path w R1 s i y j) ∨ (V2 y ∧ ∃ c, Path w R1 s i m c ∧ Path w R2 m c y j) := by
      intro y j p
      induction p with
      | refl => exact Or.inl ⟨hs, .refl⟩
      | step _ hr hg ih =>
        rename_i x j e p
        rcases ih with ⟨hx, q⟩ | ⟨hx, c, q1, q2⟩
        · rcases hr with hr | hr
          · exact Or.inl ⟨(h1 _ _ hr).2, .step q hr hg⟩
          · have hxm := hdisj x hx (h2 _ _ hr).1
            subst hxm
            exact Or.inr ⟨(h2 _ _ hr).2, j, q, .step .refl hr hg⟩
        · rcases hr with hr | hr
          · have hxm := hdisj x (h1 _ _ hr).1 hx
            subst hxm
            exact absurd hr (hbare _)
          · exact Or.inr ⟨(h2 _ _ hr).2, c, q1, .step q2 hr hg⟩
    rcases key _ _ p with ⟨h, q⟩ | ⟨_, h⟩
    · have := hdisj t h ht
      subst this
      exact ⟨j, q, .refl⟩
    · exact h
  · rintro ⟨c, p, q⟩
    exact Path.trans (Path.mono (fun _ _ h => Or.inl h) p) (Path.mono (fun _ _ h => Or.inr h) q)

/-- A path to a state of the first part stays there. -/
theorem path_join_first {R1 R2 : Edges} {V1 V2 : Nat → Prop} (h1 : Within R1 V1)
    (h2 : Within R2 V2) {s m t : Nat} (hdisj : ∀ x, V1 x → V2 x → x = m) (hbare : ∀ e, ¬ R1 m e)
    (hs : V1 s) (ht : ¬ V2 t) (i j : Nat) :
    Path w (both R1 R2) s i t j ↔ Path w R1 s i t j := by
  constructor
  · intro p
    have key : ∀ y j, Path w (both R1 R2) s i y j → (V1 y ∧ Path w R1 s i y j) ∨ V2 y := by
      intro y j p
      induction p with
      | refl => exact Or.inl ⟨hs, .refl⟩
      | step _ hr hg ih =>
        rename_i x j e p
        rcases hr with hr | hr
        · rcases ih with ⟨hx, q⟩ | hx
          · exact Or.inl ⟨(h1 _ _ hr).2, .step q hr hg⟩
          · have hxm := hdisj x (h1 _ _ hr).1 hx
            subst hxm
            exact absurd hr (hbare _)
        · exact Or.inr (h2 _ _ hr).2
    rcases key _ _ p with ⟨_, h⟩ | h
    · exact h
    · exact absurd h ht
  · exact Path.mono fun _ _ h => Or.inl h

/-- One unguarded edge to a new state. -/
theorem path_bridge {R : Edges} {V : Nat → Prop} (h : Within R V) {s t n : Nat} (hs : V s)
    (ht : V t) (hn : ¬ V n) (k : Bool) (i j : Nat) :
    Path w (both R (single t ⟨k, n, .null⟩)) s i n j ↔
      ∃ m, j = m + cost k ∧ Path w R s i t m := by
  constructor
  · intro p
    have key : ∀ y j, Path w (both R (single t ⟨k, n, .null⟩)) s i y j →
        (V y ∧ Path w R s i y j) ∨ (y = n ∧ ∃ m, j = m + cost k ∧ Path w R s i t m) := by
      intro y j p
      induction p with
      | refl => exact Or.inl ⟨hs, .refl⟩
      | step _ hr hg ih =>
        rename_i x j e p
        rcases hr with hr | hr
        · rcases ih with ⟨hx, q⟩ | ⟨hx, _⟩
          · exact Or.inl ⟨(h _ _ hr).2, .step q hr hg⟩
          · exact absurd (hx ▸ (h _ _ hr).1) hn
        · obtain ⟨rfl, rfl⟩ := hr
          rcases ih with ⟨_, q⟩ | ⟨hx, _⟩
          · exact Or.inr ⟨rfl, j, rfl, q⟩
          · exact absurd (hx ▸ ht) hn
    rcases key _ _ p with ⟨h, _⟩ | ⟨_, h⟩
    · exact absurd h hn
    · exact h
  · rintro ⟨m, rfl, p⟩
    exact .step (e := ⟨k, n, .null⟩) (Path.mono (fun _ _ h => Or.inl h) p) (Or.inr ⟨rfl, rfl⟩) trivial

/-- An edge to a new state does not matter for the other states. -/
theorem path_bridge_first {R : Edges} {V : Nat → Prop} (h : Within R V) {s t n y : Nat} (hs : V s)
    (ht : V t) (hn : ¬ V n) (hy : V y) (k : Bool) (i j : Nat) :
    Path w (both R (single t ⟨k, n, .null⟩)) s i y j ↔ Path w R s i y j := by
  constructor
  · intro p
    have key : ∀ y j, Path w (both R (single t ⟨k, n, .null⟩)) s i y j →
        (V y ∧ Path w R s i y j) ∨ y = n := by
      intro y j p
      induction p with
      | refl => exact Or.inl ⟨hs, .refl⟩
      | step _ hr hg ih =>
        rcases hr with hr | hr
        · rcases ih with ⟨hx, q⟩ | hx
          · exact Or.inl ⟨(h _ _ hr).2, .step q hr hg⟩
          · exact absurd (hx ▸ (h _ _ hr).1) hn
        · obtain ⟨rfl, rfl⟩ := hr
          exact Or.inr rfl
    rcases key _ _ p with ⟨_, h⟩ | h
    · exact h
    · exact absurd (h ▸ hy) hn
  · exact Path.mono fun _ _ h => Or.inl h

/-! ## Again and again -/

/-- A relation of cycles once or several times, each from the cycle after the last one on. -/
inductive Plus (L : Nat → Nat → Prop) (i : Nat) : Nat → Prop
  | once {j : Nat} : L i j → Plus L i j
  | more {k j : Nat} : Plus L i k → L (k + 1) j → Plus L i j

/-- An edge back from the end to the start. -/
theorem path_loop {R : Edges} {s t : Nat} (i j : Nat) :
    Path w (both R (single t ⟨false, s, .null⟩)) s i t j ↔
      Plus (fun i j => Path w R s i t j) i j := by
  constructor
  · intro p
    have key : ∀ y j, Path w (both R (single t ⟨false, s, .null⟩)) s i y j →
        Path w R s i y j ∨ ∃ m, Plus (fun i j => Path w R s i t j) i m ∧
          Path w R s (m + 1) y j := by
      intro y j p
      induction p with
      | refl => exact Or.inl .refl
      | step _ hr hg ih =>
        rename_i x j e p
        rcases hr with hr | hr
        · rcases ih with q | ⟨m, q1, q2⟩
          · exact Or.inl (.step q hr hg)
          · exact Or.inr ⟨m, q1, .step q2 hr hg⟩
        · obtain ⟨rfl, rfl⟩ := hr
          right
          rcases ih with q | ⟨m, q1, q2⟩
          · exact ⟨j, .once q, .refl⟩
          · exact ⟨j, .more q1 q2, .refl⟩
    rcases key _ _ p with q | ⟨m, q1, q2⟩
    · exact .once q
    · exact .more q1 q2
  · intro p
    induction p with
    | once h => exact Path.mono (fun _ _ h => Or.inl h) h
    | more _ h ih =>
      refine Path.trans ih (Path.trans ?_ (Path.mono (fun _ _ h => Or.inl h) h))
      exact Path.step (e := ⟨false, s, .null⟩) .refl (Or.inr ⟨rfl, rfl⟩) trivial

/-! ## Skipping the rest -/

/-- Edges from some states `T` of the first part to a state `k` and from there to the end `t` of the
second part. -/
theorem path_skip {R1 R2 : Edges} {V1 V2 T : Nat → Prop} (h1 : Within R1 V1) (h2 : Within R2 V2)
    {s m t k : Nat} (hdisj : ∀ x, V1 x → V2 x → x = m) (hbare : ∀ e, ¬ R1 m e) (hs : V1 s)
    (hm : V2 m) (ht : V2 t) (hT : ∀ x, T x → V1 x ∧ ¬ V2 x) (hk1 : ¬ V1 k) (hk2 : ¬ V2 k)
    (i j : Nat) :
    Path w (both (both R1 R2)
        (both (fun x e => T x ∧ e = ⟨true, k, .null⟩) (single k ⟨true, t, .null⟩))) s i t j ↔
      (∃ c, Path w R1 s i m c ∧ Path w R2 m c t j) ∨
      ∃ x c, T x ∧ Path w R1 s i x c ∧ Path w R2 t c t j := by
  constructor
  · intro p
    have key : ∀ y j, Path w (both (both R1 R2)
        (both (fun x e => T x ∧ e = ⟨true, k, .null⟩) (single k ⟨true, t, .null⟩))) s i y j →
        (V1 y ∧ Path w R1 s i y j) ∨
        (y = k ∧ ∃ x, T x ∧ Path w R1 s i x j) ∨
        (V2 y ∧ ((∃ c, Path w R1 s i m c ∧ Path w R2 m c y j) ∨
          ∃ x c, T x ∧ Path w R1 s i x c ∧ Path w R2 t c y j)) := by
      intro y j p
      induction p with
      | refl => exact Or.inl ⟨hs, .refl⟩
      | step _ hr hg ih =>
        rename_i x j e p
        rcases hr with (hr | hr) | hr | hr
        · rcases ih with ⟨hx, q⟩ | ⟨hx, _⟩ | ⟨hx, _⟩
          · exact Or.inl ⟨(h1 _ _ hr).2, .step q hr hg⟩
          · exact absurd (hx ▸ (h1 _ _ hr).1) hk1
          · have hxm := hdisj x (h1 _ _ hr).1 hx
            subst hxm
            exact absurd hr (hbare _)
        · rcases ih with ⟨hx, q⟩ | ⟨hx, _⟩ | ⟨hx, hq⟩
          · have hxm := hdisj x hx (h2 _ _ hr).1
            subst hxm
            exact Or.inr (Or.inr ⟨(h2 _ _ hr).2, Or.inl ⟨j, q, .step .refl hr hg⟩⟩)
          · exact absurd (hx ▸ (h2 _ _ hr).1) hk2
          · refine Or.inr (Or.inr ⟨(h2 _ _ hr).2, ?_⟩)
            rcases hq with ⟨c, q1, q2⟩ | ⟨x', c, hx', q1, q2⟩
            · exact Or.inl ⟨c, q1, .step q2 hr hg⟩
            · exact Or.inr ⟨x', c, hx', q1, .step q2 hr hg⟩
        · obtain ⟨hTx, rfl⟩ := hr
          rcases ih with ⟨hx, q⟩ | ⟨hx, _⟩ | ⟨hx, _⟩
          · exact Or.inr (Or.inl ⟨rfl, x, hTx, q⟩)
          · exact absurd (hx ▸ (hT _ hTx).1) hk1
          · exact absurd hx (hT _ hTx).2
        · obtain ⟨rfl, rfl⟩ := hr
          rcases ih with ⟨hx, _⟩ | ⟨_, x', hx', q⟩ | ⟨hx, _⟩
          · exact absurd hx hk1
          · exact Or.inr (Or.inr ⟨ht, Or.inr ⟨x', j, hx', q, .refl⟩⟩)
          · exact absurd hx hk2
    rcases key _ _ p with ⟨h, q⟩ | ⟨h, _⟩ | ⟨_, h⟩
    · have := hdisj t h ht
      subst this
      exact Or.inl ⟨j, q, .refl⟩
    · exact absurd (h ▸ ht) hk2
    · exact h
  · rintro (⟨c, p, q⟩ | ⟨x, c, hx, p, q⟩)
    · exact Path.trans (Path.mono (fun _ _ h => Or.inl (Or.inl h)) p)
        (Path.mono (fun _ _ h => Or.inl (Or.inr h)) q)
    · have p1 : Path w (both (both R1 R2)
          (both (fun x e => T x ∧ e = ⟨true, k, .null⟩) (single k ⟨true, t, .null⟩))) s i x c :=
        Path.mono (fun _ _ h => Or.inl (Or.inl h)) p
      have p2 := Path.step (e := ⟨true, k, .null⟩) p1 (Or.inr (Or.inl ⟨hx, rfl⟩)) trivial
      have p3 := Path.step (e := ⟨true, t, .null⟩) p2 (Or.inr (Or.inr ⟨rfl, rfl⟩)) trivial
      exact Path.trans p3 (Path.mono (fun _ _ h => Or.inl (Or.inr h)) q)

end Verif.Psl
