import Verif.Drivers.Model

/-
Property C96, first part: the longest static prefix of a name.
-/

namespace Verif.Drivers

open Spec

theorem isStatic_iff (i : Idx) : isStatic i = true ↔ StaticIdx i := by
  cases i <;> simp [isStatic, StaticIdx]

theorem lsp_prefix (n : Name) : IsPrefix (lsp n) n := by
  induction n with
  | ref d => exact .refl _
  | ext d => exact .refl _
  | other d => exact .refl _
  | index n is ih =>
    unfold lsp
    split
    · exact .index is ih
    · split
      · exact .refl _
      · exact .index is ih
  | slice n dir l r ih =>
    unfold lsp
    split
    · exact .slice dir l r ih
    · split
      · exact .slice dir l r ih
      · split
        · exact .slice dir l r ih
        · exact .refl _
  | field n f ih =>
    unfold lsp
    split
    · exact .field f ih
    · exact .refl _

theorem lsp_static (n : Name) : StaticName (lsp n) := by
  induction n with
  | ref d => exact trivial
  | ext d => exact trivial
  | other d => exact trivial
  | index n is ih =>
    unfold lsp
    split
    · exact ih
    · rename_i h
      have e : lsp n = n := Decidable.not_not.mp h
      split
      · rename_i hs
        rw [e] at ih
        exact ⟨ih, fun i hi => (isStatic_iff i).mp (List.all_eq_true.mp hs i hi)⟩
      · exact ih
  | slice n dir l r ih =>
    unfold lsp
    split
    · exact ih
    · rename_i h
      have e : lsp n = n := Decidable.not_not.mp h
      split
      · exact ih
      · split
        · exact ih
        · rename_i hs
          simp only [Bool.or_eq_true, Bool.not_eq_true', not_or, Bool.not_eq_false] at hs
          rw [e] at ih
          exact ⟨ih, (isStatic_iff l).mp hs.1, (isStatic_iff r).mp hs.2⟩
  | field n f ih =>
    unfold lsp
    split
    · exact ih
    · rename_i h
      have e : lsp n = n := Decidable.not_not.mp h
      rw [e] at ih
      exact ih

/-- A static name without range attributes is its own longest static
prefix. -/
theorem lsp_of_static (n : Name) (h : StaticName n) (hx : NoExpr n) : lsp n = n := by
  induction n with
  | ref d => rfl
  | ext d => rfl
  | other d => rfl
  | index n is ih =>
    have e := ih h.1 hx
    unfold lsp
    rw [if_neg (by rw [e]; exact fun h => h rfl),
      if_pos (List.all_eq_true.mpr fun i hi => (isStatic_iff i).mpr (h.2 i hi))]
  | slice n dir l r ih =>
    have e := ih h.1 hx.1
    unfold lsp
    rw [if_neg (by rw [e]; exact fun h => h rfl), if_neg hx.2,
      (isStatic_iff l).mpr h.2.1, (isStatic_iff r).mpr h.2.2]
    rfl
  | field n f ih =>
    have e := ih h hx
    unfold lsp
    rw [if_neg (by rw [e]; exact fun h => h rfl)]

theorem prefix_static {m n : Name} (h : IsPrefix m n) (hs : StaticName n) : StaticName m := by
  induction h with
  | refl => exact hs
  | index is _ ih => exact ih hs.1
  | slice dir l r _ ih => exact ih hs.1
  | field f _ ih => exact ih hs

theorem prefix_noExpr {m n : Name} (h : IsPrefix m n) (hs : NoExpr n) : NoExpr m := by
  induction h with
  | refl => exact hs
  | index is _ ih => exact ih hs
  | slice dir l r _ ih => exact ih hs.1
  | field f _ ih => exact ih hs

theorem lsp_ne_of_proper {n : Name} (h : lsp n ≠ n) : ¬ (StaticName n ∧ NoExpr n) :=
  fun h2 => h (lsp_of_static n h2.1 h2.2)

/-- Without range attributes the result is the longest static prefix. -/
theorem lsp_longest_partial (n : Name) (hx : NoExpr n) : IsLongest (lsp n) n := by
  refine ⟨lsp_prefix n, lsp_static n, ?_⟩
  intro q hq hs
  induction hq with
  | refl => rw [lsp_of_static _ hs hx]; exact .refl _
  | @index n is hp ih =>
    have i1 := ih hx
    unfold lsp
    split
    · exact i1
    · rename_i h
      have e : lsp n = n := Decidable.not_not.mp h
      split
      · exact .index is hp
      · exact i1
  | @slice n dir l r hp ih =>
    have i1 := ih hx.1
    unfold lsp
    split
    · exact i1
    · split
      · exact i1
      · split
        · exact i1
        · exact .slice dir l r hp
  | @field n f hp ih =>
    have i1 := ih hx
    unfold lsp
    split
    · exact i1
    · exact .field f hp

/-- A slice by a range attribute with known bounds is static, but the prefix
is the whole signal. -/
theorem lsp_range_counterexample :
    ¬ IsLongest (lsp (.slice (.ref 0) .expr (.lit 0) (.lit 3)))
      (.slice (.ref 0) .expr (.lit 0) (.lit 3)) := by
  intro h
  have := h.2.2 _ (.refl _) ⟨trivial, trivial, trivial⟩
  have e : lsp (.slice (.ref 0) .expr (.lit 0) (.lit 3)) = .ref 0 := by decide
  rw [e] at this
  cases this

example : lsp (.field (.index (.index (.ref 1) [.lit 2]) [.dyn 0]) 3) = .index (.ref 1) [.lit 2] := by
  decide

/-! ## What names stand for -/

theorem prefix_covers {ρ : Static} {σ : Nat → Int} {m n : Name} (h : IsPrefix m n)
    {p : List Step} (hc : Covers ρ σ n p) : Covers ρ σ m p := by
  induction h with
  | refl => exact hc
  | index is _ ih => exact ih hc.1
  | slice dir l r _ ih => exact ih hc.1
  | field f _ ih => exact ih hc.1

/-- The prefix covers everything that the name can stand for. -/
theorem lsp_covers (ρ : Static) (σ : Nat → Int) (n : Name) (p : List Step)
    (h : Covers ρ σ n p) : Covers ρ σ (lsp n) p := prefix_covers (lsp_prefix n) h

theorem static_val (ρ : Static) (σ τ : Nat → Int) (i : Idx) (h : StaticIdx i) :
    i.val ρ σ = i.val ρ τ := by
  cases i with
  | dyn k => exact absurd h (fun h => h)
  | _ => rfl

/-- What a static name stands for does not change. -/
theorem static_covers (ρ : Static) (σ τ : Nat → Int) (n : Name) (hs : StaticName n)
    (p : List Step) : Covers ρ σ n p ↔ Covers ρ τ n p := by
  induction n with
  | ref d => exact Iff.rfl
  | ext d => exact Iff.rfl
  | other d => exact Iff.rfl
  | index n is ih =>
    have e : is.map (Idx.val ρ σ) = is.map (Idx.val ρ τ) :=
      List.map_congr_left fun i hi => static_val ρ σ τ i (hs.2 i hi)
    simp only [Covers, ih hs.1, e]
  | slice n dir l r ih =>
    simp only [Covers, ih hs.1, static_val ρ σ τ l hs.2.1, static_val ρ σ τ r hs.2.2]
  | field n f ih => simp only [Covers, ih hs]

theorem sameIdx_eq {a b : Idx} (h : sameIdx a b = true) : a = b := by
  cases a <;> cases b <;> simp_all [sameIdx]

theorem sameIdxs_eq {a b : List Idx} (h : sameIdxs a b = true) : a = b := by
  induction a generalizing b with
  | nil => cases b <;> simp_all [sameIdxs]
  | cons x a ih =>
    cases b with
    | nil => simp [sameIdxs] at h
    | cons y b =>
      simp only [sameIdxs, Bool.and_eq_true] at h
      rw [sameIdx_eq h.1, ih h.2]

/-- Names that are the same stand for the same. -/
theorem sameTree_eq {a b : Name} (h : sameTree a b = true) : a = b := by
  induction a generalizing b with
  | ref d => cases b <;> simp_all [sameTree]
  | ext d => cases b <;> simp_all [sameTree]
  | other d => cases b <;> simp_all [sameTree]
  | index n is ih =>
    cases b <;> simp only [sameTree, Bool.false_eq_true, Bool.and_eq_true] at h
    rw [ih h.1, sameIdxs_eq h.2]
  | slice n dir l r ih =>
    cases b <;> simp only [sameTree, Bool.false_eq_true, Bool.and_eq_true, decide_eq_true_eq] at h
    rw [ih h.1.1, h.1.2.1, sameIdx_eq h.2.1, sameIdx_eq h.2.2]
  | field n f ih =>
    cases b <;> simp only [sameTree, Bool.false_eq_true, Bool.and_eq_true, beq_iff_eq] at h
    rw [ih h.2, h.1]

/-- A name by constants and literals is the same as itself. -/
theorem sameTree_refl (n : Name) (hr : ∃ d : Nat, rootRef n = some d) (hx : NoExpr n)
    (hk : ∀ i : Idx, ∀ m : Name, IsPrefix m n →
      ((∃ (m2 : Name) (is : List Idx), m = .index m2 is ∧ i ∈ is) ∨
       (∃ (m2 : Name) (dir : Dir) (l r : Idx), m = .slice m2 dir l r ∧ (i = l ∨ i = r))) →
      (∃ v : Int, i = .lit v) ∨ ∃ d : Nat, i = .const d) :
    sameTree n n = true := by
  have one : ∀ i : Idx, ((∃ v : Int, i = .lit v) ∨ ∃ d : Nat, i = .const d) →
      sameIdx i i = true := by
    rintro i (⟨v, rfl⟩ | ⟨d, rfl⟩) <;> simp [sameIdx]
  have many : ∀ is : List Idx, (∀ i ∈ is, (∃ v : Int, i = .lit v) ∨ ∃ d : Nat, i = .const d) →
      sameIdxs is is = true := by
    intro is
    induction is with
    | nil => intro _; rfl
    | cons i is ih =>
      intro h
      rw [sameIdxs, one i (h i List.mem_cons_self),
        ih (fun j hj => h j (List.mem_cons_of_mem _ hj))]
      rfl
  induction n with
  | ref d => simp [sameTree]
  | ext d => obtain ⟨_, h⟩ := hr; cases h
  | other d => obtain ⟨_, h⟩ := hr; cases h
  | index n is ih =>
    rw [sameTree, ih hr hx (fun i m hm => hk i m (.index is hm)),
      many is (fun i hi => hk i _ (.refl _) (Or.inl ⟨n, is, rfl, hi⟩))]
    rfl
  | slice n dir l r ih =>
    rw [sameTree, ih hr hx.1 (fun i m hm => hk i m (.slice dir l r hm)),
      one l (hk l _ (.refl _) (Or.inr ⟨n, dir, l, r, rfl, Or.inl rfl⟩)),
      one r (hk r _ (.refl _) (Or.inr ⟨n, dir, l, r, rfl, Or.inr rfl⟩))]
    simp [hx.2]
  | field n f ih =>
    rw [sameTree, ih hr hx (fun i m hm => hk i m (.field f hm))]
    simp

theorem rootRef_prefix {m n : Name} (h : IsPrefix m n) : rootRef m = rootRef n := by
  induction h with
  | refl => rfl
  | index is _ ih => exact ih
  | slice dir l r _ ih => exact ih
  | field f _ ih => exact ih

theorem rootRef_lsp (n : Name) : rootRef (lsp n) = rootRef n := rootRef_prefix (lsp_prefix n)

theorem rootRef_root (n : Name) (d : Nat) : rootRef n = some d ↔ root n = .ref d := by
  induction n with
  | ref e => simp [rootRef, root]
  | ext e => simp [rootRef, root]
  | other e => simp [rootRef, root]
  | index n is ih => exact ih
  | slice n dir l r ih => exact ih
  | field n f ih => exact ih

end Verif.Drivers
