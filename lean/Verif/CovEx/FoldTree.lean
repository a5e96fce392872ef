import Verif.CovEx.Props

/-
Folding of scopes with their children, src/cov/cov-exclude.c:189-242, property
C101.

Simplification: source and target are separate trees; in the program they are
parts of one tree, and if one is inside the other counts change while they are
read.
-/

namespace Verif.CovEx

open Spec

/-- A scope, as far as it is used here. -/
inductive Scope where
  | mk (hier : Text) (items : List Item) (children : List Scope)

def Scope.hier : Scope → Text
  | .mk h _ _ => h
def Scope.items : Scope → List Item
  | .mk _ i _ => i
def Scope.children : Scope → List Scope
  | .mk _ _ c => c

mutual
/-- `cover_fold_scopes`, src/cov/cov-exclude.c:189-242. -/
def foldScopes (tgt : Scope) : Scope → Scope
  | .mk h items cs =>
    .mk tgt.hier (foldItems tgt.hier.length h.length tgt.items items)
      (foldChildren tgt.hier.length h.length tgt.children cs)

/-- The loop over the children of the source, src/cov/cov-exclude.c:220-241. -/
def foldChildren (tn sn : Nat) (ts : List Scope) : List Scope → List Scope
  | [] => ts
  | s :: ss => foldChildren tn sn (foldFirst tn sn ts s) ss

/-- The inner loop, src/cov/cov-exclude.c:223-240: the first with the name. -/
def foldFirst (tn sn : Nat) (ts : List Scope) (s : Scope) : List Scope :=
  match s with
  | .mk h items cs =>
    match ts with
    | [] => []
    | t :: ts' =>
      if suffix tn t.hier = suffix sn h then
        .mk t.hier (foldItems t.hier.length h.length t.items items)
          (foldChildren t.hier.length h.length t.children cs) :: ts'
      else t :: foldFirst tn sn ts' (.mk h items cs)
end

/-! ## Theorems -/

theorem foldFirst_nil (tn sn : Nat) (s : Scope) : foldFirst tn sn [] s = [] := by
  cases s; rw [foldFirst]

theorem foldFirst_cons (tn sn : Nat) (t : Scope) (ts : List Scope) (s : Scope) :
    foldFirst tn sn (t :: ts) s =
      if suffix tn t.hier = suffix sn s.hier then foldScopes t s :: ts
      else t :: foldFirst tn sn ts s := by
  cases s; rw [foldFirst, foldScopes]; rfl

theorem foldScopes_hier (t s : Scope) : (foldScopes t s).hier = t.hier := by
  cases s; rw [foldScopes]; rfl

theorem foldFirst_map (tn sn : Nat) (s : Scope) (ts : List Scope)
    (h : ts.Pairwise fun a b => suffix tn a.hier ≠ suffix tn b.hier) :
    foldFirst tn sn ts s =
      ts.map fun t => if suffix tn t.hier = suffix sn s.hier then foldScopes t s else t := by
  induction ts with
  | nil => exact foldFirst_nil tn sn s
  | cons a ts ih =>
    obtain ⟨h1, h2⟩ := List.pairwise_cons.mp h
    rw [foldFirst_cons, List.map_cons]
    by_cases hs : suffix tn a.hier = suffix sn s.hier
    · rw [if_pos hs, if_pos hs]
      congr 1
      have : ts.map (fun t => if suffix tn t.hier = suffix sn s.hier then foldScopes t s else t) =
          ts.map id := by
        apply List.map_congr_left
        intro t ht
        rw [if_neg fun x => h1 t ht (hs.trans x.symm)]
        rfl
      rw [this, List.map_id]
    · rw [if_neg hs, if_neg hs, ih h2]

/-- If no two children of the target have the same name, each is folded with
exactly the children of the source with its name. -/
theorem fold_children (tn sn : Nat) (ss ts : List Scope)
    (h : ts.Pairwise fun a b => suffix tn a.hier ≠ suffix tn b.hier) :
    foldChildren tn sn ts ss =
      ts.map fun t => (ss.filter fun s => suffix tn t.hier == suffix sn s.hier).foldl foldScopes t := by
  induction ss generalizing ts with
  | nil =>
    rw [foldChildren]
    have : ts.map (fun t => (([] : List Scope).filter fun s =>
        suffix tn t.hier == suffix sn s.hier).foldl foldScopes t) = ts.map id :=
      List.map_congr_left fun t _ => rfl
    rw [this, List.map_id]
  | cons s ss ih =>
    have hh : ∀ t : Scope, (if suffix tn t.hier = suffix sn s.hier then foldScopes t s else t).hier
        = t.hier := by
      intro t; split
      · exact foldScopes_hier t s
      · rfl
    rw [foldChildren, foldFirst_map tn sn s ts h, ih]
    · rw [List.map_map]
      apply List.map_congr_left
      intro t _
      show List.foldl foldScopes (if suffix tn t.hier = suffix sn s.hier then foldScopes t s else t)
        (ss.filter fun s' => suffix tn
          (if suffix tn t.hier = suffix sn s.hier then foldScopes t s else t).hier ==
            suffix sn s'.hier) = _
      rw [hh]
      by_cases hs : suffix tn t.hier = suffix sn s.hier
      · rw [if_pos hs, List.filter_cons, if_pos (by simp [hs]), List.foldl_cons]
      · rw [if_neg hs, List.filter_cons, if_neg (by simp [hs])]
    · refine List.pairwise_map.mpr (h.imp fun hab => ?_)
      rw [hh, hh]; exact hab

/-- Folding of two scopes: their items and, for each child of the target, the
children of the source with its name. -/
theorem fold_scopes (t s : Scope)
    (hi : t.items.Pairwise fun a b => suffix t.hier.length a.hier ≠ suffix t.hier.length b.hier)
    (hc : t.children.Pairwise fun a b =>
      suffix t.hier.length a.hier ≠ suffix t.hier.length b.hier) :
    foldScopes t s = .mk t.hier (t.items.map (folded t.hier.length s.hier.length s.items))
      (t.children.map fun c => (s.children.filter fun d =>
        suffix t.hier.length c.hier == suffix s.hier.length d.hier).foldl foldScopes c) := by
  obtain ⟨h, items, cs⟩ := s
  rw [foldScopes, fold_items _ _ _ _ hi, fold_children _ _ _ _ hc]
  rfl

mutual
/-- All of a tree but the counts. -/
def shape : Scope → List (Text × List Item)
  | .mk h items cs => (h, items.map fun i => { i with data := 0 }) :: shapes cs
def shapes : List Scope → List (Text × List Item)
  | [] => []
  | c :: cs => shape c ++ shapes cs
end

theorem shape_eq (t : Scope) :
    shape t = (t.hier, t.items.map fun i => { i with data := 0 }) :: shapes t.children := by
  cases t; rw [shape]; rfl

theorem foldOne_clear (tn sn : Nat) (s : Item) (ts : List Item) :
    (foldOne tn sn s ts).map (fun i => { i with data := 0 }) =
      ts.map fun i => { i with data := 0 } := by
  induction ts with
  | nil => rfl
  | cons a ts ih =>
    unfold foldOne
    split
    · rfl
    · rw [List.map_cons, List.map_cons, ih]

theorem foldItems_clear (tn sn : Nat) (src ts : List Item) :
    (foldItems tn sn ts src).map (fun i => { i with data := 0 }) =
      ts.map fun i => { i with data := 0 } := by
  induction src generalizing ts with
  | nil => rfl
  | cons s src ih =>
    show (foldItems tn sn (foldOne tn sn s ts) src).map _ = _
    rw [ih, foldOne_clear]

theorem foldFirst_shape (tn sn : Nat) (s : Scope) (hs : ∀ t : Scope, shape (foldScopes t s) = shape t)
    (ts : List Scope) : shapes (foldFirst tn sn ts s) = shapes ts := by
  induction ts with
  | nil => rw [foldFirst_nil]
  | cons t ts ih =>
    rw [foldFirst_cons]
    split
    · rw [shapes, shapes, hs]
    · rw [shapes, shapes, ih]

mutual
/-- Folding changes nothing but counts, at any depth and for any trees. -/
theorem fold_shape (t : Scope) : ∀ s : Scope, shape (foldScopes t s) = shape t
  | .mk h items cs => by
    rw [foldScopes, shape_eq, shape_eq t]
    show (_, List.map _ (foldItems _ _ _ _)) :: shapes (foldChildren _ _ _ _) = _
    rw [foldItems_clear, children_shape]
    rfl

theorem children_shape (tn sn : Nat) (ts : List Scope) :
    ∀ ss : List Scope, shapes (foldChildren tn sn ts ss) = shapes ts
  | [] => by rw [foldChildren]
  | s :: ss => by
    rw [foldChildren, children_shape tn sn _ ss]
    exact foldFirst_shape tn sn s (fun t => fold_shape t s) ts
end

example : foldScopes (.mk [65] [] [.mk [65, 46, 88] [⟨[65, 46, 88, 46, 49], 0, 1, 1, false⟩] []])
    (.mk [66] [] [.mk [66, 46, 88] [⟨[66, 46, 88, 46, 49], 0, 4, 1, false⟩] []]) =
    .mk [65] [] [.mk [65, 46, 88] [⟨[65, 46, 88, 46, 49], 0, 5, 1, false⟩] []] := by
  rw [fold_scopes _ _ List.Pairwise.nil (List.pairwise_singleton _ _)]
  show Scope.mk [65] [] [foldScopes (.mk [65, 46, 88] [⟨[65, 46, 88, 46, 49], 0, 1, 1, false⟩] [])
    (.mk [66, 46, 88] [⟨[66, 46, 88, 46, 49], 0, 4, 1, false⟩] [])] = _
  rw [fold_scopes _ _ (List.pairwise_singleton _ _) List.Pairwise.nil]
  rfl

end Verif.CovEx
