import Verif.CovRep.Props

/-
The numbers of instances with their sub-instances,
src/cov/cov-report.c:1181-1219 and 1365-1456, property C103.

Simplification: as every item is counted in the numbers of the instance and in
those with sub-instances alike, the second are the first plus `subs`, what
lines 1438-1449 add.
-/

namespace Verif.CovRep

open Spec

/-- A scope: whether it is an instance, its items, and its children. -/
inductive Scope where
  | mk (inst : Bool) (groups : List (List Item)) (children : List Scope)

/-- `cover_rpt_hier_ctx_t`: the numbers of an instance, and hits and totals of
its sub-instances. -/
structure Ctx where
  flat : St
  subs : Nat × Nat

def Ctx.empty : Ctx := ⟨St.empty, (0, 0)⟩

/-- Hits and total with sub-instances. -/
def Ctx.nested (c : Ctx) : Nat × Nat := (c.flat.hit + c.subs.1, c.flat.total + c.subs.2)

mutual
/-- One child, src/cov/cov-report.c:1422-1454: an instance has numbers of its
own; items directly in it are not looked at (`cover_report_hier`, line 1394). -/
def hierScope (lim : Nat) (c : Ctx) : Scope → Ctx
  | .mk inst gs cs =>
    if inst then
      { c with subs := (c.subs.1 + (hierChildren lim Ctx.empty cs).nested.1,
                        c.subs.2 + (hierChildren lim Ctx.empty cs).nested.2) }
    else
      hierChildren lim { c with flat := gs.foldl (fun s g => group lim s false g) c.flat } cs

/-- `cover_report_hier_children`, src/cov/cov-report.c:1418-1456. -/
def hierChildren (lim : Nat) (c : Ctx) : List Scope → Ctx
  | [] => c
  | s :: ss => hierChildren lim (hierScope lim c s) ss
end

/-! ## Specification: the items of an instance and of its sub-instances -/

mutual
def own : Scope → List Item
  | .mk inst gs cs => if inst then [] else gs.flatten ++ owns cs
def owns : List Scope → List Item
  | [] => []
  | s :: ss => own s ++ owns ss
end

mutual
def below : Scope → List Item
  | .mk inst _ cs => if inst then owns cs ++ belows cs else belows cs
def belows : List Scope → List Item
  | [] => []
  | s :: ss => below s ++ belows ss
end

def good (is : List Item) : Nat := is.countP fun i => covered i || waived i

theorem good_append (a b : List Item) : good (a ++ b) = good a + good b := List.countP_append

mutual
theorem scope_exact (lim : Nat) : ∀ (s : Scope) (is : List Item) (c : Ctx), Exact is c.flat →
    is.length + (own s).length ≤ lim + 1 → (below s).length ≤ lim + 1 →
    Exact (is ++ own s) (hierScope lim c s).flat ∧
    (hierScope lim c s).subs = (c.subs.1 + good (below s), c.subs.2 + (below s).length)
  | .mk inst gs cs, is, c, h, h1, h2 => by
    rw [own] at h1 ⊢
    rw [below] at h2 ⊢
    rw [hierScope]
    cases inst with
    | true =>
      simp only [if_true] at h1 h2 ⊢
      rw [List.length_append] at h2
      have := children_exact lim cs [] Ctx.empty ⟨rfl, rfl, rfl, rfl, rfl, rfl⟩
        (by simp only [List.length_nil]; omega) (by omega)
      obtain ⟨h3, h4⟩ := this
      refine ⟨by rw [List.append_nil]; exact h, ?_⟩
      have e1 : (hierChildren lim Ctx.empty cs).flat.hit = good (owns cs) := h3.2.1
      have e2 : (hierChildren lim Ctx.empty cs).flat.total = (owns cs).length := h3.1
      unfold Ctx.nested
      rw [h4, e1, e2, good_append, List.length_append]
      simp [Ctx.empty]
    | false =>
      simp only [Bool.false_eq_true, if_false] at h1 h2 ⊢
      rw [List.length_append] at h1
      have h3 := groups_exact lim gs is c.flat h (by omega)
      have := children_exact lim cs (is ++ gs.flatten)
        { c with flat := gs.foldl (fun s g => group lim s false g) c.flat } h3
        (by rw [List.length_append]; omega) h2
      rw [← List.append_assoc]
      exact this

theorem children_exact (lim : Nat) : ∀ (ss : List Scope) (is : List Item) (c : Ctx), Exact is c.flat →
    is.length + (owns ss).length ≤ lim + 1 → (belows ss).length ≤ lim + 1 →
    Exact (is ++ owns ss) (hierChildren lim c ss).flat ∧
    (hierChildren lim c ss).subs = (c.subs.1 + good (belows ss), c.subs.2 + (belows ss).length)
  | [], is, c, h, _, _ => by
    rw [owns, belows, hierChildren, List.append_nil]
    exact ⟨h, rfl⟩
  | s :: ss, is, c, h, h1, h2 => by
    rw [owns] at h1 ⊢
    rw [belows] at h2 ⊢
    rw [hierChildren]
    rw [List.length_append] at h1 h2
    obtain ⟨h3, h4⟩ := scope_exact lim s is c h (by omega) (by omega)
    obtain ⟨h5, h6⟩ := children_exact lim ss (is ++ own s) (hierScope lim c s) h3
      (by rw [List.length_append]; omega) (by omega)
    rw [← List.append_assoc]
    refine ⟨h5, ?_⟩
    rw [h6, h4, good_append, List.length_append]
    simp [Nat.add_assoc]
end

/-- The numbers of an instance are those of the items of its scopes, and the
numbers with sub-instances are those of all items below it, each counted once,
at any depth. -/
theorem nested_exact (lim : Nat) (cs : List Scope) (h : (owns cs ++ belows cs).length ≤ lim + 1) :
    (hierChildren lim Ctx.empty cs).flat.total = (owns cs).length ∧
    (hierChildren lim Ctx.empty cs).flat.hit = good (owns cs) ∧
    (hierChildren lim Ctx.empty cs).nested =
      (good (owns cs ++ belows cs), (owns cs ++ belows cs).length) := by
  rw [List.length_append] at h
  obtain ⟨h1, h2⟩ := children_exact lim cs [] Ctx.empty ⟨rfl, rfl, rfl, rfl, rfl, rfl⟩
    (by simp only [List.length_nil]; omega) (by omega)
  have e1 : (hierChildren lim Ctx.empty cs).flat.hit = good (owns cs) := h1.2.1
  have e2 : (hierChildren lim Ctx.empty cs).flat.total = (owns cs).length := h1.1
  refine ⟨e2, e1, ?_⟩
  unfold Ctx.nested
  rw [h2, e1, e2, good_append, List.length_append]
  simp [Ctx.empty]

example : owns [.mk false [[⟨1, 1, false, false⟩]] [], .mk true [] [.mk false [[⟨0, 1, false, false⟩]] []]] =
    [⟨1, 1, false, false⟩] ∧
    belows [.mk false [[⟨1, 1, false, false⟩]] [], .mk true [] [.mk false [[⟨0, 1, false, false⟩]] []]] =
    [⟨0, 1, false, false⟩] := by
  simp [owns, own, belows, below]

end Verif.CovRep
