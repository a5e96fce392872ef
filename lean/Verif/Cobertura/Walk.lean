import Verif.Cobertura.Props

/-
The walk over the scopes for the Cobertura report,
src/cov/cov-export.c:114-145, property C102.
-/

namespace Verif.Cobertura

open Spec

/-- A scope: the name of its block, if any, its items and its children. -/
inductive Scope where
  | mk (block : Option Text) (items : List Item) (children : List Scope)

/-- An item for the class, src/cov/cov-export.c:121-141; without a class an item
that makes a line is an access through NULL. -/
def addTo (c : Option Text) (r : Option Report) (i : Item) : Option Report :=
  match r with
  | none => none
  | some r =>
    match c with
    | some c => some (step r (.item c i))
    | none => if i.kind = .other then some r else none

/-- The class for a scope, src/cov/cov-export.c:118-119. -/
def classFor (c b : Option Text) : Option Text :=
  match b with
  | some b => some b
  | none => c

def enterClass (b : Option Text) (r : Option Report) : Option Report :=
  match b with
  | some b => r.map fun r => step r (.enter b)
  | none => r

mutual
/-- `cobertura_export_scope`, src/cov/cov-export.c:114-145. -/
def exportScope (c : Option Text) (r : Option Report) : Scope → Option Report
  | .mk b items cs =>
    exportAll (classFor c b) (items.foldl (addTo (classFor c b)) (enterClass b r)) cs
def exportAll (c : Option Text) (r : Option Report) : List Scope → Option Report
  | [] => r
  | s :: ss => exportAll c (exportScope c r s) ss
end

/-! ## Specification: the items below a class -/

mutual
/-- The items of a scope and those below it for the class `k`; `c` is the
nearest name above. -/
def itemsFor (k : Text) (c : Option Text) : Scope → List Item
  | .mk none items cs => (if c = some k then items else []) ++ allFor k c cs
  | .mk (some b) items cs => (if b = k then items else []) ++ allFor k (some b) cs
def allFor (k : Text) (c : Option Text) : List Scope → List Item
  | [] => []
  | s :: ss => itemsFor k c s ++ allFor k c ss
end

theorem items_fold (c : Text) (items : List Item) (r : Report) :
    items.foldl (addTo (some c)) (some r) = some ((items.map (Ev.item c)).foldl step r) := by
  induction items generalizing r with
  | nil => rfl
  | cons i items ih => rw [List.foldl_cons, List.map_cons, List.foldl_cons]; exact ih _

theorem itemsOf_map (k c : Text) (items : List Item) :
    itemsOf k (items.map (Ev.item c)) = if c = k then items else [] := by
  induction items with
  | nil => simp [itemsOf]
  | cons i items ih =>
    rw [List.map_cons, itemsOf, ih]
    split <;> rfl

theorem itemsOf_append (k : Text) (a b : List Ev) : itemsOf k (a ++ b) = itemsOf k a ++ itemsOf k b := by
  induction a with
  | nil => rfl
  | cons e a ih =>
    rw [List.cons_append]
    cases e with
    | enter d => rw [itemsOf, itemsOf, ih]
    | item d i =>
      rw [itemsOf, itemsOf, ih]
      split <;> rfl

mutual
/-- Below a class the walk never fails, and does what some list of events does,
with the items of each class in the order of the scopes. -/
theorem walk_scope (c : Text) : ∀ (s : Scope) (r : Report), ∃ es : List Ev,
    exportScope (some c) (some r) s = some (es.foldl step r) ∧
    ∀ k : Text, itemsOf k es = itemsFor k (some c) s
  | .mk none items cs, r => by
    obtain ⟨es, h1, h2⟩ := walk_all c cs ((items.map (Ev.item c)).foldl step r)
    refine ⟨items.map (Ev.item c) ++ es, ?_, fun k => ?_⟩
    · rw [exportScope]
      show exportAll (some c) (items.foldl (addTo (some c)) (some r)) cs = _
      rw [items_fold, h1, List.foldl_append]
    · rw [itemsOf_append, itemsOf_map, h2, itemsFor]
      simp
  | .mk (some b) items cs, r => by
    obtain ⟨es, h1, h2⟩ := walk_all b cs ((items.map (Ev.item b)).foldl step (step r (.enter b)))
    refine ⟨.enter b :: (items.map (Ev.item b) ++ es), ?_, fun k => ?_⟩
    · rw [exportScope]
      show exportAll (some b) (items.foldl (addTo (some b)) (some (step r (.enter b)))) cs = _
      rw [items_fold, h1, List.foldl_cons, List.foldl_append]
    · rw [itemsOf, itemsOf_append, itemsOf_map, h2, itemsFor]

theorem walk_all (c : Text) : ∀ (ss : List Scope) (r : Report), ∃ es : List Ev,
    exportAll (some c) (some r) ss = some (es.foldl step r) ∧
    ∀ k : Text, itemsOf k es = allFor k (some c) ss
  | [], r => ⟨[], by rw [exportAll]; rfl, fun k => by rw [allFor]; rfl⟩
  | s :: ss, r => by
    obtain ⟨es, h1, h2⟩ := walk_scope c s r
    obtain ⟨fs, h3, h4⟩ := walk_all c ss (es.foldl step r)
    refine ⟨es ++ fs, ?_, fun k => ?_⟩
    · rw [exportAll, h1, h3, List.foldl_append]
    · rw [itemsOf_append, h2, h4, allFor]
end

/-- For a design whose root has the name of a block the walk does not fail, and
the class of the root has the lines of exactly the items whose nearest name
above is this name. -/
theorem walk_root (b : Text) (items : List Item) (cs : List Scope) :
    ∃ r : Report, exportScope none (some []) (.mk (some b) items cs) = some r ∧
      cls b r = some (linesOf (itemsFor b none (.mk (some b) items cs))) := by
  obtain ⟨es, h1, h2⟩ := walk_all b cs ((items.map (Ev.item b)).foldl step (step [] (.enter b)))
  refine ⟨run ([] ++ .enter b :: (items.map (Ev.item b) ++ es)), ?_, ?_⟩
  · rw [exportScope]
    show exportAll (some b) (items.foldl (addTo (some b)) (some (step [] (.enter b)))) cs = _
    rw [items_fold, h1, List.nil_append, run, List.foldl_cons, List.foldl_append]
  · rw [class_lines b [] _ (fun e he => by cases he), itemsOf_append, itemsOf_map, h2, itemsFor]

theorem some_scope (c k : Text) (s : Scope) (r r' : Report) (ls : List Line)
    (h : exportScope (some c) (some r) s = some r') (hk : cls k r = some ls) :
    cls k r' = some ((itemsFor k (some c) s).foldl addItem ls) := by
  obtain ⟨es, h1, h2⟩ := walk_scope c s r
  rw [h1] at h
  rw [← Option.some.inj h, cls_run k es r ls hk, h2]

theorem some_all (c k : Text) (ss : List Scope) (r r' : Report) (ls : List Line)
    (h : exportAll (some c) (some r) ss = some r') (hk : cls k r = some ls) :
    cls k r' = some ((allFor k (some c) ss).foldl addItem ls) := by
  obtain ⟨es, h1, h2⟩ := walk_all c ss r
  rw [h1] at h
  rw [← Option.some.inj h, cls_run k es r ls hk, h2]

theorem none_items (c k : Text) (hc : c ≠ k) (items : List Item) (r : Report) (h : cls k r = none) :
    cls k ((items.map (Ev.item c)).foldl step r) = none := by
  induction items generalizing r with
  | nil => exact h
  | cons i items ih =>
    rw [List.map_cons, List.foldl_cons]
    exact ih _ (by rw [cls_item, if_neg hc, h])

mutual
theorem none_scope (k : Text) : ∀ (s : Scope) (c : Text) (r r' : Report), c ≠ k → cls k r = none →
    exportScope (some c) (some r) s = some r' →
    (cls k r' = none ∧ itemsFor k (some c) s = []) ∨ cls k r' = some (linesOf (itemsFor k (some c) s))
  | .mk none items cs, c, r, r', hc, hk, h => by
    rw [exportScope] at h
    have h : exportAll (some c) (items.foldl (addTo (some c)) (some r)) cs = some r' := h
    rw [items_fold] at h
    rw [itemsFor, if_neg (by simp [hc]), List.nil_append]
    exact none_all k cs c _ r' hc (none_items c k hc items r hk) h
  | .mk (some b) items cs, c, r, r', hc, hk, h => by
    rw [exportScope] at h
    have h : exportAll (some b) (items.foldl (addTo (some b)) (some (step r (.enter b)))) cs = some r' := h
    rw [items_fold] at h
    rw [itemsFor]
    by_cases hb : b = k
    · subst hb
      rw [if_pos rfl]
      right
      have e : cls b (step r (.enter b)) = some [] := by rw [cls_enter, if_pos rfl, hk]; rfl
      have e2 := cls_run b (items.map (Ev.item b)) _ _ e
      rw [itemsOf_map, if_pos rfl] at e2
      rw [some_all b b cs _ r' _ h e2]
      unfold linesOf
      rw [List.foldl_append]
    · rw [if_neg hb, List.nil_append]
      refine none_all k cs b _ r' hb (none_items b k hb items _ ?_) h
      rw [cls_enter, if_neg (fun x => hb x.symm), hk]
theorem none_all (k : Text) : ∀ (ss : List Scope) (c : Text) (r r' : Report), c ≠ k → cls k r = none →
    exportAll (some c) (some r) ss = some r' →
    (cls k r' = none ∧ allFor k (some c) ss = []) ∨ cls k r' = some (linesOf (allFor k (some c) ss))
  | [], c, r, r', _, hk, h => by
    rw [exportAll] at h
    rw [← Option.some.inj h, allFor]
    exact Or.inl ⟨hk, rfl⟩
  | s :: ss, c, r, r', hc, hk, h => by
    obtain ⟨es, h1, _⟩ := walk_scope c s r
    rw [exportAll, h1] at h
    rw [allFor]
    rcases none_scope k s c r _ hc hk h1 with ⟨h2, h3⟩ | h2
    · rw [h3, List.nil_append]
      exact none_all k ss c _ r' hc h2 h
    · right
      rw [some_all c k ss _ r' _ h h2]
      unfold linesOf
      rw [List.foldl_append]
end

/-- Every class of the report has the lines of exactly the items whose nearest
name above is its name, and a name that is not in the report has no items. -/
theorem walk_class (b k : Text) (items : List Item) (cs : List Scope) :
    ∃ r : Report, exportScope none (some []) (.mk (some b) items cs) = some r ∧
      ((cls k r = none ∧ itemsFor k none (.mk (some b) items cs) = []) ∨
       cls k r = some (linesOf (itemsFor k none (.mk (some b) items cs)))) := by
  obtain ⟨r, h1, h2⟩ := walk_root b items cs
  refine ⟨r, h1, ?_⟩
  by_cases hb : b = k
  · subst hb; exact Or.inr h2
  · rw [exportScope] at h1
    have h : exportAll (some b) (items.foldl (addTo (some b)) (some (step [] (.enter b)))) cs = some r := h1
    rw [items_fold] at h
    rw [itemsFor, if_neg hb, List.nil_append]
    refine none_all k cs b _ r hb (none_items b k hb items _ ?_) h
    rw [cls_enter, if_neg (fun x => hb x.symm)]
    rfl

example : itemsFor [65] none (.mk (some [65]) [⟨.stmt, 1, 2, 0⟩]
    [.mk none [⟨.stmt, 2, 1, 0⟩] [], .mk (some [66]) [⟨.stmt, 9, 1, 0⟩] []]) =
    [⟨.stmt, 1, 2, 0⟩, ⟨.stmt, 2, 1, 0⟩] := by
  simp [itemsFor, allFor]

theorem fail_items (c : Option Text) (l : List Item) : l.foldl (addTo c) none = none := by
  induction l with
  | nil => rfl
  | cons a l ih => exact ih

mutual
theorem fail_scope : ∀ (s : Scope) (c : Option Text), exportScope c none s = none
  | .mk b items cs, c => by
    rw [exportScope]
    have e : enterClass b (none : Option Report) = none := by cases b <;> rfl
    rw [e, fail_items]
    exact fail_all cs _
theorem fail_all : ∀ (ss : List Scope) (c : Option Text), exportAll c none ss = none
  | [], c => by rw [exportAll]
  | s :: ss, c => by rw [exportAll, fail_scope s c]; exact fail_all ss c
end

/-- Without a name at the root an item there is an access through NULL. -/
theorem no_class (i : Item) (items : List Item) (cs : List Scope) (hi : i.kind ≠ .other) :
    exportScope none (some []) (.mk none (i :: items) cs) = none := by
  have h2 : (i :: items).foldl (addTo none) (some ([] : Report)) = none := by
    rw [List.foldl_cons]
    have : addTo none (some []) i = none := by simp [addTo, hi]
    rw [this, fail_items]
  rw [exportScope]
  show exportAll none ((i :: items).foldl (addTo none) (some [])) cs = none
  rw [h2]
  exact fail_all cs none

end Verif.Cobertura
