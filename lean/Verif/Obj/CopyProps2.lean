import Verif.Obj.CopyProps
import Verif.Obj.Lemmas

/-
C77: what the copies look like.
-/

namespace Verif.Obj.Copy

/-! ### Specification -/

/-- An item with its references replaced. -/
inductive ItemImage (φ : Ptr → Ptr) : Item → Item → Prop
  | ident (n : Name) : ItemImage φ (.ident n) (.ident n)
  | null : ItemImage φ (.object none) (.object none)
  | object (p : Ptr) : ItemImage φ (.object (some p)) (.object (some (φ p)))
  | nullArray : ItemImage φ (.array none) (.array none)
  | array (l l' : List (Option Ptr)) : l'.length = l.length →
      (∀ i : Nat, l[i]? = some none → l'[i]? = some none) →
      (∀ (i : Nat) (p : Ptr), l[i]? = some (some p) → l'[i]? = some (some (φ p))) →
      ItemImage φ (.array (some l)) (.array (some l'))
  | int (v : Int) : ItemImage φ (.int v) (.int v)
  | double (d : Nat) : ItemImage φ (.double d) (.double d)

/-- An object with its references replaced. -/
structure Image (φ : Ptr → Ptr) (o c : Object) : Prop where
  tag : c.tag = o.tag
  kind : c.kind = o.kind
  loc : c.loc = o.loc
  len : c.items.length = o.items.length
  items : ∀ (i : Nat) (a b : Item), o.items[i]? = some a → c.items[i]? = some b → ItemImage φ a b

/-! ### Proofs -/

theorem walk_append (sch : Schema) (a b : List Object) : ∀ off,
    walk sch off (a ++ b) = walk sch off a ++ walk sch (off + used sch a) b := by
  induction a with
  | nil => intro off; simp [walk, used]
  | cons o os ih =>
    intro off
    simp only [List.cons_append, walk, ih, used, List.map_cons, List.sum_cons]
    rw [Nat.add_assoc]

theorem copyItem_image {φ : Ptr → Ptr} {a b : Item} (h : copyItem φ a = some b) : ItemImage φ a b := by
  cases a with
  | ident n => simp [copyItem] at h; subst h; exact .ident n
  | object p =>
    cases p with
    | none => simp [copyItem] at h; subst h; exact .null
    | some p => simp [copyItem] at h; subst h; exact .object p
  | array l =>
    cases l with
    | none => simp [copyItem] at h; subst h; exact .nullArray
    | some l =>
      simp [copyItem] at h; subst h
      refine .array _ _ (by simp) ?_ ?_
      · intro i hi; simp [hi]
      · intro i p hi; simp [hi]
  | int v => simp [copyItem] at h; subst h; exact .int v
  | double d => simp [copyItem] at h; subst h; exact .double d
  | text s => simp [copyItem] at h
  | number s => simp [copyItem] at h

theorem copyItems_image {φ : Ptr → Ptr} (l : List Item) : ∀ l', copyItems φ l = some l' →
    l'.length = l.length ∧ ∀ (i : Nat) (a b : Item), l[i]? = some a → l'[i]? = some b → ItemImage φ a b := by
  induction l with
  | nil => intro l' h; simp [copyItems] at h; subst h; simp
  | cons x xs ih =>
    intro l' h
    rw [copyItems] at h
    split at h
    · rename_i j js hj hjs
      cases h
      obtain ⟨h1, h2⟩ := ih js hjs
      refine ⟨by simp [h1], ?_⟩
      intro i a b ha hb
      cases i with
      | zero => simp at ha hb; subst ha; subst hb; exact copyItem_image hj
      | succ i => simp at ha hb; exact h2 i a b ha hb
    · simp at h

theorem copyObject_image {φ : Ptr → Ptr} {o c : Object} (h : copyObject φ o = some c) : Image φ o c := by
  unfold copyObject at h
  split at h
  · rename_i js hjs
    cases h
    obtain ⟨h1, h2⟩ := copyItems_image _ _ hjs
    exact ⟨rfl, rfl, rfl, h1, h2⟩
  · simp at h

theorem copyObjects_post {sch : Schema} {w : World} {φ : Ptr → Ptr} (m : List Ptr) : ∀ (cs : List Object) (base : Nat),
    copyObjects sch w φ m = some cs → m.Nodup →
    (∀ x ∈ m, ∃ o c off, objAt sch w x = some o ∧ copyOff sch w base m x = some off ∧ Image φ o c ∧
      (off, c) ∈ walk sch base cs) ∧
    (∀ c ∈ cs, ∃ x ∈ m, ∃ o, objAt sch w x = some o ∧ Image φ o c) := by
  induction m with
  | nil => intro cs base h _; simp [copyObjects] at h; subst h; simp
  | cons y ys ih =>
    intro cs base h hnd
    rw [copyObjects] at h
    split at h
    · simp at h
    · rename_i o ho
      split at h
      · rename_i c cs' hc hcs
        cases h
        have im := copyObject_image hc
        have size : sch.size c = sch.size o := by unfold Schema.size; rw [im.tag, im.kind]
        obtain ⟨hy, hys⟩ := List.nodup_cons.mp hnd
        obtain ⟨h1, h2⟩ := ih cs' (base + sch.size o) hcs hys
        constructor
        · intro x hx
          rcases List.mem_cons.mp hx with rfl | hx
          · exact ⟨o, c, base, ho, by rw [copyOff, if_pos rfl], im, by rw [walk]; exact List.mem_cons_self⟩
          · obtain ⟨o', c', off, g1, g2, g3, g4⟩ := h1 x hx
            have hne : x ≠ y := fun e => hy (e ▸ hx)
            refine ⟨o', c', off, g1, ?_, g3, ?_⟩
            · rw [copyOff, if_neg hne, ho]; exact g2
            · rw [walk, size]; exact List.mem_cons_of_mem _ g4
        · intro d hd
          rcases List.mem_cons.mp hd with rfl | hd
          · exact ⟨y, List.mem_cons_self, o, ho, im⟩
          · obtain ⟨x, hx, g⟩ := h2 d hd
            exact ⟨x, List.mem_cons_of_mem _ hx, g⟩
      · simp at h

theorem copyOff_none {sch : Schema} {w : World} (m : List Ptr) : ∀ (base : Nat) (x : Ptr), x ∉ m →
    copyOff sch w base m x = none := by
  induction m with
  | nil => intros; rfl
  | cons y ys ih =>
    intro base x hx
    rw [copyOff, if_neg (by intro e; subst e; exact hx List.mem_cons_self)]
    split
    · exact ih _ x (fun h => hx (List.mem_cons_of_mem _ h))
    · rfl

theorem copyOff_ge {sch : Schema} {w : World} (m : List Ptr) : ∀ (base : Nat) (x : Ptr) (off : Nat),
    copyOff sch w base m x = some off → base ≤ off := by
  induction m with
  | nil => intro base x off h; simp [copyOff] at h
  | cons y ys ih =>
    intro base x off h
    rw [copyOff] at h
    split at h
    · cases h; exact Nat.le_refl _
    · split at h
      · have := ih _ x off h; omega
      · simp at h

theorem copyOff_inj {sch : Schema} (hp : sch.Positive) {w : World} (m : List Ptr) : ∀ (base : Nat) (x y : Ptr) (off : Nat),
    copyOff sch w base m x = some off → copyOff sch w base m y = some off → x = y := by
  induction m with
  | nil => intro base x y off h; simp [copyOff] at h
  | cons z zs ih =>
    intro base x y off hx hy
    rw [copyOff] at hx hy
    split at hx
    · rename_i ex
      cases hx
      split at hy
      · rename_i ey; rw [ex, ey]
      · split at hy
        · rename_i o ho
          have := copyOff_ge _ _ _ _ hy
          have := hp.size o
          omega
        · simp at hy
    · split at hx
      · rename_i o ho
        split at hy
        · cases hy
          have := copyOff_ge _ _ _ _ hx
          have := hp.size o
          omega
        · rw [ho] at hy
          exact ih _ x y off hx hy
      · simp at hx

theorem barriers_post {w : World} {gkey : Nat} (ps : List Ptr) : ∀ deps deps', barriers w gkey deps ps = some deps' →
    (∀ d ∈ deps, d ∈ deps') ∧
    (∀ p ∈ ps, p.key ≠ gkey → p.key ∈ deps' ∧ ∃ u, w.get p.key = some u ∧ u.frozen = true) ∧
    (∀ d ∈ deps', d ∈ deps ∨ ∃ p ∈ ps, p.key = d ∧ d ≠ gkey) ∧
    (deps.Nodup → deps'.Nodup) := by
  induction ps with
  | nil => intro deps deps' h; simp [barriers] at h; subst h; simp
  | cons p ps ih =>
    intro deps deps' h
    rw [barriers] at h
    split at h
    · simp at h
    · rename_i d1 hd1
      obtain ⟨g1, g2, g3, g4⟩ := ih d1 deps' h
      unfold barrier at hd1
      split at hd1
      · rename_i hk
        cases hd1
        refine ⟨g1, ?_, ?_, g4⟩
        · intro q hq hne
          rcases List.mem_cons.mp hq with rfl | hq
          · exact absurd hk hne
          · exact g2 q hq hne
        · intro d hd
          rcases g3 d hd with h | ⟨q, hq, h⟩
          · exact .inl h
          · exact .inr ⟨q, List.mem_cons_of_mem _ hq, h⟩
      · rename_i hk
        split at hd1
        · simp at hd1
        · rename_i u hu
          split at hd1
          · simp at hd1
          · rename_i hf
            have hf : u.frozen = true := by simpa using hf
            split at hd1
            · rename_i hc
              cases hd1
              refine ⟨g1, ?_, ?_, g4⟩
              · intro q hq hne
                rcases List.mem_cons.mp hq with rfl | hq
                · exact ⟨g1 _ (List.contains_iff_mem.mp hc), u, hu, hf⟩
                · exact g2 q hq hne
              · intro d hd
                rcases g3 d hd with h | ⟨q, hq, h⟩
                · exact .inl h
                · exact .inr ⟨q, List.mem_cons_of_mem _ hq, h⟩
            · rename_i hc
              cases hd1
              refine ⟨fun d hd => g1 d (List.mem_append_left _ hd), ?_, ?_, ?_⟩
              · intro q hq hne
                rcases List.mem_cons.mp hq with rfl | hq
                · exact ⟨g1 _ (by simp), u, hu, hf⟩
                · exact g2 q hq hne
              · intro d hd
                rcases g3 d hd with h | ⟨q, hq, h⟩
                · rcases List.mem_append.mp h with h | h
                  · exact .inl h
                  · rw [List.mem_singleton.mp h]
                    exact .inr ⟨p, List.mem_cons_self, rfl, hk⟩
                · exact .inr ⟨q, List.mem_cons_of_mem _ hq, h⟩
              · intro hn
                refine g4 (List.nodup_append.mpr ⟨hn, by simp, ?_⟩)
                intro a ha b hb e
                rw [List.mem_singleton.mp hb] at e
                subst e
                exact hc (List.contains_iff_mem.mpr ha)

theorem get_set_self (w : World) (k : Nat) (u v : Unit) (h : w.get k = some u) :
    World.get (w.set (k - 1) v) k = some v := by
  unfold World.get at h ⊢
  split at h
  · simp at h
  · rename_i hk
    rw [if_neg hk]
    rw [List.getElem?_set_self]
    exact (List.getElem?_eq_some_iff.mp h).1

theorem get_set_ne (w : World) (k j : Nat) (u v : Unit) (h : w.get k = some u) (hne : j ≠ k) :
    World.get (w.set (k - 1) v) j = w.get j := by
  unfold World.get at h ⊢
  split at h
  · simp at h
  · rename_i hk
    by_cases hj : j = 0
    · simp [hj]
    · rw [if_neg hj, if_neg hj, List.getElem?_set_ne (by omega)]

/-- When `object_copy` succeeds, there is a list of the objects that were copied and a map
    from them to different new objects in the global arena.  Each new object is the image of
    its original: all references to copied objects are replaced by the copies and nothing
    else is different.  All objects that there were are unchanged.  The global arena depends on
    every other arena to which a copy refers; these are frozen. -/
theorem copy_result (sch : Schema) (hp : sch.Positive) (n : Nat) (w w' : World) (gkey : Nat) (roots roots' : List Ptr)
    (want : Ptr → Bool) (h : objectCopy sch n w gkey roots want = .ok (w', roots'))
    (ga : Unit) (hga : w.get gkey = some ga) :
    ∃ (fl : Flags) (m : List Ptr) (φ : Ptr → Ptr) (ga' : Unit),
      (∃ seen, markRoots ⟨refsOf sch w, fun p => (Flags.get fl p.key).getD false, want⟩ n ⟨[], []⟩ roots
        = some ⟨seen, m⟩) ∧
      closures (fun a => match w.get a with | some u => u.deps | none => []) (roots.map (·.key)) n []
        (roots.map (·.key)) = some fl ∧
      (m.Nodup →
        (∀ x ∈ m, ∃ o c, objAt sch w x = some o ∧ objAt sch w' (φ x) = some c ∧ Image φ o c ∧
          (φ x).key = gkey ∧ used sch ga.objects ≤ (φ x).off) ∧
        (∀ x ∈ m, ∀ y ∈ m, φ x = φ y → x = y)) ∧
      (∀ x, x ∉ m → φ x = x) ∧
      (∀ p o, objAt sch w p = some o → objAt sch w' p = some o) ∧
      roots' = roots.map φ ∧
      w'.length = w.length ∧ (∀ k, k ≠ gkey → w'.get k = w.get k) ∧ w'.get gkey = some ga' ∧
      (∃ cs, ga'.objects = ga.objects ++ cs ∧ cs.length = m.length ∧ used sch ga'.objects ≤ ga.limit ∧
        ∀ c ∈ cs, ∀ p ∈ c.items.flatMap Item.refs, p.key ≠ gkey →
          p.key ∈ ga'.deps ∧ ∃ u, w'.get p.key = some u ∧ u.frozen = true) ∧
      (∀ d ∈ ga.deps, d ∈ ga'.deps) := by
  unfold objectCopy at h
  rw [hga] at h
  dsimp only at h
  split at h
  · simp at h
  · split at h
    · simp at h
    · rename_i fl hfl
      split at h
      · simp at h
      · rename_i st hst
        split at h
        · simp at h
        · rename_i cs hcs
          split at h
          · simp at h
          · rename_i hlim
            split at h
            · simp at h
            · rename_i deps hdeps
              simp only [Result.ok.injEq, Prod.mk.injEq] at h
              obtain ⟨rfl, rfl⟩ := h
              obtain ⟨b1, b2, b3, b4⟩ := barriers_post _ _ _ hdeps
              have self := fun v => get_set_self w gkey ga v hga
              have other := fun v (j : Nat) (hj : j ≠ gkey) => get_set_ne w gkey j ga v hga hj
              have old : ∀ p o, objAt sch w p = some o →
                  objAt sch (w.set (gkey - 1) { ga with objects := ga.objects ++ cs, deps := deps }) p = some o := by
                intro p o ho
                unfold objAt at ho ⊢
                by_cases e : p.key = gkey
                · rw [e] at ho ⊢
                  rw [hga] at ho
                  rw [self]
                  dsimp only at ho ⊢
                  rw [objectAt_iff hp] at ho ⊢
                  rw [walk_append]
                  exact List.mem_append_left _ ho
                · rw [other _ _ e]; exact ho
              refine ⟨fl, st.map, mapPtr sch w gkey (used sch ga.objects) st.map,
                { ga with objects := ga.objects ++ cs, deps := deps }, ⟨st.seen, hst⟩, hfl, ?_, ?_, old, rfl, by simp,
                fun k hk => other _ k hk, self _, ⟨cs, rfl, ?_, by simpa using hlim, ?_⟩, b1⟩
              · intro hnd
                obtain ⟨h1, _⟩ := copyObjects_post st.map cs (used sch ga.objects) hcs hnd
                constructor
                · intro x hx
                  obtain ⟨o, c, off, g1, g2, g3, g4⟩ := h1 x hx
                  have e : mapPtr sch w gkey (used sch ga.objects) st.map x = ⟨gkey, off⟩ := by
                    unfold mapPtr; rw [g2]
                  refine ⟨o, c, g1, ?_, g3, by rw [e], by rw [e]; exact copyOff_ge _ _ _ _ g2⟩
                  rw [e]
                  unfold objAt
                  dsimp only
                  rw [self]
                  dsimp only
                  rw [objectAt_iff hp, walk_append]
                  refine List.mem_append_right _ ?_
                  rw [Nat.zero_add]; exact g4
                · intro x hx y hy e
                  obtain ⟨_, _, off, _, g2, _, _⟩ := h1 x hx
                  obtain ⟨_, _, off', _, g2', _, _⟩ := h1 y hy
                  unfold mapPtr at e
                  rw [g2, g2'] at e
                  simp only [Ptr.mk.injEq, true_and] at e
                  subst e
                  exact copyOff_inj hp _ _ _ _ _ g2 g2'
              · intro x hx
                unfold mapPtr
                rw [copyOff_none _ _ _ hx]
              · have : ∀ (m : List Ptr) (cs : List Object) φ, copyObjects sch w φ m = some cs → cs.length = m.length := by
                  intro m
                  induction m with
                  | nil => intro cs φ h; simp [copyObjects] at h; subst h; rfl
                  | cons y ys ih =>
                    intro cs φ h
                    rw [copyObjects] at h
                    split at h
                    · simp at h
                    · split at h
                      · rename_i hh; cases h; simp [ih _ _ hh]
                      · simp at h
                exact this _ _ _ hcs
              · intro c hc p hpc hk
                obtain ⟨g1, u, g2, g3⟩ := b2 p (List.mem_flatMap.mpr ⟨c, hc, hpc⟩) hk
                exact ⟨g1, u, by rw [other _ _ hk]; exact g2, g3⟩

/-- The dependencies of an arena. -/
def depsOf (w : World) (a : Nat) : List Nat := match w.get a with | some u => u.deps | none => []

theorem reached_finite (sch : Schema) (hp : sch.Positive) (w : World) (incl want : Ptr → Bool) (roots : List Ptr) (x : Ptr)
    (h : Reached ⟨refsOf sch w, incl, want⟩ roots x) :
    x ∈ roots ++ w.flatMap fun u => u.objects.flatMap fun o => o.items.flatMap Item.refs := by
  cases h with
  | root h _ => exact List.mem_append_left _ h
  | ref _ ed =>
    rename_i y _
    refine List.mem_append_right _ ?_
    have hm : x ∈ refsOf sch w y := ed.2.2
    unfold refsOf at hm
    split at hm
    · rename_i o ho
      unfold objAt at ho
      split at ho
      · rename_i u hu
        rw [objectAt_iff hp] at ho
        have hou : o ∈ u.objects := by
          rw [← walk_snd (sch := sch) u.objects 0]
          exact List.mem_map.mpr ⟨_, ho, rfl⟩
        have huw : u ∈ w := by
          unfold World.get at hu
          split at hu
          · simp at hu
          · exact List.mem_of_getElem? hu
        exact List.mem_flatMap.mpr ⟨u, huw, List.mem_flatMap.mpr ⟨o, hou, hm⟩⟩
      · simp at ho
    · simp at hm

/-- The reachable references of a world, for the depth of the recursion. -/
def enough (w : World) (roots : List Ptr) : Nat :=
  (roots ++ w.flatMap fun u => u.objects.flatMap fun o => o.items.flatMap Item.refs).length + 1

/-- **C77.**  Let no arena depend on itself.  When `object_copy` succeeds, the objects that were copied
    lead to wanted ones and were reached from the roots, in arenas between those of the roots; all
    wanted objects that are reached are among them; and if objects on cycles are all wanted, they are
    exactly those.  They are mapped to different new objects in the global arena.  Each new object
    is the image of its original: references to copied objects are replaced by the copies and
    nothing else is different.  All objects that there were are unchanged.  The global
    arena depends on every other arena to which a copy refers, and these are frozen. -/
theorem copy_partial (sch : Schema) (hp : sch.Positive) (n : Nat) (w w' : World) (gkey : Nat) (roots roots' : List Ptr)
    (want : Ptr → Bool) (h : objectCopy sch n w gkey roots want = .ok (w', roots'))
    (ga : Unit) (hga : w.get gkey = some ga)
    (rank : Nat → Nat) (hr : ∀ a, ∀ d ∈ depsOf w a, rank d < rank a)
    (hn : ∀ r ∈ roots, rank r.key < n) (hn2 : enough w roots ≤ n) :
    ∃ (incl : Ptr → Bool) (m : List Ptr) (φ : Ptr → Ptr) (ga' : Unit) (cs : List Object),
      (∀ p, incl p = true ↔
        (∃ r ∈ roots, Depends (depsOf w) r.key p.key) ∧ (∃ r ∈ roots, Depends (depsOf w) p.key r.key)) ∧
      (∀ x ∈ m, Reached ⟨refsOf sch w, incl, want⟩ roots x ∧ Needs ⟨refsOf sch w, incl, want⟩ x) ∧
      (∀ x, Reached ⟨refsOf sch w, incl, want⟩ roots x → want x = true → x ∈ m) ∧
      ((∀ x, Path ⟨refsOf sch w, incl, want⟩ x x → want x = true) →
        ∀ x, x ∈ m ↔ Reached ⟨refsOf sch w, incl, want⟩ roots x ∧ Needs ⟨refsOf sch w, incl, want⟩ x) ∧
      (∀ x ∈ m, ∃ o c, objAt sch w x = some o ∧ objAt sch w' (φ x) = some c ∧ Image φ o c ∧
        (φ x).key = gkey ∧ used sch ga.objects ≤ (φ x).off) ∧
      (∀ x ∈ m, ∀ y ∈ m, φ x = φ y → x = y) ∧
      (∀ x, x ∉ m → φ x = x) ∧
      (∀ p o, objAt sch w p = some o → objAt sch w' p = some o) ∧
      roots' = roots.map φ ∧
      w'.length = w.length ∧ (∀ k, k ≠ gkey → w'.get k = w.get k) ∧ w'.get gkey = some ga' ∧
      ga'.objects = ga.objects ++ cs ∧ cs.length = m.length ∧ used sch ga'.objects ≤ ga.limit ∧
      (∀ c ∈ cs, ∀ p ∈ c.items.flatMap Item.refs, p.key ≠ gkey →
        p.key ∈ ga'.deps ∧ ∃ u, w'.get p.key = some u ∧ u.frozen = true) ∧
      (∀ d ∈ ga.deps, d ∈ ga'.deps) := by
  obtain ⟨fl, m, φ, ga', ⟨seen, hm⟩, hfl, q1, q2, q3, q4, q5, q6, q7, ⟨cs, q8, q9, q10, q11⟩, q12⟩ :=
    copy_result sch hp n w w' gkey roots roots' want h ga hga
  obtain ⟨fl', e, har⟩ := arenas (depsOf w) (roots.map (·.key)) rank hr n (by
    intro a ha
    obtain ⟨r, hr, rfl⟩ := List.mem_map.mp ha
    exact hn r hr)
  have e2 : some fl = some fl' := hfl.symm.trans e
  cases e2
  obtain ⟨st, e3, nd, c1, c2, c3⟩ := copied_partial
    ⟨refsOf sch w, fun p => (Flags.get fl p.key).getD false, want⟩ roots _
    (reached_finite sch hp w _ want roots) n (Nat.lt_of_lt_of_le (Nat.lt_succ_self _) hn2)
  have e4 : some (⟨seen, m⟩ : St Ptr) = some st := hm.symm.trans e3
  cases e4
  obtain ⟨q1a, q1b⟩ := q1 nd
  refine ⟨fun p => (Flags.get fl p.key).getD false, m, φ, ga', cs, ?_, c1, c2, c3, q1a, q1b, q2, q3, q4, q5, q6, q7,
    q8, q9, q10, q11, q12⟩
  intro p
  rw [har p.key]
  constructor
  · rintro ⟨⟨a, ha, h1⟩, ⟨b, hb, h2⟩⟩
    obtain ⟨r, hr, rfl⟩ := List.mem_map.mp ha
    obtain ⟨s, hs, rfl⟩ := List.mem_map.mp hb
    exact ⟨⟨r, hr, h1⟩, ⟨s, hs, h2⟩⟩
  · rintro ⟨⟨r, hr, h1⟩, ⟨s, hs, h2⟩⟩
    exact ⟨⟨_, List.mem_map.mpr ⟨r, hr, rfl⟩, h1⟩, ⟨_, List.mem_map.mpr ⟨s, hs, rfl⟩, h2⟩⟩

/-! ### Cycles -/

/-- A recursive function in a generate statement: the statement (0) refers to the function body (1);
    the body refers to a call of itself (2) and to a name that denotes the generate parameter (3);
    the call refers to the body.  Only the name is wanted. -/
def recursiveFunction : Graph Nat where
  refs := fun | 0 => [1] | 1 => [2, 3] | 2 => [1] | _ => []
  incl := fun _ => true
  want := fun x => x == 3

/-- **C77.**  The copy of a recursive function calls the original: the call leads to a wanted
    object, through the function that is being visited, and refers to an object that is
    copied, but it is not copied itself.  For instance for `elab_copy_genvar_cb`,
    /repo/src/elab.c:1736-1740 and 1830-1832. -/
theorem cycle_counterexample :
    ∃ st, markRoots recursiveFunction 10 ⟨[], []⟩ [0] = some st ∧ 1 ∈ st.map ∧ 2 ∉ st.map ∧
      Reached recursiveFunction [0] 2 ∧ Needs recursiveFunction 2 := by
  refine ⟨_, rfl, by decide, by decide, ?_, ?_⟩
  · exact .ref (.ref (.root (List.mem_singleton.mpr rfl) rfl) (y := 1) ⟨rfl, rfl, by decide⟩) ⟨rfl, rfl, by decide⟩
  · exact .ref (y := 1) ⟨rfl, rfl, by decide⟩
      (.ref (y := 3) ⟨rfl, rfl, by decide⟩ (.self rfl rfl))

/-- With the function wanted, as for instances, the call is copied too. -/
example : (markRoots { recursiveFunction with want := fun x => x == 3 || x == 1 } 10 ⟨[], []⟩ [0]).map (·.map)
    = some [1, 2, 3, 0] := by decide

/-! ### Examples -/

/-- Kind 0 has an object and an array, kind 1 an integer, kind 2 a text. -/
def sampleSchema : Schema where
  items := fun _ k => if k = 0 then [.object, .array] else if k = 1 then [.int] else [.text]
  units := fun _ _ => 2
  root := fun _ _ => false
  hasLoc := fun _ => true
  named := fun _ _ => false
  lastKind := fun _ => 3

def sampleArena (frozen : Bool) (deps : List Nat) (objs : List Object) : Unit where
  objects := objs
  limit := 100
  forward := none
  liveUnits := 0
  flags := 0
  deps := deps
  root := none
  fresh := true
  std := 0
  checksum := 0
  frozen := frozen
  obsolete := false

/-- Arena 1 is not involved; arena 2 has the root, which refers to a wanted object and to one
    of arena 1; arena 3 is the global one. -/
def sampleWorld : World := [
  sampleArena true [] [⟨0, 1, 5, [.int 7]⟩],
  sampleArena true [1] [⟨0, 0, 6, [.object (some ⟨1, 0⟩), .array (some [some ⟨2, 2⟩, none, some ⟨2, 4⟩])]⟩,
    ⟨0, 1, 7, [.int 8]⟩, ⟨0, 1, 8, [.int 9]⟩],
  sampleArena false [] [⟨0, 1, 9, [.int 10]⟩]]

def okOf {β : Type} : Result β → Option β
  | .ok x => some x
  | _ => none

example : ((okOf (objectCopy sampleSchema 20 sampleWorld 3 [⟨2, 0⟩] fun p => p == ⟨2, 4⟩)).map fun r =>
      ((World.get r.1 3).map fun u => (u.objects, u.deps), r.2))
    = some (some ([⟨0, 1, 9, [.int 10]⟩, ⟨0, 1, 8, [.int 9]⟩,
        ⟨0, 0, 6, [.object (some ⟨1, 0⟩), .array (some [some ⟨2, 2⟩, none, some ⟨3, 2⟩])]⟩], [1, 2]), [⟨3, 4⟩]) := by
  decide

example : sampleSchema.Positive := by
  intro t k; exact (by decide : 0 < 2)

example : enough sampleWorld [⟨2, 0⟩] ≤ 20 := by decide

example : ∀ a, ∀ d ∈ depsOf sampleWorld a, (fun k => if k = 2 then 1 else 0) d < (fun k => if k = 2 then 1 else 0) a := by
  intro a d hd
  by_cases h : a = 2
  · subst h
    rw [List.mem_singleton.mp (show d ∈ [1] from hd)]
    decide
  · exfalso
    unfold depsOf World.get sampleWorld at hd
    rcases a with _ | _ | _ | _ | a <;> simp [sampleArena] at hd h

end Verif.Obj.Copy
