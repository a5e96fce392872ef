import Verif.Obj.IoSpec

/-
An arena that is written to a library and read back is the same.
-/

namespace Verif.Obj

theorem All2.length {α β : Type} {R : α → β → Prop} {l : List α} {m : List β} (h : All2 R l m) :
    m.length = l.length := by
  induction h with
  | nil => rfl
  | cons _ _ ih => simp [ih]

theorem All2.append {α β : Type} {R : α → β → Prop} {a c : List α} {b d : List β} (h : All2 R a b) (g : All2 R c d) :
    All2 R (a ++ c) (b ++ d) := by
  induction h with
  | nil => exact g
  | cons r _ ih => exact .cons r ih

theorem All2.split {α β : Type} {R : α → β → Prop} {a c : List α} {b : List β} {x : α} (h : All2 R (a ++ x :: c) b) :
    ∃ b1 y b2, b = b1 ++ y :: b2 ∧ All2 R a b1 ∧ R x y ∧ All2 R c b2 := by
  induction a generalizing b with
  | nil => cases h with | cons r t => exact ⟨[], _, _, rfl, .nil, r, t⟩
  | cons p a ih =>
    cases h with
    | cons r t =>
      obtain ⟨b1, y, b2, rfl, h1, h2, h3⟩ := ih t
      exact ⟨_ :: b1, y, b2, rfl, .cons r h1, h2, h3⟩

theorem ObjectImage.size {sch : Schema} {φ : Ptr → Option Ptr} {o o' : Object} (h : ObjectImage φ o o') :
    sch.size o' = sch.size o := by unfold Schema.size; rw [h.tag, h.kind]

theorem All2.sizes {sch : Schema} {φ : Ptr → Option Ptr} {l m : List Object} (h : All2 (ObjectImage φ) l m) :
    m.map sch.size = l.map sch.size := by
  induction h with
  | nil => rfl
  | cons r _ ih => simp [r.size, ih]

/-! ### References -/

/-- A reference that can be written: to an object of the arena or of a
    dependency that has a place. -/
def RefOk (φ : Ptr → Option Ptr) (p : Option Ptr) : Prop := ∀ q, p = some q → (φ q).isSome = true

theorem header (tag kind : Nat) (h : tag < 4) : (tag ||| kind <<< 2) &&& 3 = tag ∧ (tag ||| kind <<< 2) >>> 2 = kind ∧
    (kind < 256 → (tag ||| kind <<< 2) < 65535) := by
  have e : tag ||| kind <<< 2 = kind <<< 2 + tag := by
    rw [Nat.or_comm, Nat.shiftLeft_add_eq_or_of_lt (by simpa using h)]
  rw [e]
  have e3 : (kind <<< 2 + tag) &&& 3 = (kind <<< 2 + tag) % 4 := Nat.and_two_pow_sub_one_eq_mod _ 2
  rw [e3, Nat.shiftRight_eq_div_pow, Nat.shiftLeft_eq]
  omega

structure Keys (sch : Schema) (w v : World) (κ : Nat → Option Nat) (me maxKey : Nat) (km : Nat → Nat) : Prop where
  pos : ∀ d d', κ d = some d' → 0 < d ∧ 0 < d' ∧ d ≤ maxKey ∧ km d = d'
  inside : ∀ d d' u x off, κ d = some d' → d' ≠ me → w.get d = some u → offsetInFile u x = some off →
    (∃ o, At sch u.objects x o) → ∃ u', v.get d' = some u' ∧ off < used sch u'.objects

theorem stored_eq {u : Unit} {x off : Nat} (h : offsetInFile u x = some off) : stored u x = off := by
  unfold offsetInFile at h
  unfold stored
  cases hf : u.forward with
  | none => rw [hf] at h; simpa using h
  | some f => rw [hf] at h; simp only at h ⊢; rw [h]

/-- A reference is to an object. -/
def RefAt (sch : Schema) (w : World) (p : Option Ptr) : Prop :=
  ∀ q u, p = some q → w.get q.key = some u → ∃ o, At sch u.objects q.off o

theorem readRef_write {sch : Schema} {w v : World} {κ : Nat → Option Nat} {self maxKey : Nat} {km : Nat → Nat}
    (hk : Keys sch w v κ self maxKey km) (p : Option Ptr) (h : RefOk (place w κ) p) (ha : RefAt sch w p)
    (rest : List Tok) :
    ∃ q, RefImage (place w κ) p q ∧ readRef sch v self maxKey km (writeRef w p ++ rest) = .ok q rest := by
  cases p with
  | none => exact ⟨none, .null, by simp [writeRef, readRef, getUint, Rd.bind]⟩
  | some p =>
    have hs := h p rfl
    obtain ⟨q, hq⟩ := Option.isSome_iff_exists.mp hs
    refine ⟨some q, .ref hq, ?_⟩
    unfold place at hq
    obtain ⟨d', hd, hq⟩ := Option.bind_eq_some_iff.mp hq
    obtain ⟨u, hu, hq⟩ := Option.bind_eq_some_iff.mp hq
    obtain ⟨off, ho, rfl⟩ := Option.map_eq_some_iff.mp hq
    obtain ⟨h1, h2, h3, h4⟩ := hk.pos _ _ hd
    unfold writeRef readRef
    simp only [hu, List.cons_append, List.nil_append, getUint, Rd.bind, stored_eq ho, h4]
    rw [if_neg (by omega), if_neg (by omega), if_neg (by omega)]
    by_cases hself : d' = self
    · rw [if_pos hself]
    · rw [if_neg hself]
      obtain ⟨u', hu', hlt⟩ := hk.inside _ _ _ _ _ hd hself hu ho (ha p u rfl hu)
      rw [hu']
      simp only
      rw [if_neg (by omega)]

theorem readRefs_write {sch : Schema} {w v : World} {κ : Nat → Option Nat} {self maxKey : Nat} {km : Nat → Nat}
    (hk : Keys sch w v κ self maxKey km) (l : List (Option Ptr)) (h : ∀ p ∈ l, RefOk (place w κ) p)
    (ha : ∀ p ∈ l, RefAt sch w p) (rest : List Tok) :
    ∃ m, All2 (RefImage (place w κ)) l m ∧
      readRefs sch v self maxKey km l.length (l.flatMap (writeRef w) ++ rest) = .ok m rest := by
  induction l with
  | nil => exact ⟨[], .nil, by simp [readRefs]⟩
  | cons p l ih =>
    obtain ⟨m, hm, hr⟩ := ih (fun q hq => h q (by simp [hq])) (fun q hq => ha q (by simp [hq]))
    obtain ⟨q, hq, hr'⟩ := readRef_write hk p (h p (by simp)) (ha p (by simp)) (l.flatMap (writeRef w) ++ rest)
    refine ⟨q :: m, .cons hq hm, ?_⟩
    simp only [List.length_cons, List.flatMap_cons, List.append_assoc, readRefs, hr', Rd.bind, hr]

/-- What an item refers to. -/
def ItemRefs (P : Option Ptr → Prop) : Item → Prop
  | .object p => P p
  | .array (some l) => ∀ p ∈ l, P p
  | _ => True

theorem readItem_write {sch : Schema} {w v : World} {κ : Nat → Option Nat} {self maxKey : Nat} {km : Nat → Nat}
    (hk : Keys sch w v κ self maxKey km) (i : Item) (h : ItemRefs (RefOk (place w κ)) i) (ha : ItemRefs (RefAt sch w) i)
    (rest : List Tok) :
    ∃ j, ItemImage (place w κ) i j ∧ readItem sch v self maxKey km i.field (writeItem w i ++ rest) = .ok j rest := by
  cases i with
  | ident n => exact ⟨_, .ident n, by simp [readItem, writeItem, Item.field, getIdent, Rd.bind]⟩
  | object p =>
    obtain ⟨q, hq, hr⟩ := readRef_write hk p h ha rest
    exact ⟨_, .object hq, by simp [readItem, writeItem, Item.field, hr, Rd.bind]⟩
  | array a =>
    cases a with
    | none =>
      refine ⟨.array none, .array .nil, ?_⟩
      simp [readItem, writeItem, Item.field, getUint, Rd.bind]
    | some l =>
      obtain ⟨m, hm, hr⟩ := readRefs_write hk l h ha rest
      cases l with
      | nil =>
        cases hm
        exact ⟨.array none, .array .nil, by simp [readItem, writeItem, Item.field, getUint, Rd.bind]⟩
      | cons p l =>
        refine ⟨.array (some m), .array hm, ?_⟩
        simp only [readItem, writeItem, Item.field, List.cons_append, getUint, Rd.bind]
        rw [if_pos (by simp), hr]
  | int x => exact ⟨_, .int x, by simp [readItem, writeItem, Item.field]⟩
  | double x => exact ⟨_, .double x, by simp [readItem, writeItem, Item.field]⟩
  | text s => exact ⟨_, .text s, by simp [readItem, writeItem, Item.field, getUint, Rd.bind]⟩
  | number x => exact ⟨_, .number x, by simp [readItem, writeItem, Item.field]⟩

theorem readItems_write {sch : Schema} {w v : World} {κ : Nat → Option Nat} {self maxKey : Nat} {km : Nat → Nat}
    (hk : Keys sch w v κ self maxKey km) (l : List Item) (h : ∀ i ∈ l, ItemRefs (RefOk (place w κ)) i)
    (ha : ∀ i ∈ l, ItemRefs (RefAt sch w) i) (rest : List Tok) :
    ∃ m, All2 (ItemImage (place w κ)) l m ∧
      readItems sch v self maxKey km (l.map Item.field) (l.flatMap (writeItem w) ++ rest) = .ok m rest := by
  induction l with
  | nil => exact ⟨[], .nil, by simp [readItems]⟩
  | cons i l ih =>
    obtain ⟨m, hm, hr⟩ := ih (fun q hq => h q (by simp [hq])) (fun q hq => ha q (by simp [hq]))
    obtain ⟨j, hj, hr'⟩ := readItem_write hk i (h i (by simp)) (ha i (by simp)) (l.flatMap (writeItem w) ++ rest)
    refine ⟨j :: m, .cons hj hm, ?_⟩
    simp only [List.map_cons, List.flatMap_cons, List.append_assoc, readItems, hr', Rd.bind, hr]

/-! ### Objects -/

/-- The offset of the first root. -/
def firstRoot (sch : Schema) : Nat → List Object → Option Nat
  | _, [] => none
  | off, o :: os => if sch.isRoot o then some off else firstRoot sch (off + sch.size o) os

theorem readObjects_write {sch : Schema} (hlast : ∀ t, sch.lastKind t < 256) {w v : World} {κ : Nat → Option Nat}
    {self maxKey : Nat} {km : Nat → Nat} (hk : Keys sch w v κ self maxKey km) (os : List Object)
    (ht : ∀ o ∈ os, WellTyped sch o) (h : ∀ o ∈ os, ∀ i ∈ o.items, ItemRefs (RefOk (place w κ)) i)
    (ha : ∀ o ∈ os, ∀ i ∈ o.items, ItemRefs (RefAt sch w) i) (rest : List Tok) :
    ∀ (n : Nat) (u : Unit), os.length < n → used sch u.objects + (os.map sch.size).sum ≤ u.limit →
      ∃ us, All2 (ObjectImage (place w κ)) os us ∧
        readObjects sch v self maxKey km n u (os.flatMap (writeObject sch w) ++ .uint 65535 :: rest) =
          .ok { u with
            objects := u.objects ++ us
            root := u.root.or (firstRoot sch (used sch u.objects) us) } rest := by
  induction os with
  | nil =>
    intro n u hn _
    obtain ⟨n, rfl⟩ : ∃ m, n = m + 1 := ⟨n - 1, by simp at hn; omega⟩
    refine ⟨[], .nil, ?_⟩
    simp [readObjects, getUint, Rd.bind, firstRoot]
  | cons o os ih =>
    intro n u hn hl
    obtain ⟨n, rfl⟩ : ∃ m, n = m + 1 := ⟨n - 1, by simp at hn; omega⟩
    have hto := ht o (by simp)
    obtain ⟨hd1, hd2, hd3⟩ := header o.tag o.kind hto.tag
    have hd4 := hd3 (Nat.lt_trans hto.kind (hlast _))
    obtain ⟨items, hi, hri⟩ := readItems_write hk o.items (h o (by simp)) (ha o (by simp))
      (os.flatMap (writeObject sch w) ++ .uint 65535 :: rest)
    have himg : ObjectImage (place w κ) o ⟨o.tag, o.kind, o.loc, items⟩ := ⟨rfl, rfl, rfl, hi⟩
    simp only [List.map_cons, List.sum_cons] at hl
    have hsz : sch.size ⟨o.tag, o.kind, o.loc, items⟩ = sch.size o := rfl
    have hused : used sch (u.objects ++ [⟨o.tag, o.kind, o.loc, items⟩]) = used sch u.objects + sch.size o := by
      simp [used, hsz]
    obtain ⟨us, hus, hr⟩ := ih (fun x hx => ht x (by simp [hx])) (fun x hx => h x (by simp [hx]))
      (fun x hx => ha x (by simp [hx])) n
      { u with
        objects := u.objects ++ [⟨o.tag, o.kind, o.loc, items⟩]
        root := if u.root = none ∧ sch.isRoot ⟨o.tag, o.kind, o.loc, items⟩ = true then some (used sch u.objects) else u.root }
      (by simp at hn; omega) (by simp only; rw [hused]; omega)
    refine ⟨_ :: us, .cons himg hus, ?_⟩
    rw [readObjects]
    have hloc : readLoc (sch.hasLoc o.tag) (((if sch.hasLoc o.tag then [Tok.loc o.loc] else []) ++
        o.items.flatMap (writeItem w)) ++ (os.flatMap (writeObject sch w) ++ .uint 65535 :: rest)) =
        .ok o.loc (o.items.flatMap (writeItem w) ++ (os.flatMap (writeObject sch w) ++ .uint 65535 :: rest)) := by
      cases hh : sch.hasLoc o.tag
      · simp [readLoc, hto.loc hh]
      · simp [readLoc]
    simp only [List.flatMap_cons, List.append_assoc]
    rw [writeObject]
    simp only [List.cons_append, getUint, Rd.bind, hd1, hd2]
    rw [if_neg (by omega), if_neg (by have := hto.kind; omega)]
    rw [hloc]
    simp only
    rw [← hto.fields, hri]
    simp only [objectNew, hsz]
    rw [if_neg (by omega)]
    simp only
    rw [hr]
    simp only [hused, List.append_assoc, List.cons_append, List.nil_append]
    congr 2
    rw [firstRoot]
    have hir : sch.isRoot ⟨o.tag, o.kind, o.loc, items⟩ = sch.isRoot o := rfl
    rw [hir, hsz]
    cases u.root <;> cases sch.isRoot o <;> simp

end Verif.Obj
