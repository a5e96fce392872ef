import Verif.Cov.MergeLemmas

/-!
# Merging coverage databases makes the union of their bins (C85)
-/

namespace Verif.Cov

/-! ## Scopes -/

theorem at_none {s : Scopes} {n : Name} (h : n ∉ s.names) (p : List Name) : s.at n p = none := by
  induction s with
  | nil => rfl
  | cons name info items children next _ ih =>
    simp only [Scopes.names, List.mem_cons, not_or] at h
    simp only [Scopes.at]
    rw [if_neg h.1]; exact ih h.2

/-- The items below one scope. -/
def here (items : List Item) (children : Scopes) : List Name → Option (List Item)
  | [] => some items
  | m :: q => children.at m q

theorem at_cons (name : Name) (info : Info) (items : List Item) (children next : Scopes) (n : Name) (p : List Name) :
    (Scopes.cons name info items children next).at n p = if n = name then here items children p else next.at n p := by
  cases p <;> rfl

/-- `r` is the union of `a` and `b`, as sets of bins. -/
def Union (a b r : Option (List Item)) : Prop :=
  ∀ k, (r.bind fun l => binOf l k) = union (a.bind fun l => binOf l k) (b.bind fun l => binOf l k)

theorem Union.left (a : Option (List Item)) : Union a none a := fun k => by
  simp [union_none_right]

theorem Union.right (a : Option (List Item)) : Union none a a := fun k => by
  simp [union]

theorem mergeInto_spec {name : Name} {info : Info} {items : List Item} {children : Scopes}
    {f : Scopes → Option Scopes} (hi : ItemsOk items) (hc : children.Ok)
    (hf : ∀ c r, c.Ok → f c = some r → r.Ok ∧ ∀ n p, Union (c.at n p) (children.at n p) (r.at n p)) :
    ∀ (old r : Scopes), old.Ok → mergeInto name info items children f old = some r →
      r.Ok ∧ (∀ m, m ∈ r.names ↔ m ∈ old.names ∨ m = name) ∧
      (∀ n p, n ≠ name → r.at n p = old.at n p) ∧
      ∀ p, Union (old.at name p) (here items children p) (r.at name p) := by
  intro old
  induction old with
  | nil =>
    intro r _ h
    simp only [mergeInto] at h
    cases h
    refine ⟨⟨by simp [Scopes.names], hi, hc, trivial⟩, by simp [Scopes.names], fun n p hn => ?_, fun p => ?_⟩
    · rw [at_cons, if_neg hn]
    · rw [at_cons, if_pos rfl]; exact Union.right _
  | cons name' info' items' children' next' _ ih =>
    intro r ho h
    obtain ⟨o1, o2, o3, o4⟩ := ho
    simp only [mergeInto] at h
    by_cases hn : name = name'
    · subst hn
      rw [if_pos rfl] at h
      obtain ⟨items2, h1, h⟩ := Option.bind_eq_some_iff.mp h
      obtain ⟨children2, h2, h⟩ := Option.map_eq_some_iff.mp h
      subst h
      obtain ⟨a1, a2⟩ := mergeItems_spec o2 hi h1
      obtain ⟨b1, b2⟩ := hf _ _ o3 h2
      refine ⟨⟨o1, a1, b1, o4⟩, fun m => ?_, fun n p hne => ?_, fun p => ?_⟩
      · simp only [Scopes.names, List.mem_cons]
        constructor
        · exact Or.inl
        · rintro (h | h)
          · exact h
          · exact Or.inl h
      · rw [at_cons, at_cons, if_neg hne, if_neg hne]
      · rw [at_cons, at_cons, if_pos rfl, if_pos rfl]
        cases p with
        | nil => exact a2
        | cons m q => exact b2 m q
    · rw [if_neg hn] at h
      obtain ⟨n2, h1, h⟩ := Option.map_eq_some_iff.mp h
      subst h
      obtain ⟨a1, a2, a3, a4⟩ := ih _ o4 h1
      refine ⟨⟨?_, o2, o3, a1⟩, fun m => ?_, fun n p hne => ?_, fun p => ?_⟩
      · rw [a2]
        rintro (h | h)
        · exact o1 h
        · exact hn h.symm
      · simp only [Scopes.names, List.mem_cons, a2, or_assoc]
      · rw [at_cons, at_cons]
        by_cases he : n = name'
        · rw [if_pos he, if_pos he]
        · rw [if_neg he, if_neg he]; exact a3 n p hne
      · rw [at_cons, at_cons, if_neg hn, if_neg hn]; exact a4 p

theorem mergeKids_spec : ∀ (new old r : Scopes), old.Ok → new.Ok → mergeKids new old = some r →
    r.Ok ∧ ∀ n p, Union (old.at n p) (new.at n p) (r.at n p) := by
  intro new
  induction new with
  | nil =>
    intro old r ho _ h
    simp only [mergeKids] at h
    cases h
    exact ⟨ho, fun n p => Union.left _⟩
  | cons name info items children next ihc ihn =>
    intro old r ho hn h
    obtain ⟨n1, n2, n3, n4⟩ := hn
    simp only [mergeKids] at h
    obtain ⟨r1, h1, h⟩ := Option.bind_eq_some_iff.mp h
    obtain ⟨a1, a2, a3, a4⟩ := mergeInto_spec n2 n3 (fun c r hc h => ihc c r hc n3 h) old r1 ho h1
    obtain ⟨b1, b2⟩ := ihn r1 r a1 n4 h
    refine ⟨b1, fun n p => ?_⟩
    rw [at_cons]
    have hb := b2 n p
    by_cases he : n = name
    · subst he
      rw [if_pos rfl]
      rw [at_none n1] at hb
      intro k
      rw [hb k]
      simp only [Option.bind_none, union_none_right]
      exact a4 p k
    · rw [if_neg he, ← a3 n p he]
      exact hb

/-- Merging two databases makes the union of their bins; the bins in both are added.  The result is again a
database that can be merged. -/
theorem merge_union {old new r : Db} (ho : old.Ok) (hn : new.Ok) (h : mergeDb old new = some r) :
    r.Ok ∧ ∀ p k, r.bin p k = union (old.bin p k) (new.bin p k) := by
  simp only [mergeDb] at h
  obtain ⟨items, h1, h⟩ := Option.bind_eq_some_iff.mp h
  obtain ⟨children, h2, h⟩ := Option.map_eq_some_iff.mp h
  subst h
  obtain ⟨a1, a2⟩ := mergeItems_spec ho.1 hn.1 h1
  obtain ⟨b1, b2⟩ := mergeKids_spec _ _ _ ho.2 hn.2 h2
  refine ⟨⟨a1, b1⟩, fun p k => ?_⟩
  cases p with
  | nil => exact a2 k
  | cons n p => exact b2 n p k

/-- Merging any number of databases makes the union of all their bins. -/
theorem merge_all_union : ∀ (l : List Db) (db r : Db), db.Ok → (∀ d ∈ l, d.Ok) → mergeAll db l = some r →
    r.Ok ∧ ∀ p k, r.bin p k = unions ((db :: l).map fun d => d.bin p k) := by
  intro l
  induction l with
  | nil =>
    intro db r hd _ h
    simp only [mergeAll] at h
    cases h
    exact ⟨hd, fun p k => by simp [unions, union_none_right]⟩
  | cons new l ih =>
    intro db r hd hl h
    simp only [mergeAll] at h
    obtain ⟨db1, h1, h⟩ := Option.bind_eq_some_iff.mp h
    obtain ⟨a1, a2⟩ := merge_union hd (hl new List.mem_cons_self) h1
    obtain ⟨b1, b2⟩ := ih db1 r a1 (fun d hd => hl d (List.mem_cons_of_mem _ hd)) h
    refine ⟨b1, fun p k => ?_⟩
    rw [b2 p k]
    simp only [List.map_cons, unions, List.foldr_cons]
    rw [a2 p k, union_assoc]

theorem unions_perm {a b : List (Option Bin)} (h : a.Perm b) : unions a = unions b := by
  induction h with
  | nil => rfl
  | cons x _ ih => simp only [unions, List.foldr_cons] at ih ⊢; rw [ih]
  | swap x y l =>
    simp only [unions, List.foldr_cons]
    rw [← union_assoc, ← union_assoc, union_comm y x]
  | trans _ _ ih1 ih2 => exact ih1.trans ih2

/-- The bins do not depend on the order of the files. -/
theorem merge_order {a b r r' : Db} {l l' : List Db} (hp : (a :: l).Perm (b :: l')) (hl : ∀ d ∈ a :: l, d.Ok)
    (h : mergeAll a l = some r) (h' : mergeAll b l' = some r') (p : List Name) (k : Key) : r.bin p k = r'.bin p k := by
  have hl' : ∀ d ∈ b :: l', d.Ok := fun d hd => hl d (hp.mem_iff.mpr hd)
  rw [(merge_all_union l a r (hl a List.mem_cons_self) (fun d hd => hl d (List.mem_cons_of_mem _ hd)) h).2,
    (merge_all_union l' b r' (hl' b List.mem_cons_self) (fun d hd => hl' d (List.mem_cons_of_mem _ hd)) h').2]
  exact unions_perm (hp.map _)

/-! ## When merging fails -/

/-- The items of `a` all come first in `b`, and more follow. -/
def Grown (a b : List Item) : Prop :=
  a.length < b.length ∧ ∀ x ∈ b.take a.length, x.key ∈ a.map Item.key

instance (a b : List Item) : Decidable (Grown a b) := by unfold Grown; infer_instance

/-- Bins with the same key are of the same kind. -/
def Scopes.Agree (old new : Scopes) : Prop := ∀ n p a b, old.at n p = some a → new.at n p = some b → Cov.Agree a b

/-- The items and the children of the scope with some name. -/
def Scopes.look : Scopes → Name → Option (List Item × Scopes)
  | .nil, _ => none
  | .cons name _ items children next, n => if n = name then some (items, children) else next.look n

theorem at_look (s : Scopes) (n : Name) (p : List Name) : s.at n p = (s.look n).bind fun x => here x.1 x.2 p := by
  induction s with
  | nil => rfl
  | cons name info items children next _ ih =>
    rw [at_cons]
    simp only [Scopes.look]
    by_cases h : n = name
    · rw [if_pos h, if_pos h]; rfl
    · rw [if_neg h, if_neg h, ih]

theorem look_ok {s : Scopes} (hs : s.Ok) {n : Name} {i : List Item} {c : Scopes} (h : s.look n = some (i, c)) :
    c.Ok := by
  induction s with
  | nil => simp [Scopes.look] at h
  | cons name info items children next _ ih =>
    simp only [Scopes.look] at h
    by_cases hn : n = name
    · rw [if_pos hn] at h; cases h; exact hs.2.2.1
    · rw [if_neg hn] at h; exact ih hs.2.2.2 h

theorem mergeInto_none {name : Name} {info : Info} {items : List Item} {children : Scopes}
    {f : Scopes → Option Scopes} : ∀ (old : Scopes),
      (mergeInto name info items children f old = none ↔
        ∃ i c, old.look name = some (i, c) ∧ (mergeItems i items = none ∨ f c = none)) := by
  intro old
  induction old with
  | nil => simp [mergeInto, Scopes.look]
  | cons name' info' items' children' next' _ ih =>
    simp only [mergeInto, Scopes.look]
    by_cases hn : name = name'
    · subst hn
      rw [if_pos rfl, if_pos rfl]
      constructor
      · intro h
        refine ⟨items', children', rfl, ?_⟩
        cases hm : mergeItems items' items with
        | none => exact Or.inl rfl
        | some i2 =>
          rw [hm, Option.bind_some] at h
          exact Or.inr (Option.map_eq_none_iff.mp h)
      · rintro ⟨i, c, h1, h⟩
        cases h1
        rcases h with h | h
        · rw [h]; rfl
        · cases hm : mergeItems items' items with
          | none => rfl
          | some i2 => rw [Option.bind_some, Option.map_eq_none_iff]; exact h
    · rw [if_neg hn, if_neg hn, Option.map_eq_none_iff, ih]

theorem at_mem_names {s : Scopes} {n : Name} {p : List Name} {a : List Item} (h : s.at n p = some a) : n ∈ s.names :=
  Decidable.byContradiction fun hn => by rw [at_none hn] at h; exact absurd h (by simp)

theorem at_itemsOk : ∀ {s : Scopes}, s.Ok → ∀ {n : Name} {p : List Name} {a : List Item}, s.at n p = some a →
    ItemsOk a := by
  intro s
  induction s with
  | nil => intro _ n p a h; simp [Scopes.at] at h
  | cons name info items children next ihc ihn =>
    intro hs n p a h
    rw [at_cons] at h
    by_cases hn : n = name
    · rw [if_pos hn] at h
      cases p with
      | nil => simp only [here] at h; cases h; exact hs.2.1
      | cons m q => exact ihc hs.2.2.1 h
    · rw [if_neg hn] at h; exact ihn hs.2.2.2 h

theorem mergeKids_none : ∀ (new old : Scopes), old.Ok → new.Ok → old.Agree new →
    (mergeKids new old = none ↔ ∃ n p a b, old.at n p = some a ∧ new.at n p = some b ∧ Grown a b) := by
  intro new
  induction new with
  | nil => intro old _ _ _; simp [mergeKids, Scopes.at]
  | cons name info items children next ihc ihn =>
    intro old ho hn ha
    obtain ⟨n1, n2, n3, n4⟩ := hn
    have kidsAgree : ∀ i c, old.look name = some (i, c) → c.Agree children ∧ Cov.Agree i items := by
      intro i c hl
      refine ⟨fun n p a b h1 h2 => ?_, ?_⟩
      · refine ha name (n :: p) a b ?_ ?_
        · rw [at_look, hl]; exact h1
        · rw [at_cons, if_pos rfl]; exact h2
      · refine ha name [] i items ?_ ?_
        · rw [at_look, hl]; rfl
        · rw [at_cons, if_pos rfl]; rfl
    have nextAgree : ∀ r1, mergeInto name info items children (mergeKids children) old = some r1 →
        r1.Ok ∧ r1.Agree next ∧ ∀ n p, n ≠ name → r1.at n p = old.at n p := by
      intro r1 h1
      obtain ⟨a1, _, a3, _⟩ := mergeInto_spec n2 n3 (fun c r hc h => mergeKids_spec children c r hc n3 h) old r1 ho h1
      refine ⟨a1, fun n p a b h1 h2 => ?_, a3⟩
      have hne : n ≠ name := fun e => n1 (e ▸ at_mem_names h2)
      refine ha n p a b ?_ ?_
      · rw [← a3 n p hne]; exact h1
      · rw [at_cons, if_neg hne]; exact h2
    simp only [mergeKids]
    constructor
    · intro h
      cases hm : mergeInto name info items children (mergeKids children) old with
      | none =>
        obtain ⟨i, c, hl, h⟩ := (mergeInto_none old).mp hm
        obtain ⟨k1, k2⟩ := kidsAgree i c hl
        rcases h with h | h
        · refine ⟨name, [], i, items, ?_, ?_, (mergeItems_none n2.1 k2).mp h⟩
          · rw [at_look, hl]; rfl
          · rw [at_cons, if_pos rfl]; rfl
        · obtain ⟨n, p, a, b, h1, h2, h3⟩ := (ihc c (look_ok ho hl) n3 k1).mp h
          refine ⟨name, n :: p, a, b, ?_, ?_, h3⟩
          · rw [at_look, hl]; exact h1
          · rw [at_cons, if_pos rfl]; exact h2
      | some r1 =>
        rw [hm, Option.bind_some] at h
        obtain ⟨a1, a2, a3⟩ := nextAgree r1 hm
        obtain ⟨n, p, a, b, h1, h2, h3⟩ := (ihn r1 a1 n4 a2).mp h
        have hne : n ≠ name := fun e => n1 (e ▸ at_mem_names h2)
        refine ⟨n, p, a, b, ?_, ?_, h3⟩
        · rw [← a3 n p hne]; exact h1
        · rw [at_cons, if_neg hne]; exact h2
    · rintro ⟨n, p, a, b, h1, h2, h3⟩
      rw [at_cons] at h2
      by_cases he : n = name
      · subst he
        rw [if_pos rfl] at h2
        rw [at_look] at h1
        obtain ⟨⟨i, c⟩, hl, h1⟩ := Option.bind_eq_some_iff.mp h1
        obtain ⟨k1, k2⟩ := kidsAgree i c hl
        have : mergeInto n info items children (mergeKids children) old = none := by
          rw [mergeInto_none]
          refine ⟨i, c, hl, ?_⟩
          cases p with
          | nil =>
            simp only [here] at h1 h2
            cases h1; cases h2
            exact Or.inl ((mergeItems_none n2.1 k2).mpr h3)
          | cons m q => exact Or.inr ((ihc c (look_ok ho hl) n3 k1).mpr ⟨m, q, a, b, h1, h2, h3⟩)
        rw [this]; rfl
      · rw [if_neg he] at h2
        cases hm : mergeInto name info items children (mergeKids children) old with
        | none => rfl
        | some r1 =>
          obtain ⟨a1, a2, a3⟩ := nextAgree r1 hm
          rw [Option.bind_some]
          exact (ihn r1 a1 n4 a2).mpr ⟨n, p, a, b, by rw [a3 n p he]; exact h1, h2, h3⟩

/-- Bins with the same path and key are of the same kind. -/
def Db.Agree (old new : Db) : Prop := ∀ p a b, old.at p = some a → new.at p = some b → Cov.Agree a b

/-- Merging two databases fails if and only if some scope that is in both has in the second database first all
the items of the first, in any order, and then more. -/
theorem merge_fails_iff {old new : Db} (ho : old.Ok) (hn : new.Ok) (ha : old.Agree new) :
    mergeDb old new = none ↔ ∃ p a b, old.at p = some a ∧ new.at p = some b ∧ Grown a b := by
  have hi : Cov.Agree old.items new.items := ha [] _ _ rfl rfl
  have hk : old.children.Agree new.children := fun n p a b h1 h2 => ha (n :: p) a b h1 h2
  have e1 := mergeItems_none hn.1.1 hi
  have e2 := mergeKids_none _ _ ho.2 hn.2 hk
  simp only [mergeDb]
  constructor
  · intro h
    cases hm : mergeItems old.items new.items with
    | none => exact ⟨[], _, _, rfl, rfl, e1.mp hm⟩
    | some items =>
      rw [hm, Option.bind_some, Option.map_eq_none_iff] at h
      obtain ⟨n, p, a, b, h1, h2, h3⟩ := e2.mp h
      exact ⟨n :: p, a, b, h1, h2, h3⟩
  · rintro ⟨p, a, b, h1, h2, h3⟩
    cases p with
    | nil =>
      simp only [Db.at] at h1 h2
      cases h1; cases h2
      rw [e1.mpr h3]; rfl
    | cons n p =>
      cases hm : mergeItems old.items new.items with
      | none => rfl
      | some items =>
        rw [Option.bind_some, Option.map_eq_none_iff]
        exact e2.mpr ⟨n, p, a, b, h1, h2, h3⟩

/-- Merging works if no scope has more items in the second database than in the first, for example if both
are of the same design. -/
theorem merge_succeeds {old new : Db} (ho : old.Ok) (hn : new.Ok) (ha : old.Agree new)
    (hl : ∀ p a b, old.at p = some a → new.at p = some b → b.length ≤ a.length) : (mergeDb old new).isSome = true := by
  cases h : mergeDb old new with
  | some r => rfl
  | none =>
    obtain ⟨p, a, b, h1, h2, h3⟩ := (merge_fails_iff ho hn ha).mp h
    have := hl p a b h1 h2
    exact absurd h3.1 (by omega)

/-! ## Examples -/

def bits (l : List (Nat × Int × Int)) : List Item :=
  l.flatMap fun (i, a, b) => [{ kind := .toggle, hier := [115, i], flags := 0x30000, data := a },
    { kind := .toggle, hier := [115, i], flags := 0x28000, data := b }]

/-- A design with an instance of one signal, which has a scope of its own (cov-data.c 959-963). -/
def design (items : List Item) : Db := ⟨[], .cons [85] {} [] (.cons [115] {} items .nil .nil) .nil⟩

/-- A design with a signal `s : bit_vector(2 downto 1)`, then one with `s : bit_vector(3 downto 1)`. -/
def twoBits : Db := design (bits [(2, 1, 0), (1, 2147483647, unreachMark)])
def threeBits : Db := design (bits [(3, 1, 1), (2, 4, 0), (1, 7, 1)])

example : ∃ r, mergeDb twoBits threeBits = some r ∧ twoBits.Ok ∧ threeBits.Ok ∧
    r.bin [[85], [115]] ([115, 2], 0x30000) = some (.count 5) ∧ r.bin [[85], [115]] ([115, 1], 0x28000) = some .unreachable ∧
    r.bin [[85], [115]] ([115, 1], 0x30000) = some (.count limit) ∧ r.bin [[85], [115]] ([115, 3], 0x30000) = some (.count 1) ∧
    r.bin [[86]] ([115, 3], 0x30000) = none := ⟨_, rfl, by decide, by decide, by decide, by decide, by decide, by decide, by decide⟩

example : ∃ r r', mergeAll twoBits [threeBits, twoBits] = some r ∧ mergeAll threeBits [twoBits, twoBits] = some r' :=
  ⟨_, _, rfl, rfl⟩

/-- The same design twice. -/
example : (mergeDb twoBits twoBits).isSome = true := by decide

/-- The documentation says that merging makes the union of any databases.  With `s : bit_vector(1 to 2)` in the
first design and `s : bit_vector(1 to 3)` in the second it fails. -/
theorem merge_grown_counterexample : ∃ old new : Db, old.Ok ∧ new.Ok ∧ old.Agree new ∧ mergeDb old new = none ∧
    (mergeDb new old).isSome = true := by
  refine ⟨design (bits [(1, 1, 0), (2, 1, 0)]), design (bits [(1, 1, 0), (2, 1, 0), (3, 1, 0)]), by decide, by decide,
    ?_, by decide, by decide⟩
  intro p a b h1 h2 x hx o ho _
  have all : ∀ l : List (Nat × Int × Int), ∀ y ∈ bits l, y.kind = .toggle := by
    intro l y hy
    simp only [bits, List.mem_flatMap] at hy
    obtain ⟨⟨i, a, b⟩, _, hy⟩ := hy
    simp only [List.mem_cons, List.not_mem_nil, or_false] at hy
    rcases hy with rfl | rfl <;> rfl
  have toggles : ∀ (l : List (Nat × Int × Int)) p a, (design (bits l)).at p = some a → ∀ y ∈ a, y.kind = .toggle := by
    intro l p a h y hy
    cases p with
    | nil => simp only [design, Db.at] at h; cases h; cases hy
    | cons n p =>
      simp only [design, Db.at] at h
      rw [at_cons] at h
      by_cases hn : n = [85]
      · rw [if_pos hn] at h
        cases p with
        | nil => simp only [here] at h; cases h; cases hy
        | cons m q =>
          simp only [here] at h
          rw [at_cons] at h
          by_cases hm : m = [115]
          · rw [if_pos hm] at h
            cases q with
            | nil => simp only [here] at h; cases h; exact all l y hy
            | cons _ _ => simp [here, Scopes.at] at h
          · rw [if_neg hm] at h; simp [Scopes.at] at h
      · rw [if_neg hn] at h; simp [Scopes.at] at h
  rw [toggles _ _ _ h1 o ho, toggles _ _ _ h2 x hx]

/-- Without distinct names the union fails: with two functions of one name in the design, as overloading allows
(lower.c 11037 and 11070, cov-data.c 964-967), the counts of both are added to the bin of the first one. -/
theorem merge_overloaded_counterexample : ∃ old new r : Db, mergeDb old new = some r ∧
    old.children = new.children ∧ old.children.names = [[70], [70]] ∧
    r.children = .cons [70] {} [{ kind := .stmt, hier := [70, 1], data := 4 }]
      .nil (.cons [70] {} [{ kind := .stmt, hier := [70, 1], data := 2 }] .nil .nil) ∧
    old.children = .cons [70] {} [{ kind := .stmt, hier := [70, 1], data := 1 }]
      .nil (.cons [70] {} [{ kind := .stmt, hier := [70, 1], data := 2 }] .nil .nil) := by
  refine ⟨⟨[], .cons [70] {} [{ kind := .stmt, hier := [70, 1], data := 1 }]
      .nil (.cons [70] {} [{ kind := .stmt, hier := [70, 1], data := 2 }] .nil .nil)⟩,
    ⟨[], .cons [70] {} [{ kind := .stmt, hier := [70, 1], data := 1 }]
      .nil (.cons [70] {} [{ kind := .stmt, hier := [70, 1], data := 2 }] .nil .nil)⟩, _, rfl, rfl, rfl, ?_, rfl⟩
  decide

end Verif.Cov
