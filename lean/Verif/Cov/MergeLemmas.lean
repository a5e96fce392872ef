import Verif.Cov.Spec
import Verif.Cov.Model

/-!
# The bins of a database and lemmas about merging
-/

namespace Verif.Cov

/-- What identifies a bin within its scope: its path, and which kind of event it counts. -/
abbrev Key := Name × BitVec 32

def Item.key (x : Item) : Key := (x.hier, x.flags)

/-- The bin that an item holds. -/
def Item.bin (x : Item) : Bin := if x.data < 0 then .unreachable else .count x.data.toNat

def binOf : List Item → Key → Option Bin
  | [], _ => none
  | x :: l, k => if x.key = k then some x.bin else binOf l k

/-- The items of the scope with a path that is not empty. -/
def Scopes.at : Scopes → Name → List Name → Option (List Item)
  | .nil, _, _ => none
  | .cons name _ items children next, n, p =>
    if n = name then
      (match p with
      | [] => some items
      | m :: q => children.at m q)
    else next.at n p

/-- The items of the scope with some path. -/
def Db.at (db : Db) : List Name → Option (List Item)
  | [] => some db.items
  | n :: p => db.children.at n p

/-- The bin with some path and key. -/
def Db.bin (db : Db) (p : List Name) (k : Key) : Option Bin := (db.at p).bind fun l => binOf l k

def Scopes.bin (s : Scopes) (n : Name) (p : List Name) (k : Key) : Option Bin := (s.at n p).bind fun l => binOf l k

def Scopes.names : Scopes → List Name
  | .nil => []
  | .cons name _ _ _ next => name :: next.names

/-- An item has been counted: from zero up to the limit, or it is a bin of a port that is marked. -/
def Item.Valid (x : Item) : Prop :=
  (0 ≤ x.data ∧ x.data ≤ 2147483647) ∨ (x.kind = .toggle ∧ x.data = unreachMark)

instance (x : Item) : Decidable x.Valid := by unfold Item.Valid; infer_instance

def ItemsOk (l : List Item) : Prop := (l.map Item.key).Nodup ∧ ∀ x ∈ l, x.Valid

instance (l : List Item) : Decidable (ItemsOk l) := by unfold ItemsOk; infer_instance

/-- No two scopes with one parent have the same name, and no two items of a scope have the same key. -/
def Scopes.Ok : Scopes → Prop
  | .nil => True
  | .cons name _ items children next => name ∉ next.names ∧ ItemsOk items ∧ children.Ok ∧ next.Ok

def Scopes.decOk : (s : Scopes) → Decidable s.Ok
  | .nil => isTrue trivial
  | .cons name _ items children next =>
    have := children.decOk
    have := next.decOk
    inferInstanceAs (Decidable (name ∉ next.names ∧ ItemsOk items ∧ children.Ok ∧ next.Ok))

instance (s : Scopes) : Decidable s.Ok := s.decOk

def Db.Ok (db : Db) : Prop := ItemsOk db.items ∧ db.children.Ok

instance (db : Db) : Decidable db.Ok := by unfold Db.Ok; infer_instance

/-! ## Items -/

theorem same_iff (a b : Item) : a.same b = true ↔ a.key = b.key := by
  simp [Item.same, Item.key]

theorem scan_none {new : Item} {old : List Item} :
    ∀ (v i : Nat), i < old.length → scan new old v i = none →
      ∀ t < v, ¬ (old[(i + t) % old.length]?).any new.same = true := by
  intro v
  induction v with
  | zero => intro i _ _ t ht; omega
  | succ v ih =>
    intro i hi h t ht
    unfold scan at h
    by_cases hc : (old[i]?).any new.same = true
    · rw [if_pos hc] at h; exact absurd h (by simp)
    · rw [if_neg hc] at h
      cases t with
      | zero => rw [Nat.add_zero, Nat.mod_eq_of_lt hi]; exact hc
      | succ t =>
        by_cases he : i + 1 = old.length
        · rw [if_pos he] at h
          have := ih 0 (by omega) h t (by omega)
          rw [show i + (t + 1) = t + old.length by omega, Nat.add_mod_right]
          rw [Nat.zero_add] at this
          exact this
        · rw [if_neg he] at h
          have := ih (i + 1) (by omega) h t (by omega)
          rw [show i + (t + 1) = i + 1 + t by omega]
          exact this

/-- When the loop ends without a match there is none. -/
theorem scan_complete {new : Item} {old : List Item} {s : Nat} (hs : s < old.length)
    (h : scan new old old.length s = none) : ∀ o ∈ old, o.key ≠ new.key := by
  intro o ho hk
  obtain ⟨j, hj, rfl⟩ := List.mem_iff_getElem.mp ho
  have key : ∃ t, t < old.length ∧ (s + t) % old.length = j := by
    by_cases hsj : s ≤ j
    · exact ⟨j - s, by omega, by rw [show s + (j - s) = j by omega, Nat.mod_eq_of_lt hj]⟩
    · refine ⟨old.length - s + j, by omega, ?_⟩
      rw [show s + (old.length - s + j) = j + old.length by omega, Nat.add_mod_right, Nat.mod_eq_of_lt hj]
  obtain ⟨t, ht, hm⟩ := key
  have := scan_none old.length s hs h t ht
  rw [hm, List.getElem?_eq_getElem hj] at this
  exact this ((same_iff _ _).mpr hk.symm)

theorem scan_some {new : Item} {old : List Item} :
    ∀ (v i j : Nat), scan new old v i = some j → ∃ o, old[j]? = some o ∧ o.key = new.key := by
  intro v
  induction v with
  | zero => intro i j h; exact absurd h (by simp [scan])
  | succ v ih =>
    intro i j h
    unfold scan at h
    by_cases hc : (old[i]?).any new.same = true
    · rw [if_pos hc] at h
      cases h
      cases ho : old[i]? with
      | none => rw [ho] at hc; exact absurd hc (by simp)
      | some o => rw [ho] at hc; exact ⟨o, rfl, ((same_iff _ _).mp hc).symm⟩
    · rw [if_neg hc] at h; exact ih _ _ h

theorem binOf_none {l : List Item} {k : Key} : binOf l k = none ↔ ∀ x ∈ l, x.key ≠ k := by
  induction l with
  | nil => simp [binOf]
  | cons x l ih =>
    unfold binOf
    by_cases h : x.key = k
    · simp [h]
    · simp [h, ih]

theorem binOf_append {l : List Item} {x : Item} {k : Key} :
    binOf (l ++ [x]) k = (binOf l k).or (if x.key = k then some x.bin else none) := by
  induction l with
  | nil => simp [binOf]
  | cons y l ih =>
    simp only [List.cons_append, binOf]
    by_cases h : y.key = k
    · simp [h]
    · simp [h, ih]

theorem binOf_mem {l : List Item} (hn : (l.map Item.key).Nodup) {x : Item} (hx : x ∈ l) :
    binOf l x.key = some x.bin := by
  induction l with
  | nil => cases hx
  | cons y l ih =>
    simp only [List.map_cons, List.nodup_cons] at hn
    unfold binOf
    cases hx with
    | head => simp
    | tail _ hx =>
      have : y.key ≠ x.key := fun h => hn.1 (h ▸ List.mem_map_of_mem hx)
      rw [if_neg this]; exact ih hn.2 hx

theorem map_key_set {l : List Item} {j : Nat} {o o' : Item} (h : l[j]? = some o) (hk : o'.key = o.key) :
    (l.set j o').map Item.key = l.map Item.key := by
  rw [List.map_set, hk]
  apply List.ext_getElem?
  intro i
  rw [List.getElem?_set]
  by_cases hij : j = i
  · subst hij
    obtain ⟨hj, ho⟩ := List.getElem?_eq_some_iff.mp h
    rw [if_pos rfl]
    simp [hj, ho]
  · rw [if_neg hij]

theorem binOf_set {l : List Item} {j : Nat} {o o' : Item} (hn : (l.map Item.key).Nodup) (h : l[j]? = some o)
    (hk : o'.key = o.key) (k : Key) : binOf (l.set j o') k = if o.key = k then some o'.bin else binOf l k := by
  induction l generalizing j with
  | nil => simp at h
  | cons y l ih =>
    simp only [List.map_cons, List.nodup_cons] at hn
    cases j with
    | zero =>
      simp only [List.getElem?_cons_zero] at h
      cases h
      simp only [List.set_cons_zero, binOf, hk]
      by_cases hc : o.key = k <;> simp [hc]
    | succ j =>
      simp only [List.getElem?_cons_succ] at h
      simp only [List.set_cons_succ, binOf]
      rw [ih hn.2 h]
      have hm : o ∈ l := List.mem_of_getElem? h
      have hne : y.key ≠ o.key := fun e => hn.1 (e ▸ List.mem_map_of_mem hm)
      by_cases hy : y.key = k
      · have : o.key ≠ k := fun e => hne (hy.trans e.symm)
        simp [hy, this]
      · simp [hy]

/-- The merged item holds the sum of the two bins, and is one that has been counted. -/
theorem mergeData_spec {o new : Item} (ho : o.Valid) (hn : new.Valid) (hk : new.kind = o.kind) :
    ({ o with data := mergeData o.kind o.data new.data } : Item).Valid ∧
    ({ o with data := mergeData o.kind o.data new.data } : Item).bin = o.bin.add new.bin := by
  have nonneg : ∀ a b : Int, 0 ≤ a → a ≤ 2147483647 → 0 ≤ b → b ≤ 2147483647 →
      0 ≤ satAdd a b ∧ satAdd a b ≤ 2147483647 ∧ (satAdd a b).toNat = min limit (a.toNat + b.toNat) := by
    intro a b h1 h2 h3 h4
    unfold satAdd limit
    by_cases h : -2147483648 ≤ a + b ∧ a + b ≤ 2147483647
    · rw [if_pos h]; omega
    · rw [if_neg h]; omega
  by_cases ht : o.kind = .toggle
  · by_cases hneg : o.data < 0 ∨ new.data < 0
    · have e : mergeData o.kind o.data new.data = unreachMark := by rw [ht]; simp [mergeData, hneg]
      rw [e]
      refine ⟨Or.inr ⟨ht, rfl⟩, ?_⟩
      have : ({ o with data := unreachMark } : Item).bin = .unreachable := by simp [Item.bin, unreachMark]
      rw [this]
      unfold Item.bin
      by_cases h1 : o.data < 0
      · simp [h1, Bin.add]
      · have h2 : new.data < 0 := by omega
        simp [h1, h2, Bin.add]
    · have e : mergeData o.kind o.data new.data = satAdd o.data new.data := by rw [ht]; simp [mergeData, hneg]
      rw [e]
      unfold Item.Valid unreachMark at ho hn
      obtain ⟨a, b, c⟩ := nonneg o.data new.data (by omega) (by omega) (by omega) (by omega)
      refine ⟨Or.inl ⟨a, b⟩, ?_⟩
      unfold Item.bin
      rw [if_neg (by dsimp only; omega), if_neg (by omega), if_neg (by omega)]
      simp only [Bin.add, c]
  · have e : mergeData o.kind o.data new.data = satAdd o.data new.data := by
      cases h : o.kind <;> first | rfl | exact absurd h ht
    rw [e]
    have h1 : 0 ≤ o.data ∧ o.data ≤ 2147483647 := by
      rcases ho with h | h
      · exact h
      · exact absurd h.1 ht
    have h2 : 0 ≤ new.data ∧ new.data ≤ 2147483647 := by
      rcases hn with h | h
      · exact h
      · exact absurd (hk ▸ h.1) ht
    obtain ⟨a, b, c⟩ := nonneg o.data new.data h1.1 h1.2 h2.1 h2.2
    refine ⟨Or.inl ⟨a, b⟩, ?_⟩
    unfold Item.bin
    rw [if_neg (by dsimp only; omega), if_neg (by omega), if_neg (by omega)]
    simp only [Bin.add, c]

theorem union_none_right (a : Option Bin) : union a none = a := by cases a <;> rfl

theorem mergeLoop_spec : ∀ (new : List Item) (s : Nat) (old r : List Item),
    ItemsOk old → ItemsOk new → mergeLoop new s old = some r →
      ItemsOk r ∧ ∀ k, binOf r k = union (binOf old k) (binOf new k) := by
  intro new
  induction new with
  | nil =>
    intro s old r ho _ h
    simp only [mergeLoop] at h
    cases h
    exact ⟨ho, fun k => by simp [binOf, union_none_right]⟩
  | cons x rest ih =>
    intro s old r ho hn h
    obtain ⟨hn1, hn2⟩ := hn
    simp only [List.map_cons, List.nodup_cons] at hn1
    have hrest : ItemsOk rest := ⟨hn1.2, fun y hy => hn2 y (List.mem_cons_of_mem _ hy)⟩
    have hx : binOf rest x.key = none :=
      binOf_none.mpr fun y hy e => hn1.1 (e ▸ List.mem_map_of_mem hy)
    unfold mergeLoop at h
    by_cases hs : s < old.length
    · rw [if_pos hs] at h
      cases hsc : scan x old old.length s with
      | some j =>
        rw [hsc] at h
        obtain ⟨o, hj, hk⟩ := scan_some _ _ _ hsc
        simp only [hj, Option.bind_some] at h
        by_cases hkind : x.kind = o.kind
        · rw [if_pos hkind] at h
          have hom : o ∈ old := List.mem_of_getElem? hj
          obtain ⟨v, b⟩ := mergeData_spec (ho.2 o hom) (hn2 x List.mem_cons_self) hkind
          generalize ho' : ({ o with data := mergeData o.kind o.data x.data } : Item) = o' at h v b
          have hk' : o'.key = o.key := by rw [← ho']; rfl
          have hok : ItemsOk (old.set j o') := by
            refine ⟨by rw [map_key_set hj hk']; exact ho.1, fun y hy => ?_⟩
            rcases List.mem_or_eq_of_mem_set hy with hy | hy
            · exact ho.2 y hy
            · rw [hy]; exact v
          obtain ⟨r1, r2⟩ := ih _ _ _ hok hrest h
          refine ⟨r1, fun k => ?_⟩
          rw [r2 k, binOf_set ho.1 hj hk']
          simp only [binOf]
          by_cases hc : o.key = k
          · have hc' : x.key = k := hk ▸ hc
            rw [if_pos hc, if_pos hc', ← hc', hx, union_none_right, b, ← hk, binOf_mem ho.1 hom]
            rfl
          · have hc' : x.key ≠ k := hk ▸ hc
            rw [if_neg hc, if_neg hc']
        · rw [if_neg hkind] at h; exact absurd h (by simp)
      | none =>
        rw [hsc] at h
        dsimp only at h
        have hno := scan_complete hs hsc
        have hok : ItemsOk (old ++ [x]) := by
          refine ⟨?_, fun y hy => ?_⟩
          · rw [List.map_append, List.nodup_append]
            refine ⟨ho.1, by simp, fun a ha b hb e => ?_⟩
            obtain ⟨o, hom, rfl⟩ := List.mem_map.mp ha
            simp only [List.map_cons, List.map_nil, List.mem_singleton] at hb
            exact hno o hom (e.trans hb)
          · rcases List.mem_append.mp hy with hy | hy
            · exact ho.2 y hy
            · rw [List.mem_singleton.mp hy]; exact hn2 x List.mem_cons_self
        obtain ⟨r1, r2⟩ := ih _ _ _ hok hrest h
        refine ⟨r1, fun k => ?_⟩
        rw [r2 k, binOf_append]
        simp only [binOf]
        by_cases hc : x.key = k
        · have : binOf old k = none := binOf_none.mpr fun o ho' => hc ▸ hno o ho'
          rw [if_pos hc, if_pos hc, this, ← hc, hx]
          rfl
        · rw [if_neg hc, if_neg hc, Option.or_none]
    · rw [if_neg hs] at h; exact absurd h (by simp)

/-- Merging the items of two scopes makes the union of their bins. -/
theorem mergeItems_spec {old new r : List Item} (ho : ItemsOk old) (hn : ItemsOk new)
    (h : mergeItems old new = some r) : ItemsOk r ∧ ∀ k, binOf r k = union (binOf old k) (binOf new k) :=
  mergeLoop_spec _ _ _ _ ho hn h

/-! ## When merging items fails -/

/-- How many of the items of `new` are in `old`. -/
def hits (old new : List Item) : Nat := (new.filter fun x => decide (x.key ∈ old.map Item.key)).length

def Agree (old new : List Item) : Prop := ∀ x ∈ new, ∀ o ∈ old, x.key = o.key → x.kind = o.kind

theorem hits_cons (old : List Item) (x : Item) (new : List Item) :
    hits old (x :: new) = (if x.key ∈ old.map Item.key then 1 else 0) + hits old new := by
  unfold hits
  by_cases h : x.key ∈ old.map Item.key
  · rw [List.filter_cons_of_pos (by simpa using h), if_pos h, List.length_cons]; omega
  · rw [List.filter_cons_of_neg (by simpa using h), if_neg h]; omega

theorem hits_congr {old old' : List Item} (new : List Item)
    (h : ∀ x ∈ new, (x.key ∈ old'.map Item.key ↔ x.key ∈ old.map Item.key)) : hits old' new = hits old new := by
  unfold hits
  congr 1
  apply List.filter_congr
  intro x hx
  simp only [h x hx]

theorem scan_isSome {x : Item} {old : List Item} {s : Nat} (hs : s < old.length) :
    (∃ j, scan x old old.length s = some j) ↔ x.key ∈ old.map Item.key := by
  constructor
  · rintro ⟨j, hj⟩
    obtain ⟨o, ho, hk⟩ := scan_some _ _ _ hj
    exact hk ▸ List.mem_map_of_mem (List.mem_of_getElem? ho)
  · intro h
    cases hsc : scan x old old.length s with
    | some j => exact ⟨j, rfl⟩
    | none =>
      obtain ⟨o, ho, hk⟩ := List.mem_map.mp h
      exact absurd hk (scan_complete hs hsc o ho)

theorem agree_set {old rest : List Item} {j : Nat} {o o' : Item} (h : Agree old rest) (hj : old[j]? = some o)
    (hk : o'.key = o.key) (hkind : o'.kind = o.kind) : Agree (old.set j o') rest := by
  intro x hx y hy e
  rcases List.mem_or_eq_of_mem_set hy with hy | hy
  · exact h x hx y hy e
  · rw [hy] at e ⊢
    rw [hkind]; exact h x hx o (List.mem_of_getElem? hj) (e.trans hk)

theorem mergeLoop_isSome : ∀ (new : List Item) (s : Nat) (old : List Item),
    (new.map Item.key).Nodup → Agree old new → hits old new + s < old.length →
      (mergeLoop new s old).isSome = true := by
  intro new
  induction new with
  | nil => intro s old _ _ _; rfl
  | cons x rest ih =>
    intro s old hn ha hh
    rw [hits_cons] at hh
    simp only [List.map_cons, List.nodup_cons] at hn
    have hs : s < old.length := by omega
    unfold mergeLoop
    rw [if_pos hs]
    cases hsc : scan x old old.length s with
    | some j =>
      obtain ⟨o, hj, hk⟩ := scan_some _ _ _ hsc
      have hom := List.mem_of_getElem? hj
      dsimp only
      rw [hj, Option.bind_some, if_pos (ha x List.mem_cons_self o hom hk.symm)]
      rw [if_pos (hk ▸ List.mem_map_of_mem hom)] at hh
      refine ih _ _ hn.2 (agree_set (fun y hy => ha y (List.mem_cons_of_mem _ hy)) hj (by rfl) rfl) ?_
      rw [hits_congr (old := old) _ fun y _ => by
        rw [map_key_set hj (o' := { o with data := mergeData o.kind o.data x.data }) rfl], List.length_set]
      omega
    | none =>
      dsimp only
      refine ih _ _ hn.2 ?_ ?_
      · intro y hy z hz e
        rcases List.mem_append.mp hz with hz | hz
        · exact ha y (List.mem_cons_of_mem _ hy) z hz e
        · rw [List.mem_singleton.mp hz] at e
          exact absurd (e ▸ List.mem_map_of_mem hy) hn.1
      · rw [hits_congr (old := old) _ fun y hy => by
          rw [List.map_append, List.mem_append]
          constructor
          · rintro (h | h)
            · exact h
            · simp only [List.map_cons, List.map_nil, List.mem_singleton] at h
              exact absurd (h ▸ List.mem_map_of_mem hy) hn.1
          · exact Or.inl]
        simp only [List.length_append, List.length_singleton]
        omega

theorem mergeLoop_none : ∀ (new : List Item) (s : Nat) (old : List Item),
    (new.map Item.key).Nodup → Agree old new → s ≤ old.length → hits old new + s ≤ old.length →
      (mergeLoop new s old = none ↔
        old.length - s < new.length ∧ ∀ x ∈ new.take (old.length - s), x.key ∈ old.map Item.key) := by
  intro new
  induction new with
  | nil => intro s old _ _ _ _; simp [mergeLoop]
  | cons x rest ih =>
    intro s old hn ha hle hh
    have hn' := hn
    simp only [List.map_cons, List.nodup_cons] at hn'
    unfold mergeLoop
    by_cases hs : s < old.length
    · rw [if_pos hs]
      have htake : (x :: rest).take (old.length - s) = x :: rest.take (old.length - (s + 1)) := by
        rw [show old.length - s = (old.length - (s + 1)) + 1 by omega, List.take_succ_cons]
      rw [htake]
      have hcons := hits_cons old x rest
      cases hsc : scan x old old.length s with
      | some j =>
        obtain ⟨o, hj, hk⟩ := scan_some _ _ _ hsc
        have hom := List.mem_of_getElem? hj
        have hxm : x.key ∈ old.map Item.key := hk ▸ List.mem_map_of_mem hom
        dsimp only
        rw [hj, Option.bind_some, if_pos (ha x List.mem_cons_self o hom hk.symm)]
        rw [if_pos hxm] at hcons
        have hmk := map_key_set hj (o' := { o with data := mergeData o.kind o.data x.data }) rfl
        rw [ih _ _ hn'.2 (agree_set (o' := { o with data := mergeData o.kind o.data x.data })
            (fun y hy => ha y (List.mem_cons_of_mem _ hy)) hj rfl rfl)
          (by rw [List.length_set]; omega)
          (by rw [hits_congr (old := old) _ fun y _ => by rw [hmk], List.length_set]; omega)]
        rw [List.length_set, hmk, List.length_cons]
        constructor
        · rintro ⟨h1, h2⟩
          refine ⟨by omega, fun y hy => ?_⟩
          cases hy with
          | head => exact hxm
          | tail _ hy => exact h2 y hy
        · rintro ⟨h1, h2⟩
          exact ⟨by omega, fun y hy => h2 y (List.mem_cons_of_mem _ hy)⟩
      | none =>
        have hxm : x.key ∉ old.map Item.key := fun h => by
          obtain ⟨j, hj⟩ := (scan_isSome hs).mpr h
          rw [hsc] at hj; exact absurd hj (by simp)
        rw [if_neg hxm] at hcons
        have hsome : (mergeLoop rest s (old ++ [x])).isSome = true := by
          refine mergeLoop_isSome _ _ _ hn'.2 ?_ ?_
          · intro y hy z hz e
            rcases List.mem_append.mp hz with hz | hz
            · exact ha y (List.mem_cons_of_mem _ hy) z hz e
            · rw [List.mem_singleton.mp hz] at e
              exact absurd (e ▸ List.mem_map_of_mem hy) hn'.1
          · rw [hits_congr (old := old) _ fun y hy => by
              rw [List.map_append, List.mem_append]
              constructor
              · rintro (h | h)
                · exact h
                · simp only [List.map_cons, List.map_nil, List.mem_singleton] at h
                  exact absurd (h ▸ List.mem_map_of_mem hy) hn'.1
              · exact Or.inl]
            simp only [List.length_append, List.length_singleton]
            omega
        dsimp only
        constructor
        · intro h; rw [h] at hsome; exact absurd hsome (by simp)
        · rintro ⟨_, h⟩; exact absurd (h x List.mem_cons_self) hxm
    · rw [if_neg hs]
      have : old.length - s = 0 := by omega
      rw [this]
      simp

theorem nodup_subset_length {α : Type} [DecidableEq α] : ∀ (l l' : List α), l.Nodup → (∀ x ∈ l, x ∈ l') →
    l.length ≤ l'.length := by
  intro l
  induction l with
  | nil => intro l' _ _; simp
  | cons x l ih =>
    intro l' hn h
    rw [List.nodup_cons] at hn
    have hx := h x List.mem_cons_self
    have := ih (l'.erase x) hn.2 fun y hy => by
      have hne : y ≠ x := fun e => hn.1 (e ▸ hy)
      exact (List.mem_erase_of_ne hne).mpr (h y (List.mem_cons_of_mem _ hy))
    rw [List.length_erase_of_mem hx] at this
    have := List.length_pos_of_mem hx
    simp only [List.length_cons]
    omega

theorem hits_le {old new : List Item} (hn : (new.map Item.key).Nodup) : hits old new ≤ old.length := by
  have h1 : ((new.filter fun x => decide (x.key ∈ old.map Item.key)).map Item.key).Nodup :=
    hn.sublist (List.filter_sublist.map _)
  have := nodup_subset_length _ (old.map Item.key) h1 fun k hk => by
    obtain ⟨x, hx, rfl⟩ := List.mem_map.mp hk
    simpa using (List.mem_filter.mp hx).2
  simpa [hits] using this

/-- Merging items fails if and only if all items of the old scope come first in the new one, in any order, and
more follow. -/
theorem mergeItems_none {old new : List Item} (hn : (new.map Item.key).Nodup) (ha : Agree old new) :
    mergeItems old new = none ↔
      old.length < new.length ∧ ∀ x ∈ new.take old.length, x.key ∈ old.map Item.key := by
  unfold mergeItems
  rw [mergeLoop_none _ _ _ hn ha (Nat.zero_le _) (by have := hits_le (old := old) hn; omega)]
  simp

end Verif.Cov
