import Verif.Obj.IoProps

/-
The whole of an arena: dependencies, header, root.
-/

namespace Verif.Obj

theorem prefix_get {v v' : World} (h : v <+: v') {k : Nat} {u : Unit} (hk : v.get k = some u) : v'.get k = some u := by
  unfold World.get at *
  split
  · next e => rw [if_pos e] at hk; cases hk
  · next e =>
    rw [if_neg e] at hk
    obtain ⟨t, rfl⟩ := h
    rw [List.getElem?_append_left (by
      rcases Nat.lt_or_ge (k - 1) v.length with h | h
      · exact h
      · rw [List.getElem?_eq_none h] at hk; cases hk)]
    exact hk

theorem Finds.prefix {sch : Schema} {loader : World → Name → Option (World × Nat)} {w : World} {κ : Nat → Option Nat}
    {v v2 : World} {ds : List Nat} (h : Finds sch loader w κ v ds v2) : v <+: v2 := by
  induction h with
  | nil => exact List.prefix_refl _
  | cons _ _ _ h1 _ _ _ _ ih => exact h1.trans ih

theorem readDeps_write {sch : Schema} {loader : World → Name → Option (World × Nat)} {w : World}
    {κ : Nat → Option Nat} {maxKey : Nat} {v v2 : World} {ds : List Nat} (h : Finds sch loader w κ v ds v2)
    (hm : ∀ d ∈ ds, d ≤ maxKey) (rest : List Tok) : ∀ (km : Nat → Nat) (acc : List Nat),
      ∃ km' ds', All2 (fun d d' => κ d = some d') ds ds' ∧
        readDeps sch loader maxKey ds.length v km acc (ds.flatMap (writeDep sch w) ++ rest) =
          .ok (v2, km', acc ++ ds') rest ∧
        (∀ d ∈ ds, κ d = some (km' d)) ∧ ∀ d, d ∉ ds → km' d = km d := by
  induction h with
  | nil => intro km acc; exact ⟨km, [], .nil, by simp [readDeps], by simp, by simp⟩
  | @cons v v1 v2 d d' u u' ds hu hf hκ hp hu' hstd hsum _ ih =>
    intro km acc
    obtain ⟨km', ds', h1, h2, h3, h4⟩ := ih (fun x hx => hm x (by simp [hx])) (fun k => if k = d then d' else km k)
      (acc ++ [d'])
    refine ⟨km', d' :: ds', .cons hκ h1, ?_, ?_, ?_⟩
    · have hle := hm d (by simp)
      simp only [List.length_cons, List.flatMap_cons, List.append_assoc, readDeps, writeDep, hu, List.cons_append,
        List.nil_append, getUint, getIdent, Rd.bind, hf, hu', hstd, hsum, ne_eq, not_true_eq_false, if_false]
      rw [if_neg (by omega), h2]
      simp
    · intro x hx
      by_cases hxd : x ∈ ds
      · exact h3 x hxd
      · have : x = d := by simpa [hxd] using hx
        subst this
        rw [h4 x hxd, if_pos rfl, hκ]
    · intro x hx
      simp only [List.mem_cons, not_or] at hx
      rw [h4 x hx.2, if_neg hx.1]

theorem le_foldl_max (ds : List Nat) : ∀ k, k ≤ ds.foldl max k ∧ ∀ d ∈ ds, d ≤ ds.foldl max k := by
  induction ds with
  | nil => intro k; simp
  | cons a ds ih =>
    intro k
    obtain ⟨h1, h2⟩ := ih (max k a)
    simp only [List.foldl_cons]
    refine ⟨by omega, fun d hd => ?_⟩
    rcases List.mem_cons.mp hd with rfl | hd
    · omega
    · exact h2 d hd

/-! ### Images -/

theorem RefImage.mono {φ ψ : Ptr → Option Ptr} (h : ∀ p q, φ p = some q → ψ p = some q) {p q : Option Ptr}
    (hi : RefImage φ p q) : RefImage ψ p q := by
  cases hi with
  | null => exact .null
  | ref hp => exact .ref (h _ _ hp)

theorem All2.mono {α β : Type} {R S : α → β → Prop} (h : ∀ a b, R a b → S a b) {l : List α} {m : List β}
    (hl : All2 R l m) : All2 S l m := by
  induction hl with
  | nil => exact .nil
  | cons r _ ih => exact .cons (h _ _ r) ih

theorem ItemImage.mono {φ ψ : Ptr → Option Ptr} (h : ∀ p q, φ p = some q → ψ p = some q) {i j : Item}
    (hi : ItemImage φ i j) : ItemImage ψ i j := by
  cases hi with
  | ident n => exact .ident n
  | object hp => exact .object (hp.mono h)
  | array ha => exact .array (ha.mono fun _ _ => RefImage.mono h)
  | int n => exact .int n
  | double n => exact .double n
  | text n => exact .text n
  | number n => exact .number n

theorem ObjectImage.mono {φ ψ : Ptr → Option Ptr} (h : ∀ p q, φ p = some q → ψ p = some q) {o o' : Object}
    (hi : ObjectImage φ o o') : ObjectImage ψ o o' :=
  ⟨hi.tag, hi.kind, hi.loc, hi.items.mono fun _ _ => ItemImage.mono h⟩

theorem place_mono {w : World} {κ κ' : Nat → Option Nat} (h : ∀ d d', κ d = some d' → κ' d = some d') {p q : Ptr}
    (hp : place w κ p = some q) : place w κ' p = some q := by
  unfold place at *
  obtain ⟨d', hd, hq⟩ := Option.bind_eq_some_iff.mp hp
  exact Option.bind_eq_some_iff.mpr ⟨d', h _ _ hd, hq⟩

/-! ### The root -/

theorem firstRoot_split {sch : Schema} (a : List Object) (o : Object) (b : List Object)
    (h : ∀ x ∈ a, sch.isRoot x = false) (ho : sch.isRoot o = true) : ∀ off,
      firstRoot sch off (a ++ o :: b) = some (off + (a.map sch.size).sum) := by
  induction a with
  | nil => intro off; simp [firstRoot, ho]
  | cons x a ih =>
    intro off
    simp only [List.cons_append, firstRoot, h x (by simp), Bool.false_eq_true, if_false,
      ih (fun y hy => h y (by simp [hy])), List.map_cons, List.sum_cons]
    rw [Nat.add_assoc]

/-- The root is the first object of a kind that is a root. -/
def RootOk (sch : Schema) (u : Unit) : Prop :=
  ∃ pre o post, u.objects = pre ++ o :: post ∧ u.root = some ((pre.map sch.size).sum) ∧
    sch.root o.tag o.kind = true ∧ ∀ x ∈ pre, sch.root x.tag x.kind = false

theorem ObjectImage.name {φ : Ptr → Option Ptr} {o o' : Object} (h : ObjectImage φ o o') :
    firstIdent o'.items = firstIdent o.items := by
  have hi := h.items
  generalize o.items = l at *
  generalize o'.items = m at *
  cases hi with
  | nil => rfl
  | cons r _ => cases r <;> rfl

/-! ### The property -/

/-- What is needed of the arena that is written: the references within it are to
    objects, those to other arenas are to living objects of dependencies, and the
    objects are as their class says. -/
structure Writable (sch : Schema) (w : World) (k : Nat) (u : Unit) : Prop where
  here : 0 < k ∧ w.get k = some (freeze sch k u)
  fresh : u.fresh = true
  current : u.obsolete = false
  sound : Sound sch k u.objects
  typed : ∀ o ∈ u.objects, WellTyped sch o
  others : ∀ x o p, At sch u.objects x o → Alive sch k u.objects x → Mentions o p → p.key ≠ k →
    p.key ∈ u.deps ∧ ∃ d o', w.get p.key = some d ∧ At sch d.objects p.off o' ∧ (offsetInFile d p.off).isSome = true
  deps : k ∉ u.deps ∧ 0 ∉ u.deps

theorem live_alive {sch : Schema} (hp : sch.Positive) {k : Nat} {u : Unit} (hs : Sound sch k u.objects) {o : Object}
    (h : o ∈ liveObjects sch (freeze sch k u)) : ∃ x, At sch u.objects x o ∧ Alive sch k u.objects x := by
  obtain ⟨⟨x, o'⟩, hf, rfl⟩ := List.mem_map.mp h
  obtain ⟨hw, hx⟩ := List.mem_filter.mp hf
  obtain ⟨f, hf1, hf2⟩ := gc_alive hp k u hs
  rw [hf1] at hx
  exact ⟨x, at_walk.mpr hw, (hf2 x).mp hx⟩

/-- An arena that is frozen, written and read in another process, where its
    dependencies have been copied, is copied as well; the other arenas stay as
    they were, and it has the name by which it will be found. -/
theorem write_read {sch : Schema} (hp : sch.Positive) (hlast : ∀ t, sch.lastKind t < 256)
    (loader : World → Name → Option (World × Nat)) (digest std std' : Nat) (hstd : std ≤ std') (w v v2 : World)
    (k : Nat) (u : Unit) (hw : Writable sch w k u) (κ : Nat → Option Nat) (hκ : κ k = none)
    (hself : ∀ d d', κ d = some d' → d' ≠ v.length + 1)
    (hfind : Finds sch loader w κ
      (v ++ [{ Unit.new (alignUp (freeze sch k u).liveUnits) std false with flags := u.flags }]) u.deps v2)
    (hcopied : Copied sch w v2 κ) :
    ∃ toks, objectWrite sch digest std w k (u.root.getD 0) = .tokens toks ∧ ∀ rest, ∃ v3 u3 ds,
      objectRead sch loader digest std' v (toks ++ rest) = .ok (v3, ⟨v.length + 1, 0⟩) rest ∧
      Copied sch w v3 (fun d => if d = k then some (v.length + 1) else κ d) ∧
      (∀ j, j ≠ v.length + 1 → v3.get j = v2.get j) ∧ v3.get (v.length + 1) = some u3 ∧
      u3.objects.length = (liveObjects sch (freeze sch k u)).length ∧ u3.frozen = true ∧ u3.std = std ∧
      u3.flags = u.flags ∧ u3.deps = ds ∧ All2 (fun d d' => κ d = some d') u.deps ds ∧
      (RootOk sch u → arenaName sch u3 = arenaName sch u) := by
  obtain ⟨hk0, hget⟩ := hw.here
  have hfields : (freeze sch k u).objects = u.objects ∧ (freeze sch k u).deps = u.deps ∧
      (freeze sch k u).flags = u.flags ∧ (freeze sch k u).root = u.root ∧ (freeze sch k u).fresh = u.fresh ∧
      (freeze sch k u).frozen = true ∧ (freeze sch k u).obsolete = u.obsolete := ⟨rfl, rfl, rfl, rfl, rfl, rfl, rfl⟩
  obtain ⟨fo, fd, ffl, fr, ffr, ffz, fob⟩ := hfields
  have hwrite : objectWrite sch digest std w k (u.root.getD 0) = .tokens
      ([.u32 digest, .uint std, .uint (alignUp (freeze sch k u).liveUnits), .uint (freeze sch k u).flags, .uint k,
        .ident (arenaName sch (freeze sch k u)), .uint ((freeze sch k u).deps.foldl max k),
        .uint (freeze sch k u).deps.length]
       ++ (freeze sch k u).deps.flatMap (writeDep sch w)
       ++ (liveObjects sch (freeze sch k u)).flatMap (writeObject sch w)
       ++ [.uint 65535]) := by
    unfold objectWrite
    rw [hget]
    simp only [fr, ffr, ffz, fob, hw.fresh, hw.current, ne_eq, not_true_eq_false, if_false, Bool.true_eq_false,
      Bool.false_eq_true]
  refine ⟨_, hwrite, ?_⟩
  intro rest
  -- the map of keys
  let self := v.length + 1
  let κr : Nat → Option Nat := fun d => if d = k then some self else if d ∈ u.deps then κ d else none
  let κ' : Nat → Option Nat := fun d => if d = k then some self else κ d
  have hrr : ∀ d d', κr d = some d' → κ' d = some d' := by
    intro d d' h
    simp only [κr, κ'] at *
    split
    · next e => rwa [if_pos e] at h
    · next e =>
      rw [if_neg e] at h
      split at h
      · exact h
      · cases h
  obtain ⟨hmk, hmd⟩ := le_foldl_max u.deps k
  have hpre := hfind.prefix
  let objs := liveObjects sch (freeze sch k u)
  obtain ⟨km, ds, hds, hrd, hkm1, hkm2⟩ := readDeps_write hfind (fun d hd => hmd d hd)
    (objs.flatMap (writeObject sch w) ++ (.uint 65535 :: rest)) (fun x => if x = k then self else 0) []
  have hkmk : km k = self := by rw [hkm2 k hw.deps.1, if_pos rfl]
  have hkeys : Keys sch w v2 κr self (u.deps.foldl max k) km := by
    constructor
    · intro d d' hd
      simp only [κr] at hd
      split at hd
      · next e =>
        subst e
        cases hd
        exact ⟨hk0, by simp [self], hmk, hkmk⟩
      · next e =>
        split at hd
        · next hin =>
          have := hkm1 d hin
          rw [hd] at this
          cases this
          obtain ⟨u1, u2, h1, h2, _⟩ := hcopied _ _ hd
          refine ⟨?_, ?_, hmd d hin, rfl⟩
          · rcases Nat.eq_zero_or_pos d with h | h
            · subst h; simp [World.get] at h1
            · exact h
          · rcases Nat.eq_zero_or_pos (km d) with h | h
            · rw [h] at h2; simp [World.get] at h2
            · exact h
        · cases hd
    · intro d d' u1 x off hd hne hu1 hoff hat
      simp only [κr] at hd
      split at hd
      · cases hd; exact absurd rfl hne
      · split at hd
        · obtain ⟨o, ho⟩ := hat
          obtain ⟨u2, u', h1, h2, h3⟩ := hcopied _ _ hd
          rw [hu1] at h1
          cases h1
          obtain ⟨o', ho', _⟩ := h3 x o off ho hoff
          refine ⟨u', h2, ?_⟩
          have h4 : off + sch.size o' ≤ 0 + used sch u'.objects := walk_le _ 0 _ (at_walk.mp ho')
          have := hp.size o'
          omega
        · cases hd
  -- references of living objects
  have hrefs : ∀ o ∈ objs, ∀ p, Mentions o p →
      (place w κr p).isSome = true ∧ ∀ d, w.get p.key = some d → ∃ o', At sch d.objects p.off o' := by
    intro o ho p hm
    obtain ⟨x, hx, ha⟩ := live_alive hp hw.sound ho
    by_cases e : p.key = k
    · obtain ⟨pk, po⟩ := p
      simp only at e
      subst e
      have hal : Alive sch pk u.objects po := .ref ha hx hm
      obtain ⟨o', ho'⟩ := hw.sound _ _ _ hx hm
      obtain ⟨f, wo, h1, h2, _⟩ := gc_forward hp pk u hw.sound po o' ho' hal
      refine ⟨?_, fun d hd => ?_⟩
      · simp [place, κr, hget, offsetInFile, h1, h2]
      · simp only at hd
        rw [hget] at hd
        cases hd
        exact ⟨o', ho'⟩
    · obtain ⟨hin, d, o', hd, hat, hoff⟩ := hw.others x o p hx ha hm e
      refine ⟨?_, fun d' hd' => ?_⟩
      · have hκd := hkm1 _ hin
        obtain ⟨off, hoff⟩ := Option.isSome_iff_exists.mp hoff
        simp [place, κr, e, hin, hκd, hd, hoff]
      · rw [hd] at hd'
        cases hd'
        exact ⟨o', hat⟩
  have hok : ∀ o ∈ objs, ∀ i ∈ o.items, ItemRefs (RefOk (place w κr)) i := by
    intro o ho i hi
    cases i with
    | object p =>
      intro q hq
      subst hq
      exact (hrefs o ho q (.inl hi)).1
    | array a =>
      cases a with
      | none => trivial
      | some l =>
        intro p hp' q hq
        subst hq
        exact (hrefs o ho q (.inr ⟨l, hi, hp'⟩)).1
    | _ => trivial
  have hat : ∀ o ∈ objs, ∀ i ∈ o.items, ItemRefs (RefAt sch w) i := by
    intro o ho i hi
    cases i with
    | object p =>
      intro q d hq hd
      subst hq
      exact (hrefs o ho q (.inl hi)).2 d hd
    | array a =>
      cases a with
      | none => trivial
      | some l =>
        intro p hp' q d hq hd
        subst hq
        exact (hrefs o ho q (.inr ⟨l, hi, hp'⟩)).2 d hd
    | _ => trivial
  have hty : ∀ o ∈ objs, WellTyped sch o := by
    intro o ho
    obtain ⟨x, ⟨pre, post, e, _⟩, _⟩ := live_alive hp hw.sound ho
    exact hw.typed o (by rw [e]; simp)
  -- the objects
  have hsum : (objs.map sch.size).sum = (freeze sch k u).liveUnits := (gc_size hp k u).symm
  have halign : (freeze sch k u).liveUnits ≤ alignUp (freeze sch k u).liveUnits := by unfold alignUp; omega
  have hlen : objs.length < (objs.flatMap (writeObject sch w) ++ (Tok.uint 65535 :: rest)).length := by
    have : ∀ l : List Object, l.length ≤ (l.flatMap (writeObject sch w)).length := by
      intro l
      induction l with
      | nil => simp
      | cons o l ih => simp only [List.flatMap_cons, List.length_append, List.length_cons, writeObject]; omega
    have := this objs
    simp only [List.length_append, List.length_cons]
    omega
  obtain ⟨us, hus, hro⟩ := readObjects_write hlast hkeys objs hty hok hat rest _
    { Unit.new (alignUp (freeze sch k u).liveUnits) std false with flags := u.flags, deps := ds } hlen
    (by simp only [Unit.new, used, List.map_nil, List.sum_nil, hsum]; omega)
  have hused : used sch us = (freeze sch k u).liveUnits := by
    unfold used; rw [hus.sizes, hsum]
  let u3 : Unit :=
    { Unit.new (alignUp (freeze sch k u).liveUnits) std false with
      flags := u.flags, deps := ds, objects := us, root := firstRoot sch 0 us, frozen := true }
  have hv2len : v.length < v2.length := by
    have := hpre.length_le
    simp at this
    omega
  have hget3 : World.get (v2.set v.length u3) self = some u3 := by
    simp [World.get, self, hv2len]
  have hgetj : ∀ j, j ≠ self → World.get (v2.set v.length u3) j = v2.get j := by
    intro j hj
    unfold World.get
    split
    · rfl
    · next h0 =>
      rw [List.getElem?_set_ne]
      simp only [self] at hj
      omega
  refine ⟨v2.set v.length u3, u3, ds, ?_, ?_, hgetj, hget3, hus.length, rfl, rfl, rfl, rfl, hds, ?_⟩
  · unfold objectRead
    simp only [List.cons_append, List.nil_append, List.append_assoc, getUint, getIdent, Rd.bind, ne_eq,
      not_true_eq_false, if_false, ffl, fd]
    rw [if_neg (by omega), if_neg (by unfold alignUp; omega), if_neg (by omega)]
    simp only [fd] at hrd
    rw [hrd]
    simp only [List.nil_append]
    rw [hro]
    simp only [Unit.new, used, List.map_nil, List.sum_nil, List.nil_append, Option.none_or]
    have hused' : (us.map sch.size).sum = (freeze sch k u).liveUnits := hused
    rw [hused', if_neg (by simp)]
    rfl
  · intro d d' hd
    by_cases e : d = k
    · subst e
      simp only [if_true, Option.some.injEq] at hd
      subst hd
      refine ⟨freeze sch d u, u3, hget, hget3, fun x o off hx hoff => ?_⟩
      have hal : Alive sch d u.objects x := by
        obtain ⟨f, hf1, hf2⟩ := gc_alive hp d u hw.sound
        apply (hf2 x).mp
        simp only [offsetInFile, hf1] at hoff
        rw [hoff]; rfl
      obtain ⟨f, wo, h1, h2, h3⟩ := gc_forward hp d u hw.sound x o hx hal
      have : off = wo := by
        simp only [offsetInFile, h1, h2, Option.some.injEq] at hoff
        exact hoff.symm
      subst this
      obtain ⟨pre, post, e, hoff'⟩ := h3
      have hus' := hus
      simp only [objs] at hus'
      rw [e] at hus'
      obtain ⟨b1, y, b2, e2, g1, g2, g3⟩ := hus'.split
      refine ⟨y, ⟨b1, b2, e2, ?_⟩, g2.mono fun p q hpq => place_mono hrr hpq⟩
      rw [hoff', g1.sizes]
    · simp only [e, if_false] at hd
      obtain ⟨u1, u', h1, h2, h3⟩ := hcopied d d' hd
      refine ⟨u1, u', h1, by rw [hgetj d' (hself d d' hd)]; exact h2, fun x o off hx hoff => ?_⟩
      obtain ⟨o', ho', hi⟩ := h3 x o off hx hoff
      refine ⟨o', ho', hi.mono fun p q hpq => place_mono (fun a a' ha => ?_) hpq⟩
      show (if a = k then some (v.length + 1) else κ a) = some a'
      split
      · next e' => subst e'; rw [hκ] at ha; cases ha
      · exact ha
  · rintro ⟨pre, o, post, eo, er, hor, hpr⟩
    -- the root is alive, and so the first one of what has been read
    have hat0 : At sch u.objects ((pre.map sch.size).sum) o := ⟨pre, post, eo, rfl⟩
    have hal := Alive.root (key := k) hat0 hor
    obtain ⟨f, wo, h1, h2, pre', post', e', hw'⟩ := gc_forward hp k u hw.sound _ o hat0 hal
    -- the split that comes from that of the arena
    have hmark := (markAll_iff hp k _ hw.sound _).mpr hal
    have hlive : objs = ((walk sch 0 pre).filter fun p => markAll sch k u.objects p.1).map (·.2) ++
        o :: ((walk sch ((pre.map sch.size).sum + sch.size o) post).filter fun p => markAll sch k u.objects p.1).map (·.2) := by
      simp only [objs]
      unfold liveObjects freeze
      simp only
      rw [live_filter hp]
      have hwk := walk_append (sch := sch) pre (o :: post) 0
      rw [Nat.zero_add, walk] at hwk
      rw [← eo] at hwk
      rw [hwk, List.filter_append, List.filter_cons]
      simp [hmark]
    have hus' := hus
    rw [hlive] at hus'
    obtain ⟨b1, y, b2, e2, g1, g2, g3⟩ := hus'.split
    have hroots : ∀ l m, All2 (ObjectImage (place w κr)) l m → (∀ x ∈ l, sch.isRoot x = false) →
        ∀ x ∈ m, sch.isRoot x = false := by
      intro l m h
      induction h with
      | nil => intro _ x hx; simp at hx
      | cons r _ ih =>
        intro hl x hx
        rcases List.mem_cons.mp hx with rfl | hx
        · have := hl _ List.mem_cons_self
          unfold Schema.isRoot at *
          rw [r.tag, r.kind]; exact this
        · exact ih (fun z hz => hl z (by simp [hz])) x hx
    have hb1 : ∀ x ∈ b1, sch.isRoot x = false := by
      apply hroots _ _ g1
      intro x hx
      obtain ⟨⟨a, x'⟩, hf, rfl⟩ := List.mem_map.mp hx
      have hmem := (List.mem_filter.mp hf).1
      apply hpr
      have := List.mem_map_of_mem (f := (·.2)) hmem
      rwa [walk_snd] at this
    have hy : sch.isRoot y = true := by unfold Schema.isRoot; rw [g2.tag, g2.kind]; exact hor
    have hroot3 : u3.root = some ((b1.map sch.size).sum) := by
      show firstRoot sch 0 us = _
      rw [e2, firstRoot_split b1 y b2 hb1 hy, Nat.zero_add]
    have hat3 : objectAt sch u3.objects ((b1.map sch.size).sum) = some y :=
      (at_objectAt hp).mp ⟨b1, b2, e2, rfl⟩
    have hat1 := (at_objectAt hp).mp hat0
    unfold arenaName
    rw [hroot3, er]
    simp only [Option.getD_some]
    rw [hat3, hat1]
    simp only
    rw [g2.tag, g2.kind, g2.name]

end Verif.Obj
