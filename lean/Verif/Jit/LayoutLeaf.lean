import Verif.Jit.LayoutLemmas

/-
The generated code: every access to a part of a value stays inside the value,
is aligned, and meets no other part.
-/

namespace Verif.Jit.Layout

theorem record_field {fs : List MTy} {s i off : Nat} {f : MTy}
    (hs : sizeOf (.record fs) = some s) (hf : fs[i]? = some f)
    (ho : recordRef 0 fs i = some off) :
    ∃ fsz, sizeOf f = some fsz ∧ alignOf f ∣ off ∧ off + fsz ≤ s := by
  obtain ⟨bytes, hb, rfl⟩ := sizeOf_record hs
  obtain ⟨ps, _, hps, hw⟩ := fields_placed hb
  obtain ⟨p, hp, hpo, hpsz, hpa⟩ := hps i f hf
  rw [ho] at hpo
  cases Option.some.inj hpo
  refine ⟨p.size, hpsz, hpa ▸ hw.aligned i p hp, ?_⟩
  have := hw.before i p hp
  have := le_alignUp bytes (a := 8) (by decide)
  omega

theorem record_apart {fs : List MTy} {s i j off off' : Nat} {f g : MTy}
    (hs : sizeOf (.record fs) = some s) (hf : fs[i]? = some f) (hg : fs[j]? = some g)
    (ho : recordRef 0 fs i = some off) (ho' : recordRef 0 fs j = some off') (hij : i < j) :
    ∃ fsz, sizeOf f = some fsz ∧ off + fsz ≤ off' := by
  obtain ⟨bytes, hb, rfl⟩ := sizeOf_record hs
  obtain ⟨ps, _, hps, hw⟩ := fields_placed hb
  obtain ⟨p, hp, hpo, hpsz, _⟩ := hps i f hf
  obtain ⟨q, hq, hqo, _, _⟩ := hps j g hg
  rw [ho] at hpo
  rw [ho'] at hqo
  cases Option.some.inj hpo
  cases Option.some.inj hqo
  exact ⟨p.size, hpsz, hw.apart i j p q hp hq hij⟩

theorem leaf_size {m : MTy} {path : List Nat} {a : Access} (h : Leaf m path a) :
    ∀ {s}, sizeOf m = some s → 0 < a.bytes ∧ a.at_ + a.bytes ≤ s := by
  induction h with
  | here has hk =>
    intro s hs
    obtain ⟨h0, _, _, s', hs', hle⟩ := (accesses_placed has).1 _ _ hk
    rw [hs] at hs'
    cases Option.some.inj hs'
    exact ⟨h0, hle⟩
  | @elem n e es k path a hk he _ ih =>
    intro s hs
    obtain ⟨es', he', hse⟩ := sizeOf_carray hs
    rw [he] at he'
    cases Option.some.inj he'
    have h1 := ih he
    refine ⟨h1.1, ?_⟩
    have h2 : (k + 1) * es ≤ n * es := Nat.mul_le_mul_right es hk
    rw [Nat.add_mul, Nat.one_mul] at h2
    have := h1.2
    dsimp only
    omega
  | @field fs i f off path a hf ho _ ih =>
    intro s hs
    obtain ⟨fsz, hfsz, _, hle⟩ := record_field hs hf ho
    have h1 := ih hfsz
    exact ⟨h1.1, by have := h1.2; dsimp only; omega⟩

theorem allStackable_get {fs : List MTy} (h : allStackable fs = true) :
    ∀ (i : Nat) f, fs[i]? = some f → Stackable f = true := by
  induction fs with
  | nil => intro i f hf; simp at hf
  | cons g fs ih =>
    intro i f hf
    rw [allStackable, Bool.and_eq_true] at h
    cases i with
    | zero => simp at hf; subst hf; exact h.1
    | succ i => exact ih h.2 i f (by simpa using hf)

theorem leaf_align {m : MTy} {path : List Nat} {a : Access} (h : Leaf m path a) :
    Stackable m = true → a.bytes ∣ a.at_ ∧ a.bytes ∣ alignOf m := by
  induction h with
  | here has hk =>
    intro _
    obtain ⟨_, h1, h2, _⟩ := (accesses_placed has).1 _ _ hk
    exact ⟨h1, h2⟩
  | @elem n e es k path a hk he _ ih =>
    intro hst
    rw [Stackable, Bool.and_eq_true] at hst
    have h1 := ih hst.2
    have h2 := align_dvd_size hst.1 he
    refine ⟨?_, by rw [alignOf]; exact h1.2⟩
    have h3 : a.bytes ∣ es := Nat.dvd_trans h1.2 h2
    exact Nat.dvd_add (Nat.dvd_trans h3 (Nat.dvd_mul_left _ _)) h1.1
  | @field fs i f off path a hf ho hl ih =>
    intro hst
    rw [Stackable] at hst
    have h1 := ih (allStackable_get hst i f hf)
    refine ⟨?_, by rw [alignOf]; exact Nat.dvd_trans h1.2 (alignOf_dvd f)⟩
    have h2 : alignOf f ∣ off := by
      clear ih h1 hst hl
      revert i off
      suffices ∀ (fs : List MTy) (st i off : Nat), fs[i]? = some f →
          recordRef st fs i = some off → alignOf f ∣ off by
        intro i off hf ho; exact this fs 0 i off hf ho
      intro fs
      induction fs with
      | nil => intro st i off hf; simp at hf
      | cons g gs ihg =>
        intro st i off hf ho
        cases i with
        | zero =>
          simp at hf
          subst hf
          rw [recordRef] at ho
          rw [← Option.some.inj ho]
          exact alignUp_dvd _ (alignOf_pos _)
        | succ i =>
          rw [recordRef] at ho
          obtain ⟨fb, _, hr⟩ := bind_some ho
          exact ihg _ i off (by simpa using hf) hr
    exact Nat.dvd_add (Nat.dvd_trans h1.2 h2) h1.1

theorem leaf_apart {m : MTy} {path : List Nat} {a : Access} (h : Leaf m path a) :
    ∀ {s path' b}, sizeOf m = some s → Leaf m path' b → path ≠ path' → a.Apart b := by
  induction h with
  | @here m as k a has hk =>
    intro s path' b hs hb hne
    cases hb with
    | @here _ as' k' _ has' hk' =>
      rw [has] at has'
      cases Option.some.inj has'
      have hkk : k ≠ k' := fun h => hne (by rw [h])
      rcases Nat.lt_or_gt_of_ne hkk with h | h
      · exact Or.inl ((accesses_placed has).2 _ _ _ _ hk hk' h)
      · exact Or.inr ((accesses_placed has).2 _ _ _ _ hk' hk h)
    | elem => exact absurd has (by simp [accesses])
    | field => exact absurd has (by simp [accesses])
  | @elem n e es k path a hk he hl ih =>
    intro s path' b hs hb hne
    cases hb with
    | here has' => exact absurd has' (by simp [accesses])
    | @elem _ _ es' k' path' b hk' he' hl' =>
      rw [he] at he'
      cases Option.some.inj he'
      by_cases hkk : k = k'
      · subst hkk
        rcases ih he hl' (fun h => hne (by rw [h])) with h | h
        · exact Or.inl (by dsimp only; omega)
        · exact Or.inr (by dsimp only; omega)
      · have h1 := (leaf_size hl he).2
        have h2 := (leaf_size hl' he).2
        rcases Nat.lt_or_gt_of_ne hkk with h | h
        · have h3 : (k + 1) * es ≤ k' * es := Nat.mul_le_mul_right es h
          rw [Nat.add_mul, Nat.one_mul] at h3
          exact Or.inl (by dsimp only; omega)
        · have h3 : (k' + 1) * es ≤ k * es := Nat.mul_le_mul_right es h
          rw [Nat.add_mul, Nat.one_mul] at h3
          exact Or.inr (by dsimp only; omega)
  | @field fs i f off path a hf ho hl ih =>
    intro s path' b hs hb hne
    cases hb with
    | here has' => exact absurd has' (by simp [accesses])
    | @field _ i' f' off' path' b hf' ho' hl' =>
      by_cases hii : i = i'
      · subst hii
        rw [hf] at hf'
        cases Option.some.inj hf'
        rw [ho] at ho'
        cases Option.some.inj ho'
        obtain ⟨fsz, hfsz, _⟩ := record_field hs hf ho
        rcases ih hfsz hl' (fun h => hne (by rw [h])) with h | h
        · exact Or.inl (by dsimp only; omega)
        · exact Or.inr (by dsimp only; omega)
      · rcases Nat.lt_or_gt_of_ne hii with h | h
        · obtain ⟨fsz, hfsz, hle⟩ := record_apart hs hf hf' ho ho' h
          have := (leaf_size hl hfsz).2
          exact Or.inl (by dsimp only; omega)
        · obtain ⟨fsz, hfsz, hle⟩ := record_apart hs hf' hf ho' ho h
          have := (leaf_size hl' hfsz).2
          exact Or.inr (by dsimp only; omega)

/-! ### Lowered types -/

theorem isHomogeneous_elem (t : Ty) : t.isHomogeneous = t.elemRecur.isScalar := by
  induction t using Ty.rec (motive_2 := fun _ => True) with
  | array nd e ih => rw [Ty.isHomogeneous, Ty.elemRecur]; exact ih
  | sub rs e ih => rw [Ty.isHomogeneous, Ty.elemRecur]; exact ih
  | nil => trivial
  | cons => trivial
  | _ => rfl

/-- What lowering a type gives. -/
def LowOk (o : Option MTy × Option MTy) : Prop :=
  (∀ m, o.1 = some m → Stackable m = true ∧ elemOk m = true) ∧
  (∀ m, o.2 = some m → Stackable m = true ∧ elemOk m = true)

theorem lowerSub_ok {c : Bool} {d : Nat} {sz : Option Nat} {el : Option MTy} {m : MTy}
    (hel : ∀ m, el = some m → Stackable m = true ∧ elemOk m = true)
    (h : lowerSub c d sz el = some m) : Stackable m = true ∧ elemOk m = true := by
  obtain ⟨e, he, h⟩ := bind_some h
  have h1 := hel e he
  split at h
  · obtain ⟨n, _, rfl⟩ := map_some h
    simp [Stackable, elemOk, h1.1, h1.2]
  · cases Option.some.inj h
    simp [Stackable, elemOk]

theorem lowerBoth_ok (t : Ty) : LowOk (lowerBoth t) := by
  induction t using Ty.rec (motive_2 := fun fs => ∀ ms, lowerFields fs = some ms →
    allStackable ms = true) with
  | int b o =>
    rw [lowerBoth]
    constructor <;> intro m h <;> cases Option.some.inj h <;> cases b <;>
      simp [lowerRange, Stackable, elemOk]
  | phys b =>
    rw [lowerBoth]
    constructor <;> intro m h <;> cases Option.some.inj h <;> cases b <;>
      simp [lowerRange, Stackable, elemOk]
  | array nd e ih =>
    rw [lowerBoth]
    exact ⟨fun m h => lowerSub_ok ih.2 h, ih.2⟩
  | sub rs e ih =>
    rw [lowerBoth]
    exact ⟨fun m h => lowerSub_ok ih.2 h, ih.2⟩
  | record fs ih =>
    rw [lowerBoth]
    constructor <;> intro m h <;> obtain ⟨ms, hms, rfl⟩ := map_some h <;>
      exact ⟨by rw [Stackable]; exact ih ms hms, by simp [elemOk]⟩
  | nil =>
    rename_i ms h
    rw [lowerFields] at h
    cases Option.some.inj h
    rw [allStackable]
  | cons f fs ihf ihfs =>
    rename_i ms h
    rw [lowerFields] at h
    obtain ⟨m, hm, h⟩ := bind_some h
    obtain ⟨ms', hms, rfl⟩ := map_some h
    rw [allStackable, (ihf.1 m hm).1, ihfs ms' hms]
    rfl
  | _ =>
    rw [lowerBoth]
    constructor <;> intro m h <;> cases Option.some.inj h <;> simp [Stackable, elemOk]

/-- What lowering the type of a signal gives: only a record may be an element. -/
def LowSigOk (t : Ty) (o : Option MTy × Option MTy) : Prop :=
  (∀ m, o.1 = some m → Stackable m = true) ∧
  (∀ m, o.2 = some m → Stackable m = true ∧
    (t.isHomogeneous = false → elemOk m = true ∧ m.isSignal = false))

theorem lowerSignalSub_ok {c : Bool} {d : Nat} {sz : Option Nat} {e : Ty} {el : Option MTy} {m : MTy}
    (hel : ∀ m, el = some m → Stackable m = true ∧
      (e.isHomogeneous = false → elemOk m = true ∧ m.isSignal = false))
    (h : lowerSignalSub e.isHomogeneous c d sz el = some m) : Stackable m = true := by
  unfold lowerSignalSub at h
  cases hh : e.isHomogeneous with
  | true =>
    rw [hh, if_pos rfl] at h
    split at h <;> cases Option.some.inj h <;> simp [Stackable]
  | false =>
    rw [hh, if_neg (by simp)] at h
    obtain ⟨e', he, h⟩ := bind_some h
    have h1 := hel e' he
    split at h
    · obtain ⟨n, _, rfl⟩ := map_some h
      simp [Stackable, h1.1, (h1.2 hh).1]
    · cases Option.some.inj h
      simp [Stackable]

theorem lowerSignalBoth_ok (t : Ty) : LowSigOk t (lowerSignalBoth t) := by
  induction t using Ty.rec (motive_2 := fun fs => ∀ ms, lowerSignalFields fs = some ms →
    allStackable ms = true) with
  | array nd e ih =>
    rw [lowerSignalBoth]
    exact ⟨fun m h => lowerSignalSub_ok ih.2 h, fun m h => by
      rw [Ty.isHomogeneous]; exact ih.2 m h⟩
  | sub rs e ih =>
    rw [lowerSignalBoth]
    exact ⟨fun m h => lowerSignalSub_ok ih.2 h, fun m h => by
      rw [Ty.isHomogeneous]; exact ih.2 m h⟩
  | record fs ih =>
    rw [lowerSignalBoth]
    constructor
    · intro m h
      obtain ⟨ms, hms, rfl⟩ := map_some h
      rw [Stackable]
      exact ih ms hms
    · intro m h
      obtain ⟨ms, hms, rfl⟩ := map_some h
      rw [Stackable]
      exact ⟨ih ms hms, fun _ => ⟨by simp [elemOk], rfl⟩⟩
  | nil =>
    rename_i ms h
    rw [lowerSignalFields] at h
    cases Option.some.inj h
    rw [allStackable]
  | cons f fs ihf ihfs =>
    rename_i ms h
    rw [lowerSignalFields] at h
    obtain ⟨m, hm, h⟩ := bind_some h
    obtain ⟨ms', hms, rfl⟩ := map_some h
    rw [allStackable, ihf.1 m hm, ihfs ms' hms]
    rfl
  | access => rw [lowerSignalBoth]; exact ⟨fun m h => by simp at h, fun m h => by simp at h⟩
  | file => rw [lowerSignalBoth]; exact ⟨fun m h => by simp at h, fun m h => by simp at h⟩
  | _ =>
    rw [lowerSignalBoth]
    constructor
    · intro m h
      cases Option.some.inj h
      simp [Stackable]
    · intro m h
      cases Option.some.inj h
      refine ⟨by simp [Stackable], ?_⟩
      intro hh
      simp [Ty.isHomogeneous, Ty.isScalar] at hh
    all_goals simp

end Verif.Jit.Layout
