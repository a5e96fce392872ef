import Verif.Jit.LayoutSpec

/-
Lemmas about rounding up, sizes and the places of fields.
-/

namespace Verif.Jit.Layout

/-! ### Rounding up -/

theorem alignUp_dvd (p : Nat) {a : Nat} (_ha : 0 < a) : a ∣ alignUp p a := by
  unfold alignUp
  split
  · exact Nat.dvd_zero a
  · exact Nat.dvd_mul_left a _

theorem le_alignUp (p : Nat) {a : Nat} (ha : 0 < a) : p ≤ alignUp p a := by
  unfold alignUp
  rw [if_neg (by omega)]
  have h1 : (p + (a - 1)) % a < a := Nat.mod_lt _ ha
  have h2 := Nat.div_add_mod (p + (a - 1)) a
  have h3 : a * ((p + (a - 1)) / a) = (p + (a - 1)) / a * a := Nat.mul_comm _ _
  omega

theorem alignUp_lt (p : Nat) {a : Nat} (ha : 0 < a) : alignUp p a < p + a := by
  unfold alignUp
  rw [if_neg (by omega)]
  have h : (p + (a - 1)) / a * a ≤ p + (a - 1) := Nat.div_mul_le_self _ _
  omega

theorem alignUp_of_dvd {p a : Nat} (ha : 0 < a) (h : a ∣ p) : alignUp p a = p := by
  have h1 := le_alignUp p ha
  have h2 := alignUp_lt p ha
  obtain ⟨k, hk⟩ := h
  obtain ⟨j, hj⟩ := alignUp_dvd p ha
  subst hk
  rw [hj] at h1 h2 ⊢
  have h3 : k ≤ j := Nat.le_of_mul_le_mul_left h1 ha
  have h4 : j < k + 1 := by
    apply Nat.lt_of_mul_lt_mul_left (a := a)
    rw [Nat.mul_add, Nat.mul_one]
    exact h2
  have : j = k := by omega
  rw [this]

/-- Nothing smaller is a multiple: rounding up finds the least one. -/
theorem alignUp_least {p a n : Nat} (ha : 0 < a) (hd : a ∣ n) (hp : p ≤ n) : alignUp p a ≤ n := by
  obtain ⟨k, rfl⟩ := hd
  have h2 := alignUp_lt p ha
  obtain ⟨j, hj⟩ := alignUp_dvd p ha
  rw [hj] at h2 ⊢
  have : j < k + 1 := by
    apply Nat.lt_of_mul_lt_mul_left (a := a)
    rw [Nat.mul_add, Nat.mul_one]
    omega
  exact Nat.mul_le_mul_left a (by omega)

/-! ### Numbers -/

theorem bits_cases (low high : Int) (h : low ≤ high) :
    bitsForRange low high = 1 ∨ bitsForRange low high = 8 ∨ bitsForRange low high = 16 ∨
      bitsForRange low high = 32 ∨ bitsForRange low high = 64 := by
  unfold bitsForRange
  rw [if_neg (by omega)]
  split
  · split
    · simp
    · split
      · simp
      · split <;> simp
  · split
    · simp
    · split
      · simp
      · split
        · simp
        · split <;> simp

theorem bits_null {low high : Int} (h : high < low) : bitsForRange low high = 0 := by
  unfold bitsForRange; rw [if_pos h]

theorem reprBits_cases (low high : Int) :
    reprBits low high = 1 ∨ reprBits low high = 8 ∨ reprBits low high = 16 ∨
      reprBits low high = 32 ∨ reprBits low high = 64 := by
  unfold reprBits
  by_cases h : high < low
  · rw [bits_null h]; simp
  · rcases bits_cases low high (by omega) with h | h | h | h | h <;> rw [h] <;> simp

theorem reprBits_eq {low high : Int} (h : low ≤ high) :
    reprBits low high = bitsForRange low high := by
  unfold reprBits
  rcases bits_cases low high h with h | h | h | h | h <;> rw [h] <;> simp

theorem intBytes_cases (low high : Int) :
    alignUp (reprBits low high) 8 / 8 = 1 ∨ alignUp (reprBits low high) 8 / 8 = 2 ∨
      alignUp (reprBits low high) 8 / 8 = 4 ∨ alignUp (reprBits low high) 8 / 8 = 8 := by
  rcases reprBits_cases low high with h | h | h | h | h <;> rw [h] <;> decide

/-- The alignments are one, two, four and eight. -/
theorem alignOf_cases (m : MTy) :
    alignOf m = 1 ∨ alignOf m = 2 ∨ alignOf m = 4 ∨ alignOf m = 8 := by
  induction m using MTy.rec (motive_2 := fun _ => True) with
  | int low high => rw [alignOf]; exact intBytes_cases low high
  | carray n e ih => rw [alignOf]; exact ih
  | nil => trivial
  | cons => trivial
  | _ => simp [alignOf]

theorem alignOf_pos (m : MTy) : 0 < alignOf m := by
  rcases alignOf_cases m with h | h | h | h <;> omega

theorem alignOf_dvd (m : MTy) : alignOf m ∣ 8 := by
  rcases alignOf_cases m with h | h | h | h <;> rw [h] <;> decide

/-! ### Sizes that fit -/

theorem fitNat_eq {n m : Nat} (h : fitNat n = some m) : m = n := by
  unfold fitNat at h
  split at h
  · exact (Option.some.inj h).symm
  · exact absurd h (by simp)

theorem fitNat_fit {n m : Nat} (h : fitNat n = some m) : n < intLimit := by
  unfold fitNat at h
  split at h
  · assumption
  · exact absurd h (by simp)

theorem bind_some {α β : Type} {o : Option α} {f : α → Option β} {b : β}
    (h : o.bind f = some b) : ∃ a, o = some a ∧ f a = some b := by
  cases o with
  | none => exact absurd h (by simp)
  | some a => exact ⟨a, rfl, h⟩

theorem map_some {α β : Type} {o : Option α} {f : α → β} {b : β}
    (h : o.map f = some b) : ∃ a, o = some a ∧ f a = b := by
  cases o with
  | none => exact absurd h (by simp)
  | some a => exact ⟨a, rfl, Option.some.inj h⟩

theorem sizeOf_record {fs : List MTy} {s : Nat} (h : sizeOf (.record fs) = some s) :
    ∃ bytes, sizeFields 0 fs = some bytes ∧ s = alignUp bytes 8 := by
  rw [sizeOf] at h
  obtain ⟨bytes, hb, hf⟩ := bind_some h
  exact ⟨bytes, hb, fitNat_eq hf⟩

theorem sizeOf_carray {n : Nat} {e : MTy} {s : Nat} (h : sizeOf (.carray n e) = some s) :
    ∃ es, sizeOf e = some es ∧ s = n * es := by
  rw [sizeOf] at h
  obtain ⟨es, he, hf⟩ := bind_some h
  exact ⟨es, he, fitNat_eq hf⟩

/-- Elements follow one another without losing the alignment. -/
theorem align_dvd_size {m : MTy} (hok : elemOk m = true) {s : Nat} (hs : sizeOf m = some s) :
    alignOf m ∣ s := by
  induction m using MTy.rec (motive_2 := fun _ => True) generalizing s with
  | int low high =>
    rw [sizeOf] at hs
    rw [alignOf, ← Option.some.inj hs]
    exact Nat.dvd_refl _
  | carray n e ih =>
    obtain ⟨es, he, hse⟩ := sizeOf_carray hs
    rw [hse, alignOf]
    exact Nat.dvd_trans (ih (by rw [elemOk] at hok; exact hok) he) (Nat.dvd_mul_left _ _)
  | record fs _ =>
    obtain ⟨bytes, _, hse⟩ := sizeOf_record hs
    rw [hse, alignOf]
    exact alignUp_dvd _ (by decide)
  | uarray d e _ =>
    rw [sizeOf] at hs
    rw [alignOf, ← Option.some.inj hs]
    split <;> omega
    all_goals simp
  | nil => trivial
  | cons => trivial
  | signal => exact absurd hok (by simp [elemOk])
  | resolution => exact absurd hok (by simp [elemOk])
  | _ =>
    rw [sizeOf] at hs
    rw [alignOf, ← Option.some.inj hs]
    all_goals simp

/-! ### Fields -/

theorem WellPlaced.nil (start stop : Nat) : WellPlaced start stop [] :=
  ⟨fun _ _ h => by simp at h, fun _ _ h => by simp at h, fun _ _ h => by simp at h,
    fun _ _ _ _ h => by simp at h⟩

theorem WellPlaced.cons {start mid stop : Nat} {p : Place} {ps : List Place}
    (ha : p.align ∣ p.offset) (hs : start ≤ p.offset) (hm : p.offset + p.size ≤ mid)
    (hms : mid ≤ stop) (h : WellPlaced mid stop ps) : WellPlaced start stop (p :: ps) where
  aligned i q hq := by
    cases i with
    | zero => simp at hq; subst hq; exact ha
    | succ i => exact h.aligned i q (by simpa using hq)
  after i q hq := by
    cases i with
    | zero => simp at hq; subst hq; exact hs
    | succ i =>
      have := h.after i q (by simpa using hq)
      omega
  before i q hq := by
    cases i with
    | zero => simp at hq; subst hq; omega
    | succ i => exact h.before i q (by simpa using hq)
  apart i j q r hq hr hij := by
    cases j with
    | zero => omega
    | succ j =>
      cases i with
      | zero =>
        simp at hq; subst hq
        have := h.after j r (by simpa using hr)
        omega
      | succ i => exact h.apart i j q r (by simpa using hq) (by simpa using hr) (by omega)

theorem WellPlaced.weaken {start stop stop' : Nat} {ps : List Place}
    (h : WellPlaced start stop ps) (hs : stop ≤ stop') : WellPlaced start stop' ps :=
  ⟨h.aligned, h.after, fun i p hp => Nat.le_trans (h.before i p hp) hs, h.apart⟩

theorem sizeFields_le {fs : List MTy} : ∀ {off stop : Nat}, sizeFields off fs = some stop →
    off ≤ stop := by
  induction fs with
  | nil =>
    intro off stop h
    rw [sizeFields] at h
    exact Nat.le_of_eq (Option.some.inj h)
  | cons f fs ih =>
    intro off stop h
    rw [sizeFields] at h
    obtain ⟨fb, _, hr⟩ := bind_some h
    have := ih hr
    have := le_alignUp off (alignOf_pos f)
    omega

/-- The places of the fields of a record. -/
theorem fields_placed {fs : List MTy} : ∀ {off stop : Nat}, sizeFields off fs = some stop →
    ∃ ps : List Place, ps.length = fs.length ∧
      (∀ (i : Nat) f, fs[i]? = some f → ∃ p, ps[i]? = some p ∧
        recordRef off fs i = some p.offset ∧ sizeOf f = some p.size ∧ p.align = alignOf f) ∧
      WellPlaced off stop ps := by
  induction fs with
  | nil =>
    intro off stop _
    exact ⟨[], rfl, fun _ _ h => by simp at h, WellPlaced.nil _ _⟩
  | cons f fs ih =>
    intro off stop h
    rw [sizeFields] at h
    obtain ⟨fb, hfb, hr⟩ := bind_some h
    obtain ⟨ps, hlen, hps, hw⟩ := ih hr
    refine ⟨⟨alignUp off (alignOf f), fb, alignOf f⟩ :: ps, by simp [hlen], ?_, ?_⟩
    · intro i g hg
      cases i with
      | zero =>
        simp at hg
        subst hg
        exact ⟨_, rfl, rfl, hfb, rfl⟩
      | succ i =>
        obtain ⟨p, hp, ho, hsz, ha⟩ := hps i g (by simpa using hg)
        refine ⟨p, by simpa using hp, ?_, hsz, ha⟩
        rw [recordRef, hfb]
        exact ho
    · exact WellPlaced.cons (alignUp_dvd _ (alignOf_pos f)) (le_alignUp _ (alignOf_pos f))
        (Nat.le_refl _) (sizeFields_le hr) hw

/-- The places of the variables of a frame. -/
theorem vars_placed {vs : List MTy} : ∀ {start stop : Nat} {offs : List Nat},
    placeVars start vs = some (offs, stop) → start ≤ stop ∧
    ∃ ps : List Place, ps.map (·.offset) = offs ∧ ps.length = vs.length ∧
      (∀ (i : Nat) v, vs[i]? = some v → ∃ p, ps[i]? = some p ∧ sizeOf v = some p.size ∧
        p.align = alignOf v) ∧
      WellPlaced start stop ps := by
  induction vs with
  | nil =>
    intro start stop offs h
    rw [placeVars] at h
    cases h
    exact ⟨Nat.le_refl _, [], rfl, rfl, fun _ _ h => by simp at h, WellPlaced.nil _ _⟩
  | cons v vs ih =>
    intro start stop offs h
    rw [placeVars] at h
    obtain ⟨s, hs, hr⟩ := bind_some h
    obtain ⟨⟨offs', stop'⟩, hp, he⟩ := map_some hr
    cases he
    obtain ⟨hle, ps, hoffs, hlen, hps, hw⟩ := ih hp
    have hst := le_alignUp start (alignOf_pos v)
    refine ⟨by dsimp only; omega, ⟨alignUp start (alignOf v), s, alignOf v⟩ :: ps,
      by simp [hoffs], by simp [hlen], ?_, ?_⟩
    · intro i g hg
      cases i with
      | zero =>
        simp at hg
        subst hg
        exact ⟨_, rfl, hs, rfl⟩
      | succ i =>
        obtain ⟨p, hp, hsz, ha⟩ := hps i g (by simpa using hg)
        exact ⟨p, by simpa using hp, hsz, ha⟩
    · exact WellPlaced.cons (alignUp_dvd _ (alignOf_pos v)) hst (Nat.le_refl _) hle hw

/-! ### Accesses -/

theorem words_get : ∀ (n start k : Nat) a, (words start n)[k]? = some a →
    k < n ∧ a = ⟨start + 8 * k, 8⟩ := by
  intro n
  induction n with
  | zero => intro start k a h; simp [words] at h
  | succ n ih =>
    intro start k a h
    rw [words] at h
    cases k with
    | zero => simp at h; subst h; exact ⟨by omega, by simp⟩
    | succ k =>
      obtain ⟨h1, h2⟩ := ih (start + 8) k a (by simpa using h)
      refine ⟨by omega, ?_⟩
      rw [h2]
      congr 1
      omega

/-- The accesses to one scalar or handle stay inside it, are aligned and do not
overlap. -/
theorem accesses_placed {m : MTy} {as : List Access} (h : accesses m = some as) :
    (∀ (k : Nat) a, as[k]? = some a → 0 < a.bytes ∧ a.bytes ∣ a.at_ ∧ a.bytes ∣ alignOf m ∧
      ∃ s, sizeOf m = some s ∧ a.at_ + a.bytes ≤ s) ∧
    (∀ (k j : Nat) a b, as[k]? = some a → as[j]? = some b → k < j → a.at_ + a.bytes ≤ b.at_) := by
  cases m with
  | carray => exact absurd h (by simp [accesses])
  | record => exact absurd h (by simp [accesses])
  | int low high =>
    rw [accesses] at h
    cases h
    constructor
    · intro k a ha
      cases k with
      | zero =>
        simp at ha
        subst ha
        dsimp only
        refine ⟨?_, Nat.dvd_zero _, ?_, _, by rw [sizeOf], by omega⟩
        · rcases intBytes_cases low high with h | h | h | h <;> omega
        · rw [alignOf]; exact Nat.dvd_refl _
      | succ k => simp at ha
    · intro k j a b hk hj hkj
      cases j with
      | zero => omega
      | succ j => simp at hj
  | uarray d e =>
    rw [accesses] at h
    cases h
    constructor
    · intro k a ha
      obtain ⟨hk, rfl⟩ := words_get _ _ _ _ ha
      refine ⟨Nat.zero_lt_succ 7, ⟨k, by simp⟩, by simp [alignOf], _, by rw [sizeOf], ?_⟩
      dsimp only
      split at hk <;> simp_all <;> omega
    · intro k j a b hk hj hkj
      obtain ⟨_, rfl⟩ := words_get _ _ _ _ hk
      obtain ⟨_, rfl⟩ := words_get _ _ _ _ hj
      dsimp only
      omega
  | signal =>
    rw [accesses] at h
    cases h
    constructor
    · intro k a ha
      match k, ha with
      | 0, ha => simp at ha; subst ha; exact ⟨by decide, by decide, by decide, _, by rw [sizeOf], by decide⟩
      | 1, ha => simp at ha; subst ha; exact ⟨by decide, by decide, by decide, _, by rw [sizeOf], by decide⟩
      | k + 2, ha => simp at ha
    · intro k j a b hk hj hkj
      match k, j, hk, hj, hkj with
      | 0, 1, hk, hj, _ => simp at hk hj; subst hk; subst hj; decide
      | k, j + 2, hk, hj, _ => simp at hj
      | k + 1, 1, hk, hj, hkj => omega
  | resolution =>
    rw [accesses] at h
    cases h
    constructor
    · intro k a ha
      match k, ha with
      | 0, ha => simp at ha; subst ha; exact ⟨by decide, by decide, by decide, _, by rw [sizeOf], by decide⟩
      | 1, ha => simp at ha; subst ha; exact ⟨by decide, by decide, by decide, _, by rw [sizeOf], by decide⟩
      | 2, ha => simp at ha; subst ha; exact ⟨by decide, by decide, by decide, _, by rw [sizeOf], by decide⟩
      | 3, ha => simp at ha; subst ha; exact ⟨by decide, by decide, by decide, _, by rw [sizeOf], by decide⟩
      | k + 4, ha => simp at ha
    · intro k j a b hk hj hkj
      match k, j, hk, hj, hkj with
      | 0, 1, hk, hj, _ => simp at hk hj; subst hk; subst hj; decide
      | 0, 2, hk, hj, _ => simp at hk hj; subst hk; subst hj; decide
      | 1, 2, hk, hj, _ => simp at hk hj; subst hk; subst hj; decide
      | 0, 3, hk, hj, _ => simp at hk hj; subst hk; subst hj; decide
      | 1, 3, hk, hj, _ => simp at hk hj; subst hk; subst hj; decide
      | 2, 3, hk, hj, _ => simp at hk hj; subst hk; subst hj; decide
      | k, j + 4, hk, hj, _ => simp at hj
      | k + 1, 1, hk, hj, hkj => omega
      | k + 2, 2, hk, hj, hkj => omega
      | k + 3, 3, hk, hj, hkj => omega
  | _ =>
    rw [accesses] at h
    cases h
    constructor
    · intro k a ha
      cases k with
      | zero =>
        simp at ha
        subst ha
        exact ⟨by decide, by decide, by decide, _, by rw [sizeOf], by decide⟩
      | succ k => simp at ha
    · intro k j a b hk hj hkj
      cases j with
      | zero => omega
      | succ j => simp at hj

end Verif.Jit.Layout
