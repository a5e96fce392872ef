import Verif.Textio.Ints

/-
Property C92, fourth part: times.
-/

namespace Verif.Textio

open Spec

/-! ## The digits of a time -/

theorem char_digit {n : Nat} (h : n < 10) : (Char.ofNat (n + 48)).toNat = 48 + n := by
  rw [Nat.add_comm, digit_toNat h]

theorem dig_char {n : Nat} (h : n < 10) : Dig (Char.ofNat (n + 48)) := by
  unfold Dig
  rw [char_digit h]
  omega

theorem char_zero {n : Nat} (h : n < 10) (e : Char.ofNat (n + 48) = '0') : n = 0 := by
  have := congrArg Char.toNat e
  rw [char_digit h] at this
  have z : '0'.toNat = 48 := rfl
  omega

theorem pow_div (j : Nat) : 10 ^ (j + 1) / 10 = 10 ^ j := by
  rw [Nat.pow_succ, Nat.mul_div_cancel _ (by decide)]

theorem sub_mod (v d : Nat) : v - v / d * d = v % d := by
  have := Nat.div_add_mod v d
  rw [Nat.mul_comm] at this
  omega

theorem div_lt_ten {v j : Nat} (h : v < 10 ^ (j + 1)) : v / 10 ^ j < 10 := by
  rw [Nat.div_lt_iff_lt_mul (Nat.pow_pos (by decide))]
  rwa [Nat.pow_succ, Nat.mul_comm] at h

/-- The digits of a fraction `v / 10 ^ m`: none for zero, no zero at the end. -/
structure Frac (m v : Nat) (fs : List Char) : Prop where
  digs : ∀ c ∈ fs, Dig c
  len : fs.length ≤ m
  val : dec fs * 10 ^ (m - fs.length) = v
  last : ∀ c ∈ fs.getLast?, c ≠ '0'

theorem time_frac (k j : Nat) (hj : j < k) (f v : Nat) (hf : j + 1 ≤ f) (hv : v < 10 ^ (j + 1))
    (h0 : v ≠ 0) : ∃ fs, timeLoop (10 ^ k) f v (10 ^ j) = fs ∧ fs ≠ [] ∧ Frac (j + 1) v fs := by
  induction j generalizing f v with
  | zero =>
    obtain ⟨f, rfl⟩ : ∃ f', f = f' + 1 := ⟨f - 1, by omega⟩
    have hv' : v < 10 := by simpa using hv
    have hp : 1 ≤ 10 ^ k := Nat.one_le_pow _ _ (by decide)
    refine ⟨[Char.ofNat (v + 48)], by simp [timeLoop, hp], by simp, ⟨?_, by simp, ?_, ?_⟩⟩
    · intro c hc
      rw [List.mem_singleton] at hc
      subst hc
      unfold Dig
      rw [char_digit hv']
      omega
    · rw [dec_cons, char_digit hv']
      simp [dec, decR]
    · intro c hc
      simp only [List.getLast?_singleton, Option.mem_some] at hc
      subst hc
      intro e
      have := congrArg Char.toNat e
      rw [char_digit hv'] at this
      have z : '0'.toNat = 48 := rfl
      omega
  | succ j ih =>
    obtain ⟨f, rfl⟩ : ∃ f', f = f' + 1 := ⟨f - 1, by omega⟩
    have hd := div_lt_ten hv
    have hle : 10 ^ (j + 1) ≤ 10 ^ k := Nat.pow_le_pow_right (by decide) (by omega)
    have hne : (10 : Nat) ^ (j + 1) ≠ 10 ^ k := by
      have : (10 : Nat) ^ (j + 1) < 10 ^ k := Nat.pow_lt_pow_right (by decide) hj
      omega
    have hstep : 10 ^ (j + 1) / 10 * 10 = 10 ^ (j + 1) := by rw [pow_div, Nat.pow_succ]
    have hpos : 0 < 10 ^ (j + 1) := Nat.pow_pos (by decide)
    have hdm := Nat.div_add_mod v (10 ^ (j + 1))
    simp only [timeLoop, sub_mod, hle, and_true, hne, false_and, if_false, hstep, ne_eq,
      not_true_eq_false]
    have hc := char_digit hd
    have hdig : Dig (Char.ofNat (v / 10 ^ (j + 1) + 48)) := dig_char hd
    by_cases hz : v % 10 ^ (j + 1) = 0
    · rw [if_pos hz]
      refine ⟨_, rfl, by simp, ⟨?_, by simp, ?_, ?_⟩⟩
      · intro c hc
        rw [List.mem_singleton] at hc
        subst hc
        exact hdig
      · rw [dec_cons, hc]
        simp only [List.length_nil, Nat.pow_zero, List.length_cons, Nat.zero_add, Nat.mul_one]
        have e1 : dec [] = 0 := rfl
        have e2 : j + 1 + 1 - 1 = j + 1 := by omega
        have e3 : 48 + v / 10 ^ (j + 1) - 48 = v / 10 ^ (j + 1) := Nat.add_sub_cancel_left ..
        rw [e1, e2, e3, Nat.add_zero, Nat.mul_comm]
        omega
      · intro c hc'
        simp only [List.getLast?_singleton, Option.mem_some] at hc'
        subst hc'
        intro e
        rw [char_zero hd e, Nat.mul_zero] at hdm
        omega
    · rw [if_neg hz, pow_div]
      obtain ⟨fs, he, hn, hfr⟩ := ih (by omega) f (v % 10 ^ (j + 1)) (by omega)
        (Nat.mod_lt _ hpos) hz
      refine ⟨_, rfl, by simp, ⟨?_, ?_, ?_, ?_⟩⟩
      · rw [List.forall_mem_cons, he]
        exact ⟨hdig, hfr.digs⟩
      · rw [he, List.length_cons]
        have := hfr.len
        omega
      · rw [he, dec_cons, hc, List.length_cons]
        have e3 : 48 + v / 10 ^ (j + 1) - 48 = v / 10 ^ (j + 1) := Nat.add_sub_cancel_left ..
        have e4 : j + 1 + 1 - (fs.length + 1) = j + 1 - fs.length := by omega
        have e5 : 10 ^ fs.length * 10 ^ (j + 1 - fs.length) = 10 ^ (j + 1) := by
          rw [← Nat.pow_add]
          congr 1
          have := hfr.len
          omega
        rw [e3, e4, Nat.add_mul, Nat.mul_assoc, e5, hfr.val, Nat.mul_comm]
        omega
      · rw [he, List.getLast?_cons]
        intro c hc'
        cases hg : fs.getLast? with
        | none => exact absurd (List.getLast?_eq_none_iff.mp hg) hn
        | some x =>
          rw [hg] at hc'
          simp only [Option.getD_some, Option.mem_some] at hc'
          subst hc'
          exact hfr.last _ hg

/-- The fraction after its point. -/
def point (fs : List Char) : List Char := if fs = [] then [] else '.' :: fs

theorem time_loop (k i f v : Nat) (hf : k + i + 2 ≤ f) (hv : v < 10 ^ (k + i + 1)) :
    ∃ c ds fs, timeLoop (10 ^ k) f v (10 ^ (k + i)) = c :: ds ++ point fs ∧ ds.length = i ∧
      (∀ x ∈ c :: ds, Dig x) ∧ c.toNat = 48 + v / 10 ^ (k + i) ∧ dec (c :: ds) = v / 10 ^ k ∧
      Frac k (v % 10 ^ k) fs := by
  induction i generalizing f v with
  | zero =>
    obtain ⟨f, rfl⟩ : ∃ f', f = f' + 1 := ⟨f - 1, by omega⟩
    simp only [Nat.add_zero] at hf hv ⊢
    have hd := div_lt_ten hv
    have hc := char_digit hd
    have hdig : Dig (Char.ofNat (v / 10 ^ k + 48)) := dig_char hd
    have hdec : dec [Char.ofNat (v / 10 ^ k + 48)] = v / 10 ^ k := by
      rw [dec_cons, hc]
      simp [dec, decR]
    simp only [timeLoop, sub_mod, Nat.le_refl, and_true]
    by_cases hz : v % 10 ^ k = 0
    · rw [if_pos hz]
      refine ⟨_, [], [], rfl, rfl, ?_, hc, hdec, ⟨by simp, by simp, ?_, by simp⟩⟩
      · intro c hc
        rw [List.mem_singleton] at hc
        subst hc
        exact hdig
      · rw [hz]
        simp [dec, decR]
    · rw [if_neg hz, if_pos (by simp; omega)]
      obtain ⟨m, rfl⟩ : ∃ m, k = m + 1 := by
        cases k with
        | zero => simp [Nat.mod_one] at hz
        | succ m => exact ⟨m, rfl⟩
      have hstep : 10 ^ (m + 1) / 10 * 10 = 10 ^ (m + 1) := by rw [pow_div, Nat.pow_succ]
      rw [if_neg (by simpa using hstep), pow_div]
      obtain ⟨fs, he, hn, hfr⟩ := time_frac (m + 1) m (by omega) (f - 1) (v % 10 ^ (m + 1))
        (by omega) (Nat.mod_lt _ (Nat.pow_pos (by decide))) hz
      refine ⟨_, [], fs, ?_, rfl, ?_, hc, hdec, hfr⟩
      · rw [he, point, if_neg hn]
        rfl
      · intro c hc
        rw [List.mem_singleton] at hc
        subst hc
        exact hdig
  | succ i ih =>
    obtain ⟨f, rfl⟩ : ∃ f', f = f' + 1 := ⟨f - 1, by omega⟩
    have hd := div_lt_ten hv
    have hc := char_digit hd
    have hdig : Dig (Char.ofNat (v / 10 ^ (k + (i + 1)) + 48)) := dig_char hd
    have hgt : (10 : Nat) ^ k < 10 ^ (k + (i + 1)) := Nat.pow_lt_pow_right (by decide) (by omega)
    have hpos : 0 < 10 ^ (k + (i + 1)) := Nat.pow_pos (by decide)
    have hk : 0 < 10 ^ k := Nat.pow_pos (by decide)
    have hstep : 10 ^ (k + (i + 1)) / 10 * 10 = 10 ^ (k + (i + 1)) := by
      rw [← Nat.add_assoc, pow_div, Nat.pow_succ]
    simp only [timeLoop, sub_mod, hstep, ne_eq, not_true_eq_false, if_false]
    rw [if_neg (fun h => by have := h.2; omega), if_neg (fun h => by have := h.1; omega)]
    have hdd : 10 ^ (k + (i + 1)) / 10 = 10 ^ (k + i) := by rw [← Nat.add_assoc, pow_div]
    rw [hdd]
    obtain ⟨c, ds, fs, he, hl, hdg, _, hdec, hfr⟩ := ih f (v % 10 ^ (k + (i + 1))) (by omega)
      (by rw [Nat.add_assoc]; exact Nat.mod_lt _ hpos)
    have hmm : v % 10 ^ (k + (i + 1)) % 10 ^ k = v % 10 ^ k := by
      rw [Nat.pow_add]
      exact Nat.mod_mul_right_mod _ _ _
    rw [hmm] at hfr
    refine ⟨_, c :: ds, fs, by rw [he]; rfl, by simp [hl], ?_, hc, ?_, hfr⟩
    · rw [List.forall_mem_cons]
      exact ⟨hdig, hdg⟩
    · rw [dec_cons, hdec, hc, List.length_cons, hl]
      have e3 : 48 + v / 10 ^ (k + (i + 1)) - 48 = v / 10 ^ (k + (i + 1)) := Nat.add_sub_cancel_left ..
      rw [e3]
      have hdm := Nat.div_add_mod v (10 ^ (k + (i + 1)))
      generalize v / 10 ^ (k + (i + 1)) = q at *
      generalize v % 10 ^ (k + (i + 1)) = m at *
      rw [← hdm, Nat.pow_add 10 k, Nat.mul_assoc, Nat.mul_add_div hk, Nat.mul_comm q]

theorem up_loop (k f v j : Nat) (hj : k ≤ j) (hf : v / 10 < f + 10 ^ j) (h : j = k ∨ 10 ^ j ≤ v) :
    ∃ i, upLoop f v (10 ^ j) = 10 ^ (k + i) ∧ v < 10 ^ (k + i + 1) ∧ (i = 0 ∨ 10 ^ (k + i) ≤ v) := by
  induction f generalizing j with
  | zero =>
    refine ⟨j - k, by simp only [upLoop]; congr 1; omega, ?_, ?_⟩
    · have : k + (j - k) = j := by omega
      rw [this, Nat.pow_succ]
      omega
    · have : k + (j - k) = j := by omega
      rw [this]
      omega
  | succ f ih =>
    simp only [upLoop]
    have hp : 1 ≤ 10 ^ j := Nat.one_le_pow _ _ (by decide)
    split
    · next h1 =>
      have e : 10 ^ j * 10 = 10 ^ (j + 1) := (Nat.pow_succ ..).symm
      rw [e]
      refine ih (j + 1) (by omega) ?_ (.inr ?_)
      · rw [← e]
        omega
      · rw [← e]
        omega
    · next h1 =>
      refine ⟨j - k, by congr 1; omega, ?_, ?_⟩
      · have : k + (j - k) = j := by omega
        rw [this, Nat.pow_succ]
        omega
      · have : k + (j - k) = j := by omega
        rw [this]
        omega

/-- The sign of a value. -/
def signText (v : Int) : List Char := if v < 0 then ['-'] else []

/-- **C92**: a time is written as its exact quotient by the unit, with a fraction only
if there is one, and without superfluous zeros; the buffer is never too short. -/
theorem time_text_correct (value : Int) (k : Nat) (hk : k ≤ 15) (hl : -(2 ^ 63) < value)
    (hh : value < 2 ^ 63) : ∃ c ds fs,
      timeText value (10 ^ k) = some (signText value ++ (c :: ds) ++ point fs) ∧
      (∀ x ∈ c :: ds, Dig x) ∧ dec (c :: ds) = value.natAbs / 10 ^ k ∧
      (ds = [] ∨ c ≠ '0') ∧ Frac k (value.natAbs % 10 ^ k) fs := by
  unfold timeText
  rw [if_neg (by omega)]
  simp only
  generalize hv : value.natAbs = v
  have hv63 : v < 2 ^ 63 := by omega
  have hp : 1 ≤ 10 ^ k := Nat.one_le_pow _ _ (by decide)
  obtain ⟨i, hu, hlt, hi⟩ := up_loop k v v k (Nat.le_refl _) (by omega) (.inl rfl)
  rw [hu]
  have hki : k + i ≤ 18 := by
    rcases hi with rfl | hi
    · omega
    · rcases Nat.lt_or_ge 18 (k + i) with h | h
      · have : (10 : Nat) ^ 19 ≤ 10 ^ (k + i) := Nat.pow_le_pow_right (by decide) h
        omega
      · exact h
  have key : ∀ f, 21 ≤ f → ∃ c ds fs, timeLoop (10 ^ k) f v (10 ^ (k + i)) = c :: ds ++ point fs ∧
      (∀ x ∈ c :: ds, Dig x) ∧ dec (c :: ds) = v / 10 ^ k ∧
      (ds = [] ∨ c ≠ '0') ∧ Frac k (v % 10 ^ k) fs := by
    intro f hf
    obtain ⟨c, ds, fs, h1, h2, h3, h4, h5, h6⟩ := time_loop k i f v (by omega) hlt
    refine ⟨c, ds, fs, h1, h3, h5, ?_, h6⟩
    rcases hi with rfl | hi
    · exact .inl (List.length_eq_zero_iff.mp h2)
    · right
      rintro rfl
      have z : '0'.toNat = 48 := rfl
      have : 0 < v / 10 ^ (k + i) := Nat.div_pos hi (Nat.pow_pos (by decide))
      omega
  by_cases hneg : value < 0
  · rw [if_pos hneg]
    obtain ⟨c, ds, fs, h1, h2⟩ := key 21 (by omega)
    exact ⟨c, ds, fs, by rw [h1, signText, if_pos hneg]; rfl, h2⟩
  · rw [if_neg hneg]
    obtain ⟨c, ds, fs, h1, h2⟩ := key 22 (by omega)
    exact ⟨c, ds, fs, by rw [h1, signText, if_neg hneg]; rfl, h2⟩

/-- The lowest value is not written, for it has no absolute value. -/
theorem time_low_counterexample (unit : Nat) : timeText (-(2 ^ 63)) unit = none := rfl

/-- **C92**: a multiple of the unit is written as an integer. -/
theorem time_text_whole (n : Int) (k : Nat) (hk : k ≤ 15) (hl : -(2 ^ 63) < n * 10 ^ k)
    (hh : n * 10 ^ k < 2 ^ 63) : ∃ s, timeText (n * 10 ^ k) (10 ^ k) = some s ∧ Denotes s n := by
  obtain ⟨c, ds, fs, h1, h2, h3, h4, h5⟩ := time_text_correct (n * 10 ^ k) k hk hl hh
  have hp : 0 < 10 ^ k := Nat.pow_pos (by decide)
  have hab : (n * 10 ^ k).natAbs = n.natAbs * 10 ^ k := by
    rw [Int.natAbs_mul, Int.natAbs_pow]
    rfl
  rw [hab, Nat.mul_div_cancel _ hp] at h3
  rw [hab, Nat.mul_mod_left] at h5
  have hfs : fs = [] := by
    cases hg : fs.getLast? with
    | none => exact List.getLast?_eq_none_iff.mp hg
    | some x =>
      have hlast := h5.last x hg
      obtain ⟨ys, rfl⟩ := List.getLast?_eq_some_iff.mp hg
      have hdx := h5.digs x (by simp)
      have hv := h5.val
      rw [dec_snoc] at hv
      unfold Dig at hdx
      have hz : 10 * dec ys + (x.toNat - 48) = 0 := by
        rcases Nat.mul_eq_zero.mp hv with h | h
        · exact h
        · have : 0 < 10 ^ (k - (ys ++ [x]).length) := Nat.pow_pos (by decide)
          omega
      exact absurd (Char.toNat_inj.mp (by have z : '0'.toNat = 48 := rfl; omega)) hlast
  subst hfs
  refine ⟨_, h1, ?_⟩
  have hpz : (0 : Int) < 10 ^ k := Int.pow_pos (by decide)
  simp only [point, if_true, List.append_nil, signText]
  by_cases hn : n * 10 ^ k < 0
  · rw [if_pos hn]
    have hn' : n < 0 := by
      rcases Int.lt_or_le n 0 with h | h
      · exact h
      · have := Int.mul_nonneg h (Int.le_of_lt hpz)
        omega
    have := Denotes.minus (ds := c :: ds) (by simp) h2
    rw [h3] at this
    have e : -(n.natAbs : Int) = n := by omega
    rwa [e] at this
  · rw [if_neg hn]
    have hn' : 0 ≤ n := by
      rcases Int.lt_or_le n 0 with h | h
      · have := Int.mul_neg_of_neg_of_pos h hpz
        omega
      · exact h
    have := Denotes.plain (ds := c :: ds) (by simp) h2
    rw [h3] at this
    have e : (n.natAbs : Int) = n := by omega
    rwa [e] at this

/-! ## Reading times -/

theorem unit_skip (scale : Int) (us vs : List (List Char × Int)) (g : Bool) (v : Option Int)
    (l : List Char) (h : ∀ p ∈ us, starts l p.1 = false) :
    unitLoop scale (us ++ vs) g v l = unitLoop scale vs g v l := by
  induction us with
  | nil => rfl
  | cons p us ih =>
    rw [List.forall_mem_cons] at h
    obtain ⟨w, u⟩ := p
    simp only [List.cons_append, unitLoop]
    rw [h.1, if_neg (by decide)]
    exact ih h.2

/-- The names differ in their first two letters. -/
theorem units_differ : (units.map (fun p => p.1.take 2)).Nodup ∧
    (∀ p ∈ units, 2 ≤ p.1.length ∧ p.1.map toLower = p.1) := by decide

theorem starts_two {l w : List Char} (hw : 2 ≤ w.length) (h : starts l w = true) :
    (l.map toLower).take 2 = (w.map toLower).take 2 := by
  obtain ⟨s, r, rfl, hq⟩ := (starts_iff l w).mp h
  rw [List.map_append, hq, List.take_append_of_le_length (by simpa using hw)]

/-- No unit begins here. -/
def NoUnit (l : List Char) : Prop := ∀ p ∈ units, starts l p.1 = false

theorem unit_loop (scale : Int) {w u rest : List Char} {x : Int} (hx : (w, x) ∈ units)
    (hu : u.map toLower = w) (hr : NoUnit rest) : unitLoop scale units false none (u ++ rest) =
      if -(2 ^ 63) ≤ scale * x ∧ scale * x < 2 ^ 63 then .done true (some (scale * x)) (some rest)
      else .err := by
  obtain ⟨pre, post, he⟩ := List.append_of_mem hx
  obtain ⟨hnd, hall⟩ := units_differ
  have hw := hall _ hx
  have hul : u.length = w.length := by simpa using congrArg List.length hu
  have hst : starts (u ++ rest) w = true :=
    (starts_iff _ _).mpr ⟨u, rest, rfl, by rw [hu, hw.2]⟩
  have hpre : ∀ p ∈ pre, starts (u ++ rest) p.1 = false := by
    intro p hp
    rw [Bool.eq_false_iff]
    intro hc
    have hpu : p ∈ units := by rw [he]; simp [hp]
    have h1 := starts_two (hall p hpu).1 hc
    have h2 := starts_two hw.1 hst
    rw [(hall p hpu).2] at h1
    rw [hw.2] at h2
    rw [he, List.map_append, List.map_cons] at hnd
    have := (List.nodup_append.mp hnd).2.2 (p.1.take 2) (List.mem_map.mpr ⟨p, hp, rfl⟩)
      (w.take 2) (by simp)
    exact this (h1.symm.trans h2)
  conv => lhs; rw [he, unit_skip scale pre _ false none _ hpre]
  simp only [unitLoop, hst, if_true, consume]
  have hpost : ∀ p ∈ post, starts rest p.1 = false := fun p hp => hr p (by rw [he]; simp [hp])
  have hend := unit_skip scale post [] true (some (scale * x)) rest hpost
  rw [List.append_nil] at hend
  rw [← hul, List.drop_left, hend]
  by_cases h : -(2 ^ 63) ≤ scale * x ∧ scale * x < 2 ^ 63
  · rw [if_pos h, if_neg (by omega)]
    rfl
  · rw [if_neg h, if_pos (by omega)]

theorem unit_head {w u : List Char} {x : Int} (hx : (w, x) ∈ units) (hu : u.map toLower = w)
    (rest : List Char) : Stop (u ++ rest) ∧ NoDig (u ++ rest) := by
  have hh : ∀ p ∈ units, ∀ c ∈ p.1.head?, 97 ≤ c.toNat ∧ c.toNat ≤ 122 := by decide
  have hlen := (units_differ.2 _ hx).1
  cases u with
  | nil => simp at hu; subst hu; simp at hlen
  | cons a u =>
    have hc := hh _ hx (toLower a) (by simp only; rw [← hu]; simp)
    have ha : ¬ White a ∧ ¬ Dig a := by
      unfold toLower at hc
      unfold White Dig
      by_cases h : 65 ≤ a.toNat ∧ a.toNat ≤ 90
      · omega
      · rw [if_neg h] at hc
        omega
    exact ⟨stop_cons ha.1, fun c r e => by cases e; exact ha.2⟩

theorem units_mem {w : List Char} {x : Int} : (w, x) ∈ units ↔
    (w, x) ∈ [("fs".toList, 1), ("ps".toList, 1000), ("ns".toList, 1000000), ("us".toList, 1000000000),
      ("ms".toList, 1000000000000), ("sec".toList, 1000000000000000), ("min".toList, 60000000000000000),
      ("hr".toList, (3600000000000000000 : Int))] := by
  have : units = [("fs".toList, 1), ("ps".toList, 1000), ("ns".toList, 1000000), ("us".toList, 1000000000),
      ("ms".toList, 1000000000000), ("sec".toList, 1000000000000000), ("min".toList, 60000000000000000),
      ("hr".toList, (3600000000000000000 : Int))] := by decide
  rw [this]

/-- **C92**: the units are those of the language. -/
theorem units_correct (w : List Char) (x : Int) : (w, x) ∈ units ↔ TimeUnit w x := by
  have f1 : TimeUnit "fs".toList 1 := .fs
  have f2 : TimeUnit "ps".toList 1000 := .ps f1
  have f3 : TimeUnit "ns".toList 1000000 := .ns f2
  have f4 : TimeUnit "us".toList 1000000000 := .us f3
  have f5 : TimeUnit "ms".toList 1000000000000 := .ms f4
  have f6 : TimeUnit "sec".toList 1000000000000000 := .sec f5
  have f7 : TimeUnit "min".toList 60000000000000000 := .min f6
  have f8 : TimeUnit "hr".toList 3600000000000000000 := .hr f7
  constructor
  · intro h
    rw [units_mem] at h
    simp only [List.mem_cons, List.not_mem_nil, or_false, Prod.mk.injEq] at h
    rcases h with ⟨rfl, rfl⟩ | ⟨rfl, rfl⟩ | ⟨rfl, rfl⟩ | ⟨rfl, rfl⟩ | ⟨rfl, rfl⟩ | ⟨rfl, rfl⟩ | ⟨rfl, rfl⟩ |
      ⟨rfl, rfl⟩ <;> assumption
  · intro h
    rw [units_mem]
    induction h with
    | fs => simp
    | ps _ ih => simp at ih ⊢; omega
    | ns _ ih => simp at ih ⊢; omega
    | us _ ih => simp at ih ⊢; omega
    | ms _ ih => simp at ih ⊢; omega
    | sec _ ih => simp at ih ⊢; omega
    | min _ ih => simp at ih ⊢; omega
    | hr _ ih => simp at ih ⊢; omega

/-- **C92**: a time is read if it is an integer and the name of a unit, in letters of
either case and perhaps without a blank between them. -/
theorem read_time_correct (ws s ws' u rest w : List Char) (n x : Int) (hw : ∀ c ∈ ws, White c)
    (hs : Denotes s n) (hw' : ∀ c ∈ ws', White c) (ht : TimeUnit w x)
    (hu : u.map toLower = w) (hr : ∀ v y, TimeUnit v y → starts rest v = false) :
    readTime (some (ws ++ s ++ ws' ++ u ++ rest)) =
      if IsInt n ∧ -(2 ^ 63) ≤ n * x ∧ n * x < 2 ^ 63 then .done true (some (n * x)) (some rest)
      else .err := by
  have hx := (units_correct w x).mpr ht
  have hr : NoUnit rest := fun p hp => hr p.1 p.2 ((units_correct _ _).mp hp)
  have e : ws ++ s ++ ws' ++ u ++ rest = ws ++ (s ++ (ws' ++ (u ++ rest))) := by simp
  obtain ⟨h1, h2⟩ := unit_head hx hu rest
  have hnd : NoDig (ws' ++ (u ++ rest)) := by
    cases ws' with
    | nil => exact h2
    | cons a ws' =>
      intro c r e
      cases e
      have := hw' a (by simp)
      intro hd
      exact (dig_not_white hd).1 this
  unfold readTime
  rw [e, skip_some hw (denotes_stop hs _)]
  have hi := read_int_correct [] s (ws' ++ (u ++ rest)) n (by simp) hs hnd
  rw [List.nil_append] at hi
  rw [hi]
  by_cases hn : IsInt n
  · rw [if_pos hn]
    simp only
    rw [skip_some hw' h1]
    simp only
    rw [unit_loop n hx hu hr]
    simp [hn]
  · rw [if_neg hn]
    simp [hn]

/-- **C92**: a time that is a multiple of its unit is read back. -/
theorem write_read_time_partial (n : Int) (k : Nat) (w rest : List Char) (hn : IsInt n)
    (hx : TimeUnit w ((10 : Int) ^ k)) (hk : k ≤ 15) (hl : -(2 ^ 63) < n * 10 ^ k)
    (hh : n * 10 ^ k < 2 ^ 63) (hr : ∀ v y, TimeUnit v y → starts rest v = false) : ∃ s, timeText (n * 10 ^ k) (10 ^ k) = some s ∧
      readTime (some (s ++ ' ' :: w ++ rest)) = .done true (some (n * 10 ^ k)) (some rest) := by
  obtain ⟨s, h1, h2⟩ := time_text_whole n k hk hl hh
  refine ⟨s, h1, ?_⟩
  have := read_time_correct [] s [' '] w rest w n (10 ^ k) (by simp) h2 (by decide) hx
    (units_differ.2 _ ((units_correct _ _).mpr hx)).2 hr
  rw [if_pos ⟨hn, by omega, hh⟩] at this
  simpa using this

/-- A time with a fraction, as `write` makes it, is not read. -/
theorem read_time_fraction_counterexample :
    timeText 1500000 (10 ^ 6) = some "1.5".toList ∧
    readTime (some "1.5 ns".toList) = .done false none (some ".5 ns".toList) := by decide +kernel

/-- The search for a unit goes on after it has found one. -/
theorem read_time_twice_counterexample :
    readTime (some "5 fsps".toList) = .done true (some 5000) (some []) := by decide +kernel

/-- More units than an integer can count are not read. -/
theorem read_time_range_counterexample :
    timeText 3000000000 1 = some "3000000000".toList ∧
    readTime (some "3000000000 fs".toList) = .err := by decide +kernel

/-! ## Null lines -/

/-- Reading bit vectors, booleans, integers and times from a null line is an error;
bits, characters and strings are not good. -/
theorem read_null (n : Nat) : readBits (n + 1) none = .err ∧ readBool none = .err ∧
    readInt none = .err ∧ readTime none = .err ∧ sread n none = .err ∧ hread n none = .err ∧
    readBit none = .done false none none ∧ readChar none = .done false none none ∧
    readStr n none = .done false none none := ⟨rfl, rfl, rfl, rfl, rfl, rfl, rfl, rfl, rfl⟩

example : timeText (-1234000) (10 ^ 6) = some "-1.234".toList := by decide +kernel
example : TimeUnit "ns".toList ((10 : Int) ^ 6) ∧ ∀ v y, TimeUnit v y → starts " x".toList v = false := by
  refine ⟨(units_correct _ _).mp (by decide), fun v y h => ?_⟩
  have : ∀ p ∈ units, starts " x".toList p.1 = false := by decide +kernel
  exact this _ ((units_correct _ _).mpr h)

end Verif.Textio
