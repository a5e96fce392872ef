import Verif.Wave.Model

/-
Property C97, first part: the values in a waveform dump.
-/

namespace Verif.Wave

open Spec

/-! ## Binary numbers -/

theorem writeBinary_length (v n : Nat) : (writeBinary v n).length = n := by
  induction n with
  | zero => rfl
  | succ n ih => simp [writeBinary, ih]

theorem writeBinary_digits (v n : Nat) : Digits (writeBinary v n) := by
  induction n with
  | zero => intro c h; cases h
  | succ n ih =>
    intro c h
    rw [writeBinary, List.mem_cons] at h
    rcases h with rfl | h
    · split
      · exact Or.inr rfl
      · exact Or.inl rfl
    · exact ih c h

theorem binVal_write (v n : Nat) : binVal (writeBinary v n) = v % 2 ^ n := by
  induction n with
  | zero => simp [writeBinary, binVal, Nat.mod_one]
  | succ n ih =>
    rw [writeBinary, binVal, ih, writeBinary_length, Nat.mod_pow_succ]
    have h := Nat.mod_two_eq_zero_or_one (v / 2 ^ n)
    rcases h with h | h
    · rw [h]; simp
    · rw [h]; simp [Nat.add_comm]

theorem signed_core (n : Nat) (hn : n = 8 ∨ n = 16 ∨ n = 32 ∨ n = 64) (v : Int)
    (h1 : -(2 ^ n : Nat) ≤ 2 * v) (h2 : 2 * v < (2 ^ n : Nat)) :
    signedVal n (stored (bytesFor n) v % 2 ^ n) = v := by
  unfold signedVal
  by_cases h : 2 ^ n ≤ 2 * (stored (bytesFor n) v % 2 ^ n)
  · rw [if_pos h]
    rcases hn with rfl | rfl | rfl | rfl <;>
      simp only [stored, bytesFor, Nat.reducePow, Nat.reduceAdd, Nat.reduceDiv,
        Nat.reduceMul, Int.reducePow] at h h1 h2 ⊢ <;> omega
  · rw [if_neg h]
    rcases hn with rfl | rfl | rfl | rfl <;>
      simp only [stored, bytesFor, Nat.reducePow, Nat.reduceAdd, Nat.reduceDiv,
        Nat.reduceMul, Int.reducePow] at h h1 h2 ⊢ <;> omega

theorem unsigned_core (n : Nat) (hn : n = 1 ∨ n = 8 ∨ n = 16 ∨ n = 32 ∨ n = 64) (v : Int)
    (h1 : 0 ≤ v) (h2 : v < (2 ^ n : Nat)) :
    ((stored (bytesFor n) v % 2 ^ n : Nat) : Int) = v := by
  rcases hn with rfl | rfl | rfl | rfl | rfl <;>
    simp only [stored, bytesFor, Nat.reducePow, Nat.reduceAdd, Nat.reduceDiv,
      Nat.reduceMul] at h2 ⊢ <;> omega

/-- The text of an integer shows its value. -/
theorem int_shown (lo hi v : Int) (h1 : lo ≤ v) (h2 : v ≤ hi) (h3 : -2 ^ 63 ≤ lo)
    (h4 : hi < 2 ^ 63) :
    ShowsInt lo v
      (writeBinary (stored (bytesFor (bitsForRange lo hi)) v) (bitsForRange lo hi)) := by
  refine ⟨writeBinary_digits _ _, ?_⟩
  rw [writeBinary_length, binVal_write]
  have hle : ¬ lo > hi := by omega
  by_cases hl : lo < 0
  · rw [if_pos hl]
    apply signed_core
    · unfold bitsForRange
      rw [if_neg hle, if_pos hl]
      (repeat' split) <;> simp
    · unfold bitsForRange
      rw [if_neg hle, if_pos hl]
      (repeat' split) <;> simp only [Nat.reducePow] <;> omega
    · unfold bitsForRange
      rw [if_neg hle, if_pos hl]
      (repeat' split) <;> simp only [Nat.reducePow] <;> omega
  · rw [if_neg hl]
    apply unsigned_core
    · unfold bitsForRange
      rw [if_neg hle, if_neg hl]
      (repeat' split) <;> simp
    · omega
    · unfold bitsForRange
      rw [if_neg hle, if_neg hl]
      (repeat' split) <;> simp only [Nat.reducePow] <;> omega

example : ShowsInt (-2147483648) (-5)
    (writeBinary (stored 4 (-5)) 32) := int_shown (-2147483648) 2147483647 (-5)
  (by decide) (by decide) (by decide) (by decide)

/-! ## Physical values -/

/-- A unit that divides every value makes the loop end. -/
theorem physical_defined (us : List (Nat × Text)) (n : Text) (h : (1, n) ∈ us) (val : Nat) :
    ∃ r : Int × Text, fmtPhysical us val = some r := by
  induction us with
  | nil => cases h
  | cons u us ih =>
    obtain ⟨m, n2⟩ := u
    rw [fmtPhysical]
    split
    · exact ⟨_, rfl⟩
    · rename_i h2
      cases h with
      | head => exact absurd (Nat.mod_one val) h2
      | tail _ h => exact ih h

theorem physical_pick (us : List (Nat × Text)) (val : Nat) (k : Int) (n : Text)
    (h : fmtPhysical us val = some (k, n)) :
    ∃ (m : Nat) (a b : List (Nat × Text)), us = a ++ (m, n) :: b ∧ val % m = 0 ∧
      (∀ u ∈ a, val % u.1 ≠ 0) ∧ k = printed (val / m) := by
  induction us with
  | nil => cases h
  | cons u us ih =>
    obtain ⟨m, n2⟩ := u
    rw [fmtPhysical] at h
    split at h
    · rename_i h2
      obtain ⟨rfl, rfl⟩ := Prod.mk.inj (Option.some.inj h)
      exact ⟨m, [], us, rfl, h2, fun _ h => (by cases h), rfl⟩
    · rename_i h2
      obtain ⟨m2, a, b, rfl, h3, h4, h5⟩ := ih h
      refine ⟨m2, (m, n2) :: a, b, rfl, h3, ?_, h5⟩
      intro u hu
      cases hu with
      | head => exact h2
      | tail _ hu => exact h4 u hu

/-- A value that is not negative is shown as a number of the first unit that
divides it. -/
theorem physical_nonneg (us : List (Nat × Text)) (bytes : Nat) (v : Int) (h0 : 0 ≤ v)
    (h1 : v < (2 ^ (8 * bytes) : Nat)) (h2 : v < 2 ^ 63) (k : Int) (n : Text)
    (h : fmtPhysical us (stored bytes v) = some (k, n)) :
    ∃ (m : Nat) (a b : List (Nat × Text)), us = a ++ (m, n) :: b ∧ k * m = v ∧
      ∀ u ∈ a, ¬ ((u.1 : Int) ∣ v) := by
  have hs : (stored bytes v : Int) = v := by
    unfold stored
    rw [Int.emod_eq_of_lt h0 h1]
    omega
  obtain ⟨m, a, b, e, h3, h4, rfl⟩ := physical_pick us _ k n h
  refine ⟨m, a, b, e, ?_, ?_⟩
  · have hd : stored bytes v / m ≤ stored bytes v := Nat.div_le_self _ _
    unfold printed
    rw [if_neg (by omega)]
    have := Nat.div_mul_cancel (Nat.dvd_of_mod_eq_zero h3)
    rw [← Int.natCast_mul, this, hs]
  · intro u hu hdv
    rw [← hs] at hdv
    exact h4 u hu (Nat.mod_eq_zero_of_dvd (Int.natCast_dvd_natCast.mp hdv))

/-- The unit is the last one declared that divides the value. -/
theorem physical_last_unit (units : List (Nat × Text)) (bytes : Nat) (v : Int) (h0 : 0 ≤ v)
    (h1 : v < (2 ^ (8 * bytes) : Nat)) (h2 : v < 2 ^ 63) (k : Int) (n : Text)
    (h : fmtPhysical (unitMap units) (stored bytes v) = some (k, n)) :
    ∃ (m : Nat) (a b : List (Nat × Text)), units = a ++ (m, n) :: b ∧ k * m = v ∧
      ∀ u ∈ b, ¬ ((u.1 : Int) ∣ v) := by
  obtain ⟨m, a, b, e, h3, h4⟩ := physical_nonneg _ bytes v h0 h1 h2 k n h
  refine ⟨m, b.reverse, a.reverse, ?_, h3, fun u hu => h4 u (List.mem_reverse.mp hu)⟩
  have := congrArg List.reverse e
  simpa [unitMap] using this

example : fmtPhysical (unitMap [(1, [102]), (1000, [112]), (1000000, [110])]) (stored 8 5000) =
    some (5, [112]) := by decide +kernel

/-- A negative value is shown right only if the unit is the primary one. -/
theorem physical_negative_iff (us : List (Nat × Text)) (v : Int) (h0 : v < 0)
    (h1 : -2 ^ 63 ≤ v) (k : Int) (n : Text)
    (h : fmtPhysical us (stored 8 v) = some (k, n)) (hp : ∀ u ∈ us, 1 ≤ u.1) :
    ∃ m : Nat, (m, n) ∈ us ∧ (stored 8 v) % m = 0 ∧ (k * m = v ↔ m = 1) := by
  have hs : (stored 8 v : Int) = v + 2 ^ 64 := by
    unfold stored
    simp only [Nat.reduceMul, Nat.reducePow]
    omega
  obtain ⟨m, a, b, e, h3, _, rfl⟩ := physical_pick us _ k n h
  have hm : (m, n) ∈ us := by rw [e]; simp
  refine ⟨m, hm, h3, ?_⟩
  have hc := Nat.div_mul_cancel (Nat.dvd_of_mod_eq_zero h3)
  constructor
  · intro hk
    have h5 := hp _ hm
    by_cases h6 : m = 1
    · exact h6
    · exfalso
      have h7 : stored 8 v / m * 2 ≤ stored 8 v := by
        calc stored 8 v / m * 2 ≤ stored 8 v / m * m := Nat.mul_le_mul_left _ (by
              have : 1 ≤ m := h5
              omega)
          _ = stored 8 v := hc
      unfold printed at hk
      rw [if_neg (by omega), ← Int.natCast_mul, hc] at hk
      omega
  · rintro rfl
    rw [Nat.div_one]
    unfold printed
    rw [if_pos (by omega)]
    omega

/-- -616 fs is shown as 18446744073709551 ps. -/
theorem physical_negative_counterexample :
    fmtPhysical (unitMap [(1, [102, 115]), (1000, [112, 115])]) (stored 8 (-616)) =
      some (18446744073709551, [112, 115]) := by decide +kernel

/-- A negative value of a type stored in a byte is shown as a positive one. -/
theorem physical_small_counterexample (n : Text) :
    fmtPhysical (unitMap [(1, n)]) (stored 1 (-1)) = some (255, n) := by rfl

/-! ## Enumerations -/

theorem lower_special (c k : Nat) (hk : k = 39 ∨ k = 92) : lower c = k ↔ c = k := by
  unfold lower
  split <;> omega

theorem quoted_lower (l : Text) : Quoted (l.map lower) ↔ Quoted l := by
  cases l with
  | nil => simp [Quoted]
  | cons c l =>
    simp only [Quoted, List.map_cons, List.head?_cons, Option.some.injEq]
    rw [lower_special c 39 (Or.inl rfl), lower_special c 92 (Or.inr rfl)]

theorem lower_idem (c : Nat) : lower (lower c) = lower c := by
  have h : ∀ k : Nat, lower k = k ∨ (lower k = k + 32 ∧ lower (k + 32) = k + 32) := by
    intro k
    unfold lower
    by_cases hk : 65 ≤ k ∧ k ≤ 90 ∨ 192 ≤ k ∧ k ≤ 222 ∧ k ≠ 215
    · rw [if_pos hk, if_neg (by omega)]; exact Or.inr ⟨rfl, rfl⟩
    · rw [if_neg hk]; exact Or.inl rfl
  rcases h c with h | ⟨h1, h2⟩
  · rw [h, h]
  · rw [h1, h2]

/-- A literal is shown right unless it is quoted and has capitals. -/
theorem literal_shown_iff (l : Text) :
    SameLit (l.map lower) l ↔ (Quoted l → l.map lower = l) := by
  unfold SameLit
  rw [quoted_lower]
  constructor
  · intro h hq; exact h.1 (Or.inl hq)
  · intro h
    refine ⟨fun hq => h (hq.elim id id), fun _ => ?_⟩
    rw [List.map_map]
    exact List.map_congr_left fun c _ => lower_idem c

theorem enum_scalar (lits : List Text) (v : Nat) (l : Text) (h : lits[v]? = some l) :
    dump (.enum lits) [] [v] = some [(0, .text (l.map lower))] := by
  simp [dump, typeFor, emit, literals, h]

/-- The characters A and a are shown as the same. -/
theorem enum_case_counterexample :
    dump (.enum [[39, 65, 39], [39, 97, 39]]) [] [0] =
      dump (.enum [[39, 65, 39], [39, 97, 39]]) [] [1] ∧
    ¬ SameLit [39, 65, 39] [39, 97, 39] := by
  refine ⟨by decide, fun h => ?_⟩
  have := h.1 (Or.inl (Or.inl rfl))
  revert this
  decide

/-! ## Whole signals -/

theorem mapM_some {α β : Type} (f : α → Option β) (g : α → β) (l : List α)
    (h : ∀ a ∈ l, f a = some (g a)) : l.mapM f = some (l.map g) := by
  induction l with
  | nil => rfl
  | cons a l ih =>
    rw [List.mapM_cons, h a List.mem_cons_self, ih fun b hb => h b (List.mem_cons_of_mem _ hb)]
    rfl

theorem mapM_none {α β : Type} (f : α → Option β) (l : List α) (a : α) (ha : a ∈ l)
    (h : f a = none) : l.mapM f = none := by
  induction l with
  | nil => cases ha
  | cons b l ih =>
    rw [List.mapM_cons]
    cases hb : f b with
    | none => rfl
    | some y =>
      cases ha with
      | head => rw [h] at hb; cases hb
      | tail _ ha =>
        rw [ih ha]
        rfl

/-- Integers and arrays of integers are shown element by element. -/
theorem int_array_shown (lo hi : Int) (h3 : -2 ^ 63 ≤ lo) (h4 : hi < 2 ^ 63) (dims : List Nat)
    (vs : List Int) (hd : (dims = [] ∧ vs.length = 1) ∨ dims = [vs.length])
    (hv : ∀ v ∈ vs, lo ≤ v ∧ v ≤ hi) :
    ∃ out : List (Nat × Out),
      dump (.int lo hi) dims (vs.map (stored (bytesFor (bitsForRange lo hi)))) = some out ∧
      out.length = vs.length ∧
      ∀ (i : Nat) (v : Int), vs[i]? = some v →
        ∃ t : Text, out[i]? = some (i, .text t) ∧ ShowsInt lo v t := by
  have hl : layout (.int lo hi) dims = (bitsForRange lo hi, vs.length) := by
    rcases hd with ⟨rfl, h⟩ | rfl
    · rw [h]; rfl
    · rfl
  refine ⟨(List.range vs.length).map fun i =>
    (i, .text (writeBinary (stored (bytesFor (bitsForRange lo hi)) (vs[i]?.getD 0))
      (bitsForRange lo hi))), ?_, by simp, ?_⟩
  · unfold dump
    rw [hl]
    show (List.range vs.length).mapM _ = _
    apply mapM_some
    intro i hi
    have hi2 := List.mem_range.mp hi
    simp [hi2]
  · intro i v hiv
    have hlt : i < vs.length := (List.getElem?_eq_some_iff.mp hiv).1
    refine ⟨_, by rw [List.getElem?_map, List.getElem?_range hlt]; rfl, ?_⟩
    rw [hiv]
    have := hv v (List.mem_of_getElem? hiv)
    exact int_shown lo hi v this.1 this.2 h3 h4

/-- Arrays of arrays of integers: the library reads past the end of the text. -/
theorem int_nested_counterexample (lo hi : Int) (h : lo ≤ hi) (n m : Nat) (hn : 1 ≤ n)
    (hm : 2 ≤ m) (vals : List Nat) : dump (.int lo hi) [n, m] vals = none := by
  have hb : 1 ≤ bitsForRange lo hi := by
    unfold bitsForRange
    rw [if_neg (by omega)]
    split <;> (repeat' split) <;> decide
  unfold dump
  show (List.range (n * 1)).mapM _ = none
  refine mapM_none _ _ 0 (List.mem_range.mpr (by omega)) ?_
  have : m * bitsForRange lo hi ≠ bitsForRange lo hi := by
    have : 2 * bitsForRange lo hi ≤ m * bitsForRange lo hi := Nat.mul_le_mul_right _ hm
    omega
  simp [layout, typeFor, this]

/-- The characters of a part of a signal. -/
theorem fmtChars_some (m : Text) (p : List Nat) (h : ∀ c ∈ p, c < m.length) :
    fmtChars (some m) p = some (p.map fun c => m[c]?.getD 0) := by
  unfold fmtChars
  apply mapM_some
  intro c hc
  rw [List.getElem?_eq_getElem (h c hc)]
  rfl

/-- The text of a character. -/
def charOf (map : Option Text) (c : Nat) : Nat :=
  match map with
  | none => c
  | some m => m[c]?.getD 0

theorem chars_shown (map : Option Text) (size count : Nat) (vals : List Nat)
    (hl : vals.length = count * size)
    (hv : ∀ m : Text, map = some m → ∀ c ∈ vals, c < m.length) :
    ∃ out : List (Nat × Out),
      emit (.chars map) size count vals = some out ∧ out.length = count ∧
      ∀ i : Nat, i < count → ∃ t : Text, out[i]? = some (i, .text t) ∧ t.length = size ∧
        ∀ j : Nat, j < size → t[j]? = (vals[i * size + j]?).map (charOf map) := by
  have bound : ∀ i : Nat, i < count → (i + 1) * size ≤ vals.length := by
    intro i hi
    rw [hl]
    exact Nat.mul_le_mul_right _ hi
  refine ⟨(List.range count).map fun i =>
    (i, .text (((vals.drop (i * size)).take size).map (charOf map))), ?_, by simp, ?_⟩
  · show (List.range count).mapM _ = _
    apply mapM_some
    intro i hi
    have hi2 := List.mem_range.mp hi
    unfold part
    rw [if_pos (bound i hi2)]
    cases map with
    | none =>
      have : charOf none = id := rfl
      simp [fmtChars, this]
    | some m =>
      have : fmtChars (some m) ((vals.drop (i * size)).take size) =
          some (((vals.drop (i * size)).take size).map (charOf (some m))) :=
        fmtChars_some m _ fun c hc =>
          hv m rfl c (List.mem_of_mem_drop (List.mem_of_mem_take hc))
      simp [this]
  · intro i hi
    have hb := bound i hi
    rw [Nat.add_mul, Nat.one_mul] at hb
    refine ⟨_, by rw [List.getElem?_map, List.getElem?_range hi]; rfl, ?_, ?_⟩
    · simp; omega
    · intro j hj
      rw [List.getElem?_map, List.getElem?_take_of_lt hj, List.getElem?_drop]

def product : List Nat → Nat
  | [] => 1
  | n :: ns => n * product ns

theorem foldl_mul (l : List Nat) (a : Nat) : l.foldl (· * ·) a = a * product l := by
  induction l generalizing a with
  | nil => simp [product]
  | cons n l ih => rw [List.foldl_cons, ih, product, Nat.mul_assoc]

theorem product_append (a b : List Nat) : product (a ++ b) = product a * product b := by
  induction a with
  | nil => simp [product]
  | cons n a ih => rw [List.cons_append, product, ih, product, Nat.mul_assoc]

/-- All elements of an array of characters belong to one variable. -/
theorem chars_layout (e : Elem) (hs : (typeFor e).2 = 1) (he : isEnum e = true) (dims : List Nat) :
    (layout e dims).2 * (layout e dims).1 = product dims ∧
    (∀ (ds : List Nat) (n : Nat), dims = ds ++ [n] → (layout e dims).1 = n) := by
  match dims with
  | [] => exact ⟨by simp [layout, hs, product], fun ds n h => by simp at h⟩
  | [k] =>
    refine ⟨by simp [layout, hs, he, product], fun ds n h => ?_⟩
    have : ds = [] ∧ k = n := by
      cases ds with
      | nil => exact ⟨rfl, by simpa using h⟩
      | cons d ds => simp at h
    simp [layout, hs, he, this.2]
  | k :: d :: ds =>
    have hne : d :: ds ≠ [] := by simp
    have hg : (d :: ds).getLast?.getD 1 = (d :: ds).getLast hne := by
      rw [List.getLast?_eq_some_getLast hne]; rfl
    have hp : product (d :: ds) = product (d :: ds).dropLast * (d :: ds).getLast hne := by
      have := List.dropLast_concat_getLast hne
      have h2 := product_append (d :: ds).dropLast [(d :: ds).getLast hne]
      rw [this] at h2
      rw [h2]; simp [product]
    constructor
    · show k * ((d :: ds).dropLast).foldl (· * ·) 1 * ((d :: ds).getLast?.getD 1 * (typeFor e).2) =
        product (k :: d :: ds)
      rw [foldl_mul, Nat.one_mul, hs, Nat.mul_one, hg, product, hp, Nat.mul_assoc]
    · intro es n h
      show (d :: ds).getLast?.getD 1 * (typeFor e).2 = n
      rw [hs, Nat.mul_one]
      have h3 : (k :: d :: ds).getLast? = some n := by rw [h]; simp
      rw [List.getLast?_cons_cons] at h3
      rw [h3]; rfl

/-- Vectors of bits, arrays of them and strings are shown whole. -/
theorem logic_shown (m : Text) (dims : List Nat) (vals : List Nat)
    (hl : vals.length = product dims) (hv : ∀ c ∈ vals, c < m.length) :
    ∃ out : List (Nat × Out), dump (.logic m) dims vals = some out ∧
      out.length = (layout (.logic m) dims).2 ∧
      ∀ i : Nat, i < (layout (.logic m) dims).2 →
        ∃ t : Text, out[i]? = some (i, .text t) ∧ t.length = (layout (.logic m) dims).1 ∧
          ∀ j : Nat, j < (layout (.logic m) dims).1 →
            t[j]? = (vals[i * (layout (.logic m) dims).1 + j]?).map (charOf (some m)) :=
  chars_shown (some m) _ _ vals (by rw [hl, (chars_layout (.logic m) rfl rfl dims).1])
    (fun m2 h c hc => by rw [← Option.some.inj h]; exact hv c hc)

theorem string_shown (dims : List Nat) (vals : List Nat) (hl : vals.length = product dims) :
    ∃ out : List (Nat × Out), dump .char dims vals = some out ∧
      out.length = (layout .char dims).2 ∧
      ∀ i : Nat, i < (layout .char dims).2 →
        ∃ t : Text, out[i]? = some (i, .text t) ∧ t.length = (layout .char dims).1 ∧
          ∀ j : Nat, j < (layout .char dims).1 →
            t[j]? = vals[i * (layout .char dims).1 + j]? := by
  obtain ⟨out, h1, h2, h3⟩ := chars_shown none _ _ vals
    (by rw [hl, (chars_layout .char rfl rfl dims).1]) (fun m h => by cases h)
  refine ⟨out, h1, h2, fun i hi => ?_⟩
  obtain ⟨t, h4, h5, h6⟩ := h3 i hi
  refine ⟨t, h4, h5, fun j hj => ?_⟩
  rw [h6 j hj]
  cases vals[i * (layout .char dims).1 + j]? <;> rfl

/-- Two vectors "10" and "01" of bits in an array. -/
example : dump (.logic [48, 49]) [2, 2] [1, 0, 0, 1] =
    some [(0, .text [49, 48]), (1, .text [48, 49])] := by decide

/-- The formats that write only the first element. -/
def FirstOnly : Elem → Prop
  | .real => True
  | .phys _ => True
  | .enum _ => True
  | _ => False

theorem first_only_out (e : Elem) (he : FirstOnly e) (dims : List Nat) (vals : List Nat)
    (out : List (Nat × Out)) (h : dump e dims vals = some out) : ∃ o : Out, out = [(0, o)] := by
  unfold dump at h
  cases e with
  | int lo hi => exact he.elim
  | logic m => exact he.elim
  | char => exact he.elim
  | real =>
    obtain ⟨v, _, rfl⟩ := Option.map_eq_some_iff.mp h
    exact ⟨_, rfl⟩
  | phys us =>
    obtain ⟨v, _, h2⟩ := Option.bind_eq_some_iff.mp h
    obtain ⟨k, _, rfl⟩ := Option.map_eq_some_iff.mp h2
    exact ⟨_, rfl⟩
  | enum ls =>
    obtain ⟨v, _, h2⟩ := Option.bind_eq_some_iff.mp h
    obtain ⟨k, _, rfl⟩ := Option.map_eq_some_iff.mp h2
    exact ⟨_, rfl⟩

/-- Of arrays of reals, physical values and enumerations only the first
element is written. -/
theorem first_only_counterexample (e : Elem) (he : FirstOnly e) (dims : List Nat) (v : Nat)
    (r s : List Nat) : dump e dims (v :: r) = dump e dims (v :: s) := by
  cases e with
  | int lo hi => exact he.elim
  | logic m => exact he.elim
  | char => exact he.elim
  | real => rfl
  | phys us => rfl
  | enum ls => rfl

/-- Every variable gets a value, except in arrays of reals and of physical
values and in arrays of arrays of enumerations. -/
theorem all_variables_iff (e : Elem) (dims : List Nat) (vals : List Nat)
    (out : List (Nat × Out)) (h : dump e dims vals = some out) :
    (∀ i : Nat, i < (layout e dims).2 → ∃ o : Out, (i, o) ∈ out) ↔
      (¬ FirstOnly e ∨ (layout e dims).2 ≤ 1) := by
  have range : ∀ (n : Nat) (f : Nat → Option (Nat × Out)) (o : List (Nat × Out)),
      (List.range n).mapM f = some o → (∀ (i : Nat) (x : Nat × Out), f i = some x → x.1 = i) →
      ∀ i : Nat, i < n → ∃ y : Out, (i, y) ∈ o := by
    intro n f
    have gen : ∀ (l : List Nat) (o : List (Nat × Out)), l.mapM f = some o →
        (∀ (i : Nat) (x : Nat × Out), f i = some x → x.1 = i) →
        ∀ i ∈ l, ∃ y : Out, (i, y) ∈ o := by
      intro l
      induction l with
      | nil => intro o _ _ i hi; cases hi
      | cons a l ih =>
        intro o ho hf i hi
        rw [List.mapM_cons] at ho
        cases ha : f a with
        | none => rw [ha] at ho; cases ho
        | some x =>
          rw [ha] at ho
          cases hr : l.mapM f with
          | none => rw [hr] at ho; cases ho
          | some r =>
            rw [hr] at ho
            obtain rfl := Option.some.inj ho
            cases hi with
            | head =>
              have := hf a x ha
              exact ⟨x.2, by rw [← this]; exact List.mem_cons_self⟩
            | tail _ hi =>
              obtain ⟨y, hy⟩ := ih r hr hf i hi
              exact ⟨y, List.mem_cons_of_mem _ hy⟩
    intro o ho hf i hi
    exact gen _ o ho hf i (List.mem_range.mpr hi)
  constructor
  · intro ha
    by_cases hf : FirstOnly e
    · right
      obtain ⟨o, rfl⟩ := first_only_out e hf dims vals out h
      by_cases h1 : (layout e dims).2 ≤ 1
      · exact h1
      · obtain ⟨o2, ho⟩ := ha 1 (by omega)
        simp at ho
    · exact Or.inl hf
  · rintro (hf | h1)
    · unfold dump at h
      cases e with
      | real => exact absurd trivial hf
      | phys us => exact absurd trivial hf
      | enum ls => exact absurd trivial hf
      | int lo hi =>
        refine range _ _ out h ?_
        intro i x hx
        split at hx
        · cases hx
        · obtain ⟨v, _, rfl⟩ := Option.map_eq_some_iff.mp hx
          rfl
      | logic m =>
        refine range _ _ out h ?_
        intro i x hx
        obtain ⟨p, _, hp⟩ := Option.bind_eq_some_iff.mp hx
        obtain ⟨v, _, rfl⟩ := Option.map_eq_some_iff.mp hp
        rfl
      | char =>
        refine range _ _ out h ?_
        intro i x hx
        obtain ⟨p, _, hp⟩ := Option.bind_eq_some_iff.mp hx
        obtain ⟨v, _, rfl⟩ := Option.map_eq_some_iff.mp hp
        rfl
    · by_cases hf : FirstOnly e
      · obtain ⟨o, rfl⟩ := first_only_out e hf dims vals out h
        intro i hi
        have : i = 0 := by omega
        exact ⟨o, by rw [this]; exact List.mem_cons_self⟩
      · unfold dump at h
        cases e with
        | real => exact absurd trivial hf
        | phys us => exact absurd trivial hf
        | enum ls => exact absurd trivial hf
        | int lo hi =>
          refine range _ _ out h ?_
          intro i x hx
          split at hx
          · cases hx
          · obtain ⟨v, _, rfl⟩ := Option.map_eq_some_iff.mp hx
            rfl
        | logic m =>
          refine range _ _ out h ?_
          intro i x hx
          obtain ⟨p, _, hp⟩ := Option.bind_eq_some_iff.mp hx
          obtain ⟨v, _, rfl⟩ := Option.map_eq_some_iff.mp hp
          rfl
        | char =>
          refine range _ _ out h ?_
          intro i x hx
          obtain ⟨p, _, hp⟩ := Option.bind_eq_some_iff.mp hx
          obtain ⟨v, _, rfl⟩ := Option.map_eq_some_iff.mp hp
          rfl

end Verif.Wave
