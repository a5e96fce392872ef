import Verif.StdEnv.Arith

/-
Property C95: records as text, and names of files.
-/

namespace Verif.StdEnv

open Spec

attribute [local irreducible] daysBefore

theorem digitChar_toNat (n : Nat) (h : n < 10) : (digitChar n).toNat = 48 + n := by
  unfold digitChar
  match n, h with
  | 0, _ => rfl
  | 1, _ => rfl
  | 2, _ => rfl
  | 3, _ => rfl
  | 4, _ => rfl
  | 5, _ => rfl
  | 6, _ => rfl
  | 7, _ => rfl
  | 8, _ => rfl
  | 9, _ => rfl

theorem zeroPad_length (v w : Nat) : (zeroPad v w).length = w := by
  induction w generalizing v with
  | zero => rfl
  | succ w ih => simp [zeroPad, ih]

theorem zeroPad_digits (v w : Nat) : ∀ c ∈ zeroPad v w, IsDigit c := by
  induction w generalizing v with
  | zero => intro c h; cases h
  | succ w ih =>
    intro c h
    rw [zeroPad, List.mem_append, List.mem_singleton] at h
    cases h with
    | inl h => exact ih _ c h
    | inr h =>
      rw [h]
      unfold IsDigit
      rw [digitChar_toNat _ (Nat.mod_lt _ (by decide))]
      omega

theorem zeroPad_value (v w : Nat) (h : v < 10 ^ w) : digitsValue (zeroPad v w) = v := by
  induction w generalizing v with
  | zero =>
    have : v = 0 := by simpa using h
    subst this; rfl
  | succ w ih =>
    have h2 : v / 10 < 10 ^ w := by
      rw [Nat.pow_succ] at h
      exact Nat.div_lt_of_lt_mul (by rw [Nat.mul_comm]; exact h)
    have := ih (v / 10) h2
    unfold digitsValue at this ⊢
    rw [zeroPad, List.foldl_append, this]
    simp only [List.foldl_cons, List.foldl_nil]
    rw [digitChar_toNat _ (Nat.mod_lt _ (by decide))]
    omega

theorem zeroPad_num (x : Int) (w : Nat) (h0 : 0 ≤ x) (h1 : x < (10 ^ w : Nat)) :
    Num (zeroPad x.toNat w) w x := by
  refine ⟨zeroPad_length _ _, zeroPad_digits _ _, ?_⟩
  rw [zeroPad_value _ _ (by omega)]
  omega

/-- The ranges of the fields of a record, env.vhdl:61-71. -/
def InRange (tr : TimeRecord) : Prop :=
  (0 ≤ tr.microsecond ∧ tr.microsecond ≤ 999999) ∧ (0 ≤ tr.second ∧ tr.second ≤ 61) ∧
  (0 ≤ tr.minute ∧ tr.minute ≤ 59) ∧ (0 ≤ tr.hour ∧ tr.hour ≤ 23) ∧
  (1 ≤ tr.day ∧ tr.day ≤ 31) ∧ (0 ≤ tr.month ∧ tr.month ≤ 11) ∧
  (1 ≤ tr.year ∧ tr.year ≤ 4095)

theorem isoBuf_length (tr : TimeRecord) : (isoBuf tr).length = 19 := by
  simp [isoBuf, zeroPad_length]

/-- The text is that of ISO 8601 but for the month, which is written as it is
in the record, where January is 0. -/
theorem to_string_partial (tr : TimeRecord) (frac : Nat) (h : InRange tr) (hf : frac ≤ 6) :
    IsIso (toText tr frac) tr.year tr.month tr.day tr.hour tr.minute tr.second
      tr.microsecond frac := by
  obtain ⟨h1, h2, h3, h4, h5, h6, h7⟩ := h
  have ny := zeroPad_num tr.year 4 (by omega) (by omega)
  have nm := zeroPad_num tr.month 2 (by omega) (by omega)
  have nd := zeroPad_num tr.day 2 (by omega) (by omega)
  have nh := zeroPad_num tr.hour 2 (by omega) (by omega)
  have ni := zeroPad_num tr.minute 2 (by omega) (by omega)
  have ns := zeroPad_num tr.second 2 (by omega) (by omega)
  have nu := zeroPad_num tr.microsecond 6 (by omega) (by omega)
  unfold toText
  by_cases c : frac > 0
  · rw [if_pos c]
    refine ⟨_, _, _, _, _, _, '.' :: (zeroPad tr.microsecond.toNat 6).take frac,
      ny, nm, nd, nh, ni, ns, Or.inr ⟨c, _, (zeroPad tr.microsecond.toNat 6).drop frac, nu, ?_, rfl, ?_⟩, ?_⟩
    · exact (List.take_append_drop frac _).symm
    · show ((zeroPad tr.microsecond.toNat 6).take frac).length = frac
      rw [List.length_take, zeroPad_length]; omega
    · have e : 20 + frac = (isoBuf tr).length + (frac + 1) := by rw [isoBuf_length]; omega
      rw [e, List.take_length_add_append, List.take_succ_cons]
      unfold isoBuf
      simp only [List.append_assoc, List.cons_append]
  · rw [if_neg c]
    refine ⟨_, _, _, _, _, _, [], ny, nm, nd, nh, ni, ns, Or.inl ⟨by omega, rfl⟩, ?_⟩
    unfold isoBuf
    rw [List.append_nil]

theorem num_unique {a b : List Char} {w : Nat} {x y : Int} {r s : List Char}
    (ha : Num a w x) (hb : Num b w y) (h : a ++ r = b ++ s) : x = y ∧ r = s := by
  have hl : a.length = b.length := by rw [ha.1, hb.1]
  obtain ⟨h1, h2⟩ := List.append_inj h hl
  refine ⟨?_, h2⟩
  rw [← ha.2.2, ← hb.2.2, h1]

/-- A text stands for one date: the months in two readings are the same. -/
theorem iso_unique {l : List Char} {y1 m1 d1 h1 i1 s1 u1 y2 m2 d2 h2 i2 s2 u2 : Int} {f1 f2 : Nat}
    (a : IsIso l y1 m1 d1 h1 i1 s1 u1 f1) (b : IsIso l y2 m2 d2 h2 i2 s2 u2 f2) :
    y1 = y2 ∧ m1 = m2 ∧ d1 = d2 ∧ h1 = h2 ∧ i1 = i2 ∧ s1 = s2 := by
  obtain ⟨a1, a2, a3, a4, a5, a6, a7, b1, b2, b3, b4, b5, b6, _, rfl⟩ := a
  obtain ⟨c1, c2, c3, c4, c5, c6, c7, e1, e2, e3, e4, e5, e6, _, e⟩ := b
  obtain ⟨r1, e⟩ := num_unique b1 e1 e
  obtain ⟨r2, e⟩ := num_unique b2 e2 (List.cons.inj e).2
  obtain ⟨r3, e⟩ := num_unique b3 e3 (List.cons.inj e).2
  obtain ⟨r4, e⟩ := num_unique b4 e4 (List.cons.inj e).2
  obtain ⟨r5, e⟩ := num_unique b5 e5 (List.cons.inj e).2
  obtain ⟨r6, _⟩ := num_unique b6 e6 (List.cons.inj e).2
  exact ⟨r1, r2, r3, r4, r5, r6⟩

/-- So the text is never that of the record, whose month has the number
`month + 1` in ISO 8601. -/
theorem to_string_month_counterexample (tr : TimeRecord) (frac : Nat) (h : InRange tr)
    (hf : frac ≤ 6) :
    ¬ IsIso (toText tr frac) tr.year (tr.month + 1) tr.day tr.hour tr.minute tr.second
      tr.microsecond frac := by
  intro h2
  have := (iso_unique (to_string_partial tr frac h hf) h2).2.1
  omega

/-- The example of env.vhdl:115. -/
example : toText ⟨1, 52, 3, 1, 16, 8, 1973, 0, 258⟩ 6 = "1973-08-16T01:03:52.000001".toList := by
  decide +kernel

/-! ## Names of files -/

theorem splitLast_some {p a b : List Char} (h : splitLast p = some (a, b)) :
    Splits p a b := by
  induction p generalizing a b with
  | nil => cases h
  | cons c l ih =>
    rw [splitLast] at h
    split at h
    · rename_i a2 b2 e
      obtain ⟨rfl, rfl⟩ := Prod.mk.inj (Option.some.inj h)
      have := ih e
      exact ⟨by rw [this.1]; rfl, this.2⟩
    · rename_i e
      split at h
      · rename_i hc
        obtain ⟨rfl, rfl⟩ := Prod.mk.inj (Option.some.inj h)
        refine ⟨by rw [hc]; rfl, ?_⟩
        intro hm
        have : ∀ l : List Char, '/' ∈ l → splitLast l ≠ none := by
          intro l
          induction l with
          | nil => intro h; cases h
          | cons x l ih2 =>
            intro hx
            rw [splitLast]
            split
            · intro h; cases h
            · rename_i e2
              cases hx with
              | head => rw [if_pos rfl]; intro h; cases h
              | tail _ hx => exact absurd e2 (ih2 hx)
        exact this _ hm e
      · cases h

theorem splitLast_none {p : List Char} (h : splitLast p = none) : '/' ∉ p := by
  induction p with
  | nil => intro h; cases h
  | cons c l ih =>
    rw [splitLast] at h
    split at h
    · cases h
    · rename_i e
      split at h
      · cases h
      · rename_i hc
        intro hm
        cases hm with
        | head => exact hc rfl
        | tail _ hm => exact ih e hm

theorem after_last {u v r s : List Char} (hu : '/' ∉ u) (hv : '/' ∉ v)
    (he : u ++ '/' :: r = v ++ '/' :: s) : u = v ∧ r = s := by
  induction u generalizing v with
  | nil =>
    cases v with
    | nil => exact ⟨rfl, (List.cons.inj he).2⟩
    | cons x v => exact absurd (by rw [(List.cons.inj he).1]; exact List.mem_cons_self) hv
  | cons x u ih =>
    cases v with
    | nil => exact absurd (by rw [← (List.cons.inj he).1]; exact List.mem_cons_self) hu
    | cons y v =>
      obtain ⟨h1, h2⟩ := ih (fun h => hu (List.mem_cons_of_mem _ h))
        (fun h => hv (List.mem_cons_of_mem _ h)) (List.cons.inj he).2
      exact ⟨by rw [h1, (List.cons.inj he).1], h2⟩

/-- A path is split in one way. -/
theorem splits_unique {p a b c d : List Char} (h1 : Splits p a b) (h2 : Splits p c d) :
    a = c ∧ b = d := by
  have e := congrArg List.reverse (h1.1.symm.trans h2.1)
  simp only [List.reverse_append, List.reverse_cons, List.append_assoc] at e
  obtain ⟨e1, e2⟩ := after_last (by simpa using h1.2) (by simpa using h2.2) e
  exact ⟨List.reverse_inj.mp e2, List.reverse_inj.mp e1⟩

theorem splitLast_iff (p a b : List Char) : splitLast p = some (a, b) ↔ Splits p a b := by
  constructor
  · exact splitLast_some
  · intro h
    cases h2 : splitLast p with
    | none => exact absurd (by rw [h.1]; simp) (splitLast_none h2)
    | some x =>
      obtain ⟨c, d⟩ := x
      obtain ⟨rfl, rfl⟩ := splits_unique (splitLast_some h2) h
      rfl

/-- FILE_NAME is the part of the path without separators. -/
theorem file_name_correct (p : List Char) :
    '/' ∉ fileName p ∧ (fileName p = p ∨ ∃ dir : List Char, Splits p dir (fileName p)) := by
  unfold fileName
  cases h : splitLast p with
  | none => exact ⟨splitLast_none h, Or.inl rfl⟩
  | some x =>
    obtain ⟨a, b⟩ := x
    have := splitLast_some h
    exact ⟨this.2, Or.inr ⟨a, this⟩⟩

/-- FILE_PATH of an absolute path not in the root is its directory. -/
theorem file_path_absolute (real : List Char → Option (List Char)) (d n : List Char)
    (hn : '/' ∉ n) : filePath real (('/' :: d) ++ '/' :: n) = '/' :: d := by
  unfold filePath
  cases h : splitLast (('/' :: d) ++ '/' :: n) with
  | none =>
    exact absurd (by simp) (splitLast_none h)
  | some x =>
    obtain ⟨a, b⟩ := x
    have hs := splitLast_some h
    have : a = '/' :: d := by
      exact (splits_unique hs ⟨rfl, hn⟩).1
    subst this
    rfl

/-- FILE_PATH of a relative path is what `realpath` makes of its directory,
or of the working directory. -/
theorem file_path_relative (real : List Char → Option (List Char)) (p r : List Char) :
    ('/' ∉ p → real ['.'] = some r → filePath real p = r) ∧
    (∀ a b : List Char, Splits p a b → (∀ l : List Char, a ≠ '/' :: l) → real a = some r →
      filePath real p = r) := by
  constructor
  · intro h h2
    unfold filePath
    cases hs : splitLast p with
    | some x =>
      obtain ⟨a, b⟩ := x
      exact absurd (by rw [(splitLast_some hs).1]; simp) h
    | none =>
      show toAbsolute real ['.'] = r
      unfold toAbsolute
      rw [h2]; rfl
  · intro a b h h2 h3
    unfold filePath
    rw [(splitLast_iff p a b).mpr h]
    show toAbsolute real a = r
    unfold toAbsolute
    have : isAbsolute a = false := by
      unfold isAbsolute
      split
      · rename_i l; exact absurd rfl (h2 l)
      · rfl
    rw [this, h3]; rfl

/-- FILE_PATH of a file in the root is empty, as `realpath` has no result for
the empty path. -/
theorem file_path_root_counterexample (real : List Char → Option (List Char)) (h : real [] = none) :
    filePath real "/top.vhd".toList = [] := by
  have : splitLast "/top.vhd".toList = some ([], "top.vhd".toList) := by decide +kernel
  unfold filePath
  rw [this]
  show toAbsolute real [] = []
  unfold toAbsolute
  rw [h]; rfl

example : fileName "src/top.vhd".toList = "top.vhd".toList := by decide +kernel

end Verif.StdEnv
