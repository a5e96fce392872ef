import Verif.ParseValue.Props

/-
Property C94, second part: integers, enumerations and physical types.
-/

namespace Verif.ParseValue

open Spec

theorem skip_space {ws rest : List Char} (hw : AllWhite ws) (hr : ∀ c r, rest = c :: r → ¬ White c) :
    skipSpace (ws ++ rest) = rest := by
  induction ws with
  | nil =>
    cases rest with
    | nil => rfl
    | cons c r =>
      rw [List.nil_append, skipSpace, if_neg (fun h => hr c r rfl ((isSpace_iff c).mp h))]
  | cons c ws ih =>
    rw [List.cons_append, skipSpace, if_pos ((isSpace_iff c).mpr (hw c List.mem_cons_self))]
    exact ih (fun d hd => hw d (List.mem_cons_of_mem _ hd))

theorem space_split (l : List Char) : ∃ ws, l = ws ++ skipSpace l ∧ AllWhite ws ∧
    ∀ c r, skipSpace l = c :: r → ¬ White c := by
  induction l with
  | nil => exact ⟨[], rfl, (fun c h => by cases h), (fun c r h => by cases h)⟩
  | cons c l ih =>
    rw [skipSpace]
    by_cases h : isSpace c = true
    · rw [if_pos h]
      obtain ⟨ws, h1, h2, h3⟩ := ih
      refine ⟨c :: ws, by rw [List.cons_append, ← h1], ?_, h3⟩
      intro d hd
      cases hd with
      | head => exact (isSpace_iff c).mp h
      | tail _ hd => exact h2 d hd
    · rw [if_neg h]
      refine ⟨[], rfl, (fun c h => by cases h), ?_⟩
      intro d r e
      cases e
      exact fun hw => h ((isSpace_iff c).mpr hw)

/-! ## Integers -/

theorem number_ge (l : List Char) (a : Nat) : a ≤ number a l := by
  induction l generalizing a with
  | nil => exact Nat.le_refl a
  | cons c l ih =>
    rw [number]
    split
    · exact ih a
    · exact Nat.le_trans (by omega) (ih _)

/-- The number of digits. -/
def digs : List Char → Nat
  | [] => 0
  | c :: l => if c = '_' then digs l else digs l + 1

/-- A place where the loop stops. -/
def IntStop (rest : List Char) : Prop := ∀ c r, rest = c :: r → ¬ (Dig c ∨ c = '_')

theorem int_loop {ds rest : List Char} (hd : ∀ c ∈ ds, Dig c ∨ c = '_') (hr : IntStop rest) (a n : Nat)
    (ha : a < 2 ^ 63) : intLoop (ds ++ rest) a n =
      if number a ds < 2 ^ 63 then some ((number a ds : Int), n + digs ds, rest) else none := by
  induction ds generalizing a n with
  | nil =>
    rw [List.nil_append, number, if_pos ha, digs]
    cases rest with
    | nil => rfl
    | cons c r =>
      rw [intLoop, if_neg]
      · rfl
      · intro h
        apply hr c r rfl
        rcases h with h | h
        · exact Or.inl ((isDigit_iff c).mp h)
        · exact Or.inr h
  | cons c ds ih =>
    have hc := hd c List.mem_cons_self
    have ht : ∀ d ∈ ds, Dig d ∨ d = '_' := fun d h => hd d (List.mem_cons_of_mem _ h)
    rw [List.cons_append, intLoop, if_pos (by rcases hc with h | h; exact Or.inl ((isDigit_iff c).mpr h); exact Or.inr h)]
    rw [number, digs]
    by_cases hu : c = '_'
    · rw [if_neg (not_not_intro hu), if_pos hu, if_pos hu, ih ht a n ha]
    · rw [if_pos hu, if_neg hu, if_neg hu]
      have e : (a : Int) * 10 + (c.toNat - 48 : Nat) = ((10 * a + (c.toNat - 48) : Nat) : Int) := by omega
      rw [e]
      by_cases hl : 10 * a + (c.toNat - 48) < 2 ^ 63
      · rw [if_pos (by omega), ih ht _ _ hl]
        have : n + 1 + digs ds = n + (digs ds + 1) := by omega
        rw [this]
      · rw [if_neg (by omega), if_neg]
        have := number_ge ds (10 * a + (c.toNat - 48))
        omega

theorem digs_pos {ds : List Char} (hd : ∀ c ∈ ds, Dig c ∨ c = '_') : digs ds ≠ 0 ↔ ∃ c ∈ ds, Dig c := by
  induction ds with
  | nil => simp [digs]
  | cons c ds ih =>
    have ih := ih (fun d h => hd d (List.mem_cons_of_mem _ h))
    rw [digs]
    by_cases hu : c = '_'
    · rw [if_pos hu, ih]
      have : ¬ Dig c := by rw [hu]; decide
      simp [this]
    · rw [if_neg hu]
      have : Dig c := (hd c List.mem_cons_self).resolve_right hu
      simp [this]

/-- Any text begins with digits. -/
theorem int_split (l : List Char) : ∃ ds rest, l = ds ++ rest ∧ (∀ c ∈ ds, Dig c ∨ c = '_') ∧ IntStop rest := by
  induction l with
  | nil => exact ⟨[], [], rfl, (fun c h => by cases h), (fun c r h => by cases h)⟩
  | cons c l ih =>
    by_cases h : Dig c ∨ c = '_'
    · obtain ⟨ds, rest, rfl, h2, h3⟩ := ih
      refine ⟨c :: ds, rest, rfl, ?_, h3⟩
      intro d hd
      cases hd with
      | head => exact h
      | tail _ hd => exact h2 d hd
    · exact ⟨[], c :: l, rfl, (fun c h => by cases h), (fun d r e => by cases e; exact h)⟩

/-- The text of an integer as it is accepted. -/
structure IntText (str : List Char) (neg : Bool) (ds : List Char) (rest : List Char) : Prop where
  text : ∃ ws, AllWhite ws ∧ str = ws ++ (if neg then ['-'] else []) ++ ds ++ rest
  digits : Digits ds
  stop : IntStop rest

theorem white_stop {ts : List Char} (h : AllWhite ts) : IntStop ts := by
  rintro c r rfl hc
  have := h c List.mem_cons_self
  rcases hc with hc | rfl
  · unfold White at this; unfold Dig at hc; omega
  · revert this; decide

theorem digits_head {ds rest : List Char} (h : Digits ds) :
    ∃ c r, ds ++ rest = c :: r ∧ ¬ White c ∧ c ≠ '-' := by
  obtain ⟨h1, d, h2, _⟩ := h
  cases ds with
  | nil => cases h2
  | cons c ds =>
    refine ⟨c, ds ++ rest, rfl, ?_⟩
    rcases h1 c List.mem_cons_self with hc | rfl
    · unfold White
      unfold Dig at hc
      refine ⟨by omega, ?_⟩
      rintro rfl; revert hc; decide
    · decide

/-- What is read from such a text. -/
theorem parse_int_text {str ds rest : List Char} {neg : Bool} (h : IntText str neg ds rest) :
    parseInt str = if number 0 ds < 2 ^ 63 then
      (if onlySpaces rest then .ok (if neg then -(number 0 ds : Int) else number 0 ds) else .fail) else .ub := by
  obtain ⟨⟨ws, hw, rfl⟩, hd, hs⟩ := h
  have hz : digs ds ≠ 0 := (digs_pos hd.1).mpr hd.2
  have hl := int_loop hd.1 hs 0 0 (by decide)
  obtain ⟨c, r, hc, hcw, hcm⟩ := digits_head (rest := rest) hd
  have key : ∀ b, intRest b (ds ++ rest) = if number 0 ds < 2 ^ 63 then
      (if onlySpaces rest then .ok (if b then -(number 0 ds : Int) else number 0 ds) else .fail) else .ub := by
    intro b
    unfold intRest
    rw [show (0 : Int) = ((0 : Nat) : Int) from rfl, hl]
    by_cases hn : number 0 ds < 2 ^ 63
    · rw [if_pos hn, if_pos hn]
      simp only [Nat.zero_add]
      rw [if_neg hz]
    · rw [if_neg hn, if_neg hn]
  unfold parseInt
  cases neg
  · simp only [Bool.false_eq_true, if_false, List.append_nil, List.append_assoc]
    rw [skip_space hw (fun d x e => by rw [hc] at e; cases e; exact hcw)]
    have : ∀ l, ds ++ rest ≠ '-' :: l := by
      intro l e
      rw [hc] at e
      cases e
      exact hcm rfl
    split
    · rename_i l e; exact absurd e (this l)
    · have := key false
      simpa using this
  · simp only [if_true, List.append_assoc]
    rw [skip_space hw (fun d x e => by cases e; decide)]
    have := key true
    simpa using this

/-- Every other text is refused. -/
theorem parse_int_other {str : List Char} (h : ¬ ∃ neg ds rest, IntText str neg ds rest) : parseInt str = .fail := by
  obtain ⟨ws, h1, h2, h3⟩ := space_split str
  have key : ∀ b l, skipSpace str = (if b then ['-'] else []) ++ l → intRest b l = .fail := by
    intro b l e
    obtain ⟨ds, rest, rfl, hd, hs⟩ := int_split l
    have hz : ¬ ∃ c ∈ ds, Dig c := by
      intro hx
      apply h
      refine ⟨b, ds, rest, ⟨ws, h2, ?_⟩, ⟨hd, hx⟩, hs⟩
      rw [h1, e]; simp
    have hz2 : digs ds = 0 := Decidable.byContradiction (fun hx => hz ((digs_pos hd).mp hx))
    have hn : number 0 ds = 0 := by
      clear e hs h
      induction ds with
      | nil => rfl
      | cons c ds ih =>
        have hu : c = '_' := (hd c List.mem_cons_self).resolve_left (fun hc => hz ⟨c, List.mem_cons_self, hc⟩)
        rw [number, if_pos hu]
        refine ih (fun d hm => hd d (List.mem_cons_of_mem _ hm)) (fun ⟨d, hm, hx⟩ => hz ⟨d, List.mem_cons_of_mem _ hm, hx⟩) ?_
        rw [digs, if_pos hu] at hz2
        exact hz2
    unfold intRest
    rw [show (0 : Int) = ((0 : Nat) : Int) from rfl, int_loop hd hs 0 0 (by decide), hn, if_pos (by decide)]
    simp only [Nat.zero_add]
    rw [if_pos hz2]
  unfold parseInt
  split
  · rename_i l e; exact key true l e
  · exact key false _ rfl

/-- **C94**: an integer is read exactly from a sign, digits and underscores with
at least one digit, and white space, if the number fits. -/
theorem parse_int_iff (str : List Char) (v : Int) : parseInt str = .ok v ↔
    ∃ neg ds ts, IntText str neg ds ts ∧ AllWhite ts ∧ number 0 ds < 2 ^ 63 ∧
      v = if neg then -(number 0 ds : Int) else number 0 ds := by
  constructor
  · intro h
    by_cases hx : ∃ neg ds rest, IntText str neg ds rest
    · obtain ⟨neg, ds, rest, hx⟩ := hx
      rw [parse_int_text hx] at h
      by_cases hn : number 0 ds < 2 ^ 63
      · rw [if_pos hn] at h
        by_cases ho : onlySpaces rest = true
        · rw [if_pos ho] at h
          injection h with h
          exact ⟨neg, ds, rest, hx, (onlySpaces_iff rest).mp ho, hn, h.symm⟩
        · rw [if_neg ho] at h; cases h
      · rw [if_neg hn] at h; cases h
    · rw [parse_int_other hx] at h; cases h
  · rintro ⟨neg, ds, ts, h1, h2, h3, rfl⟩
    rw [parse_int_text h1, if_pos h3, if_pos ((onlySpaces_iff ts).mpr h2)]

/-- The sum overflows exactly if the digits are too many, whatever follows
them. -/
theorem parse_int_ub_iff (str : List Char) : parseInt str = .ub ↔
    ∃ neg ds rest, IntText str neg ds rest ∧ 2 ^ 63 ≤ number 0 ds := by
  constructor
  · intro h
    by_cases hx : ∃ neg ds rest, IntText str neg ds rest
    · obtain ⟨neg, ds, rest, hx⟩ := hx
      rw [parse_int_text hx] at h
      by_cases hn : number 0 ds < 2 ^ 63
      · rw [if_pos hn] at h
        split at h <;> cases h
      · exact ⟨neg, ds, rest, hx, by omega⟩
    · rw [parse_int_other hx] at h; cases h
  · rintro ⟨neg, ds, rest, h1, h2⟩
    rw [parse_int_text h1, if_neg (by omega)]

theorem integer_digits {ds : List Char} (h : Integer ds) : Digits ds := by
  have hall : ∀ c ∈ ds, Dig c ∨ c = '_' := by
    induction h with
    | one h => intro c hc; rw [List.mem_singleton] at hc; subst hc; exact Or.inl h
    | digit h _ ih =>
      intro c hc
      cases hc with
      | head => exact Or.inl h
      | tail _ hc => exact ih c hc
    | under h _ ih =>
      intro c hc
      cases hc with
      | head => exact Or.inl h
      | tail _ hc =>
        cases hc with
        | head => exact Or.inr rfl
        | tail _ hc => exact ih c hc
  refine ⟨hall, ?_⟩
  cases h with
  | one h => exact ⟨_, List.mem_cons_self, h⟩
  | digit h _ => exact ⟨_, List.mem_cons_self, h⟩
  | under h _ => exact ⟨_, List.mem_cons_self, h⟩

/-- **C94**: the integers of the language are read. -/
theorem parse_integer {ws ds ts : List Char} (hw : AllWhite ws) (hd : Integer ds) (ht : AllWhite ts)
    (hn : number 0 ds < 2 ^ 63) :
    parseInt (ws ++ ds ++ ts) = .ok (number 0 ds) ∧ parseInt (ws ++ '-' :: ds ++ ts) = .ok (-(number 0 ds : Int)) := by
  refine ⟨(parse_int_iff _ _).mpr ⟨false, ds, ts, ⟨⟨ws, hw, by simp⟩, integer_digits hd, white_stop ht⟩, ht, hn, rfl⟩,
    (parse_int_iff _ _).mpr ⟨true, ds, ts, ⟨⟨ws, hw, by simp⟩, integer_digits hd, white_stop ht⟩, ht, hn, rfl⟩⟩

example : Integer "1_000".toList ∧ number 0 "1_000".toList = 1000 ∧ parseInt " -1_000 ".toList = .ok (-1000) := by
  refine ⟨.under (by decide) (.digit (by decide) (.digit (by decide) (.one (by decide)))), by decide, by decide +kernel⟩

/-- Underscores may stand anywhere, which the language does not allow. -/
theorem parse_int_under_counterexample : parseInt "_1__".toList = .ok 1 ∧ ¬ Integer "_1__".toList := by
  refine ⟨by decide +kernel, ?_⟩
  intro h
  cases h with
  | digit h _ => revert h; decide

/-- The least integer of 64 bits overflows. -/
theorem parse_int_min_counterexample : parseInt "-9223372036854775808".toList = .ub := by decide +kernel

/-- Other forms of integers are refused. -/
theorem parse_int_forms_counterexample : parseInt "1e3".toList = .fail ∧ parseInt "16#ff#".toList = .fail ∧
    parseInt "+1".toList = .fail := by decide +kernel

/-! ## Letters -/

theorem char_ofNat_toNat (c : Char) : Char.ofNat c.toNat = c := Char.ofNat_toNat c

theorem find_none_of_big {c : Char} (h : 256 ≤ c.toNat) : letters.find? (fun p => p.1 == c) = none := by
  rw [List.find?_eq_none]
  intro p hp hc
  have : ∀ p ∈ letters, p.1.toNat < 256 := by decide +kernel
  have h1 := this p hp
  have h2 : p.1 = c := by simpa using hc
  rw [h2] at h1
  omega

theorem toUpper_eq (c : Char) : toUpper c = upper c := by
  by_cases h : c.toNat < 256
  · have : ∀ n < 256, toUpper (Char.ofNat n) = upper (Char.ofNat n) := by decide +kernel
    have := this c.toNat h
    rwa [char_ofNat_toNat] at this
  · rw [upper, find_none_of_big (by omega)]
    unfold toUpper
    rw [if_neg (by omega), if_neg (by omega)]
    rfl

/-! ## Enumerations -/

theorem word_quoted {w rest : List Char} (hw : ∀ c ∈ w, ¬ White c) (hr : ∀ c r, rest = c :: r → White c) :
    wordLoop (w ++ rest) false = (w, rest) := by
  induction w with
  | nil =>
    cases rest with
    | nil => rfl
    | cons c r => rw [List.nil_append, wordLoop, if_pos ((isSpace_iff c).mpr (hr c r rfl))]
  | cons c w ih =>
    rw [List.cons_append, wordLoop, if_neg (fun h => hw c List.mem_cons_self ((isSpace_iff c).mp h))]
    simp only [Bool.false_and, Bool.false_eq_true, if_false]
    rw [ih (fun d hd => hw d (List.mem_cons_of_mem _ hd))]

theorem word_loop {w rest : List Char} (hw : ∀ c ∈ w, ¬ White c) (hr : ∀ c r, rest = c :: r → White c) :
    wordLoop (w ++ rest) true = (spelling w, rest) := by
  induction w with
  | nil =>
    cases rest with
    | nil => rfl
    | cons c r => rw [List.nil_append, wordLoop, if_pos ((isSpace_iff c).mpr (hr c r rfl))]; rfl
  | cons c w ih =>
    have hw2 : ∀ c ∈ w, ¬ White c := fun d hd => hw d (List.mem_cons_of_mem _ hd)
    rw [List.cons_append, wordLoop, if_neg (fun h => hw c List.mem_cons_self ((isSpace_iff c).mp h)), spelling]
    by_cases hc : c = '\''
    · subst hc
      simp only [ne_eq, not_true_eq_false, decide_false, Bool.and_false, Bool.false_eq_true, if_false, if_true]
      rw [word_quoted hw2 hr]
    · simp only [ne_eq, hc, not_false_eq_true, decide_true, Bool.and_true, if_true, if_false]
      rw [ih hw2, toUpper_eq]

theorem word_split (l : List Char) : ∃ w rest, l = w ++ rest ∧ (∀ c ∈ w, ¬ White c) ∧
    (∀ c r, rest = c :: r → White c) := by
  induction l with
  | nil => exact ⟨[], [], rfl, (fun c h => by cases h), (fun c r h => by cases h)⟩
  | cons c l ih =>
    by_cases h : White c
    · exact ⟨[], c :: l, rfl, (fun c h => by cases h), (fun d r e => by cases e; exact h)⟩
    · obtain ⟨w, rest, rfl, h2, h3⟩ := ih
      refine ⟨c :: w, rest, rfl, ?_, h3⟩
      intro d hd
      cases hd with
      | head => exact h
      | tail _ hd => exact h2 d hd

theorem lit_loop {w : List Char} {lits : List Lit} (hn : (lits.map Lit.text).Nodup) (i k : Nat) :
    litLoop w lits i = some (i + k) ↔ (lits.map Lit.text)[k]? = some w := by
  induction lits generalizing i k with
  | nil => simp [litLoop]
  | cons l ls ih =>
    rw [List.map_cons, List.nodup_cons] at hn
    rw [litLoop]
    by_cases h : l.text = w
    · rw [if_pos h]
      cases k with
      | zero => simp [h]
      | succ k =>
        constructor
        · intro e
          injection e with e
          omega
        · intro e
          simp only [List.map_cons, List.getElem?_cons_succ] at e
          exact absurd (List.mem_iff_getElem?.mpr ⟨k, e⟩) (h ▸ hn.1)
    · rw [if_neg h]
      cases k with
      | zero =>
        constructor
        · intro e
          exfalso
          have : ∀ (ls : List Lit) (j : Nat), litLoop w ls j = some i → j ≤ i := by
            intro ls
            induction ls with
            | nil => intro j e; cases e
            | cons l ls ih2 =>
              intro j e
              rw [litLoop] at e
              split at e
              · injection e with e; omega
              · have := ih2 _ e; omega
          have := this ls (i + 1) e
          omega
        · intro e
          simp only [List.map_cons, List.getElem?_cons_zero, Option.some.injEq] at e
          exact absurd e h
      | succ k =>
        have := ih hn.2 (i + 1) k
        rw [show i + (k + 1) = i + 1 + k by omega, this]
        simp

/-- **C94**: an enumeration value is read exactly from a word that is, in
capitals up to a quote, the text of the literal. -/
theorem parse_enum_iff {lits : List Lit} (hn : (lits.map Lit.text).Nodup) (str : List Char) (i : Nat) :
    parseEnum lits str = .ok i ↔ ∃ ws w ts, str = ws ++ w ++ ts ∧ AllWhite ws ∧ (∀ c ∈ w, ¬ White c) ∧
      AllWhite ts ∧ (w = [] → ts = []) ∧ (lits.map Lit.text)[i]? = some (spelling w) := by
  constructor
  · intro h
    obtain ⟨ws, h1, h2, h3⟩ := space_split str
    unfold parseEnum at h
    generalize skipSpace str = l at h h1 h3
    obtain ⟨w, rest, rfl, h4, h5⟩ := word_split l
    rw [word_loop h4 h5] at h
    simp only at h
    cases hl : litLoop (spelling w) lits 0 with
    | none => rw [hl] at h; cases h
    | some k =>
      rw [hl] at h
      simp only at h
      by_cases ho : onlySpaces rest = true
      · rw [if_pos ho] at h
        injection h with h
        subst h
        refine ⟨ws, w, rest, by rw [h1, List.append_assoc], h2, h4, (onlySpaces_iff rest).mp ho, ?_, ?_⟩
        · rintro rfl
          cases rest with
          | nil => rfl
          | cons c r => exact absurd (h5 c r rfl) (h3 c r rfl)
        · exact (lit_loop hn 0 k).mp (by rw [Nat.zero_add]; exact hl)
      · rw [if_neg ho] at h; cases h
  · rintro ⟨ws, w, ts, rfl, h2, h3, h4, h5, h6⟩
    have hs : skipSpace (ws ++ w ++ ts) = w ++ ts := by
      rw [List.append_assoc]
      apply skip_space h2
      intro c r e
      cases w with
      | nil => rw [h5 rfl] at e; cases e
      | cons d w => cases e; exact h3 c List.mem_cons_self
    have ht : ∀ c r, ts = c :: r → White c := by
      rintro c r rfl
      exact h4 c List.mem_cons_self
    unfold parseEnum
    rw [hs, word_loop h3 ht]
    have := (lit_loop hn 0 i).mpr h6
    rw [Nat.zero_add] at this
    simp only [this]
    rw [if_pos ((onlySpaces_iff ts).mpr h4)]

theorem spelling_id {t : List Char} (h : '\'' ∉ t) : spelling t = t.map upper := by
  induction t with
  | nil => rfl
  | cons c t ih =>
    rw [spelling, if_neg (fun e : c = '\'' => h (e ▸ List.mem_cons_self)), ih (fun hm => h (List.mem_cons_of_mem _ hm))]
    rfl

/-- **C94**: identifiers in letters of either case and character literals are
read. -/
theorem parse_enum_literal {lits : List Lit} (hn : (lits.map Lit.text).Nodup) {i : Nat} :
    (∀ t w, lits[i]? = some (.id t) → '\'' ∉ w → (∀ c ∈ w, ¬ White c) → w.map upper = t → parseEnum lits w = .ok i) ∧
    (∀ c, lits[i]? = some (.chr c) → ¬ White c → parseEnum lits ['\'', c, '\''] = .ok i) := by
  have nil : AllWhite [] := (fun c h => by cases h)
  constructor
  · intro t w h1 h2 h3 h4
    refine (parse_enum_iff hn _ _).mpr ⟨[], w, [], by simp, nil, h3, nil, fun _ => rfl, ?_⟩
    rw [List.getElem?_map, h1, spelling_id h2, h4]
    rfl
  · intro c h1 h2
    refine (parse_enum_iff hn _ _).mpr ⟨[], ['\'', c, '\''], [], rfl, nil, ?_, nil, (fun h => by cases h), ?_⟩
    · intro d hd
      simp only [List.mem_cons, List.not_mem_nil, or_false] at hd
      rcases hd with rfl | rfl | rfl
      · decide
      · exact h2
      · decide
    · rw [List.getElem?_map, h1]
      simp [spelling, Lit.text]

example : (([Lit.id "FALSE".toList, .id "TRUE".toList, .chr 'z'] : List Lit).map Lit.text).Nodup ∧
    parseEnum [.id "FALSE".toList, .id "TRUE".toList, .chr 'z'] " true ".toList = .ok 1 ∧
    parseEnum [.id "FALSE".toList, .id "TRUE".toList, .chr 'z'] "'z'".toList = .ok 2 := by decide +kernel

/-- The character literal of a blank cannot be given. -/
theorem parse_enum_blank_counterexample : parseEnum [.chr 'a', .chr ' '] "' '".toList = .fail := by decide +kernel

/-- The letters of extended identifiers are made capitals: they are not found,
or another one is. -/
theorem parse_enum_ext_counterexample :
    parseEnum [.id "\\ab\\".toList] "\\ab\\".toList = .fail ∧
    parseEnum [.id "\\ab\\".toList, .id "\\AB\\".toList] "\\ab\\".toList = .ok 1 := by decide +kernel

/-! ## Physical types -/

theorem unit_word {w rest : List Char} (hw : ∀ c ∈ w, ¬ White c) (hr : ∀ c r, rest = c :: r → White c) :
    unitWord (w ++ rest) = (w.map upper, rest) := by
  induction w with
  | nil =>
    cases rest with
    | nil => rfl
    | cons c r => rw [List.nil_append, unitWord, if_pos ((isSpace_iff c).mpr (hr c r rfl))]; rfl
  | cons c w ih =>
    rw [List.cons_append, unitWord, if_neg (fun h => hw c List.mem_cons_self ((isSpace_iff c).mp h)),
      ih (fun d hd => hw d (List.mem_cons_of_mem _ hd)), toUpper_eq]
    rfl

theorem unit_loop_mem {N : Type} {mul : N → Int → Int} {x : N} {w : List Char} {k : Int}
    {units : List (List Char × Int)} (hn : (units.map Prod.fst).Nodup) (h : (w, k) ∈ units) :
    unitLoop mul x w units = mul x k := by
  induction units with
  | nil => cases h
  | cons p l ih =>
    obtain ⟨u, j⟩ := p
    rw [List.map_cons, List.nodup_cons] at hn
    rw [unitLoop]
    cases h with
    | head => rw [if_pos rfl]
    | tail _ h =>
      rw [if_neg, ih hn.2 h]
      rintro rfl
      exact hn.1 (List.mem_map.mpr ⟨_, h, rfl⟩)

theorem unit_loop_not {N : Type} {mul : N → Int → Int} {x : N} {w : List Char}
    {units : List (List Char × Int)} (h : ∀ k, (w, k) ∉ units) : unitLoop mul x w units = -1 := by
  induction units with
  | nil => rfl
  | cons p l ih =>
    obtain ⟨u, j⟩ := p
    rw [unitLoop, if_neg, ih (fun k hm => h k (List.mem_cons_of_mem _ hm))]
    rintro rfl
    exact h j List.mem_cons_self

/-- **C94**: a physical value is read exactly if a unit follows the number and
the value is not -1. -/
theorem parse_phys_iff {N : Type} (strtod : List Char → N × List Char) (mul : N → Int → Int)
    {units : List (List Char × Int)} (hn : (units.map Prod.fst).Nodup) (str : List Char) (v : Int) :
    parsePhys strtod mul units str = .ok v ↔ ∃ ws u ts k, (strtod (skipSpace str)).2 = ws ++ u ++ ts ∧
      AllWhite ws ∧ u ≠ [] ∧ (∀ c ∈ u, ¬ White c) ∧ AllWhite ts ∧ (u.map upper, k) ∈ units ∧
      v = mul (strtod (skipSpace str)).1 k ∧ v ≠ -1 := by
  unfold parsePhys
  generalize strtod (skipSpace str) = s
  obtain ⟨x, r⟩ := s
  simp only
  constructor
  · intro h
    obtain ⟨ws, h1, h2, h3⟩ := space_split r
    generalize skipSpace r = l at h h1 h3
    obtain ⟨w, rest, rfl, h4, h5⟩ := word_split l
    rw [unit_word h4 h5] at h
    simp only at h
    by_cases he : w.map upper = []
    · rw [if_pos he] at h; cases h
    · rw [if_neg he] at h
      by_cases hm : unitLoop mul x (w.map upper) units = -1
      · rw [if_pos hm] at h; cases h
      · rw [if_neg hm] at h
        by_cases ho : onlySpaces rest = true
        · rw [if_pos ho] at h
          injection h with h
          have hk : ∃ k, (w.map upper, k) ∈ units := by
            apply Classical.byContradiction
            intro hk
            exact hm (unit_loop_not (fun k hx => hk ⟨k, hx⟩))
          obtain ⟨k, hk⟩ := hk
          refine ⟨ws, w, rest, k, by rw [h1, List.append_assoc], h2, ?_, h4, (onlySpaces_iff rest).mp ho, hk, ?_, ?_⟩
          · rintro rfl; exact he rfl
          · rw [← h, unit_loop_mem hn hk]
          · rw [← h]; exact hm
        · rw [if_neg ho] at h; cases h
  · rintro ⟨ws, u, ts, k, rfl, h2, h3, h4, h5, h6, rfl, h7⟩
    have hs : skipSpace (ws ++ u ++ ts) = u ++ ts := by
      rw [List.append_assoc]
      apply skip_space h2
      intro c r e
      cases u with
      | nil => exact absurd rfl h3
      | cons d w => cases e; exact h4 c List.mem_cons_self
    have ht : ∀ c r, ts = c :: r → White c := by
      rintro c r rfl
      exact h5 c List.mem_cons_self
    rw [hs, unit_word h4 ht]
    simp only
    rw [if_neg (by simpa using h3), unit_loop_mem hn h6, if_neg h7, if_pos ((onlySpaces_iff ts).mpr h5)]

/-- -1 of the first unit is refused, as -1 stands for no unit. -/
theorem parse_phys_minus_counterexample :
    parsePhys (N := Int) (fun s => (-1, s.drop 2)) (· * ·) [("FS".toList, 1)] "-1 fs".toList = .fail ∧
    parsePhys (N := Int) (fun s => (-2, s.drop 2)) (· * ·) [("FS".toList, 1)] "-2 fs".toList = .ok (-2) := by
  decide +kernel

end Verif.ParseValue
