import Verif.ParseValue.Model

/-
Property C94, first part: arrays of characters.
-/

namespace Verif.ParseValue

open Spec

theorem isSpace_iff (c : Char) : isSpace c = true ↔ White c := by
  simp only [isSpace, White, Bool.or_eq_true, beq_iff_eq]
  omega

theorem isDigit_iff (c : Char) : isDigit c = true ↔ Dig c := by
  simp [isDigit, Dig]

theorem onlySpaces_iff (l : List Char) : onlySpaces l = true ↔ AllWhite l := by
  induction l with
  | nil => simp [onlySpaces, AllWhite]
  | cons c l ih =>
    rw [onlySpaces]
    by_cases h : isSpace c = true
    · rw [h, Bool.not_true, if_neg (by decide), ih]
      unfold AllWhite
      constructor
      · intro h2 d hd
        cases hd with
        | head => exact (isSpace_iff c).mp h
        | tail _ hd => exact h2 d hd
      · intro h2 d hd
        exact h2 d (List.mem_cons_of_mem _ hd)
    · rw [Bool.eq_false_iff.mpr h, Bool.not_false, if_pos rfl]
      constructor
      · intro h2; cases h2
      · intro h2
        exact absurd ((isSpace_iff c).mpr (h2 c List.mem_cons_self)) h

/-! ## The table of literals -/

theorem mapLoop_not {c : Char} {l : List Lit} (h : Lit.chr c ∉ l) (i : Nat) (m : Option Nat) :
    mapLoop c l i m = m := by
  induction l generalizing i m with
  | nil => rfl
  | cons d l ih =>
    have h2 : Lit.chr c ∉ l := fun hm => h (List.mem_cons_of_mem _ hm)
    cases d with
    | chr d =>
      have h1 : d ≠ c := fun e => h (e ▸ List.mem_cons_self)
      rw [mapLoop, if_neg h1, ih h2]
    | id t => rw [mapLoop, ih h2]

theorem mapLoop_mem {c : Char} {l : List Lit} (hn : l.Nodup) (k i : Nat) (m : Option Nat)
    (h : l[k]? = some (.chr c)) : mapLoop c l i m = some (i + k) := by
  induction l generalizing k i m with
  | nil => simp at h
  | cons d l ih =>
    rw [List.nodup_cons] at hn
    cases k with
    | zero =>
      simp only [List.getElem?_cons_zero, Option.some.injEq] at h
      subst h
      rw [mapLoop, if_pos rfl, mapLoop_not hn.1]
      rfl
    | succ k =>
      simp only [List.getElem?_cons_succ] at h
      cases d with
      | chr d => rw [mapLoop, ih hn.2 k _ _ h]; congr 1; omega
      | id t => rw [mapLoop, ih hn.2 k _ _ h]; congr 1; omega

theorem charMap_some {lits : List Lit} (hn : lits.Nodup) {c : Char} {i : Nat} :
    charMap lits c = some i ↔ Stands lits c i := by
  unfold charMap Stands
  constructor
  · intro h
    by_cases hm : Lit.chr c ∈ lits
    · obtain ⟨k, hk⟩ := List.mem_iff_getElem?.mp hm
      rw [mapLoop_mem hn k 0 none hk, Nat.zero_add] at h
      injection h with h
      rw [← h]; exact hk
    · rw [mapLoop_not hm] at h; cases h
  · intro h
    rw [mapLoop_mem hn i 0 none h, Nat.zero_add]

theorem charMap_none {lits : List Lit} (hn : lits.Nodup) {c : Char} :
    charMap lits c = none ↔ Foreign lits c := by
  constructor
  · intro h hm
    obtain ⟨k, hk⟩ := List.mem_iff_getElem?.mp hm
    rw [(charMap_some hn).mpr hk] at h
    cases h
  · intro h
    exact mapLoop_not h _ _

theorem stands_foreign {lits : List Lit} {c : Char} {i : Nat} (h : Stands lits c i) : ¬ Foreign lits c :=
  fun hf => hf (List.mem_iff_getElem?.mpr ⟨i, h⟩)

theorem stands_lt {lits : List Lit} {c : Char} {i : Nat} (h : Stands lits c i) : i < lits.length := by
  unfold Stands at h
  exact (List.getElem?_eq_some_iff.mp h).1

/-! ## The loops -/

theorem body_loop {lits : List Lit} (hn : lits.Nodup) (hl : lits.length ≤ 256) {cs : List Char} {is : List Nat}
    (hb : Body lits cs is) {rest : List Char} (hr : ∀ c r, rest = c :: r → Foreign lits c) :
    bodyLoop lits (cs ++ rest) = (is, rest) := by
  induction hb with
  | nil =>
    cases rest with
    | nil => rfl
    | cons c r =>
      rw [List.nil_append, bodyLoop, (charMap_none hn).mpr (hr c r rfl)]
  | cons hs _ ih =>
    rename_i c i cs is _
    have := stands_lt hs
    rw [List.cons_append, bodyLoop, (charMap_some hn).mpr hs]
    simp only
    rw [ih, Nat.mod_eq_of_lt (by omega)]

theorem body_split {lits : List Lit} (hn : lits.Nodup) (hl : lits.length ≤ 256) (l : List Char) :
    ∃ cs, l = cs ++ (bodyLoop lits l).2 ∧ Body lits cs (bodyLoop lits l).1 ∧
      ∀ c r, (bodyLoop lits l).2 = c :: r → Foreign lits c := by
  induction l with
  | nil => exact ⟨[], rfl, .nil, (fun c r h => by cases h)⟩
  | cons c l ih =>
    rw [bodyLoop]
    cases hm : charMap lits c with
    | none =>
      refine ⟨[], rfl, .nil, ?_⟩
      intro d r h
      cases h
      exact (charMap_none hn).mp hm
    | some i =>
      obtain ⟨cs, h1, h2, h3⟩ := ih
      have hs := (charMap_some hn).mp hm
      have := stands_lt hs
      refine ⟨c :: cs, ?_, ?_, h3⟩
      · simp only [List.cons_append, List.cons.injEq, true_and]
        exact h1
      · simp only
        rw [Nat.mod_eq_of_lt (by omega)]
        exact .cons hs h2

theorem skip_foreign {lits : List Lit} (hn : lits.Nodup) {ws rest : List Char} (hw : AllWhite ws)
    (hf : ∀ c ∈ ws, Foreign lits c) (hr : ∀ c r, rest = c :: r → ¬ (Foreign lits c ∧ White c)) :
    skipForeign lits (ws ++ rest) = rest := by
  induction ws with
  | nil =>
    cases rest with
    | nil => rfl
    | cons c r =>
      rw [List.nil_append, skipForeign, if_neg]
      rintro ⟨h1, h2⟩
      exact hr c r rfl ⟨(charMap_none hn).mp h1, (isSpace_iff c).mp h2⟩
  | cons c ws ih =>
    rw [List.cons_append, skipForeign, if_pos ⟨(charMap_none hn).mpr (hf c List.mem_cons_self),
      (isSpace_iff c).mpr (hw c List.mem_cons_self)⟩]
    exact ih (fun d hd => hw d (List.mem_cons_of_mem _ hd)) (fun d hd => hf d (List.mem_cons_of_mem _ hd))

theorem skip_split {lits : List Lit} (hn : lits.Nodup) (l : List Char) :
    ∃ ws, l = ws ++ skipForeign lits l ∧ AllWhite ws ∧ (∀ c ∈ ws, Foreign lits c) ∧
      ∀ c r, skipForeign lits l = c :: r → ¬ (Foreign lits c ∧ White c) := by
  induction l with
  | nil => exact ⟨[], rfl, (fun c h => by cases h), (fun c h => by cases h), (fun c r h => by cases h)⟩
  | cons c l ih =>
    rw [skipForeign]
    by_cases h : charMap lits c = none ∧ isSpace c = true
    · rw [if_pos h]
      obtain ⟨ws, h1, h2, h3, h4⟩ := ih
      have hc := (charMap_none hn).mp h.1
      have hs := (isSpace_iff c).mp h.2
      refine ⟨c :: ws, by rw [List.cons_append, ← h1], ?_, ?_, h4⟩
      · intro d hd
        cases hd with
        | head => exact hs
        | tail _ hd => exact h2 d hd
      · intro d hd
        cases hd with
        | head => exact hc
        | tail _ hd => exact h3 d hd
    · rw [if_neg h]
      refine ⟨[], rfl, (fun c h => by cases h), (fun c h => by cases h), ?_⟩
      intro d r e
      cases e
      rintro ⟨h1, h2⟩
      exact h ⟨(charMap_none hn).mpr h1, (isSpace_iff c).mpr h2⟩

/-- The part without quotes. -/
theorem rest_plain (lits : List Lit) (l : List Char)
    (h : ∀ r, l = '"' :: r → charMap lits '"' ≠ none) :
    arrayRest lits l = if onlySpaces (bodyLoop lits l).2 then .ok (bodyLoop lits l).1 else .fail := by
  unfold arrayRest
  split
  · rename_i r
    rw [if_neg (h r rfl)]
  · rfl

theorem quote_not_white : ¬ White '"' := by decide

/-- **C94**: an array of characters is read exactly from the texts for it. -/
theorem parse_array_iff {lits : List Lit} (hn : lits.Nodup) (hl : lits.length ≤ 256) (str : List Char)
    (vs : List Nat) : parseArray false lits str = .ok vs ↔ ArrayText lits str vs := by
  unfold parseArray
  rw [if_neg (by decide)]
  constructor
  · intro h
    obtain ⟨ws, h1, h2, h3, h4⟩ := skip_split hn str
    generalize skipForeign lits str = l at h h1 h4
    subst h1
    by_cases hq : ∃ r, l = '"' :: r ∧ charMap lits '"' = none
    · obtain ⟨r, rfl, hq⟩ := hq
      unfold arrayRest at h
      simp only [hq, if_true] at h
      obtain ⟨cs, b1, b2, b3⟩ := body_split hn hl r
      generalize bodyLoop lits r = b at h b1 b2 b3
      obtain ⟨is, t⟩ := b
      simp only at h b1 b2 b3
      cases t with
      | nil => cases h
      | cons c t =>
        simp only at h
        by_cases hc : c = '"'
        · rw [if_neg (not_not_intro hc)] at h
          by_cases ho : onlySpaces t = true
          · rw [if_pos ho] at h
            cases h
            subst hc
            have := ArrayText.quoted h2 h3 ((charMap_none hn).mp hq) b2 ((onlySpaces_iff t).mp ho)
            rw [b1]
            simpa using this
          · rw [if_neg ho] at h; cases h
        · rw [if_pos hc] at h; cases h
    · rw [rest_plain lits l (fun r e hm => hq ⟨r, e, hm⟩)] at h
      obtain ⟨cs, b1, b2, b3⟩ := body_split hn hl l
      generalize bodyLoop lits l = b at h b1 b2 b3
      obtain ⟨is, t⟩ := b
      simp only at h b1 b2 b3
      by_cases ho : onlySpaces t = true
      · rw [if_pos ho] at h
        cases h
        have ht := (onlySpaces_iff t).mp ho
        subst b1
        rw [← List.append_assoc]
        refine ArrayText.plain h2 h3 b2 ht b3 ?_
        rintro rfl
        cases t with
        | nil => rfl
        | cons c t => exact absurd ⟨b3 c t rfl, ht c List.mem_cons_self⟩ (h4 c t rfl)
      · rw [if_neg ho] at h; cases h
  · intro h
    cases h with
    | plain h1 h2 h3 h4 h5 h6 =>
      rename_i ws cs ts
      have hr : ∀ c r, cs ++ ts = c :: r → ¬ (Foreign lits c ∧ White c) := by
        intro c r e
        cases h3 with
        | nil => rw [h6 rfl] at e; cases e
        | cons hs _ => cases e; exact fun hf => stands_foreign hs hf.1
      rw [List.append_assoc, skip_foreign hn h1 h2 hr]
      rw [rest_plain]
      · rw [body_loop hn hl h3 h5]
        simp only
        rw [if_pos ((onlySpaces_iff ts).mpr h4)]
      · intro r e hm
        cases h3 with
        | nil => rw [h6 rfl] at e; cases e
        | cons hs _ => cases e; exact stands_foreign hs ((charMap_none hn).mp hm)
    | quoted h1 h2 h3 h4 h5 =>
      rename_i ws cs ts
      have e : ws ++ '"' :: cs ++ '"' :: ts = ws ++ ('"' :: (cs ++ '"' :: ts)) := by simp
      rw [e, skip_foreign hn h1 h2]
      · unfold arrayRest
        simp only
        rw [if_pos ((charMap_none hn).mpr h3), body_loop hn hl h4 (fun c r e => by cases e; exact h3)]
        simp only [ne_eq, not_true_eq_false, if_false]
        rw [if_pos ((onlySpaces_iff ts).mpr h5)]
      · intro c r e hf
        cases e
        exact quote_not_white hf.2

/-- Values of a type of characters, written one after the other, are read back. -/
theorem array_round_trip {lits : List Lit} (hn : lits.Nodup) (hl : lits.length ≤ 256) {cs : List Char} {is : List Nat}
    (h : Body lits cs is) : parseArray false lits cs = .ok is := by
  rw [parse_array_iff hn hl]
  have := ArrayText.plain (ws := []) (ts := []) (fun c h => by cases h) (fun c h => by cases h) h
    (fun c h => by cases h) (fun c r h => by cases h) (fun _ => rfl)
  simpa using this

/-- The type BIT. -/
def bit : List Lit := [.chr '0', .chr '1']

example : Body bit "0110".toList [0, 1, 1, 0] ∧ bit.Nodup ∧ ArrayText bit " \"01\" ".toList [0, 1] := by
  refine ⟨.cons rfl (.cons rfl (.cons rfl (.cons rfl .nil))), by decide, ?_⟩
  exact ArrayText.quoted (ws := [' ']) (cs := "01".toList) (ts := [' ']) (by decide) (by decide) (by decide)
    (.cons rfl (.cons rfl .nil)) (by decide)

example : parseArray false bit " \"01\" ".toList = .ok [0, 1] ∧ parseArray false bit "\"01".toList = .fail ∧
    parseArray false bit "012".toList = .fail := by decide +kernel

/-- Strings have quotes and blanks among their characters: there they are part
of the value. -/
theorem string_quote_counterexample :
    parseArray false [.chr '"', .chr 'a', .chr ' '] "\"a\" ".toList = .ok [0, 1, 0, 2] := by decide +kernel

/-- A character type of more than 256 values: positions lose their upper bits. -/
theorem array_wide_counterexample :
    parseArray false (.chr 'a' :: ((List.range 255).map (fun n => Lit.id [Char.ofNat (256 + n)])) ++ [.chr 'b']) ['b'] =
      .ok [0] := by decide +kernel

/-- If the elements are of a subtype, as those of STD_LOGIC_VECTOR before 2008,
the program stops. -/
theorem array_subtype_counterexample (lits : List Lit) (str : List Char) : parseArray true lits str = .ub := rfl

end Verif.ParseValue
