import Verif.Textio.Model

/-
Property C92, first part: writing, and reading of bits, integers and texts.
-/

namespace Verif.Textio

open Spec

/-! ## Writing -/

theorem put_some {l s : List Char} {k : Nat} (h : k + s.length ≤ l.length) :
    put l k s = some (l.take k ++ s ++ l.drop (k + s.length)) := if_pos h

/-- **C92**: writing adds the text in its field to the line, which may be null. -/
theorem write_correct (l : Line) (s : List Char) (left : Bool) (w : Nat) :
    write l s left w = some (some (l.getD [] ++ field s left w)) := by
  have hg : ∃ o, grow l (max s.length w) =
      (l.getD [] ++ List.replicate (max s.length w) nul, o) ∧
      (max s.length w ≠ 0 → o = (l.getD []).length) := by
    cases l with
    | none => exact ⟨0, rfl, fun _ => rfl⟩
    | some l =>
      by_cases h : max s.length w > 0
      · exact ⟨l.length, by simp only [grow, if_pos h, Option.getD_some], fun _ => rfl⟩
      · have h0 : max s.length w = 0 := by omega
        exact ⟨0, by simp only [grow, if_neg h, Option.getD_some]; rw [h0]; simp, fun h => absurd h0 h⟩
  obtain ⟨o, hg, ho⟩ := hg
  generalize hL : l.getD [] = L at hg ho ⊢
  unfold write
  simp only [hg]
  by_cases h0 : max s.length w = 0
  · have hs : s = [] := List.length_eq_zero_iff.mp (by omega)
    have hw : w = 0 := by omega
    subst hs hw
    have : o ≤ L.length := by
      have : grow l 0 = (l.getD [], 0) := by cases l <;> rfl
      simp only [List.length_nil, Nat.max_self, this] at hg
      have := congrArg Prod.snd hg
      simp only at this
      omega
    cases left <;> simp [put, field, this]
  · have hoL := ho h0
    subst hoL
    generalize hm : max s.length w = m at *
    have h1 : s.length ≤ m := by omega
    cases left
    · simp only [Bool.false_eq_true, if_false]
      rw [put_some (by simp)]
      simp only [Option.bind_some]
      have hn : L.length + m - s.length = L.length + (m - s.length) := by omega
      rw [put_some (by simp; omega)]
      simp only [Option.map_some, field, Bool.false_eq_true, if_false]
      have hp : w - s.length = m - s.length := by omega
      rw [hp]
      congr 2
      have e1 : (List.take L.length (L ++ List.replicate m nul)) = L := by simp
      rw [List.length_replicate, e1, hn]
      rw [List.take_append_of_le_length (by simp), List.take_of_length_le (by simp)]
      have e2 : List.drop (L.length + (m - s.length) + s.length)
          (L ++ List.replicate (m - s.length) ' ' ++
            List.drop (L.length + (m - s.length)) (L ++ List.replicate m nul)) = [] := by
        rw [List.drop_eq_nil_iff]
        simp
        omega
      rw [e2]
      simp
    · simp only [if_true]
      rw [put_some (by simp; omega)]
      simp only [Option.bind_some]
      rw [put_some (by simp; omega)]
      simp only [Option.map_some, field, if_true]
      have hp : w - s.length = m - s.length := by omega
      rw [hp]
      congr 2
      have e1 : (List.take L.length (L ++ List.replicate m nul)) = L := by simp
      rw [e1]
      have e2 : List.drop (L.length + s.length + (List.replicate (m - s.length) ' ').length)
          (L ++ s ++ List.drop (L.length + s.length) (L ++ List.replicate m nul)) = [] := by
        rw [List.drop_eq_nil_iff]
        simp
        omega
      rw [e2, List.take_append_of_le_length (by simp), List.take_of_length_le (by simp)]
      simp

/-- **C92**: `justify` makes the same field. -/
theorem justify_correct (s : List Char) (left : Bool) (w : Nat) :
    justify s left w = some (field s left w) := by
  unfold justify field
  have hp : w - s.length = max s.length w - s.length := by omega
  rw [hp]
  generalize hm : max s.length w = m
  have h1 : s.length ≤ m := by omega
  cases left
  · simp only [Bool.false_eq_true, if_false]
    rw [put_some (by simp; omega)]
    have : m - s.length + s.length = m := by omega
    simp [this]
  · simp only [if_true]
    rw [put_some (by simp; omega)]
    simp

/-! ## Blanks -/

theorem isWs_iff (c : Char) : isWs c = true ↔ White c := by
  have key : ∀ d : Char, (c == d) = true ↔ c.toNat = d.toNat := by
    intro d
    rw [beq_iff_eq]
    exact ⟨fun h => by rw [h], fun h => Char.toNat_inj.mp h⟩
  unfold isWs White
  rw [Bool.or_eq_true, Bool.or_eq_true, Bool.or_eq_true, Bool.or_eq_true, key, key, key, key, key]
  simp only [or_assoc]
  exact Iff.rfl

/-- Nothing or a character that is not blank. -/
def Stop (l : List Char) : Prop := ∀ c r, l = c :: r → ¬ White c

theorem skip_drop {ws l : List Char} (hw : ∀ c ∈ ws, White c) (hs : Stop l) :
    (ws ++ l).drop (skipN (ws ++ l)) = l := by
  induction ws with
  | nil =>
    cases l with
    | nil => rfl
    | cons c r =>
      have := hs c r rfl
      rw [← isWs_iff] at this
      simp [skipN, this]
  | cons a ws ih =>
    rw [List.forall_mem_cons] at hw
    have := (isWs_iff a).mpr hw.1
    simp [skipN, this, ih hw.2]

theorem skip_some {ws l : List Char} (hw : ∀ c ∈ ws, White c) (hs : Stop l) :
    skipWs (some (ws ++ l)) = some l := by
  simp only [skipWs, consume, skip_drop hw hs]

/-- Every line is some blanks and the rest. -/
theorem blanks (l : List Char) : ∃ ws r, l = ws ++ r ∧ (∀ c ∈ ws, White c) ∧ Stop r := by
  induction l with
  | nil => exact ⟨[], [], rfl, by simp, fun c r h => by cases h⟩
  | cons a l ih =>
    by_cases h : White a
    · obtain ⟨ws, r, he, hw, hs⟩ := ih
      exact ⟨a :: ws, r, by rw [he]; rfl, by rw [List.forall_mem_cons]; exact ⟨h, hw⟩, hs⟩
    · exact ⟨[], a :: l, rfl, by simp, fun c r e => by cases e; exact h⟩

/-! ## Bits -/

theorem stop_cons {c : Char} {l : List Char} (h : ¬ White c) : Stop (c :: l) :=
  fun _ _ e => by cases e; exact h

theorem bitChar_stop (b : Bool) (l : List Char) : Stop (bitChar b :: l) := by
  apply stop_cons
  cases b <;> decide

/-- **C92**: a bit is read exactly if the first character after the blanks is its text. -/
theorem read_bit_iff (l : List Char) (v : Bool) (r : Line) :
    readBit (some l) = .done true (some v) r ↔
      ∃ ws t, l = ws ++ bitChar v :: t ∧ (∀ c ∈ ws, White c) ∧ r = some t := by
  obtain ⟨ws, t, rfl, hw, hs⟩ := blanks l
  unfold readBit
  rw [skip_some hw hs]
  constructor
  · intro h
    cases t with
    | nil => simp at h
    | cons c t =>
      simp only [consume] at h
      split at h
      · next hc => cases h; exact ⟨ws, t, by rw [hc]; rfl, hw, rfl⟩
      · split at h
        · next hc => cases h; exact ⟨ws, t, by rw [hc]; rfl, hw, rfl⟩
        · cases h
  · rintro ⟨ws', t', he, hw', rfl⟩
    have h1 := skip_drop hw hs
    have h2 := skip_drop hw' (bitChar_stop v t')
    rw [he, h2] at h1
    subst h1
    cases v <;> simp [bitChar, consume]

/-- A failed reading of a bit only skips blanks. -/
theorem read_bit_bad (ws t : List Char) (hw : ∀ c ∈ ws, White c) (hs : Stop t)
    (h : ∀ b r, t ≠ bitChar b :: r) : readBit (some (ws ++ t)) = .done false none (some t) := by
  unfold readBit
  rw [skip_some hw hs]
  cases t with
  | nil => rfl
  | cons c t =>
    have h0 : c ≠ '0' := fun e => h false t (by rw [e]; rfl)
    have h1 : c ≠ '1' := fun e => h true t (by rw [e]; rfl)
    simp [h0, h1]

/-- A text of bits with blanks before them. -/
inductive BitText : List Bool → List Char → Prop where
  | nil : BitText [] []
  | cons {b bs ws t} : (∀ c ∈ ws, White c) → BitText bs t → BitText (b :: bs) (ws ++ bitChar b :: t)

theorem bits_loop_iff (n : Nat) (l : List Char) (vs : List Bool) (r : List Char) :
    bitsLoop n l = (true, vs, r) ↔ vs.length = n ∧ ∃ t, l = t ++ r ∧ BitText vs t := by
  induction n generalizing l vs with
  | zero =>
    simp only [bitsLoop, Prod.mk.injEq, true_and]
    constructor
    · rintro ⟨rfl, rfl⟩
      exact ⟨rfl, [], rfl, .nil⟩
    · rintro ⟨hl, t, rfl, ht⟩
      have := List.length_eq_zero_iff.mp hl
      subst this
      cases ht
      exact ⟨rfl, rfl⟩
  | succ n ih =>
    obtain ⟨ws, t, rfl, hw, hs⟩ := blanks l
    simp only [bitsLoop, skip_drop hw hs]
    constructor
    · intro h
      cases t with
      | nil => simp at h
      | cons c t =>
        simp only at h
        have fin : ∀ b, c = bitChar b → ∀ vs', (bitsLoop n t).1 = true → vs = b :: vs' →
            (bitsLoop n t).2.1 = vs' → (bitsLoop n t).2.2 = r →
            vs.length = n + 1 ∧ ∃ t_1, ws ++ c :: t = t_1 ++ r ∧ BitText vs t_1 := by
          intro b hc vs' h1 h2 h3 h4
          obtain ⟨hl, t', ht, hb⟩ := (ih t vs').mp (by
            rw [← h3, ← h4]
            exact Prod.ext h1 rfl)
          subst h2
          refine ⟨by simp [hl], ws ++ bitChar b :: t', ?_, .cons hw hb⟩
          rw [hc, ht]
          simp
        split at h
        · next hc =>
          simp only [Prod.mk.injEq] at h
          exact fin false hc _ h.1 h.2.1.symm rfl h.2.2
        · split at h
          · next hc =>
            simp only [Prod.mk.injEq] at h
            exact fin true hc _ h.1 h.2.1.symm rfl h.2.2
          · simp at h
    · rintro ⟨hl, t', he, hb⟩
      cases hb with
      | nil => simp at hl
      | @cons b bs ws' t'' hw' hb =>
        have h1 := skip_drop hw hs
        have h2 := skip_drop hw' (bitChar_stop b (t'' ++ r))
        rw [he] at h1
        simp only [List.append_assoc, List.cons_append] at h1
        rw [h2] at h1
        subst h1
        have := (ih (t'' ++ r) bs).mpr ⟨by simpa using hl, t'', rfl, hb⟩
        cases b <;> simp [bitChar, this]

/-- **C92**: a bit vector is read exactly if the line begins with its bits, with
blanks before them. -/
theorem read_bits_iff (n : Nat) (l : List Char) (vs : List Bool) (r : List Char) :
    readBits n (some l) = .done true (some vs) (some r) ↔
      vs.length = n ∧ ∃ t, l = t ++ r ∧ BitText vs t := by
  rw [← bits_loop_iff]
  unfold readBits
  constructor
  · intro h
    simp only [Res.done.injEq, Option.some.injEq] at h
    exact Prod.ext h.1 (Prod.ext h.2.1 h.2.2)
  · intro h
    simp [h]

theorem bitText_map (bs : List Bool) : BitText bs (bs.map bitChar) := by
  induction bs with
  | nil => exact .nil
  | cons b bs ih => exact BitText.cons (ws := []) (by simp) ih

theorem spaces_white (n : Nat) : ∀ c ∈ List.replicate n ' ', White c := by
  intro c hc
  rw [List.eq_of_mem_replicate hc]
  decide

/-- **C92**: a bit vector in a field is read back. -/
theorem write_read_bits (bs : List Bool) (left : Bool) (w : Nat) (rest : List Char)
    (h : bs ≠ []) : ∃ r, readBits bs.length (some (field (bs.map bitChar) left w ++ rest)) =
      .done true (some bs) (some (r ++ rest)) ∧ ∀ c ∈ r, White c := by
  unfold field
  cases left
  · refine ⟨[], ?_, by simp⟩
    rw [read_bits_iff]
    refine ⟨rfl, _, rfl, ?_⟩
    cases bs with
    | nil => exact absurd rfl h
    | cons b bs =>
      simp only [Bool.false_eq_true, if_false]
      exact .cons (spaces_white _) (bitText_map bs)
  · refine ⟨List.replicate (w - (bs.map bitChar).length) ' ', ?_, spaces_white _⟩
    rw [read_bits_iff]
    exact ⟨rfl, bs.map bitChar, by simp, bitText_map bs⟩

/-- **C92**: a bit in a field is read back. -/
theorem write_read_bit (b : Bool) (left : Bool) (w : Nat) (rest : List Char) :
    ∃ r, readBit (some (field [bitChar b] left w ++ rest)) =
      .done true (some b) (some (r ++ rest)) ∧ ∀ c ∈ r, White c := by
  unfold field
  cases left
  · refine ⟨[], ?_, by simp⟩
    rw [read_bit_iff]
    exact ⟨List.replicate (w - 1) ' ', rest, by simp, spaces_white _, rfl⟩
  · refine ⟨List.replicate (w - 1) ' ', ?_, spaces_white _⟩
    rw [read_bit_iff]
    exact ⟨[], List.replicate (w - 1) ' ' ++ rest, by simp, by simp, rfl⟩

/-! ## Texts -/

/-- **C92**: strings and characters are read as they stand. -/
theorem read_str_iff (n : Nat) (l s : List Char) (r : Line) :
    readStr n (some l) = .done true (some s) r ↔ s.length = n ∧ ∃ t, l = s ++ t ∧ r = some t := by
  unfold readStr consume
  simp only
  split
  · next h =>
    simp only [Res.done.injEq, Option.some.injEq, true_and]
    constructor
    · rintro ⟨rfl, rfl⟩
      exact ⟨by simp; omega, l.drop n, by simp, rfl⟩
    · rintro ⟨rfl, t, rfl, rfl⟩
      simp
  · next h =>
    simp only [Res.done.injEq, reduceCtorEq, false_and, false_iff]
    rintro ⟨rfl, t, rfl, rfl⟩
    simp at h

theorem read_char_iff (l : List Char) (c : Char) (r : Line) :
    readChar (some l) = .done true (some c) r ↔ ∃ t, l = c :: t ∧ r = some t := by
  cases l with
  | nil => simp [readChar]
  | cons a l =>
    simp only [readChar, consume, Res.done.injEq, Option.some.injEq, true_and, List.drop_one,
      List.tail_cons, List.cons.injEq]
    constructor
    · rintro ⟨rfl, rfl⟩
      exact ⟨l, ⟨rfl, rfl⟩, rfl⟩
    · rintro ⟨t, ⟨rfl, rfl⟩, rfl⟩
      exact ⟨rfl, rfl⟩

theorem s_loop (n : Nat) (l : List Char) : sLoop n l ≤ n ∧ sLoop n l ≤ l.length ∧
    (∀ c ∈ l.take (sLoop n l), ¬ White c) ∧
    (sLoop n l < n → Stop (l.take 0) ∧ ∀ c r, l.drop (sLoop n l) = c :: r → White c) := by
  induction n generalizing l with
  | zero => simp [sLoop]
  | succ n ih =>
    cases l with
    | nil => simp [sLoop, Stop]
    | cons a l =>
      simp only [sLoop]
      by_cases h : isWs a = true
      · simp only [h, if_true]
        refine ⟨by omega, by omega, by simp, fun _ => ⟨by simp [Stop], fun c r e => ?_⟩⟩
        cases e
        exact (isWs_iff _).mp h
      · simp only [h, if_false, Bool.false_eq_true]
        obtain ⟨h1, h2, h3, h4⟩ := ih l
        refine ⟨by omega, by simp; omega, ?_, fun hlt => ⟨by simp [Stop], ?_⟩⟩
        · simp only [List.take_succ_cons, List.forall_mem_cons]
          exact ⟨fun hw => h ((isWs_iff a).mpr hw), h3⟩
        · simp only [List.drop_succ_cons]
          exact (h4 (by omega)).2

/-- **C92**: `sread` reads the characters up to the next blank, but not more than fit. -/
theorem sread_correct (n : Nat) (ws t : List Char) (hw : ∀ c ∈ ws, White c) (hs : Stop t) :
    ∃ s r, sread n (some (ws ++ t)) = .done true (some s) (some r) ∧ t = s ++ r ∧
      s.length ≤ n ∧ (∀ c ∈ s, ¬ White c) ∧ (s.length < n → ∀ c r', r = c :: r' → White c) := by
  unfold sread
  rw [skip_some hw hs]
  obtain ⟨h1, h2, h3, h4⟩ := s_loop n t
  have hl : (t.take (sLoop n t)).length = sLoop n t := by simp; omega
  exact ⟨_, _, rfl, (List.take_append_drop _ _).symm, by omega, h3,
    fun hlt => (h4 (by omega)).2⟩

/-! ## Booleans -/

theorem case_eq_iff (l r : List Char) : caseEq l r = true ↔ l.map toLower = r.map toLower := by
  induction l generalizing r with
  | nil => cases r <;> simp [caseEq]
  | cons a l ih =>
    cases r with
    | nil => simp [caseEq]
    | cons b r =>
      simp only [caseEq, List.map_cons, List.cons.injEq]
      by_cases h : toLower a = toLower b <;> simp [h, ih]

theorem starts_iff (l w : List Char) : starts l w = true ↔
    ∃ s r, l = s ++ r ∧ s.map toLower = w.map toLower := by
  unfold starts
  rw [Bool.and_eq_true, decide_eq_true_eq, case_eq_iff]
  constructor
  · rintro ⟨h1, h2⟩
    exact ⟨_, _, (List.take_append_drop w.length l).symm, h2⟩
  · rintro ⟨s, r, rfl, h⟩
    have hl : s.length = w.length := by simpa using congrArg List.length h
    exact ⟨by simp; omega, by rw [← hl, List.take_left]; exact h⟩

def boolText (b : Bool) : List Char := if b then "true".toList else "false".toList

theorem starts_stop {l : List Char} {b : Bool} (h : starts l (boolText b) = true) : Stop l := by
  rw [starts_iff] at h
  obtain ⟨s, r, rfl, h⟩ := h
  intro c t e
  cases s with
  | nil => cases b <;> simp [boolText] at h
  | cons a s =>
    simp only [List.cons_append, List.cons.injEq] at e
    obtain ⟨rfl, _⟩ := e
    have h1 : toLower a = 't' ∨ toLower a = 'f' := by
      cases b
      · right
        have := congrArg List.head? h
        simpa [boolText, toLower] using this
      · left
        have := congrArg List.head? h
        simpa [boolText, toLower] using this
    intro hw
    unfold toLower at h1
    unfold White at hw
    rw [if_neg (by omega)] at h1
    rcases h1 with rfl | rfl <;> revert hw <;> decide

/-- **C92**: a boolean is read exactly if its name, in letters of either case, follows
the blanks; what comes after it does not matter. -/
theorem read_bool_iff (l : List Char) (v : Bool) (r : Line) :
    readBool (some l) = .done true (some v) r ↔
      ∃ ws s t, l = ws ++ s ++ t ∧ (∀ c ∈ ws, White c) ∧
        s.map toLower = (boolText v).map toLower ∧ r = some t := by
  obtain ⟨ws, t, rfl, hw, hs⟩ := blanks l
  unfold readBool
  rw [skip_some hw hs]
  have hlen : ∀ (s : List Char) (b : Bool), s.map toLower = (boolText b).map toLower →
      s.length = (boolText b).length := fun s b h => by simpa using congrArg List.length h
  constructor
  · intro h
    simp only [consume] at h
    split at h
    · next hc =>
      cases h
      obtain ⟨s, r, rfl, hq⟩ := (starts_iff _ _).mp hc
      have : s.length = 4 := hlen s true hq
      exact ⟨ws, s, r, by simp, hw, hq, by rw [← this, List.drop_left]⟩
    · split at h
      · next hc =>
        cases h
        obtain ⟨s, r, rfl, hq⟩ := (starts_iff _ _).mp hc
        have : s.length = 5 := hlen s false hq
        exact ⟨ws, s, r, by simp, hw, hq, by rw [← this, List.drop_left]⟩
      · cases h
  · rintro ⟨ws', s, t', he, hw', hs', rfl⟩
    have hst : starts (s ++ t') (boolText v) = true := (starts_iff _ _).mpr ⟨s, t', rfl, hs'⟩
    have h1 := skip_drop hw hs
    have h2 := skip_drop hw' (starts_stop hst)
    rw [he, List.append_assoc, h2] at h1
    subst h1
    cases v with
    | true =>
      have h4 : s.length = 4 := hlen s true hs'
      simp only [boolText, if_true] at hst
      simp only [hst, if_true, consume]
      rw [← h4, List.drop_left]
    | false =>
      have h5 : s.length = 5 := hlen s false hs'
      have hn : starts (s ++ t') "true".toList = false := by
        rw [Bool.eq_false_iff]
        intro hc
        obtain ⟨s2, r2, e, h2⟩ := (starts_iff _ _).mp hc
        have c1 : ((s ++ t').map toLower).head? = some 'f' := by
          rw [List.map_append, hs']
          simp [boolText, toLower]
        have c2 : ((s ++ t').map toLower).head? = some 't' := by
          rw [e, List.map_append, h2]
          simp [toLower]
        rw [c1] at c2
        simp at c2
      simp only [boolText, Bool.false_eq_true, if_false] at hst
      simp only [hn, hst, if_true, Bool.false_eq_true, if_false, consume]
      rw [← h5, List.drop_left]

/-- **C92**: a boolean in a field is read back. -/
theorem write_read_bool (b : Bool) (left : Bool) (w : Nat) (rest : List Char) :
    ∃ r, readBool (some (field (boolText b) left w ++ rest)) =
      .done true (some b) (some (r ++ rest)) ∧ ∀ c ∈ r, White c := by
  unfold field
  cases left
  · refine ⟨[], ?_, by simp⟩
    rw [read_bool_iff]
    exact ⟨List.replicate (w - (boolText b).length) ' ', boolText b, rest, by simp, spaces_white _,
      rfl, rfl⟩
  · refine ⟨List.replicate (w - (boolText b).length) ' ', ?_, spaces_white _⟩
    rw [read_bool_iff]
    exact ⟨[], boolText b, List.replicate (w - (boolText b).length) ' ' ++ rest, by simp, by simp,
      rfl, rfl⟩

end Verif.Textio
