import Verif.Assert.Model

/-
Theorems on the formats of messages, property C100.
-/

namespace Verif.Assert

open Spec

/-- The names of units: those of the LRM. -/
def names : List Text :=
  [[102, 115], [112, 115], [110, 115], [117, 115], [109, 115], [115, 101, 99], [109], [104, 114]]

def fillOf : FillAlign → Nat
  | .both c _ => c
  | _ => 32

def alignOf (v : Nat) : FillAlign → Nat
  | .none => if v = 116 then 62 else 60
  | .align a => a
  | .both _ a => a

/-- What a form means. -/
def repOf (f : Form) : Rep :=
  ⟨f.var, fillOf f.fa, alignOf f.var f.fa, toInt (number f.width),
    f.prec.bind fun t => precisions.find? fun e => e.1 == t⟩

/-! ## Helpers -/

theorem span_eq (q : Nat → Bool) (w r : Text) (hw : ∀ c ∈ w, q c = true)
    (hr : ∀ (c : Nat) (t : Text), r = c :: t → q c = false) :
    (w ++ r).takeWhile q = w ∧ (w ++ r).dropWhile q = r := by
  induction w with
  | nil =>
    cases r with
    | nil => exact ⟨rfl, rfl⟩
    | cons c t => simp [hr c t rfl]
  | cons a w ih =>
    have h1 := hw a List.mem_cons_self
    have h2 := ih fun c hc => hw c (List.mem_cons_of_mem _ hc)
    simp only [List.cons_append, List.takeWhile_cons, List.dropWhile_cons, h1, if_true]
    exact ⟨by rw [h2.1], h2.2⟩

theorem isVar_iff (v : Nat) : isVar v = true ↔ v ∈ variables := by
  simp [isVar, variables]; omega

theorem isAlign_iff (v : Nat) : isAlign v = true ↔ v ∈ aligns := by
  simp [isAlign, aligns]; omega

theorem isAlign_false (v : Nat) (h : v ≠ 60 ∧ v ≠ 62 ∧ v ≠ 94) : isAlign v = false := by
  simp [isAlign]; omega

theorem isDigit_iff (c : Nat) : isDigit c = true ↔ 48 ≤ c ∧ c ≤ 57 := by
  simp [isDigit]

theorem width_eq (w r : Text) (hw : ∀ c ∈ w, 48 ≤ c ∧ c ≤ 57)
    (hr : ∀ (c : Nat) (t : Text), r = c :: t → isDigit c = false) :
    width (w ++ r) = (toInt (number w), r) := by
  have h := span_eq isDigit w r (fun c hc => (isDigit_iff c).mpr (hw c hc)) hr
  unfold width
  rw [h.1, h.2]
  cases w with
  | nil => rfl
  | cons a w => rfl

theorem width_sound (p : Text) : ∃ w : Text, (∀ c ∈ w, 48 ≤ c ∧ c ≤ 57) ∧
    p = w ++ (width p).2 ∧ (width p).1 = toInt (number w) := by
  refine ⟨p.takeWhile isDigit, ?_, ?_, ?_⟩
  · intro c hc
    have : ∀ (l : Text), c ∈ l.takeWhile isDigit → isDigit c = true := by
      intro l
      induction l with
      | nil => intro h; cases h
      | cons a l ih =>
        intro h
        rw [List.takeWhile_cons] at h
        split at h
        · rename_i ha
          rcases List.mem_cons.mp h with e | e
          · rw [e]; exact ha
          · exact ih e
        · cases h
    exact (isDigit_iff c).mp (this p hc)
  · exact (List.takeWhile_append_dropWhile).symm
  · unfold width
    cases p.takeWhile isDigit with
    | nil => rfl
    | cons a w => rfl

theorem findPrec_names (t r : Text) (h : t ∈ names) :
    ∃ e : Text × Nat, precisions.find? (fun e => e.1 == t) = some e ∧
      findPrec precisions (t ++ 125 :: r) = some (e, 125 :: r) := by
  simp only [names, List.mem_cons, List.not_mem_nil, or_false] at h
  rcases h with h | h | h | h | h | h | h | h <;> subst h <;>
    exact ⟨_, rfl, by simp [findPrec, precisions, strip]⟩

theorem strip_eq (n p r : Text) (h : strip n p = some r) : p = n ++ r := by
  induction n generalizing p with
  | nil => cases h; rfl
  | cons c n ih =>
    cases p with
    | nil => cases h
    | cons d p =>
      unfold strip at h
      split at h
      · rename_i e; rw [ih p h, e]; rfl
      · cases h

theorem findPrec_eq (es : List (Text × Nat)) (p r : Text) (e : Text × Nat)
    (h : findPrec es p = some (e, r)) : e ∈ es ∧ p = e.1 ++ r := by
  induction es with
  | nil => cases h
  | cons a es ih =>
    unfold findPrec at h
    split at h
    · rename_i r' hs; cases h; exact ⟨List.mem_cons_self, strip_eq _ _ _ hs⟩
    · obtain ⟨h1, h2⟩ := ih h
      exact ⟨List.mem_cons_of_mem _ h1, h2⟩

/-- The units have the values of the LRM in femtoseconds. -/
theorem unit_values :
    names.map (fun t => (precisions.find? fun e => e.1 == t).map (·.2)) =
      [some 1, some (10 ^ 3), some (10 ^ 6), some (10 ^ 9), some (10 ^ 12), some (10 ^ 15),
       some (60 * 10 ^ 15), some (60 * 60 * 10 ^ 15)] := by decide +kernel

/-- A precision is shown by its name, and one that is not in the table not at
all. -/
theorem precName_shown (v : Nat) :
    (∀ t : Text, (t, v) ∈ precisions → t ≠ [109, 105, 110] → precName v = 46 :: t) ∧
    ((∀ e ∈ precisions, e.2 ≠ v) → precName v = []) := by
  constructor
  · intro t ht hm
    simp only [precisions, List.mem_cons, List.not_mem_nil, or_false, Prod.mk.injEq] at ht
    rcases ht with h | h | h | h | h | h | h | h | h <;> obtain ⟨h1, h2⟩ := h <;> subst h1 h2 <;>
      first | rfl | exact absurd rfl hm
  · intro h
    unfold precName
    rw [List.find?_eq_none.mpr fun e he => by simp [h e he]]

/-- The entry `min` of the table is never found, because `m` comes before
it. -/
theorem min_never (p r : Text) (n : Nat) : findPrec precisions p ≠ some (([109, 105, 110], n), r) := by
  intro h
  have hp := (findPrec_eq _ _ _ _ h).2
  rw [hp] at h
  simp [findPrec, precisions, strip] at h

theorem findPrec_sound (p r : Text) (e : Text × Nat) (h : findPrec precisions p = some (e, r)) :
    e.1 ∈ names ∧ precisions.find? (fun x => x.1 == e.1) = some e ∧ p = e.1 ++ r := by
  obtain ⟨h1, h2⟩ := findPrec_eq _ _ _ _ h
  refine ⟨?_, ?_, h2⟩ <;>
  · simp only [precisions, List.mem_cons, List.not_mem_nil, or_false] at h1
    rcases h1 with h1 | h1 | h1 | h1 | h1 | h1 | h1 | h1 | h1 <;> subst h1 <;>
      first
        | exact absurd h (min_never _ _ _)
        | rfl
        | (simp [names]; done)

/-! ## The grammar is accepted -/

theorem flen_brace (t : Text) : flen (125 :: t) = 0 := by simp [flen]

theorem flen_two (c a : Nat) (t : Text) (hc : c ≠ 125) (ha : a ≠ 125) :
    2 ≤ flen (c :: a :: t) := by
  simp [flen, hc, ha]

theorem aligns_ne (a : Nat) (h : a ∈ aligns) : a ≠ 125 := by
  simp [aligns] at h; omega

theorem fillAlign_none (d : Nat) (R : Text)
    (h : (∃ t : Text, R = 125 :: t) ∨
      ∃ (c e : Nat) (t : Text), R = c :: e :: t ∧ isAlign c = false ∧ isAlign e = false) :
    fillAlign d R = (32, d, R) := by
  have hb : isAlign 125 = false := by decide
  rcases h with ⟨t, rfl⟩ | ⟨c, e, t, rfl, h1, h2⟩
  · cases t with
    | nil => simp [fillAlign, hb]
    | cons a t => simp [fillAlign, hb, flen_brace]
  · simp [fillAlign, h1, h2]

theorem fillAlign_align (d a : Nat) (R : Text) (ha : a ∈ aligns)
    (h : ∃ (c : Nat) (t : Text), R = c :: t ∧ isAlign c = false) :
    fillAlign d (a :: R) = (32, a, R) := by
  obtain ⟨c, t, rfl, h1⟩ := h
  have := (isAlign_iff a).mpr ha
  simp [fillAlign, h1, this]

theorem fillAlign_both (d c a : Nat) (R : Text) (hc : c ≠ 125) (ha : a ∈ aligns) :
    fillAlign d (c :: a :: R) = (c, a, R) := by
  have h1 := (isAlign_iff a).mpr ha
  have h2 := flen_two c a R hc (aligns_ne a ha)
  simp [fillAlign, h1, h2]

theorem prec_head (pr : Option Text) (rest : Text) (hp : ∀ t : Text, pr = some t → t ∈ names) :
    (∃ t : Text, precText pr ++ 125 :: rest = 125 :: t) ∨
      ∃ (e : Nat) (t : Text), precText pr ++ 125 :: rest = 46 :: e :: t ∧ isAlign e = false := by
  cases pr with
  | none => exact Or.inl ⟨rest, rfl⟩
  | some t =>
    refine Or.inr ?_
    have h := hp t rfl
    simp only [names, List.mem_cons, List.not_mem_nil, or_false] at h
    rcases h with h | h | h | h | h | h | h | h <;> subst h <;>
      exact ⟨_, _, rfl, by decide⟩

theorem tail_head (w : Text) (pr : Option Text) (rest : Text)
    (hw : ∀ c ∈ w, 48 ≤ c ∧ c ≤ 57) (hp : ∀ t : Text, pr = some t → t ∈ names) :
    (∃ t : Text, w ++ (precText pr ++ 125 :: rest) = 125 :: t) ∨
      ∃ (c e : Nat) (t : Text), w ++ (precText pr ++ 125 :: rest) = c :: e :: t ∧
        isAlign c = false ∧ isAlign e = false := by
  have h := prec_head pr rest hp
  cases w with
  | nil =>
    rcases h with ⟨t, h⟩ | ⟨e, t, h, he⟩
    · exact Or.inl ⟨t, by rw [List.nil_append, h]⟩
    · exact Or.inr ⟨46, e, t, by rw [List.nil_append, h], by decide, he⟩
  | cons a w =>
    have ha := hw a List.mem_cons_self
    have h1 : isAlign a = false := isAlign_false a (by omega)
    refine Or.inr ?_
    cases w with
    | nil =>
      rcases h with ⟨t, h⟩ | ⟨e, t, h, he⟩
      · exact ⟨a, 125, t, by rw [List.cons_append, List.nil_append, h], h1, by decide⟩
      · exact ⟨a, 46, e :: t, by rw [List.cons_append, List.nil_append, h], h1, by decide⟩
    | cons b w =>
      have hb := hw b (List.mem_cons_of_mem _ List.mem_cons_self)
      exact ⟨a, b, _, rfl, h1, isAlign_false b (by omega)⟩

theorem precision_eq (v : Nat) (pr : Option Text) (rest : Text)
    (hp : ∀ t : Text, pr = some t → t ∈ names ∧ v = 116) :
    precision v (precText pr ++ 125 :: rest) =
      some (pr.bind fun t => precisions.find? fun e => e.1 == t, 125 :: rest) := by
  cases pr with
  | none => rfl
  | some t =>
    obtain ⟨h1, h2⟩ := hp t rfl
    obtain ⟨e, he, hf⟩ := findPrec_names t rest h1
    show (match findPrec precisions (t ++ 125 :: rest) with
      | none => none
      | some (e, r) => if v = 116 then some (some e, r) else none) = _
    rw [hf]
    simp only [h2, if_true, Option.bind_some, he]

/-- Every form of the grammar is accepted, with its meaning. -/
theorem form_accepted (f : Form) (h : Valid names f) (rest : Text) :
    replacement (formText f ++ 125 :: rest) = some (repOf f, rest) := by
  obtain ⟨v, colon, fa, w, pr⟩ := f
  have hv : isVar v = true := (isVar_iff v).mpr h.var
  cases colon with
  | false =>
    obtain ⟨h1, h2, h3⟩ := h.plain rfl
    simp only at h1 h2 h3
    subst h1 h2 h3
    show replacement (v :: 125 :: rest) = _
    simp [replacement, hv, close, repOf, fillOf, alignOf, dfltAlign, number, toInt]
  | true =>
    have hw : ∀ c ∈ w, 48 ≤ c ∧ c ≤ 57 := h.width
    have hp : ∀ t : Text, pr = some t → t ∈ names ∧ v = 116 := h.prec
    have e1 : formText ⟨v, true, fa, w, pr⟩ ++ 125 :: rest =
        v :: 58 :: (faText fa ++ (w ++ (precText pr ++ 125 :: rest))) := by
      simp [formText]
    have hfa : fillAlign (dfltAlign v) (faText fa ++ (w ++ (precText pr ++ 125 :: rest))) =
        (fillOf fa, alignOf v fa, w ++ (precText pr ++ 125 :: rest)) := by
      have ht := tail_head w pr rest hw fun t ht => (hp t ht).1
      cases fa with
      | none => exact fillAlign_none _ _ ht
      | align a =>
        refine fillAlign_align _ a _ h.fa ?_
        rcases ht with ⟨t, e⟩ | ⟨c, d, t, e, hc, _⟩
        · exact ⟨125, t, e, by decide⟩
        · exact ⟨c, d :: t, e, hc⟩
      | both c a => exact fillAlign_both _ c a _ h.fa.1 h.fa.2
    have hwid : width (w ++ (precText pr ++ 125 :: rest)) =
        (toInt (number w), precText pr ++ 125 :: rest) := by
      apply width_eq w _ hw
      intro c t e
      rcases prec_head pr rest fun t ht => (hp t ht).1 with ⟨t', e'⟩ | ⟨x, t', e', _⟩
      · rw [e'] at e; injection e with e _; rw [← e]; decide
      · rw [e'] at e; injection e with e _; rw [← e]; decide
    rw [e1]
    simp only [replacement, hv, if_true, hfa, hwid, precision_eq v pr rest hp]
    rfl

/-! ## Only the grammar is accepted -/

theorem fillAlign_sound (v : Nat) (q : Text) : ∃ fa : FillAlign,
    q = faText fa ++ (fillAlign (dfltAlign v) q).2.2 ∧
    (fillAlign (dfltAlign v) q).1 = fillOf fa ∧
    (fillAlign (dfltAlign v) q).2.1 = alignOf v fa ∧
    (match fa with
      | .none => True
      | .align a => a ∈ aligns
      | .both c a => c ≠ 125 ∧ a ∈ aligns) := by
  match q with
  | [] => exact ⟨.none, rfl, rfl, rfl, trivial⟩
  | [c] =>
    by_cases h : isAlign c = true
    · exact ⟨.align c, by simp [fillAlign, h, faText], by simp [fillAlign, h, fillOf],
        by simp [fillAlign, h, alignOf], (isAlign_iff c).mp h⟩
    · exact ⟨.none, by simp [fillAlign, h, faText], by simp [fillAlign, h, fillOf],
        by simp [fillAlign, h, alignOf, dfltAlign], trivial⟩
  | c :: a :: r =>
    by_cases hb : 2 ≤ flen (c :: a :: r) ∧ isAlign a = true
    · refine ⟨.both c a, by simp [fillAlign, hb, faText], by simp [fillAlign, hb, fillOf],
        by simp [fillAlign, hb, alignOf], ?_, (isAlign_iff a).mp hb.2⟩
      intro hc
      have := hb.1
      rw [hc, flen_brace] at this
      omega
    · by_cases h : isAlign c = true
      · exact ⟨.align c, by simp only [fillAlign, if_neg hb, if_pos h]; rfl,
          by simp only [fillAlign, if_neg hb, if_pos h]; rfl,
          by simp only [fillAlign, if_neg hb, if_pos h]; rfl, (isAlign_iff c).mp h⟩
      · exact ⟨.none, by simp only [fillAlign, if_neg hb, if_neg h]; rfl,
          by simp only [fillAlign, if_neg hb, if_neg h]; rfl,
          by simp only [fillAlign, if_neg hb, if_neg h]; rfl, trivial⟩

theorem precision_sound (v : Nat) (p r : Text) (pr : Option (Text × Nat))
    (h : precision v p = some (pr, r)) :
    ∃ t : Option Text, p = precText t ++ r ∧
      (t.bind fun t => precisions.find? fun e => e.1 == t) = pr ∧
      ∀ x : Text, t = some x → x ∈ names ∧ v = 116 := by
  unfold precision at h
  split at h
  · rename_i q
    cases hf : findPrec precisions q with
    | none => rw [hf] at h; cases h
    | some er =>
      obtain ⟨e, r'⟩ := er
      rw [hf] at h
      obtain ⟨h1, h2, h3⟩ := findPrec_sound _ _ _ hf
      simp only at h
      split at h
      · rename_i hv
        cases h
        exact ⟨some e.1, by rw [h3]; rfl, h2, fun x hx => by cases hx; exact ⟨h1, hv⟩⟩
      · cases h
  · cases h
    exact ⟨none, rfl, rfl, fun x hx => by cases hx⟩

theorem close_sound (x y : Rep) (p r : Text) (h : close x p = some (y, r)) :
    x = y ∧ p = 125 :: r := by
  unfold close at h
  split at h
  · cases h; exact ⟨rfl, rfl⟩
  · cases h

/-- What is accepted is a form of the grammar. -/
theorem form_sound (p rest : Text) (x : Rep) (h : replacement p = some (x, rest)) :
    ∃ f : Form, Valid names f ∧ p = formText f ++ 125 :: rest ∧ x = repOf f := by
  unfold replacement at h
  split at h
  · cases h
  · rename_i v p
    split at h
    · rename_i hv
      have hv := (isVar_iff v).mp hv
      split at h
      · rename_i q
        obtain ⟨fa, a1, a2, a3, a4⟩ := fillAlign_sound v q
        obtain ⟨w, w1, w2, w3⟩ := width_sound (fillAlign (dfltAlign v) q).2.2
        cases hp : precision v (width (fillAlign (dfltAlign v) q).2.2).2 with
        | none => simp only [hp] at h; cases h
        | some pr =>
          obtain ⟨pr, r⟩ := pr
          simp only [hp] at h
          obtain ⟨t, t1, t2, t3⟩ := precision_sound _ _ _ _ hp
          obtain ⟨c1, c2⟩ := close_sound _ _ _ _ h
          refine ⟨⟨v, true, fa, w, t⟩, ⟨hv, (fun hx => by cases hx), a4, w1, t3⟩, ?_, ?_⟩
          · show v :: 58 :: q = _
            rw [a1, w2, t1, c2]; simp [formText]
          · rw [← c1, a2, a3, w3, ← t2]; rfl
      · obtain ⟨c1, c2⟩ := close_sound _ _ _ _ h
        refine ⟨⟨v, false, .none, [], none⟩, ⟨hv, fun _ => ⟨rfl, rfl, rfl⟩, trivial,
          (fun c hc => by cases hc), fun t ht => by cases ht⟩, ?_, ?_⟩
        · rw [c2]; simp [formText]
        · rw [← c1]; rfl
    · cases h

/-- Exactly the forms of the grammar are accepted. -/
theorem replacement_iff (p rest : Text) (x : Rep) : replacement p = some (x, rest) ↔
    ∃ f : Form, Valid names f ∧ p = formText f ++ 125 :: rest ∧ x = repOf f := by
  constructor
  · exact form_sound p rest x
  · rintro ⟨f, hf, rfl, rfl⟩
    exact form_accepted f hf rest

/-! ## Whole formats -/

/-- The text of a format: pieces of text, each with a form after it. -/
def formatText (l : List (Text × Form)) (last : Text) : Text :=
  (l.flatMap fun e => e.1 ++ 123 :: (formText e.2 ++ [125])) ++ last

theorem formatText_cons (a : Text × Form) (l : List (Text × Form)) (last : Text) :
    formatText (a :: l) last = a.1 ++ 123 :: (formText a.2 ++ 125 :: formatText l last) := by
  simp [formatText]

theorem no_brace (s : Text) (h : s.dropWhile (· != 123) = []) : 123 ∉ s := by
  intro hm
  induction s with
  | nil => cases hm
  | cons a s ih =>
    rw [List.dropWhile_cons] at h
    split at h
    · rename_i ha
      rcases List.mem_cons.mp hm with e | e
      · rw [← e] at ha; simp at ha
      · exact ih h e
    · cases h

theorem take_no_brace (s : Text) : 123 ∉ s.takeWhile (· != 123) := by
  induction s with
  | nil => intro h; cases h
  | cons a s ih =>
    rw [List.takeWhile_cons]
    split
    · rename_i ha
      intro h
      rcases List.mem_cons.mp h with e | e
      · rw [← e] at ha; simp at ha
      · exact ih e
    · intro h; cases h

theorem drop_head (s r : Text) (c : Nat) (h : s.dropWhile (· != 123) = c :: r) : c = 123 := by
  induction s with
  | nil => cases h
  | cons a s ih =>
    rw [List.dropWhile_cons] at h
    split at h
    · exact ih h
    · rename_i ha; injection h with h _; rw [← h]; simp at ha; exact ha

theorem span_plain (t r : Text) (h : 123 ∉ t) :
    (t ++ 123 :: r).takeWhile (· != 123) = t ∧ (t ++ 123 :: r).dropWhile (· != 123) = 123 :: r := by
  refine span_eq _ t (123 :: r) (fun c hc => ?_) (fun c u e => ?_)
  · have : c ≠ 123 := fun e => h (e ▸ hc)
    simp [this]
  · injection e with e _; rw [← e]; rfl

theorem drop_plain (t : Text) (h : 123 ∉ t) : t.dropWhile (· != 123) = [] := by
  have := (span_eq (· != 123) t [] (fun c hc => by
    have : c ≠ 123 := fun e => h (e ▸ hc)
    simp [this]) (fun c u e => by cases e)).2
  rwa [List.append_nil] at this

theorem checkN_accepts (l : List (Text × Form)) (last : Text)
    (hl : ∀ e ∈ l, 123 ∉ e.1 ∧ Valid names e.2) (hlast : 123 ∉ last) (n : Nat)
    (hn : l.length < n) :
    checkN n (formatText l last) = some (l.map fun e => (e.1, repOf e.2), last) := by
  induction l generalizing n with
  | nil =>
    cases n with
    | zero => omega
    | succ n =>
      show checkN (n + 1) ([] ++ last) = _
      rw [List.nil_append, checkN, drop_plain last hlast]; rfl
  | cons a l ih =>
    cases n with
    | zero => omega
    | succ n =>
      obtain ⟨h1, h2⟩ := hl a List.mem_cons_self
      have hs := span_plain a.1 (formText a.2 ++ 125 :: formatText l last) h1
      rw [formatText_cons, checkN, hs.1, hs.2]
      simp only [form_accepted a.2 h2]
      rw [ih (fun e he => hl e (List.mem_cons_of_mem _ he)) n (by simp at hn; omega)]
      rfl

theorem checkN_sound (n : Nat) (s : Text) (f : Format) (h : checkN n s = some f) :
    ∃ (l : List (Text × Form)) (last : Text), (∀ e ∈ l, 123 ∉ e.1 ∧ Valid names e.2) ∧
      123 ∉ last ∧ s = formatText l last ∧ f = (l.map fun e => (e.1, repOf e.2), last) := by
  induction n generalizing s f with
  | zero => cases h
  | succ n ih =>
    unfold checkN at h
    split at h
    · rename_i hd
      cases h
      exact ⟨[], s, (fun e he => by cases he), no_brace s hd, rfl, rfl⟩
    · rename_i c r hd
      have hc := drop_head s r c hd
      cases hr : replacement r with
      | none => simp only [hr] at h; cases h
      | some xr =>
        obtain ⟨x, r2⟩ := xr
        simp only [hr] at h
        cases hk : checkN n r2 with
        | none => rw [hk] at h; cases h
        | some g =>
          rw [hk] at h
          cases h
          obtain ⟨l, last, h1, h2, h3, h4⟩ := ih r2 g hk
          obtain ⟨fm, f1, f2, f3⟩ := form_sound r r2 x hr
          refine ⟨(s.takeWhile (· != 123), fm) :: l, last, ?_, h2, ?_, ?_⟩
          · intro e he
            rcases List.mem_cons.mp he with e1 | e1
            · rw [e1]; exact ⟨take_no_brace s, f1⟩
            · exact h1 e e1
          · subst hc
            rw [formatText_cons, ← h3, ← f2, ← hd]
            exact (List.takeWhile_append_dropWhile).symm
          · rw [h4, f3]; rfl

theorem format_long (l : List (Text × Form)) (last : Text) :
    l.length ≤ (formatText l last).length := by
  induction l with
  | nil => exact Nat.zero_le _
  | cons a l ih =>
    rw [formatText_cons]
    simp only [List.length_append, List.length_cons]
    omega

/-- `check_format` accepts exactly the formats of the grammar: text without
`{` and forms in braces. -/
theorem check_iff (s : Text) (f : Format) : check s = some f ↔
    ∃ (l : List (Text × Form)) (last : Text), (∀ e ∈ l, 123 ∉ e.1 ∧ Valid names e.2) ∧
      123 ∉ last ∧ s = formatText l last ∧ f = (l.map fun e => (e.1, repOf e.2), last) := by
  constructor
  · exact checkN_sound _ s f
  · rintro ⟨l, last, h1, h2, rfl, rfl⟩
    exact checkN_accepts l last h1 h2 _ (by have := format_long l last; omega)

/-- `{t:.min}`: the entry of the table cannot be used. -/
theorem min_counterexample : check [123, 116, 58, 46, 109, 105, 110, 125] = none ∧
    (check [123, 116, 58, 46, 109, 125]).isSome = true := by decide +kernel

example : check [97, 123, 116, 58, 42, 94, 49, 50, 46, 110, 115, 125, 98] =
    some ([([97], ⟨116, 42, 94, 12, some ([110, 115], 1000000)⟩)], [98]) := by decide +kernel

example : Valid names ⟨116, true, .both 42 94, [49, 50], some [110, 115]⟩ :=
  ⟨by decide, (fun h => by cases h), ⟨by decide, by decide⟩, by decide,
    fun t h => by cases h; exact ⟨by decide, rfl⟩⟩

/-! ## Formats shown again -/

theorem number_snoc (t : Text) (c : Nat) : number (t ++ [c]) = number t * 10 + (c - 48) := by
  simp [number, List.foldl_append]

theorem decimal_number (n k : Nat) (h : k < 10 ^ n) : number (decimal n k) = k := by
  induction n generalizing k with
  | zero => rw [Nat.pow_zero] at h; rw [show k = 0 by omega]; rfl
  | succ n ih =>
    unfold decimal
    by_cases hk : k < 10
    · rw [if_pos hk]; simp [number]
    · rw [if_neg hk, number_snoc, ih (k / 10) (by rw [Nat.pow_succ] at h; omega)]; omega

theorem decimal_digits (n k : Nat) : ∀ c ∈ decimal n k, 48 ≤ c ∧ c ≤ 57 := by
  induction n generalizing k with
  | zero => intro c hc; cases hc
  | succ n ih =>
    intro c hc
    unfold decimal at hc
    split at hc
    · rw [List.mem_singleton.mp hc]; omega
    · rcases List.mem_append.mp hc with h | h
      · exact ih _ c h
      · rw [List.mem_singleton.mp h]; omega

theorem toInt_small (n : Nat) (h : n < 2 ^ 31) : toInt n = n := by
  unfold toInt
  simp only
  rw [if_pos (by omega : n < 2 ^ 63), Nat.mod_eq_of_lt (by omega), if_pos h]

/-- The form as which a replacement is shown. -/
def shownForm (f : Form) : Form :=
  ⟨f.var, true, .both (fillOf f.fa) (alignOf f.var f.fa),
    if number f.width = 0 then [] else decimal 10 (number f.width), f.prec⟩

theorem alignOf_mem (f : Form) (h : Valid names f) : alignOf f.var f.fa ∈ aligns := by
  have := h.fa
  obtain ⟨v, colon, fa, w, pr⟩ := f
  cases fa with
  | none => simp only [alignOf]; split <;> decide
  | align a => exact this
  | both c a => exact this.2

theorem fillOf_ne (f : Form) (h : Valid names f) : fillOf f.fa ≠ 125 := by
  have := h.fa
  obtain ⟨v, colon, fa, w, pr⟩ := f
  cases fa with
  | none => show (32 : Nat) ≠ 125; decide
  | align a => show (32 : Nat) ≠ 125; decide
  | both c a => exact this.1

theorem shown_valid (f : Form) (h : Valid names f) : Valid names (shownForm f) := by
  refine ⟨h.var, (fun hx => by cases hx), ⟨fillOf_ne f h, alignOf_mem f h⟩, ?_, h.prec⟩
  intro c hc
  simp only [shownForm] at hc
  split at hc
  · cases hc
  · exact decimal_digits _ _ c hc

theorem shown_same (f : Form) (hw : number f.width < 2 ^ 31) :
    repOf (shownForm f) = repOf f := by
  have e : number (shownForm f).width = number f.width := by
    simp only [shownForm]
    split
    · rename_i h; rw [h]; rfl
    · exact decimal_number 10 _ (by omega)
  unfold repOf
  rw [e]
  rfl

theorem precName_eq (t : Text) (h : t ∈ names) :
    (match precisions.find? (fun e => e.1 == t) with
      | some e => precName e.2
      | none => []) = 46 :: t := by
  simp only [names, List.mem_cons, List.not_mem_nil, or_false] at h
  rcases h with h | h | h | h | h | h | h | h <;> subst h <;> decide +kernel

theorem showRep_eq (f : Form) (h : Valid names f) (hw : number f.width < 2 ^ 31) :
    showRep (repOf f) = 123 :: (formText (shownForm f) ++ [125]) := by
  have hp := h.prec
  obtain ⟨v, colon, fa, w, pr⟩ := f
  have e1 : (if toInt (number w) > 0 then decimal 10 (toInt (number w)).toNat else []) =
      (if number w = 0 then [] else decimal 10 (number w)) := by
    have ht := toInt_small (number w) hw
    rw [ht]
    by_cases h0 : number w = 0
    · rw [if_pos h0, if_neg (by omega)]
    · rw [if_neg h0, if_pos (by omega)]; rfl
  have e2 : (match (pr.bind fun t => precisions.find? fun e => e.1 == t) with
      | some e => precName e.2
      | none => []) = precText pr := by
    cases pr with
    | none => rfl
    | some t => exact precName_eq t (hp t rfl).1
  show [123, v, 58, fillOf fa, alignOf v fa] ++
    ((if toInt (number w) > 0 then decimal 10 (toInt (number w)).toNat else []) ++
      ((match (pr.bind fun t => precisions.find? fun e => e.1 == t) with
        | some e => precName e.2
        | none => []) ++ [125])) = _
  rw [e1, e2]
  simp [formText, shownForm, faText]

/-- A format that was set, when asked for and set again, is the same, if the
widths are below 2^31. -/
theorem get_set (l : List (Text × Form)) (last : Text)
    (hl : ∀ e ∈ l, 123 ∉ e.1 ∧ Valid names e.2 ∧ number e.2.width < 2 ^ 31) (hlast : 123 ∉ last)
    (f : Format) (hf : check (formatText l last) = some f) :
    check (getFormat f) = some f := by
  have h1 := (check_iff (formatText l last) (l.map fun e => (e.1, repOf e.2), last)).mpr
    ⟨l, last, fun e he => ⟨(hl e he).1, (hl e he).2.1⟩, hlast, rfl, rfl⟩
  rw [hf] at h1
  cases h1
  refine (check_iff _ _).mpr ⟨l.map fun e => (e.1, shownForm e.2), last, ?_, hlast, ?_, ?_⟩
  · intro e he
    obtain ⟨x, hx, rfl⟩ := List.mem_map.mp he
    exact ⟨(hl x hx).1, shown_valid x.2 (hl x hx).2.1⟩
  · clear hf
    induction l with
    | nil => rfl
    | cons a l ih =>
      have ih := ih fun e he => hl e (List.mem_cons_of_mem _ he)
      obtain ⟨_, h2, h3⟩ := hl a List.mem_cons_self
      rw [List.map_cons, List.map_cons, formatText_cons, ← ih]
      simp [getFormat, showRep_eq a.2 h2 h3]
  · congr 1
    rw [List.map_map]
    apply List.map_congr_left
    intro e he
    show (e.1, repOf e.2) = (e.1, repOf (shownForm e.2))
    rw [shown_same e.2 (hl e he).2.2]

/-- A width of 4294967301 is taken as 5, one of 2147483648 as none. -/
theorem width_overflow_counterexample :
    toInt 4294967301 = 5 ∧ toInt 2147483648 < 0 := by decide +kernel

end Verif.Assert
