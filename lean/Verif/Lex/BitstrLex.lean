import Verif.Lex.BitstrModel
import Verif.Lex.BitstrSpec

/-
What the lexer leaves of a bit string literal.
-/

namespace Verif.Lex

/-- Without percent signs, what is written does not depend on the rest of the
    state. -/
theorem lexLoop_written (cs : List Char) : ∀ (same : Bool) (prev : Char), '%' ∉ cs →
    (lexLoop same prev cs).1 = cs.filter (· ≠ '_') := by
  induction cs with
  | nil => intro same prev _; rfl
  | cons c cs ih =>
    intro same prev h
    have hc : c ≠ '%' := fun e => h (by simp [e])
    have ht : '%' ∉ cs := fun e => h (by simp [e])
    rw [lexLoop, if_neg hc]
    by_cases hu : c = '_'
    · subst hu
      rw [if_neg (by simp)]
      have h1 : ('_' :: cs).filter (· ≠ '_') = cs.filter (· ≠ '_') := by simp
      split
      · rw [h1]; exact ih _ _ ht
      · split <;> (rw [h1]; exact ih _ _ ht)
    · rw [if_pos hu]
      have h1 : (c :: cs).filter (· ≠ '_') = c :: cs.filter (· ≠ '_') := by simp [hu]
      rw [h1]
      dsimp only
      rw [ih _ _ ht]

theorem Lexeme.text_written {l : Lexeme} (h1 : '%' ∉ l.text) (h2 : '_' ∉ l.length ++ l.sign ++ [l.base]) :
    (lexLoop true '\x00' l.text).1 =
      l.length ++ l.sign ++ [l.base, '"'] ++ l.value ++ ['"'] := by
  rw [lexLoop_written _ _ _ h1]
  have h3 : (l.length ++ l.sign ++ [l.base, '"']).filter (· ≠ '_') = l.length ++ l.sign ++ [l.base, '"'] := by
    rw [List.filter_eq_self]
    intro a ha
    simp only [ne_eq, decide_eq_true_eq]
    intro e
    subst e
    rcases List.mem_append.mp ha with ha | ha
    · exact h2 (by rcases List.mem_append.mp ha with ha | ha <;> simp [ha])
    · simp only [List.mem_cons, List.not_mem_nil, or_false] at ha
      rcases ha with ha | ha
      · exact h2 (by simp [← ha])
      · exact absurd ha (by decide)
  unfold Lexeme.text Lexeme.value
  rw [List.filter_append, List.filter_append, h3]
  rfl

/-- The error flag of the rest does not depend on where the buffer is written. -/
theorem lexLoop_flag (cs : List Char) : ∀ (same same' : Bool) (prev : Char), '%' ∉ cs →
    (lexLoop same prev cs).2 = (lexLoop same' prev cs).2 := by
  induction cs with
  | nil => intros; rfl
  | cons c cs ih =>
    intro same same' prev h
    have hc : c ≠ '%' := fun e => h (by simp [e])
    have ht : '%' ∉ cs := fun e => h (by simp [e])
    rw [lexLoop, lexLoop, if_neg hc, if_neg hc]
    by_cases hu : c = '_'
    · have hn : ¬ (c ≠ '_') := by simp [hu]
      simp only [if_neg hn]
    · simp only [if_pos hu]
      exact ih _ _ _ ht

/-- The part before the value has no underscores and no quotation marks but the
    last. -/
theorem lexLoop_prefix (pre : List Char) : ∀ (same : Bool) (prev : Char) (rest : List Char),
    '%' ∉ pre → '_' ∉ pre → '%' ∉ rest →
    (lexLoop same prev (pre ++ '"' :: rest)).2 = (lexLoop true '"' rest).2 := by
  induction pre with
  | nil =>
    intro same prev rest _ _ h
    rw [List.nil_append, lexLoop, if_neg (by decide), if_pos (by decide)]
    exact lexLoop_flag _ _ _ _ h
  | cons c cs ih =>
    intro same prev rest h1 h2 h3
    rw [List.cons_append, lexLoop, if_neg (fun e => h1 (by simp [e])),
      if_pos (fun e => h2 (by simp [e]))]
    exact ih _ _ _ (fun e => h1 (by simp [e])) (fun e => h2 (by simp [e])) h3

/-- The flag for the value: whether an underscore comes after a quotation mark or
    an underscore, or before a quotation mark. -/
theorem lexLoop_body (body : List Char) : ∀ (prev : Char), '%' ∉ body → '"' ∉ body →
    ((lexLoop true prev (body ++ ['"'])).2 = false ↔
      ∀ (i : Nat), body[i]? = some '_' →
        ((prev :: body)[i]? ≠ some '_' ∧ (prev :: body)[i]? ≠ some '"') ∧
          body[i + 1]? ≠ none) := by
  induction body with
  | nil =>
    intro prev _ _
    simp [lexLoop]
  | cons c cs ih =>
    intro prev h1 h2
    have hc : c ≠ '%' := fun e => h1 (by simp [e])
    have hq : c ≠ '"' := fun e => h2 (by simp [e])
    have ht : '%' ∉ cs := fun e => h1 (by simp [e])
    have htq : '"' ∉ cs := fun e => h2 (by simp [e])
    have ih' := ih c ht htq
    have hrest : '%' ∉ cs ++ ['"'] := by simp [ht]
    have key : (∀ (i : Nat), (c :: cs)[i]? = some '_' →
        ((prev :: c :: cs)[i]? ≠ some '_' ∧ (prev :: c :: cs)[i]? ≠ some '"') ∧
          (c :: cs)[i + 1]? ≠ none) ↔
        (c = '_' → (prev ≠ '_' ∧ prev ≠ '"') ∧ cs ≠ []) ∧
        (∀ (i : Nat), cs[i]? = some '_' →
          ((c :: cs)[i]? ≠ some '_' ∧ (c :: cs)[i]? ≠ some '"') ∧ cs[i + 1]? ≠ none) := by
      constructor
      · intro h
        refine ⟨fun e => ?_, fun i hi => ?_⟩
        · have := h 0 (by simp [e])
          simpa using this
        · have := h (i + 1) (by simpa using hi)
          simpa using this
      · rintro ⟨h0, hs⟩ i hi
        cases i with
        | zero => simpa using h0 (by simpa using hi)
        | succ i => simpa using hs i (by simpa using hi)
    rw [key, ← ih', List.cons_append, lexLoop, if_neg hc]
    by_cases hu : c = '_'
    · subst hu
      rw [if_neg (by simp)]
      have hhead : (cs ++ ['"']).head? = some '"' ↔ cs = [] := by
        cases cs with
        | nil => simp
        | cons d ds =>
          simp only [List.cons_append, List.head?_cons, Option.some.injEq, reduceCtorEq, iff_false]
          intro e
          exact htq (by simp [e])
      rw [lexLoop_flag _ false true _ hrest]
      simp only [hhead]
      by_cases hp : prev = '"' ∨ cs = []
      · rw [if_pos hp]
        simp only [Bool.true_eq_false, false_iff, not_and]
        intro h
        have := h trivial
        rcases hp with hp | hp
        · exact absurd hp this.1.2
        · exact absurd hp this.2
      · rw [if_neg hp]
        by_cases hp2 : prev = '_'
        · rw [if_pos hp2]
          simp [hp2]
        · rw [if_neg hp2]
          simp only [not_or] at hp
          simp [hp2, hp.1, hp.2]
    · rw [if_pos hu]
      simp [hu]

theorem spaced_iff {body : List Char} (h : '"' ∉ body) :
    (∀ (i : Nat), body[i]? = some '_' →
        (('"' :: body)[i]? ≠ some '_' ∧ ('"' :: body)[i]? ≠ some '"') ∧
          body[i + 1]? ≠ none) ↔ Spaced body := by
  constructor
  · intro hh i hi
    obtain ⟨⟨h1, h2⟩, h3⟩ := hh i hi
    constructor
    · cases i with
      | zero => simp at h2
      | succ i =>
        have hl : i < body.length := by
          have := (List.getElem?_eq_some_iff.mp hi).1
          omega
        refine ⟨body[i], by omega, ?_, ?_⟩
        · simp [hl]
        · intro e
          apply h1
          simp [hl, e]
    · cases hb : body[i + 1]? with
      | none => exact absurd hb h3
      | some c =>
        refine ⟨c, rfl, ?_⟩
        rintro rfl
        have := (hh (i + 1) hb).1.1
        simp only [List.getElem?_cons_succ] at this
        exact this hi
  · intro hs i hi
    obtain ⟨⟨c, h0, h1, h2⟩, ⟨d, h3, h4⟩⟩ := hs i hi
    refine ⟨?_, by simp [h3]⟩
    cases i with
    | zero => omega
    | succ i =>
      simp only [Nat.add_sub_cancel] at h1
      simp only [List.getElem?_cons_succ, h1]
      refine ⟨by simpa using h2, ?_⟩
      intro e
      cases Option.some.inj e
      exact h (List.mem_of_getElem? h1)

end Verif.Lex
