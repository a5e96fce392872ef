import Verif.Mangle.Props

/-
Property C93, second part: no two subprograms, types or regions of a design
have the same name.
-/

namespace Verif.Mangle

open Spec

/-! ## Names -/

theorem span_unique {P : Char → Prop} {cs ds r r' : List Char} (hc : ∀ c ∈ cs, ¬ P c) (hd : ∀ c ∈ ds, ¬ P c)
    (hr : r = [] ∨ ∃ c l, r = c :: l ∧ P c) (hr' : r' = [] ∨ ∃ c l, r' = c :: l ∧ P c)
    (h : cs ++ r = ds ++ r') : cs = ds ∧ r = r' := by
  induction cs generalizing ds with
  | nil =>
    cases ds with
    | nil => exact ⟨rfl, h⟩
    | cons d ds =>
      rcases hr with rfl | ⟨c, l, rfl, hp⟩
      · cases h
      · rw [List.nil_append, List.cons_append] at h
        injection h with h _
        subst h
        exact absurd hp (hd _ List.mem_cons_self)
  | cons c cs ih =>
    cases ds with
    | nil =>
      rcases hr' with rfl | ⟨d, l, rfl, hp⟩
      · cases h
      · rw [List.nil_append, List.cons_append] at h
        injection h with h _
        subst h
        exact absurd hp (hc _ List.mem_cons_self)
    | cons d ds =>
      rw [List.cons_append, List.cons_append] at h
      injection h with h1 h2
      obtain ⟨e1, e2⟩ := ih (fun c hm => hc c (List.mem_cons_of_mem _ hm))
        (fun c hm => hd c (List.mem_cons_of_mem _ hm)) h2
      exact ⟨by rw [h1, e1], e2⟩

/-- What may follow the text of an identifier. -/
def StopN (r : List Char) : Prop := r = [] ∨ ∃ c l, r = c :: l ∧ (c = '.' ∨ c = '-' ∨ c = '(' ∨ c = '$')

theorem StopN.delim {r : List Char} (h : StopN r) : r = [] ∨ ∃ c l, r = c :: l ∧ Delim c := by
  rcases h with h | ⟨c, l, h, h2⟩
  · exact Or.inl h
  · refine Or.inr ⟨c, l, h, ?_⟩
    rcases h2 with h2 | h2 | h2 | h2 <;> subst h2 <;> decide

/-- **The texts of identifiers can be read back.** -/
theorem name_unique {a b : Name} {r r' : List Char} (ha : a.WF) (hb : b.WF) (hr : StopN r) (hr' : StopN r')
    (h : identText a ++ r = identText b ++ r') : a = b ∧ r = r' := by
  have bd : ∀ {cs x : List Char} {c : Char}, (Name.basic cs).WF → Delim c → ∀ y, cs ++ x ≠ c :: y := by
    rintro (_ | ⟨d, cs⟩) x c ⟨h1, h2⟩ hc y e
    · exact h1 rfl
    · injection e with e _
      subst e
      exact h2 _ List.mem_cons_self hc
  cases a with
  | basic cs =>
    cases b with
    | basic ds =>
      obtain ⟨e1, e2⟩ := span_unique (P := Delim) ha.2 hb.2 hr.delim hr'.delim h
      exact ⟨by rw [e1], e2⟩
    | op ds => exact absurd h (bd ha (by decide) _)
    | ext ds => exact absurd h (bd ha (by decide) _)
  | op cs =>
    cases b with
    | basic ds => exact absurd h.symm (bd hb (by decide) _)
    | op ds =>
      simp only [identText, List.cons_append, List.append_assoc, List.nil_append] at h
      injection h with _ h
      obtain ⟨e1, e2⟩ := span_unique (P := (· = '"')) (fun c hm e => ha (e ▸ hm)) (fun c hm e => hb (e ▸ hm))
        (Or.inr ⟨_, _, rfl, rfl⟩) (Or.inr ⟨_, _, rfl, rfl⟩) h
      injection e2 with _ e2
      exact ⟨by rw [e1], e2⟩
    | ext ds =>
      injection h with h _; exact absurd h (by decide)
  | ext cs =>
    cases b with
    | basic ds => exact absurd h.symm (bd hb (by decide) _)
    | op ds =>
      injection h with h _; exact absurd h (by decide)
    | ext ds =>
      simp only [identText, List.cons_append, List.append_assoc, List.nil_append] at h
      injection h with _ h
      obtain ⟨e1, e2⟩ := span_unique (P := (· = '\\')) (fun c hm e => ha (e ▸ hm)) (fun c hm e => hb (e ▸ hm))
        (Or.inr ⟨_, _, rfl, rfl⟩) (Or.inr ⟨_, _, rfl, rfl⟩) h
      injection e2 with _ e2
      exact ⟨by rw [e1], e2⟩

/-! ## Extended identifiers -/

theorem undouble_doubled (b : List Char) : undouble (doubled b ++ ['\\']) = b ++ ['\\'] := by
  induction b with
  | nil => rfl
  | cons c b ih =>
    rw [doubled]
    split
    · rename_i h
      subst h
      simp only [List.cons_append, undouble, and_self, if_true, ih]
    · rename_i h
      rw [List.cons_append]
      cases hb : doubled b ++ ['\\'] with
      | nil => exact absurd hb (by simp)
      | cons d l =>
        rw [undouble, if_neg (fun e => h e.1), ← hb, ih]
        rfl

/-- **The lexer reads any extended identifier**: the identifier is the
text with backslashes around it. -/
theorem ext_id_correct (b : List Char) :
    parseExId ('\\' :: doubled b ++ ['\\']) = identText (.ext b) := by
  show '\\' :: undouble (doubled b ++ ['\\']) = _
  rw [undouble_doubled]
  rfl

example : parseExId "\\a\\\\b\\".toList = "\\a\\b\\".toList := by decide +kernel

/-! ## Paths -/

/-- The text of one step. -/
def stepText : Elem → List Char
  | .unit d n => (if d then '-' else '.') :: identText n
  | .sub n s => '.' :: (identText n ++ sigText s)

theorem enter_eq (pre : List Char) (e : Elem) : enter pre e = pre ++ stepText e := by
  cases e with
  | unit d n => simp [enter, identPrefix, stepText]
  | sub n s => simp [enter, mangleFunc, stepText]

theorem pathIdent_eq (lib : List Char) (es : List Elem) : pathIdent lib es = lib ++ es.flatMap stepText := by
  unfold pathIdent
  induction es generalizing lib with
  | nil => simp
  | cons e es ih => rw [List.foldl_cons, ih, enter_eq, List.flatMap_cons, List.append_assoc]

theorem stop_path (es : List Elem) : Stop (es.flatMap stepText) := by
  cases es with
  | nil => exact Or.inl rfl
  | cons e es =>
    rw [List.flatMap_cons]
    cases e with
    | unit d n =>
      cases d
      · exact Or.inr ⟨'.', _, rfl, Or.inl rfl⟩
      · exact Or.inr ⟨'-', _, rfl, Or.inr rfl⟩
    | sub n s => exact Or.inr ⟨'.', _, rfl, Or.inl rfl⟩

theorem Stop.toN {r : List Char} (h : Stop r) : StopN r := by
  rcases h with h | ⟨c, l, h, h2 | h2⟩
  · exact Or.inl h
  · exact Or.inr ⟨c, l, h, Or.inl h2⟩
  · exact Or.inr ⟨c, l, h, Or.inr (Or.inl h2)⟩

theorem stopN_sig {s : Sig} {r : List Char} (h : Stop r) : StopN (sigText s ++ r) := by
  by_cases h1 : s.ports.length > 0 ∨ s.result.isSome
  · rw [sigText_paren h1]
    exact Or.inr ⟨'(', _, rfl, by decide⟩
  · rw [(sigText_none h1).2.2]
    cases s.predef
    · exact h.toN
    · have hp : predefText = '$' :: "predef".toList := by decide
      rw [if_pos rfl, hp]
      exact Or.inr ⟨'$', _, rfl, by decide⟩

/-- A bare subprogram has no text after the name. -/
theorem sigText_bare {s : Sig} (h : s.bare = true) : sigText s = [] := by
  obtain ⟨p, q, t⟩ := s
  simp only [Sig.bare, Bool.and_eq_true, Bool.not_eq_true', List.isEmpty_iff, Option.isNone_iff_eq_none] at h
  obtain ⟨⟨rfl, rfl⟩, rfl⟩ := h
  rfl

/-- The signature of a step, if it shows. -/
def sigOf : Elem → Sig
  | .unit _ _ => ⟨[], none, false⟩
  | .sub _ s => s

def nameOf : Elem → Name
  | .unit _ n => n
  | .sub n _ => n

def dashOf : Elem → Bool
  | .unit d _ => d
  | .sub _ _ => false

theorem stepText_eq (e : Elem) : stepText e = (if dashOf e then '-' else '.') :: (identText (nameOf e) ++ sigText (sigOf e)) := by
  cases e with
  | unit d n =>
    have : sigText ⟨[], none, false⟩ = [] := rfl
    cases d <;> simp [stepText, dashOf, nameOf, sigOf, this]
  | sub n s => rfl

theorem key_eq (e : Elem) : e.key = (dashOf e, nameOf e, if (sigOf e).bare then none else some (sigOf e)) := by
  cases e <;> rfl

theorem wf_parts {e : Elem} (h : e.WF) : (nameOf e).WF ∧ (sigOf e).WF := by
  cases e with
  | unit d n =>
    refine ⟨h, ?_, ?_⟩
    · intro p hm; cases hm
    · intro t ht; cases ht
  | sub n s => exact h

theorem steps_unique {es fs : List Elem} (he : ∀ e ∈ es, e.WF) (hf : ∀ e ∈ fs, e.WF)
    (h : es.flatMap stepText = fs.flatMap stepText) : es.map Elem.key = fs.map Elem.key := by
  induction es generalizing fs with
  | nil =>
    cases fs with
    | nil => rfl
    | cons f fs =>
      rw [List.flatMap_cons, stepText_eq] at h
      cases h
  | cons e es ih =>
    cases fs with
    | nil =>
      rw [List.flatMap_cons, stepText_eq] at h
      cases h
    | cons f fs =>
      obtain ⟨he1, he2⟩ := wf_parts (he e List.mem_cons_self)
      obtain ⟨hf1, hf2⟩ := wf_parts (hf f List.mem_cons_self)
      rw [List.flatMap_cons, List.flatMap_cons, stepText_eq, stepText_eq, List.cons_append, List.cons_append,
        List.append_assoc, List.append_assoc] at h
      injection h with h1 h2
      have h3 : dashOf e = dashOf f := by
        cases hx : dashOf e <;> cases hy : dashOf f
        · rfl
        · rw [hx, hy] at h1; revert h1; decide
        · rw [hx, hy] at h1; revert h1; decide
        · rfl
      obtain ⟨e1, e2⟩ := name_unique he1 hf1 (stopN_sig (stop_path es)) (stopN_sig (stop_path fs)) h2
      obtain ⟨e3, e4⟩ := sig_unique he2 hf2 (stop_path es) (stop_path fs) e2
      rw [List.map_cons, List.map_cons, key_eq, key_eq, h3, e1, e3,
        ih (fun x hm => he x (List.mem_cons_of_mem _ hm)) (fun x hm => hf x (List.mem_cons_of_mem _ hm)) e4]

/-- **No two things of a design have the same name.** The names of two paths
are equal only if the libraries are, and every step is the same: the same
region, or the same designator with parameters of the same classes and types,
the same result and both predefined or neither. -/
theorem mangle_unique {lib lib' : List Char} {es fs : List Elem}
    (hl : (Name.basic lib).WF) (hl' : (Name.basic lib').WF)
    (he : ∀ e ∈ es, e.WF) (hf : ∀ e ∈ fs, e.WF)
    (h : pathIdent lib es = pathIdent lib' fs) : lib = lib' ∧ es.map Elem.key = fs.map Elem.key := by
  rw [pathIdent_eq, pathIdent_eq] at h
  obtain ⟨e1, e2⟩ := name_unique hl hl' (stop_path es).toN (stop_path fs).toN h
  injection e1 with e1
  exact ⟨e1, steps_unique he hf e2⟩

/-- And the name depends on nothing else. -/
theorem mangle_complete {lib : List Char} {es fs : List Elem} (h : es.map Elem.key = fs.map Elem.key) :
    pathIdent lib es = pathIdent lib fs := by
  rw [pathIdent_eq, pathIdent_eq]
  congr 1
  induction es generalizing fs with
  | nil =>
    cases fs with
    | nil => rfl
    | cons f fs => cases h
  | cons e es ih =>
    cases fs with
    | nil => cases h
    | cons f fs =>
      rw [List.map_cons, List.map_cons] at h
      injection h with h1 h2
      rw [List.flatMap_cons, List.flatMap_cons, ih h2, stepText_eq, stepText_eq]
      rw [key_eq, key_eq] at h1
      injection h1 with h3 h4
      injection h4 with h4 h5
      rw [h3, h4]
      congr 3
      by_cases hx : (sigOf e).bare = true
      · by_cases hy : (sigOf f).bare = true
        · rw [sigText_bare hx, sigText_bare hy]
        · rw [if_pos hx, if_neg hy] at h5; cases h5
      · by_cases hy : (sigOf f).bare = true
        · rw [if_neg hx, if_pos hy] at h5; cases h5
        · rw [if_neg hx, if_neg hy] at h5
          injection h5 with h5
          rw [h5]

/-- A function nested in a function of a package, of names of all three
kinds. -/
def examplePath : List Elem :=
  [.unit false (.basic "P".toList),
   .sub (.op "+".toList) ⟨[(false, "WORK.P.T".toList), (true, "STD.STANDARD.BIT".toList)], some "WORK.P.T".toList, false⟩,
   .sub (.ext "a.b(".toList) ⟨[], none, false⟩]

example : (∀ e ∈ examplePath, e.WF) ∧ (Name.basic "WORK".toList).WF ∧
    pathIdent "WORK".toList examplePath = "WORK.P.\"+\"(8WORK.P.TsJ)8WORK.P.T.\\a.b(\\".toList := by
  refine ⟨?_, by decide +kernel, by decide +kernel⟩
  intro e hm
  simp only [examplePath, List.mem_cons, List.not_mem_nil, or_false] at hm
  rcases hm with rfl | rfl | rfl
  · unfold Elem.WF; decide +kernel
  · refine ⟨by decide +kernel, by decide +kernel, ?_⟩
    intro t ht; cases ht; decide +kernel
  · refine ⟨by decide +kernel, ?_, ?_⟩
    · intro p hp; cases hp
    · intro t ht; cases ht

/-- The name of a function differs from that of the predefined one, of a
procedure, and of a function with a signal parameter. -/
example (pre n : List Char) (t : Ty) :
    mangleFunc pre n ⟨[(false, t)], some t, false⟩ ≠ mangleFunc pre n ⟨[(false, t)], some t, true⟩ := by
  intro h
  have := congrArg List.length h
  simp [mangleFunc, sigText, predefText] at this

/-- The lexer leaves backslashes inside extended identifiers single, and then a
region `\B\` in a region `\A\` has the name of the extended
identifier `\A\\.\\B\`. -/
theorem mangle_ext_counterexample :
    ∃ es fs : List Elem, es.map Elem.key ≠ fs.map Elem.key ∧
      pathIdent "WORK".toList es = pathIdent "WORK".toList fs ∧
      (∀ e ∈ es, e.WF) ∧
      ∃ b, fs = [.unit false (.ext b)] ∧ parseExId "\\A\\\\.\\\\B\\".toList = identText (.ext b) := by
  refine ⟨[.unit false (.ext ['A']), .unit false (.ext ['B'])], [.unit false (.ext "A\\.\\B".toList)],
    by decide, by decide +kernel, ?_, _, rfl, by decide +kernel⟩
  intro e hm
  simp only [List.mem_cons, List.not_mem_nil, or_false] at hm
  rcases hm with rfl | rfl <;> (unfold Elem.WF; decide +kernel)

end Verif.Mangle
