import Verif.Mangle.Model

/-
Property C93, first part: the codes of types and signatures can be read back.
-/

namespace Verif.Mangle

open Spec

/-! ## Decimal numbers -/

def digVal (c : Char) : Nat := c.toNat - 48

/-- Reads a number. -/
def rd (a : Nat) : List Char → Nat × List Char
  | [] => (a, [])
  | c :: l => if Digit c then rd (10 * a + digVal c) l else (a, c :: l)

theorem digit_ofNat {n : Nat} (h : n < 10) : Digit (Char.ofNat (48 + n)) ∧ digVal (Char.ofNat (48 + n)) = n := by
  have : ∀ n < 10, Digit (Char.ofNat (48 + n)) ∧ digVal (Char.ofNat (48 + n)) = n := by decide
  exact this n h

theorem rd_decLoop (r : List Char) : ∀ (f n : Nat) (acc : List Char), n < f →
    rd 0 (decLoop f n acc ++ r) = rd n (acc ++ r) := by
  intro f
  induction f with
  | zero => intro n acc h; omega
  | succ f ih =>
    intro n acc h
    rw [decLoop]
    split
    · rename_i h1
      obtain ⟨h2, h3⟩ := digit_ofNat h1
      simp only [List.cons_append, rd, h2, if_true, h3]
      congr 1
      omega
    · rename_i h1
      obtain ⟨h2, h3⟩ := digit_ofNat (Nat.mod_lt n (by decide : 0 < 10))
      rw [ih _ _ (by omega)]
      simp only [List.cons_append, rd, h2, if_true, h3]
      congr 1
      omega

theorem rd_stop {c : Char} {l : List Char} {a : Nat} (h : ¬ Digit c) : rd a (c :: l) = (a, c :: l) := by
  simp [rd, h]

theorem rd_decText {n : Nat} {c : Char} {l : List Char} (h : ¬ Digit c) :
    rd 0 (decText n ++ c :: l) = (n, c :: l) := by
  rw [decText, rd_decLoop _ _ _ _ (Nat.lt_succ_self n), List.nil_append, rd_stop h]

theorem decLoop_head : ∀ (f n : Nat) (acc : List Char), n < f →
    ∃ c l, decLoop f n acc = c :: l ∧ Digit c := by
  intro f
  induction f with
  | zero => intro n acc h; omega
  | succ f ih =>
    intro n acc h
    rw [decLoop]
    split
    · rename_i h1
      exact ⟨_, _, rfl, (digit_ofNat h1).1⟩
    · exact ih _ _ (by omega)

theorem decText_head (n : Nat) : ∃ c l, decText n = c :: l ∧ Digit c :=
  decLoop_head _ _ _ (Nat.lt_succ_self n)

/-! ## Types -/

theorem codeOf_mem {t : Ty} {c : Char} : ∀ {l : List (List Char × Char)}, codeOf t l = some c → (t, c) ∈ l := by
  intro l
  induction l with
  | nil => intro h; cases h
  | cons p l ih =>
    intro h
    obtain ⟨n, d⟩ := p
    rw [codeOf] at h
    split at h
    · rename_i h1
      cases h; subst h1
      exact List.mem_cons_self
    · exact List.mem_cons_of_mem _ (ih h)

theorem wellKnown_code {t : Ty} {c : Char} (h : (t, c) ∈ wellKnown) :
    ¬ Digit c ∧ c ≠ 's' ∧ c ≠ ')' ∧ c ≠ '.' ∧ c ≠ '-' ∧ c ≠ '$' := by
  have : ∀ p ∈ wellKnown, ¬ Digit p.2 ∧ p.2 ≠ 's' ∧ p.2 ≠ ')' ∧ p.2 ≠ '.' ∧ p.2 ≠ '-' ∧ p.2 ≠ '$' := by
    decide +kernel
  exact this _ h

theorem wellKnown_inj {t u : Ty} {c : Char} (h : (t, c) ∈ wellKnown) (h2 : (u, c) ∈ wellKnown) : t = u := by
  have : ∀ p ∈ wellKnown, ∀ q ∈ wellKnown, p.2 = q.2 → p.1 = q.1 := by decide +kernel
  exact this _ h _ h2 rfl

/-- The beginning of the code of a type. -/
theorem type_head (t : Ty) : ∃ c l, mangleOneType t = c :: l ∧
    c ≠ 's' ∧ c ≠ ')' ∧ c ≠ '.' ∧ c ≠ '-' ∧ c ≠ '$' := by
  unfold mangleOneType
  split
  · rename_i c h
    exact ⟨c, [], rfl, (wellKnown_code (codeOf_mem h)).2⟩
  · obtain ⟨c, l, h, hd⟩ := decText_head t.length
    refine ⟨c, l ++ t, by rw [h]; rfl, ?_, ?_, ?_, ?_, ?_⟩ <;> (rintro rfl; revert hd; decide)

/-- **Codes of types can be read back.** -/
theorem type_code_unique {t u : Ty} {r r' : List Char} (ht : TyWF t) (hu : TyWF u)
    (h : mangleOneType t ++ r = mangleOneType u ++ r') : t = u ∧ r = r' := by
  obtain ⟨a, t', rfl, ha⟩ := ht
  obtain ⟨b, u', rfl, hb⟩ := hu
  unfold mangleOneType at h
  split at h <;> split at h
  · rename_i _ c h1 _ d h2
    rw [List.singleton_append, List.singleton_append] at h
    injection h with h3 h4
    subst h3
    exact ⟨wellKnown_inj (codeOf_mem h1) (codeOf_mem h2), h4⟩
  · rename_i _ c h1 _ h2
    obtain ⟨d, l, h3, hd⟩ := decText_head (b :: u').length
    rw [h3] at h
    injection h with h4 _
    subst h4
    exact absurd hd (wellKnown_code (codeOf_mem h1)).1
  · rename_i _ h1 _ c h2
    obtain ⟨d, l, h3, hd⟩ := decText_head (a :: t').length
    rw [h3] at h
    injection h with h4 _
    subst h4
    exact absurd hd (wellKnown_code (codeOf_mem h2)).1
  · have h1 := congrArg (rd 0) h
    rw [List.append_assoc, List.append_assoc, List.cons_append, List.cons_append, rd_decText ha,
      rd_decText hb] at h1
    injection h1 with h2 h3
    have h4 : (a :: t') ++ r = (b :: u') ++ r' := h3
    have := List.append_inj h4 h2
    exact this

/-- The code of a type is the letter of the language's own types, or the length
and the name. -/
example : mangleOneType "STD.STANDARD.INTEGER".toList = ['I'] ∧
    mangleOneType "WORK.P.T".toList = "8WORK.P.T".toList ∧ TyWF "WORK.P.T".toList := by
  decide +kernel

/-- A library may begin with a digit (src/lib.c 525–528 allows it), and then
two different lists of types have the same codes. -/
theorem type_code_digit_counterexample :
    ∃ x y z : Ty, [(false, x), (false, z)] ≠ [(false, y)] ∧
      portsText [(false, x), (false, z)] = portsText [(false, y)] ∧
      x = "0AB.PAC.T".toList ∧ TyWF y ∧ TyWF z :=
  ⟨"0AB.PAC.T".toList,
   "AB.PAC.T80L.P.TTTTTTTTTTTTTTTTTTTTTTTTTTTTTTTTTTTTTTTTTTTTTTTTTTTTTTTTTTTTTTTTTTTTTTTTTTTT".toList,
   "L.P.TTTTTTTTTTTTTTTTTTTTTTTTTTTTTTTTTTTTTTTTTTTTTTTTTTTTTTTTTTTTTTTTTTTTTTTTTTTT".toList,
   by decide, by decide +kernel, rfl, by decide +kernel, by decide +kernel⟩

/-! ## Signatures -/

theorem ports_unique {ps qs : List (Bool × Ty)} {r r' : List Char}
    (hp : ∀ p ∈ ps, TyWF p.2) (hq : ∀ p ∈ qs, TyWF p.2)
    (h : portsText ps ++ ')' :: r = portsText qs ++ ')' :: r') : ps = qs ∧ r = r' := by
  induction ps generalizing qs with
  | nil =>
    cases qs with
    | nil => injection h with _ h; exact ⟨rfl, h⟩
    | cons q qs =>
      exfalso
      obtain ⟨sg, t⟩ := q
      obtain ⟨c, l, h1, h2, h3, _⟩ := type_head t
      cases sg
      · simp only [portsText, h1, Bool.false_eq_true, if_false, List.nil_append, List.cons_append] at h
        injection h with h4 _; exact h3 h4.symm
      · simp only [portsText, if_true, List.nil_append, List.cons_append] at h
        injection h with h4 _; revert h4; decide
  | cons p ps ih =>
    obtain ⟨sg, t⟩ := p
    have ht := hp (sg, t) List.mem_cons_self
    obtain ⟨c, l, h1, h2, h3, _⟩ := type_head t
    cases qs with
    | nil =>
      exfalso
      cases sg
      · simp only [portsText, h1, Bool.false_eq_true, if_false, List.nil_append, List.cons_append] at h
        injection h with h4 _; exact h3 h4
      · simp only [portsText, if_true, List.nil_append, List.cons_append] at h
        injection h with h4 _; revert h4; decide
    | cons q qs =>
      obtain ⟨sh, u⟩ := q
      have hu := hq (sh, u) List.mem_cons_self
      obtain ⟨d, m, h4, h5, h6, _⟩ := type_head u
      have key : ∀ (h : mangleOneType t ++ (portsText ps ++ ')' :: r) = mangleOneType u ++ (portsText qs ++ ')' :: r')),
          t = u ∧ ps = qs ∧ r = r' := by
        intro h
        obtain ⟨e1, e2⟩ := type_code_unique ht hu h
        obtain ⟨e3, e4⟩ := ih (fun p hm => hp p (List.mem_cons_of_mem _ hm))
          (fun p hm => hq p (List.mem_cons_of_mem _ hm)) e2
        exact ⟨e1, e3, e4⟩
      cases sg <;> cases sh
      · simp only [portsText, Bool.false_eq_true, if_false, List.nil_append, List.append_assoc] at h
        obtain ⟨e1, e2, e3⟩ := key h
        subst e1; subst e2; subst e3
        exact ⟨rfl, rfl⟩
      · exfalso
        simp only [portsText, h1, Bool.false_eq_true, if_false, if_true, List.nil_append, List.cons_append] at h
        injection h with h7 _; exact h2 h7
      · exfalso
        simp only [portsText, h4, Bool.false_eq_true, if_false, if_true, List.nil_append, List.cons_append] at h
        injection h with h7 _; exact h5 h7.symm
      · simp only [portsText, if_true, List.append_assoc, List.cons_append, List.nil_append] at h
        injection h with _ h
        obtain ⟨e1, e2, e3⟩ := key h
        subst e1; subst e2; subst e3
        exact ⟨rfl, rfl⟩

/-- What may follow a name or a whole subprogram: nothing, or a step further. -/
def Stop (r : List Char) : Prop := r = [] ∨ ∃ c l, r = c :: l ∧ (c = '.' ∨ c = '-')

theorem predef_unique {a b : Bool} {r r' : List Char} (hr : Stop r) (hr' : Stop r')
    (h : (if a then predefText else []) ++ r = (if b then predefText else []) ++ r') : a = b ∧ r = r' := by
  have hp : predefText = '$' :: "predef".toList := by decide
  have nd : ∀ {x y : List Char}, Stop x → x ≠ '$' :: y := by
    rintro x y (rfl | ⟨c, l, rfl, h | h⟩) <;> intro e <;> cases e <;> revert h <;> decide
  cases a <;> cases b
  · exact ⟨rfl, h⟩
  · simp only [Bool.false_eq_true, if_false, if_true, List.nil_append, hp, List.cons_append] at h
    exact absurd h (nd hr)
  · simp only [Bool.false_eq_true, if_false, if_true, List.nil_append, hp, List.cons_append] at h
    exact absurd h.symm (nd hr')
  · exact ⟨rfl, List.append_cancel_left h⟩

/-- What follows the parameters. -/
theorem result_unique {x y : Option Ty} {a b : Bool} {r r' : List Char} (hr : Stop r) (hr' : Stop r')
    (hx : ∀ t, x = some t → TyWF t) (hy : ∀ t, y = some t → TyWF t)
    (h : resultText x ++ ((if a then predefText else []) ++ r) =
      resultText y ++ ((if b then predefText else []) ++ r')) :
    x = y ∧ a = b ∧ r = r' := by
  have hp : predefText = '$' :: "predef".toList := by decide
  have no : ∀ {t : Ty} {z w : List Char} {b : Bool}, Stop w →
      mangleOneType t ++ z ≠ (if b then predefText else []) ++ w := by
    intro t z w b hw e
    obtain ⟨c, l, h1, _, _, h2, h3, h4⟩ := type_head t
    rw [h1, List.cons_append] at e
    cases b
    · rcases hw with rfl | ⟨d, m, rfl, h | h⟩
      · cases e
      · injection e with e _; exact h2 (e.trans h)
      · injection e with e _; exact h3 (e.trans h)
    · rw [if_pos rfl, hp, List.cons_append] at e
      injection e with e _; exact h4 e
  cases x with
  | none =>
    cases y with
    | none =>
      obtain ⟨e1, e2⟩ := predef_unique hr hr' h
      exact ⟨rfl, e1, e2⟩
    | some u => exact absurd h.symm (no hr)
  | some t =>
    cases y with
    | none => exact absurd h (no hr')
    | some u =>
      obtain ⟨e1, e2⟩ := type_code_unique (hx t rfl) (hy u rfl) h
      obtain ⟨e3, e4⟩ := predef_unique hr hr' e2
      exact ⟨by rw [e1], e3, e4⟩

/-- The text of a signature, with and without parentheses. -/
theorem sigText_paren {s : Sig} (h : s.ports.length > 0 ∨ s.result.isSome) (r : List Char) :
    sigText s ++ r = '(' :: (portsText s.ports ++ ')' ::
      (resultText s.result ++
        ((if s.predef then predefText else []) ++ r))) := by
  have h2 : (decide (s.ports.length > 0) || s.result.isSome) = true := by simpa using h
  simp only [sigText, h2, if_true, List.append_assoc, List.cons_append, List.nil_append]

theorem sigText_none {s : Sig} (h : ¬ (s.ports.length > 0 ∨ s.result.isSome)) :
    s.ports = [] ∧ s.result = none ∧ sigText s = if s.predef then predefText else [] := by
  obtain ⟨ports, result, predef⟩ := s
  have h1 : ports = [] := by
    cases ports with
    | nil => rfl
    | cons p l => exact absurd (Or.inl (by simp)) h
  have h2 : result = none := by
    cases result with
    | none => rfl
    | some t => exact absurd (Or.inr rfl) h
  subst h1; subst h2
  refine ⟨rfl, rfl, ?_⟩
  simp [sigText, portsText, resultText]

/-- **Signatures can be read back.** -/
theorem sig_unique {s s' : Sig} {r r' : List Char} (hs : s.WF) (hs' : s'.WF) (hr : Stop r) (hr' : Stop r')
    (h : sigText s ++ r = sigText s' ++ r') : s = s' ∧ r = r' := by
  have no : ∀ {b : Bool} {w z : List Char}, Stop w → '(' :: z ≠ (if b then predefText else []) ++ w := by
    intro b w z hw e
    cases b
    · rcases hw with rfl | ⟨d, m, rfl, h | h⟩
      · cases e
      · injection e with e _; rw [← e] at h; revert h; decide
      · injection e with e _; rw [← e] at h; revert h; decide
    · have hp : predefText = '$' :: "predef".toList := by decide
      rw [if_pos rfl, hp, List.cons_append] at e
      injection e with e _; revert e; decide
  by_cases h1 : s.ports.length > 0 ∨ s.result.isSome
  · by_cases h2 : s'.ports.length > 0 ∨ s'.result.isSome
    · rw [sigText_paren h1, sigText_paren h2] at h
      injection h with _ h
      obtain ⟨e1, e2⟩ := ports_unique hs.1 hs'.1 h
      obtain ⟨e3, e4, e5⟩ := result_unique hr hr' hs.2 hs'.2 e2
      obtain ⟨p, q, t⟩ := s
      obtain ⟨p', q', t'⟩ := s'
      subst e1; subst e3; subst e4
      exact ⟨rfl, e5⟩
    · rw [sigText_paren h1, (sigText_none h2).2.2] at h
      exact absurd h (no hr')
  · by_cases h2 : s'.ports.length > 0 ∨ s'.result.isSome
    · rw [sigText_paren h2, (sigText_none h1).2.2] at h
      exact absurd h.symm (no hr)
    · obtain ⟨a1, a2, a3⟩ := sigText_none h1
      obtain ⟨b1, b2, b3⟩ := sigText_none h2
      rw [a3, b3] at h
      obtain ⟨e1, e2⟩ := predef_unique hr hr' h
      obtain ⟨p, q, t⟩ := s
      obtain ⟨p', q', t'⟩ := s'
      simp only at a1 a2 b1 b2 e1
      subst a1; subst a2; subst b1; subst b2; subst e1
      exact ⟨rfl, e2⟩

example : Sig.WF ⟨[(true, "WORK.P.T".toList), (false, "STD.STANDARD.INTEGER".toList)],
    some "STD.STANDARD.BOOLEAN".toList, true⟩ ∧ Stop ".G".toList := by
  refine ⟨⟨by decide +kernel, ?_⟩, Or.inr ⟨'.', ['G'], by decide, by decide⟩⟩
  intro t h; cases h; decide +kernel

end Verif.Mangle
