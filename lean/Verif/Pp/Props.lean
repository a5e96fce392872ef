import Verif.Pp.Model

/-!
# C81: conditional analysis
-/

namespace Verif.Pp

variable {d : Defs}

/-! ## Strings -/

theorem strcmp_spec (a b : Str) : (strcmp a b = 0 ↔ a = b) ∧ (strcmp a b < 0 ↔ strLt a b = true) ∧
    (strcmp a b > 0 ↔ strLt b a = true) := by
  induction a generalizing b with
  | nil => cases b <;> simp [strcmp, strLt]
  | cons x a ih =>
    cases b with
    | nil => simp [strcmp, strLt]
    | cons y b =>
      unfold strcmp strLt
      by_cases h : x = y
      · subst h; simpa using ih b
      · by_cases hl : x < y
        · have : ¬ y < x := by omega
          simp [h, hl, this]
        · have : y < x := by omega
          simp [h, hl, this]

theorem relation_eq (v s : Str) (r : RelOp) : relation v s (some r) = some (r.eval v s) := by
  obtain ⟨h1, h2, h3⟩ := strcmp_spec v s
  cases r with
  | eq => simp only [relation, RelOp.eval, Option.some.injEq]
          rw [Bool.eq_iff_iff]; simpa using h1
  | ne => simp only [relation, RelOp.eval, Option.some.injEq]
          rw [Bool.eq_iff_iff]; simpa using not_congr h1
  | lt => simp only [relation, RelOp.eval, Option.some.injEq]
          rw [Bool.eq_iff_iff]; simpa using h2
  | gt => simp only [relation, RelOp.eval, Option.some.injEq]
          rw [Bool.eq_iff_iff]; simpa using h3
  | le =>
    simp only [relation, RelOp.eval, Option.some.injEq]
    rw [Bool.eq_iff_iff]
    simp only [decide_eq_true_eq, Bool.or_eq_true, beq_iff_eq, ← h1, ← h2]
    omega
  | ge =>
    simp only [relation, RelOp.eval, Option.some.injEq]
    rw [Bool.eq_iff_iff]
    simp only [decide_eq_true_eq, Bool.or_eq_true, beq_iff_eq, ← h1, ← h3]
    omega

/-! ## Expressions -/

mutual
/-- At most one operator at each level. -/
def Rel.short : Rel → Bool
  | .paren e => e.short
  | .not e => e.short
  | .cmp _ _ _ => true
def Expr.short : Expr → Bool
  | .one r => r.short
  | .chain _ r rs => r.short && rs.short
def Rels.short : Rels → Bool
  | .last r => r.short
  | .cons _ _ => false
end

def startsLog : List Tok → Bool
  | .log _ :: _ => true
  | _ => false

theorem combine_eq (o : LogOp) (a b : Bool) : combine o b a = o.eval a b := by
  cases o <;> cases a <;> cases b <;> rfl

theorem thenExpect_ok (t : Tok) (b : Bool) (ts : List Tok) :
    thenExpect t (b, 0, t :: ts) = (b, 0, ts) := by simp [thenExpect, expect]

mutual
theorem relM_ok (r : Rel) (hs : r.short = true) (hd : r.defined d = true) (n : Nat)
    (hn : r.toks.length ≤ n) (rest : List Tok) :
    relM d n (r.toks ++ rest) = (r.eval d, 0, rest) := by
  match r, n with
  | .paren e, 0 => simp [Rel.toks] at hn
  | .not e, 0 => simp [Rel.toks] at hn
  | .cmp _ _ _, 0 => simp [Rel.toks] at hn
  | .paren e, n + 1 =>
    simp only [Rel.toks, List.cons_append, List.append_assoc, relM, Rel.eval, List.nil_append]
    rw [exprM_ok e hs hd n (by simp [Rel.toks] at hn; omega) _ rfl, thenExpect_ok]
  | .not e, n + 1 =>
    simp only [Rel.toks, List.cons_append, List.append_assoc, relM, Rel.eval, List.nil_append,
      expect]
    rw [exprM_ok e hs hd n (by simp [Rel.toks] at hn; omega) _ rfl]
    exact thenExpect_ok _ _ _
  | .cmp m o s, n + 1 =>
    simp only [Rel.defined, Option.isSome_iff_exists] at hd
    obtain ⟨v, hv⟩ := hd
    simp only [Rel.toks, List.cons_append, List.nil_append, relM, cmpRel, Rel.eval, hv, Tok.relOp?,
      relation_eq]
theorem exprM_ok (e : Expr) (hs : e.short = true) (hd : e.defined d = true) (n : Nat)
    (hn : e.toks.length + 1 ≤ n) (rest : List Tok) (hr : startsLog rest = false) :
    exprM d n (e.toks ++ rest) = (e.eval d, 0, rest) := by
  match e, n with
  | _, 0 => omega
  | .one r, n + 1 =>
    simp only [Expr.toks] at hn
    simp only [Expr.toks, exprM, Expr.eval]
    rw [relM_ok r hs hd n (by omega)]
    dsimp only
    cases rest with
    | nil => rfl
    | cons t ts => cases t <;> simp [startsLog] at hr ⊢
  | .chain o r (.last r2), n + 1 =>
    simp only [Expr.short, Rels.short, Bool.and_eq_true] at hs
    simp only [Expr.defined, Rels.defined, Bool.and_eq_true] at hd
    simp only [Expr.toks, Rels.toks, List.length_append, List.length_cons] at hn
    simp only [Expr.toks, Rels.toks, exprM, Expr.eval, Rels.eval, List.append_assoc,
      List.cons_append]
    rw [relM_ok r hs.1 hd.1 n (by omega)]
    dsimp only
    rw [relM_ok r2 hs.2 hd.2 n (by omega)]
    dsimp only
    rw [combine_eq]
  | .chain o r (.cons _ _), n + 1 => simp [Expr.short, Rels.short] at hs
end

/-- An expression with at most one operator at each level has the value that the standard gives it
and causes no error. -/
theorem expr_partial (e : Expr) (hs : e.short = true) (hd : e.defined d = true) (rest : List Tok)
    (hr : startsLog rest = false) : expr d (e.toks ++ rest) = (e.eval d, 0, rest) :=
  exprM_ok e hs hd _ (by simp; omega) rest hr

/-! ## Directives -/

mutual
/-- Expressions are short, their identifiers are defined, tokens are not directives, and no token
`if` follows an `` `end `` without one. -/
def Items.ok (d : Defs) : Items → Bool
  | .nil => true
  | .tok t rest => !t.directive && rest.ok d
  | .msg _ _ rest => rest.ok d
  | .cond e body alt endIf rest => e.short && e.defined d && body.ok d && alt.ok d &&
    (endIf || rest.toks.head? != some .if_) && rest.ok d
def Alt.ok (d : Defs) : Alt → Bool
  | .none => true
  | .els body => body.ok d
  | .elsif e body alt => e.short && e.defined d && body.ok d && alt.ok d
end

theorem Steps.trans {st ts o st1 ts1 o1 st2 ts2} (h : Steps d st ts o st1 ts1)
    (h1 : Steps d st1 ts1 o1 st2 ts2) : Steps d st ts (o ++ o1) st2 ts2 := by
  induction h with
  | refl => exact h1
  | cons h _ ih => rw [List.append_assoc]; exact .cons h (ih h1)

theorem active_cons (c : Cond) (st : List Cond) : active (c :: st) = c.result := rfl

theorem step_tok (st : List Cond) (t : Tok) (ts : List Tok) (h : t.directive = false) :
    step d st (t :: ts) = some (st, ts, if active st then [.tok t] else []) := by
  cases t <;> simp [Tok.directive] at h <;> rfl

theorem step_if (st : List Cond) (e : Expr) (hs : e.short = true) (hd : e.defined d = true)
    (ts : List Tok) : step d st (.condIf :: (e.toks ++ .then_ :: ts)) =
      some ((if active st then ⟨e.eval d, e.eval d⟩ else ⟨false, true⟩) :: st, ts, []) := by
  simp only [step]
  rw [expr_partial e hs hd _ rfl, thenExpect_ok]
  rfl

theorem step_elsif (c : Cond) (st : List Cond) (e : Expr) (hs : e.short = true)
    (hd : e.defined d = true) (ts : List Tok) :
    step d (c :: st) (.condElsif :: (e.toks ++ .then_ :: ts)) =
      some ((if c.taken then ⟨false, c.taken⟩ else ⟨e.eval d, e.eval d⟩) :: st, ts, []) := by
  simp only [step]
  rw [expr_partial e hs hd _ rfl, thenExpect_ok]
  rfl

theorem step_end (c : Cond) (st : List Cond) (endIf : Bool) (ts : List Tok)
    (h : endIf = true ∨ ts.head? ≠ some .if_) :
    step d (c :: st) (.condEnd :: ((if endIf then [.if_] else []) ++ ts)) = some (st, ts, []) := by
  cases endIf with
  | true => rfl
  | false =>
    simp at h
    cases ts with
    | nil => rfl
    | cons t ts => cases t <;> simp at h ⊢ <;> rfl

theorem step_msg (st : List Cond) (w : Bool) (s : Str) (ts : List Tok) :
    step d st ((if w then .condWarn else .condError) :: .str s :: ts) =
      some (st, ts, if active st then [.msg w s] else []) := by
  cases w <;> rfl

mutual
theorem items_steps (it : Items) (hok : it.ok d = true) (st : List Cond) (rest : List Tok)
    (hr : rest.head? ≠ some .if_) :
    Steps d st (it.toks ++ rest) (if active st then it.out d else []) st rest := by
  match it with
  | .nil =>
    simp only [Items.toks, Items.out, List.nil_append, ite_self]
    exact .refl _ _
  | .tok t r =>
    simp only [Items.ok, Bool.and_eq_true, Bool.not_eq_true'] at hok
    have := Steps.cons (step_tok (d := d) st t (r.toks ++ rest) hok.1) (items_steps r hok.2 st rest hr)
    simp only [Items.toks, List.cons_append, Items.out]
    cases h : active st <;> simpa [h] using this
  | .msg w s r =>
    simp only [Items.ok] at hok
    have := Steps.cons (step_msg (d := d) st w s (r.toks ++ rest)) (items_steps r hok st rest hr)
    simp only [Items.toks, List.cons_append, Items.out]
    cases h : active st <;> simpa [h] using this
  | .cond e body alt endIf r =>
    simp only [Items.ok, Bool.and_eq_true] at hok
    obtain ⟨⟨⟨⟨⟨h1, h2⟩, h3⟩, h4⟩, h5⟩, h6⟩ := hok
    have hne : endIf = true ∨ (r.toks ++ rest).head? ≠ some .if_ := by
      rcases Bool.or_eq_true_iff.1 h5 with h | h
      · exact .inl h
      · right
        cases hr' : r.toks with
        | nil => exact hr
        | cons a l => rw [hr'] at h; simpa using h
    generalize hc : (if active st then (⟨e.eval d, e.eval d⟩ : Cond) else ⟨false, true⟩) = c
    have s1 := step_if st e h1 h2 (body.toks ++ (alt.toks ++
      .condEnd :: ((if endIf then [.if_] else []) ++ (r.toks ++ rest))))
    rw [hc] at s1
    obtain ⟨c', s3⟩ := alt_steps alt h4 c st
      (.condEnd :: ((if endIf then [.if_] else []) ++ (r.toks ++ rest))) (by simp)
    have s2 := items_steps body h3 (c :: st) (alt.toks ++
      .condEnd :: ((if endIf then [.if_] else []) ++ (r.toks ++ rest))) (by
        cases alt <;> simp [Alt.toks])
    have s4 := step_end (d := d) c' st endIf (r.toks ++ rest) hne
    have s5 := items_steps r h6 st rest hr
    have all := Steps.cons s1 (s2.trans (s3.trans (.cons s4 s5)))
    have e1 : (Items.cond e body alt endIf r).toks ++ rest =
        .condIf :: (e.toks ++ .then_ :: (body.toks ++ (alt.toks ++
          .condEnd :: ((if endIf then [.if_] else []) ++ (r.toks ++ rest))))) := by
      simp [Items.toks]
    rw [e1]
    subst hc
    simp only [Items.out]
    cases h : active st with
    | false => simpa [h, active_cons] using all
    | true => cases he : e.eval d <;> simpa [h, he, active_cons] using all
theorem alt_steps (alt : Alt) (hok : alt.ok d = true) (c : Cond) (st : List Cond) (rest : List Tok)
    (hr : rest.head? ≠ some .if_) :
    ∃ c', Steps d (c :: st) (alt.toks ++ rest) (if c.taken then [] else alt.out d) (c' :: st) rest := by
  match alt with
  | .none =>
    simp only [Alt.toks, Alt.out, List.nil_append, ite_self]
    exact ⟨c, .refl _ _⟩
  | .els body =>
    simp only [Alt.ok] at hok
    have s1 : step d (c :: st) (.condElse :: (body.toks ++ rest)) =
      some ({ c with result := !c.taken } :: st, body.toks ++ rest, []) := rfl
    have all := Steps.cons s1 (items_steps body hok _ rest hr)
    refine ⟨{ c with result := !c.taken }, ?_⟩
    simp only [Alt.toks, Alt.out, List.cons_append]
    cases h : c.taken <;> simpa [h, active_cons] using all
  | .elsif e body alt =>
    simp only [Alt.ok, Bool.and_eq_true] at hok
    obtain ⟨⟨⟨h1, h2⟩, h3⟩, h4⟩ := hok
    generalize hc : (if c.taken then (⟨false, c.taken⟩ : Cond) else ⟨e.eval d, e.eval d⟩) = c1
    have s1 := step_elsif c st e h1 h2 (body.toks ++ (alt.toks ++ rest))
    rw [hc] at s1
    have s2 := items_steps body h3 (c1 :: st) (alt.toks ++ rest) (by
        cases alt <;> simp [Alt.toks, hr])
    obtain ⟨c', s3⟩ := alt_steps alt h4 c1 st rest hr
    refine ⟨c', ?_⟩
    have all := Steps.cons s1 (s2.trans s3)
    have e1 : (Alt.elsif e body alt).toks ++ rest =
        .condElsif :: (e.toks ++ .then_ :: (body.toks ++ (alt.toks ++ rest))) := by
      simp [Alt.toks]
    rw [e1]
    subst hc
    simp only [Alt.out]
    cases h : c.taken with
    | true => simpa [h, active_cons] using all
    | false => cases he : e.eval d <;> simpa [h, he, active_cons] using all
end

/-- The steps are determined by the text. -/
theorem Steps.end_unique {st ts o1 st1 o2 st2} (h1 : Steps d st ts o1 st1 [])
    (h2 : Steps d st ts o2 st2 []) : o1 = o2 ∧ st1 = st2 := by
  generalize hn : ([] : List Tok) = e at h1
  induction h1 generalizing o2 with
  | refl =>
    subst hn
    cases h2 with
    | refl => exact ⟨rfl, rfl⟩
    | cons h _ => simp [step] at h
  | cons h _ ih =>
    cases h2 with
    | refl => simp [step] at h
    | cons h' hs =>
      rw [h] at h'
      simp at h'
      obtain ⟨rfl, rfl, rfl⟩ := h'
      obtain ⟨rfl, rfl⟩ := ih hs hn
      exact ⟨rfl, rfl⟩

/-- The parser gets exactly the tokens that the standard keeps, the messages are exactly those of
the parts that are kept, and there are no errors. -/
theorem reads_partial (it : Items) (hok : it.ok d = true) (out : List Ev) :
    Reads d it.toks out ↔ out = it.out d := by
  have h := items_steps it hok [] [] (by simp)
  simp only [List.append_nil, active, if_true] at h
  constructor
  · rintro ⟨st, o, h1, rfl⟩
    obtain ⟨rfl, rfl⟩ := h1.end_unique h
    simp [errs]
  · rintro rfl
    exact ⟨[], _, h, by simp [errs]⟩

/-! ## Example -/

private def defs : Defs := fun n => if n = 0 then some [50, 48] else if n = 1 then some [] else none

/-- `` `if A < "3" and B /= "" then 1 `elsif not (A = "20") then 2 `else 3 `if B = "" then 4
`end `end if 5 ``. -/
private def text : Items :=
  .cond (.chain .and (.cmp 0 .lt [51]) (.last (.cmp 1 .ne []))) (.tok (.other 1) .nil)
    (.elsif (.one (.not (.one (.cmp 0 .eq [50, 48])))) (.tok (.other 2) .nil)
      (.els (.tok (.other 3) (.cond (.one (.cmp 1 .eq [])) (.tok (.other 4) .nil) .none false .nil))))
    true (.tok (.other 5) .nil)

example : text.ok defs = true ∧ text.out defs = [.tok (.other 3), .tok (.other 4), .tok (.other 5)] ∧
    Reads defs text.toks [.tok (.other 3), .tok (.other 4), .tok (.other 5)] := by
  refine ⟨by decide +kernel, by decide +kernel, ?_⟩
  rw [reads_partial text (by decide +kernel)]
  decide +kernel

/-! ## Counterexamples -/

/-- With two operators, which the grammar in the comment of `pp_cond_analysis_expr` allows, there is
an error; the rest of the expression is taken for the text. -/
theorem chain_counterexample : ∃ (d : Defs) (it : Items) (out : List Ev),
    it = .cond (.chain .and (.cmp 0 .eq []) (.cons (.cmp 0 .eq []) (.last (.cmp 0 .eq []))))
      (.tok (.other 1) .nil) .none false .nil ∧
    Reads d it.toks out ∧ .error ∈ out ∧ .tok (.id 0) ∈ out ∧ it.out d = [.tok (.other 1)] := by
  refine ⟨fun _ => some [], _, _, rfl, ⟨_, _, .cons rfl (.cons rfl (.cons rfl (.cons rfl (.cons rfl
    (.cons rfl (.cons rfl (.refl _ _))))))), rfl⟩, ?_, ?_, ?_⟩
  · decide +kernel
  · decide +kernel
  · decide +kernel

/-- Two `` `else `` parts in one block are both kept, and there is no error. -/
theorem else_counterexample : ∃ (d : Defs),
    Reads d ([.condIf] ++ (Expr.one (.cmp 0 .ne [])).toks ++ [.then_, .other 1, .condElse, .other 2,
      .condElse, .other 3, .condEnd]) [.tok (.other 2), .tok (.other 3)] := by
  refine ⟨fun _ => some [], _, _, .cons rfl (.cons rfl (.cons rfl (.cons rfl (.cons rfl (.cons rfl
    (.cons rfl (.refl _ _))))))), rfl⟩

/-- An `if` statement after `` `end `` loses its `if`. -/
theorem if_counterexample : ∃ (d : Defs) (it : Items) (out : List Ev),
    it = .cond (.one (.cmp 0 .eq [])) .nil .none false (.tok .if_ (.tok (.other 1) .nil)) ∧
    Reads d it.toks out ∧ out = [.tok (.other 1)] ∧ it.out d = [.tok .if_, .tok (.other 1)] := by
  refine ⟨fun _ => some [], _, _, rfl, ⟨_, _, .cons rfl (.cons rfl (.cons rfl (.refl _ _))), rfl⟩, ?_, ?_⟩
  · decide +kernel
  · decide +kernel

/-- An expression in a part that is not kept is evaluated: an identifier that is not defined there is
an error. -/
theorem skipped_counterexample : ∃ (d : Defs) (it : Items) (out : List Ev),
    it = .cond (.one (.cmp 0 .eq [])) (.tok (.other 1) .nil)
      (.elsif (.one (.cmp 1 .eq [])) .nil .none) false .nil ∧
    Reads d it.toks out ∧ out = [.tok (.other 1), .error] ∧ it.out d = [.tok (.other 1)] := by
  refine ⟨fun n => if n = 0 then some [] else none, _, _, rfl,
    ⟨_, _, .cons rfl (.cons rfl (.cons rfl (.cons rfl (.refl _ _)))), rfl⟩, ?_, ?_⟩
  · decide +kernel
  · decide +kernel

end Verif.Pp
