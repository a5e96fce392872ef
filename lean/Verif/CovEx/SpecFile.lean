import Verif.CovEx.Props

/-
The file with the coverage specification, src/cov/cov-exclude.c:316-394, and
what it says about a scope, property C101.

Simplification: the six arrays are one list of entries; an array is the list of
its entries in order.
-/

namespace Verif.CovEx

open Spec

inductive Sel where
  | hierarchy | block | fsmType
  deriving DecidableEq

/-- "hierarchy" -/
def wHierarchy : Text := [104, 105, 101, 114, 97, 114, 99, 104, 121]
/-- "block" -/
def wBlock : Text := [98, 108, 111, 99, 107]
/-- "fsm_type" -/
def wFsmType : Text := [102, 115, 109, 95, 116, 121, 112, 101]

/-- The array of a command, src/cov/cov-exclude.c:355-374. -/
def selOf (k : Text) : Option Sel :=
  if k = wHierarchy then some .hierarchy
  else if k = wBlock then some .block
  else if k = wFsmType then some .fsmType
  else none

/-- An entry: whether it is included, the array, and the pattern. -/
structure Entry where
  incl : Bool
  sel : Sel
  pat : Text
  deriving DecidableEq

/-- Fatal errors. -/
inductive Fatal where
  | sign | invalid (k : Text) | missing (k : Text)
  deriving DecidableEq

/-- `+` or `-`, src/cov/cov-exclude.c:344-352. -/
def signOf : Text → Option (Bool × Text)
  | 43 :: k => some (true, k)
  | 45 :: k => some (false, k)
  | _ => none

/-- The loop over the tokens of a line, src/cov/cov-exclude.c:342-390; the
entries are appended to those before.  The number bounds the rounds. -/
def specToks : Nat → List Text → List Entry → Except Fatal (List Entry)
  | 0, _, acc => .ok acc
  | _, [], acc => .ok acc
  | n + 1, t :: ts, acc =>
    match signOf t with
    | none => .error .sign
    | some (b, k) =>
      match selOf k with
      | none => .error (.invalid k)
      | some s =>
        match ts with
        | [] => .error (.missing k)
        | h :: r => specToks n (r.drop 1) (acc ++ [⟨b, s, h.map upper⟩])

/-- The loop over the lines, src/cov/cov-exclude.c:331-391. -/
def specLines : List Text → List Entry → Except Fatal (List Entry)
  | [], acc => .ok acc
  | l :: ls, acc =>
    let ts := tokens [] (stripComment l)
    match specToks ts.length ts acc with
    | .error e => .error e
    | .ok acc => specLines ls acc

/-- The patterns of an array. -/
def patterns (b : Bool) (s : Sel) (es : List Entry) : List Text :=
  (es.filter fun e => e.incl == b && e.sel == s).map (·.pat)

/-- The arrays used for scopes. -/
def specFile (es : List Entry) : SpecFile :=
  ⟨patterns false .block es, patterns true .block es, patterns false .hierarchy es,
   patterns true .hierarchy es⟩

/-! ## Theorems -/

/-- How a command is written. -/
def word : Bool → Sel → Text
  | b, s => (if b then 43 else 45) ::
    (match s with
     | .hierarchy => wHierarchy
     | .block => wBlock
     | .fsmType => wFsmType)

/-- A line of a file: spaces and perhaps a command with a name, and perhaps a
comment. -/
structure Line where
  cmd : Option (Nat × Bool × Sel × Nat × Text)
  spaces : Nat
  comment : Option Text

/-- The end of a line. -/
def ending : Option Text → Text
  | none => [10]
  | some c => 35 :: c

def Line.text (l : Line) : Text :=
  (match l.cmd with
   | none => lineOf [] l.spaces
   | some (n, b, s, m, h) => lineOf [(n, word b s), (m, h)] l.spaces) ++
  ending l.comment

def Line.Ok (l : Line) : Prop :=
  match l.cmd with
  | none => True
  | some (_, _, _, _, h) => Word h

def Line.entry (l : Line) : Option Entry :=
  match l.cmd with
  | none => none
  | some (_, b, s, _, h) => some ⟨b, s, h.map upper⟩

theorem word_ok (b : Bool) (s : Sel) : Word (word b s) := by
  cases b <;> cases s <;> (unfold Word; decide)

theorem sign_word (b : Bool) (s : Sel) : ∃ k : Text, signOf (word b s) = some (b, k) ∧
    selOf k = some s := by
  cases b <;> cases s <;> exact ⟨_, rfl, by decide⟩

theorem strip_end (t : Text) (c : Nat) (r : Text) (hc : c = 35 ∨ c = 10) :
    stripComment (t ++ c :: r) = stripComment t := by
  unfold stripComment
  induction t with
  | nil => rcases hc with e | e <;> subst e <;> simp
  | cons a l ih =>
    simp only [List.cons_append, List.takeWhile_cons]
    rw [ih]

theorem line_tokens (l : Line) (h : l.Ok) :
    tokens [] (stripComment l.text) =
      match l.cmd with
      | none => []
      | some (_, b, s, _, h) => [word b s, h] := by
  obtain ⟨cmd, k, com⟩ := l
  have cut : ∀ t : Text, stripComment (t ++ ending com) = stripComment t := by
    intro t
    cases com with
    | none => exact strip_end t 10 [] (Or.inr rfl)
    | some c => exact strip_end t 35 c (Or.inl rfl)
  cases cmd with
  | none =>
    show tokens [] (stripComment (lineOf [] k ++ ending com)) = []
    rw [cut, strip_line [] k (fun e he => by cases he), tokens_line [] k (fun e he => by cases he)]
    rfl
  | some x =>
    obtain ⟨n, b, s, m, w⟩ := x
    have hw : ∀ e ∈ [(n, word b s), (m, w)], Word e.2 := by
      intro e he
      simp only [List.mem_cons, List.not_mem_nil, or_false] at he
      rcases he with e1 | e1 <;> subst e1
      · exact word_ok b s
      · exact h
    show tokens [] (stripComment (lineOf [(n, word b s), (m, w)] k ++ ending com)) = [word b s, w]
    rw [cut, strip_line _ k hw, tokens_line _ k hw]
    rfl

/-- A file with at most one command in each line is read as the list of its
commands, with the names in upper case. -/
theorem spec_lines (ls : List Line) (h : ∀ l ∈ ls, l.Ok) (acc : List Entry) :
    specLines (ls.map Line.text) acc = .ok (acc ++ ls.filterMap Line.entry) := by
  induction ls generalizing acc with
  | nil => simp [specLines]
  | cons l ls ih =>
    have ih := ih fun x hx => h x (List.mem_cons_of_mem _ hx)
    rw [List.map_cons, specLines, line_tokens l (h l List.mem_cons_self)]
    obtain ⟨cmd, k, com⟩ := l
    cases cmd with
    | none =>
      show specLines (ls.map Line.text) acc = _
      rw [ih]; rfl
    | some x =>
      obtain ⟨n, b, s, m, w⟩ := x
      obtain ⟨kk, h1, h2⟩ := sign_word b s
      have e : specToks 2 [word b s, w] acc = .ok (acc ++ [⟨b, s, w.map upper⟩]) := by
        simp [specToks, h1, h2]
      show (match specToks 2 [word b s, w] acc with
        | .error e => (Except.error e : Except Fatal (List Entry))
        | .ok acc => specLines (ls.map Line.text) acc) = _
      rw [e]
      show specLines (ls.map Line.text) (acc ++ [⟨b, s, w.map upper⟩]) = _
      rw [ih, List.append_assoc]
      rfl

example : specLines (([⟨some (0, true, .block, 1, [97]), 2, none⟩, ⟨none, 3, some [120]⟩,
    ⟨some (0, false, .hierarchy, 0, [98]), 0, some [43]⟩] : List Line).map Line.text) [] =
    .ok [⟨true, .block, [65]⟩, ⟨false, .hierarchy, [66]⟩] :=
  spec_lines _ (fun l hl => by
    simp only [List.mem_cons, List.not_mem_nil, or_false] at hl
    rcases hl with e | e | e <;> subst e <;> simp [Line.Ok, Word]) []

theorem mem_patterns (b : Bool) (s : Sel) (es : List Entry) (p : Text) :
    p ∈ patterns b s es ↔ (⟨b, s, p⟩ : Entry) ∈ es := by
  unfold patterns
  simp only [List.mem_map, List.mem_filter, Bool.and_eq_true, beq_iff_eq]
  constructor
  · rintro ⟨⟨b', s', p'⟩, ⟨h1, h2, h3⟩, h4⟩
    simp only at h2 h3 h4
    subst h2 h3 h4
    exact h1
  · intro h
    exact ⟨_, ⟨h, rfl, rfl⟩, rfl⟩

/-- What a file says about a scope of a block: it is covered if no command
excludes the block, and one includes the block, or none excludes the
hierarchy and one includes it.  The order of the lines does not matter. -/
theorem spec_emit (glob : Text → Text → Bool) (ls : List Line) (h : ∀ l ∈ ls, l.Ok) (b hier : Text) :
    ∃ es : List Entry, specLines (ls.map Line.text) [] = .ok es ∧
      (shouldEmit glob (some (specFile es)) (some b) hier = true ↔
        (∀ l ∈ ls, ∀ p : Text, l.entry = some ⟨false, .block, p⟩ → glob b p = false) ∧
        ((∃ l ∈ ls, ∃ p : Text, l.entry = some ⟨true, .block, p⟩ ∧ glob b p = true) ∨
         ((∀ l ∈ ls, ∀ p : Text, l.entry = some ⟨false, .hierarchy, p⟩ → glob hier p = false) ∧
          ∃ l ∈ ls, ∃ p : Text, l.entry = some ⟨true, .hierarchy, p⟩ ∧ glob hier p = true))) := by
  refine ⟨_, spec_lines ls h [], ?_⟩
  rw [(emit_iff glob _ b hier).2.1, List.nil_append]
  have all : ∀ (x : Bool) (s : Sel) (t : Text),
      (∀ p ∈ patterns x s (ls.filterMap Line.entry), glob t p = false) ↔
      ∀ l ∈ ls, ∀ p : Text, l.entry = some ⟨x, s, p⟩ → glob t p = false := by
    intro x s t
    constructor
    · intro hh l hl p hp
      exact hh p ((mem_patterns x s _ p).mpr (List.mem_filterMap.mpr ⟨l, hl, hp⟩))
    · intro hh p hp
      obtain ⟨l, hl, he⟩ := List.mem_filterMap.mp ((mem_patterns x s _ p).mp hp)
      exact hh l hl p he
  have ex : ∀ (x : Bool) (s : Sel) (t : Text),
      (∃ p ∈ patterns x s (ls.filterMap Line.entry), glob t p = true) ↔
      ∃ l ∈ ls, ∃ p : Text, l.entry = some ⟨x, s, p⟩ ∧ glob t p = true := by
    intro x s t
    constructor
    · rintro ⟨p, hp, hg⟩
      obtain ⟨l, hl, he⟩ := List.mem_filterMap.mp ((mem_patterns x s _ p).mp hp)
      exact ⟨l, hl, p, he, hg⟩
    · rintro ⟨l, hl, p, he, hg⟩
      exact ⟨p, (mem_patterns x s _ p).mpr (List.mem_filterMap.mpr ⟨l, hl, he⟩), hg⟩
  show (∀ p ∈ patterns false .block _, glob b p = false) ∧
    ((∃ p ∈ patterns true .block _, glob b p = true) ∨
      ((∀ p ∈ patterns false .hierarchy _, glob hier p = false) ∧
        ∃ p ∈ patterns true .hierarchy _, glob hier p = true)) ↔ _
  rw [all, ex, all, ex]

/-- Errors are fatal: no sign, an unknown command, and a missing name. -/
theorem spec_errors (t k : Text) (ts : List Text) (acc : List Entry) (n : Nat) (b : Bool) (s : Sel) :
    (signOf t = none → specToks (n + 1) (t :: ts) acc = .error .sign) ∧
    (selOf k = none → specToks (n + 1) (((if b then 43 else 45) :: k) :: ts) acc = .error (.invalid k)) ∧
    (specToks (n + 1) [word b s] acc = .error (.missing ((word b s).drop 1))) := by
  refine ⟨fun h => by simp [specToks, h], fun h => ?_, ?_⟩
  · cases b <;> simp [specToks, signOf, h]
  · cases b <;> cases s <;> rfl

/-- Only three words are commands. -/
theorem sel_iff (k : Text) (s : Sel) : selOf k = some s ↔ (43 :: k : Text) = word true s := by
  unfold selOf
  cases s <;> (
    constructor
    · intro h
      split at h
      · simp_all [word]
      · split at h
        · simp_all [word]
        · split at h <;> simp_all [word]
    · intro h
      have := (List.cons.inj h).2
      subst this
      decide)

/-- Two commands in a line end the program. -/
theorem spec_two_commands_counterexample :
    specLines [lineOf [(0, word true .block), (0, [65]), (0, word true .block), (0, [66])] 0] [] =
      .error .sign := by rfl

end Verif.CovEx
