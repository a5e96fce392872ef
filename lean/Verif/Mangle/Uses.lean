import Verif.Mangle.Paths

/-
Property C93, third part: what is computed from names: the context of a call,
the names of predefined operators, the names of copies, and symbols.
-/

namespace Verif.Mangle

open Spec

/-! ## The last occurrence of a character -/

theorem lastPos_none {c : Char} {x : List Char} (h : c ∉ x) (i : Nat) (e : Option Nat) :
    lastPos c x i e = e := by
  induction x generalizing i e with
  | nil => rfl
  | cons d x ih =>
    rw [lastPos, if_neg (fun hd : d = c => h (hd ▸ List.mem_cons_self)), ih (fun hm => h (List.mem_cons_of_mem _ hm))]

theorem lastPos_last {c : Char} {b : List Char} (h : c ∉ b) (a : List Char) (i : Nat) (e : Option Nat) :
    lastPos c (a ++ c :: b) i e = some (i + a.length) := by
  induction a generalizing i e with
  | nil => rw [List.nil_append, lastPos, if_pos rfl, lastPos_none h]; rfl
  | cons d a ih =>
    rw [List.cons_append, lastPos, ih, List.length_cons]
    congr 1
    omega

/-- Where the last one is. -/
theorem last_split {c : Char} {x : List Char} (h : c ∈ x) : ∃ a b, x = a ++ c :: b ∧ c ∉ b := by
  induction x with
  | nil => cases h
  | cons d x ih =>
    by_cases hx : c ∈ x
    · obtain ⟨a, b, rfl, hb⟩ := ih hx
      exact ⟨d :: a, b, rfl, hb⟩
    · cases h with
      | head => exact ⟨[], x, rfl, hx⟩
      | tail _ h => exact absurd h hx

theorem runtil_last {c : Char} {b : List Char} (h : c ∉ b) (a : List Char) : runtil (a ++ c :: b) c = a := by
  rw [runtil, lastPos_last h, Nat.zero_add]
  simp

theorem runtil_none {c : Char} {x : List Char} (h : c ∉ x) : runtil x c = x := by
  rw [runtil, lastPos_none h]

/-- `ident_runtil` gives what stands before a separator if what follows has none,
and only then. -/
theorem runtil_iff {c : Char} {a b : List Char} : runtil (a ++ c :: b) c = a ↔ c ∉ b := by
  constructor
  · intro h hm
    obtain ⟨x, y, rfl, hy⟩ := last_split hm
    have : a ++ c :: (x ++ c :: y) = (a ++ c :: x) ++ c :: y := by simp
    rw [this, runtil_last hy] at h
    have := congrArg List.length h
    simp at this
  · intro h
    exact runtil_last h a

/-! ## The context of a call -/

theorem contextLoop_eq (x : List Char) (i : Nat) (e : Option Nat) :
    contextLoop x i e = lastPos '.' (x.takeWhile (· ≠ '(')) i e := by
  induction x generalizing i e with
  | nil => rfl
  | cons c x ih =>
    rw [contextLoop]
    by_cases h : c = '('
    · rw [if_pos h, List.takeWhile_cons_of_neg (by simp [h])]
      rfl
    · rw [if_neg h, List.takeWhile_cons_of_pos (by simp [h]), lastPos]
      by_cases h2 : c = '.'
      · rw [if_pos h2, if_pos h2, ih]
      · rw [if_neg h2, if_neg h2, ih]

theorem sig_no_dot (s : Sig) : '.' ∉ (sigText s).takeWhile (· ≠ '(') := by
  by_cases h : s.ports.length > 0 ∨ s.result.isSome
  · have := sigText_paren h []
    rw [List.append_nil] at this
    rw [this, List.takeWhile_cons_of_neg (by simp)]
    exact List.not_mem_nil
  · rw [(sigText_none h).2.2]
    cases s.predef <;> decide

theorem takeWhile_app {p : Char → Bool} {x y : List Char} (h : ∀ c ∈ x, p c = true) :
    (x ++ y).takeWhile p = x ++ y.takeWhile p := by
  induction x with
  | nil => rfl
  | cons c x ih =>
    rw [List.cons_append, List.takeWhile_cons_of_pos (h c List.mem_cons_self),
      ih (fun d hd => h d (List.mem_cons_of_mem _ hd)), List.cons_append]

/-- The dots of name and signature before a parenthesis are those of the name. -/
theorem name_sig_dot (n : List Char) (s : Sig) :
    '.' ∈ (n ++ sigText s).takeWhile (· ≠ '(') ↔ '.' ∈ n.takeWhile (· ≠ '(') := by
  induction n with
  | nil =>
    constructor
    · intro h; exact absurd h (sig_no_dot s)
    · intro h; cases h
  | cons c n ih =>
    by_cases h : c = '('
    · rw [List.cons_append, List.takeWhile_cons_of_neg (by simp [h]), List.takeWhile_cons_of_neg (by simp [h])]
    · rw [List.cons_append, List.takeWhile_cons_of_pos (by simp [h]), List.takeWhile_cons_of_pos (by simp [h]),
        List.mem_cons, List.mem_cons, ih]

theorem getCallContext_some {m p : List Char} (h : getCallContext m = some p) :
    p.length < (m.takeWhile (· ≠ '(')).length := by
  unfold getCallContext at h
  rw [contextLoop_eq] at h
  by_cases hd : '.' ∈ m.takeWhile (· ≠ '(')
  · obtain ⟨a, b, h1, h2⟩ := last_split hd
    rw [h1, lastPos_last h2] at h
    injection h with h
    rw [← h, h1]
    simp
    omega
  · rw [lastPos_none hd] at h
    cases h

theorem takeWhile_short {p : Char → Bool} {x y : List Char} {c : Char} (hc : c ∈ x) (hp : p c = false) :
    ((x ++ y).takeWhile p).length ≤ x.length := by
  induction x with
  | nil => cases hc
  | cons d x ih =>
    rw [List.cons_append]
    by_cases hd : p d = true
    · rw [List.takeWhile_cons_of_pos hd, List.length_cons, List.length_cons]
      cases hc with
      | head => rw [hp] at hd; cases hd
      | tail _ hc => exact Nat.succ_le_succ (ih hc)
    · rw [List.takeWhile_cons_of_neg hd]
      exact Nat.zero_le _

/-- **The context of a call**: the enclosing region is found if and only if it
is not itself a subprogram with parameters, or nested in one, and the
designator has no dot before a parenthesis. -/
theorem call_context_iff (pre n : List Char) (s : Sig) :
    getCallContext (mangleFunc pre n s) = some pre ↔ '(' ∉ pre ∧ '.' ∉ n.takeWhile (· ≠ '(') := by
  have hm : mangleFunc pre n s = pre ++ '.' :: (n ++ sigText s) := by simp [mangleFunc]
  rw [hm]
  constructor
  · intro h
    have h1 : '(' ∉ pre := by
      intro hp
      have := getCallContext_some h
      have h2 := takeWhile_short (p := (· ≠ '(')) (y := '.' :: (n ++ sigText s)) hp (by simp)
      omega
    refine ⟨h1, ?_⟩
    intro hd
    rw [← name_sig_dot n s] at hd
    obtain ⟨a, b, h2, h3⟩ := last_split hd
    have h4 : (pre ++ '.' :: (n ++ sigText s)).takeWhile (· ≠ '(') = (pre ++ '.' :: a) ++ '.' :: b := by
      rw [takeWhile_app (fun c hc => by simpa using fun e : c = '(' => h1 (e ▸ hc)), List.takeWhile_cons_of_pos (by decide), h2]
      simp
    unfold getCallContext at h
    rw [contextLoop_eq, h4, lastPos_last h3] at h
    injection h with h
    have := congrArg List.length h
    simp at this
  · rintro ⟨h1, h2⟩
    rw [← name_sig_dot n s] at h2
    unfold getCallContext
    rw [contextLoop_eq, takeWhile_app (fun c hc => by simpa using fun e : c = '(' => h1 (e ▸ hc)),
      List.takeWhile_cons_of_pos (by decide), lastPos_last h2]
    simp

example : getCallContext "WORK.P.\"+\"(8WORK.P.T)I".toList = some "WORK.P".toList := by decide +kernel

/-- For a function nested in another, the context is that of the outer. -/
theorem call_context_nested_counterexample :
    getCallContext (mangleFunc "WORK.P.F(I)I".toList ['G'] ⟨[], none, false⟩) = some "WORK.P".toList := by
  decide +kernel

/-- And for an extended identifier with a dot it is none at all. -/
theorem call_context_ext_counterexample :
    getCallContext (mangleFunc "WORK.P".toList (identText (.ext "a.b".toList)) ⟨[], none, false⟩)
      = some "WORK.P.\\a".toList := by
  decide +kernel

/-! ## Predefined subprograms -/

/-- **The names of predefined comparisons**: what is called is what was
declared beside the type if and only if the name of the type has no dot. -/
theorem predef_name_iff (pre n op : List Char) :
    lowerPredefFuncName (identPrefix pre n '.') op =
      mangleFunc pre (identText (.op op))
        ⟨[(false, identPrefix pre n '.'), (false, identPrefix pre n '.')], some booleanTy, true⟩ ↔
    '.' ∉ n := by
  have h1 : identPrefix pre n '.' = pre ++ '.' :: n := by simp [identPrefix]
  rw [← runtil_iff (a := pre), ← h1]
  generalize identPrefix pre n '.' = t
  simp only [lowerPredefFuncName, mangleFunc, identText, sigText, portsText, resultText, List.append_assoc,
    List.length_cons, Bool.false_eq_true, if_false, List.nil_append, List.cons_append]
  simp

theorem file_close_iff (pre n : List Char) :
    fileCloseName (identPrefix pre n '.') =
      mangleFunc pre (identText (.basic "FILE_CLOSE".toList)) ⟨[(false, identPrefix pre n '.')], none, true⟩ ↔
    '.' ∉ n := by
  have h1 : identPrefix pre n '.' = pre ++ '.' :: n := by simp [identPrefix]
  rw [← runtil_iff (a := pre), ← h1]
  generalize identPrefix pre n '.' = t
  have h2 : ".FILE_CLOSE(".toList = '.' :: "FILE_CLOSE".toList ++ ['('] := by decide
  simp only [fileCloseName, mangleFunc, identText, sigText, portsText, resultText, List.append_assoc, h2,
    List.length_cons, Bool.false_eq_true, if_false, List.nil_append, List.cons_append]
  simp

example : lowerPredefFuncName "WORK.P.T".toList ['='] = "WORK.P.\"=\"(8WORK.P.T8WORK.P.T)B$predef".toList := by
  decide +kernel

/-- The operator "=" of a type `\a.b\` is called by a name nothing has. -/
theorem predef_ext_counterexample :
    lowerPredefFuncName (identPrefix "WORK.P".toList (identText (.ext "a.b".toList)) '.') ['='] =
      "WORK.P.\\a.\"=\"(12WORK.P.\\a.b\\12WORK.P.\\a.b\\)B$predef".toList := by
  decide +kernel

/-! ## Copies -/

theorem startsWith_app (pre x : List Char) : startsWith (pre ++ x) pre = true := by
  simp [startsWith]

/-- **The names of copied types.** -/
theorem rename_type_correct (dotted pre q n : List Char) :
    renameType dotted pre (identPrefix (pre ++ q) n '.') = identPrefix (dotted ++ q) n '.' := by
  have : identPrefix (pre ++ q) n '.' = pre ++ (q ++ '.' :: n) := by simp [identPrefix]
  rw [renameType, this, startsWith_app, if_pos rfl]
  simp [identPrefix]

/-- **The names of copied subprograms**, with parameters or a result: the copy
is called as if it were declared in the instance, if no type of the profile is
declared in a subprogram with parameters. -/
theorem rename_correct {dotted pre q n : List Char} {s s' : Sig}
    (h : s.ports.length > 0 ∨ s.result.isSome)
    (hp : '(' ∉ portsText s.ports) (hr : '(' ∉ resultText s.result) :
    renameSub dotted pre (mangleFunc (pre ++ q) n s) s' = mangleFunc (dotted ++ q) n s' := by
  have h1 := sigText_paren h []
  rw [List.append_nil, List.append_nil] at h1
  have h2 : mangleFunc (pre ++ q) n s = pre ++ (q ++ '.' :: n ++ sigText s) := by simp [mangleFunc]
  have h3 : mangleFunc (pre ++ q) n s = (pre ++ (q ++ '.' :: n)) ++ '(' :: (portsText s.ports ++ ')' ::
      (resultText s.result ++ (if s.predef then predefText else []))) := by
    rw [h2, h1]; simp
  have h4 : '(' ∉ portsText s.ports ++ ')' :: (resultText s.result ++ (if s.predef then predefText else [])) := by
    simp only [List.mem_append, List.mem_cons, not_or]
    refine ⟨hp, by decide, hr, ?_⟩
    cases s.predef <;> decide
  have h5 : runtil (mangleFunc (pre ++ q) n s) '(' = pre ++ (q ++ '.' :: n) := by
    rw [h3, runtil_last h4]
  rw [renameSub, h5, h2, startsWith_app, if_pos rfl, List.drop_left]
  simp [mangleFunc]

/-- And of procedures without parameters, if no enclosing subprogram has any. -/
theorem rename_bare_correct {dotted pre q n : List Char} {s s' : Sig} (h : s.bare = true)
    (hp : '(' ∉ pre ++ q) (hn : '(' ∉ n) :
    renameSub dotted pre (mangleFunc (pre ++ q) n s) s' = mangleFunc (dotted ++ q) n s' := by
  have h2 : mangleFunc (pre ++ q) n s = pre ++ (q ++ '.' :: n) := by simp [mangleFunc, sigText_bare h]
  have h3 : '(' ∉ pre ++ (q ++ '.' :: n) := by
    rw [← List.append_assoc]
    simp only [List.mem_append, List.mem_cons, not_or] at hp ⊢
    exact ⟨hp, by decide, hn⟩
  rw [renameSub, h2, startsWith_app, if_pos rfl, runtil_none h3, List.drop_left]
  simp [mangleFunc]

/-- Names which do not begin with the prefix stay. -/
theorem rename_other {dotted pre orig : List Char} (h : ¬ ∃ r, orig = pre ++ r) (s : Sig) :
    renameSub dotted pre orig s = orig ∧ renameType dotted pre orig = orig := by
  have h1 : startsWith orig pre = false := by
    rw [Bool.eq_false_iff]
    intro h1
    apply h
    refine ⟨orig.drop pre.length, ?_⟩
    have h2 : orig.take pre.length = pre := by simpa [startsWith] using h1
    have := List.take_append_drop pre.length orig
    rw [h2] at this
    exact this.symm
  simp [renameSub, renameType, h1]

/-- `procedure P.F (I : integer)` of a generic package and its copy. -/
example : renameSub "WORK.I".toList "WORK.P".toList "WORK.P.F(I)".toList
    ⟨[(false, "STD.STANDARD.INTEGER".toList)], none, false⟩ = "WORK.I.F(I)".toList := by decide +kernel

/-- **Copies of nested procedures collide.** Two procedures without parameters,
G and H, in a function F with parameters have different names, but their copies
in an instance have the same, which is not even that of anything nested
in F. -/
theorem rename_nested_counterexample :
    mangleFunc "WORK.P.F(I)I".toList ['G'] ⟨[], none, false⟩ ≠ mangleFunc "WORK.P.F(I)I".toList ['H'] ⟨[], none, false⟩ ∧
    renameSub "WORK.I".toList "WORK.P".toList (mangleFunc "WORK.P.F(I)I".toList ['G'] ⟨[], none, false⟩) ⟨[], none, false⟩ =
      "WORK.I.F".toList ∧
    renameSub "WORK.I".toList "WORK.P".toList (mangleFunc "WORK.P.F(I)I".toList ['H'] ⟨[], none, false⟩) ⟨[], none, false⟩ =
      "WORK.I.F".toList := by
  decide +kernel

/-- In general: the copies of all procedures without parameters in a
subprogram are called by the same name. -/
theorem rename_nested_collide {dotted pre q r a b : List Char} {s s' : Sig} (h : s.bare = true)
    (hr : '(' ∉ r) (ha : '(' ∉ a) (hb : '(' ∉ b) :
    renameSub dotted pre (mangleFunc (pre ++ (q ++ '(' :: r)) a s) s' =
      renameSub dotted pre (mangleFunc (pre ++ (q ++ '(' :: r)) b s) s' := by
  have key : ∀ n : List Char, '(' ∉ n → renameSub dotted pre (mangleFunc (pre ++ (q ++ '(' :: r)) n s) s' =
      dotted ++ q ++ sigText s' := by
    intro n hn
    have h2 : mangleFunc (pre ++ (q ++ '(' :: r)) n s = (pre ++ q) ++ '(' :: (r ++ '.' :: n) := by
      simp [mangleFunc, sigText_bare h]
    have h3 : '(' ∉ r ++ '.' :: n := by
      simp only [List.mem_append, List.mem_cons, not_or]
      exact ⟨hr, by decide, hn⟩
    have h4 : mangleFunc (pre ++ (q ++ '(' :: r)) n s = pre ++ (q ++ '(' :: (r ++ '.' :: n)) := by rw [h2]; simp
    rw [renameSub, h4, startsWith_app, if_pos rfl, ← h4, h2, runtil_last h3, List.drop_left]
  rw [key a ha, key b hb]

/-- With a type declared in a subprogram as parameter, the copy keeps part of
the old signature. -/
theorem rename_local_type_counterexample :
    renameSub "WORK.I".toList "WORK.P".toList
      (mangleFunc "WORK.P.F(I)I".toList ['G'] ⟨[(false, "WORK.P.F(I)I.T".toList)], none, false⟩)
      ⟨[(false, "WORK.I.F(I)I.T".toList)], none, false⟩ =
      "WORK.I.F(I)I.G(14WORK.P.F(14WORK.I.F(I)I.T)".toList ∧
    mangleFunc "WORK.I.F(I)I".toList ['G'] ⟨[(false, "WORK.I.F(I)I.T".toList)], none, false⟩ =
      "WORK.I.F(I)I.G(14WORK.I.F(I)I.T)".toList := by
  decide +kernel

/-- A name that only begins with the same letters is taken for one in the
region. -/
theorem rename_prefix_counterexample :
    renameType "WORK.I".toList "WORK.P".toList "WORK.P2.T".toList = "WORK.I2.T".toList := by decide +kernel

/-! ## Symbols -/

/-- No underscore is followed by a lower-case letter. -/
def NoLow : List Char → Prop
  | [] => True
  | [_] => True
  | c :: d :: l => (c = '_' → ¬ ('a' ≤ d ∧ d ≤ 'z')) ∧ NoLow (d :: l)

theorem NoLow.tail {c : Char} {l : List Char} (h : NoLow (c :: l)) : NoLow l := by
  cases l with
  | nil => trivial
  | cons d l => exact h.2

def illegal : List Char := ['(', ')', '"', '[', ']', '*', '+', '=', '\\']

theorem replace1_plain {c : Char} (h : c ∉ illegal) : replace1 c replacements = [c] := by
  simp only [illegal, List.mem_cons, List.not_mem_nil, or_false, not_or] at h
  obtain ⟨h1, h2, h3, h4, h5, h6, h7, h8, h9⟩ := h
  simp [replacements, replace1, h1, h2, h3, h4, h5, h6, h7, h8, h9]

theorem replace1_low {c : Char} (h : c ∈ illegal) :
    ∃ d l, replace1 c replacements = '_' :: d :: l ∧ 'a' ≤ d ∧ d ≤ 'z' := by
  simp only [illegal, List.mem_cons, List.not_mem_nil, or_false] at h
  rcases h with rfl | rfl | rfl | rfl | rfl | rfl | rfl | rfl | rfl <;>
    exact ⟨_, _, rfl, by decide, by decide⟩

theorem replace1_inj {c d : Char} (hc : c ∈ illegal) (hd : d ∈ illegal) {x y : List Char}
    (h : replace1 c replacements ++ x = replace1 d replacements ++ y) : c = d ∧ x = y := by
  simp only [illegal, List.mem_cons, List.not_mem_nil, or_false] at hc hd
  rcases hc with rfl | rfl | rfl | rfl | rfl | rfl | rfl | rfl | rfl <;>
  rcases hd with rfl | rfl | rfl | rfl | rfl | rfl | rfl | rfl | rfl <;>
    simp [replace1, replacements] at h ⊢ <;> exact h

/-- How the symbol of a text begins. -/
theorem symbol_head {l : List Char} {d : Char} {x : List Char} (h : safeSymbolWin l = d :: x)
    (hd : 'a' ≤ d ∧ d ≤ 'z') : ∃ m, l = d :: m := by
  cases l with
  | nil => cases h
  | cons c l =>
    rw [safeSymbolWin] at h
    by_cases hc : c ∈ illegal
    · obtain ⟨e, k, h1, _⟩ := replace1_low hc
      rw [h1, List.cons_append] at h
      injection h with h _
      subst h
      exact absurd hd (by decide)
    · rw [replace1_plain hc] at h
      injection h with h _
      exact ⟨l, by rw [h]⟩

/-- **Different names have different symbols**, also where symbols may not have
all characters, if no underscore stands before a lower-case letter. -/
theorem symbol_unique {x y : List Char} (hx : NoLow x) (hy : NoLow y)
    (h : safeSymbolWin x = safeSymbolWin y) : x = y := by
  have mix : ∀ {c d : Char} {l m : List Char}, c ∈ illegal → d ∉ illegal → NoLow (d :: m) →
      safeSymbolWin (c :: l) ≠ safeSymbolWin (d :: m) := by
    intro c d l m hc hd hn e
    obtain ⟨k, z, h1, h2⟩ := replace1_low hc
    rw [safeSymbolWin, safeSymbolWin, h1, replace1_plain hd] at e
    simp only [List.cons_append, List.nil_append] at e
    injection e with e1 e2
    obtain ⟨w, rfl⟩ := symbol_head e2.symm h2
    exact hn.1 e1.symm h2
  induction x generalizing y with
  | nil =>
    cases y with
    | nil => rfl
    | cons d y =>
      exfalso
      rw [safeSymbolWin, safeSymbolWin] at h
      by_cases hd : d ∈ illegal
      · obtain ⟨e, k, h1, _⟩ := replace1_low hd
        rw [h1] at h; cases h
      · rw [replace1_plain hd] at h; cases h
  | cons c x ih =>
    cases y with
    | nil =>
      exfalso
      rw [safeSymbolWin, safeSymbolWin] at h
      by_cases hd : c ∈ illegal
      · obtain ⟨e, k, h1, _⟩ := replace1_low hd
        rw [h1] at h; cases h
      · rw [replace1_plain hd] at h; cases h
    | cons d y =>
      by_cases hc : c ∈ illegal <;> by_cases hd : d ∈ illegal
      · rw [safeSymbolWin, safeSymbolWin] at h
        obtain ⟨e1, e2⟩ := replace1_inj hc hd h
        rw [e1, ih hx.tail hy.tail e2]
      · exact absurd h (mix hc hd hy)
      · exact absurd h.symm (mix hd hc hx)
      · rw [safeSymbolWin, safeSymbolWin, replace1_plain hc, replace1_plain hd] at h
        simp only [List.cons_append, List.nil_append] at h
        injection h with h1 h2
        rw [h1, ih hx.tail hy.tail h2]

/-- A symbol has none of the characters which are not allowed. -/
theorem symbol_legal (x : List Char) : ∀ c ∈ safeSymbolWin x, c ∉ illegal := by
  induction x with
  | nil => intro c h; cases h
  | cons d x ih =>
    intro c h
    rw [safeSymbolWin, List.mem_append] at h
    rcases h with h | h
    · by_cases hd : d ∈ illegal
      · have : ∀ d ∈ illegal, ∀ c ∈ replace1 d replacements, c ∉ illegal := by decide +kernel
        exact this d hd c h
      · rw [replace1_plain hd, List.mem_singleton] at h
        rw [h]; exact hd
    · exact ih c h

example : safeSymbolWin "WORK.P.\"+\"(sI)I".toList = "WORK.P._q__plus__q__lp_sI_rp_I".toList ∧
    NoLow "WORK.P_2.\"and\"(sI)I".toList := by
  refine ⟨by decide +kernel, ?_⟩
  simp [NoLow]

theorem symbol_counterexample :
    safeSymbolWin (identText (.ext "_q_".toList)) = safeSymbolWin (identText (.ext "\"".toList)) := by
  decide +kernel

end Verif.Mangle
