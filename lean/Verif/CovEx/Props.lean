import Verif.CovEx.Model

/-
Theorems on exclusions from coverage, property C101.
-/

namespace Verif.CovEx

open Spec

/-! ## Lines -/

/-- What is after a comment is not read. -/
theorem comment_ignored (line rest : Text) :
    parseLine (line ++ 35 :: rest) = parseLine (line ++ [35]) ∧
    parseLine (line ++ 35 :: rest) = parseLine (line ++ [10]) ∧
    parseLine (line ++ 35 :: rest) = parseLine line := by
  have h : ∀ (c : Nat) (r : Text), (c = 35 ∨ c = 10) →
      stripComment (line ++ c :: r) = stripComment line := by
    intro c r hc
    unfold stripComment
    induction line with
    | nil => rcases hc with e | e <;> subst e <;> simp
    | cons a l ih =>
      simp only [List.cons_append, List.takeWhile_cons]
      rw [ih]
  unfold parseLine
  rw [h 35 rest (Or.inl rfl), h 35 [] (Or.inl rfl), h 10 [] (Or.inr rfl)]
  exact ⟨rfl, rfl, rfl⟩

theorem tokens_spaces (k : Nat) : tokens [] (List.replicate k 32) = [] := by
  induction k with
  | zero => rfl
  | succ k ih => rw [List.replicate_succ]; simp [tokens, ih]

theorem tokens_lead (k : Nat) (r : Text) : tokens [] (List.replicate k 32 ++ r) = tokens [] r := by
  induction k with
  | zero => rfl
  | succ k ih => rw [List.replicate_succ, List.cons_append]; simp [tokens, ih]

theorem tokens_word (w cur r : Text) (hw : ∀ c ∈ w, c ≠ 32) :
    tokens cur (w ++ r) = tokens (cur ++ w) r := by
  induction w generalizing cur with
  | nil => rw [List.append_nil]; rfl
  | cons a w ih =>
    have ha := hw a List.mem_cons_self
    rw [List.cons_append, tokens, if_neg ha, ih _ fun c hc => hw c (List.mem_cons_of_mem _ hc)]
    simp

theorem tokens_end (w r : Text) (hw : w ≠ []) (hr : r = [] ∨ ∃ t : Text, r = 32 :: t) :
    tokens w r = w :: tokens [] r := by
  have he : w.isEmpty = false := by
    cases w with
    | nil => exact absurd rfl hw
    | cons a w => rfl
  rcases hr with e | ⟨t, e⟩
  · subst e; simp [tokens, he]
  · subst e; simp [tokens, he]

/-- The tokens of a line are its words, however many spaces there are. -/
theorem tokens_line (ws : List (Nat × Text)) (k : Nat) (h : ∀ e ∈ ws, Word e.2) :
    tokens [] (lineOf ws k) = ws.map (·.2) := by
  induction ws with
  | nil => exact tokens_spaces k
  | cons a ws ih =>
    obtain ⟨n, w⟩ := a
    have hw := h (n, w) List.mem_cons_self
    have ih := ih fun e he => h e (List.mem_cons_of_mem _ he)
    have hend : lineOf ws k = [] ∨ ∃ t : Text, lineOf ws k = 32 :: t := by
      cases ws with
      | nil =>
        cases k with
        | zero => exact Or.inl rfl
        | succ k => exact Or.inr ⟨List.replicate k 32, rfl⟩
      | cons b ws =>
        exact Or.inr ⟨List.replicate b.1 32 ++ b.2 ++ lineOf ws k, rfl⟩
    show tokens [] (List.replicate (n + 1) 32 ++ w ++ lineOf ws k) = w :: ws.map (·.2)
    rw [List.append_assoc, tokens_lead, tokens_word w [] _ fun c hc => (hw.2 c hc).1,
      List.nil_append, tokens_end w _ hw.1 hend, ih]

theorem strip_line (ws : List (Nat × Text)) (k : Nat) (h : ∀ e ∈ ws, Word e.2) :
    stripComment (lineOf ws k) = lineOf ws k := by
  have sp : ∀ (n : Nat) (r : Text), stripComment (List.replicate n 32 ++ r) =
      List.replicate n 32 ++ stripComment r := by
    intro n r
    induction n with
    | zero => rfl
    | succ n ih =>
      rw [List.replicate_succ, List.cons_append]
      unfold stripComment at ih ⊢
      rw [List.takeWhile_cons, if_pos (by decide), ih]
      rfl
  have wd : ∀ (w r : Text), (∀ c ∈ w, c ≠ 32 ∧ c ≠ 35 ∧ c ≠ 10 ∧ c ≠ 0) →
      stripComment (w ++ r) = w ++ stripComment r := by
    intro w r hw
    induction w with
    | nil => rfl
    | cons a w ih =>
      have ha := hw a List.mem_cons_self
      have ih := ih fun c hc => hw c (List.mem_cons_of_mem _ hc)
      unfold stripComment at ih ⊢
      rw [List.cons_append, List.takeWhile_cons, if_pos (by simp [ha.2.1, ha.2.2.1, ha.2.2.2]), ih]
      rfl
  induction ws with
  | nil =>
    have := sp k []
    rw [List.append_nil] at this
    exact this.trans (by rw [show stripComment [] = [] from rfl, List.append_nil]; rfl)
  | cons a ws ih =>
    obtain ⟨n, w⟩ := a
    have hw := h (n, w) List.mem_cons_self
    show stripComment (List.replicate (n + 1) 32 ++ w ++ lineOf ws k) = _
    rw [List.append_assoc, sp, wd w _ hw.2, ih fun e he => h e (List.mem_cons_of_mem _ he)]
    show _ = List.replicate (n + 1) 32 ++ w ++ lineOf ws k
    rw [List.append_assoc]

theorem parse_line (ws : List (Nat × Text)) (k : Nat) (h : ∀ e ∈ ws, Word e.2) :
    parseLine (lineOf ws k) = parseToks ws.length (ws.map (·.2)) := by
  unfold parseLine
  simp only
  rw [strip_line ws k h, tokens_line ws k h, List.length_map]

theorem word_exclude : Word wExclude := by unfold Word wExclude; decide
theorem word_fold : Word wFold := by unfold Word wFold; decide

/-- A line with one command to exclude gives this command, with the name in
upper case. -/
theorem line_exclude (n m k : Nat) (h : Text) (hw : Word h) :
    parseLine (lineOf [(n, wExclude), (m, h)] k) = ([.exclude (h.map upper)], []) := by
  rw [parse_line _ k]
  · rfl
  · intro e he
    simp only [List.mem_cons, List.not_mem_nil, or_false] at he
    rcases he with e1 | e1 <;> subst e1
    · exact word_exclude
    · exact hw

example : parseLine (lineOf [(1, wExclude), (2, [97, 46, 98])] 3) = ([.exclude [65, 46, 66]], []) := by
  decide +kernel

theorem fold_ne : wFold ≠ wExclude := by decide

/-- A line with one command to fold. -/
theorem line_fold (n m j k : Nat) (a b : Text) (ha : Word a) (hb : Word b) :
    parseLine (lineOf [(n, wFold), (m, a), (j, b)] k) =
      ([.fold (a.map upper) (b.map upper)], []) := by
  rw [parse_line _ k]
  · rfl
  · intro e he
    simp only [List.mem_cons, List.not_mem_nil, or_false] at he
    rcases he with e1 | e1 | e1 <;> subst e1
    · exact word_fold
    · exact ha
    · exact hb

example : parseLine (lineOf [(0, wFold), (1, [97]), (0, [98])] 0) = ([.fold [65] [66]], []) := by
  decide +kernel

/-- Errors: a missing name, and words that are not commands. -/
theorem line_errors (n m k : Nat) (w : Text) (hw : Word w) :
    parseLine (lineOf [(n, wExclude)] k) = ([], [.noHier]) ∧
    parseLine (lineOf [(n, wFold)] k) = ([], [.noTarget]) ∧
    parseLine (lineOf [(n, wFold), (m, w)] k) = ([], [.noSource]) ∧
    (w ≠ wExclude → w ≠ wFold → parseLine (lineOf [(n, w)] k) = ([], [.invalid w])) := by
  refine ⟨?_, ?_, ?_, ?_⟩
  · rw [parse_line _ k]
    · rfl
    · intro e he; rw [List.mem_singleton.mp he]; exact word_exclude
  · rw [parse_line _ k]
    · rfl
    · intro e he; rw [List.mem_singleton.mp he]; exact word_fold
  · rw [parse_line _ k]
    · rfl
    · intro e he
      simp only [List.mem_cons, List.not_mem_nil, or_false] at he
      rcases he with e1 | e1 <;> subst e1
      · exact word_fold
      · exact hw
  · intro h1 h2
    rw [parse_line _ k]
    · show parseToks 1 [w] = _
      simp [parseToks, h1, h2]
    · intro e he; rw [List.mem_singleton.mp he]; exact hw

/-- An empty line or a comment gives nothing. -/
theorem line_empty (k : Nat) : parseLine (lineOf [] k) = ([], []) := by
  rw [parse_line [] k (fun e he => by cases he)]; rfl

/-- Two commands in one line: the second is lost, and its name is taken as a
command. -/
theorem two_commands (a b : Text) (hb : b ≠ wExclude) (hb2 : b ≠ wFold) (n : Nat) (hn : 1 < n) :
    parseToks n [wExclude, a, wExclude, b] = ([.exclude (a.map upper)], [.invalid b]) := by
  obtain ⟨m, rfl⟩ : ∃ m : Nat, n = m + 2 := ⟨n - 2, by omega⟩
  cases m <;> simp [parseToks, hb, hb2]

theorem two_commands_counterexample :
    parseLine (lineOf [(0, wExclude), (0, [65]), (0, wExclude), (0, [66])] 0) =
      ([.exclude [65]], [.invalid [66]]) := by decide +kernel

/-- A word after a command is skipped without an error. -/
theorem extra_word_counterexample (a b : Text) :
    parseToks 3 [wExclude, a, b] = ([.exclude (a.map upper)], []) := by
  simp [parseToks]

/-- A tab is not a separator. -/
theorem tab_counterexample :
    parseLine (wExclude ++ 9 :: [65]) = ([], [.invalid (wExclude ++ [9, 65])]) := by decide +kernel

/-- The names of commands have no lower case letters: an extended identifier
with one cannot be named without a wildcard. -/
theorem upper_no_lower (c : Nat) : ¬ (97 ≤ upper c ∧ upper c ≤ 122) := by
  unfold upper
  split
  · omega
  · split <;> omega

/-- Small letters become capital letters, and nothing else is changed. -/
theorem upper_letters (c : Nat) : upper c = if c ∈ smallLetters then c - 32 else c := by
  have hm : c ∈ smallLetters ↔ (97 ≤ c ∧ c < 123) ∨ ((224 ≤ c ∧ c < 255) ∧ c ≠ 247) := by
    simp [smallLetters, List.mem_range'_1]
  unfold upper
  by_cases h : c ∈ smallLetters
  · rw [if_pos h]
    have := hm.mp h
    split
    · rfl
    · rw [if_pos (by omega)]
  · rw [if_neg h]
    have : ¬ ((97 ≤ c ∧ c < 123) ∨ ((224 ≤ c ∧ c < 255) ∧ c ≠ 247)) := fun x => h (hm.mpr x)
    rw [if_neg (by omega), if_neg (by omega)]

theorem extended_counterexample :
    let i : Item := ⟨[92, 97, 92], 0, 0, 1, false⟩
    exclude (fun h p => h == p) ([[92, 97, 92]].map fun p => p.map upper) [i] = [i] := by
  decide +kernel

/-! ## Exclusion -/

/-- An item is excluded exactly if it was before or a pattern matches it and it
is not covered; nothing else of it is changed. -/
theorem exclude_item (glob : Text → Text → Bool) (pats : List Text) (i : Item) :
    pats.foldl (excludeOne glob) i =
      { i with excluded := i.excluded || (decide (i.data < i.atleast) && pats.any (glob i.hier)) } := by
  induction pats generalizing i with
  | nil => simp
  | cons p ps ih =>
    rw [List.foldl_cons, ih]
    unfold excludeOne
    cases hg : glob i.hier p with
    | false => simp [hg]
    | true =>
      by_cases hd : i.data ≥ i.atleast
      · rw [if_pos rfl, if_pos hd]
        have : ¬ i.data < i.atleast := by omega
        simp [this]
      · rw [if_pos rfl, if_neg hd]
        have : i.data < i.atleast := by omega
        simp [hg, this]

theorem exclude_iff (glob : Text → Text → Bool) (pats : List Text) (items : List Item) (n : Nat)
    (i : Item) (h : items[n]? = some i) :
    ∃ j : Item, (exclude glob pats items)[n]? = some j ∧ j.hier = i.hier ∧ j.data = i.data ∧
      (j.excluded = true ↔ i.excluded = true ∨
        (i.data < i.atleast ∧ ∃ p ∈ pats, glob i.hier p = true)) := by
  refine ⟨_, by unfold exclude; rw [List.getElem?_map, h]; rfl, ?_⟩
  show (pats.foldl (excludeOne glob) i).hier = i.hier ∧ (pats.foldl (excludeOne glob) i).data = i.data ∧
    ((pats.foldl (excludeOne glob) i).excluded = true ↔ _)
  rw [exclude_item]
  simp

example : exclude (fun h p => h == p) [[65]] [⟨[65], 0, 0, 1, false⟩, ⟨[66], 0, 0, 1, false⟩] =
    [⟨[65], 0, 0, 1, true⟩, ⟨[66], 0, 0, 1, false⟩] := by decide +kernel

/-- Excluding twice, or in another order, makes no difference. -/
theorem exclude_again (glob : Text → Text → Bool) (ps qs : List Text) (items : List Item) :
    exclude glob qs (exclude glob ps items) = exclude glob (ps ++ qs) items := by
  unfold exclude
  rw [List.map_map]
  apply List.map_congr_left
  intro i _
  show qs.foldl _ (ps.foldl _ i) = _
  rw [List.foldl_append]

theorem exclude_order (glob : Text → Text → Bool) (ps qs : List Text) (items : List Item)
    (h : ∀ p : Text, p ∈ ps ↔ p ∈ qs) : exclude glob ps items = exclude glob qs items := by
  unfold exclude
  apply List.map_congr_left
  intro i _
  rw [exclude_item, exclude_item]
  have : ps.any (glob i.hier) = qs.any (glob i.hier) := by
    apply Bool.eq_iff_iff.mpr
    simp only [List.any_eq_true]
    exact ⟨fun ⟨x, h1, h2⟩ => ⟨x, (h x).mp h1, h2⟩, fun ⟨x, h1, h2⟩ => ⟨x, (h x).mpr h1, h2⟩⟩
  rw [this]

/-- A warning is given for exactly the patterns that match no item. -/
theorem not_found_iff (glob : Text → Text → Bool) (pats : List Text) (items : List Item)
    (p : Text) : p ∈ notFound glob pats items ↔
      p ∈ pats ∧ ∀ i ∈ items, glob i.hier p = false := by
  unfold notFound
  rw [List.mem_filter]
  simp

/-! ## Folding -/

theorem satAdd_min (a b : Nat) : satAdd a b = min (2 ^ 31 - 1) (a + b) := by
  unfold satAdd; split <;> omega

/-- What becomes of a target: the counts of all sources that belong to it. -/
def folded (tn sn : Nat) (src : List Item) (t : Item) : Item :=
  (src.filter (same tn sn t)).foldl (fun t s => { t with data := satAdd t.data s.data }) t

theorem same_data (tn sn : Nat) (t s : Item) (d : Nat) :
    same tn sn { t with data := d } s = same tn sn t s := rfl

theorem foldOne_map (tn sn : Nat) (s : Item) (ts : List Item)
    (h : ts.Pairwise fun a b => ¬ (same tn sn a s = true ∧ same tn sn b s = true)) :
    foldOne tn sn s ts =
      ts.map fun t => if same tn sn t s then { t with data := satAdd t.data s.data } else t := by
  induction ts with
  | nil => rfl
  | cons a ts ih =>
    obtain ⟨h1, h2⟩ := List.pairwise_cons.mp h
    unfold foldOne
    rw [List.map_cons]
    by_cases hs : same tn sn a s = true
    · rw [if_pos hs, if_pos hs]
      congr 1
      have : ts.map (fun t => if same tn sn t s then { t with data := satAdd t.data s.data } else t) =
          ts.map id := by
        apply List.map_congr_left
        intro t ht
        rw [if_neg fun x => h1 t ht ⟨hs, x⟩]
        rfl
      rw [this, List.map_id]
    · rw [if_neg hs, if_neg hs, ih h2]

/-- Names and flags decide which items belong together. -/
theorem same_trans (tn sn : Nat) (a b s : Item) (ha : same tn sn a s = true)
    (hb : same tn sn b s = true) : suffix tn a.hier = suffix tn b.hier := by
  simp [same] at ha hb
  rw [ha.1.1, hb.1.1]

/-- Items with names below their scopes belong together exactly if the rests of
their names are the same and their flags are. -/
theorem same_iff (tp sp a b : Text) (t s : Item) (ht : t.hier = tp ++ a) (hs : s.hier = sp ++ b)
    (ha : a ≠ []) (hb : b ≠ []) :
    same tp.length sp.length t s = true ↔
      a = b ∧ t.flags = s.flags ∧ t.excluded = s.excluded := by
  have la := List.length_pos_iff.mpr ha
  have lb := List.length_pos_iff.mpr hb
  have e1 : suffix tp.length t.hier = some a := by
    unfold suffix
    rw [ht, if_pos (by rw [List.length_append]; omega), List.drop_left]
  have e2 : suffix sp.length s.hier = some b := by
    unfold suffix
    rw [hs, if_pos (by rw [List.length_append]; omega), List.drop_left]
  unfold same
  rw [e1, e2]
  simp [and_assoc]

example : same 1 2 ⟨[65, 46, 88], 3, 0, 1, false⟩ ⟨[66, 67, 46, 88], 3, 7, 1, false⟩ = true := by
  decide

/-- If no two targets have the same name, every target gets the counts of
exactly the sources with its name and flags, each once. -/
theorem fold_items (tn sn : Nat) (src tgt : List Item)
    (h : tgt.Pairwise fun a b => suffix tn a.hier ≠ suffix tn b.hier) :
    foldItems tn sn tgt src = tgt.map (folded tn sn src) := by
  induction src generalizing tgt with
  | nil =>
    show tgt = _
    have : tgt.map (folded tn sn []) = tgt.map id := List.map_congr_left fun t _ => rfl
    rw [this, List.map_id]
  | cons s src ih =>
    show foldItems tn sn (foldOne tn sn s tgt) src = _
    have e := foldOne_map tn sn s tgt
      (h.imp fun hab hx => hab (same_trans tn sn _ _ s hx.1 hx.2))
    have hh : ∀ t : Item, (if same tn sn t s then { t with data := satAdd t.data s.data } else t).hier
        = t.hier := by intro t; split <;> rfl
    rw [e, ih]
    · rw [List.map_map]
      apply List.map_congr_left
      intro t _
      show folded tn sn src (if same tn sn t s then { t with data := satAdd t.data s.data } else t) = _
      unfold folded
      by_cases hs : same tn sn t s = true
      · rw [if_pos hs, List.filter_cons, if_pos hs, List.foldl_cons]
        rfl
      · rw [if_neg hs, List.filter_cons, if_neg hs]
    · refine List.pairwise_map.mpr (h.imp fun hab => ?_)
      rw [hh, hh]; exact hab

example : foldItems 1 1 [⟨[65, 46, 88], 0, 1, 1, false⟩, ⟨[65, 46, 89], 0, 2, 1, false⟩]
    [⟨[66, 46, 89], 0, 5, 1, false⟩] =
    [⟨[65, 46, 88], 0, 1, 1, false⟩, ⟨[65, 46, 89], 0, 7, 1, false⟩] := by decide +kernel

theorem folded_data (l : List Item) (t : Item) (ht : t.data ≤ 2 ^ 31 - 1) :
    (l.foldl (fun t s => { t with data := satAdd t.data s.data }) t).data =
      sumTo (t.data :: l.map (·.data)) := by
  induction l generalizing t with
  | nil => simp [sumTo]; omega
  | cons s l ih =>
    rw [List.foldl_cons, ih]
    · simp only [sumTo, satAdd_min, List.map_cons, List.sum_cons]; omega
    · show satAdd t.data s.data ≤ _
      rw [satAdd_min]; omega

/-- The count of a target after folding: the sum, up to the limit. -/
theorem fold_count (tn sn : Nat) (src : List Item) (t : Item) (ht : t.data ≤ 2 ^ 31 - 1) :
    (folded tn sn src t).data =
      sumTo (t.data :: (src.filter (same tn sn t)).map (·.data)) :=
  folded_data _ t ht

/-- Exclusion comes before folding: a target that was excluded, because it was
not covered itself, does not get the count of a source that was. -/
theorem fold_excluded_counterexample :
    let t : Item := ⟨[65, 46, 88], 0, 0, 1, false⟩
    let s : Item := ⟨[66, 46, 88], 0, 5, 1, false⟩
    let g : Text → Text → Bool := fun h p => h == p
    (foldItems 1 1 [t] [s]).map (·.data) = [5] ∧
    (foldItems 1 1 (exclude g [[65, 46, 88]] [t]) [s]).map (·.data) = [0] := by decide +kernel

/-! ## Pragmas -/

theorem lastBefore_snoc (l : Int) (ps : List (Bool × Int)) (p : Bool × Int) :
    lastBefore l (ps ++ [p]) = if p.2 < l then some p.1 else lastBefore l ps := by
  induction ps with
  | nil => simp [lastBefore]
  | cons q ps ih =>
    rw [List.cons_append, lastBefore, ih]
    by_cases h : p.2 < l
    · rw [if_pos h, if_pos h]
    · rw [if_neg h, if_neg h, lastBefore]

/-- The state after some pragmas: which lines are ignored. -/
def Inv (ps : List (Bool × Int)) (s : List (Int × Int) × Bool) : Prop :=
  (∀ l : Int, l ≤ intMax → (ignored s.1 l = true ↔ lastBefore l ps = some true)) ∧
  (s.2 = true → (∀ r ∈ s.1, ∃ q ∈ ps, r.2 ≤ q.2) ∧
    ∀ l : Int, (∀ q ∈ ps, q.2 < l) → lastBefore l ps ≠ some true) ∧
  (s.2 = false → (∃ (a : Int) (rs : List (Int × Int)), s.1 = (a, intMax) :: rs ∧
      ∀ r ∈ rs, ∃ q ∈ ps, r.2 ≤ q.2) ∧
    ∀ l : Int, (∀ q ∈ ps, q.2 < l) → lastBefore l ps = some true)

theorem ignored_iff (rs : List (Int × Int)) (l : Int) :
    ignored rs l = true ↔ ∃ r ∈ rs, r.1 < l ∧ l ≤ r.2 := by
  unfold ignored; simp

theorem inv_step (ps : List (Bool × Int)) (s : List (Int × Int) × Bool) (p : Bool × Int)
    (hs : ∀ q ∈ ps, q.2 ≤ p.2) (h : Inv ps s) : Inv (ps ++ [p]) (pragmaStep s p) := by
  obtain ⟨rs, st⟩ := s
  obtain ⟨off, x⟩ := p
  obtain ⟨h1, h2, h3⟩ := h
  have mono : ∀ r : Int × Int, (∃ q ∈ ps, r.2 ≤ q.2) → ∃ q ∈ ps ++ [(off, x)], r.2 ≤ q.2 :=
    fun r ⟨q, hq, hr⟩ => ⟨q, List.mem_append_left _ hq, hr⟩
  have past : ∀ l : Int, (∀ q ∈ ps ++ [(off, x)], q.2 < l) → x < l :=
    fun l hl => hl (off, x) (List.mem_append_right _ List.mem_cons_self)
  have old : ∀ l : Int, x < l → ∀ q ∈ ps, q.2 < l := fun l hl q hq => by
    have := hs q hq; simp only at this; omega
  simp only at h1 h2 h3
  cases off with
  | true =>
    cases st with
    | true =>
      obtain ⟨h4, h5⟩ := h2 rfl
      show Inv _ ((x, intMax) :: rs, false)
      refine ⟨fun l hl => ?_, (fun h => by cases h), fun _ => ⟨⟨x, rs, rfl, fun r hr => mono r (h4 r hr)⟩, ?_⟩⟩
      · rw [lastBefore_snoc, ignored_iff]
        by_cases hx : x < l
        · rw [if_pos hx]
          exact ⟨fun _ => rfl, fun _ => ⟨(x, intMax), List.mem_cons_self, hx, hl⟩⟩
        · rw [if_neg hx, ← h1 l hl, ignored_iff]
          constructor
          · rintro ⟨r, hr, ha, hb⟩
            rcases List.mem_cons.mp hr with e | hr
            · subst e; exact absurd ha hx
            · exact ⟨r, hr, ha, hb⟩
          · rintro ⟨r, hr, ha, hb⟩
            exact ⟨r, List.mem_cons_of_mem _ hr, ha, hb⟩
      · intro l hl
        rw [lastBefore_snoc, if_pos (past l hl)]
    | false =>
      obtain ⟨⟨a, rs', e, h4⟩, h5⟩ := h3 rfl
      show Inv _ (rs, false)
      refine ⟨fun l hl => ?_, (fun h => by cases h), fun _ => ⟨⟨a, rs', e, fun r hr => mono r (h4 r hr)⟩, ?_⟩⟩
      · rw [lastBefore_snoc]
        by_cases hx : x < l
        · rw [if_pos hx]
          show ignored rs l = true ↔ _
          rw [h1 l hl, h5 l (old l hx)]
        · rw [if_neg hx]; exact h1 l hl
      · intro l hl
        rw [lastBefore_snoc, if_pos (past l hl)]
  | false =>
    cases st with
    | true =>
      obtain ⟨h4, h5⟩ := h2 rfl
      show Inv _ (rs, true)
      refine ⟨fun l hl => ?_, fun _ => ⟨fun r hr => mono r (h4 r hr), ?_⟩, (fun h => by cases h)⟩
      · rw [lastBefore_snoc]
        by_cases hx : x < l
        · rw [if_pos hx]
          show ignored rs l = true ↔ _
          rw [h1 l hl]
          exact ⟨fun h => absurd h (h5 l (old l hx)), fun h => by cases h⟩
        · rw [if_neg hx]; exact h1 l hl
      · intro l hl
        rw [lastBefore_snoc, if_pos (past l hl)]
        exact fun h => by cases h
    | false =>
      obtain ⟨⟨a, rs', e, h4⟩, h5⟩ := h3 rfl
      subst e
      show Inv _ ((a, x) :: rs', true)
      have ends : ∀ r ∈ (a, x) :: rs', r.2 ≤ x := by
        intro r hr
        rcases List.mem_cons.mp hr with e | hr
        · subst e; exact Int.le_refl _
        · obtain ⟨q, hq, hr⟩ := h4 r hr
          have := hs q hq
          simp only at this; omega
      refine ⟨fun l hl => ?_, fun _ => ⟨fun r hr => ⟨(false, x), List.mem_append_right _
        List.mem_cons_self, ends r hr⟩, ?_⟩, (fun h => by cases h)⟩
      · rw [lastBefore_snoc, ignored_iff]
        by_cases hx : x < l
        · rw [if_pos hx]
          refine ⟨?_, fun h => by cases h⟩
          rintro ⟨r, hr, ha, hb⟩
          have := ends r hr
          omega
        · rw [if_neg hx, ← h1 l hl, ignored_iff]
          constructor
          · rintro ⟨r, hr, ha, hb⟩
            rcases List.mem_cons.mp hr with e | hr
            · subst e; exact ⟨_, List.mem_cons_self, ha, hl⟩
            · exact ⟨r, List.mem_cons_of_mem _ hr, ha, hb⟩
          · rintro ⟨r, hr, ha, hb⟩
            rcases List.mem_cons.mp hr with e | hr
            · subst e; exact ⟨_, List.mem_cons_self, ha, by simp only; omega⟩
            · exact ⟨r, List.mem_cons_of_mem _ hr, ha, hb⟩
      · intro l hl
        rw [lastBefore_snoc, if_pos (past l hl)]
        exact fun h => by cases h

theorem inv_fold (ps qs : List (Bool × Int)) (s : List (Int × Int) × Bool)
    (hs : (ps ++ qs).Pairwise fun a b => a.2 ≤ b.2) (h : Inv ps s) :
    Inv (ps ++ qs) (qs.foldl pragmaStep s) := by
  induction qs generalizing ps s with
  | nil => rw [List.append_nil]; exact h
  | cons q qs ih =>
    rw [List.foldl_cons]
    have e : ps ++ q :: qs = (ps ++ [q]) ++ qs := by simp
    rw [e] at hs ⊢
    refine ih _ _ hs (inv_step ps s q (fun p hp => ?_) h)
    exact (List.pairwise_append.mp (List.pairwise_append.mp hs).1).2.2 p hp q List.mem_cons_self

/-- A line is left out exactly if the last pragma before it is off, for
pragmas in the order of their lines. -/
theorem pragma_lines (ps : List (Bool × Int)) (hs : ps.Pairwise fun a b => a.2 ≤ b.2) (l : Int)
    (hl : l ≤ intMax) : ignored (ranges ps) l = true ↔ lastBefore l ps = some true := by
  have h0 : Inv [] (([], true) : List (Int × Int) × Bool) :=
    ⟨fun l _ => by simp [ignored, lastBefore],
     fun _ => ⟨fun r hr => absurd hr List.not_mem_nil, fun l _ h => by simp [lastBefore] at h⟩,
     (fun h => by cases h)⟩
  have := inv_fold [] ps _ hs h0
  exact this.1 l hl

example : ignored (ranges [(true, 3), (true, 4), (false, 7), (true, 9)]) 7 = true ∧
    ignored (ranges [(true, 3), (true, 4), (false, 7), (true, 9)]) 8 = false ∧
    ignored (ranges [(true, 3), (true, 4), (false, 7), (true, 9)]) 10 = true := by decide

/-- The line of the pragma itself counts to what was before it: a statement
before `coverage_on` on its line is left out, one after it on the line too. -/
theorem same_line_counterexample :
    ignored (ranges [(true, 3), (false, 7)]) 7 = true ∧
    ignored (ranges [(true, 3), (false, 7)]) 3 = false := by decide

/-! ## The specification file -/

/-- A scope is covered: with no file always; otherwise by the first of four
lists with a pattern for it, and not if there is none. -/
theorem emit_iff (glob : Text → Text → Bool) (s : SpecFile) (b hier : Text) :
    shouldEmit glob none (some b) hier = true ∧
    (shouldEmit glob (some s) (some b) hier = true ↔
      (∀ p ∈ s.blockExclude, glob b p = false) ∧
      ((∃ p ∈ s.blockInclude, glob b p = true) ∨
       ((∀ p ∈ s.hierExclude, glob hier p = false) ∧ ∃ p ∈ s.hierInclude, glob hier p = true))) ∧
    (shouldEmit glob (some s) none hier = true ↔
      (∀ p ∈ s.hierExclude, glob hier p = false) ∧ ∃ p ∈ s.hierInclude, glob hier p = true) := by
  have hh : (if s.hierExclude.any (glob hier) then false else s.hierInclude.any (glob hier)) = true ↔
      (∀ p ∈ s.hierExclude, glob hier p = false) ∧ ∃ p ∈ s.hierInclude, glob hier p = true := by
    by_cases h : s.hierExclude.any (glob hier) = true
    · rw [if_pos h]
      obtain ⟨p, hp, hg⟩ := List.any_eq_true.mp h
      exact ⟨(fun h => by cases h), fun ⟨h, _⟩ => by rw [h p hp] at hg; cases hg⟩
    · rw [if_neg h, List.any_eq_true]
      refine ⟨fun x => ⟨fun p hp => ?_, x⟩, fun x => x.2⟩
      cases hg : glob hier p with
      | false => rfl
      | true => exact absurd (List.any_eq_true.mpr ⟨p, hp, hg⟩) h
  refine ⟨rfl, ?_, hh⟩
  show (if s.blockExclude.any (glob b) then false
    else if s.blockInclude.any (glob b) then true
    else (if s.hierExclude.any (glob hier) then false else s.hierInclude.any (glob hier))) = true ↔ _
  by_cases h : s.blockExclude.any (glob b) = true
  · rw [if_pos h]
    obtain ⟨p, hp, hg⟩ := List.any_eq_true.mp h
    exact ⟨(fun h => by cases h), fun ⟨h, _⟩ => by rw [h p hp] at hg; cases hg⟩
  · rw [if_neg h]
    have hn : ∀ p ∈ s.blockExclude, glob b p = false := by
      intro p hp
      cases hg : glob b p with
      | false => rfl
      | true => exact absurd (List.any_eq_true.mpr ⟨p, hp, hg⟩) h
    by_cases hi : s.blockInclude.any (glob b) = true
    · rw [if_pos hi]
      exact ⟨fun _ => ⟨hn, Or.inl (List.any_eq_true.mp hi)⟩, fun _ => rfl⟩
    · rw [if_neg hi, hh]
      refine ⟨fun x => ⟨hn, Or.inr x⟩, fun ⟨_, x⟩ => ?_⟩
      rcases x with x | x
      · exact absurd (List.any_eq_true.mpr x) hi
      · exact x

end Verif.CovEx
