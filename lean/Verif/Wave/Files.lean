import Verif.Wave.Values

/-
Property C97, second part: names, times and selection of signals.
-/

namespace Verif.Wave

open Spec

/-! ## Names of the elements of arrays of arrays -/

theorem flatMap_get {α : Type} (f : Nat → List α) (k : Nat) (hf : ∀ i : Nat, (f i).length = k)
    (n i j : Nat) (hi : i < n) (hj : j < k) :
    ((List.range n).flatMap f)[i * k + j]? = (f i)[j]? := by
  have len : ∀ m : Nat, ((List.range m).flatMap f).length = m * k := by
    intro m
    induction m with
    | zero => simp
    | succ m ih =>
      rw [List.range_succ, List.flatMap_append, List.length_append, ih]
      simp [hf, Nat.add_mul]
  induction n with
  | zero => omega
  | succ n ih =>
    rw [List.range_succ, List.flatMap_append]
    by_cases h : i < n
    · have : i * k + j < n * k := by
        have : (i + 1) * k ≤ n * k := Nat.mul_le_mul_right _ h
        rw [Nat.add_mul, Nat.one_mul] at this
        omega
      rw [List.getElem?_append_left (by rw [len]; exact this)]
      exact ih h
    · have e : i = n := by omega
      subst e
      rw [List.getElem?_append_right (by rw [len]; omega), len]
      have : i * k + j - i * k = j := by omega
      rw [this]
      simp

theorem memNames_length (d : Dim) (ds : List Dim) : (memNames (d :: ds)).length = vectors (d :: ds) := by
  induction ds generalizing d with
  | nil => rfl
  | cons e ds ih =>
    rw [memNames, vectors]
    · have : ∀ m : Nat, ((List.range m).flatMap fun i =>
          (memNames (e :: ds)).map fun r => d.at i :: r).length = m * vectors (e :: ds) := by
        intro m
        induction m with
        | zero => simp
        | succ m ihm =>
          rw [List.range_succ, List.flatMap_append, List.length_append, ihm]
          simp [ih e, Nat.add_mul]
      exact this d.length
    · simp

/-- The vector at an offset in the storage has the name of its indexes. -/
theorem name_at_offset (dims : List Dim) (ps : List Nat) (k : Nat) (h : AtOffset dims ps k) :
    k < vectors dims ∧ (memNames dims)[k]? = some (indexes dims ps) := by
  induction h with
  | last d => exact ⟨Nat.one_pos, rfl⟩
  | more d e ds p ps k hp _ ih =>
    constructor
    · have hv : vectors (d :: e :: ds) = d.length * vectors (e :: ds) := by rw [vectors]; simp
      have : (p + 1) * vectors (e :: ds) ≤ d.length * vectors (e :: ds) :=
        Nat.mul_le_mul_right _ hp
      rw [Nat.add_mul, Nat.one_mul] at this
      omega
    · rw [memNames, flatMap_get _ (vectors (e :: ds)) (fun i => by simp [memNames_length]) _ p k hp ih.1,
        List.getElem?_map, ih.2]
      rfl

/-- Every offset has a vector. -/
theorem offset_exists (d : Dim) (ds : List Dim) (k : Nat) (hk : k < vectors (d :: ds)) :
    ∃ ps : List Nat, AtOffset (d :: ds) ps k := by
  induction ds generalizing d k with
  | nil =>
    have : k = 0 := by
      have : vectors [d] = 1 := rfl
      omega
    subst this
    exact ⟨[], .last d⟩
  | cons e ds ih =>
    rw [vectors] at hk
    · have hpos : 0 < vectors (e :: ds) := by
        cases hv : vectors (e :: ds) with
        | zero => rw [hv] at hk; omega
        | succ n => omega
      obtain ⟨ps, hps⟩ := ih e (k % vectors (e :: ds)) (Nat.mod_lt _ hpos)
      have hq : k / vectors (e :: ds) < d.length := by
        rw [Nat.div_lt_iff_lt_mul hpos]; exact hk
      have := AtOffset.more d e ds (k / vectors (e :: ds)) ps _ hq hps
      have e2 : k / vectors (e :: ds) * vectors (e :: ds) + k % vectors (e :: ds) = k := by
        rw [Nat.mul_comm]; exact Nat.div_add_mod _ _
      rw [e2] at this
      exact ⟨_, this⟩
    · simp

example : memNames [⟨3, false, 2⟩, ⟨0, true, 2⟩, ⟨7, false, 8⟩] =
    [[3, 0], [3, 1], [2, 0], [2, 1]] := by decide

/-! ## Times -/

theorem trace_events {α : Type} (evs : List (Nat × α)) (last : Nat) :
    trace (some last) (events last evs) = evs.map fun e => (some e.1, e.2) := by
  induction evs generalizing last with
  | nil => rfl
  | cons e evs ih =>
    obtain ⟨now, x⟩ := e
    rw [events]
    split
    · rw [trace, trace, ih]; rfl
    · rename_i h
      have : now = last := Decidable.not_not.mp h
      rw [trace, ih, ← this]; rfl

/-- Every change in the file is at the time of its event. -/
theorem changes_at_times {α : Type} (evs : List (Nat × α)) (h : ∀ e ∈ evs, e.1 < 2 ^ 63) :
    trace none (events noTime evs) = evs.map fun e => (some e.1, e.2) := by
  cases evs with
  | nil => rfl
  | cons e evs =>
    obtain ⟨now, x⟩ := e
    have hn : now ≠ noTime := by
      have : now < 2 ^ 63 := h _ List.mem_cons_self
      unfold noTime; omega
    rw [events, if_pos hn, trace, trace, trace_events]; rfl

theorem times_after {α : Type} (evs : List (Nat × α)) (last : Nat)
    (hs : evs.Pairwise fun a b => a.1 ≤ b.1) (hl : ∀ e ∈ evs, last ≤ e.1) :
    (times (events last evs)).Pairwise (· < ·) ∧ ∀ t ∈ times (events last evs), last < t := by
  induction evs generalizing last with
  | nil => exact ⟨List.Pairwise.nil, fun _ h => (by cases h)⟩
  | cons e evs ih =>
    obtain ⟨now, x⟩ := e
    have hp := List.pairwise_cons.mp hs
    have h1 := hl _ List.mem_cons_self
    rw [events]
    split
    · rename_i hne
      obtain ⟨i1, i2⟩ := ih now hp.2 (fun e he => hp.1 e he)
      rw [times, times]
      refine ⟨List.pairwise_cons.mpr ⟨i2, i1⟩, ?_⟩
      intro t ht
      have hlt : last < now := by
        have : last ≤ now := h1
        omega
      cases ht with
      | head => exact hlt
      | tail _ ht => exact Nat.lt_trans hlt (i2 t ht)
    · rw [times]
      exact ih last hp.2 fun e he => hl e (List.mem_cons_of_mem _ he)

/-- The times in the file increase. -/
theorem times_increase {α : Type} (evs : List (Nat × α))
    (hs : evs.Pairwise fun a b => a.1 ≤ b.1) (h : ∀ e ∈ evs, e.1 < 2 ^ 63) :
    (times (events noTime evs)).Pairwise (· < ·) := by
  cases evs with
  | nil => exact List.Pairwise.nil
  | cons e evs =>
    obtain ⟨now, x⟩ := e
    have hp := List.pairwise_cons.mp hs
    have hn : now ≠ noTime := by
      have : now < 2 ^ 63 := h _ List.mem_cons_self
      unfold noTime; omega
    rw [events, if_pos hn, times, times]
    obtain ⟨i1, i2⟩ := times_after evs now hp.2 (fun e he => hp.1 e he)
    exact List.pairwise_cons.mpr ⟨i2, i1⟩

example : times (events noTime [(0, 'a'), (0, 'b'), (5, 'c')]) = [0, 5] := by decide

/-! ## Selection of signals -/

/-- A signal is dumped if nothing excludes it and, if anything is included,
something includes it. -/
theorem should_dump_iff (glob : Text → Text → Bool) (incl excl : List Text) (name : Text) :
    shouldDump glob incl excl name = true ↔
      (∀ g ∈ excl, glob name g = false) ∧ (incl = [] ∨ ∃ g ∈ incl, glob name g = true) := by
  unfold shouldDump
  split
  · rename_i h
    obtain ⟨g, hg, h2⟩ := List.any_eq_true.mp h
    constructor
    · intro h3; cases h3
    · rintro ⟨h3, _⟩; rw [h3 g hg] at h2; cases h2
  · rename_i h
    have hx : ∀ g ∈ excl, glob name g = false := by
      intro g hg
      cases hb : glob name g with
      | false => rfl
      | true => exact absurd (List.any_eq_true.mpr ⟨g, hg, hb⟩) h
    split
    · rename_i h2
      exact ⟨fun _ => ⟨hx, Or.inr (List.any_eq_true.mp h2)⟩, fun _ => rfl⟩
    · rename_i h2
      constructor
      · intro h3
        have := of_decide_eq_true h3
        exact ⟨hx, Or.inl (List.eq_nil_of_length_eq_zero this)⟩
      · rintro ⟨_, rfl | h3⟩
        · rfl
        · exact absurd (List.any_eq_true.mpr h3) h2

theorem pieces_line (max : Nat) (acc l t : Text) (hn : ∀ c ∈ l, c ≠ 10)
    (hl : acc.length + l.length + 1 ≤ max) :
    pieces max acc (l ++ 10 :: t) = (acc.reverse ++ l ++ [10]) :: pieces max [] t := by
  induction l generalizing acc with
  | nil =>
    rw [List.nil_append, pieces, if_pos (Or.inl rfl)]
    simp
  | cons c l ih =>
    have hc := hn c List.mem_cons_self
    rw [List.length_cons] at hl
    rw [List.cons_append, pieces, if_neg (by omega),
      ih (c :: acc) (fun c hc => hn c (List.mem_cons_of_mem _ hc)) (by
        rw [List.length_cons]; omega)]
    simp

theorem erase_line (l : Text) (hn : ∀ c ∈ l, c ≠ 10 ∧ c ≠ 13) : erase (l ++ [10]) = noComment l := by
  unfold erase noComment
  induction l with
  | nil => rfl
  | cons c l ih =>
    have hc := hn c List.mem_cons_self
    rw [List.cons_append, List.takeWhile_cons, List.takeWhile_cons,
      ih fun c hc => hn c (List.mem_cons_of_mem _ hc)]
    by_cases h : c = 35
    · simp [h]
    · simp [h, hc.1, hc.2]

theorem takeWhile_length (p : Nat → Bool) (l : Text) : (l.takeWhile p).length ≤ l.length :=
  (List.takeWhile_sublist p).length_le

theorem dropWhile_length (p : Nat → Bool) (l : Text) : (l.dropWhile p).length ≤ l.length :=
  (List.dropWhile_sublist p).length_le

theorem scan_line (l : Text) (h : l.length ≤ 1022) (hn : ∀ c ∈ l, c ≠ 10 ∧ c ≠ 13) :
    scanWord (erase (l ++ [10])) = lineGlob l := by
  rw [erase_line l hn]
  unfold scanWord lineGlob
  have hw : ((firstWord (noComment l))).length ≤ 1023 := by
    unfold firstWord
    have h1 := takeWhile_length (fun c => !isSpace c) ((noComment l).dropWhile isSpace)
    have h2 := dropWhile_length isSpace (noComment l)
    have h3 : (noComment l).length ≤ l.length := takeWhile_length _ l
    omega
  show (if (firstWord (noComment l)).take 1023 = [] then none
    else some ((firstWord (noComment l)).take 1023)) = _
  rw [List.take_of_length_le hw]

theorem pieces_last (max : Nat) (acc l : Text) (hn : ∀ c ∈ l, c ≠ 10)
    (hl : acc.length + l.length + 1 ≤ max) :
    pieces max acc l = if acc.reverse ++ l = [] then [] else [acc.reverse ++ l] := by
  induction l generalizing acc with
  | nil =>
    rw [pieces, List.append_nil]
    simp
  | cons c l ih =>
    have hc := hn c List.mem_cons_self
    rw [List.length_cons] at hl
    rw [pieces, if_neg (by omega),
      ih (c :: acc) (fun c hc => hn c (List.mem_cons_of_mem _ hc)) (by
        rw [List.length_cons]; omega)]
    simp

theorem erase_last (l : Text) (hn : ∀ c ∈ l, c ≠ 10 ∧ c ≠ 13) : erase l = erase (l ++ [10]) := by
  rw [erase_line l hn]
  unfold erase noComment
  induction l with
  | nil => rfl
  | cons c l ih =>
    have hc := hn c List.mem_cons_self
    rw [List.takeWhile_cons, List.takeWhile_cons, ih fun c hc => hn c (List.mem_cons_of_mem _ hc)]
    by_cases h : c = 35
    · simp [h]
    · simp [h, hc.1, hc.2]

/-- The names in a file with short lines are the first words of the lines,
also if the last line has no end. -/
theorem process_file_last_partial (lines : List Text)
    (h : ∀ l ∈ lines, l.length ≤ 1022 ∧ ∀ c ∈ l, c ≠ 10 ∧ c ≠ 13) (last : Text)
    (hl1 : last.length ≤ 1022) (hl2 : ∀ c ∈ last, c ≠ 10 ∧ c ≠ 13) :
    processFile ((lines.flatMap fun l => l ++ [10]) ++ last) =
      (lines ++ [last]).filterMap lineGlob := by
  induction lines with
  | nil =>
    unfold processFile
    simp only [List.flatMap_nil, List.nil_append]
    rw [pieces_last 1023 [] last (fun c hc => (hl2 c hc).1) (by simp; omega)]
    rw [List.reverse_nil, List.nil_append]
    split
    · rename_i h0
      rw [h0]; rfl
    · rw [List.filterMap_cons, erase_last last hl2, scan_line last hl1 hl2, List.filterMap_cons]
      rfl
  | cons l lines ih =>
    have hl := h l List.mem_cons_self
    have i := ih fun l hl => h l (List.mem_cons_of_mem _ hl)
    unfold processFile at i ⊢
    rw [List.flatMap_cons, List.append_assoc, List.append_assoc, List.singleton_append,
      pieces_line 1023 [] l _ (fun c hc => (hl.2 c hc).1) (by simp; omega),
      List.filterMap_cons, List.cons_append, List.filterMap_cons, List.reverse_nil, List.nil_append,
      scan_line l hl.1 hl.2, i]

/-- The names in a file with short lines are the first words of the lines. -/
theorem process_file_partial (lines : List Text)
    (h : ∀ l ∈ lines, l.length ≤ 1022 ∧ ∀ c ∈ l, c ≠ 10 ∧ c ≠ 13) :
    processFile (lines.flatMap fun l => l ++ [10]) = lines.filterMap lineGlob := by
  have := process_file_last_partial lines h [] (Nat.zero_le _) (fun _ h => (by cases h))
  simpa [lineGlob, firstWord, noComment] using this
example : processFile [97, 32, 98, 10, 35, 99, 10, 100, 10] = [[97], [100]] := by decide

/-- The end of a long comment is taken as a name. -/
theorem process_file_long_counterexample :
    processFile (35 :: List.replicate 1022 120 ++ [121, 10]) = [[121]] ∧
    [35 :: List.replicate 1022 120 ++ [121]].filterMap lineGlob = [] := by
  constructor <;> decide +kernel

/-! ## Scopes -/

theorem leave_enter_split (hier pre post : Text) (hp : 46 ∉ post) :
    leaveScope (hier ++ 46 :: (pre ++ post)) =
      if 46 ∈ pre then leaveScope (hier ++ 46 :: pre) else hier := by
  have key : ∀ q : Text, 46 ∉ q → ∀ r : Text,
      (q ++ 46 :: r).dropWhile (fun c => c != 46) = 46 :: r := by
    intro q hq r
    induction q with
    | nil => simp
    | cons c q ih =>
      have hc : c ≠ 46 := fun h => hq (h ▸ List.mem_cons_self)
      rw [List.cons_append, List.dropWhile_cons]
      simp only [bne_iff_ne, ne_eq, hc, not_false_eq_true, if_true]
      exact ih fun h => hq (List.mem_cons_of_mem _ h)
  split
  · rename_i h
    obtain ⟨a, b, e, hb⟩ := List.eq_append_cons_of_mem (List.mem_reverse.mpr h)
    have e2 : pre = b.reverse ++ 46 :: a.reverse := by
      have := congrArg List.reverse e
      simpa using this
    unfold leaveScope
    rw [if_pos (by simp), if_pos (by simp)]
    have r1 : (hier ++ 46 :: (pre ++ post)).reverse =
        (post.reverse ++ a) ++ 46 :: (b ++ 46 :: hier.reverse) := by rw [e2]; simp
    have r2 : (hier ++ 46 :: pre).reverse = a ++ 46 :: (b ++ 46 :: hier.reverse) := by
      rw [e2]; simp
    rw [r1, r2, key _ (by simp [hp, hb]) _, key a hb _]
  · rename_i h
    unfold leaveScope
    rw [if_pos (by simp)]
    have r1 : (hier ++ 46 :: (pre ++ post)).reverse =
        (post.reverse ++ pre.reverse) ++ 46 :: hier.reverse := by simp
    rw [r1, key _ (by simp [hp, h]) _]
    simp

/-- The scope of nested instances is their names with dots between. -/
theorem enter_path (name : Text) (names : List Text) (hn : name ≠ []) :
    (name :: names).foldl (enterScope true) [] = name ++ names.flatMap fun n => 46 :: n := by
  have gen : ∀ (ns : List Text) (hier : Text), hier ≠ [] →
      ns.foldl (enterScope true) hier = hier ++ ns.flatMap fun n => 46 :: n := by
    intro ns
    induction ns with
    | nil => intro hier _; simp
    | cons n ns ih =>
      intro hier hh
      have hl : 0 < hier.length := List.length_pos_iff.mpr hh
      have e : enterScope true hier n = hier ++ 46 :: n := by
        unfold enterScope
        simp [hl]
      rw [List.foldl_cons, e, ih _ (by simp)]
      simp
  rw [List.foldl_cons]
  have e : enterScope true [] name = name := by simp [enterScope]
  rw [e]
  exact gen names name hn

/-- Leaving an instance inside another restores the name of the other unless
there is a dot in the name of the instance. -/
theorem leave_enter_iff (hier name : Text) (h : hier ≠ []) :
    leaveScope (enterScope true hier name) = hier ↔ 46 ∉ name := by
  have hl : 0 < hier.length := List.length_pos_iff.mpr h
  have e : enterScope true hier name = hier ++ 46 :: name := by
    unfold enterScope
    simp [hl]
  rw [e]
  constructor
  · intro h1 hm
    obtain ⟨a, b, e2, ha⟩ := List.eq_append_cons_of_mem (List.mem_reverse.mpr hm)
    have e3 : name = b.reverse ++ 46 :: a.reverse := by
      have := congrArg List.reverse e2
      simpa using this
    have s := leave_enter_split (hier ++ 46 :: b.reverse) [] a.reverse (by simpa using ha)
    simp only [List.nil_append, List.not_mem_nil, if_false] at s
    have e4 : hier ++ 46 :: name = hier ++ 46 :: b.reverse ++ 46 :: a.reverse := by
      rw [e3]; simp
    rw [e4, s] at h1
    have := congrArg List.length h1
    simp at this
  · intro hm
    have s := leave_enter_split hier [] name hm
    simpa using s

/-- The name of the first package is in front of that of the second. -/
theorem package_scope_counterexample (p q : Text) (hp : 46 ∉ p) (lib : Text) (hl : lib ≠ []) :
    enterScope false (leaveScope (enterScope false [] (lib ++ 46 :: p))) q = lib ++ q := by
  have s := leave_enter_split lib [] p hp
  simp only [List.nil_append, List.not_mem_nil, if_false] at s
  unfold enterScope
  simp [s]

end Verif.Wave
