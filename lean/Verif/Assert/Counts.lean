import Verif.Assert.Model

/-
Theorems on the text and the counting of messages, property C100.
-/

namespace Verif.Assert

open Spec

/-! ## Padding -/

/-- Aligned to the left: the fill is after the text. -/
theorem pad_left (x : Rep) (t : Text) (h : x.align = 60) :
    pad x t = t ++ List.replicate (x.width.toNat - t.length) x.fill := by
  have e : (x.width - (t.length : Int)).toNat = x.width.toNat - t.length := by omega
  simp [pad, h, padded, e]

/-- Aligned to the right: the fill is before the text. -/
theorem pad_right (x : Rep) (t : Text) (h : x.align = 62) :
    pad x t = List.replicate (x.width.toNat - t.length) x.fill ++ t := by
  have e : (x.width - (t.length : Int)).toNat = x.width.toNat - t.length := by omega
  simp [pad, h, padded, e]

/-- In the middle: if the fill cannot be split evenly there is one more after
the text. -/
theorem pad_middle (x : Rep) (t : Text) (h : x.align = 94) :
    pad x t = List.replicate ((x.width.toNat - t.length) / 2) x.fill ++ t ++
      List.replicate ((x.width.toNat - t.length + 1) / 2) x.fill := by
  have e1 : ((x.width - (t.length : Int)).tdiv 2).toNat = (x.width.toNat - t.length) / 2 := by
    by_cases hd : 0 ≤ x.width - (t.length : Int)
    · rw [Int.tdiv_eq_ediv_of_nonneg hd]; omega
    · have : (x.width - (t.length : Int)).tdiv 2 ≤ 0 := by
        have h2 : (x.width - (t.length : Int)) = -((t.length : Int) - x.width) := by omega
        rw [h2, Int.neg_tdiv, Int.tdiv_eq_ediv_of_nonneg (by omega)]
        omega
      omega
  have e2 : (x.width - (t.length : Int) - max ((x.width - (t.length : Int)).tdiv 2) 0).toNat =
      (x.width.toNat - t.length + 1) / 2 := by
    by_cases hd : 0 ≤ x.width - (t.length : Int)
    · rw [Int.tdiv_eq_ediv_of_nonneg hd]; omega
    · have : (x.width - (t.length : Int)).tdiv 2 ≤ 0 := by
        have h2 : (x.width - (t.length : Int)) = -((t.length : Int) - x.width) := by omega
        rw [h2, Int.neg_tdiv, Int.tdiv_eq_ediv_of_nonneg (by omega)]
        omega
      omega
  simp only [pad, h, padded]
  rw [if_neg (by decide), if_neg (by decide), e1, e2]

/-- The text is at least as wide as asked for, and not wider than needed. -/
theorem pad_length (x : Rep) (t : Text) (h : x.align = 60 ∨ x.align = 62 ∨ x.align = 94) :
    (pad x t).length = max x.width.toNat t.length := by
  rcases h with h | h | h
  · rw [pad_left x t h]; simp; omega
  · rw [pad_right x t h]; simp; omega
  · rw [pad_middle x t h]; simp; omega

/-- What replacements stand for. -/
theorem value_eq (e : Env) (x : Rep) :
    (x.var = 114 → value e x = e.msg) ∧ (x.var = 115 → value e x = e.lower) ∧
    (x.var = 83 → value e x = e.upper) ∧ (x.var = 116 → value e x = e.time x.prec) ∧
    (x.var = 105 → value e x = e.path) := by
  refine ⟨?_, ?_, ?_, ?_, ?_⟩ <;> intro h <;> simp [value, h]

/-- A format is applied piece by piece. -/
theorem apply_cons (e : Env) (t : Text) (x : Rep) (l : List (Text × Rep)) (last : Text) :
    apply e ((t, x) :: l, last) = t ++ pad x (value e x) ++ apply e (l, last) := by
  simp [apply]

theorem apply_nil (e : Env) (last : Text) : apply e ([], last) = last := rfl

/-! ## Counting -/

theorem run_mask (h : List Event) (s : Nat) : (run start h).mask s = enabled s h := by
  induction h with
  | nil => rfl
  | cons e h ih =>
    cases e with
    | report t =>
      show (report (run start h) t).1.mask s = enabled s h
      unfold report
      split <;> exact ih
    | clear => exact ih
    | enable t on =>
      show (if s = t then on else (run start h).mask s) = if t = s then on else enabled s h
      rw [ih]
      by_cases x : t = s
      · rw [if_pos x, if_pos x.symm]
      · rw [if_neg x, if_neg fun y => x y.symm]

theorem run_fixed (h : List Event) :
    (run start h).exitSev = 3 ∧ (run start h).statusSev = 2 := by
  induction h with
  | nil => exact ⟨rfl, rfl⟩
  | cons e h ih =>
    cases e with
    | report t =>
      show (report (run start h) t).1.exitSev = 3 ∧ (report (run start h) t).1.statusSev = 2
      unfold report
      split <;> exact ih
    | clear => exact ih
    | enable t on => exact ih

/-- After any history the count of a severity is the number of its messages
that were enabled since the last clear, in 32 bits. -/
theorem count_correct (h : List Event) (s : Nat) (hs : s ≤ 3) :
    (run start h).counts s = number_of s h % 2 ^ 32 := by
  induction h with
  | nil => rfl
  | cons e h ih =>
    cases e with
    | report t =>
      show (report (run start h) t).1.counts s = number_of s (.report t :: h) % 2 ^ 32
      have hm := run_mask h t
      unfold report number_of
      by_cases hts : t = s
      · subst hts
        rw [hm]
        by_cases he : enabled t h = true
        · rw [if_pos he, if_pos ⟨rfl, he⟩]
          show (if t = t then ((run start h).counts t + 1) % 2 ^ 32 else _) = _
          rw [if_pos rfl, ih]; omega
        · rw [if_neg he, if_neg fun x => he x.2]; exact ih
      · rw [if_neg (c := t = s ∧ enabled s h = true) fun x => hts x.1]
        by_cases he : (run start h).mask t = true
        · rw [if_pos he]
          show (if s = t then _ else (run start h).counts s) = _
          rw [if_neg fun x => hts x.symm]; exact ih
        · rw [if_neg he]; exact ih
    | clear =>
      show (if s ≤ 3 then 0 else (run start h).counts s) = _
      rw [if_pos hs]; rfl
    | enable t on => exact ih

/-- The run fails exactly if there was an error or a failure, if there were
fewer than 2^32 of them. -/
theorem exit_status_iff (h : List Event) (hb : ∀ s : Nat, s ≤ 3 → number_of s h < 2 ^ 32) :
    exitStatus (run start h) = true ↔ 0 < number_of 2 h ∨ 0 < number_of 3 h := by
  have c2 := count_correct h 2 (by omega)
  have c3 := count_correct h 3 (by omega)
  rw [Nat.mod_eq_of_lt (hb 2 (by omega))] at c2
  rw [Nat.mod_eq_of_lt (hb 3 (by omega))] at c3
  unfold exitStatus
  rw [(run_fixed h).2, show List.range 4 = [0, 1, 2, 3] from rfl]
  simp [c2, c3]

/-- With another severity for the status. -/
theorem exit_status_general (s : State) : exitStatus s = true ↔
    ∃ i : Nat, s.statusSev ≤ i ∧ i ≤ 3 ∧ 0 < s.counts i := by
  unfold exitStatus
  simp only [List.any_eq_true, List.mem_range, Bool.and_eq_true, decide_eq_true_eq]
  constructor
  · rintro ⟨i, h1, h2, h3⟩; exact ⟨i, h2, by omega, h3⟩
  · rintro ⟨i, h1, h2, h3⟩; exact ⟨i, by omega, h1, h3⟩

theorem many (n : Nat) (s : Nat) : number_of s (List.replicate n (.report s)) = n ∧
    enabled s (List.replicate n (.report s)) = true := by
  induction n with
  | zero => exact ⟨rfl, rfl⟩
  | succ n ih =>
    rw [List.replicate_succ]
    exact ⟨by show (if s = s ∧ _ then _ else _) = _; rw [if_pos ⟨rfl, ih.2⟩, ih.1], ih.2⟩

/-- 2^32 errors and nothing else: the run does not fail. -/
theorem wrap_counterexample (n : Nat) (hn : n = 2 ^ 32) :
    exitStatus (run start (List.replicate n (.report 2))) = false := by
  have other : ∀ (k s : Nat), s ≠ 2 → number_of s (List.replicate k (.report 2)) = 0 := by
    intro k s hs
    induction k with
    | zero => rfl
    | succ k ih =>
      rw [List.replicate_succ]
      show (if 2 = s ∧ _ then _ else _) = 0
      rw [if_neg fun x => hs x.1.symm, ih]
  have c2 : (run start (List.replicate n (.report 2))).counts 2 = 0 := by
    rw [count_correct _ 2 (by omega), (many n 2).1, hn]
  have c3 : (run start (List.replicate n (.report 2))).counts 3 = 0 := by
    rw [count_correct _ 3 (by omega), other n 3 (by omega)]
  cases he : exitStatus (run start (List.replicate n (.report 2))) with
  | false => rfl
  | true =>
    obtain ⟨i, h1, h2, h3⟩ := (exit_status_general _).mp he
    rw [(run_fixed _).2] at h1
    have : i = 2 ∨ i = 3 := by omega
    rcases this with e | e <;> subst e <;> omega

/-- A message is given exactly if its severity is enabled; it ends the run
exactly if the severity is at least that for ending. -/
theorem report_iff (s : State) (sev : Nat) :
    ((report s sev).2.1 = true ↔ s.mask sev = true) ∧
    ((report s sev).2.2 = true ↔ s.mask sev = true ∧ s.exitSev ≤ sev) := by
  unfold report
  by_cases h : s.mask sev = true
  · rw [if_pos h]; simp [h]
  · rw [if_neg h]; simp [h]

/-- A failure ends the run if it is enabled, whatever happened before; an
error does not. -/
theorem failure_ends (h : List Event) (s : Nat) (hs : s ≤ 3) :
    (report (run start h) s).2.2 = true ↔ enabled s h = true ∧ s = 3 := by
  rw [(report_iff _ _).2, run_mask, (run_fixed h).1]
  constructor
  · rintro ⟨a, b⟩; exact ⟨a, by omega⟩
  · rintro ⟨a, b⟩; exact ⟨a, by omega⟩

example : number_of 1 [.report 1, .enable 1 true, .report 1, .enable 1 false, .report 1] = 2 := by
  decide +kernel

example : exitStatus (run start [.report 1, .report 2]) = true ∧
    exitStatus (run start [.report 1, .clear, .report 2]) = false := by decide +kernel

example : pad ⟨114, 42, 94, 6, none⟩ [97, 98, 99] = [42, 97, 98, 99, 42, 42] := by decide +kernel

end Verif.Assert
