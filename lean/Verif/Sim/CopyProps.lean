import Verif.Sim.CopyModel

/-!
# Properties of copying and comparing values

Specification: `copy2` moves the old value to one place and the new one to another and touches nothing
else; comparing says whether all bytes are equal.
-/

namespace Verif.Sim.Copy

open Verif.Sim.Nexus (Value valueSize contents)

/-! ## Specification -/

/-- No address belongs to both `n` bytes at `p` and `n` bytes at `q`. -/
def Disjoint (p q n : Nat) : Prop := p + n ≤ q ∨ q + n ≤ p

/-- The memory after copying `n` bytes from `p2` to `p1` and from `src` to `p2`. -/
def Copied (m m' : Mem) (p1 p2 src n : Nat) : Prop :=
  (∀ i < n, m' (p1 + i) = m (p2 + i)) ∧ (∀ i < n, m' (p2 + i) = m (src + i)) ∧
  ∀ a, ¬(p1 ≤ a ∧ a < p1 + n) → ¬(p2 ≤ a ∧ a < p2 + n) → m' a = m a

/-! ## Copying -/

theorem write_read (m : Mem) (m' : Mem) (p q n a : Nat) :
    write m p (read m' q n) a = if p ≤ a ∧ a < p + n then m' (q + (a - p)) else m a := by
  unfold write read
  simp only [List.length_map, List.length_range]
  split
  · rename_i h
    simp [show a - p < n by omega]
  · rfl

theorem step_vector {m : Mem} {p1 p2 src : Nat} (h : Disjoint p1 p2 16) :
    Copied m (stepVector m p1 p2 src) p1 p2 src 16 := by
  unfold stepVector Disjoint at *
  refine ⟨?_, ?_, ?_⟩
  · intro i hi
    simp only [write_read]
    rw [if_neg (by omega), if_pos (by omega)]
    congr 1; omega
  · intro i hi
    simp only [write_read]
    rw [if_pos (by omega)]
    congr 1; omega
  · intro a h1 h2
    simp only [write_read]
    rw [if_neg (by omega), if_neg (by omega)]

theorem step_copy {c : Nat} {m : Mem} {p1 p2 src : Nat} (h : Disjoint p1 p2 c)
    (h' : Disjoint p1 src c) : Copied m (stepCopy c m p1 p2 src) p1 p2 src c := by
  unfold stepCopy Disjoint at *
  refine ⟨?_, ?_, ?_⟩
  · intro i hi
    simp only [write_read]
    rw [if_neg (by omega), if_pos (by omega)]
    congr 1; omega
  · intro i hi
    simp only [write_read]
    rw [if_pos (by omega), if_neg (by omega)]
    congr 1; omega
  · intro a h1 h2
    simp only [write_read]
    rw [if_neg (by omega), if_neg (by omega)]

theorem copied_add {m m1 m2 : Mem} {p1 p2 src k c : Nat} (h1 : Copied m m1 p1 p2 src k)
    (h2 : Copied m1 m2 (p1 + k) (p2 + k) (src + k) c) (d1 : Disjoint p1 p2 (k + c))
    (d2 : Disjoint p1 src (k + c)) (d3 : Disjoint p2 src (k + c)) :
    Copied m m2 p1 p2 src (k + c) := by
  unfold Copied Disjoint at *
  obtain ⟨a1, a2, a3⟩ := h1
  obtain ⟨b1, b2, b3⟩ := h2
  refine ⟨?_, ?_, ?_⟩
  · intro i hi
    by_cases hk : i < k
    · rw [b3 _ (by omega) (by omega), a1 i hk]
    · have := b1 (i - k) (by omega)
      rw [show p1 + k + (i - k) = p1 + i by omega, show p2 + k + (i - k) = p2 + i by omega] at this
      rw [this, a3 _ (by omega) (by omega)]
  · intro i hi
    by_cases hk : i < k
    · rw [b3 _ (by omega) (by omega), a2 i hk]
    · have := b2 (i - k) (by omega)
      rw [show src + k + (i - k) = src + i by omega, show p2 + k + (i - k) = p2 + i by omega] at this
      rw [this, a3 _ (by omega) (by omega)]
  · intro a x1 x2
    rw [b3 a (by omega) (by omega), a3 a (by omega) (by omega)]

theorem loop_ok {c : Nat} (hc : 0 < c) {step : Mem → Nat → Nat → Nat → Mem}
    (hs : ∀ (m : Mem) (p1 p2 src : Nat), Disjoint p1 p2 c → Disjoint p1 src c →
      Copied m (step m p1 p2 src) p1 p2 src c)
    {p1 p2 src len : Nat} (d1 : Disjoint p1 p2 len) (d2 : Disjoint p1 src len)
    (d3 : Disjoint p2 src len) (m0 : Mem) :
    ∀ (n pos : Nat) (m : Mem), len - pos ≤ n → pos ≤ len → Copied m0 m p1 p2 src pos →
      ∃ m' pos', loop c step m p1 p2 src pos len = (m', pos') ∧ Copied m0 m' p1 p2 src pos' ∧
        pos' ≤ len ∧ len < pos' + c := by
  intro n
  induction n with
  | zero =>
    intro pos m h1 h2 h3
    unfold loop
    rw [dif_neg (by omega)]
    exact ⟨m, pos, rfl, h3, h2, by omega⟩
  | succ n ih =>
    intro pos m h1 h2 h3
    unfold loop
    by_cases hlt : 0 < c ∧ pos + c ≤ len
    · rw [dif_pos hlt]
      unfold Disjoint at d1 d2 d3
      refine ih (pos + c) _ (by omega) (by omega) (copied_add h3 (hs _ _ _ _ ?_ ?_) ?_ ?_ ?_)
      all_goals (unfold Disjoint; omega)
    · rw [dif_neg hlt]
      exact ⟨m, pos, rfl, h3, h2, by omega⟩

theorem copied_zero (m : Mem) (p1 p2 src : Nat) : Copied m m p1 p2 src 0 :=
  ⟨by simp, by simp, by simp⟩

/-- `copy2` copies exactly `len` bytes, with or without the vector loop. -/
theorem copy2_spec (x86 : Bool) (m : Mem) (p1 p2 src len : Nat) (d1 : Disjoint p1 p2 len)
    (d2 : Disjoint p1 src len) (d3 : Disjoint p2 src len) :
    Copied m (copy2 x86 m p1 p2 src len) p1 p2 src len := by
  unfold copy2
  split
  · rename_i h
    subst h
    exact step_copy d1 d2
  · unfold copy2'
    obtain ⟨m1, q1, e1, c1, l1⟩ : ∃ m1 q1,
        (if x86 then loop 16 stepVector m p1 p2 src 0 len else (m, 0)) = (m1, q1) ∧
        Copied m m1 p1 p2 src q1 ∧ q1 ≤ len := by
      cases x86 with
      | false => exact ⟨m, 0, rfl, copied_zero .., by omega⟩
      | true =>
        obtain ⟨m', q, e, hc, hl, _⟩ := loop_ok (c := 16) (by omega)
          (fun m p1 p2 src h _ => step_vector h) d1 d2 d3 m len 0 m (by omega) (by omega)
          (copied_zero ..)
        exact ⟨m', q, by simpa using e, hc, hl⟩
    obtain ⟨m2, q2, e2, c2, l2, _⟩ := loop_ok (c := 8) (by omega)
      (fun m p1 p2 src h h' => step_copy h h') d1 d2 d3 m len q1 m1 (by omega) l1 c1
    obtain ⟨m3, q3, e3, c3, l3, _⟩ := loop_ok (c := 4) (by omega)
      (fun m p1 p2 src h h' => step_copy h h') d1 d2 d3 m len q2 m2 (by omega) l2 c2
    obtain ⟨m4, q4, e4, c4, l4, l4'⟩ := loop_ok (c := 1) (by omega)
      (fun m p1 p2 src h h' => step_copy h h') d1 d2 d3 m len q3 m3 (by omega) l3 c3
    simp only [e1, e2, e3, e4]
    have : q4 = len := by omega
    rw [← this]
    exact c4

/-! ## Comparing -/

theorem read_eq {m : Mem} {a b n : Nat} : read m a n = read m b n ↔ ∀ i < n, m (a + i) = m (b + i) := by
  unfold read
  constructor
  · intro h i hi
    have := congrArg (fun l => l[i]?) h
    simpa [hi] using this
  · intro h
    apply List.map_congr_left
    intro i hi
    exact h i (List.mem_range.1 hi)

theorem xor_mask (x y : UInt8) : ((x ^^^ y) &&& 0xff == 0) = decide (x = y) := by
  have h1 : (x ^^^ y) &&& 0xff = x ^^^ y := by
    have : (0xff : UInt8) = -1 := by decide
    rw [this, UInt8.and_neg_one]
  rw [h1]
  by_cases h : x = y
  · subst h; simp
  · simp [h, UInt8.xor_eq_zero_iff]

theorem cmpLoop_ok (m : Mem) (a b size : Nat) : ∀ (n pos : Nat), size - pos ≤ n → pos ≤ size →
    (∀ i < pos, m (a + i) = m (b + i)) →
    match cmpLoop m a b pos size with
    | none => ∃ i < size, m (a + i) ≠ m (b + i)
    | some q => q ≤ size ∧ size ≤ q + 15 ∧ ∀ i < q, m (a + i) = m (b + i) := by
  intro n
  induction n with
  | zero =>
    intro pos h1 h2 h3
    unfold cmpLoop
    rw [dif_neg (by omega)]
    exact ⟨h2, by omega, h3⟩
  | succ n ih =>
    intro pos h1 h2 h3
    unfold cmpLoop
    by_cases hlt : pos + 15 < size
    · rw [dif_pos hlt]
      by_cases he : read m (a + pos) 16 = read m (b + pos) 16
      · rw [if_pos he]
        refine ih (pos + 16) (by omega) (by omega) ?_
        intro i hi
        by_cases hp : i < pos
        · exact h3 i hp
        · have := read_eq.1 he (i - pos) (by omega)
          rwa [show a + pos + (i - pos) = a + i by omega, show b + pos + (i - pos) = b + i by omega] at this
      · rw [if_neg he]
        simp only
        have : ∃ i < 16, m (a + pos + i) ≠ m (b + pos + i) := by
          refine Classical.byContradiction fun hn => he (read_eq.2 fun i hi => ?_)
          exact Classical.byContradiction fun h => hn ⟨i, hi, h⟩
        obtain ⟨i, hi, hne⟩ := this
        exact ⟨pos + i, by omega, by simpa [Nat.add_assoc] using hne⟩
    · rw [dif_neg hlt]
      exact ⟨h2, by omega, h3⟩

theorem cmpTail_ok (m : Mem) (a b pos size : Nat) (h : size ≤ pos + 15) :
    cmpTail m a b pos size = true ↔ ∀ i, pos ≤ i → i < size → m (a + i) = m (b + i) := by
  unfold cmpTail
  rw [List.all_eq_true]
  constructor
  · intro hall i h1 h2
    have := hall (i - pos) (by simp; omega)
    simp only [show i - pos < size - pos by omega, if_true, xor_mask, decide_eq_true_eq] at this
    rwa [show a + pos + (i - pos) = a + i by omega, show b + pos + (i - pos) = b + i by omega] at this
  · intro hall i _
    by_cases hi : i < size - pos
    · simp only [hi, if_true, xor_mask, decide_eq_true_eq]
      have := hall (pos + i) (by omega) (by omega)
      simpa [Nat.add_assoc] using this
    · simp [hi]

/-- Comparing is true iff all bytes are equal, with or without vector instructions; bytes after the
end make no difference. -/
theorem cmp_spec (sse : Bool) (m : Mem) (a b size : Nat) :
    cmpBytes sse m a b size = true ↔ ∀ i < size, m (a + i) = m (b + i) := by
  unfold cmpBytes
  split
  · rename_i h
    subst h
    rw [beq_iff_eq]
    constructor
    · intro h i hi
      have : i = 0 := by omega
      simpa [this] using h
    · intro h; simpa using h 0 (by omega)
  · unfold cmpBytes'
    cases sse with
    | false => simp [read_eq]
    | true =>
      simp only [if_true]
      unfold cmpSse
      have := cmpLoop_ok m a b size size 0 (by omega) (by omega) (by omega)
      cases hl : cmpLoop m a b 0 size with
      | none =>
        rw [hl] at this
        obtain ⟨i, hi, hne⟩ := this
        simp only [Bool.false_eq_true, false_iff]
        intro h; exact hne (h i hi)
      | some q =>
        rw [hl] at this
        obtain ⟨h1, h2, h3⟩ := this
        simp only
        split
        · rw [cmpTail_ok m a b q size h2]
          constructor
          · intro h i hi
            by_cases hq : i < q
            · exact h3 i hq
            · exact h i (by omega) hi
          · intro h i _ hi; exact h i hi
        · constructor
          · intro _ i hi; exact h3 i (by omega)
          · intro _; rfl

/-! ## Values -/

/-- A copied value has the bytes it was copied from. -/
theorem copy_value_contents (n : Nat) (m : Mem) (p : Nat) :
    contents n (copyValue n m p) = some (read m p n) := by
  unfold copyValue contents valueSize
  by_cases h : n ≤ 8
  · simp only [h, if_true]
    have : n ≤ (read m p 8).length := by simp [read, h]
    simp only [this, if_true]
    congr 1
    unfold read
    rw [← List.map_take, List.take_range, Nat.min_eq_left h]
  · simp only [h, if_false]
    have : n ≤ (read m p n).length := by simp [read]
    simp only [this, if_true]
    congr 1
    apply List.take_of_length_le
    simp [read]

/-- Values of more than eight bytes, and of exactly eight, compare equal iff their bytes are equal.
Partial: smaller values may compare unequal, see below. -/
theorem cmp_values_partial (n : Nat) (hn : 8 ≤ n) (a b : Value) (x y : List UInt8)
    (ha : contents n a = some x) (hb : contents n b = some y) :
    cmpValues n a b = some (decide (x = y)) := by
  unfold cmpValues valueSize
  unfold contents valueSize at ha hb
  by_cases h : n ≤ 8
  · have : n = 8 := by omega
    subst this
    simp only [h, if_true] at ha hb ⊢
    cases a <;> cases b <;> simp only [reduceCtorEq] at ha hb
    split at ha
    · split at hb
      · cases ha; cases hb; rfl
      · cases hb
    · cases ha
  · simp only [h, if_false] at ha hb ⊢
    cases a <;> cases b <;> simp only [reduceCtorEq] at ha hb
    split at ha
    · split at hb
      · rename_i h1 h2
        cases ha; cases hb
        exact if_pos ⟨h1, h2⟩
      · cases hb
    · cases ha

/-- Small values that compare equal are equal. -/
theorem cmp_values_sound (n : Nat) (a b : Value) (x y : List UInt8) (ha : contents n a = some x)
    (hb : contents n b = some y) (h : cmpValues n a b = some true) : x = y := by
  by_cases hn : 8 ≤ n
  · rw [cmp_values_partial n hn a b x y ha hb] at h
    simpa using h
  · unfold cmpValues valueSize at h
    unfold contents valueSize at ha hb
    simp only [show n ≤ 8 by omega, if_true] at h ha hb
    cases a <;> cases b <;> simp only [reduceCtorEq] at ha hb
    split at ha
    · split at hb
      · rename_i u v h1 h2
        cases ha; cases hb
        have h : List.take 8 u = List.take 8 v := by simpa using h
        have := congrArg (List.take n) h
        rwa [List.take_take, List.take_take, Nat.min_eq_left (by omega)] at this
      · cases hb
    · cases ha

/-- Two values with the same bytes that compare unequal: both one-byte values were copied from memory
that holds 5, but the next byte differs. -/
theorem cmp_values_counterexample :
    ∃ (m : Mem) (p q : Nat), contents 1 (copyValue 1 m p) = contents 1 (copyValue 1 m q) ∧
      cmpValues 1 (copyValue 1 m p) (copyValue 1 m q) = some false :=
  ⟨fun a => if a = 0 ∨ a = 100 then 5 else if a = 101 then 7 else 0, 0, 100, by decide +kernel,
    by decide +kernel⟩

/-! ## Examples -/

/-- Memory with a different byte at each of the first 256 addresses -/
def demo : Mem := fun a => UInt8.ofNat a

example : Disjoint 0 50 29 ∧ Disjoint 0 100 29 ∧ Disjoint 50 100 29 := by simp [Disjoint]

example : (read (copy2 true demo 0 50 100 29) 0 3, read (copy2 true demo 0 50 100 29) 76 4) =
    ([50, 51, 52], [126, 127, 128, 79]) := by decide +kernel

example : cmpBytes true (fun a => if a = 40 then 1 else 0) 0 20 20 = true ∧
    cmpBytes true (fun a => if a = 39 then 1 else 0) 0 20 20 = false := by decide +kernel

end Verif.Sim.Copy
