import Verif.ToString.Model

/-
Theorems on TO_HSTRING and TO_OSTRING of bit vectors, property C104.
-/

namespace Verif.ToString

open Spec

/-- The number of the first `n` bits of a function. -/
def num (f : Nat → Nat) (n : Nat) : Nat := (List.range n).foldl (fun a j => a * 2 + f j) 0

theorem num_zero (f : Nat → Nat) : num f 0 = 0 := rfl

theorem num_succ (f : Nat → Nat) (n : Nat) : num f (n + 1) = num f n * 2 + f n := by
  unfold num; rw [List.range_succ, List.foldl_append]; rfl

theorem num_add (f : Nat → Nat) (a b : Nat) :
    num f (a + b) = num f a * 2 ^ b + num (fun j => f (a + j)) b := by
  induction b with
  | zero => simp [num_zero]
  | succ b ih =>
    rw [← Nat.add_assoc, num_succ, ih, num_succ, Nat.pow_succ, Nat.add_mul, Nat.mul_assoc]
    omega

theorem num_congr (f g : Nat → Nat) (n : Nat) (h : ∀ j : Nat, j < n → f j = g j) : num f n = num g n := by
  induction n with
  | zero => rfl
  | succ n ih =>
    rw [num_succ, num_succ, ih fun j hj => h j (by omega), h n (by omega)]

theorem num_null (f : Nat → Nat) (n : Nat) (h : ∀ j : Nat, j < n → f j = 0) : num f n = 0 := by
  induction n with
  | zero => rfl
  | succ n ih => rw [num_succ, ih fun j hj => h j (by omega), h n (by omega)]

theorem num_lt (f : Nat → Nat) (n : Nat) (h : ∀ j : Nat, f j ≤ 1) : num f n < 2 ^ n := by
  induction n with
  | zero => simp [num_zero]
  | succ n ih => rw [num_succ, Nat.pow_succ]; have := h n; omega

/-- The bits with those that are missing on the left. -/
def padded (k : Nat) (v : List Nat) (n : Nat) : Nat :=
  if n < leftPad k v.length then 0 else bit v (n - leftPad k v.length)

theorem bit_le (v : List Nat) (n : Nat) : bit v n ≤ 1 := by unfold bit; split <;> omega

theorem padded_le (k : Nat) (v : List Nat) (n : Nat) : padded k v n ≤ 1 := by
  unfold padded; split
  · omega
  · exact bit_le _ _

theorem pad_lt (k n : Nat) (hk : 0 < k) : leftPad k n < k := Nat.mod_lt _ hk

theorem nibble_eq (k : Nat) (v : List Nat) (i : Nat) (hk : 0 < k) :
    nibble k v i = num (fun j => padded k v (i * k + j)) k := by
  have hp := pad_lt k v.length hk
  have key : ∀ m : Nat, (List.range m).foldl (fun n j =>
      if i > 0 ∨ j ≥ leftPad k v.length then n * 2 + bit v (i * k + j - leftPad k v.length) else n) 0 =
      num (fun j => padded k v (i * k + j)) m := by
    intro m
    induction m with
    | zero => rfl
    | succ m ih =>
      rw [List.range_succ, List.foldl_append, ih, num_succ]
      show (if i > 0 ∨ m ≥ leftPad k v.length then
        num (fun j => padded k v (i * k + j)) m * 2 + bit v (i * k + m - leftPad k v.length)
        else num (fun j => padded k v (i * k + j)) m) = _
      by_cases h : i > 0 ∨ m ≥ leftPad k v.length
      · rw [if_pos h]
        congr 1
        unfold padded
        rw [if_neg]
        rcases h with h | h
        · have : k ≤ i * k := Nat.le_mul_of_pos_left k h
          omega
        · omega
      · rw [if_neg h]
        have hi : i = 0 := by omega
        subst hi
        rw [num_null _ m fun j hj => by unfold padded; rw [if_pos (by omega)]]
        unfold padded
        rw [if_pos (by omega)]
  exact key k

theorem len_eq (k n : Nat) (hk : 0 < k) : resultLen k n * k = leftPad k n + n := by
  unfold resultLen leftPad
  have h1 := Nat.div_add_mod n k
  have h2 := Nat.mod_lt n hk
  generalize hq : n / k = q at h1
  generalize hr : n % k = r at h1 h2
  by_cases h0 : r = 0
  · subst h0
    rw [Nat.sub_zero, Nat.mod_self]
    have : (n + k - 1) / k = q := by
      rw [← h1, Nat.add_zero, Nat.add_sub_assoc hk, Nat.mul_add_div hk,
        Nat.div_eq_of_lt (by omega), Nat.add_zero]
    rw [this, Nat.mul_comm]; omega
  · rw [Nat.mod_eq_of_lt (by omega)]
    have : (n + k - 1) / k = q + 1 := by
      have e : n + k - 1 = k * (q + 1) + (r - 1) := by rw [Nat.mul_add]; omega
      rw [e, Nat.mul_add_div hk, Nat.div_eq_of_lt (by omega), Nat.add_zero]
    rw [this, Nat.add_mul, Nat.mul_comm]; omega

theorem value_eq (v : List Nat) : value v = num (bit v) v.length := by
  have h : v = (List.range v.length).map fun j => v.getD j 0 := by
    apply List.ext_getElem
    · simp
    · intro n h1 h2
      simp [List.getD_eq_getElem?_getD, h1]
  unfold value num
  conv => lhs; rw [h]
  rw [List.foldl_map]
  unfold bit
  congr 1
  funext n j
  rw [Nat.mul_comm]

theorem digit_map (n : Nat) (h : n < 16) : digit (digits.getD n 0) = n := by
  have : ∀ m : Fin 16, digit (digits.getD m.val 0) = m.val := by decide
  exact this ⟨n, h⟩

/-- No bit outside the vector is read. -/
theorem index_in_bounds (k : Nat) (v : List Nat) (i j : Nat) (hk : 0 < k)
    (hi : i < resultLen k v.length) (hj : j < k) (h : i > 0 ∨ j ≥ leftPad k v.length) :
    leftPad k v.length ≤ i * k + j ∧ i * k + j - leftPad k v.length < v.length := by
  have hp := pad_lt k v.length hk
  have hl := len_eq k v.length hk
  have h1 : (i + 1) * k ≤ resultLen k v.length * k := Nat.mul_le_mul_right k hi
  rw [Nat.add_mul, Nat.one_mul] at h1
  have h2 : leftPad k v.length ≤ i * k + j := by
    rcases h with h | h
    · have : k ≤ i * k := Nat.le_mul_of_pos_left k h
      omega
    · omega
  omega

/-- The text has as many digits as are needed, all of the base, and stands for
the number of the vector: octal for 3 and hexadecimal for 4. -/
theorem to_string_value (k : Nat) (v : List Nat) (hk : 0 < k) (h4 : k ≤ 4) :
    number (2 ^ k) (toStr k v) = value v ∧
    (toStr k v).length = (v.length + k - 1) / k ∧
    ∀ c ∈ toStr k v, digit c < 2 ^ k ∧ c ∈ digits := by
  have h16 : 2 ^ k ≤ 16 := Nat.pow_le_pow_right (by decide) h4
  have hn : ∀ i : Nat, nibble k v i < 2 ^ k := fun i => by
    rw [nibble_eq k v i hk]; exact num_lt _ _ fun j => padded_le _ _ _
  refine ⟨?_, by unfold toStr resultLen; simp, ?_⟩
  · have key : ∀ m : Nat, number (2 ^ k) ((List.range m).map fun i => digits.getD (nibble k v i) 0) =
        num (padded k v) (m * k) := by
      intro m
      induction m with
      | zero => rw [Nat.zero_mul]; rfl
      | succ m ih =>
        have e : number (2 ^ k) ((List.range (m + 1)).map fun i => digits.getD (nibble k v i) 0) =
            2 ^ k * number (2 ^ k) ((List.range m).map fun i => digits.getD (nibble k v i) 0) +
              digit (digits.getD (nibble k v m) 0) := by
          unfold number
          rw [List.range_succ, List.map_append, List.foldl_append]
          rfl
        have := hn m
        rw [e, ih, digit_map _ (by omega), Nat.add_mul, Nat.one_mul, num_add, nibble_eq k v m hk,
          Nat.mul_comm]
    unfold toStr
    rw [key, len_eq k _ hk, num_add, num_null (padded k v) (leftPad k v.length), Nat.zero_mul,
      Nat.zero_add, value_eq]
    · apply num_congr
      intro j _
      unfold padded
      rw [if_neg (by omega)]
      congr 1
      omega
    · intro j hj
      unfold padded
      rw [if_pos hj]
  · intro c hc
    unfold toStr at hc
    obtain ⟨i, _, e⟩ := List.mem_map.mp hc
    have h1 := hn i
    subst e
    refine ⟨by rw [digit_map _ (by omega)]; exact h1, ?_⟩
    have : ∀ m : Fin 16, digits.getD m.val 0 ∈ digits := by decide
    exact this ⟨nibble k v i, by omega⟩

example : toStr 4 [1, 0, 1, 1, 1, 1] = [50, 70] ∧ toStr 3 [1, 0, 1, 1] = [49, 51] ∧
    toStr 4 [] = [] := by decide

/-- The check of formats for reals accepts exactly a percent sign and
characters of the list after it. -/
theorem format_iff (t : List Nat) : okFormat t = true ↔
    ∃ p : List Nat, t = 37 :: p ∧ ∀ c ∈ p, c ∈ [101, 69, 102, 70, 103, 71, 97, 65, 46, 45] ∨
      (48 ≤ c ∧ c ≤ 57) := by
  have hc : ∀ c : Nat, okChar c = true ↔ c ∈ [101, 69, 102, 70, 103, 71, 97, 65, 46, 45] ∨
      (48 ≤ c ∧ c ≤ 57) := by
    intro c
    unfold okChar
    simp
    omega
  constructor
  · intro h
    unfold okFormat at h
    split at h
    · rename_i p
      rw [List.all_eq_true] at h
      exact ⟨p, rfl, fun c hx => (hc c).mp (h c hx)⟩
    · cases h
  · rintro ⟨p, rfl, h⟩
    show p.all okChar = true
    rw [List.all_eq_true]
    exact fun c hx => (hc c).mpr (h c hx)

/-- So nothing is read but the number: there is no second conversion, no `n`,
`s` or `*`. -/
theorem format_safe (t : List Nat) (h : okFormat t = true) :
    t.count 37 = 1 ∧ 110 ∉ t ∧ 115 ∉ t ∧ 42 ∉ t := by
  obtain ⟨p, rfl, hp⟩ := (format_iff t).mp h
  have hn : ∀ c : Nat, c = 37 ∨ c = 110 ∨ c = 115 ∨ c = 42 → c ∉ p := by
    intro c hc hx
    have := hp c hx
    simp at this
    omega
  refine ⟨?_, ?_, ?_, ?_⟩
  · rw [List.count_cons_self, List.count_eq_zero.mpr (hn 37 (by simp))]
  · rw [List.mem_cons, not_or]; exact ⟨by decide, hn _ (by simp)⟩
  · rw [List.mem_cons, not_or]; exact ⟨by decide, hn _ (by simp)⟩
  · rw [List.mem_cons, not_or]; exact ⟨by decide, hn _ (by simp)⟩

/-- Formats without a conversion, like "%" and "%5", and with text after it,
like "%fee", are accepted. -/
theorem format_counterexample : okFormat [37] = true ∧ okFormat [37, 53] = true ∧
    okFormat [37, 102, 101, 101] = true := by decide

example : okFormat [37, 49, 48, 46, 51, 102] = true := by decide

example : 0 < resultLen 4 [1, 0, 1, 1, 1].length ∧ (3 : Nat) ≥ leftPad 4 [1, 0, 1, 1, 1].length := by
  decide

theorem unitStr_iff (unit : Int) (u : String) :
    unitStr unit = some u ↔ ∃ n : Nat, (u, n) ∈ units ∧ unit = n := by
  unfold unitStr units
  constructor
  · intro h
    repeat' split at h
    all_goals first | (cases h; done) | (cases h; subst unit; simp)
  · rintro ⟨n, h, rfl⟩
    simp at h
    rcases h with ⟨rfl, rfl⟩ | ⟨rfl, rfl⟩ | ⟨rfl, rfl⟩ | ⟨rfl, rfl⟩ | ⟨rfl, rfl⟩ | ⟨rfl, rfl⟩ |
      ⟨rfl, rfl⟩ | ⟨rfl, rfl⟩ <;> rfl

/-- A time is shown exactly for the units of TIME.  If it is a multiple of the
unit, and only then, a whole number is shown, and that number of units is the time. -/
theorem time_shown (value unit : Int) :
    ((timeShown value unit).isSome ↔ ∃ u n, (u, n) ∈ units ∧ unit = (n : Nat)) ∧
    (∀ (q : Int) (u : String), timeShown value unit = some (.whole q u) ↔
      ∃ n : Nat, (u, n) ∈ units ∧ unit = n ∧ q * n = value) := by
  refine ⟨?_, ?_⟩
  · unfold timeShown
    rw [Option.isSome_map, Option.isSome_iff_exists]
    constructor
    · rintro ⟨u, h⟩
      obtain ⟨n, h⟩ := (unitStr_iff unit u).mp h
      exact ⟨u, n, h⟩
    · rintro ⟨u, n, h⟩
      exact ⟨u, (unitStr_iff unit u).mpr ⟨n, h⟩⟩
  · intro q u
    unfold timeShown
    rw [Option.map_eq_some_iff]
    constructor
    · rintro ⟨w, hw, h⟩
      split at h
      · rename_i hm
        cases h
        obtain ⟨n, h1, h2⟩ := (unitStr_iff unit u).mp hw
        refine ⟨n, h1, h2, ?_⟩
        rw [← h2]
        exact Int.tdiv_mul_cancel (Int.dvd_of_tmod_eq_zero hm)
      · cases h
    · rintro ⟨n, h1, h2, h3⟩
      refine ⟨u, (unitStr_iff unit u).mpr ⟨n, h1, h2⟩, ?_⟩
      have h0 : (n : Int) ≠ 0 := by
        intro e
        have : n = 0 := by omega
        subst this
        simp [units] at h1
      rw [h2, ← h3, Int.mul_tmod_left, if_pos rfl, Int.mul_tdiv_cancel _ h0]

example : timeShown (-120000) 1000 = some (.whole (-120) "ps") ∧
    timeShown 1500 1000 = some (.quotient 1500 1000 "ps") ∧ timeShown 5 7 = none := by decide

end Verif.ToString
