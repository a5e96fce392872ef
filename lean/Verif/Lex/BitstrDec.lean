import Verif.Lex.BitstrBased

/-
Literals of base 10: the division of the decimal digits by two.
-/

namespace Verif.Lex

/-- The number that a list of digits stands for. -/
def dval : List Nat → Nat
  | [] => 0
  | d :: ds => d * 10 ^ ds.length + dval ds

theorem dval_bound (ds : List Nat) (h : ∀ d ∈ ds, d ≤ 9) : dval ds < 10 ^ ds.length := by
  induction ds with
  | nil => simp [dval]
  | cons d ds ih =>
    have h1 := ih (fun x hx => h x (by simp [hx]))
    have h2 := h d (by simp)
    rw [dval, List.length_cons, Nat.pow_succ]
    have : d * 10 ^ ds.length ≤ 9 * 10 ^ ds.length := Nat.mul_le_mul_right _ h2
    omega

theorem halve_spec (ds : List Nat) : ∀ cin, cin ≤ 1 → (∀ d ∈ ds, d ≤ 9) →
    2 * dval (halve cin ds).1 + (halve cin ds).2 = cin * 10 ^ ds.length + dval ds ∧
      (halve cin ds).1.length = ds.length ∧ (halve cin ds).2 ≤ 1 ∧
      ∀ d ∈ (halve cin ds).1, d ≤ 9 := by
  induction ds with
  | nil => intro cin h _; simp [halve, dval, h]
  | cons d ds ih =>
    intro cin hc h
    have hd := h d (by simp)
    obtain ⟨h1, h2, h3, h4⟩ := ih (d % 2) (by omega) (fun x hx => h x (by simp [hx]))
    rw [halve]
    refine ⟨?_, by simp [h2], h3, ?_⟩
    · dsimp only
      rw [dval, dval, h2, List.length_cons, Nat.pow_succ, Nat.mul_add, Nat.add_assoc, h1,
        ← Nat.add_assoc, ← Nat.mul_assoc, ← Nat.add_mul, ← Nat.add_assoc]
      congr 1
      rw [Nat.mul_comm (10 ^ ds.length), ← Nat.mul_assoc, ← Nat.add_mul]
      congr 1
      split <;> omega
    · intro x hx
      dsimp only at hx
      rcases List.mem_cons.mp hx with rfl | hx
      · split <;> omega
      · exact h4 x hx

theorem all_zero_iff (ds : List Nat) : ds.all (· == 0) = true ↔ dval ds = 0 := by
  induction ds with
  | nil => simp [dval]
  | cons d ds ih =>
    rw [List.all_cons, Bool.and_eq_true, ih, dval]
    have : 0 < 10 ^ ds.length := Nat.pow_pos (by decide)
    constructor
    · rintro ⟨h1, h2⟩
      have : d = 0 := by simpa using h1
      simp [this, h2]
    · intro h
      have h1 : d * 10 ^ ds.length = 0 := by omega
      rcases Nat.mul_eq_zero.mp h1 with h1 | h1
      · exact ⟨by simp [h1], by omega⟩
      · omega

theorem binary_snoc (bs : List Char) (b : Char) :
    binary (bs ++ [b]) = 2 * binary bs + if b = '1' then 1 else 0 := by
  unfold binary
  rw [List.foldl_append]
  rfl

/-- If there is room for the number, it is written there without zeros at the
    left. -/
theorem decLoop_ok (f : Nat) : ∀ (ds : List Nat) (room : Nat) (bits : List Char),
    (∀ d ∈ ds, d ≤ 9) → dval ds < 2 ^ f → dval ds < 2 ^ room →
    ∃ bs, decLoop (f + 1) ds room bits = .ok (room - bs.length, bs ++ bits) ∧ bs.length ≤ room ∧
      Binary bs (dval ds) ∧ bs.head? ≠ some '0' := by
  induction f with
  | zero =>
    intro ds room bits _ h _
    have h0 : dval ds = 0 := by simpa using h
    rw [decLoop, if_pos ((all_zero_iff ds).mpr h0)]
    exact ⟨[], by simp, by simp, ⟨by simp, by simp [binary, h0]⟩, by simp⟩
  | succ f ih =>
    intro ds room bits hd h hr
    rw [decLoop]
    by_cases h0 : dval ds = 0
    · rw [if_pos ((all_zero_iff ds).mpr h0)]
      exact ⟨[], by simp, by simp, ⟨by simp, by simp [binary, h0]⟩, by simp⟩
    · rw [if_neg (fun e => h0 ((all_zero_iff ds).mp e))]
      obtain ⟨h1, h2, h3, h4⟩ := halve_spec ds 0 (by omega) hd
      rw [Nat.zero_mul, Nat.zero_add] at h1
      have hroom : room ≠ 0 := by
        rintro rfl
        simp at hr
        omega
      rw [if_neg (fun e => hroom e.1), if_pos (by omega)]
      rw [Nat.pow_succ] at h
      have e : room = (room - 1) + 1 := by omega
      rw [e, Nat.pow_succ] at hr
      obtain ⟨bs, g1, g2, g3, g4⟩ := ih (halve 0 ds).1 (room - 1)
        ((if (halve 0 ds).2 ≠ 0 then '1' else '0') :: bits) h4 (by omega) (by omega)
      refine ⟨bs ++ [if (halve 0 ds).2 ≠ 0 then '1' else '0'], ?_, ?_, ⟨?_, ?_⟩, ?_⟩
      · rw [g1, List.length_append, List.length_singleton, List.append_assoc, List.singleton_append]
        congr 2
        omega
      · rw [List.length_append, List.length_singleton]
        omega
      · intro d hd
        rcases List.mem_append.mp hd with hd | hd
        · exact g3.1 d hd
        · rw [List.mem_singleton.mp hd]
          split
          · exact Or.inr rfl
          · exact Or.inl rfl
      · rw [binary_snoc, g3.2]
        split
        · rw [if_pos rfl]; omega
        · rw [if_neg (by decide)]; omega
      · cases bs with
        | cons x xs => simpa using g4
        | nil =>
          have hz : dval (halve 0 ds).1 = 0 := by
            have := g3.2
            simpa [binary] using this.symm
          have : (halve 0 ds).2 ≠ 0 := by omega
          simp [this]

/-- If there is not, the error is found. -/
theorem decLoop_excess (f : Nat) : ∀ (ds : List Nat) (room : Nat) (bits : List Char),
    (∀ d ∈ ds, d ≤ 9) → dval ds < 2 ^ f → 2 ^ room ≤ dval ds →
    decLoop (f + 1) ds room bits = .error .excess := by
  induction f with
  | zero =>
    intro ds room bits _ h hr
    have := Nat.two_pow_pos room
    simp at h
    omega
  | succ f ih =>
    intro ds room bits hd h hr
    have hp := Nat.two_pow_pos room
    rw [decLoop, if_neg (fun e => by rw [all_zero_iff] at e; omega)]
    obtain ⟨h1, h2, h3, h4⟩ := halve_spec ds 0 (by omega) hd
    rw [Nat.zero_mul, Nat.zero_add] at h1
    rw [Nat.pow_succ] at h
    by_cases hroom : room = 0
    · subst hroom
      by_cases hc : (halve 0 ds).2 = 0
      · rw [if_neg (fun e => e.2 hc), if_neg (by omega)]
        exact ih _ _ _ h4 (by omega) (by simp at hr ⊢; omega)
      · rw [if_pos ⟨rfl, hc⟩]
    · rw [if_neg (fun e => hroom e.1), if_pos (by omega)]
      have e : room = (room - 1) + 1 := by omega
      rw [e, Nat.pow_succ] at hr
      exact ih _ _ _ h4 (by omega) (by omega)

theorem decDigits_some (cs : List Char) (rest : List Char) (hq : '"' ∉ cs) (v : Nat)
    (h : decimalValue cs = some v) :
    ∃ ds, decDigits (cs ++ '"' :: rest) = some ds ∧ ds.length = cs.length ∧ (∀ d ∈ ds, d ≤ 9) ∧
      dval ds = v := by
  induction cs generalizing v with
  | nil =>
    refine ⟨[], by simp [decDigits], rfl, by simp, ?_⟩
    rw [decimalValue] at h
    cases Option.some.inj h
    rfl
  | cons c cs ih =>
    rw [decimalValue] at h
    split at h
    · next hc =>
      obtain ⟨w, hw, rfl⟩ := Option.map_eq_some_iff.mp h
      obtain ⟨ds, h1, h2, h3, h4⟩ := ih (fun e => hq (by simp [e])) w hw
      have hdig : isDigit c = true := by
        unfold isDigit
        have e1 : '0'.toNat = 48 := rfl
        have e2 : '9'.toNat = 57 := rfl
        simp only [e1, e2, Bool.and_eq_true, decide_eq_true_eq]
        omega
      refine ⟨(c.toNat - 48) :: ds, ?_, by simp [h2], ?_, ?_⟩
      · rw [List.cons_append, decDigits, if_neg (fun e => hq (by simp [e])), hdig]
        simp [h1]
      · intro d hd
        rcases List.mem_cons.mp hd with rfl | hd
        · omega
        · exact h3 d hd
      · rw [dval, h2, h4]
    · cases h

theorem decDigits_none (cs : List Char) (rest : List Char) (hq : '"' ∉ cs)
    (h : decimalValue cs = none) : decDigits (cs ++ '"' :: rest) = none := by
  induction cs with
  | nil => cases h
  | cons c cs ih =>
    rw [List.cons_append, decDigits, if_neg (fun e => hq (by simp [e]))]
    rw [decimalValue] at h
    split at h
    · have h1 := Option.map_eq_none_iff.mp h
      rw [ih (fun e => hq (by simp [e])) h1]
      split <;> rfl
    · next hc =>
      have hdig : isDigit c = false := by
        unfold isDigit
        have e1 : '0'.toNat = 48 := rfl
        have e2 : '9'.toNat = 57 := rfl
        rw [e1, e2]
        apply Bool.eq_false_iff.mpr
        simp only [ne_eq, Bool.and_eq_true, decide_eq_true_eq]
        omega
      rw [hdig]
      rfl

theorem pow_ten_two (n : Nat) : 10 ^ n ≤ 2 ^ (4 * n) := by
  rw [Nat.pow_mul]
  exact Nat.pow_le_pow_left (by decide) n

/-- All of the part for base 10. -/
theorem decimal_some (cs rest : List Char) (hq : '"' ∉ cs) (v : Nat)
    (h : decimalValue cs = some v) (len : Option Nat) :
    (len = none → ∃ out, decimal len (cs ++ '"' :: rest) = .ok out ∧ Binary out v ∧ out.head? ≠ some '0') ∧
    (∀ n, len = some n → (v < 2 ^ n → ∃ out, decimal len (cs ++ '"' :: rest) = .ok out ∧
        out.length = n ∧ Binary out v) ∧
      (2 ^ n ≤ v → decimal len (cs ++ '"' :: rest) = .excess)) := by
  obtain ⟨ds, h1, h2, h3, h4⟩ := decDigits_some cs rest hq v h
  have hb : v < 2 ^ (4 * ds.length) := by
    have := dval_bound ds h3
    have := pow_ten_two ds.length
    omega
  rw [← h4] at hb
  unfold decimal
  rw [h1]
  dsimp only
  refine ⟨?_, ?_⟩
  · rintro rfl
    obtain ⟨bs, g1, g2, g3, g4⟩ := decLoop_ok (4 * ds.length) ds (ds.length * 4) [] h3 hb
      (by rw [Nat.mul_comm ds.length]; exact hb)
    rw [Option.getD_none, g1]
    refine ⟨bs, by simp, ?_, g4⟩
    rw [← h4]
    exact g3
  · rintro n rfl
    refine ⟨?_, ?_⟩
    · intro hv
      obtain ⟨bs, g1, g2, g3, g4⟩ := decLoop_ok (4 * ds.length) ds n [] h3 hb (by rw [h4]; exact hv)
      rw [Option.getD_some, g1]
      refine ⟨_, rfl, ?_, ?_, ?_⟩
      · simp
        omega
      · intro d hd
        rcases List.mem_append.mp hd with hd | hd
        · exact Or.inl (List.eq_of_mem_replicate hd)
        · exact g3.1 d (by simpa using hd)
      · rw [List.append_nil, ← h4, ← g3.2]
        unfold binary
        rw [List.foldl_append]
        congr 1
        generalize n - bs.length = m
        induction m with
        | zero => rfl
        | succ m ih => rw [List.replicate_succ, List.foldl_cons]; simpa using ih
    · intro hv
      rw [Option.getD_some, decLoop_excess (4 * ds.length) ds n [] h3 hb (by rw [h4]; exact hv)]

theorem decimal_none (cs rest : List Char) (hq : '"' ∉ cs) (h : decimalValue cs = none)
    (len : Option Nat) : decimal len (cs ++ '"' :: rest) = .badDigit := by
  unfold decimal
  rw [decDigits_none cs rest hq h]

end Verif.Lex
