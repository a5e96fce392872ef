import Verif.Lex.BitstrModel
import Verif.Lex.BitstrSpec

/-
Literals of base 2, 8 and 16: the characters, and the loop that adjusts the
length.
-/

namespace Verif.Lex

/-! ### Digits -/

theorem digits_lower : ∀ v < 16, ∀ c, "0123456789abcdef".toList[v]? = some c →
    extended 16 c = true ∧ digitOf c = v ∧ (∀ k, 1 ≤ k → k ≤ 4 → (extended (2 ^ k) c = true ↔ v < 2 ^ k)) := by
  have h : ∀ v : Fin 16, ∀ k : Fin 4, ("0123456789abcdef".toList[v.val]?).all (fun c =>
      extended 16 c && (digitOf c == v.val) && (extended (2 ^ (k.val + 1)) c == decide (v.val < 2 ^ (k.val + 1)))) = true := by
    decide +kernel
  intro v hv c hc
  have h0 : ∀ k : Fin 4, _ := h ⟨v, hv⟩
  simp only [hc, Option.all_some, Bool.and_eq_true, beq_iff_eq] at h0
  refine ⟨(h0 0).1.1, (h0 0).1.2, ?_⟩
  intro k h1 h4
  have := (h0 ⟨k - 1, by omega⟩).2
  have e : k - 1 + 1 = k := by omega
  simp only [e] at this
  rw [this]
  simp

theorem digits_upper : ∀ v < 16, ∀ c, "0123456789ABCDEF".toList[v]? = some c →
    extended 16 c = true ∧ digitOf c = v ∧ (∀ k, 1 ≤ k → k ≤ 4 → (extended (2 ^ k) c = true ↔ v < 2 ^ k)) := by
  have h : ∀ v : Fin 16, ∀ k : Fin 4, ("0123456789ABCDEF".toList[v.val]?).all (fun c =>
      extended 16 c && (digitOf c == v.val) && (extended (2 ^ (k.val + 1)) c == decide (v.val < 2 ^ (k.val + 1)))) = true := by
    decide +kernel
  intro v hv c hc
  have h0 : ∀ k : Fin 4, _ := h ⟨v, hv⟩
  simp only [hc, Option.all_some, Bool.and_eq_true, beq_iff_eq] at h0
  refine ⟨(h0 0).1.1, (h0 0).1.2, ?_⟩
  intro k h1 h4
  have := (h0 ⟨k - 1, by omega⟩).2
  have e : k - 1 + 1 = k := by omega
  simp only [e] at this
  rw [this]
  simp

theorem digitValue_lt {c : Char} {v : Nat} (h : DigitValue c v) : v < 16 := by
  rcases h with h | h <;> exact (List.getElem?_eq_some_iff.mp h).1

theorem digitValue_ext {c : Char} {v : Nat} (h : DigitValue c v) :
    digitOf c = v ∧ (∀ k, 1 ≤ k → k ≤ 4 → (extended (2 ^ k) c = true ↔ v < 2 ^ k)) := by
  have hv := digitValue_lt h
  rcases h with h | h
  · exact (digits_lower v hv c h).2
  · exact (digits_upper v hv c h).2

theorem char_eq {c : Char} {n : Nat} (h : c.toNat = n) : c = Char.ofNat n := by
  rw [← h, Char.ofNat_toNat]

theorem digitValue_code : ∀ n < 256, extended 16 (Char.ofNat n) = true →
    DigitValue (Char.ofNat n) (digitOf (Char.ofNat n)) := by
  have h : ∀ n : Fin 256, extended 16 (Char.ofNat n.val) = true →
      ("0123456789abcdef".toList[digitOf (Char.ofNat n.val)]? = some (Char.ofNat n.val) ∨
        "0123456789ABCDEF".toList[digitOf (Char.ofNat n.val)]? = some (Char.ofNat n.val)) := by
    decide +kernel
  intro n hn
  exact h ⟨n, hn⟩

theorem extended_code {b : Nat} (hb : b ≤ 16) {c : Char} (h : extended b c = true) :
    c.toNat < 256 ∧ extended 16 c = true := by
  unfold extended isDigit at *
  simp only [Bool.or_eq_true, Bool.and_eq_true, decide_eq_true_eq] at *
  have e1 : '0'.toNat = 48 := rfl
  have e2 : '9'.toNat = 57 := rfl
  have e3 : 'A'.toNat = 65 := rfl
  have e4 : 'a'.toNat = 97 := rfl
  rw [e1, e2, e3, e4] at h ⊢
  omega

theorem digitValue_of_ext {b : Nat} (hb : b ≤ 16) {c : Char} (h : extended b c = true) :
    DigitValue c (digitOf c) := by
  obtain ⟨h1, h2⟩ := extended_code hb h
  have h3 := digitValue_code c.toNat h1
  rw [Char.ofNat_toNat] at h3
  exact h3 h2

theorem bits_table : ∀ k, k = 1 ∨ k = 3 ∨ k = 4 → ∀ n, n < 2 ^ k →
    (bitsOf (2 ^ k) (2 ^ k / 2) n).length = k ∧ Binary (bitsOf (2 ^ k) (2 ^ k / 2) n) n := by
  have h1 : ∀ n : Fin 2, (bitsOf 2 1 n.val).length = 1 ∧
      (∀ d ∈ bitsOf 2 1 n.val, d = '0' ∨ d = '1') ∧ binary (bitsOf 2 1 n.val) = n.val := by
    decide +kernel
  have h3 : ∀ n : Fin 8, (bitsOf 8 4 n.val).length = 3 ∧
      (∀ d ∈ bitsOf 8 4 n.val, d = '0' ∨ d = '1') ∧ binary (bitsOf 8 4 n.val) = n.val := by
    decide +kernel
  have h4 : ∀ n : Fin 16, (bitsOf 16 8 n.val).length = 4 ∧
      (∀ d ∈ bitsOf 16 8 n.val, d = '0' ∨ d = '1') ∧ binary (bitsOf 16 8 n.val) = n.val := by
    decide +kernel
  intro k hk n hn
  rcases hk with rfl | rfl | rfl
  · exact h1 ⟨n, hn⟩
  · exact h3 ⟨n, hn⟩
  · exact h4 ⟨n, hn⟩

theorem binary_bound (ds : List Char) : ∀ a, (∀ d ∈ ds, d = '0' ∨ d = '1') →
    ds.foldl (fun a c => 2 * a + if c = '1' then 1 else 0) a = 2 ^ ds.length * a + binary ds ∧
      binary ds < 2 ^ ds.length := by
  induction ds with
  | nil => intro a _; simp [binary]
  | cons d ds ih =>
    intro a h
    have hd := fun b => ih b (fun x hx => h x (by simp [hx]))
    unfold binary
    rw [List.foldl_cons, List.foldl_cons, (hd _).1, (hd _).1, List.length_cons, Nat.pow_succ]
    have h2 := (hd 0).2
    refine ⟨?_, ?_⟩
    · rw [Nat.mul_add, Nat.mul_zero]
      simp only [Nat.mul_assoc, Nat.mul_comm a, Nat.mul_add, Nat.mul_left_comm]
      omega
    · split
      · omega
      · omega

/-- Two strings of bits of the same length with the same value are the same. -/
theorem binary_inj : ∀ (a b : List Char), a.length = b.length →
    (∀ d ∈ a, d = '0' ∨ d = '1') → (∀ d ∈ b, d = '0' ∨ d = '1') → binary a = binary b → a = b := by
  intro a
  induction a with
  | nil =>
    intro b hl _ _ _
    cases b with
    | nil => rfl
    | cons => simp at hl
  | cons x xs ih =>
    intro b hl ha hb he
    cases b with
    | nil => simp at hl
    | cons y ys =>
      have hxs : ∀ d ∈ xs, d = '0' ∨ d = '1' := fun d hd => ha d (by simp [hd])
      have hys : ∀ d ∈ ys, d = '0' ∨ d = '1' := fun d hd => hb d (by simp [hd])
      have hlen : xs.length = ys.length := by simpa using hl
      have e1 : binary (x :: xs) = 2 ^ xs.length * (if x = '1' then 1 else 0) + binary xs := by
        have := (binary_bound xs (if x = '1' then 1 else 0) hxs).1
        rw [← this]
        unfold binary
        rw [List.foldl_cons, Nat.mul_zero, Nat.zero_add]
      have e2 : binary (y :: ys) = 2 ^ ys.length * (if y = '1' then 1 else 0) + binary ys := by
        have := (binary_bound ys (if y = '1' then 1 else 0) hys).1
        rw [← this]
        unfold binary
        rw [List.foldl_cons, Nat.mul_zero, Nat.zero_add]
      have b1 := (binary_bound xs 0 hxs).2
      have b2 := (binary_bound ys 0 hys).2
      rw [e1, e2, hlen] at he
      rw [hlen] at b1
      have hx := ha x (by simp)
      have hy := hb y (by simp)
      rcases hx with rfl | rfl <;> rcases hy with rfl | rfl
      · rw [ih ys hlen hxs hys (by simpa using he)]
      · simp at he; omega
      · simp at he; omega
      · rw [ih ys hlen hxs hys (by simpa using he)]

theorem isPrint_iff (c : Char) : isPrint c = true ↔ Graphic c := by
  unfold isPrint Graphic
  simp only [Bool.or_eq_true, Bool.and_eq_true, decide_eq_true_eq]
  omega

/-- The elements for a character are what the standard says. -/
theorem elements_iff {k : Nat} (hk : k = 1 ∨ k = 3 ∨ k = 4) (std08 : Bool) (c : Char) (ds : List Char) :
    elements std08 (2 ^ k) c = some ds ↔ Replaced std08 k c ds := by
  have hk1 : 1 ≤ k ∧ k ≤ 4 := by omega
  have hb : 2 ^ k ≤ 16 := by rcases hk with rfl | rfl | rfl <;> decide
  have hpos : 0 < 2 ^ k := Nat.two_pow_pos k
  unfold elements Replaced
  cases hx : extended (2 ^ k) c with
  | true =>
    rw [if_pos rfl]
    have hd := digitValue_of_ext hb hx
    have hlt := ((digitValue_ext hd).2 k hk1.1 hk1.2).mp hx
    have ht := bits_table k hk _ hlt
    constructor
    · intro h
      cases Option.some.inj h
      exact ⟨ht.1, Or.inl ⟨_, hd, hlt, ht.2⟩⟩
    · rintro ⟨hl, h | h⟩
      · obtain ⟨v, h1, h2, h3⟩ := h
        have hv := (digitValue_ext h1).1
        subst hv
        congr 1
        exact binary_inj _ _ (by rw [ht.1, hl]) ht.2.1 h3.1 (by rw [ht.2.2, h3.2])
      · have := h.2.1 _ hd
        omega
  | false =>
    rw [if_neg (by simp)]
    have hno : ∀ v, DigitValue c v → 2 ^ k ≤ v := by
      intro v hv
      have := (digitValue_ext hv).2 k hk1.1 hk1.2
      rw [hx] at this
      simp at this
      exact this
    have hn : ¬ ∃ v, DigitValue c v ∧ v < 2 ^ k ∧ Binary ds v := by
      rintro ⟨v, h1, h2, _⟩
      have := hno v h1
      omega
    rw [← isPrint_iff]
    cases hs : std08 with
    | false => simp [hn]
    | true =>
      cases hp : isPrint c with
      | false => simp [hn]
      | true =>
        simp only [Bool.not_true, Bool.or_self, Bool.false_eq_true, if_false, Option.some.injEq, hn,
          false_or, true_and]
        have hlen : (bitsOf (2 ^ k) (2 ^ k / 2) 0).length = k := (bits_table k hk 0 hpos).1
        constructor
        · intro h
          subst h
          refine ⟨by rw [List.length_map, hlen], hno, ?_⟩
          intro d hd
          obtain ⟨_, _, h⟩ := List.mem_map.mp hd
          exact h.symm
        · rintro ⟨h1, _, h2⟩
          rw [List.map_const', hlen]
          exact (List.eq_replicate_iff.mpr ⟨h1, h2⟩).symm

/-! ### Adjusting the length -/

/-- The element for padding after the elements so far. -/
def padOf (p0 : Option Char) (ex : List Char) : Char := p0.getD (ex.headD '0')

/-- The state after the elements so far. -/
def stateOf (p0 : Option Char) (len : Option Nat) (ex : List Char) : St :=
  ⟨if ex = [] then p0 else some (padOf p0 ex), match len with
    | none => ex
    | some n => ex.drop (ex.length - n)⟩

/-- All elements that were dropped are the same as the padding. -/
def Dropped (p0 : Option Char) (len : Option Nat) (ex : List Char) : Prop :=
  match len with
  | none => True
  | some n => ∀ (i : Nat), i < ex.length - n → ex[i]? = some (padOf p0 ex)

theorem padOf_snoc {p0 : Option Char} {ex : List Char} {b : Char} (h : ex ≠ []) :
    padOf p0 (ex ++ [b]) = padOf p0 ex := by
  unfold padOf
  cases ex with
  | nil => exact absurd rfl h
  | cons x xs => rfl

theorem stateOf_pad (p0 : Option Char) (len : Option Nat) (ex : List Char) (b : Char) :
    (stateOf p0 len ex).pad.getD b = padOf p0 (ex ++ [b]) := by
  unfold stateOf
  by_cases h : ex = []
  · subst h; simp [padOf]
  · simp only [if_neg h, Option.getD_some]
    exact (padOf_snoc h).symm

theorem dropped_snoc {p0 : Option Char} {n : Nat} {ex : List Char} {b : Char}
    (h : Dropped p0 (some n) ex) :
    Dropped p0 (some n) (ex ++ [b]) ↔
      (ex.length < n ∨ (ex ++ [b])[ex.length - n]? = some (padOf p0 (ex ++ [b]))) := by
  unfold Dropped at *
  dsimp only at *
  rw [List.length_append, List.length_singleton]
  constructor
  · intro hh
    by_cases hl : ex.length < n
    · exact Or.inl hl
    · exact Or.inr (hh _ (by omega))
  · intro hh i hi
    by_cases hi2 : i < ex.length - n
    · have hne : ex ≠ [] := by
        intro e
        subst e
        simp at hi2
      rw [List.getElem?_append_left (by omega), h i hi2, padOf_snoc hne]
    · have e : i = ex.length - n := by omega
      rw [e]
      rcases hh with hh | hh
      · omega
      · exact hh

theorem push_state (p0 : Option Char) (len : Option Nat) (ex : List Char) (b : Char)
    (h : Dropped p0 len ex) (st : St) :
    push len (stateOf p0 len ex) b = some st ↔
      Dropped p0 len (ex ++ [b]) ∧ st = stateOf p0 len (ex ++ [b]) := by
  have hne : ex ++ [b] ≠ [] := by simp
  unfold push
  rw [stateOf_pad]
  cases len with
  | none =>
    simp only [Dropped, true_and, Option.some.injEq]
    unfold stateOf
    simp only [if_neg hne]
    exact eq_comm
  | some n =>
    dsimp only
    rw [dropped_snoc h]
    have hb : (stateOf p0 (some n) ex).bits = ex.drop (ex.length - n) := rfl
    have hs : stateOf p0 (some n) (ex ++ [b]) =
        ⟨some (padOf p0 (ex ++ [b])), (ex ++ [b]).drop (ex.length + 1 - n)⟩ := by
      unfold stateOf
      simp only [if_neg hne, List.length_append, List.length_singleton]
    rw [hb, hs, List.length_drop]
    by_cases hl : ex.length < n
    · have e1 : ex.length - n = 0 := by omega
      have e2 : ex.length + 1 - n = 0 := by omega
      rw [if_pos (by omega), e1, e2]
      simp only [List.drop_zero, Option.some.injEq, hl, true_or, true_and]
      exact eq_comm
    · rw [if_neg (by omega)]
      have hleft : (ex ++ [b])[ex.length - n]? = some ((ex.drop (ex.length - n)).headD b) := by
        by_cases hn : n = 0
        · subst hn
          simp
        · rw [List.getElem?_append_left (by omega), List.headD_eq_head?_getD, List.head?_drop]
          rw [List.getElem?_eq_getElem (by omega)]
          rfl
      rw [hleft]
      by_cases hp : (ex.drop (ex.length - n)).headD b = padOf p0 (ex ++ [b])
      · rw [if_neg (by simpa using hp), hp]
        have hdrop : (if n > 0 then some (St.mk (some (padOf p0 (ex ++ [b]))) ((ex.drop (ex.length - n)).drop 1 ++ [b]))
            else some (St.mk (some (padOf p0 (ex ++ [b]))) (ex.drop (ex.length - n)))) =
            some (St.mk (some (padOf p0 (ex ++ [b]))) ((ex ++ [b]).drop (ex.length + 1 - n))) := by
          by_cases hn : n = 0
          · subst hn
            rw [if_neg (by omega)]
            simp
          · rw [if_pos (by omega), List.drop_drop, List.drop_append]
            have e1 : ex.length + 1 - n = ex.length - n + 1 := by omega
            have e2 : ex.length - n + 1 - ex.length = 0 := by omega
            rw [e1, e2, List.drop_zero]
        rw [hdrop]
        simp only [Option.some.injEq, or_true, true_and]
        exact eq_comm
      · rw [if_pos hp]
        simp only [reduceCtorEq, Option.some.injEq, hp, or_false, false_iff, not_and]
        intro h
        exact absurd h hl

theorem dropped_left {p0 : Option Char} {len : Option Nat} {a b : List Char}
    (h : Dropped p0 len (a ++ b)) : Dropped p0 len a := by
  unfold Dropped at *
  cases len with
  | none => trivial
  | some n =>
    dsimp only at *
    intro i hi
    have h1 := h i (by rw [List.length_append]; omega)
    rw [List.getElem?_append_left (by omega)] at h1
    rw [h1]
    have : a ≠ [] := by
      intro e
      subst e
      simp at hi
    cases a with
    | nil => exact absurd rfl this
    | cons x xs => rfl

theorem pushAll_state (p0 : Option Char) (len : Option Nat) (bs : List Char) : ∀ (ex : List Char),
    Dropped p0 len ex → ∀ st, pushAll len (stateOf p0 len ex) bs = some st ↔
      Dropped p0 len (ex ++ bs) ∧ st = stateOf p0 len (ex ++ bs) := by
  induction bs with
  | nil =>
    intro ex h st
    rw [pushAll, List.append_nil]
    simp only [Option.some.injEq, h, true_and]
    exact eq_comm
  | cons b bs ih =>
    intro ex h st
    rw [pushAll]
    have e : ex ++ b :: bs = (ex ++ [b]) ++ bs := by simp
    constructor
    · intro hh
      obtain ⟨st1, h1, h2⟩ := Option.bind_eq_some_iff.mp hh
      obtain ⟨h3, rfl⟩ := (push_state p0 len ex b h st1).mp h1
      rw [e]
      exact (ih _ h3 st).mp h2
    · rintro ⟨h1, rfl⟩
      rw [e] at h1 ⊢
      have h2 := dropped_left h1
      rw [(push_state p0 len ex b h _).mpr ⟨h2, rfl⟩]
      exact (ih _ h2 _).mpr ⟨h1, rfl⟩

theorem basedLoop_state {k : Nat} (hk : k = 1 ∨ k = 3 ∨ k = 4) (std08 : Bool) (p0 : Option Char)
    (len : Option Nat) (rest : List Char) (cs : List Char) (hq : '"' ∉ cs) : ∀ (ex : List Char),
    Dropped p0 len ex → ∀ st, basedLoop std08 (2 ^ k) len (stateOf p0 len ex) (cs ++ '"' :: rest) = .ok st ↔
      ∃ es, Expanded std08 k cs es ∧ Dropped p0 len (ex ++ es) ∧ st = stateOf p0 len (ex ++ es) := by
  induction cs with
  | nil =>
    intro ex h st
    rw [List.nil_append, basedLoop, if_pos rfl]
    constructor
    · intro hh
      cases hh
      exact ⟨[], .nil, by simpa using h, by simp⟩
    · rintro ⟨es, h1, h2, h3⟩
      cases h1
      rw [h3, List.append_nil]
  | cons c cs ih =>
    intro ex h st
    have hc : c ≠ '"' := fun e => hq (by simp [e])
    rw [List.cons_append, basedLoop, if_neg hc]
    constructor
    · intro hh
      cases he : elements std08 (2 ^ k) c with
      | none => rw [he] at hh; cases hh
      | some ds =>
        rw [he] at hh
        dsimp only at hh
        cases hp : pushAll len (stateOf p0 len ex) ds with
        | none => rw [hp] at hh; cases hh
        | some st1 =>
          rw [hp] at hh
          dsimp only at hh
          obtain ⟨h1, rfl⟩ := (pushAll_state p0 len ds ex h st1).mp hp
          obtain ⟨es, h2, h3, h4⟩ := (ih (fun e => hq (by simp [e])) _ h1 st).mp hh
          rw [List.append_assoc] at h3 h4
          exact ⟨ds ++ es, .cons ((elements_iff hk std08 c ds).mp he) h2, h3, h4⟩
    · rintro ⟨es, h1, h2, rfl⟩
      cases h1 with
      | @cons _ ds _ es' hr hx =>
        rw [(elements_iff hk std08 c ds).mpr hr]
        dsimp only
        rw [← List.append_assoc] at h2 ⊢
        have h3 := dropped_left h2
        rw [(pushAll_state p0 len ds ex h _).mpr ⟨h3, rfl⟩]
        dsimp only
        exact (ih (fun e => hq (by simp [e])) _ h3 _).mpr ⟨es', hx, h2, rfl⟩

end Verif.Lex
