import Verif.Vlog.Number
import Verif.Fbuf.VarintProps
/-!
# Lemmas about numbers of Verilog
-/
namespace Verif.Vlog

/-! ## Digits of a word -/

/-- The digit of a packed value. -/
def dig (v n : Nat) : Nat := v / 4 ^ n % 4

theorem shr_and3 (v n : Nat) : (v >>> (n * 2)) &&& 3 = dig v n := by
  have : (3 : Nat) = 2 ^ 2 - 1 := rfl
  rw [this, Nat.and_two_pow_sub_one_eq_mod, Nat.shiftRight_eq_div_pow, Nat.mul_comm, Nat.pow_mul]
  rfl

theorem dig_shift_lt {j n c v : Nat} (hn : n < j) : dig (v * 4 ^ j + c) n = dig c n := by
  unfold dig
  have e : v * 4 ^ j = 4 ^ n * (4 * (v * 4 ^ (j - n - 1))) := by
    rw [show 4 ^ j = 4 ^ n * (4 * 4 ^ (j - n - 1)) by
      rw [← Nat.pow_succ', ← Nat.pow_add]; congr 1; omega]
    simp [Nat.mul_comm, Nat.mul_left_comm]
  rw [e, Nat.mul_add_div (Nat.pow_pos (by omega))]
  omega

theorem dig_shift_ge {j n c v : Nat} (hn : j ≤ n) (hc : c < 4 ^ j) :
    dig (v * 4 ^ j + c) n = dig v (n - j) := by
  unfold dig
  rw [show 4 ^ n = 4 ^ j * 4 ^ (n - j) by rw [← Nat.pow_add]; congr 1; omega, ← Nat.div_div_eq_div_mul]
  rw [show (v * 4 ^ j + c) / 4 ^ j = v by
    rw [Nat.mul_comm, Nat.mul_add_div (Nat.pow_pos (by omega)), Nat.div_eq_of_lt hc]; omega]

theorem dig_mod {v n m : Nat} (h : n < m) : dig (v % 4 ^ m) n = dig v n := by
  have := dig_shift_lt (j := m) (n := n) (c := v % 4 ^ m) (v := v / 4 ^ m) h
  rw [← this]
  congr 1
  have := Nat.div_add_mod v (4 ^ m)
  rw [Nat.mul_comm] at this
  omega

theorem or_add {a b k : Nat} (hb : b < 2 ^ k) : a * 2 ^ k ||| b = a * 2 ^ k + b := by
  rw [Nat.mul_comm, ← Nat.two_pow_add_eq_or_of_lt hb]

/-! ## Big numbers -/

/-- The value of words, the most significant first. -/
def wordsVal : List Nat → Nat
  | [] => 0
  | w :: ws => w * 2 ^ (64 * ws.length) + wordsVal ws

theorem wordsVal_lt : ∀ {ws : List Nat}, (∀ w ∈ ws, w < 2 ^ 64) → wordsVal ws < 2 ^ (64 * ws.length)
  | [], _ => by simp [wordsVal]
  | w :: ws, h => by
    have h₁ := wordsVal_lt (ws := ws) fun x hx => h x (List.mem_cons_of_mem _ hx)
    have h₂ := h w List.mem_cons_self
    unfold wordsVal
    rw [List.length_cons, Nat.mul_add, Nat.pow_add, Nat.mul_comm (2 ^ (64 * ws.length))]
    calc _ < w * 2 ^ (64 * ws.length) + 2 ^ (64 * ws.length) := by omega
      _ = (w + 1) * 2 ^ (64 * ws.length) := by rw [Nat.add_mul, Nat.one_mul]
      _ ≤ _ := Nat.mul_le_mul_right _ h₂

theorem shiftBig_val {count : Nat} (hc : count < 32) : ∀ {ws : List Nat} {c : Nat},
    (∀ w ∈ ws, w < 2 ^ 64) → c < 2 ^ (count * 2) →
      (∀ w ∈ (shiftBig count ws c).1, w < 2 ^ 64) ∧ (shiftBig count ws c).1.length = ws.length ∧
      (shiftBig count ws c).2 < 2 ^ (count * 2) ∧
      (shiftBig count ws c).2 * 2 ^ (64 * ws.length) + wordsVal (shiftBig count ws c).1 =
        wordsVal ws * 2 ^ (count * 2) + c
  | [], c, _, h => by
    simp only [shiftBig, wordsVal, List.not_mem_nil, List.length_nil]
    exact ⟨(fun w h => h.elim), trivial, h, by omega⟩
  | w :: ws, c, hw, h => by
    obtain ⟨h₁, h₂, h₃, h₄⟩ := shiftBig_val hc (ws := ws) (c := c)
      (fun x hx => hw x (List.mem_cons_of_mem _ hx)) h
    have hw0 := hw w List.mem_cons_self
    simp only [shiftBig]
    generalize shiftBig count ws c = r at *
    have e64 : (2 : Nat) ^ 64 = 2 ^ (count * 2) * 2 ^ (64 - count * 2) := by
      rw [← Nat.pow_add]; congr 1; omega
    have e₁ : (w <<< (count * 2)) % 2 ^ 64 = w % 2 ^ (64 - count * 2) * 2 ^ (count * 2) := by
      rw [Nat.shiftLeft_eq, e64, Nat.mul_comm w, Nat.mul_mod_mul_left, Nat.mul_comm]
    have e₂ : (w <<< (count * 2)) % 2 ^ 64 ||| r.2 =
        w % 2 ^ (64 - count * 2) * 2 ^ (count * 2) + r.2 := by
      rw [e₁, or_add h₃]
    have hlt : w % 2 ^ (64 - count * 2) * 2 ^ (count * 2) + r.2 < 2 ^ 64 := by
      have : w % 2 ^ (64 - count * 2) < 2 ^ (64 - count * 2) := Nat.mod_lt _ (Nat.two_pow_pos _)
      rw [e64]
      calc _ < w % 2 ^ (64 - count * 2) * 2 ^ (count * 2) + 2 ^ (count * 2) := by omega
        _ = (w % 2 ^ (64 - count * 2) + 1) * 2 ^ (count * 2) := by rw [Nat.add_mul, Nat.one_mul]
        _ ≤ _ := by rw [Nat.mul_comm]; exact Nat.mul_le_mul_left _ this
    refine ⟨?_, by simp [h₂], ?_, ?_⟩
    · intro x hx
      rcases List.mem_cons.1 hx with e | e
      · rw [e, e₂]; exact hlt
      · exact h₁ x e
    · rw [Nat.shiftRight_eq_div_pow, Nat.div_lt_iff_lt_mul (Nat.two_pow_pos _), ← e64]
      exact hw0
    · rw [e₂, Nat.shiftRight_eq_div_pow]
      simp only [wordsVal, h₂, List.length_cons]
      rw [Nat.mul_add, Nat.pow_add, Nat.mul_one]
      have hd := Nat.div_add_mod w (2 ^ (64 - count * 2))
      generalize w / 2 ^ (64 - count * 2) = q at *
      generalize w % 2 ^ (64 - count * 2) = s at *
      rw [e64]
      generalize 2 ^ (64 * ws.length) = L at *
      generalize 2 ^ (64 - count * 2) = A at *
      generalize 2 ^ (count * 2) = B at *
      rw [← hd]
      have : (A * q + s) * L * B = q * (L * (B * A)) + s * B * L := by
        rw [Nat.add_mul, Nat.add_mul]
        congr 1
        · simp [Nat.mul_comm, Nat.mul_left_comm]
        · simp [Nat.mul_comm, Nat.mul_left_comm]
      rw [Nat.add_mul, Nat.add_mul, this]
      omega

theorem two_four (n : Nat) : 2 ^ (n * 2) = 4 ^ n := by
  rw [Nat.mul_comm, Nat.pow_mul]

/-- The digits of words. -/
theorem wordsVal_dig : ∀ {ws : List Nat} {n : Nat}, (∀ w ∈ ws, w < 2 ^ 64) → n < 32 * ws.length →
    ∃ w, ws[ws.length - 1 - n / 32]? = some w ∧ dig w (n % 32) = dig (wordsVal ws) n
  | [], n, _, h => by simp at h
  | w :: ws, n, hw, h => by
    have hws : ∀ x ∈ ws, x < 2 ^ 64 := fun x hx => hw x (List.mem_cons_of_mem _ hx)
    have hlt := wordsVal_lt hws
    have e : 2 ^ (64 * ws.length) = 4 ^ (32 * ws.length) := by
      rw [← two_four]; congr 1; omega
    simp only [wordsVal]
    rw [e] at hlt ⊢
    simp only [List.length_cons] at h ⊢
    by_cases c : n < 32 * ws.length
    · obtain ⟨x, h₁, h₂⟩ := wordsVal_dig hws c
      refine ⟨x, ?_, ?_⟩
      · rw [show ws.length + 1 - 1 - n / 32 = ws.length - 1 - n / 32 + 1 by omega]
        exact h₁
      · rw [dig_shift_lt c, h₂]
    · refine ⟨w, ?_, ?_⟩
      · rw [show ws.length + 1 - 1 - n / 32 = 0 by omega]; rfl
      · rw [dig_shift_ge (by omega) hlt]
        congr 1
        omega

/-! ## Specification: the digits of a literal -/

/-- The four-state digits of a character, most significant first. -/
def charBits (hex : Bool) (c : Char) : List Nat :=
  let one (b : Bool) : Nat := if b then 3 else 2
  let n := if hex then 4 else 1
  if c = 'x' then List.replicate n 0
  else if c = 'z' then List.replicate n 1
  else
    let v := "0123456789abcdef".toList.idxOf c
    if hex then [one (v.testBit 3), one (v.testBit 2), one (v.testBit 1), one (v.testBit 0)]
    else [one (v.testBit 0)]

def binChars : List Char := "01xz".toList
def hexChars : List Char := "0123456789abcdefxz".toList

def chars (hex : Bool) : List Char := if hex then hexChars else binChars

/-- The digits of a literal, most significant first. -/
def litBits (hex : Bool) (cs : List Char) : List Nat := cs.flatMap (charBits hex)

theorem hex_char : ∀ c ∈ hexChars, ∃ v, hexDigit c = some v ∧ v < 4 ^ 4 ∧
    (charBits true c).reverse = [dig v 0, dig v 1, dig v 2, dig v 3] := by
  intro c hc
  have : ∀ c ∈ hexChars, (hexDigit c).any (fun v => v < 4 ^ 4 &&
      (charBits true c).reverse == [dig v 0, dig v 1, dig v 2, dig v 3]) := by decide
  have := this c hc
  rw [Option.any_eq_true] at this
  obtain ⟨v, h₁, h₂⟩ := this
  simp only [Bool.and_eq_true, decide_eq_true_eq, beq_iff_eq] at h₂
  exact ⟨v, h₁, h₂⟩

theorem bin_char : ∀ c ∈ binChars, ∃ v, binDigit c = some v ∧ v < 4 ^ 1 ∧
    (charBits false c).reverse = [dig v 0] := by
  intro c hc
  have : ∀ c ∈ binChars, (binDigit c).any (fun v => v < 4 ^ 1 &&
      (charBits false c).reverse == [dig v 0]) := by decide
  have := this c hc
  rw [Option.any_eq_true] at this
  obtain ⟨v, h₁, h₂⟩ := this
  simp only [Bool.and_eq_true, decide_eq_true_eq, beq_iff_eq] at h₂
  exact ⟨v, h₁, h₂⟩

/-- The character of a literal: its value for the shift. -/
theorem lit_char (hex : Bool) {c : Char} (hc : c ∈ chars hex) :
    ∃ v, (if hex then hexDigit c else binDigit c) = some v ∧ v < 4 ^ (if hex then 4 else 1) ∧
      ∀ n, (charBits hex c).reverse[n]? = if n < (if hex then 4 else 1) then some (dig v n) else none := by
  cases hex with
  | true =>
    obtain ⟨v, h₁, h₂, h₃⟩ := hex_char c hc
    refine ⟨v, h₁, h₂, fun n => ?_⟩
    rw [h₃]
    match n with
    | 0 | 1 | 2 | 3 => rfl
    | n + 4 => simp
  | false =>
    obtain ⟨v, h₁, h₂, h₃⟩ := bin_char c hc
    refine ⟨v, h₁, h₂, fun n => ?_⟩
    rw [h₃]
    match n with
    | 0 => rfl
    | n + 1 => simp

/-- The state of a big number while digits are shifted in. -/
structure BigOk (width : Nat) (bs : List Nat) (v : Num) (words : List Nat) : Prop where
  eq : v = .big false width words
  len : words.length = bignumWords width
  lt : ∀ w ∈ words, w < 2 ^ 64
  digs : ∀ n, n < 32 * bignumWords width → dig (wordsVal words) n = bs.reverse.getD n 2

theorem dig_bigZero : ∀ n, n < 32 → dig bigZero n = 2 := by decide

theorem replicate_dig : ∀ (k n : Nat), n < 32 * k → dig (wordsVal (List.replicate k bigZero)) n = 2 := by
  intro k n hn
  obtain ⟨w, h₁, h₂⟩ := wordsVal_dig (ws := List.replicate k bigZero) (n := n)
    (fun w hw => by rw [(List.mem_replicate.1 hw).2]; decide) (by simpa using hn)
  rw [← h₂]
  have := List.mem_of_getElem? h₁
  rw [(List.mem_replicate.1 this).2]
  exact dig_bigZero _ (Nat.mod_lt _ (by omega))

theorem bigOk_initial {width : Nat} (h : 32 ≤ width) :
    BigOk width [] (initial width) (List.replicate (bignumWords width) bigZero) := by
  refine ⟨?_, by simp, fun w hw => by rw [(List.mem_replicate.1 hw).2]; decide, fun n hn => ?_⟩
  · unfold initial
    rw [if_neg (by omega)]
    rfl
  · rw [replicate_dig _ _ hn]
    rfl

theorem bigOk_shift {width k v : Nat} {bs ds : List Nat} (hk : k < 32) (hv : v < 4 ^ k)
    (hds : ∀ n, ds.reverse[n]? = if n < k then some (dig v n) else none)
    (h : BigOk width bs num words) : ∃ words', BigOk width (bs ++ ds) (shiftLeft k v num) words' := by
  obtain ⟨h₁, h₂, h₃, h₄⟩ := shiftBig_val hk (ws := words) (c := v) h.lt (by rw [two_four]; exact hv)
  refine ⟨(shiftBig k words v).1, ?_, h₂.trans h.len, h₁, fun n hn => ?_⟩
  · rw [h.eq]; rfl
  · have e : 2 ^ (64 * words.length) = 4 ^ (32 * bignumWords width) := by
      rw [← two_four, h.len]; congr 1; omega
    rw [e, two_four] at h₄
    have hd := dig_shift_lt (v := (shiftBig k words v).2) (c := wordsVal (shiftBig k words v).1) hn
    rw [← hd, h₄, List.reverse_append, List.getD_eq_getElem?_getD]
    have hlen : ds.reverse.length = k := by
      apply Nat.le_antisymm
      · have := hds k
        rw [if_neg (by omega), List.getElem?_eq_none_iff] at this
        exact this
      · by_cases c : k = 0
        · omega
        · have := hds (k - 1)
          rw [if_pos (by omega)] at this
          obtain ⟨h, -⟩ := List.getElem?_eq_some_iff.1 this
          omega
    by_cases c : n < k
    · rw [dig_shift_lt c, List.getElem?_append_left (by omega), hds, if_pos c]
      rfl
    · rw [dig_shift_ge (by omega) hv, List.getElem?_append_right (by omega), hlen, h.digs _ (by omega),
        List.getD_eq_getElem?_getD]

theorem digitLoop_big (hex : Bool) : ∀ {cs : List Char} {bs : List Nat} {num : Num} {words : List Nat},
    (∀ c ∈ cs, c ∈ chars hex) → BigOk width bs num words →
      ∃ num' words', digitLoop hex cs (num, false) = (num', false) ∧
        BigOk width (bs ++ litBits hex cs) num' words'
  | [], bs, num, words, _, h => ⟨num, words, rfl, by simpa [litBits] using h⟩
  | c :: cs, bs, num, words, hc, h => by
    obtain ⟨v, h₁, h₂, h₃⟩ := lit_char hex (hc c List.mem_cons_self)
    obtain ⟨words₁, ok⟩ := bigOk_shift (by cases hex <;> decide) h₂ h₃ h
    obtain ⟨num', words', e, ok'⟩ := digitLoop_big hex (fun x hx => hc x (List.mem_cons_of_mem _ hx)) ok
    refine ⟨num', words', ?_, ?_⟩
    · unfold digitLoop
      rw [h₁]
      exact e
    · simpa [litBits] using ok'

/-- Digits of a big number whose words are full. -/
theorem bigOk_bit (h : BigOk width bs num words) (hw : width % 32 = 0) {n : Nat} (hn : n < width) :
    numberBit num n = some (bs.reverse.getD n 2) := by
  have hk : bignumWords width = width / 32 := by unfold bignumWords; omega
  have hl := h.len
  obtain ⟨w, h₁, h₂⟩ := wordsVal_dig h.lt (n := n) (by rw [hl, hk]; omega)
  rw [h.eq]
  unfold numberBit
  dsimp only
  rw [if_pos hn, show (width - n - 1) / 32 = words.length - 1 - n / 32 by rw [hl, hk]; omega, h₁]
  rw [Option.map_some, shr_and3, h₂, h.digs n (by rw [hk]; omega)]

/-! ## Defined numbers and their values -/

theorem dig_ge (w n : Nat) : 2 ≤ dig w n ↔ w.testBit (2 * n + 1) = true := by
  rw [Nat.testBit_eq_decide_div_mod_eq, decide_eq_true_eq]
  unfold dig
  rw [Nat.pow_succ, Nat.pow_mul, ← Nat.div_div_eq_div_mul]
  generalize w / (2 ^ 2) ^ n = x
  show 2 ≤ x % 4 ↔ x / 2 % 2 = 1
  omega

theorem dig_lt (w n : Nat) : dig w n < 4 := Nat.mod_lt _ (by omega)

theorem bigZero_bit (i : Nat) : bigZero.testBit i = (decide (i < 64) && decide (i % 2 = 1)) := by
  by_cases h : i < 64
  · have : ∀ i : Fin 64, bigZero.testBit i.val = decide (i.val % 2 = 1) := by decide
    rw [this ⟨i, h⟩]
    simp [h]
  · rw [Nat.testBit_lt_two_pow (Nat.lt_of_lt_of_le (by decide : bigZero < 2 ^ 64)
      (Nat.pow_le_pow_right (by omega) (by omega)))]
    simp [h]

theorem word_defined (w : Nat) : (w &&& bigZero == bigZero) = true ↔ ∀ n, n < 32 → 2 ≤ dig w n := by
  rw [beq_iff_eq]
  constructor
  · intro h n hn
    rw [dig_ge]
    have := congrArg (fun x => x.testBit (2 * n + 1)) h
    simp only [Nat.testBit_and, bigZero_bit] at this
    rw [show decide (2 * n + 1 < 64) = true by simp; omega,
      show decide ((2 * n + 1) % 2 = 1) = true by simp] at this
    simpa using this
  · intro h
    apply Nat.eq_of_testBit_eq
    intro i
    rw [Nat.testBit_and, bigZero_bit]
    by_cases c : i < 64 ∧ i % 2 = 1
    · have := h (i / 2) (by omega)
      rw [dig_ge, show 2 * (i / 2) + 1 = i by omega] at this
      rw [this]
      rfl
    · have : (decide (i < 64) && decide (i % 2 = 1)) = false := by
        simp only [Bool.and_eq_false_iff, decide_eq_false_iff_not]
        omega
      rw [this, Bool.and_false]

theorem bigOk_defined (h : BigOk width bs num words) (hw : width % 32 = 0) :
    isDefined num = true ↔ ∀ n, n < width → 2 ≤ bs.reverse.getD n 2 := by
  have hk : bignumWords width = width / 32 := by unfold bignumWords; omega
  have hl := h.len
  rw [h.eq]
  unfold isDefined
  dsimp only
  rw [← hl, List.take_length, List.all_eq_true]
  constructor
  · intro hd n hn
    obtain ⟨w, h₁, h₂⟩ := wordsVal_dig h.lt (n := n) (by omega)
    rw [← h.digs n (by omega), ← h₂]
    exact (word_defined w).1 (hd w (List.mem_of_getElem? h₁)) _ (Nat.mod_lt _ (by omega))
  · intro hd w hmem
    rw [word_defined]
    intro n hn
    obtain ⟨i, hi, e⟩ := List.getElem_of_mem hmem
    have hn' : 32 * (words.length - 1 - i) + n < 32 * words.length := by omega
    obtain ⟨w', h₁, h₂⟩ := wordsVal_dig h.lt hn'
    rw [show words.length - 1 - (32 * (words.length - 1 - i) + n) / 32 = i by omega,
      List.getElem?_eq_getElem hi, e] at h₁
    cases h₁
    rw [show (32 * (words.length - 1 - i) + n) % 32 = n by omega] at h₂
    rw [h₂, h.digs _ (by omega)]
    exact hd _ (by omega)

theorem integerLoop_eq (v : Num) (V : Nat) : ∀ (n acc : Nat), acc < 2 ^ 64 →
    (∀ m, m < n → numberBit v m = some (2 + V / 2 ^ m % 2)) →
      integerLoop v n acc = some ((acc * 2 ^ n + V % 2 ^ n) % 2 ^ 64)
  | 0, acc, ha, _ => by
    simp only [integerLoop, Nat.pow_zero, Nat.mul_one, Nat.mod_one, Nat.add_zero]
    rw [Nat.mod_eq_of_lt ha]
  | n + 1, acc, ha, h => by
    unfold integerLoop
    rw [h n (by omega)]
    dsimp only
    have e₁ : (2 + V / 2 ^ n % 2) &&& 1 = V / 2 ^ n % 2 := by
      rw [show (1 : Nat) = 2 ^ 1 - 1 from rfl, Nat.and_two_pow_sub_one_eq_mod]
      omega
    have e₂ : (acc <<< 1) % 2 ^ 64 ||| (V / 2 ^ n % 2) = (acc * 2 + V / 2 ^ n % 2) % 2 ^ 64 := by
      rw [Nat.shiftLeft_eq, show acc * 2 ^ 1 % 2 ^ 64 = acc % 2 ^ 63 * 2 ^ 1 by omega,
        or_add (by omega)]
      omega
    rw [e₁, e₂, integerLoop_eq v V n _ (Nat.mod_lt _ (by omega)) (fun m hm => h m (by omega))]
    congr 1
    rw [Nat.add_mod, Nat.mul_mod, Nat.mod_mod, ← Nat.mul_mod, ← Nat.add_mod]
    congr 1
    have h₁ := Nat.mod_pow_succ (b := 2) (k := n) (x := V)
    rw [h₁, Nat.add_mul, Nat.pow_succ]
    have : acc * 2 * 2 ^ n = acc * (2 ^ n * 2) := by
      rw [Nat.mul_assoc, Nat.mul_comm 2]
    have : V / 2 ^ n % 2 * 2 ^ n = 2 ^ n * (V / 2 ^ n % 2) := Nat.mul_comm _ _
    omega

/-- The value of digits in a base. -/
def valueFrom (base : Nat) (acc : Nat) (cs : List Char) : Nat :=
  cs.foldl (fun a c => a * base + "0123456789abcdef".toList.idxOf c.toLower) acc

/-- The value of a literal. -/
def value (base : Nat) (cs : List Char) : Nat := valueFrom base 0 cs

theorem two_pow_shift_lt {V k d n : Nat} (hn : n < k) : (V * 2 ^ k + d) / 2 ^ n % 2 = d / 2 ^ n % 2 := by
  have e : V * 2 ^ k = 2 ^ n * (2 * (V * 2 ^ (k - n - 1))) := by
    rw [show 2 ^ k = 2 ^ n * (2 * 2 ^ (k - n - 1)) by
      rw [← Nat.pow_succ', ← Nat.pow_add]; congr 1; omega]
    simp [Nat.mul_comm, Nat.mul_left_comm]
  rw [e, Nat.mul_add_div (Nat.two_pow_pos _)]
  omega

theorem two_pow_shift_ge {V k d n : Nat} (hn : k ≤ n) (hd : d < 2 ^ k) :
    (V * 2 ^ k + d) / 2 ^ n = V / 2 ^ (n - k) := by
  rw [show 2 ^ n = 2 ^ k * 2 ^ (n - k) by rw [← Nat.pow_add]; congr 1; omega, ← Nat.div_div_eq_div_mul]
  rw [show (V * 2 ^ k + d) / 2 ^ k = V by
    rw [Nat.mul_comm, Nat.mul_add_div (Nat.two_pow_pos _), Nat.div_eq_of_lt hd]; omega]

theorem bits_step {bs ds : List Nat} {V k d : Nat} (hb : ∀ n, bs.reverse.getD n 2 = 2 + V / 2 ^ n % 2)
    (hd : d < 2 ^ k) (hlen : ds.length = k)
    (hds : ∀ n, n < k → ds.reverse.getD n 2 = 2 + d / 2 ^ n % 2) :
    ∀ n, (bs ++ ds).reverse.getD n 2 = 2 + (V * 2 ^ k + d) / 2 ^ n % 2 := by
  intro n
  rw [List.reverse_append, List.getD_eq_getElem?_getD]
  by_cases c : n < k
  · rw [List.getElem?_append_left (by simpa [hlen] using c), two_pow_shift_lt c, ← hds n c,
      List.getD_eq_getElem?_getD]
  · rw [List.getElem?_append_right (by simp [hlen]; omega), two_pow_shift_ge (by omega) hd, ← hb,
      List.getD_eq_getElem?_getD]
    simp [hlen]

theorem digit_bits (hex : Bool) : ∀ c ∈ chars hex, c ≠ 'x' → c ≠ 'z' →
    (charBits hex c).length = (if hex then 4 else 1) ∧
      "0123456789abcdef".toList.idxOf c.toLower < 2 ^ (if hex then 4 else 1) ∧
      ∀ n, n < (if hex then 4 else 1) →
        (charBits hex c).reverse.getD n 2 = 2 + "0123456789abcdef".toList.idxOf c.toLower / 2 ^ n % 2 := by
  cases hex <;> decide

theorem litBits_value (hex : Bool) : ∀ {cs : List Char} {bs : List Nat} {V : Nat},
    (∀ c ∈ cs, c ∈ chars hex ∧ c ≠ 'x' ∧ c ≠ 'z') →
    (∀ n, bs.reverse.getD n 2 = 2 + V / 2 ^ n % 2) →
      ∀ n, (bs ++ litBits hex cs).reverse.getD n 2 =
        2 + valueFrom (if hex then 16 else 2) V cs / 2 ^ n % 2
  | [], bs, V, _, hb, n => by simpa [litBits, valueFrom] using hb n
  | c :: cs, bs, V, hc, hb, n => by
    obtain ⟨h₁, h₂, h₃⟩ := hc c List.mem_cons_self
    obtain ⟨d₁, d₂, d₃⟩ := digit_bits hex c h₁ h₂ h₃
    have := litBits_value hex (cs := cs) (fun x hx => hc x (List.mem_cons_of_mem _ hx))
      (bits_step hb d₂ d₁ d₃) n
    rw [show litBits hex (c :: cs) = charBits hex c ++ litBits hex cs from rfl, ← List.append_assoc, this]
    unfold valueFrom
    rw [List.foldl_cons]
    cases hex <;> rfl

/-! ## Text of integers -/

def digitChars (base : Nat) : List Char :=
  if base = 2 then "01".toList else if base = 10 then "0123456789".toList
  else "0123456789abcdefABCDEF".toList

theorem digitVal_eq {base : Nat} (hb : base = 2 ∨ base = 10 ∨ base = 16) :
    ∀ c ∈ digitChars base, digitVal base c = some ("0123456789abcdef".toList.idxOf c.toLower) := by
  rcases hb with rfl | rfl | rfl <;> decide

theorem digitVal_other {base : Nat} (hb : base = 2 ∨ base = 10 ∨ base = 16) :
    digitVal base '_' = none ∧ digitVal base '\'' = none := by
  rcases hb with rfl | rfl | rfl <;> decide

theorem scanDigits_eq {base : Nat} (hb : base = 2 ∨ base = 10 ∨ base = 16) :
    ∀ {cs : List Char} {acc : Nat} {rest : List Char}, (∀ c ∈ cs, c ∈ digitChars base) →
      (∀ c, rest.head? = some c → digitVal base c = none) →
      scanDigits base acc (cs ++ rest) = (valueFrom base acc cs, rest)
  | [], acc, rest, _, hr => by
    cases rest with
    | nil => rfl
    | cons c rest =>
      show scanDigits base acc (c :: rest) = _
      unfold scanDigits
      rw [hr c rfl]
      rfl
  | c :: cs, acc, rest, hc, hr => by
    show scanDigits base acc (c :: (cs ++ rest)) = _
    unfold scanDigits
    rw [digitVal_eq hb c (hc c List.mem_cons_self)]
    dsimp only
    rw [scanDigits_eq hb (fun x hx => hc x (List.mem_cons_of_mem _ hx)) hr]
    rfl

theorem skipPrefix_eq (base : Nat) {cs : List Char} (h : ∀ c ∈ cs, c ≠ 'x' ∧ c ≠ 'X') :
    skipPrefix base cs = cs := by
  unfold skipPrefix
  split
  · next x c cs =>
    have := h x (by simp)
    rw [if_neg]
    rintro ⟨-, h | h, -⟩
    · exact this.1 h
    · exact this.2 h
  · rfl

theorem strtoll_eq {base : Nat} (hb : base = 2 ∨ base = 10 ∨ base = 16) {cs rest : List Char}
    (hc : ∀ c ∈ cs, c ∈ digitChars base) (hr : ∀ c, rest.head? = some c → digitVal base c = none)
    (hx : base = 16 → ∀ c ∈ rest, c ≠ 'x' ∧ c ≠ 'X') :
    strtoll base (cs ++ rest) = (min (value base cs) (2 ^ 63 - 1), rest) := by
  unfold strtoll
  have : skipPrefix base (cs ++ rest) = cs ++ rest := by
    by_cases h16 : base = 16
    · apply skipPrefix_eq
      intro c h
      rcases List.mem_append.1 h with h | h
      · have := hc c h
        subst h16
        have hall : ∀ c ∈ digitChars 16, c ≠ 'x' ∧ c ≠ 'X' := by decide
        exact hall c this
      · exact hx h16 c h
    · unfold skipPrefix
      split
      · next e => rw [if_neg (by rintro ⟨h, -⟩; exact h16 h), e]
      · rfl
  rw [this, scanDigits_eq hb hc hr]
  rfl

/-! ## Values of signals -/

theorem and3 (x : Nat) : x &&& 3 = x % 4 := by
  rw [show (3 : Nat) = 2 ^ 2 - 1 from rfl, Nat.and_two_pow_sub_one_eq_mod]

theorem and1 (x : Nat) : x &&& 1 = x % 2 := by
  rw [show (1 : Nat) = 2 ^ 1 - 1 from rfl, Nat.and_two_pow_sub_one_eq_mod]

theorem packLoop_dig {N : Nat} (hN : N ≤ 32) : ∀ {bits bs : List Nat} {p : Nat},
    (∀ n, n < N → dig p n = bs.reverse.getD n 2) →
    ∀ n, n < N → dig (packLoop 64 2 (· &&& 3) bits p) n =
      (bs ++ bits.map (· % 4)).reverse.getD n 2
  | [], bs, p, h, n, hn => by simpa [packLoop] using h n hn
  | x :: bits, bs, p, h, n, hn => by
    have step : ∀ n, n < N → dig ((p <<< 2) % 2 ^ 64 ||| (x &&& 3)) n =
        (bs ++ [x % 4]).reverse.getD n 2 := by
      intro n hn
      have e : (p <<< 2) % 2 ^ 64 ||| (x &&& 3) = p % 2 ^ 62 * 4 ^ 1 + x % 4 := by
        rw [Nat.shiftLeft_eq, show p * 2 ^ 2 % 2 ^ 64 = p % 2 ^ 62 * 2 ^ 2 by omega,
          or_add (by rw [and3]; omega), and3]
      rw [e, List.reverse_append]
      cases n with
      | zero =>
        rw [dig_shift_lt (by omega)]
        show x % 4 / 1 % 4 = x % 4
        omega
      | succ n =>
        rw [dig_shift_ge (by omega) (by omega), show (2 : Nat) ^ 62 = 4 ^ 31 by decide,
          dig_mod (by omega), Nat.add_sub_cancel, h n (by omega)]
        rfl
    have := packLoop_dig hN (bits := bits) step n hn
    simpa [packLoop] using this

theorem packLoop_bit : ∀ {bits bs : List Nat} {p : Nat}, bs.length + bits.length ≤ 32 →
    p < 2 ^ bs.length → (∀ n, p / 2 ^ n % 2 = (bs.reverse.getD n 0) % 2) →
      packLoop 64 1 (fun x => x &&& 3 &&& 1) bits p < 2 ^ (bs.length + bits.length) ∧
      ∀ n, packLoop 64 1 (fun x => x &&& 3 &&& 1) bits p / 2 ^ n % 2 =
        (bs ++ bits).reverse.getD n 0 % 2
  | [], bs, p, _, hp, h => by simpa [packLoop] using ⟨hp, h⟩
  | x :: bits, bs, p, hl, hp, h => by
    simp only [List.length_cons] at hl
    have hp' : p < 2 ^ 32 := Nat.lt_of_lt_of_le hp (Nat.pow_le_pow_right (by omega) (by omega))
    have e : (p <<< 1) % 2 ^ 64 ||| (x &&& 3 &&& 1) = p * 2 ^ 1 + x % 2 := by
      rw [Nat.shiftLeft_eq, Nat.mod_eq_of_lt (by omega), and3, and1, or_add (by omega)]
      omega
    have := packLoop_bit (bits := bits) (bs := bs ++ [x]) (p := p * 2 ^ 1 + x % 2)
      (by simp only [List.length_append, List.length_cons, List.length_nil]; omega)
      (by
        simp only [List.length_append, List.length_cons, List.length_nil, Nat.zero_add, Nat.pow_succ]
        omega)
      (by
        intro n
        rw [List.reverse_append]
        cases n with
        | zero =>
          rw [two_pow_shift_lt (by omega)]
          show x % 2 / 1 % 2 = x % 2
          omega
        | succ n =>
          rw [two_pow_shift_ge (by omega) (by omega), Nat.add_sub_cancel, h n]
          rfl)
    simp only [List.length_append, List.length_cons, List.length_nil, List.append_assoc,
      List.cons_append, List.nil_append] at this
    unfold packLoop at this ⊢
    rw [List.foldl_cons, e]
    simpa [Nat.add_assoc, Nat.add_comm 1] using this

theorem packWords_get : ∀ {k : Nat} {bits : List Nat} {i : Nat}, i < k →
    (packWords k bits)[i]? =
      some (packLoop 64 2 (· &&& 3) ((bits.drop (32 * i)).take 32) bigZero)
  | k + 1, bits, 0, _ => by simp [packWords]
  | k + 1, bits, i + 1, h => by
    unfold packWords
    rw [List.getElem?_cons_succ, packWords_get (by omega), List.drop_drop, Nat.mul_add, Nat.add_comm 32]

theorem dig_smallZero : ∀ n, n < 28 → dig smallZero n = 2 := by decide

/-! ## Files -/

theorem decode_encode : ∀ {v : Num},
    (∀ s w p, v = .small s w p → w < 32 ∧ p < 2 ^ 56) →
    (∀ s w p, v = .intg s w p → w < 64 ∧ p < 2 ^ 32) → (∀ s w ws, v ≠ .big s w ws) →
      decode (encode v) = v ∧ encode v < 2 ^ 64 ∧ (encode v % 4 = 1 ∨ encode v % 4 = 2)
  | .small s w p, h, _, _ => by
    obtain ⟨h₁, h₂⟩ := h s w p rfl
    unfold encode decode
    dsimp only
    have hs : s.toNat < 2 := by cases s <;> decide
    rw [if_pos (by omega)]
    refine ⟨?_, by omega, by omega⟩
    rw [show (1 + 4 * s.toNat + 8 * w + 256 * p) / 4 % 2 = s.toNat by omega,
      show (1 + 4 * s.toNat + 8 * w + 256 * p) / 8 % 32 = w by omega,
      show (1 + 4 * s.toNat + 8 * w + 256 * p) / 256 % 2 ^ 56 = p by omega]
    cases s <;> rfl
  | .intg s w p, _, h, _ => by
    obtain ⟨h₁, h₂⟩ := h s w p rfl
    unfold encode decode
    dsimp only
    have hs : s.toNat < 2 := by cases s <;> decide
    rw [if_neg (by omega)]
    refine ⟨?_, by omega, by omega⟩
    rw [show (2 + 4 * s.toNat + 8 * w + 512 * p) / 4 % 2 = s.toNat by omega,
      show (2 + 4 * s.toNat + 8 * w + 512 * p) / 8 % 64 = w by omega,
      show (2 + 4 * s.toNat + 8 * w + 512 * p) / 512 % 2 ^ 32 = p by omega]
    cases s <;> rfl
  | .big s w ws, _, _, h => absurd rfl (h s w ws)

theorem readWords_eq : ∀ {ws : List Nat} {rest : List Nat}, (∀ w ∈ ws, w < 2 ^ 64) →
    readWords ws.length (ws.flatMap wordBytes ++ rest) = some (ws, rest)
  | [], rest, _ => rfl
  | w :: ws, rest, h => by
    have hw := h w List.mem_cons_self
    have ih := readWords_eq (ws := ws) (rest := rest) fun x hx => h x (List.mem_cons_of_mem _ hx)
    rw [List.flatMap_cons, List.append_assoc]
    have e : wordBytes w = [w / 256 ^ 0 % 256, w / 256 ^ 1 % 256, w / 256 ^ 2 % 256, w / 256 ^ 3 % 256,
      w / 256 ^ 4 % 256, w / 256 ^ 5 % 256, w / 256 ^ 6 % 256, w / 256 ^ 7 % 256] := rfl
    rw [e]
    simp only [List.cons_append, List.nil_append, List.length_cons]
    unfold readWords
    rw [ih, Option.map_some]
    congr 3
    omega

end Verif.Vlog
