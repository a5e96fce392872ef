import Verif.Vlog.NumberLemmas
/-!
# C46: numbers of Verilog keep their digits

The specification is in `NumberLemmas`: `litBits` has the digits of a literal, `value` its value.
-/
namespace Verif.Vlog

/-- The digit of a literal by the rules of Verilog: the text from the right; above it zeros, or the
leftmost digit if that is `x` or `z`. -/
def stdBit (bs : List Nat) (n : Nat) : Nat :=
  match bs.reverse[n]? with
  | some b => b
  | none => if bs.head? = some 0 then 0 else if bs.head? = some 1 then 1 else 2

/-- The text before the quote, and the width it means. -/
inductive WidthText : List Char → Nat → Prop
  | none : WidthText [] 32
  | digits {ds} : ds ≠ [] → (∀ c ∈ ds, c ∈ digitChars 10) → value 10 ds < 2 ^ 31 →
      WidthText ds (value 10 ds)

/-! ## Proofs about the prefix -/

theorem numberNew_prefix (h : WidthText ds w) (cs : List Char) :
    numberNew (ds ++ '\'' :: cs) = newBase w cs := by
  unfold numberNew
  cases h with
  | none => rfl
  | digits hne hd hlt =>
    have hq : ∀ c ∈ digitChars 10, c ≠ '\'' := by decide
    have e₁ : (ds ++ '\'' :: cs).dropWhile (· ≠ '\'') = '\'' :: cs := by
      rw [List.dropWhile_append_of_pos (fun c hc => by simpa using hq c (hd c hc))]
      simp [List.dropWhile]
    rw [e₁]
    dsimp only
    have e₂ : (ds ++ '\'' :: cs).head? ≠ some '\'' := by
      cases ds with
      | nil => exact absurd rfl hne
      | cons c ds =>
        intro e
        simp only [List.cons_append, List.head?_cons, Option.some.injEq] at e
        exact hq c (hd c List.mem_cons_self) e
    rw [if_neg e₂, strtoll_eq (by omega) hd (fun c hc => by
      simp only [List.head?_cons, Option.some.injEq] at hc
      subst hc
      exact (digitVal_other (by omega)).2) (by omega)]
    dsimp only
    rw [if_pos (by rfl), Nat.min_eq_left (by omega)]
    congr 1
    unfold toInt32
    rw [BitVec.toInt_eq_toNat_of_lt] <;> simp only [BitVec.toNat_ofNat] <;> omega

/-- The letter of a base. -/
inductive BaseChar : Char → Nat → Prop
  | bin : BaseChar 'b' 2
  | dec : BaseChar 'd' 10
  | hex : BaseChar 'h' 16

theorem BaseChar.cases {n : Nat} (h : BaseChar b n) : n = 2 ∨ n = 10 ∨ n = 16 := by
  cases h <;> simp

theorem newBase_char (h : BaseChar b base) (w : Int) (cs : List Char) :
    newBase w (b :: cs) = newDigits w base cs := by
  cases h <;> rfl

theorem newDigits_int {w base : Nat} {cs : List Char} (hb : base = 2 ∨ base = 10 ∨ base = 16)
    (hw : w ≤ 32) (hc : ∀ c ∈ cs, c ∈ digitChars base ∨ c = '_')
    (hv : value base (cs.filter (· ≠ '_')) < 2 ^ 63) :
    newDigits w base cs =
      some (.intg false w (value base (cs.filter (· ≠ '_')) % 2 ^ 32), false) := by
  have hx : ∀ c ∈ digitChars base, c ≠ 'x' ∧ c ≠ 'X' ∧ c ≠ 'z' ∧ c ≠ '_' := by
    rcases hb with rfl | rfl | rfl <;> decide
  have hx' : ∀ c ∈ cs, c ≠ 'x' ∧ c ≠ 'X' ∧ c ≠ 'z' := by
    intro c h
    rcases hc c h with h | h
    · exact ⟨(hx c h).1, (hx c h).2.1, (hx c h).2.2.1⟩
    · subst h; decide
  have hxz : (cs.any fun c => c = 'x' || c = 'z') = false := by
    simp only [List.any_eq_false, Bool.or_eq_true, decide_eq_true_eq]
    intro c h
    have := hx' c h
    exact fun h => h.elim this.1 this.2.2
  unfold newDigits
  dsimp only
  rw [hxz, if_pos (by simp; omega)]
  have hw' : ((w : Int) % 64).toNat = w := by omega
  have hsplit := List.takeWhile_append_dropWhile (p := fun c => decide (c ∈ digitChars base)) (l := cs)
  have htake : ∀ c ∈ cs.takeWhile (fun c => decide (c ∈ digitChars base)), c ∈ digitChars base := by
    intro c h
    simpa using List.all_takeWhile (p := fun c => decide (c ∈ digitChars base)) (l := cs) |> fun t =>
      (List.all_eq_true.1 t) c h
  have hdrop : ∀ c, (cs.dropWhile fun c => decide (c ∈ digitChars base)).head? = some c → c = '_' := by
    intro c h
    have h₁ := List.head?_dropWhile_not (p := fun c => decide (c ∈ digitChars base)) (l := cs)
    rw [h] at h₁
    simp only [Bool.not_eq_true, decide_eq_false_iff_not] at h₁
    have h₂ : c ∈ cs := (List.dropWhile_sublist _).subset (List.mem_of_mem_head? h)
    exact (hc c h₂).resolve_left (by simpa using h₁)
  have hs := strtoll_eq hb htake (rest := cs.dropWhile fun c => decide (c ∈ digitChars base))
    (fun c h => by rw [hdrop c h]; exact (digitVal_other hb).1)
    (fun _ c h => have h₂ := (List.dropWhile_sublist _).subset h; ⟨(hx' c h₂).1, (hx' c h₂).2.1⟩)
  rw [hsplit] at hs
  rw [hs]
  have hfil : strtoll base (cs.filter (· ≠ '_')) = (min (value base (cs.filter (· ≠ '_'))) (2 ^ 63 - 1), []) := by
    have := strtoll_eq hb (cs := cs.filter (· ≠ '_')) (rest := []) (fun c h => by
      have := List.mem_filter.1 h
      exact (hc c this.1).resolve_right (by simpa using this.2)) (by simp) (by simp)
    rwa [List.append_nil] at this
  cases hd : cs.dropWhile (fun c => decide (c ∈ digitChars base)) with
  | nil =>
    have he : cs.takeWhile (fun c => decide (c ∈ digitChars base)) = cs := by
      rw [hd, List.append_nil] at hsplit
      exact hsplit
    have hf : cs.filter (· ≠ '_') = cs := by
      rw [List.filter_eq_self]
      intro c h
      rw [← he] at h
      simpa using (hx c (htake c h)).2.2.2
    rw [he]
    rw [hf] at hv ⊢
    dsimp only
    rw [Nat.min_eq_left (by omega), hw']
    rfl
  | cons c rest =>
    have : c = '_' := hdrop c (by rw [hd]; rfl)
    subst this
    dsimp only
    rw [hfil, Nat.min_eq_left (by omega), hw']
    rfl

/-! ## Literals -/

/-- **C46**: a literal without `x` and `z` of up to 32 bits, in any of the bases, with underscores: each
digit is the bit of its value.  The value as an integer is right if it is below `2^32`. -/
theorem new_integer (hw : WidthText ds w) (hle : w ≤ 32) (hb : BaseChar b base)
    (hc : ∀ c ∈ cs, c ∈ digitChars base ∨ c = '_') (hv : value base (cs.filter (· ≠ '_')) < 2 ^ 63) :
    ∃ v, numberNew (ds ++ '\'' :: b :: cs) = some (v, false) ∧ numberWidth v = w ∧ isDefined v = true ∧
      (∀ n, n < w → numberBit v n = some (2 + value base (cs.filter (· ≠ '_')) / 2 ^ n % 2)) ∧
      (value base (cs.filter (· ≠ '_')) < 2 ^ 32 →
        numberInteger v = some (value base (cs.filter (· ≠ '_')))) := by
  refine ⟨_, (numberNew_prefix hw _).trans ((newBase_char hb _ _).trans
    (newDigits_int hb.cases hle hc hv)), rfl, rfl, fun n hn => ?_, fun hlt => ?_⟩
  · generalize value base (cs.filter (· ≠ '_')) = V
    unfold numberBit
    dsimp only
    rw [if_pos hn, Nat.shiftRight_eq_div_pow, and1]
    have e : V % 2 ^ 32 / 2 ^ n % 2 = V / 2 ^ n % 2 := by
      have := two_pow_shift_lt (V := V / 2 ^ 32) (k := 32) (d := V % 2 ^ 32) (n := n) (by omega)
      rw [← this]
      congr 2
      omega
    rw [e]
    have : V / 2 ^ n % 2 < 2 := Nat.mod_lt _ (by omega)
    generalize V / 2 ^ n % 2 = x at this
    match x, this with
    | 0, _ => rfl
    | 1, _ => rfl
  · unfold numberInteger
    have : numberWidth (.intg false w (value base (cs.filter (· ≠ '_')) % 2 ^ 32)) ≤ 64 := by
      show w ≤ 64
      omega
    rw [if_pos ⟨this, rfl⟩]
    dsimp only
    rw [Nat.mod_eq_of_lt hlt]

/-- **C46**: an unsigned decimal number without a base has 32 bits. -/
theorem new_unsigned (hne : cs ≠ []) (hc : ∀ c ∈ cs, c ∈ digitChars 10 ∨ c = '_')
    (hv : value 10 (cs.filter (· ≠ '_')) < 2 ^ 63) :
    numberNew cs = some (.intg false 32 (value 10 (cs.filter (· ≠ '_')) % 2 ^ 32), false) := by
  have hq : ∀ c ∈ '_' :: digitChars 10, c ≠ '\'' ∧ c ≠ 'b' ∧ c ≠ 'h' ∧ c ≠ 'd' := by decide
  have hall : ∀ c ∈ cs, c ≠ '\'' ∧ c ≠ 'b' ∧ c ≠ 'h' ∧ c ≠ 'd' := fun c h =>
    hq c (by rcases hc c h with h | h <;> simp [h])
  unfold numberNew
  have hdrop : cs.dropWhile (· ≠ '\'') = [] := by
    have : ∀ l : List Char, (∀ c ∈ l, c ≠ '\'') → l.dropWhile (· ≠ '\'') = [] := by
      intro l
      induction l with
      | nil => intro _; rfl
      | cons c l ih =>
        intro h
        have h₁ := h c List.mem_cons_self
        rw [List.dropWhile_cons, if_pos (by simpa using h₁)]
        exact ih fun x hx => h x (List.mem_cons_of_mem _ hx)
    exact this cs fun c h => (hall c h).1
  rw [hdrop]
  dsimp only
  have := newDigits_int (w := 32) (by omega) (Nat.le_refl _) hc hv
  cases cs with
  | nil => exact absurd rfl hne
  | cons c cs =>
    have hc := hall c List.mem_cons_self
    unfold newBase
    split
    · next e => cases e; exact absurd rfl hc.2.1
    · next e => cases e; exact absurd rfl hc.2.2.1
    · next e => cases e; exact absurd rfl hc.2.2.2
    · exact this

/-- **C46**: a binary or hexadecimal literal whose width is a multiple of 32, of more than 32 bits or
with `x` and `z`: every digit is the one in the text, or zero above it.  It is defined if no digit is
`x` or `z`. -/
theorem new_big (hw : WidthText ds w) (h32 : w % 32 = 0) (hpos : 32 ≤ w) (hex : Bool)
    (hc : ∀ c ∈ cs, c ∈ chars hex) (hbig : 32 < w ∨ 'x' ∈ cs ∨ 'z' ∈ cs) :
    ∃ v, numberNew (ds ++ '\'' :: (if hex then 'h' else 'b') :: cs) = some (v, false) ∧
      numberWidth v = w ∧
      (∀ n, n < w → numberBit v n = some ((litBits hex cs).reverse.getD n 2)) ∧
      (isDefined v = true ↔ ∀ n, n < w → 2 ≤ (litBits hex cs).reverse.getD n 2) ∧
      ∃ words, v = .big false w words := by
  obtain ⟨v, words, e, ok⟩ := digitLoop_big hex hc (bigOk_initial hpos)
  have e' : numberNew (ds ++ '\'' :: (if hex then 'h' else 'b') :: cs) = some (v, false) := by
    rw [numberNew_prefix hw]
    have : newBase w ((if hex then 'h' else 'b') :: cs) =
        newDigits w (if hex then 16 else 2) cs := by cases hex <;> rfl
    rw [this]
    unfold newDigits
    dsimp only
    have h₁ : (!(cs.any fun c => c = 'x' || c = 'z') && decide ((w : Int) ≤ 32)) = false := by
      rcases hbig with h | h | h
      · have : ¬ ((w : Int) ≤ 32) := by omega
        simp [this]
      · have : (cs.any fun c => c = 'x' || c = 'z') = true :=
          List.any_eq_true.2 ⟨'x', h, by decide⟩
        simp [this]
      · have : (cs.any fun c => c = 'x' || c = 'z') = true :=
          List.any_eq_true.2 ⟨'z', h, by decide⟩
        simp [this]
    rw [h₁, if_neg (by simp), if_neg (by cases hex <;> decide)]
    rw [show ((if hex then 16 else 2 : Nat) == 16) = hex by cases hex <;> rfl, e]
  rw [List.nil_append] at ok
  refine ⟨v, e', ?_, fun n hn => bigOk_bit ok h32 hn, bigOk_defined ok h32, words, ok.eq⟩
  rw [ok.eq]
  rfl

/-- **C46**: these are the digits of the standard if the text fills the width, or does not start with
`x` or `z`. -/
theorem stdBit_eq (bs : List Nat) (w : Nat) (h : w ≤ bs.length ∨ bs.head? ≠ some 0 ∧ bs.head? ≠ some 1)
    (n : Nat) (hn : n < w) : bs.reverse.getD n 2 = stdBit bs n := by
  unfold stdBit
  rw [List.getD_eq_getElem?_getD]
  cases e : bs.reverse[n]? with
  | some b => rfl
  | none =>
    rw [List.getElem?_eq_none_iff, List.length_reverse] at e
    have := h.resolve_left (by omega)
    simp [this.1, this.2]

/-- **C46**: the value of a defined literal of 64 bits as an integer. -/
theorem new_big_integer (hw : WidthText ds 64) (hex : Bool)
    (hc : ∀ c ∈ cs, c ∈ chars hex ∧ c ≠ 'x' ∧ c ≠ 'z') :
    ∃ v, numberNew (ds ++ '\'' :: (if hex then 'h' else 'b') :: cs) = some (v, false) ∧
      numberInteger v = some (value (if hex then 16 else 2) cs % 2 ^ 64) := by
  obtain ⟨v, h₁, h₂, h₃, h₄, h₅⟩ := new_big hw rfl (by decide) hex (fun c h => (hc c h).1) (.inl (by decide))
  have hbits := litBits_value hex (bs := []) (V := 0) hc (by simp)
  simp only [List.nil_append] at hbits
  refine ⟨v, h₁, ?_⟩
  have hdef : isDefined v = true := h₄.2 fun n _ => by rw [hbits]; omega
  unfold numberInteger
  rw [h₂, if_pos ⟨by decide, hdef⟩]
  have := integerLoop_eq v (value (if hex then 16 else 2) cs) 64 0 (by decide)
    (fun m hm => by rw [h₃ m hm, hbits]; rfl)
  rw [Nat.zero_mul, Nat.zero_add, Nat.mod_mod] at this
  obtain ⟨words, rfl⟩ := h₅
  exact this

/-- Digits of a small number while others are shifted in: the new ones are lost. -/
def NoOnes (v : Num) : Prop := ∃ s w p, v = .small s w p ∧ ∀ n, dig p n = 0 ∨ dig p n = 2

theorem noOnes_shift (h : NoOnes v) (k c : Nat) : NoOnes (shiftLeft k c v) := by
  obtain ⟨s, w, p, rfl, h⟩ := h
  refine ⟨s, w, _, rfl, fun n => ?_⟩
  split
  · by_cases c : n < 28
    · rw [show (2 : Nat) ^ 56 = 4 ^ 28 by decide, dig_mod c, Nat.shiftLeft_eq, two_four]
      have : p * 4 ^ k = p * 4 ^ k + 0 := rfl
      rw [this]
      by_cases d : n < k
      · rw [dig_shift_lt d]
        left
        unfold dig
        simp
      · rw [dig_shift_ge (by omega) (Nat.pow_pos (by omega))]
        exact h _
    · left
      unfold dig
      rw [Nat.div_eq_of_lt]
      refine Nat.lt_of_lt_of_le (Nat.mod_lt _ (by decide)) ?_
      rw [show (2 : Nat) ^ 56 = 4 ^ 28 by decide]
      exact Nat.pow_le_pow_right (by omega) (by omega)
  · left
    unfold dig
    simp

theorem noOnes_loop (hex : Bool) : ∀ {cs : List Char} {r : Num × Bool}, NoOnes r.1 →
    NoOnes (digitLoop hex cs r).1
  | [], r, h => h
  | c :: cs, r, h => by
    unfold digitLoop
    split
    · exact noOnes_loop hex (noOnes_shift h _ _)
    · exact noOnes_loop hex (noOnes_shift h _ _)

/-- **C46**, a defect: in literals with `x` or `z` of up to 31 bits no digit is `1` or `z`, whatever is
in the text. -/
theorem new_small_lost (hw : WidthText ds w) (hle : w ≤ 31) (hex : Bool) (hx : 'x' ∈ cs ∨ 'z' ∈ cs) :
    ∃ v e, numberNew (ds ++ '\'' :: (if hex then 'h' else 'b') :: cs) = some (v, e) ∧
      ∀ n b, numberBit v n = some b → b = 0 ∨ b = 2 := by
  have e' : numberNew (ds ++ '\'' :: (if hex then 'h' else 'b') :: cs) =
      some (digitLoop hex cs (initial w, false)) := by
    rw [numberNew_prefix hw]
    have : newBase w ((if hex then 'h' else 'b') :: cs) =
        newDigits w (if hex then 16 else 2) cs := by cases hex <;> rfl
    rw [this]
    unfold newDigits
    dsimp only
    have h₁ : (!(cs.any fun c => c = 'x' || c = 'z') && decide ((w : Int) ≤ 32)) = false := by
      rcases hx with h | h
      · have : (cs.any fun c => c = 'x' || c = 'z') = true :=
          List.any_eq_true.2 ⟨'x', h, by decide⟩
        simp [this]
      · have : (cs.any fun c => c = 'x' || c = 'z') = true :=
          List.any_eq_true.2 ⟨'z', h, by decide⟩
        simp [this]
    rw [h₁, if_neg (by simp), if_neg (by cases hex <;> decide)]
    rw [show ((if hex then 16 else 2 : Nat) == 16) = hex by cases hex <;> rfl]
  have h₀ : NoOnes (initial w) := by
    unfold initial
    rw [if_pos (by omega)]
    refine ⟨_, _, _, rfl, fun n => ?_⟩
    by_cases c : n < 28
    · exact .inr (dig_smallZero n c)
    · left
      unfold dig
      rw [Nat.div_eq_of_lt]
      refine Nat.lt_of_lt_of_le (by decide : smallZero < 4 ^ 28) ?_
      exact Nat.pow_le_pow_right (by omega) (by omega)
  have h := noOnes_loop hex (cs := cs) (r := (initial w, false)) h₀
  refine ⟨_, _, e', ?_⟩
  obtain ⟨s, w', p, e, hd⟩ := h
  rw [e]
  intro n b hb
  unfold numberBit at hb
  dsimp only at hb
  split at hb
  · rw [shr_and3] at hb
    cases hb
    exact hd n
  · cases hb

/-! ## Values of signals -/

/-- **C46**: a number made of the value of a signal has its digits, if there is no `x` and `z` in 32 bits,
or the width is at most 28, or a multiple of 32. -/
theorem pack_bit (bits : List Nat)
    (h : bits.length ≤ 28 ∨ bits.length % 32 = 0 ∨
      bits.length ≤ 32 ∧ ∀ x ∈ bits, x % 4 = 2 ∨ x % 4 = 3) :
    numberWidth (numberPack bits) = bits.length ∧ ∀ n (hn : n < bits.length),
      numberBit (numberPack bits) n = some (bits[bits.length - 1 - n] % 4) := by
  unfold numberPack
  dsimp only
  split
  · next c =>
    simp only [Bool.and_eq_true, Bool.not_eq_true', List.any_eq_false, Bool.or_eq_true, beq_iff_eq,
      decide_eq_true_eq, and3] at c
    obtain ⟨c₁, c₂⟩ := c
    refine ⟨rfl, fun n hn => ?_⟩
    obtain ⟨p₁, p₂⟩ := packLoop_bit (bits := bits) (bs := []) (p := 0) (by simpa using c₂) (by simp)
      (by simp)
    simp only [List.length_nil, Nat.zero_add, List.nil_append] at p₁ p₂
    generalize packLoop 64 1 (fun x => x &&& 3 &&& 1) bits 0 = V at p₁ p₂
    have hV : V < 2 ^ 32 := Nat.lt_of_lt_of_le p₁ (Nat.pow_le_pow_right (by omega) c₂)
    have hget : bits.reverse.getD n 0 = bits[bits.length - 1 - n] := by
      rw [List.getD_eq_getElem?_getD, List.getElem?_reverse hn, List.getElem?_eq_getElem (by omega)]
      rfl
    have hp := p₂ n
    rw [hget] at hp
    have hx := c₁ _ (List.getElem_mem (by omega : bits.length - 1 - n < bits.length))
    unfold numberBit
    dsimp only
    rw [if_pos hn, Nat.mod_eq_of_lt hV, Nat.shiftRight_eq_div_pow, and1, hp]
    generalize bits[bits.length - 1 - n] = x at hx
    have e : x % 2 ||| 2 = x % 2 + 2 := by
      rcases Nat.mod_two_eq_zero_or_one x with h | h <;> rw [h] <;> rfl
    rw [e]
    congr 1
    omega
  · next c =>
    have c' : 32 < bits.length ∨ ¬ ∀ x ∈ bits, x % 4 = 2 ∨ x % 4 = 3 := by
      by_cases d : 32 < bits.length
      · exact .inl d
      · refine .inr fun hall => c ?_
        simp only [Bool.and_eq_true, Bool.not_eq_true', List.any_eq_false, Bool.or_eq_true, beq_iff_eq,
          decide_eq_true_eq, and3]
        refine ⟨fun x hx => ?_, by omega⟩
        have := hall x hx
        omega
    have hget : ∀ n (hn : n < bits.length), ∀ d, (bits.map (· % 4)).reverse.getD n d =
        bits[bits.length - 1 - n] % 4 := by
      intro n hn d
      rw [List.getD_eq_getElem?_getD, List.getElem?_reverse (by simpa using hn), List.length_map,
        List.getElem?_map, List.getElem?_eq_getElem (by omega)]
      rfl
    split
    · next c₃ =>
      refine ⟨rfl, fun n hn => ?_⟩
      have hn28 : n < 28 := by
        rcases h with h | h | ⟨-, h⟩
        · omega
        · omega
        · rcases c' with c' | c'
          · omega
          · exact absurd h c'
      have := packLoop_dig (N := 28) (by omega) (bits := bits) (bs := []) (p := smallZero)
        (fun n hn => dig_smallZero n hn) n hn28
      unfold numberBit
      dsimp only
      rw [if_pos hn, shr_and3, show (2 : Nat) ^ 56 = 4 ^ 28 by decide, dig_mod hn28, this,
        List.nil_append, hget n hn]
    · next c₃ =>
      refine ⟨rfl, fun n hn => ?_⟩
      have h32 : bits.length % 32 = 0 := by
        rcases h with h | h | ⟨h₁, h⟩
        · omega
        · exact h
        · rcases c' with c' | c'
          · omega
          · exact absurd h c'
      have hk : bignumWords bits.length = bits.length / 32 := by unfold bignumWords; omega
      unfold numberBit
      dsimp only
      rw [if_pos hn, packWords_get (by omega), Option.map_some, shr_and3]
      have := packLoop_dig (N := 32) (by omega)
        (bits := (bits.drop (32 * ((bits.length - n - 1) / 32))).take 32) (bs := []) (p := bigZero)
        (fun n hn => dig_bigZero n hn) (n % 32) (Nat.mod_lt _ (by omega))
      rw [this, List.nil_append]
      have hlen : ((bits.drop (32 * ((bits.length - n - 1) / 32))).take 32).length = 32 := by
        rw [List.length_take, List.length_drop]
        omega
      rw [List.getD_eq_getElem?_getD, List.getElem?_reverse (by rw [List.length_map, hlen]; omega),
        List.length_map, hlen, List.getElem?_map, List.getElem?_take_of_lt (by omega), List.getElem?_drop,
        show 32 * ((bits.length - n - 1) / 32) + (32 - 1 - n % 32) = bits.length - 1 - n by omega,
        List.getElem?_eq_getElem (by omega)]
      rfl

/-! ## Files -/

/-- Numbers that fit their fields. -/
def Num.Ok : Num → Prop
  | .small _ w p => w < 32 ∧ p < 2 ^ 56
  | .intg _ w p => w < 64 ∧ p < 2 ^ 32
  | .big s w ws => s = false ∧ w < 2 ^ 32 ∧ ws.length = bignumWords w ∧ ∀ x ∈ ws, x < 2 ^ 64

/-- **C46**: numbers survive a library file. -/
theorem read_write (h : v.Ok) (rest : List Nat) : numberRead (numberWrite v ++ rest) = some (v, rest) := by
  have other : (∀ s w ws, v ≠ .big s w ws) → numberWrite v = Fbuf.putUint (encode v) →
      numberRead (numberWrite v ++ rest) = some (v, rest) := by
    intro hb hw
    obtain ⟨h₁, h₂, h₃⟩ := decode_encode (v := v)
      (fun s w p e => by subst e; exact h) (fun s w p e => by subst e; exact h) hb
    unfold numberRead
    rw [hw, Fbuf.getUint_putUint _ h₂]
    dsimp only
    rw [if_neg (by omega), if_neg (by omega), h₁]
  cases v with
  | small s w p => exact other (by intros; simp) rfl
  | intg s w p => exact other (by intros; simp) rfl
  | big s w ws =>
    obtain ⟨rfl, hw, hl, hws⟩ := h
    unfold numberWrite numberRead
    rw [List.append_assoc, List.append_assoc, Fbuf.getUint_putUint _ (by decide)]
    simp only [Nat.zero_mod, if_true, Bool.false_eq_true, if_false]
    rw [Fbuf.getInt_putInt]
    dsimp only
    have e : (BitVec.ofNat 64 w).toInt = w := by
      rw [BitVec.toInt_eq_toNat_of_lt] <;> simp only [BitVec.toNat_ofNat] <;> omega
    rw [e, Int.natAbs_natCast, Nat.mod_eq_of_lt hw, ← hl, List.take_length, readWords_eq hws,
      Option.map_some]
    simp

/-! ## Counterexamples and examples -/

/-- The sign of a big number is lost, and its width wrong. -/
theorem write_signed_counterexample :
    numberRead (numberWrite (.big true 64 [0, 0])) ≠ some (.big true 64 [0, 0], []) := by decide +kernel

/-- In `33'h2` bit 1 is zero. -/
theorem new_bit_counterexample :
    (numberNew "33'h2".toList).bind (fun r => numberBit r.1 1) = some 2 ∧
      (numberNew "33'h2".toList).bind (fun r => numberInteger r.1) = some 0 := by decide +kernel

/-- In `4'b1zz0` all digits are `x`. -/
theorem new_small_counterexample :
    (numberNew "4'b1zz0".toList).map (fun r => (List.range 4).map (numberBit r.1)) =
      some [some 0, some 0, some 0, some 0] := by decide +kernel

/-- `x` is not extended to the left: bit 5 of `64'bx` is zero. -/
theorem new_extend_counterexample :
    (numberNew "64'bx".toList).bind (fun r => numberBit r.1 5) = some 2 ∧
      stdBit (litBits false "x".toList) 5 = 0 := by decide +kernel

/-- Underscores in numbers of more than 32 bits are errors, decimal numbers of more than 32 bits fail
an assertion, and an underscore in the width calls `abort`. -/
theorem new_reject_counterexample :
    (numberNew "64'h0000_0001".toList).map (·.2) = some true ∧ numberNew "64'd1".toList = none ∧
      numberNew "1_6'h1".toList = none := by decide +kernel

/-- `8'h0X1` is one, because `strtoll` accepts a prefix. -/
theorem new_prefix_counterexample :
    numberNew "8'h0X1".toList = some (.intg false 8 1, false) := by decide +kernel

/-- Values from `2^63` are replaced by the largest: bit 0 of this number is one. -/
theorem new_saturate_counterexample :
    (numberNew "32'hffffffff00000000".toList).bind (fun r => numberBit r.1 0) = some 3 := by
  decide +kernel

/-- `4'hff` is 255 as an integer, but its digits make 15. -/
theorem new_truncate_counterexample :
    (numberNew "4'hff".toList).bind (fun r => numberInteger r.1) = some 255 := by decide +kernel

/-- The most significant of 29 digits is lost, and digits of a width of 33 are exchanged. -/
theorem pack_counterexample :
    numberBit (numberPack (1 :: List.replicate 28 0)) 28 = some 0 ∧
      numberBit (numberPack (List.replicate 31 2 ++ [3, 2])) 1 = some 2 := by decide +kernel

example : WidthText "16".toList 16 := .digits (by decide) (by decide) (by decide)

example : numberNew "16'h1_2aF".toList = some (.intg false 16 0x12af, false) ∧
    value 16 ("1_2aF".toList.filter (· ≠ '_')) = 0x12af := by decide +kernel

example : (numberNew "64'h1xz".toList).map (fun r => (List.range 10).filterMap (numberBit r.1)) =
    some [1, 1, 1, 1, 0, 0, 0, 0, 3, 2] := by decide +kernel

example : (litBits true "1xz".toList).reverse = [1, 1, 1, 1, 0, 0, 0, 0, 3, 2, 2, 2] := by decide

example : (Num.big false 33 [1, 2]).Ok := by
  refine ⟨rfl, by decide, by decide, by decide⟩

end Verif.Vlog
