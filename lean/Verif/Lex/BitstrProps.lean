import Verif.Lex.BitstrLex
import Verif.Lex.BitstrDec

/-
Bit string literals have the elements that the standard gives them.
-/

namespace Verif.Lex

/-! ### From the lexeme to the value -/

theorem decimalOf_fold (ds : List Char) : ∀ (a v : Nat), decimalValue ds = some v →
    ds.foldl (fun a c => a * 10 + (c.toNat - '0'.toNat)) a = a * 10 ^ ds.length + v := by
  induction ds with
  | nil => intro a v h; cases Option.some.inj h; simp
  | cons c cs ih =>
    intro a v h
    rw [decimalValue] at h
    split at h
    · obtain ⟨w, hw, rfl⟩ := Option.map_eq_some_iff.mp h
      rw [List.foldl_cons, ih _ w hw, List.length_cons, Nat.pow_succ, Nat.add_mul, Nat.add_assoc,
        Nat.mul_comm (10 ^ cs.length), Nat.mul_assoc]
      rfl
    · cases h

theorem decimalOf_eq {ds : List Char} {v : Nat} (h : decimalValue ds = some v) : decimalOf ds = v := by
  unfold decimalOf
  rw [decimalOf_fold ds 0 v h]
  omega

theorem decimal_digits (ds : List Char) : ∀ v, decimalValue ds = some v → ∀ d ∈ ds, isDigit d = true := by
  induction ds with
  | nil => intro v _ d hd; simp at hd
  | cons c cs ih =>
    intro v h d hd
    rw [decimalValue] at h
    split at h
    · next hc =>
      obtain ⟨w, hw, rfl⟩ := Option.map_eq_some_iff.mp h
      rcases List.mem_cons.mp hd with rfl | hd
      · unfold isDigit
        have e1 : '0'.toNat = 48 := rfl
        have e2 : '9'.toNat = 57 := rfl
        simp only [e1, e2, Bool.and_eq_true, decide_eq_true_eq]
        omega
      · exact ih w hw d hd
    · cases h

theorem takeWhile_digits (ds : List Char) (h : ∀ d ∈ ds, isDigit d = true) (c : Char) (rest : List Char)
    (hc : isDigit c = false) :
    (ds ++ c :: rest).takeWhile isDigit = ds ∧ (ds ++ c :: rest).dropWhile isDigit = c :: rest := by
  induction ds with
  | nil => simp [hc]
  | cons d ds ih =>
    have hd := h d (by simp)
    obtain ⟨h1, h2⟩ := ih (fun x hx => h x (by simp [hx]))
    rw [List.cons_append, List.takeWhile_cons, List.dropWhile_cons, hd]
    exact ⟨by simp [h1], by simpa using h2⟩

/-- The letter is one of the four. -/
def IsBase (c : Char) : Prop :=
  c = 'B' ∨ c = 'b' ∨ c = 'O' ∨ c = 'o' ∨ c = 'X' ∨ c = 'x' ∨ c = 'D' ∨ c = 'd'

theorem Letter.isBase {c : Char} {k : Nat} (h : Letter c k) : IsBase c := by
  unfold Letter at h
  unfold IsBase
  rcases h with ⟨h | h, _⟩ | ⟨h | h, _⟩ | ⟨h | h, _⟩ <;> simp [h]

theorem Letter.exp {c : Char} {k : Nat} (h : Letter c k) : k = 1 ∨ k = 3 ∨ k = 4 := by
  rcases h with ⟨_, h⟩ | ⟨_, h⟩ | ⟨_, h⟩ <;> simp [h]

theorem head_not_digit {s : List Char} (hs : s = [] ∨ s = ['U'] ∨ s = ['u'] ∨ s = ['S'] ∨ s = ['s'])
    {b : Char} (hb : IsBase b) (rest : List Char) :
    ∃ c r, s ++ b :: rest = c :: r ∧ isDigit c = false := by
  rcases hs with rfl | rfl | rfl | rfl | rfl
  · refine ⟨b, rest, rfl, ?_⟩
    rcases hb with rfl | rfl | rfl | rfl | rfl | rfl | rfl | rfl <;> decide
  all_goals exact ⟨_, _, rfl, by decide⟩

/-- The sign is one of those that the lexer accepts. -/
def SignOk (l : Lexeme) : Prop :=
  l.sign = [] ∨ l.sign = ['U'] ∨ l.sign = ['u'] ∨ l.sign = ['S'] ∨ l.sign = ['s']

theorem Signed.ok {l : Lexeme} (h : Signed l) : SignOk l := by
  unfold Signed at h; unfold SignOk; rcases h with h | h <;> simp [h]

theorem Unsigned.ok {l : Lexeme} (h : Unsigned l) : SignOk l := by
  unfold Unsigned at h; unfold SignOk; rcases h with h | h | h <;> simp [h]

/-- What follows the length. -/
def withLength (std08 : Bool) : Option Nat → List Char → Out
  | none, p => afterLength std08 none p
  | some n, p => if n > 2147483647 then .tooLong else afterLength std08 (some n) p

theorem bitString_length (std08 : Bool) {l : Lexeme} {len : Option Nat} (hl : HasLength l len)
    (hs : SignOk l) (hb : IsBase l.base) (rest : List Char) :
    bitString std08 (l.length ++ l.sign ++ l.base :: rest) =
      withLength std08 len (l.sign ++ l.base :: rest) := by
  obtain ⟨c, r, h1, h2⟩ := head_not_digit hs hb rest
  rw [List.append_assoc, h1]
  unfold bitString
  rcases hl with ⟨rfl, h⟩ | ⟨n, rfl, h3, h4⟩
  · rw [h]
    simp [h2, withLength]
  · have hd := decimal_digits _ _ h4
    obtain ⟨h5, h6⟩ := takeWhile_digits l.length hd c r h2
    rw [h5, h6, decimalOf_eq h4]
    cases hll : l.length with
    | nil => exact absurd hll h3
    | cons d ds =>
      have : isDigit d = true := hd d (by simp [hll])
      simp [this, withLength]

theorem afterLength_based (std08 : Bool) (len : Option Nat) {l : Lexeme} {k : Nat} (hs : SignOk l)
    (hb : Letter l.base k) (rest : List Char) :
    afterLength std08 len (l.sign ++ l.base :: '"' :: rest) =
      based std08 (decide (l.sign = ['S'] ∨ l.sign = ['s'])) (2 ^ k) len rest := by
  unfold afterLength
  rcases hs with h | h | h | h | h <;> rw [h] <;>
    rcases hb with ⟨h' | h', rfl⟩ | ⟨h' | h', rfl⟩ | ⟨h' | h', rfl⟩ <;> rw [h'] <;> simp

theorem afterLength_decimal (std08 : Bool) (len : Option Nat) {l : Lexeme} (hs : SignOk l)
    (hb : l.base = 'D' ∨ l.base = 'd') (rest : List Char) :
    afterLength std08 len (l.sign ++ l.base :: '"' :: rest) = decimal len rest := by
  unfold afterLength
  rcases hs with h | h | h | h | h <;> rw [h] <;> rcases hb with h' | h' <;> rw [h'] <;> simp

theorem digit_not_special {d : Char} (h : isDigit d = true) : d ≠ '%' ∧ d ≠ '_' := by
  constructor
  · rintro rfl; exact absurd h (by decide)
  · rintro rfl; exact absurd h (by decide)

theorem prefix_clean {l : Lexeme} {len : Option Nat} (hl : HasLength l len) (hs : SignOk l)
    (hb : IsBase l.base) :
    '%' ∉ l.length ++ l.sign ++ [l.base] ∧ '_' ∉ l.length ++ l.sign ++ [l.base] := by
  have h1 : '%' ∉ l.length ∧ '_' ∉ l.length := by
    rcases hl with ⟨_, h⟩ | ⟨n, _, _, h⟩
    · simp [h]
    · have hd := decimal_digits _ _ h
      exact ⟨fun e => (digit_not_special (hd _ e)).1 rfl, fun e => (digit_not_special (hd _ e)).2 rfl⟩
  have h2 : '%' ∉ l.sign ∧ '_' ∉ l.sign := by
    rcases hs with h | h | h | h | h <;> rw [h] <;> decide
  have h3 : '%' ≠ l.base ∧ '_' ≠ l.base := by
    rcases hb with h | h | h | h | h | h | h | h <;> rw [h] <;> decide
  simp [h1, h2, h3]

theorem text_clean {l : Lexeme} {len : Option Nat} (hl : HasLength l len) (hs : SignOk l)
    (hb : IsBase l.base) (hp : Plain l.body) : '%' ∉ l.text := by
  have h := (prefix_clean hl hs hb).1
  unfold Lexeme.text
  simp only [List.mem_append, List.mem_cons, List.not_mem_nil, or_false, not_or] at h ⊢
  exact ⟨⟨⟨h.1, h.2, by decide⟩, hp.2⟩, by decide⟩

theorem literal_split (std08 : Bool) {l : Lexeme} {len : Option Nat} (hl : HasLength l len)
    (hs : SignOk l) (hb : IsBase l.base) (hp : Plain l.body) :
    ∃ left, (literal std08 l.text).1 =
      bitString std08 (l.length ++ l.sign ++ l.base :: '"' :: (l.value ++ '"' :: left)) := by
  unfold literal parseBitString
  dsimp only
  rw [Lexeme.text_written (text_clean hl hs hb hp) (prefix_clean hl hs hb).2]
  refine ⟨l.text.drop (l.length ++ l.sign ++ [l.base, '"'] ++ l.value ++ ['"']).length, ?_⟩
  congr 1
  simp only [List.append_assoc, List.cons_append, List.nil_append]

theorem value_plain {l : Lexeme} (hp : Plain l.body) : '"' ∉ l.value := by
  unfold Lexeme.value
  intro h
  exact hp.1 (List.mem_filter.mp h).1

/-! ### Literals of base 2, 8 and 16 -/

theorem finish_none (p0 : Option Char) (ex : List Char) :
    finish none (stateOf p0 none ex) = .ok ex := rfl

theorem based_iff {k : Nat} (hk : k = 1 ∨ k = 3 ∨ k = 4) (std08 signed : Bool) (len : Option Nat)
    (cs rest : List Char) (hq : '"' ∉ cs) (out : List Char) :
    based std08 signed (2 ^ k) len (cs ++ '"' :: rest) = .ok out ↔
      ∃ ex, Expanded std08 k cs ex ∧ Dropped (if signed then none else some '0') len ex ∧
        finish len (stateOf (if signed then none else some '0') len ex) = .ok out := by
  have h0 : Dropped (if signed then none else some '0') len [] := by
    unfold Dropped
    cases len with
    | none => trivial
    | some n => intro i hi; simp at hi
  have hst : (⟨if signed then none else some '0', []⟩ : St) =
      stateOf (if signed then none else some '0') len [] := by
    unfold stateOf
    cases len <;> simp
  unfold based
  rw [hst]
  have key := basedLoop_state hk std08 (if signed then none else some '0') len rest cs hq [] h0
  constructor
  · intro h
    cases hb : basedLoop std08 (2 ^ k) len (stateOf (if signed then none else some '0') len [])
        (cs ++ '"' :: rest) with
    | error e =>
      rw [hb] at h
      dsimp only at h
      subst h
      exfalso
      clear key hst h0
      have : ∀ (cs : List Char) (st : St), basedLoop std08 (2 ^ k) len st cs ≠ .error (.ok out) := by
        intro cs
        induction cs with
        | nil => intro st h; cases h
        | cons c cs ih =>
          intro st h
          rw [basedLoop] at h
          split at h
          · cases h
          · split at h
            · cases h
            · split at h
              · cases h
              · exact ih _ h
      exact this _ _ hb
    | ok st =>
      rw [hb] at h
      obtain ⟨ex, h1, h2, h3⟩ := (key st).mp hb
      exact ⟨ex, h1, by simpa using h2, by rw [h3] at h; simpa using h⟩
  · rintro ⟨ex, h1, h2, h3⟩
    rw [(key _).mpr ⟨ex, h1, by simpa using h2, rfl⟩]
    simpa using h3

/-- Without a length, the literal has the expanded value. -/
theorem bitstring_unlimited (std08 : Bool) (l : Lexeme) (k : Nat) (hl : HasLength l none)
    (hs : Signed l ∨ Unsigned l) (hb : Letter l.base k) (hp : Plain l.body) (out : List Char) :
    (literal std08 l.text).1 = .ok out ↔ Expanded std08 k l.value out := by
  have hso : SignOk l := hs.elim Signed.ok Unsigned.ok
  obtain ⟨left, h⟩ := literal_split std08 hl hso hb.isBase hp
  rw [h, bitString_length std08 hl hso hb.isBase]
  rw [withLength, afterLength_based std08 none hso hb, based_iff hb.exp std08 _ none _ _ (value_plain hp)]
  constructor
  · rintro ⟨ex, h1, _, h3⟩
    rw [finish_none] at h3
    cases h3
    exact h1
  · intro h1
    exact ⟨out, h1, trivial, finish_none _ _⟩

theorem finish_some {c : Char} {n : Nat} {ex : List Char} :
    finish (some n) (stateOf (some c) (some n) ex) =
      .ok (List.replicate (n - ex.length) c ++ ex.drop (ex.length - n)) := by
  have hp : (stateOf (some c) (some n) ex).pad = some c := by
    unfold stateOf padOf
    dsimp only
    split <;> rfl
  have hb : (stateOf (some c) (some n) ex).bits = ex.drop (ex.length - n) := rfl
  unfold finish
  rw [hp, hb]
  dsimp only
  rw [List.length_drop]
  congr 2
  congr 1
  omega

theorem fitUnsigned_iff (n : Nat) (ex out : List Char) :
    FitUnsigned n ex out ↔ Dropped (some '0') (some n) ex ∧
      out = List.replicate (n - ex.length) '0' ++ ex.drop (ex.length - n) := by
  unfold FitUnsigned Dropped padOf
  dsimp only [Option.getD_some]
  constructor
  · rintro ⟨hl, ⟨zs, hz, rfl⟩ | ⟨zs, hz, rfl⟩⟩
    · rw [List.length_append] at hl
      refine ⟨fun i hi => by omega, ?_⟩
      have e1 : ex.length - n = 0 := by omega
      have e2 : n - ex.length = zs.length := by omega
      rw [e1, e2, List.drop_zero]
      congr 1
      exact List.eq_replicate_iff.mpr ⟨rfl, hz⟩
    · rw [List.length_append]
      have e1 : zs.length + out.length - n = zs.length := by omega
      have e2 : n - (zs.length + out.length) = 0 := by omega
      rw [e1, e2]
      refine ⟨fun i hi => ?_, by simp⟩
      rw [List.getElem?_append_left hi, List.getElem?_eq_getElem hi]
      rw [hz _ (List.getElem_mem hi)]
  · rintro ⟨hd, rfl⟩
    refine ⟨by simp; omega, ?_⟩
    by_cases hl : ex.length ≤ n
    · left
      have e1 : ex.length - n = 0 := by omega
      rw [e1, List.drop_zero]
      exact ⟨_, fun z hz => List.eq_of_mem_replicate hz, rfl⟩
    · right
      have e2 : n - ex.length = 0 := by omega
      rw [e2]
      refine ⟨ex.take (ex.length - n), ?_, by simp⟩
      intro z hz
      obtain ⟨i, hi, rfl⟩ := List.getElem_of_mem hz
      rw [List.length_take] at hi
      have := hd i (by omega)
      rw [List.getElem?_eq_getElem (by omega)] at this
      rw [List.getElem_take]
      exact Option.some.inj this

/-- With a length and without a sign, the literal has the expanded value
    adjusted to the length, if that is possible. -/
theorem bitstring_unsigned (std08 : Bool) (l : Lexeme) (k n : Nat) (hl : HasLength l (some n))
    (hn : n ≤ 2147483647) (hs : Unsigned l) (hb : Letter l.base k) (hp : Plain l.body)
    (out : List Char) :
    (literal std08 l.text).1 = .ok out ↔ ∃ ex, Expanded std08 k l.value ex ∧ FitUnsigned n ex out := by
  obtain ⟨left, h⟩ := literal_split std08 hl hs.ok hb.isBase hp
  rw [h, bitString_length std08 hl hs.ok hb.isBase]
  rw [withLength]
  have hd : decide (l.sign = ['S'] ∨ l.sign = ['s']) = false := by
    rcases hs with h | h | h <;> rw [h] <;> decide
  rw [if_neg (by omega), afterLength_based std08 _ hs.ok hb, hd,
    based_iff hb.exp std08 _ _ _ _ (value_plain hp)]
  simp only [Bool.false_eq_true, if_false]
  constructor
  · rintro ⟨ex, h1, h2, h3⟩
    rw [finish_some] at h3
    cases h3
    exact ⟨ex, h1, (fitUnsigned_iff n ex _).mpr ⟨h2, rfl⟩⟩
  · rintro ⟨ex, h1, h2⟩
    obtain ⟨h3, h4⟩ := (fitUnsigned_iff n ex out).mp h2
    exact ⟨ex, h1, h3, by rw [finish_some, h4]⟩

theorem signed_fit (n : Nat) (ex out : List Char) :
    (Dropped none (some n) ex ∧ finish (some n) (stateOf none (some n) ex) = .ok out) ↔
      out.length = n ∧ (ex = out ∨ (∃ zs s, ex.head? = some s ∧ (∀ z ∈ zs, z = s) ∧ out = zs ++ ex) ∨
        (∃ zs s, ex.head? = some s ∧ (∀ z ∈ zs, z = s) ∧ ex = zs ++ out)) := by
  cases ex with
  | nil =>
    have hd : Dropped none (some n) [] := by intro i hi; simp at hi
    have hf : finish (some n) (stateOf none (some n) []) =
        if 0 < n then .emptySigned else .ok [] := by
      unfold finish stateOf
      simp
    rw [hf]
    constructor
    · rintro ⟨_, h⟩
      split at h
      · cases h
      · cases h
        exact ⟨by simp; omega, Or.inl rfl⟩
    · rintro ⟨h1, h | ⟨zs, s, h, _⟩ | ⟨zs, s, h, _⟩⟩
      · subst h
        refine ⟨hd, ?_⟩
        rw [if_neg (by simp at h1; omega)]
      · simp at h
      · simp at h
  | cons s xs =>
    have hd : Dropped none (some n) (s :: xs) ↔
        ∀ (i : Nat), i < (s :: xs).length - n → (s :: xs)[i]? = some s := by
      unfold Dropped padOf
      simp
    have hf : finish (some n) (stateOf none (some n) (s :: xs)) =
        .ok (List.replicate (n - (s :: xs).length) s ++ (s :: xs).drop ((s :: xs).length - n)) := by
      unfold finish stateOf padOf
      simp only [reduceCtorEq, if_false, Option.getD_none, List.headD_cons, List.length_drop]
      congr 2
      congr 1
      omega
    rw [hd, hf]
    generalize hex : s :: xs = ex
    have hh : ex.head? = some s := by rw [← hex]; rfl
    constructor
    · rintro ⟨h1, h2⟩
      cases h2
      refine ⟨by simp; omega, ?_⟩
      by_cases hl : ex.length ≤ n
      · right; left
        have e1 : ex.length - n = 0 := by omega
        rw [e1, List.drop_zero]
        exact ⟨_, s, hh, fun z hz => List.eq_of_mem_replicate hz, rfl⟩
      · right; right
        have e2 : n - ex.length = 0 := by omega
        rw [e2]
        refine ⟨ex.take (ex.length - n), s, hh, ?_, by simp⟩
        intro z hz
        obtain ⟨i, hi, rfl⟩ := List.getElem_of_mem hz
        rw [List.length_take] at hi
        have := h1 i (by omega)
        rw [List.getElem?_eq_getElem (by omega)] at this
        rw [List.getElem_take]
        exact Option.some.inj this
    · rintro ⟨hl, h | ⟨zs, s', h1, h2, h3⟩ | ⟨zs, s', h1, h2, h3⟩⟩
      · subst h
        have e1 : ex.length - n = 0 := by omega
        have e2 : n - ex.length = 0 := by omega
        rw [e1, e2]
        exact ⟨fun i hi => by omega, by simp⟩
      · rw [hh] at h1
        cases Option.some.inj h1
        subst h3
        rw [List.length_append] at hl
        have e1 : ex.length - n = 0 := by omega
        have e2 : n - ex.length = zs.length := by omega
        rw [e1, e2, List.drop_zero]
        refine ⟨fun i hi => by omega, ?_⟩
        congr 2
        exact (List.eq_replicate_iff.mpr ⟨rfl, h2⟩).symm
      · rw [hh] at h1
        cases Option.some.inj h1
        have e1 : ex.length - n = zs.length := by rw [h3, List.length_append]; omega
        have e2 : n - ex.length = 0 := by rw [h3, List.length_append]; omega
        rw [e1, e2]
        refine ⟨fun i hi => ?_, by rw [h3]; simp⟩
        rw [h3, List.getElem?_append_left hi, List.getElem?_eq_getElem hi]
        rw [h2 _ (List.getElem_mem hi)]

/-- Elements are removed that are the same as the leftmost of all, not as the
    leftmost that remains. -/
def CutSigned (length : Nat) (ex out : List Char) : Prop :=
  out.length = length ∧ ∃ zs s, ex.head? = some s ∧ (∀ z ∈ zs, z = s) ∧ ex = zs ++ out ∧
    zs ≠ [] ∧ out.head? ≠ some s

/-- With a length and a sign, the literal has the expanded value adjusted to the
    length, if that is possible; and in one more case, in which the standard has
    an error. -/
theorem bitstring_signed_cases (std08 : Bool) (l : Lexeme) (k n : Nat) (hl : HasLength l (some n))
    (hn : n ≤ 2147483647) (hs : Signed l) (hb : Letter l.base k) (hp : Plain l.body)
    (out : List Char) :
    (literal std08 l.text).1 = .ok out ↔
      ∃ ex, Expanded std08 k l.value ex ∧ (FitSigned n ex out ∨ CutSigned n ex out) := by
  obtain ⟨left, h⟩ := literal_split std08 hl hs.ok hb.isBase hp
  rw [h, bitString_length std08 hl hs.ok hb.isBase]
  rw [withLength]
  have hd : decide (l.sign = ['S'] ∨ l.sign = ['s']) = true := by
    rcases hs with h | h <;> rw [h] <;> decide
  rw [if_neg (by omega), afterLength_based std08 _ hs.ok hb, hd,
    based_iff hb.exp std08 _ _ _ _ (value_plain hp)]
  simp only [if_true]
  apply exists_congr
  intro ex
  rw [signed_fit]
  constructor
  · rintro ⟨h1, hl, h | h | ⟨zs, s, h2, h3, h4⟩⟩
    · exact ⟨h1, Or.inl ⟨hl, Or.inl h⟩⟩
    · exact ⟨h1, Or.inl ⟨hl, Or.inr (Or.inl h)⟩⟩
    · refine ⟨h1, ?_⟩
      by_cases hz : zs = []
      · subst hz
        exact Or.inl ⟨hl, Or.inl h4⟩
      · by_cases ho : out.head? = some s
        · exact Or.inl ⟨hl, Or.inr (Or.inr ⟨zs, s, ho, h3, h4⟩)⟩
        · exact Or.inr ⟨hl, zs, s, h2, h3, h4, hz, ho⟩
  · rintro ⟨h1, ⟨hl, h | h | ⟨zs, s, h2, h3, h4⟩⟩ | ⟨hl, zs, s, h2, h3, h4, _⟩⟩
    · exact ⟨h1, hl, Or.inl h⟩
    · exact ⟨h1, hl, Or.inr (Or.inl h)⟩
    · refine ⟨h1, hl, Or.inr (Or.inr ⟨zs, s, ?_, h3, h4⟩)⟩
      rw [h4]
      cases zs with
      | nil => exact h2
      | cons z zs => simp [h3 z (by simp)]
    · exact ⟨h1, hl, Or.inr (Or.inr ⟨zs, s, h2, h3, h4⟩)⟩

/-- What the standard accepts is accepted with the right elements. -/
theorem bitstring_signed_partial (std08 : Bool) (l : Lexeme) (k n : Nat) (hl : HasLength l (some n))
    (hn : n ≤ 2147483647) (hs : Signed l) (hb : Letter l.base k) (hp : Plain l.body)
    (ex out : List Char) (he : Expanded std08 k l.value ex) (hf : FitSigned n ex out) :
    (literal std08 l.text).1 = .ok out :=
  (bitstring_signed_cases std08 l k n hl hn hs hb hp out).mpr ⟨ex, he, Or.inl hf⟩

/-! ### Literals of base 10 -/

/-- Without a length, a decimal literal has the bits of the number without
    zeros at the left. -/
theorem bitstring_decimal (std08 : Bool) (l : Lexeme) (hl : HasLength l none) (hs : l.sign = [])
    (hb : l.base = 'D' ∨ l.base = 'd') (hp : Plain l.body) (v : Nat) (hv : decimalValue l.value = some v) :
    ∃ out, (literal std08 l.text).1 = .ok out ∧ Binary out v ∧ out.head? ≠ some '0' := by
  have hso : SignOk l := Or.inl hs
  have hbase : IsBase l.base := by unfold IsBase; rcases hb with h | h <;> simp [h]
  obtain ⟨left, h⟩ := literal_split std08 hl hso hbase hp
  rw [h, bitString_length std08 hl hso hbase]
  rw [withLength, afterLength_decimal std08 none hso hb]
  exact (decimal_some _ _ (value_plain hp) v hv none).1 rfl

/-- With a length, a decimal literal has the bits of the number in this length
    if they fit, otherwise there is an error. -/
theorem bitstring_decimal_length (std08 : Bool) (l : Lexeme) (n : Nat) (hl : HasLength l (some n))
    (hn : n ≤ 2147483647) (hs : l.sign = [])
    (hb : l.base = 'D' ∨ l.base = 'd') (hp : Plain l.body) (v : Nat) (hv : decimalValue l.value = some v) :
    (v < 2 ^ n → ∃ out, (literal std08 l.text).1 = .ok out ∧ out.length = n ∧ Binary out v) ∧
      (2 ^ n ≤ v → (literal std08 l.text).1 = .excess) := by
  have hso : SignOk l := Or.inl hs
  have hbase : IsBase l.base := by unfold IsBase; rcases hb with h | h <;> simp [h]
  obtain ⟨left, h⟩ := literal_split std08 hl hso hbase hp
  rw [h, bitString_length std08 hl hso hbase]
  rw [withLength, if_neg (by omega), afterLength_decimal std08 _ hso hb]
  exact (decimal_some _ _ (value_plain hp) v hv (some n)).2 n rfl

/-- A decimal literal with something else than digits is an error. -/
theorem bitstring_decimal_bad (std08 : Bool) (l : Lexeme) (len : Option Nat) (hl : HasLength l len)
    (hn : ∀ n, len = some n → n ≤ 2147483647) (hs : l.sign = [])
    (hb : l.base = 'D' ∨ l.base = 'd') (hp : Plain l.body) (hv : decimalValue l.value = none) :
    (literal std08 l.text).1 = .badDigit := by
  have hso : SignOk l := Or.inl hs
  have hbase : IsBase l.base := by unfold IsBase; rcases hb with h | h <;> simp [h]
  obtain ⟨left, h⟩ := literal_split std08 hl hso hbase hp
  rw [h, bitString_length std08 hl hso hbase]
  cases len with
  | none =>
    rw [withLength, afterLength_decimal std08 none hso hb]
    exact decimal_none _ _ (value_plain hp) hv _
  | some n =>
    have := hn n rfl
    rw [withLength, if_neg (by omega), afterLength_decimal std08 _ hso hb]
    exact decimal_none _ _ (value_plain hp) hv _

/-- A length above the limit is refused. -/
theorem bitstring_too_long (std08 : Bool) (l : Lexeme) (n : Nat) (hl : HasLength l (some n))
    (hn : 2147483647 < n) (hs : SignOk l) (hb : IsBase l.base) (hp : Plain l.body) :
    (literal std08 l.text).1 = .tooLong := by
  obtain ⟨left, h⟩ := literal_split std08 hl hs hb hp
  rw [h, bitString_length std08 hl hs hb]
  rw [withLength, if_pos hn]

/-! ### Underscores -/

/-- The lexer reports an error exactly if an underscore is not between two other
    characters. -/
theorem bitstring_underscores (std08 : Bool) (l : Lexeme) (len : Option Nat) (hl : HasLength l len)
    (hs : SignOk l) (hb : IsBase l.base) (hp : Plain l.body) :
    (literal std08 l.text).2 = false ↔ Spaced l.body := by
  unfold literal parseBitString
  dsimp only
  have hc := prefix_clean hl hs hb
  have e : l.text = (l.length ++ l.sign ++ [l.base]) ++ '"' :: (l.body ++ ['"']) := by
    unfold Lexeme.text
    simp only [List.append_assoc, List.cons_append, List.nil_append]
  rw [e, lexLoop_prefix _ _ _ _ hc.1 hc.2 (by simp [hp.2]), lexLoop_body _ _ hp.2 hp.1,
    spaced_iff hp.1]

/-! ### Percent signs -/

theorem lexLoop_percent (cs : List Char) : ∀ (same : Bool) (prev : Char),
    (lexLoop same prev cs).1 = (cs.filter (· ≠ '_')).map fun c => if c = '%' then '"' else c := by
  induction cs with
  | nil => intro same prev; rfl
  | cons c cs ih =>
    intro same prev
    rw [lexLoop]
    by_cases hp : c = '%'
    · subst hp
      rw [if_pos rfl]
      dsimp only
      rw [ih]
      simp
    · rw [if_neg hp]
      by_cases hu : c = '_'
      · subst hu
        rw [if_neg (by simp)]
        have h1 : ('_' :: cs).filter (· ≠ '_') = cs.filter (· ≠ '_') := by simp
        rw [h1]
        split
        · exact ih _ _
        · split <;> exact ih _ _
      · rw [if_pos hu]
        have h1 : (c :: cs).filter (· ≠ '_') = c :: cs.filter (· ≠ '_') := by simp [hu]
        rw [h1, List.map_cons, if_neg hp]
        dsimp only
        rw [ih]

theorem basedLoop_left (std08 : Bool) (base : Nat) (len : Option Nat) (r1 r2 : List Char)
    (cs : List Char) : ∀ st, basedLoop std08 base len st (cs ++ '"' :: r1) =
      basedLoop std08 base len st (cs ++ '"' :: r2) := by
  induction cs with
  | nil => intro st; rw [List.nil_append, List.nil_append, basedLoop, basedLoop, if_pos rfl, if_pos rfl]
  | cons c cs ih =>
    intro st
    rw [List.cons_append, List.cons_append, basedLoop, basedLoop]
    split
    · rfl
    · split
      · rfl
      · split
        · rfl
        · exact ih _

theorem decDigits_left (r1 r2 : List Char) (cs : List Char) :
    decDigits (cs ++ '"' :: r1) = decDigits (cs ++ '"' :: r2) := by
  induction cs with
  | nil => rw [List.nil_append, List.nil_append, decDigits, decDigits, if_pos rfl, if_pos rfl]
  | cons c cs ih => rw [List.cons_append, List.cons_append, decDigits, decDigits, ih]

theorem bitString_left (std08 : Bool) {b : Char} (hb : IsBase b) (v r1 r2 : List Char) :
    bitString std08 (b :: '"' :: (v ++ '"' :: r1)) = bitString std08 (b :: '"' :: (v ++ '"' :: r2)) := by
  unfold bitString afterLength based decimal
  rcases hb with rfl | rfl | rfl | rfl | rfl | rfl | rfl | rfl <;>
    simp [isDigit, basedLoop_left std08 _ none r1 r2 v, decDigits_left r1 r2 v]

/-- A literal with percent signs in place of the quotation marks has the same
    elements. -/
theorem bitstring_percent (std08 : Bool) (b : Char) (body : List Char) (hb : IsBase b)
    (hp : Plain body) :
    (literal std08 ([b, '%'] ++ body ++ ['%'])).1 = (literal std08 ([b, '"'] ++ body ++ ['"'])).1 := by
  have hbu : b ≠ '_' ∧ b ≠ '%' := by
    rcases hb with h | h | h | h | h | h | h | h <;> rw [h] <;> decide
  have hv : (body.filter (· ≠ '_')).map (fun c => if c = '%' then '"' else c) = body.filter (· ≠ '_') := by
    conv => rhs; rw [← List.map_id (body.filter (· ≠ '_'))]
    apply List.map_congr_left
    intro c hc
    have : c ≠ '%' := by
      rintro rfl
      exact hp.2 (List.mem_filter.mp hc).1
    simp [this]
  have h1 : (lexLoop true '\x00' ([b, '%'] ++ body ++ ['%'])).1 =
      b :: '"' :: (body.filter (· ≠ '_') ++ ['"']) := by
    rw [lexLoop_percent, List.filter_append, List.filter_append, List.map_append, List.map_append, hv]
    simp [hbu]
  have h2 : (lexLoop true '\x00' ([b, '"'] ++ body ++ ['"'])).1 =
      b :: '"' :: (body.filter (· ≠ '_') ++ ['"']) := by
    rw [lexLoop_percent, List.filter_append, List.filter_append, List.map_append, List.map_append, hv]
    simp [hbu]
  unfold literal parseBitString
  dsimp only
  rw [h1, h2]
  simp only [List.cons_append, List.append_assoc, List.nil_append]
  exact bitString_left std08 hb _ _ _

/-! ### Counterexamples -/

/-- `8SX"0FF"`: the standard has it as an error, because the elements removed
    are not the same as the leftmost that remains; the sign of the number is
    lost. -/
theorem signed_length_counterexample :
    literal true "8SX\"0FF\"".toList = (.ok "11111111".toList, false) ∧
      ∀ ex out, Expanded true 4 "0FF".toList ex → ¬ FitSigned 8 ex out := by
  refine ⟨by decide +kernel, ?_⟩
  have hx : ∀ ex, Expanded true 4 "0FF".toList ex → ex = "000011111111".toList := by
    intro ex h
    have hl : HasLength ⟨[], [], 'X', "0FF".toList⟩ none := Or.inl ⟨rfl, rfl⟩
    have h1 := (bitstring_unlimited true ⟨[], [], 'X', "0FF".toList⟩ 4 hl (Or.inr (Or.inl rfl))
      (Or.inr (Or.inr ⟨Or.inl rfl, rfl⟩)) (by unfold Plain; decide) ex).mpr h
    have h2 : (literal true (Lexeme.text ⟨[], [], 'X', "0FF".toList⟩)).1 =
        .ok "000011111111".toList := by decide +kernel
    rw [h2] at h1
    cases h1
    rfl
  intro ex out h
  have := hx ex h
  subst this
  rintro ⟨hl, h | ⟨zs, s, _, _, h⟩ | ⟨zs, s, h1, h2, h⟩⟩
  · rw [← h] at hl
    exact absurd hl (by decide)
  · have := congrArg List.length h
    rw [List.length_append, hl] at this
    have e : "000011111111".toList.length = 12 := by decide
    omega
  · have e : "000011111111".toList.length = 12 := by decide
    have hz : zs.length = 4 := by
      have := congrArg List.length h
      rw [List.length_append, hl] at this
      omega
    have ho : out = "11111111".toList := by
      have h3 : out = (zs ++ out).drop 4 := by rw [← hz]; simp
      rw [h3, ← h]
      decide
    have hzs : zs = "0000".toList := by
      have h3 : zs = (zs ++ out).take 4 := by rw [← hz]; simp
      rw [h3, ← h]
      decide
    rw [ho] at h1
    have hs : s = '1' := (Option.some.inj h1).symm
    have := h2 '0' (by rw [hzs]; decide)
    rw [hs] at this
    exact absurd this (by decide)

/-- A percent sign in a literal with quotation marks ends it: `B"1%0"` has one
    element, without any message (since 2008 it has three, before it is an
    error). -/
theorem percent_inside_counterexample (std08 : Bool) :
    literal std08 "B\"1%0\"".toList = (.ok ['1'], false) := by
  cases std08 <;> decide +kernel

/-- A quotation mark in a literal with percent signs ends it too. -/
theorem quote_inside_counterexample (std08 : Bool) :
    literal std08 "B%1\"0%".toList = (.ok ['1'], false) := by
  cases std08 <;> decide +kernel

/-- An underscore before the closing percent sign is not reported. -/
theorem percent_underscore_counterexample :
    literal true "B%1_%".toList = (.ok ['1'], false) ∧ ¬ Spaced "1_".toList := by
  refine ⟨by decide +kernel, ?_⟩
  intro h
  obtain ⟨_, c, h2, _⟩ := h 1 (by decide)
  exact absurd h2 (by simp)

/-- A decimal literal with a sign is accepted, for which the standard has no base
    specifier. -/
theorem signed_decimal_counterexample :
    literal true "SD\"35\"".toList = (.ok "100011".toList, false) := by decide +kernel

/-! ### Examples -/

/-- `12SX"F-"` meets the hypotheses for signed literals. -/
example : HasLength ⟨"12".toList, ['S'], 'X', "F-".toList⟩ (some 12) ∧
    Signed ⟨"12".toList, ['S'], 'X', "F-".toList⟩ ∧ Letter 'X' 4 ∧ Plain "F-".toList :=
  ⟨Or.inr ⟨12, rfl, by decide, by decide⟩, Or.inl rfl, Or.inr (Or.inr ⟨Or.inl rfl, rfl⟩),
    by unfold Plain; decide⟩

example : (literal true (Lexeme.text ⟨"12".toList, ['S'], 'X', "F-".toList⟩)).1 =
    .ok "11111111----".toList := by decide +kernel

/-- `12UX"000_WWW"` is cut. -/
example : literal true (Lexeme.text ⟨"12".toList, ['U'], 'X', "000_WWW".toList⟩) =
    (.ok "WWWWWWWWWWWW".toList, false) := by decide +kernel

/-- The expanded value of `F-`. -/
example : Expanded true 4 "F-".toList "1111----".toList := by
  have h1 : Replaced true 4 'F' "1111".toList :=
    ⟨rfl, Or.inl ⟨15, Or.inr rfl, by decide, by unfold Binary; decide⟩⟩
  have h2 : Replaced true 4 '-' "----".toList :=
    (elements_iff (Or.inr (Or.inr rfl)) true '-' _).mp (by decide +kernel)
  exact .cons h1 (.cons h2 .nil)

example : FitSigned 12 "1111----".toList "11111111----".toList :=
  ⟨rfl, Or.inr (Or.inl ⟨"1111".toList, '1', rfl, by decide, rfl⟩)⟩

/-- `12D"13"` and `8D"511"`. -/
example : decimalValue "13".toList = some 13 ∧
    literal true "12D\"13\"".toList = (.ok "000000001101".toList, false) ∧
    (literal true "8D\"511\"".toList).1 = .excess ∧
    literal true "D\"0\"".toList = (.ok [], false) := by decide +kernel

/-- Underscores. -/
example : Spaced "1_0".toList ∧ (literal true "B\"1__0\"".toList).2 = true := by
  refine ⟨?_, by decide +kernel⟩
  intro i hi
  have : i < 3 := (List.getElem?_eq_some_iff.mp hi).1
  have h : i = 0 ∨ i = 1 ∨ i = 2 := by omega
  rcases h with rfl | rfl | rfl
  · exact absurd hi (by decide)
  · exact ⟨⟨'1', by decide, rfl, by decide⟩, '0', rfl, by decide⟩
  · exact absurd hi (by decide)

end Verif.Lex
