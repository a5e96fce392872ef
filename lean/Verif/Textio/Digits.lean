import Verif.Textio.Ints

/-
Property C92, third part: octal and hexadecimal numbers and lines.
-/

namespace Verif.Textio

open Spec

/-! ## Digits with underscores -/

/-- The value function knows no underscore. -/
def NoUnder (val : Char → Option Nat) : Prop := val '_' = none

/-- What the loop reads after a digit. -/
inductive More (val : Char → Option Nat) : List Nat → List Char → Prop where
  | nil : More val [] []
  | digit {c d ds t} : val c = some d → More val ds t → More val (d :: ds) (c :: t)
  | under {c d ds t} : val c = some d → More val ds t → More val (d :: ds) ('_' :: c :: t)

theorem under_cons {val : Char → Option Nat} {d : Nat} {ds : List Nat} {t : List Char} :
    Under val (d :: ds) t ↔ ∃ c t', t = c :: t' ∧ val c = some d ∧ More val ds t' := by
  induction ds generalizing d t with
  | nil =>
    constructor
    · intro h
      cases h with
      | one h => exact ⟨_, _, rfl, h, .nil⟩
      | digit _ h => cases h
      | under _ h => cases h
    · rintro ⟨c, t', rfl, h, hm⟩
      cases hm
      exact .one h
  | cons e ds ih =>
    constructor
    · intro h
      cases h with
      | digit h h2 =>
        obtain ⟨c, t', rfl, h3, h4⟩ := ih.mp h2
        exact ⟨_, _, rfl, h, .digit h3 h4⟩
      | under h h2 =>
        obtain ⟨c, t', rfl, h3, h4⟩ := ih.mp h2
        exact ⟨_, _, rfl, h, .under h3 h4⟩
    · rintro ⟨c, t', rfl, h, hm⟩
      cases hm with
      | digit h3 h4 => exact .digit h (ih.mpr ⟨_, _, rfl, h3, h4⟩)
      | under h3 h4 => exact .under h (ih.mpr ⟨_, _, rfl, h3, h4⟩)

theorem digit_loop_len (val : Char → Option Nat) (l : List Char) (n : Nat) (u : Bool) :
    (digitLoop val l n u).1.length ≤ n := by
  induction l generalizing n u with
  | nil => cases n <;> simp [digitLoop]
  | cons c l ih =>
    cases n with
    | zero => simp [digitLoop]
    | succ n =>
      simp only [digitLoop]
      split
      · exact ih (n + 1) false
      · split
        · simpa using ih n true
        · simp

theorem digit_loop_iff (val : Char → Option Nat) (hu : NoUnder val) (l : List Char) (n : Nat)
    (ds : List Nat) (r : List Char) (hn : ds.length = n) :
    (digitLoop val l n true = (ds, r) ↔ ∃ t, l = t ++ r ∧ More val ds t) ∧
    (digitLoop val l n false = (ds, r) ↔ (n = 0 ∧ l = r) ∨
      ∃ c d ds' t, l = c :: t ++ r ∧ ds = d :: ds' ∧ val c = some d ∧ More val ds' t) := by
  induction l generalizing n ds with
  | nil =>
    cases n with
    | zero =>
      have := List.length_eq_zero_iff.mp hn
      subst this
      constructor
      · simp only [digitLoop, Prod.mk.injEq, true_and]
        constructor
        · rintro rfl
          exact ⟨[], rfl, .nil⟩
        · rintro ⟨t, h, hm⟩
          cases hm
          exact h
      · simp [digitLoop]
    | succ n =>
      have hds : ds ≠ [] := by rintro rfl; simp at hn
      constructor
      · simp only [digitLoop, Prod.mk.injEq]
        constructor
        · rintro ⟨rfl, _⟩
          exact absurd rfl hds
        · rintro ⟨t, h, hm⟩
          have : t = [] := by
            cases t with
            | nil => rfl
            | cons a t => simp at h
          subst this
          cases hm
          simp at hn
      · simp only [digitLoop, Prod.mk.injEq]
        constructor
        · rintro ⟨rfl, _⟩
          exact absurd rfl hds
        · rintro (⟨h, _⟩ | ⟨c, d, ds', t, h, _⟩)
          · omega
          · simp at h
  | cons a l ih =>
    cases n with
    | zero =>
      have := List.length_eq_zero_iff.mp hn
      subst this
      constructor
      · simp only [digitLoop, Prod.mk.injEq, true_and]
        constructor
        · rintro rfl
          exact ⟨[], rfl, .nil⟩
        · rintro ⟨t, h, hm⟩
          cases hm
          exact h
      · simp [digitLoop]
    | succ n =>
      have hds : ds ≠ [] := by rintro rfl; simp at hn
      obtain ⟨d, ds, rfl⟩ : ∃ d ds', ds = d :: ds' := by
        cases ds with
        | nil => exact absurd rfl hds
        | cons d ds => exact ⟨d, ds, rfl⟩
      have hn' : ds.length = n := by simpa using hn
      have step : ∀ e, val a = some e → (((e :: (digitLoop val l n true).1,
          (digitLoop val l n true).2) = (d :: ds, r)) ↔
          e = d ∧ ∃ t, l = t ++ r ∧ More val ds t) := by
        intro e he
        rw [← (ih n ds hn').1]
        simp only [Prod.mk.injEq, List.cons.injEq]
        constructor
        · rintro ⟨⟨h1, h2⟩, h3⟩
          exact ⟨h1, Prod.ext h2 h3⟩
        · rintro ⟨h1, h2⟩
          rw [h2]
          exact ⟨⟨h1, rfl⟩, rfl⟩
      constructor
      · simp only [digitLoop]
        by_cases ha : a = '_'
        · subst ha
          simp only [true_and, if_true]
          rw [(ih (n + 1) (d :: ds) hn).2]
          constructor
          · rintro (⟨h, _⟩ | ⟨c, d', ds', t, rfl, h, hv, hm⟩)
            · omega
            · cases h
              exact ⟨'_' :: c :: t, rfl, .under hv hm⟩
          · rintro ⟨t, h, hm⟩
            cases hm with
            | digit hv hm =>
              simp only [List.cons_append, List.cons.injEq] at h
              rw [← h.1, hu] at hv
              cases hv
            | @under c _ _ t hv hm =>
              simp only [List.cons_append, List.cons.injEq, true_and] at h
              exact .inr ⟨c, d, ds, t, h, rfl, hv, hm⟩
        · simp only [ha, false_and, if_false]
          cases hv : val a with
          | none =>
            simp only
            constructor
            · intro h
              simp at h
            · rintro ⟨t, h, hm⟩
              cases hm with
              | digit hv' hm =>
                simp only [List.cons_append, List.cons.injEq] at h
                rw [← h.1, hv] at hv'
                cases hv'
              | under hv' hm =>
                simp only [List.cons_append, List.cons.injEq] at h
                exact absurd h.1 ha
          | some e =>
            simp only
            rw [step e hv]
            constructor
            · rintro ⟨rfl, t, rfl, hm⟩
              exact ⟨a :: t, rfl, .digit hv hm⟩
            · rintro ⟨t, h, hm⟩
              cases hm with
              | @digit c _ _ t hv' hm =>
                simp only [List.cons_append, List.cons.injEq] at h
                obtain ⟨rfl, rfl⟩ := h
                rw [hv] at hv'
                cases hv'
                exact ⟨rfl, t, rfl, hm⟩
              | under hv' hm =>
                simp only [List.cons_append, List.cons.injEq] at h
                exact absurd h.1 ha
      · simp only [digitLoop, Bool.false_eq_true, and_false, if_false]
        cases hv : val a with
        | none =>
          simp only
          constructor
          · intro h
            simp at h
          · rintro (⟨h, _⟩ | ⟨c, d', ds', t, h, h2, hv', hm⟩)
            · omega
            · simp only [List.cons_append, List.cons.injEq] at h
              rw [← h.1, hv] at hv'
              cases hv'
        | some e =>
          simp only
          rw [step e hv]
          constructor
          · rintro ⟨rfl, t, rfl, hm⟩
            exact .inr ⟨a, e, ds, t, rfl, rfl, hv, hm⟩
          · rintro (⟨h, _⟩ | ⟨c, d', ds', t, h, h2, hv', hm⟩)
            · omega
            · simp only [List.cons_append, List.cons.injEq] at h
              obtain ⟨rfl, rfl⟩ := h
              cases h2
              rw [hv] at hv'
              cases hv'
              exact ⟨rfl, t, rfl, hm⟩

/-! ## Bits of digits -/

theorem bitsOf_len (w d : Nat) : (bitsOf w d).length = w := by
  induction w with
  | zero => rfl
  | succ w ih => simp [bitsOf, ih]

theorem num_bitsOf (w d : Nat) : num (bitsOf w d) = d % 2 ^ w := by
  induction w with
  | zero => simp [bitsOf, num, Nat.mod_one]
  | succ w ih =>
    simp only [bitsOf, num, bitsOf_len, ih]
    rw [Nat.mod_pow_succ]
    have : d / 2 ^ w % 2 = 0 ∨ d / 2 ^ w % 2 = 1 := by omega
    rcases this with h | h <;> simp [h] <;> omega

theorem num_append (l r : List Bool) : num (l ++ r) = num l * 2 ^ r.length + num r := by
  induction l with
  | nil => simp [num]
  | cons b l ih =>
    simp only [List.cons_append, num, ih, List.length_append, Nat.pow_add, Nat.add_mul,
      Nat.mul_assoc, Nat.add_assoc]

theorem num_lt (l : List Bool) : num l < 2 ^ l.length := by
  induction l with
  | nil => simp [num]
  | cons b l ih =>
    simp only [num, List.length_cons, Nat.pow_succ]
    cases b <;> simp <;> omega

theorem num_zero_iff (l : List Bool) : num l = 0 ↔ l.any (fun x => x) = false := by
  induction l with
  | nil => simp [num]
  | cons b l ih =>
    have : 0 < 2 ^ l.length := Nat.two_pow_pos _
    cases b
    · simp [num] at ih ⊢
      exact ih
    · simp [num]

theorem flat_len (b : Nat) (ds : List Nat) : (ds.flatMap (bitsOf b)).length = b * ds.length := by
  induction ds with
  | nil => simp
  | cons d ds ih => simp [ih, bitsOf_len, Nat.mul_add, Nat.add_comm]

theorem num_flat (b : Nat) (ds : List Nat) (h : ∀ d ∈ ds, d < 2 ^ b) :
    num (ds.flatMap (bitsOf b)) = base (2 ^ b) ds := by
  induction ds with
  | nil => rfl
  | cons d ds ih =>
    rw [List.forall_mem_cons] at h
    rw [List.flatMap_cons, num_append, num_bitsOf, ih h.2, flat_len, Nat.mod_eq_of_lt h.1, base,
      Nat.pow_mul]

theorem more_lt {val : Char → Option Nat} {b : Nat} (hv : ∀ c d, val c = some d → d < 2 ^ b)
    {ds : List Nat} {t : List Char} (h : More val ds t) : ∀ d ∈ ds, d < 2 ^ b := by
  induction h with
  | nil => simp
  | digit h1 _ ih =>
    rw [List.forall_mem_cons]
    exact ⟨hv _ _ h1, ih⟩
  | under h1 _ ih =>
    rw [List.forall_mem_cons]
    exact ⟨hv _ _ h1, ih⟩

theorem under_lt {val : Char → Option Nat} {b : Nat} (hv : ∀ c d, val c = some d → d < 2 ^ b)
    {ds : List Nat} {t : List Char} (h : Under val ds t) : ∀ d ∈ ds, d < 2 ^ b := by
  cases ds with
  | nil => simp
  | cons d ds =>
    obtain ⟨c, t', rfl, h1, h2⟩ := under_cons.mp h
    rw [List.forall_mem_cons]
    exact ⟨hv _ _ h1, more_lt hv h2⟩

/-- Vectors of the same length and number are equal. -/
theorem num_inj {l r : List Bool} (hl : l.length = r.length) (h : num l = num r) : l = r := by
  induction l generalizing r with
  | nil => exact (List.length_eq_zero_iff.mp (by simpa using hl.symm)).symm
  | cons a l ih =>
    cases r with
    | nil => simp at hl
    | cons b r =>
      have hl' : l.length = r.length := by simpa using hl
      have h1 := num_lt l
      have h2 := num_lt r
      simp only [num] at h
      rw [hl'] at h h1
      have hab : a = b := by
        cases a <;> cases b <;> first | rfl | (simp at h; omega)
      subst hab
      rw [ih hl' (by omega)]

/-- **C92**: `oread` and `hread`: after the blanks there are exactly as many digits as
the vector needs, with single underscores between them, and their number fits in the
vector. -/
theorem xread_iff (b : Nat) (hb : 0 < b) (val : Char → Option Nat) (hu : NoUnder val)
    (hv : ∀ c d, val c = some d → d < 2 ^ b ∧ ¬ White c) (len : Nat) (hlen : 0 < len)
    (l : List Char) (v : List Bool) (r : Line) :
    xread b val len (some l) = .done true (some v) r ↔
      ∃ ws ds t rest, l = ws ++ t ++ rest ∧ r = some rest ∧ (∀ c ∈ ws, White c) ∧
        Under val ds t ∧ ds.length = (len + (b - 1)) / b ∧ v.length = len ∧
        num v = base (2 ^ b) ds := by
  obtain ⟨ws, l, rfl, hw, hs⟩ := blanks l
  have hn0 : (len + (b - 1)) / b ≠ 0 := by
    have : 0 < (len + (b - 1)) / b := Nat.div_pos (by omega) hb
    omega
  have hval : ∀ c d, val c = some d → d < 2 ^ b := fun c d h => (hv c d h).1
  -- the value
  have hmul : b * ((len + (b - 1)) / b) = len + (b - len % b) % b := by
    have h1 := Nat.div_add_mod len b
    have h2 : len % b < b := Nat.mod_lt _ hb
    by_cases h0 : len % b = 0
    · have e : len + (b - 1) = (b - 1) + b * (len / b) := by omega
      rw [e, Nat.add_mul_div_left _ _ hb, Nat.div_eq_of_lt (by omega), Nat.zero_add, h0, Nat.sub_zero,
        Nat.mod_self]
      omega
    · have e : len + (b - 1) = (len % b - 1) + b * (len / b + 1) := by
        rw [Nat.mul_add]
        omega
      rw [e, Nat.add_mul_div_left _ _ hb, Nat.div_eq_of_lt (by omega), Nat.zero_add,
        Nat.mod_eq_of_lt (by omega), Nat.mul_add]
      omega
  unfold xread
  rw [skip_some hw hs]
  simp only
  generalize hN : (len + (b - 1)) / b = N at *
  cases hloop : digitLoop val l N false with
  | mk ds rest =>
  simp only
  -- the right side in terms of the loop
  have right : ∀ ds2 : List Nat, ds2.length = N → ∀ rest2 : List Char,
      (∃ ws2 t, ws ++ l = ws2 ++ t ++ rest2 ∧ (∀ c ∈ ws2, White c) ∧ Under val ds2 t) →
      ds2 = ds ∧ rest2 = rest := by
    rintro ds2 h2 rest2 ⟨ws2, t, he, hw2, hu2⟩
    cases ds2 with
    | nil => simp at h2; omega
    | cons d ds2 =>
      obtain ⟨c, t', rfl, h3, h4⟩ := under_cons.mp hu2
      have e1 := skip_drop hw hs
      have e2 := skip_drop hw2 (l := c :: t' ++ rest2) (stop_cons (hv c d h3).2)
      rw [he, List.append_assoc, e2] at e1
      subst e1
      have := (digit_loop_iff val hu (c :: t' ++ rest2) N (d :: ds2) rest2 h2).2.mpr
        (.inr ⟨c, d, ds2, t', rfl, rfl, h3, h4⟩)
      rw [hloop] at this
      cases this
      exact ⟨rfl, rfl⟩
  by_cases hdl : ds.length = N
  · rw [if_neg (by omega)]
    have hloop2 := (digit_loop_iff val hu l N ds rest hdl).2.mp hloop
    obtain ⟨c, d, ds', t, hl, rfl, hvc, hm⟩ : ∃ c d ds' t, l = c :: t ++ rest ∧ ds = d :: ds' ∧
        val c = some d ∧ More val ds' t := by
      rcases hloop2 with ⟨h, _⟩ | h
      · omega
      · exact h
    have hund : Under val (d :: ds') (c :: t) := under_cons.mpr ⟨c, t, rfl, hvc, hm⟩
    have hlt := under_lt hval hund
    simp only
    have hflat := num_flat b (d :: ds') hlt
    have hflen := flat_len b (d :: ds')
    rw [hdl] at hflen
    have fin : ∀ x : List Bool, x.length = len → num x = base (2 ^ b) (d :: ds') →
        ((Res.done true (some x) (some rest) = Res.done true (some v) r) ↔
        ∃ ws_1 ds t rest, ws ++ l = ws_1 ++ t ++ rest ∧ r = some rest ∧
          (∀ c ∈ ws_1, White c) ∧ Under val ds t ∧ ds.length = N ∧ v.length = len ∧
            num v = base (2 ^ b) ds) := by
      intro x hx1 hx2
      constructor
      · intro h
        cases h
        exact ⟨ws, d :: ds', c :: t, rest, by rw [hl]; simp, rfl, hw, hund, hdl, hx1, hx2⟩
      · rintro ⟨ws2, ds2, t2, rest2, he, rfl, hw2, hu2, hl2, hvl, hvn⟩
        obtain ⟨rfl, rfl⟩ := right ds2 hl2 rest2 ⟨ws2, t2, he, hw2, hu2⟩
        rw [num_inj (hx1.trans hvl.symm) (hx2.trans hvn.symm)]
    have none_fits : 2 ^ len ≤ base (2 ^ b) (d :: ds') → ¬ ∃ ws_1 ds t rest,
        ws ++ l = ws_1 ++ t ++ rest ∧ r = some rest ∧
          (∀ c ∈ ws_1, White c) ∧ Under val ds t ∧ ds.length = N ∧ v.length = len ∧
            num v = base (2 ^ b) ds := by
      rintro hge ⟨ws2, ds2, t2, rest2, he, rfl, hw2, hu2, hl2, hvl, hvn⟩
      obtain ⟨rfl, rfl⟩ := right ds2 hl2 rest2 ⟨ws2, t2, he, hw2, hu2⟩
      have := num_lt v
      rw [hvl, hvn] at this
      omega
    by_cases hrem : len % b = 0
    · rw [if_neg (by omega)]
      apply fin
      · rw [hflen, hmul, hrem, Nat.sub_zero, Nat.mod_self]
        omega
      · exact hflat
    · rw [if_pos hrem]
      have hk : (b - len % b) % b = b - len % b := Nat.mod_eq_of_lt (by omega)
      rw [hk] at hmul
      have hmod : len % b < b := Nat.mod_lt _ hb
      have htail : (ds'.flatMap (bitsOf b)).length = len - len % b := by
        have := flat_len b ds'
        rw [List.length_cons] at hdl
        rw [← hdl, Nat.mul_add] at hmul
        omega
      have hsplit : (d :: ds').flatMap (bitsOf b) = (bitsOf b d).take (b - len % b) ++
          ((bitsOf b d).drop (b - len % b) ++ ds'.flatMap (bitsOf b)) := by
        rw [List.flatMap_cons, ← List.append_assoc, List.take_append_drop]
      have hll : ((bitsOf b d).drop (b - len % b) ++ ds'.flatMap (bitsOf b)).length = len := by
        have := Nat.mod_le len b
        rw [List.length_append, List.length_drop, bitsOf_len, htail]
        omega
      rw [hsplit, num_append, hll] at hflat
      by_cases hany : ((bitsOf b d).take (b - len % b)).any (fun x => x) = true
      · rw [if_pos hany]
        have hnz : num ((bitsOf b d).take (b - len % b)) ≠ 0 := by
          intro h0
          rw [num_zero_iff] at h0
          rw [h0] at hany
          cases hany
        constructor
        · intro h
          simp at h
        · intro h
          refine absurd h (none_fits ?_)
          rw [← hflat]
          have := Nat.mul_le_mul_right (2 ^ len) (Nat.pos_of_ne_zero hnz)
          omega
      · rw [if_neg hany]
        apply fin _ hll
        rw [← hflat]
        have : num ((bitsOf b d).take (b - len % b)) = 0 := by
          rw [num_zero_iff]
          simpa using hany
        rw [this]
        omega
  · rw [if_pos hdl]
    constructor
    · intro h
      simp at h
    · rintro ⟨ws2, ds2, t2, rest2, he, rfl, hw2, hu2, hl2, hvl, hvn⟩
      obtain ⟨rfl, rfl⟩ := right ds2 hl2 rest2 ⟨ws2, t2, he, hw2, hu2⟩
      exact absurd hl2 hdl

theorem oct_val (c : Char) (d : Nat) (h : octVal c = some d) : d < 2 ^ 3 ∧ ¬ White c := by
  unfold octVal at h
  unfold White
  split at h
  · cases h
    omega
  · cases h

theorem hex_val (c : Char) (d : Nat) (h : hexVal c = some d) : d < 2 ^ 4 ∧ ¬ White c := by
  unfold hexVal at h
  unfold White
  split at h
  · cases h
    omega
  · split at h
    · cases h
      omega
    · split at h
      · cases h
        omega
      · cases h

/-- **C92**: `oread`. -/
theorem oread_iff (len : Nat) (hlen : 0 < len) (l : List Char) (v : List Bool) (r : Line) :
    oread len (some l) = .done true (some v) r ↔
      ∃ ws ds t rest, l = ws ++ t ++ rest ∧ r = some rest ∧ (∀ c ∈ ws, White c) ∧
        Under octVal ds t ∧ ds.length = (len + 2) / 3 ∧ v.length = len ∧ num v = base 8 ds :=
  xread_iff 3 (by decide) octVal rfl oct_val len hlen l v r

/-- **C92**: `hread`. -/
theorem hread_iff (len : Nat) (hlen : 0 < len) (l : List Char) (v : List Bool) (r : Line) :
    hread len (some l) = .done true (some v) r ↔
      ∃ ws ds t rest, l = ws ++ t ++ rest ∧ r = some rest ∧ (∀ c ∈ ws, White c) ∧
        Under hexVal ds t ∧ ds.length = (len + 3) / 4 ∧ v.length = len ∧ num v = base 16 ds :=
  xread_iff 4 (by decide) hexVal rfl hex_val len hlen l v r

/-- The digits. -/
theorem hex_digits : (List.range 16).map (fun d => hexVal ("0123456789abcdef".toList.getD d ' ')) =
    (List.range 16).map some ∧
    (List.range 16).map (fun d => hexVal ("0123456789ABCDEF".toList.getD d ' ')) =
    (List.range 16).map some ∧
    (List.range 8).map (fun d => octVal ("01234567".toList.getD d ' ')) =
    (List.range 8).map some := by decide

/-- A failed reading takes the character which is no digit. -/
theorem hread_bad_counterexample :
    hread 8 (some "5, 3".toList) = .done false (some (List.replicate 8 false)) (some " 3".toList) ∧
    hread 8 (some ";".toList) = .done false (some (List.replicate 8 false)) (some []) := by decide

example : hread 5 (some " 1_Fx".toList) =
    .done true (some [true, true, true, true, true]) (some "x".toList) := by decide
example : Under hexVal [1, 15] "1_F".toList := .under (by decide) (.one (by decide))

/-! ## Lines -/

theorem lineLoop_eq (f tmp : List Char) (used : Nat) (h : used ≤ tmp.length) :
    lineLoop f tmp used =
      (tmp.take used ++ (cut f).1.filter (· != '\r'), (cut f).2) := by
  induction f generalizing tmp used with
  | nil => simp [lineLoop, cut]
  | cons c f ih =>
    simp only [lineLoop, cut]
    by_cases h1 : c = '\r'
    · subst h1
      have : ¬ ('\r' = '\n') := by decide
      simp [ih tmp used h, this]
    · simp only [h1, if_false]
      by_cases h2 : c = '\n'
      · simp [h2]
      · simp only [h2, if_false]
        have hset : ∀ t : List Char, used < t.length → t.take used = tmp.take used →
            (t.set used c).take (used + 1) = tmp.take used ++ [c] := by
          intro t ht he
          rw [List.take_add_one]
          simp only [List.getElem?_set_self ht, Option.toList]
          rw [List.take_set_of_le (by omega), he]
        have hne : (c != '\r') = true := by simpa using h1
        by_cases h3 : used = tmp.length
        · subst h3
          simp only [if_true, grow]
          rw [if_pos (by decide)]
          simp only
          rw [ih _ _ (by simp)]
          rw [hset _ (by simp) (by simp)]
          simp [List.filter_cons, hne]
        · simp only [h3, if_false]
          rw [ih _ _ (by simp; omega), hset tmp (by omega) rfl]
          simp [List.filter_cons, hne]

/-- **C92**: `readline` reads the text to the next LF, without any CR, whatever its
length. -/
theorem readline_correct (f : List Char) :
    readline f = ((cut f).1.filter (· != '\r'), (cut f).2) := by
  unfold readline
  rw [lineLoop_eq _ _ _ (by simp)]
  simp

theorem cut_line (l f : List Char) (h : '\n' ∉ l) : cut (l ++ '\n' :: f) = (l, f) := by
  induction l with
  | nil => simp [cut]
  | cons c l ih =>
    rw [List.mem_cons, not_or] at h
    simp only [List.cons_append, cut]
    rw [if_neg (fun e => h.1 e.symm), ih h.2]

/-- **C92**: the lines of a file are read as they were written, if they hold no LF and
no CR. -/
theorem read_written (ls : List (List Char)) (h : ∀ l ∈ ls, '\n' ∉ l ∧ '\r' ∉ l) :
    readAll ls.length (ls.flatMap (fun l => writeline (some l))) = ls := by
  induction ls with
  | nil => rfl
  | cons l ls ih =>
    rw [List.forall_mem_cons] at h
    simp only [List.flatMap_cons, List.length_cons]
    have hw : writeline (some l) = l ++ ['\n'] := rfl
    rw [hw]
    generalize hrest : ls.flatMap (fun l => writeline (some l)) = rest at ih
    have hr : readline (l ++ ['\n'] ++ rest) = (l, rest) := by
      rw [readline_correct, List.append_assoc, List.singleton_append, cut_line _ _ h.1.1]
      simp only [Prod.mk.injEq, and_true]
      rw [List.filter_eq_self]
      intro c hc
      simp only [bne_iff_ne, ne_eq]
      rintro rfl
      exact h.1.2 hc
    cases hf : l ++ ['\n'] ++ rest with
    | nil => simp at hf
    | cons c f =>
      simp only [readAll]
      rw [← hf, hr, ih h.2]

/-- A line with CR in it is read without it. -/
theorem readline_cr_counterexample :
    (readline (writeline (some "a\rb".toList))).1 = "ab".toList := by
  rw [readline_correct]
  decide

example : ∀ l ∈ ["ab".toList, []], '\n' ∉ l ∧ '\r' ∉ l := by decide

end Verif.Textio
