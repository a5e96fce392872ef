import Verif.Sim.NexusModel

/-! Lemmas about splitting and the index of a signal. -/

namespace Verif.Sim.Nexus

/-! ## Values -/

theorem contents_inl (n : Nat) (b : List UInt8) (bs : List UInt8) :
    contents n (.inl b) = some bs ↔ n ≤ 8 ∧ n ≤ b.length ∧ bs = b.take n := by
  unfold contents valueSize
  by_cases h : n ≤ 8 <;> by_cases h2 : n ≤ b.length <;> simp [h, h2, eq_comm]

theorem contents_ext (n : Nat) (b : List UInt8) (bs : List UInt8) :
    contents n (.ext b) = some bs ↔ 8 < n ∧ n ≤ b.length ∧ bs = b.take n := by
  unfold contents valueSize
  by_cases h : n ≤ 8
  · simp [h]; omega
  · by_cases h2 : n ≤ b.length
    · simp [h, h2, eq_comm]; omega
    · simp [h, h2]

/-- `split_value` gives the two parts of the value. -/
theorem splitValue_ok {sz width offset : Nat} {v : Value} {bs : List UInt8} (junk : List UInt8)
    (h : contents ((offset + width) * sz) v = some bs) :
    ∃ vn vo, splitValue sz width junk v offset = some (vn, vo) ∧
      contents (width * sz) vn = some (bs.drop (offset * sz)) ∧
      contents (offset * sz) vo = some (bs.take (offset * sz)) := by
  have e : (offset + width) * sz = offset * sz + width * sz := Nat.add_mul ..
  rw [e] at h
  unfold splitValue valueSize load valueSize
  simp only [e]
  generalize offset * sz = p at *
  generalize width * sz = q at *
  cases v with
  | inl b =>
    obtain ⟨h1, h2, rfl⟩ := (contents_inl ..).1 h
    simp only [show ¬(p > 8 ∧ q > 8) by omega, show ¬ q > 8 by omega, show ¬ p > 8 by omega,
      show ¬ p + q > 8 by omega, if_false]
    refine ⟨_, _, rfl, (contents_inl ..).2 ⟨by omega, by simp; omega, ?_⟩,
      (contents_inl ..).2 ⟨by omega, by omega, ?_⟩⟩
    · rw [List.drop_take, List.take_append_of_le_length (by simp; omega)]
      congr 1; omega
    · rw [List.take_take]; congr 1; omega
  | ext m =>
    obtain ⟨h1, h2, rfl⟩ := (contents_ext ..).1 h
    have d : (m.take (p + q)).drop p = (m.drop p).take q := by
      rw [List.drop_take]; congr 1; omega
    have t : (m.take (p + q)).take p = m.take p := by
      rw [List.take_take]; congr 1; omega
    simp only [show p ≤ m.length by omega, show 8 ≤ m.length by omega, show p + q ≤ m.length by omega,
      if_true, Option.map_some, d, t]
    have ov : ∀ l j : List UInt8, q ≤ l.length → overwrite (l.take q) j = l.take q ++ j.drop q := by
      intro l j hl
      simp [overwrite, Nat.min_eq_left hl]
    by_cases hp : p > 8 <;> by_cases hq : q > 8
    · simp only [hp, hq, and_self, if_true]
      exact ⟨_, _, rfl, (contents_ext ..).2 ⟨hq, by simp; omega, rfl⟩,
        (contents_ext ..).2 ⟨hp, by omega, rfl⟩⟩
    · simp only [hp, hq, and_false, if_false, if_true]
      refine ⟨_, _, rfl, (contents_inl ..).2 ⟨by omega, ?_, ?_⟩, (contents_ext ..).2 ⟨hp, by omega, rfl⟩⟩
      · rw [ov _ _ (by simp; omega)]; simp; omega
      · rw [ov _ _ (by simp; omega), List.take_append_of_le_length (by simp; omega), List.take_take]
        simp
    · simp only [hp, hq, false_and, if_false, if_true]
      refine ⟨_, _, rfl, (contents_ext ..).2 ⟨hq, by simp; omega, rfl⟩, (contents_inl ..).2 ⟨by omega, ?_, ?_⟩⟩
      · simp; omega
      · rw [List.take_take]; congr 1; omega
    · simp only [hp, hq, and_self, if_false, show p + q > 8 by omega, if_true]
      refine ⟨_, _, rfl, (contents_inl ..).2 ⟨by omega, ?_, ?_⟩, (contents_inl ..).2 ⟨by omega, ?_, ?_⟩⟩
      · rw [ov _ _ (by simp; omega)]; simp; omega
      · rw [ov _ _ (by simp; omega), List.take_append_of_le_length (by simp; omega), List.take_take]
        simp
      · simp; omega
      · rw [List.take_take]; congr 1; omega

/-- All values are stored as their size requires. -/
def ValsOk (sz width : Nat) (vals : List Value) : Prop := ∀ v ∈ vals, (contents (width * sz) v).isSome

theorem splitVals_ok {sz width offset : Nat} (junk : Nat → List UInt8) (vals : List Value) (j : Nat)
    (h : ValsOk sz (offset + width) vals) :
    ∃ ln lo, splitVals sz width offset junk j vals = some (ln, lo) ∧
      ValsOk sz width ln ∧ ValsOk sz offset lo ∧ ln.length = vals.length ∧ lo.length = vals.length ∧
      ∀ (k : Nat) (bs : List UInt8), vals[k]?.bind (contents ((offset + width) * sz)) = some bs →
        ln[k]?.bind (contents (width * sz)) = some (bs.drop (offset * sz)) ∧
        lo[k]?.bind (contents (offset * sz)) = some (bs.take (offset * sz)) := by
  induction vals generalizing j with
  | nil => exact ⟨[], [], rfl, by simp [ValsOk], by simp [ValsOk], rfl, rfl, by simp⟩
  | cons v l ih =>
    obtain ⟨ln, lo, e, h1, h2, l1, l2, h3⟩ := ih (j + 1) (fun w hw => h w (List.mem_cons_of_mem _ hw))
    obtain ⟨bs, hb⟩ := Option.isSome_iff_exists.1 (h v List.mem_cons_self)
    obtain ⟨vn, vo, e', c1, c2⟩ := splitValue_ok (junk j) hb
    refine ⟨vn :: ln, vo :: lo, by simp [splitVals, e, e'], ?_, ?_, by simp [l1], by simp [l2], ?_⟩
    · intro w hw
      rcases List.mem_cons.1 hw with rfl | hw
      · simp [c1]
      · exact h1 w hw
    · intro w hw
      rcases List.mem_cons.1 hw with rfl | hw
      · simp [c2]
      · exact h2 w hw
    · intro k cs hk
      cases k with
      | zero =>
        simp only [List.getElem?_cons_zero, Option.bind_some] at hk ⊢
        rw [hb] at hk; cases hk
        exact ⟨c1, c2⟩
      | succ k =>
        simp only [List.getElem?_cons_succ] at hk ⊢
        exact h3 k cs hk

/-! ## The chain -/

/-- The number of elements in a list of nexuses -/
def len (l : List Nexus) : Nat := (l.map Nexus.width).sum

@[simp] theorem len_nil : len [] = 0 := rfl
@[simp] theorem len_cons (n : Nexus) (l : List Nexus) : len (n :: l) = n.width + len l := by
  simp [len]
@[simp] theorem len_append (a b : List Nexus) : len (a ++ b) = len a + len b := by
  simp [len]

/-- The first elements of the nexuses -/
def starts : Nat → List Nexus → List Nat
  | _, [] => []
  | st, n :: l => st :: starts (st + n.width) l

theorem starts_append (st : Nat) (a b : List Nexus) :
    starts st (a ++ b) = starts st a ++ starts (st + len a) b := by
  induction a generalizing st with
  | nil => simp [starts]
  | cons n a ih => simp [starts, ih, Nat.add_assoc]

theorem starts_ge {st : Nat} {l : List Nexus} {x : Nat} (h : x ∈ starts st l) : st ≤ x := by
  induction l generalizing st with
  | nil => simp [starts] at h
  | cons n l ih =>
    rcases List.mem_cons.1 h with rfl | h
    · exact Nat.le_refl _
    · have := ih h; omega

/-- Every nexus is nonempty, starts where the one before ends, and its values are well stored. -/
def Tiles (sz : Nat) : Nat → List Nexus → Prop
  | _, [] => True
  | st, n :: l =>
    n.offset = st * sz ∧ 0 < n.width ∧ ValsOk sz n.width n.vals ∧ Tiles sz (st + n.width) l

theorem tiles_append {sz st : Nat} {a b : List Nexus} :
    Tiles sz st (a ++ b) ↔ Tiles sz st a ∧ Tiles sz (st + len a) b := by
  induction a generalizing st with
  | nil => simp [Tiles]
  | cons n a ih => simp [Tiles, ih, Nat.add_assoc, and_assoc]

theorem starts_lt {sz st : Nat} {l : List Nexus} (h : Tiles sz st l) {x : Nat} (hx : x ∈ starts st l) :
    x < st + len l := by
  induction l generalizing st with
  | nil => simp [starts] at hx
  | cons n l ih =>
    obtain ⟨_, h2, _, h4⟩ := h
    rcases List.mem_cons.1 hx with rfl | hx
    · simp; omega
    · have := ih h4 hx; simp; omega

theorem starts_split {sz st : Nat} {a b : List Nexus} {n : Nexus} (h : Tiles sz st (a ++ n :: b))
    {x : Nat} (h1 : st + len a < x) (h2 : x < st + len a + n.width) : x ∉ starts st (a ++ n :: b) := by
  rw [starts_append]
  obtain ⟨ha, _⟩ := tiles_append.1 h
  intro hx
  rcases List.mem_append.1 hx with hx | hx
  · have := starts_lt ha hx; omega
  · rcases List.mem_cons.1 hx with hx | hx
    · omega
    · have := starts_ge hx; omega

theorem position_ok {sz st : Nat} (hsz : 0 < sz) {l : List Nexus} (h : Tiles sz st l) {x : Nat}
    (hx : x ∈ starts st l) :
    ∃ a b, l = a ++ b ∧ position (x * sz) l = some a.length ∧ x = st + len a := by
  induction l generalizing st with
  | nil => simp [starts] at hx
  | cons n l ih =>
    obtain ⟨h1, h2, _, h4⟩ := h
    by_cases e : n.offset = x * sz
    · refine ⟨[], n :: l, rfl, by simp [position, e], ?_⟩
      rw [h1] at e
      have := Nat.eq_of_mul_eq_mul_right hsz e
      simp [this]
    · rcases List.mem_cons.1 hx with rfl | hx
      · exact absurd h1 e
      · obtain ⟨a, b, rfl, hp, rfl⟩ := ih h4 hx
        exact ⟨n :: a, b, rfl, by simp [position, e, hp], by simp; omega⟩

theorem skip_ok {offset : Nat} {l : List Nexus} (h : offset < len l) :
    ∃ a n b r, l = a ++ n :: b ∧ skip offset l = some (a.length, r) ∧ offset = len a + r ∧
      r < n.width := by
  induction l generalizing offset with
  | nil => simp at h
  | cons n l ih =>
    rw [len_cons] at h
    by_cases e : offset ≥ n.width
    · obtain ⟨a, n', b, r, rfl, h1, h2, h3⟩ := ih (show offset - n.width < len l by omega)
      refine ⟨n :: a, n', b, r, rfl, by simp [skip, e, h1], by simp; omega, h3⟩
    · exact ⟨[], n, l, offset, rfl, by simp [skip]; omega, by simp, by omega⟩

theorem skip_append {a b : List Nexus} {r : Nat} :
    skip (len a + r) (a ++ b) = (skip r b).map (fun (k, q) => (a.length + k, q)) := by
  induction a with
  | nil => simp
  | cons n a ih =>
    simp only [List.cons_append, skip, len_cons]
    rw [if_pos (by omega), show n.width + len a + r - n.width = len a + r by omega, ih]
    cases skip r b with
    | none => rfl
    | some p => simp; omega

theorem takeWhole_ok {sz st count : Nat} {l : List Nexus} (ht : Tiles sz st l) (h : count ≤ len l) :
    ∃ a b q, l = a ++ b ∧ takeWhole count l = some (a.length, q) ∧ count = len a + q ∧
      (0 < q → ∃ n c, b = n :: c ∧ q < n.width) := by
  induction l generalizing count st with
  | nil =>
    have h0 : count = 0 := by simpa using h
    subst h0
    exact ⟨[], [], 0, rfl, rfl, rfl, by omega⟩
  | cons n l ih =>
    obtain ⟨_, h2, _, h4⟩ := ht
    cases count with
    | zero => exact ⟨[], n :: l, 0, rfl, rfl, rfl, by omega⟩
    | succ c =>
      by_cases e : n.width > c + 1
      · exact ⟨[], n :: l, c + 1, rfl, by simp [takeWhole, e], by simp, fun _ => ⟨n, l, rfl, e⟩⟩
      · rw [len_cons] at h
        obtain ⟨a, b, q, rfl, g1, g2, g3⟩ := ih h4 (show c + 1 - n.width ≤ len l by omega)
        clear h4
        exact ⟨n :: a, b, q, rfl, by simp [takeWhole, e, g1], by clear g3; rw [len_cons]; omega, g3⟩

/-! ## The index -/

/-- The distance between slots of the index -/
def unit (how : Int) : Nat := if 0 ≤ how then 2 ^ how.toNat else how.natAbs

theorem unit_pos (how : Int) : 0 < unit how := by
  unfold unit
  split
  · exact Nat.two_pow_pos _
  · omega

theorem mapIndex_eq (how : Int) (x : Nat) : mapIndex how x = x / unit how := by
  unfold mapIndex unit
  split
  · rw [Nat.shiftRight_eq_div_pow]
  · rfl

theorem unmapIndex_eq (how : Int) (k : Nat) : unmapIndex how k = k * unit how := by
  unfold unmapIndex unit
  split
  · rw [Nat.shiftLeft_eq]
  · rfl

theorem indexValid_iff (how : Int) (x : Nat) : indexValid how x = true ↔ unit how ∣ x := by
  unfold indexValid unit
  split
  · rw [Nat.shiftRight_eq_div_pow, Nat.shiftLeft_eq, beq_iff_eq]
    constructor
    · intro h; exact ⟨_, by rw [Nat.mul_comm]; exact h.symm⟩
    · intro h; exact Nat.div_mul_cancel h
  · rw [beq_iff_eq]; exact (Nat.dvd_iff_mod_eq_zero ..).symm

theorem euclid_eq (g b : Nat) : euclid g b = Nat.gcd g b := by
  induction b using Nat.strongRecOn generalizing g with
  | _ b ih =>
    unfold euclid
    split
    · rename_i h
      rw [ih _ (Nat.mod_lt _ h), Nat.gcd_comm g b, Nat.gcd_rec b g, Nat.gcd_comm]
    · have : b = 0 := by omega
      simp [this]

theorem ctz_dvd (n : Nat) : 2 ^ ctz n ∣ n := by
  induction n using Nat.strongRecOn with
  | _ n ih =>
    unfold ctz
    split
    · simp_all
    · split
      · simp
      · rename_i h1 h2
        have := ih (n / 2) (by omega)
        have e : n = n / 2 * 2 := by omega
        rw [Nat.pow_succ]
        conv => rhs; rw [e]
        exact Nat.mul_dvd_mul_right this 2

theorem pow_le_dvd {a b x : Nat} (h : a ≤ b) (hd : 2 ^ b ∣ x) : 2 ^ a ∣ x :=
  Nat.dvd_trans (Nat.pow_dvd_pow 2 h) hd

theorem scan_ok (l : List Nexus) (shift : Option Nat) (gcd st : Nat) :
    (scan shift gcd st l).2 ∣ gcd ∧ (∀ x ∈ starts st l, (scan shift gcd st l).2 ∣ x) ∧
      (∀ s, shift = some s → ∃ t, (scan shift gcd st l).1 = some t ∧ t ≤ s) ∧
      (∀ t, (scan shift gcd st l).1 = some t → ∀ x ∈ starts st l, 2 ^ t ∣ x) ∧
      ((∃ x ∈ starts st l, 0 < x) → ∃ t, (scan shift gcd st l).1 = some t) := by
  induction l generalizing shift gcd st with
  | nil =>
    simp [scan, starts]
    exact fun s hs => ⟨s, hs, Nat.le_refl _⟩
  | cons n l ih =>
    simp only [scan, starts]
    generalize hs : (if st > 0 then _ else shift : Option Nat) = shift'
    have hs1 : ∀ s, shift = some s → ∃ t, shift' = some t ∧ t ≤ s := by
      rintro s rfl
      rw [← hs]
      split
      · exact ⟨_, rfl, Nat.min_le_left ..⟩
      · exact ⟨_, rfl, Nat.le_refl _⟩
    have hs2 : 0 < st → ∃ t, shift' = some t ∧ 2 ^ t ∣ st := by
      intro h0
      rw [if_pos h0] at hs
      cases shift with
      | none => exact ⟨_, hs.symm, ctz_dvd _⟩
      | some s => exact ⟨_, hs.symm, pow_le_dvd (Nat.min_le_right ..) (ctz_dvd _)⟩
    obtain ⟨h1, h2, h3, h4, h5⟩ := ih shift' (euclid gcd st) (st + n.width)
    rw [euclid_eq] at *
    refine ⟨Nat.dvd_trans h1 (Nat.gcd_dvd_left ..), ?_, ?_, ?_, ?_⟩
    · intro x hx
      rcases List.mem_cons.1 hx with rfl | hx
      · exact Nat.dvd_trans h1 (Nat.gcd_dvd_right ..)
      · exact h2 x hx
    · intro s hs
      obtain ⟨t, ht, hle⟩ := hs1 s hs
      obtain ⟨u, hu, hle'⟩ := h3 t ht
      exact ⟨u, hu, by omega⟩
    · intro t ht x hx
      rcases List.mem_cons.1 hx with rfl | hx
      · by_cases h0 : 0 < x
        · obtain ⟨u, hu, hd⟩ := hs2 h0
          obtain ⟨w, hw, hle⟩ := h3 u hu
          rw [hw] at ht; cases ht
          exact pow_le_dvd hle hd
        · have : x = 0 := by omega
          simp [this]
      · exact h4 t ht x hx
    · rintro ⟨x, hx, h0⟩
      rcases List.mem_cons.1 hx with rfl | hx
      · obtain ⟨u, hu, _⟩ := hs2 h0
        obtain ⟨w, hw, _⟩ := h3 u hu
        exact ⟨w, hw⟩
      · exact h5 ⟨x, hx, h0⟩

/-- What the index has to be: enough slots; in each the nexus that starts at that place. -/
structure IndexOk (sz w : Nat) (chain : List Nexus) (ix : Index) : Prop where
  dvd : ∀ x ∈ starts 0 chain, unit ix.how ∣ x
  enough : w ≤ ix.slots.length * unit ix.how
  slot : ∀ k o, ix.slots[k]? = some (some o) ↔
    k * unit ix.how ∈ starts 0 chain ∧ o = k * unit ix.how * sz

theorem fill_ok {sz st : Nat} {how : Int} {l : List Nexus} (ht : Tiles sz st l)
    (hd : ∀ x ∈ starts st l, unit how ∣ x) {slots : List (Option Nat)}
    (hn : st + len l ≤ slots.length * unit how) :
    ∃ slots', fill how slots st l = some slots' ∧ slots'.length = slots.length ∧
      ∀ k : Nat, slots'[k]? =
        if k * unit how ∈ starts st l then some (some (k * unit how * sz)) else slots[k]? := by
  induction l generalizing st slots with
  | nil => exact ⟨slots, rfl, rfl, by simp [starts]⟩
  | cons n l ih =>
    obtain ⟨h1, h2, _, h4⟩ := ht
    have hup := unit_pos how
    obtain ⟨q, hq⟩ := hd st List.mem_cons_self
    have hk : mapIndex how st = q := by
      rw [mapIndex_eq, hq]; exact Nat.mul_div_cancel_left _ hup
    have hlt : q < slots.length := by
      rw [len_cons] at hn
      have : unit how * q < slots.length * unit how := by omega
      rw [Nat.mul_comm] at this
      exact Nat.lt_of_mul_lt_mul_right this
    obtain ⟨slots', e, hl, hs⟩ := ih h4 (fun x hx => hd x (List.mem_cons_of_mem _ hx))
      (slots := slots.set q (some n.offset)) (by simp only [List.length_set]; rw [len_cons] at hn; omega)
    refine ⟨slots', ?_, by simpa using hl, ?_⟩
    · simp only [fill, hk, hlt, if_true, e]
    · intro k
      rw [hs]
      by_cases hm : k * unit how ∈ starts (st + n.width) l
      · simp [hm, starts]
      · simp only [hm, if_false, starts, List.mem_cons, or_false]
        by_cases he : k * unit how = st
        · have : k = q := by
            rw [hq, Nat.mul_comm] at he
            exact Nat.eq_of_mul_eq_mul_left hup he
          subst this
          simp [he, h1, hlt]
        · have : q ≠ k := by
            rintro rfl
            exact he (by rw [hq, Nat.mul_comm])
          rw [if_neg he, List.getElem?_set_ne this]

theorem buildIndex_ok {s : Sig} {w : Nat} (hsz : 0 < s.sz) (hb : s.bytes = w * s.sz)
    (hw : len s.chain = w) (ht : Tiles s.sz 0 s.chain) (h2 : 2 ≤ s.chain.length) :
    ∃ ix, buildIndex s = some { s with index := some ix } ∧ IndexOk s.sz w s.chain ix := by
  obtain ⟨_, g2, _, g4, g5⟩ := scan_ok s.chain none 0 0
  have hpos : ∃ x ∈ starts 0 s.chain, 0 < x := by
    match hc : s.chain with
    | [] => simp [hc] at h2
    | [_] => simp [hc] at h2
    | a :: b :: l =>
      rw [hc] at ht
      exact ⟨0 + a.width, by simp [starts], by have := ht.2.1; omega⟩
  obtain ⟨shift, hs⟩ := g5 hpos
  generalize hgc : scan none 0 0 s.chain = r at *
  obtain ⟨r1, gcd⟩ := r
  simp only at hs g2 g4
  subst hs
  have hdiv : s.bytes / s.sz = w := by rw [hb]; exact Nat.mul_div_cancel _ hsz
  unfold buildIndex
  simp only [hgc, hdiv]
  generalize hhow : (if gcd > 1 ∧ gcd > 1 <<< shift ∧ gcd > 1 then -(gcd : Int) else shift : Int) = how
  have hd : ∀ x ∈ starts 0 s.chain, unit how ∣ x := by
    intro x hx
    split at hhow
    · rw [← hhow]
      unfold unit
      rw [if_neg (by omega)]
      simpa using g2 x hx
    · rw [← hhow]
      unfold unit
      simpa using g4 shift rfl x hx
  have hn : w ≤ (if how < 0 then (w + how.natAbs - 1) / how.natAbs else w >>> shift + 1) * unit how := by
    split at hhow
    · rw [if_pos (by omega)]
      unfold unit
      rw [if_neg (by omega)]
      have h0 : 0 < how.natAbs := by omega
      have := Nat.div_add_mod (w + how.natAbs - 1) how.natAbs
      have := Nat.mod_lt (w + how.natAbs - 1) h0
      rw [Nat.mul_comm]
      omega
    · subst hhow
      rw [if_neg (by omega)]
      unfold unit
      rw [if_pos (by omega), Nat.shiftRight_eq_div_pow]
      simp only [Int.toNat_natCast]
      have := Nat.div_add_mod w (2 ^ shift)
      have := Nat.mod_lt w (Nat.two_pow_pos shift)
      rw [Nat.mul_comm, Nat.mul_add]
      omega
  generalize (if how < 0 then (w + how.natAbs - 1) / how.natAbs else w >>> shift + 1) = count at *
  obtain ⟨slots, e, hl, hslot⟩ := fill_ok ht hd (slots := List.replicate count none)
    (by simp only [List.length_replicate]; omega)
  refine ⟨⟨how, slots⟩, by rw [e]; rfl, hd, by simpa [hl] using hn, ?_⟩
  intro k o
  simp only [hslot]
  split
  · rename_i hm
    simp [hm, eq_comm]
  · rename_i hm
    simp [hm, List.getElem?_replicate]

theorem search_ok {sz w : Nat} {chain : List Nexus} {ix : Index} (h : IndexOk sz w chain ix)
    (h0 : 0 ∈ starts 0 chain) (k : Nat) :
    ∃ j, search ix.slots k = some (j, j * unit ix.how * sz) ∧ j ≤ k ∧
      j * unit ix.how ∈ starts 0 chain ∧ ∀ i, j < i → i ≤ k → i * unit ix.how ∉ starts 0 chain := by
  induction k with
  | zero =>
    have := (h.slot 0 (0 * unit ix.how * sz)).2 ⟨by simpa using h0, rfl⟩
    refine ⟨0, by simp only [search, this], by omega, by simpa using h0, fun i h1 h2 => by omega⟩
  | succ k ih =>
    by_cases hm : (k + 1) * unit ix.how ∈ starts 0 chain
    · have := (h.slot (k + 1) ((k + 1) * unit ix.how * sz)).2 ⟨hm, rfl⟩
      exact ⟨k + 1, by simp only [search, this], by omega, hm, fun i h1 h2 => by omega⟩
    · obtain ⟨j, h1, h2, h3, h4⟩ := ih
      refine ⟨j, ?_, by omega, h3, ?_⟩
      · simp only [search]
        split
        · rename_i n hn
          exact absurd ((h.slot _ _).1 hn).1 hm
        · exact h1
      · intro i hi1 hi2
        by_cases he : i = k + 1
        · rw [he]; exact hm
        · exact h4 i hi1 (by omega)

/-! ## Splitting -/

/-- The invariant of a signal with `w` elements -/
structure Inv (w : Nat) (s : Sig) : Prop where
  sz : 0 < s.sz
  bytes : s.bytes = w * s.sz
  pos : 0 < w
  total : len s.chain = w
  tiles : Tiles s.sz 0 s.chain
  index : ∀ ix, s.index = some ix → IndexOk s.sz w s.chain ix ∧ 2 ≤ s.chain.length

theorem Inv.ne {w : Nat} {s : Sig} (h : Inv w s) : s.chain ≠ [] := by
  intro e
  have := h.total
  have := h.pos
  simp [e] at *
  omega

theorem Inv.zero {w : Nat} {s : Sig} (h : Inv w s) : 0 ∈ starts 0 s.chain := by
  cases e : s.chain with
  | nil => exact absurd e h.ne
  | cons n l => simp [starts]

theorem Inv.width {w : Nat} {s : Sig} (h : Inv w s) : s.bytes / s.sz = w := by
  rw [h.bytes]; exact Nat.mul_div_cancel _ h.sz

theorem updateIndex_ok {s : Sig} {w x : Nat} {ix : Index} {old : List Nexus} (hsz : 0 < s.sz)
    (hb : s.bytes = w * s.sz) (hw : len s.chain = w) (ht : Tiles s.sz 0 s.chain)
    (h2 : 2 ≤ s.chain.length) (hx : x < w) (hi : IndexOk s.sz w old ix)
    (hst : ∀ y, y ∈ starts 0 s.chain ↔ y ∈ starts 0 old ∨ y = x) (hnew : x ∉ starts 0 old) :
    ∃ ix', updateIndex s ix (x * s.sz) = some { s with index := some ix' } ∧
      IndexOk s.sz w s.chain ix' := by
  unfold updateIndex
  have hd : x * s.sz / s.sz = x := Nat.mul_div_cancel _ hsz
  simp only [hd]
  by_cases hv : indexValid ix.how x = false
  · obtain ⟨ix', e, hok⟩ := buildIndex_ok hsz hb hw ht h2
    have hmem := (hst x).2 (Or.inr rfl)
    have hk : mapIndex ix'.how x * unit ix'.how = x := by
      rw [mapIndex_eq]; exact Nat.div_mul_cancel (hok.dvd x hmem)
    have := (hok.slot (mapIndex ix'.how x) (x * s.sz)).2 ⟨by rw [hk]; exact hmem, by rw [hk]⟩
    refine ⟨ix', ?_, hok⟩
    simp only [hv, if_true, e, this]
  · have hv : indexValid ix.how x = true := by simpa using hv
    have hdv := (indexValid_iff ..).1 hv
    have hk : mapIndex ix.how x * unit ix.how = x := by
      rw [mapIndex_eq]; exact Nat.div_mul_cancel hdv
    have hlt : mapIndex ix.how x < ix.slots.length := by
      apply Nat.lt_of_mul_lt_mul_right (a := unit ix.how)
      have := hi.enough
      omega
    have hnone : ix.slots[mapIndex ix.how x]? = some none := by
      rw [List.getElem?_eq_getElem hlt]
      cases e : ix.slots[mapIndex ix.how x] with
      | none => rfl
      | some o =>
        have h1 := (hi.slot (mapIndex ix.how x) o).1 (by rw [List.getElem?_eq_getElem hlt, e])
        rw [hk] at h1
        exact absurd h1.1 hnew
    simp only [hv, Bool.true_eq_false, if_false, hnone, if_true]
    refine ⟨_, rfl, ?_, ?_, ?_⟩
    · intro y hy
      rcases (hst y).1 hy with hy | rfl
      · exact hi.dvd y hy
      · exact hdv
    · simpa using hi.enough
    · intro k o
      simp only
      by_cases hkk : mapIndex ix.how x = k
      · subst hkk
        rw [List.getElem?_set_self hlt, hk]
        simp [hst, eq_comm]
      · rw [List.getElem?_set_ne hkk, hi.slot, hst]
        have : k * unit ix.how ≠ x := by
          intro e
          apply hkk
          rw [mapIndex_eq, ← e, Nat.mul_div_cancel _ (unit_pos _)]
        simp [this]

/-- The values of the `k`th transaction, put together -/
def image (sz k : Nat) : List Nexus → Option (List UInt8)
  | [] => some []
  | n :: l =>
    match n.vals[k]?.bind (contents (n.width * sz)), image sz k l with
    | some a, some b => some (a ++ b)
    | _, _ => none

theorem image_append (sz k : Nat) (a b : List Nexus) :
    image sz k (a ++ b) =
      (image sz k a).bind (fun x => (image sz k b).map (fun y => x ++ y)) := by
  induction a with
  | nil => cases h : image sz k b <;> simp [image, h]
  | cons n a ih =>
    simp only [List.cons_append, image, ih]
    cases (n.vals[k]?.bind (contents (n.width * sz))) <;> cases image sz k a <;>
      cases image sz k b <;> simp

theorem splitOne_ok {sz st offset : Nat} {n : Nexus} (junk : Nat → List UInt8)
    (h1 : n.offset = st * sz) (h3 : ValsOk sz n.width n.vals)
    (ho : 0 < offset) (hlt : offset < n.width) :
    ∃ old new, splitOne sz offset junk n = some (old, new) ∧ old.width = offset ∧
      new.width = n.width - offset ∧ old.offset = st * sz ∧ new.offset = (st + offset) * sz ∧
      ValsOk sz old.width old.vals ∧ ValsOk sz new.width new.vals ∧
      ∀ (k : Nat) (bs : List UInt8), n.vals[k]?.bind (contents (n.width * sz)) = some bs →
        image sz k [old, new] = some bs := by
  have e : offset + (n.width - offset) = n.width := by omega
  obtain ⟨ln, lo, e', a1, a2, a3, a4, a5⟩ := splitVals_ok (width := n.width - offset)
    (offset := offset) junk n.vals 0 (by rw [e]; exact h3)
  refine ⟨⟨offset, n.offset, lo⟩, ⟨n.width - offset, n.offset + offset * sz, ln⟩,
    by simp [splitOne, e'], rfl, rfl, h1, ?_, a2, a1, ?_⟩
  · simp [h1, Nat.add_mul]
  · intro k bs hk
    rw [e] at a5
    obtain ⟨b1, b2⟩ := a5 k bs hk
    simp only [image, b1, b2]
    simp

theorem cloneNexus_ok {w : Nat} {s : Sig} (h : Inv w s) (junk : Nat → List UInt8) {a b : List Nexus}
    {n : Nexus} (hc : s.chain = a ++ n :: b) {r : Nat} (h0 : 0 < r) (hr : r < n.width) :
    ∃ old new ix, cloneNexus junk s a.length r =
        some { s with chain := a ++ old :: new :: b, index := ix } ∧
      splitOne s.sz r junk n = some (old, new) ∧
      old.width = r ∧ new.width = n.width - r ∧
      Inv w { s with chain := a ++ old :: new :: b, index := ix } ∧
      (∀ y, y ∈ starts 0 (a ++ old :: new :: b) ↔ y ∈ starts 0 s.chain ∨ y = len a + r) ∧
      (∀ k bs, image s.sz k s.chain = some bs → image s.sz k (a ++ old :: new :: b) = some bs) := by
  have ht := h.tiles
  rw [hc] at ht
  obtain ⟨t1, t2, t3, t4, t5⟩ := tiles_append.1 ht
  simp only [Nat.zero_add] at t2 t5
  obtain ⟨old, new, e, w1, w2, o1, o2, v1, v2, him⟩ := splitOne_ok junk t2 t4 h0 hr
  have hget : s.chain[a.length]? = some n := by simp [hc]
  have htake : s.chain.take a.length = a := by simp [hc]
  have hdrop : s.chain.drop (a.length + 1) = b := by
    rw [hc, ← List.drop_drop]; simp
  have hst : ∀ y, y ∈ starts 0 (a ++ old :: new :: b) ↔ y ∈ starts 0 s.chain ∨ y = len a + r := by
    intro y
    rw [hc, starts_append, starts_append]
    simp only [starts, List.mem_append, List.mem_cons, Nat.zero_add, w1, w2,
      show len a + r + (n.width - r) = len a + n.width by omega]
    grind
  have htiles : Tiles s.sz 0 (a ++ old :: new :: b) := by
    rw [tiles_append]
    refine ⟨t1, by simpa using o1, by omega, v1, by simpa [w1] using o2, by omega, v2, ?_⟩
    rw [w1, w2]
    simpa only [Nat.zero_add, show len a + r + (n.width - r) = len a + n.width by omega] using t5
  have hlen : len (a ++ old :: new :: b) = w := by
    have := h.total
    rw [hc] at this
    simp at this ⊢
    omega
  have h2 : 2 ≤ (a ++ old :: new :: b).length := by simp; omega
  have himg : ∀ k bs, image s.sz k s.chain = some bs →
      image s.sz k (a ++ old :: new :: b) = some bs := by
    intro k bs
    rw [hc, image_append, show old :: new :: b = [old, new] ++ b from rfl, image_append, image_append]
    intro hb
    cases ha : image s.sz k a with
    | none => simp [ha] at hb
    | some x =>
      have : n :: b = [n] ++ b := rfl
      rw [ha, this, image_append] at hb
      cases hn : n.vals[k]?.bind (contents (n.width * s.sz)) with
      | none => simp [image, hn] at hb
      | some c =>
        rw [him k c hn]
        simpa [image, hn] using hb
  have hx : len a + r < w := by
    have := h.total
    rw [hc] at this
    simp at this; omega
  have hnew : len a + r ∉ starts 0 s.chain := by
    rw [hc]
    exact starts_split ht (by omega) (by omega)
  suffices hmain : ∃ ix, cloneNexus junk s a.length r =
        some { s with chain := a ++ old :: new :: b, index := ix } ∧
      ∀ ix', ix = some ix' → IndexOk s.sz w (a ++ old :: new :: b) ix' by
    obtain ⟨ix, hm, hix⟩ := hmain
    exact ⟨old, new, ix, hm, e, w1, w2, ⟨h.sz, h.bytes, h.pos, hlen, htiles,
      fun ix' hi => ⟨hix ix' hi, h2⟩⟩, hst, himg⟩
  unfold cloneNexus
  simp only [hget, hr, if_true, e, htake, hdrop]
  cases hi : s.index with
  | none =>
    simp only
    split
    · obtain ⟨ix, e', hok⟩ := buildIndex_ok (s := { s with chain := a ++ old :: new :: b }) (w := w)
        h.sz h.bytes hlen htiles h2
      refine ⟨some ix, by rw [hi] at e'; exact e', ?_⟩
      rintro _ ⟨⟩
      exact hok
    · exact ⟨none, rfl, by simp⟩
  | some ix =>
    obtain ⟨ix', e', hok⟩ := updateIndex_ok (s := { s with chain := a ++ old :: new :: b }) (w := w)
      h.sz h.bytes hlen htiles h2 hx (h.index ix hi).1 hst hnew
    refine ⟨some ix', ?_, ?_⟩
    · rw [hi] at e'
      simp only [o2]
      exact e'
    · rintro _ ⟨⟩
      exact hok

theorem lookupIndex_ok {w : Nat} {s : Sig} (h : Inv w s) {offset : Nat} (ho : offset < w) :
    ∃ ix x r, lookupIndex s offset = some ({ s with index := ix }, x * s.sz, r) ∧
      x ∈ starts 0 s.chain ∧ offset = x + r ∧ Inv w { s with index := ix } ∧
      (ix = s.index ∨ ix = none) := by
  unfold lookupIndex
  obtain ⟨first, rest, hc⟩ : ∃ n l, s.chain = n :: l := by
    cases e : s.chain with
    | nil => exact absurd e h.ne
    | cons n l => exact ⟨n, l, rfl⟩
  have hfirst : first.offset = 0 * s.sz := by
    have := h.tiles
    rw [hc] at this
    exact this.1
  have h0 := h.zero
  cases hi : s.index with
  | none =>
    refine ⟨none, 0, offset, ?_, h0, by omega, ?_, Or.inl rfl⟩
    · simp only [hc, hi]
      rw [← hfirst, ← hc, ← hi]
    · rw [← hi]; exact h
  | some ix =>
    obtain ⟨hok, h2⟩ := h.index ix hi
    by_cases hv : indexValid ix.how offset = false
    · refine ⟨none, 0, offset, ?_, h0, by omega,
        ⟨h.sz, h.bytes, h.pos, h.total, h.tiles, by simp⟩, Or.inr rfl⟩
      simp only [hc, hi, hv, if_true]
      rw [← hfirst]
    · have hv : indexValid ix.how offset = true := by simpa using hv
      have hk : mapIndex ix.how offset * unit ix.how = offset := by
        rw [mapIndex_eq]; exact Nat.div_mul_cancel ((indexValid_iff ..).1 hv)
      have hlt : mapIndex ix.how offset < ix.slots.length := by
        apply Nat.lt_of_mul_lt_mul_right (a := unit ix.how)
        have := hok.enough
        omega
      obtain ⟨j, hj, hle, hm, _⟩ := search_ok hok h0 (mapIndex ix.how offset)
      refine ⟨some ix, j * unit ix.how, unmapIndex ix.how (mapIndex ix.how offset - j), ?_,
        hm, ?_, by rw [← hi]; exact h, Or.inl rfl⟩
      · simp only [hc, hi, hv, Bool.true_eq_false, if_false, hlt, if_true, hj]
        rw [← hi, ← hc]
      · rw [unmapIndex_eq, Nat.sub_mul, hk]
        have : j * unit ix.how ≤ mapIndex ix.how offset * unit ix.how := Nat.mul_le_mul_right _ hle
        omega

end Verif.Sim.Nexus
