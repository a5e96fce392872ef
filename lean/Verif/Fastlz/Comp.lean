import Verif.Fastlz.Lemmas

/-! The loop invariant of the FastLZ compressor. -/

namespace Verif.Fastlz

/-- All elements are bytes. -/
def IsBytes (l : List Nat) : Prop := ∀ b ∈ l, b < 256

theorem inp_lt (data : List Nat) (hb : IsBytes data) (i : Nat) : inp data i < 256 := by
  unfold inp
  rw [List.getD_eq_getElem?_getD]
  by_cases h : i < data.length
  · rw [List.getElem?_eq_getElem h]; exact hb _ (List.getElem_mem h)
  · rw [List.getElem?_eq_none (by omega)]; simp

theorem readU16_eq (data : List Nat) (hb : IsBytes data) (i : Nat) :
    readU16 data i = inp data i + 256 * inp data (i + 1) := by
  unfold readU16
  have := inp_lt data hb i
  rw [Nat.or_comm, ← Nat.shiftLeft_add_eq_or_of_lt (by omega), Nat.shiftLeft_eq]
  omega

theorem findMatch_spec (data : List Nat) (hb : IsBytes data) (htab : Nat → Nat) (a : Nat)
    (ha : 1 ≤ a) (hh : ∀ h, htab h < a) (D len ref : Nat)
    (hf : findMatch data htab a = .found D len ref) :
    1 ≤ D ∧ D ≤ a ∧ D < 73725 ∧ ref = a + len - D ∧
      (len = 3 ∧ D < 8191 ∨ len = 5 ∧ D ≥ 8191) ∧
      ∀ i, a ≤ i → i < a + len → inp data i = inp data (i - D) := by
  unfold findMatch at hf
  split at hf
  · rename_i hr
    obtain ⟨h1, h2⟩ := hr
    rw [readU16_eq _ hb, readU16_eq _ hb] at h2
    have b1 := inp_lt data hb (a - 1)
    have b2 := inp_lt data hb (a - 1 + 1)
    have b3 := inp_lt data hb (a + 1)
    have b4 := inp_lt data hb (a + 1 + 1)
    rw [show a - 1 + 1 = a by omega] at *
    injection hf with e1 e2 e3
    subst e1; subst e2; subst e3
    refine ⟨by omega, by omega, by omega, by omega, by omega, ?_⟩
    intro i hi hi2
    obtain rfl | rfl | rfl : i = a ∨ i = a + 1 ∨ i = a + 2 := by omega
    · exact h1
    · rw [show a + 1 - 1 = a by omega]; omega
    · rw [show a + 2 - 1 = a + 1 by omega, show a + 2 = a + 1 + 1 by omega]; omega
  · dsimp only at hf
    have hd := hh (hashAt data a)
    generalize htab (hashAt data a) = r at hf hd
    split at hf
    · exact absurd hf (by simp)
    · rename_i hc
      simp only [not_or, ne_eq, Decidable.not_not] at hc
      obtain ⟨c1, c2, c3, c4, c5⟩ := hc
      split at hf
      · split at hf
        · exact absurd hf (by simp)
        · rename_i hc2
          simp only [not_or, ne_eq, Decidable.not_not] at hc2
          injection hf with e1 e2 e3
          subst e1; subst e2; subst e3
          refine ⟨by omega, by omega, by omega, by omega, by omega, ?_⟩
          intro i hi hi2
          obtain rfl | rfl | rfl | rfl | rfl :
            i = a ∨ i = a + 1 ∨ i = a + 2 ∨ i = a + 3 ∨ i = a + 4 := by omega
          · rw [← c3]; congr 1; omega
          · rw [← c4]; congr 1; omega
          · rw [← c5]; congr 1; omega
          · rw [hc2.1]; congr 1; omega
          · rw [hc2.2]; congr 1; omega
      · injection hf with e1 e2 e3
        subst e1; subst e2; subst e3
        refine ⟨by omega, by omega, by omega, by omega, by omega, ?_⟩
        intro i hi hi2
        obtain rfl | rfl | rfl : i = a ∨ i = a + 1 ∨ i = a + 2 := by omega
        · rw [← c3]; congr 1; omega
        · rw [← c4]; congr 1; omega
        · rw [← c5]; congr 1; omega

theorem matchEnd_spec (data : List Nat) (a D len : Nat)
    (hlen : len = 3 ∧ D < 8191 ∨ len = 5 ∧ D ≥ 8191) (ha : a + 12 < data.length)
    (hD : 1 ≤ D) (hDa : D ≤ a)
    (hm : ∀ i, a ≤ i → i < a + len → inp data i = inp data (i - D)) :
    let e := matchEnd data a D len (a + len - D)
    a + len + 1 ≤ e ∧ e ≤ data.length ∧
      ∀ i, a ≤ i → i + 1 < e → inp data i = inp data (i - D) := by
  unfold matchEnd
  dsimp only
  split
  · rename_i h0
    obtain rfl : D = 1 := by omega
    obtain rfl : len = 3 := by omega
    obtain ⟨p, q, r, s⟩ := runLoop_spec data (inp data (a + 3 - 1)) (data.length - 2) _ (a + 3) rfl
      (by omega)
    refine ⟨r (by omega) rfl, by omega, ?_⟩
    intro i hi hi2
    by_cases h3 : i < a + 3
    · exact hm i hi h3
    · rw [s i (by omega) hi2]
      exact (s (i - 1) (by omega) (by omega)).symm
  · rename_i h0
    obtain ⟨p, q, r, s⟩ := cmpUnrolled_spec data (data.length - 2) D 8 (a + len) (by omega)
    refine ⟨q (by omega), by omega, ?_⟩
    intro i hi hi2
    by_cases h3 : i < a + len
    · exact hm i hi h3
    · exact s i (by omega) hi2

theorem lenCode_length (l : Nat) : (lenCode l).length = l / 255 + 1 := by
  induction l using Nat.strongRecOn with
  | ind l ih =>
    unfold lenCode
    split
    · rw [List.length_cons, ih (l - 255) (by omega)]; omega
    · simp; omega

theorem encodeMatch_length (l d : Nat) (h1 : 1 ≤ l) (h3 : d ≥ 8191 → 3 ≤ l) :
    (encodeMatch l d).length ≤ l + 1 := by
  unfold encodeMatch
  dsimp only
  split
  · split
    · simp; omega
    · simp [lenCode_length]; omega
  · split
    · simp; omega
    · simp [lenCode_length]; omega

/-- First token of the stream, or the literal run being collected, is non-empty. -/
def FirstLit : List Tok → List Nat → Prop
  | [], lits => lits ≠ []
  | .lit _ :: _, _ => True
  | .cpy _ _ :: _, _ => False

theorem firstLit_append (ts : List Tok) (l l' : List Nat) (x : List Tok) (h : FirstLit ts l)
    (hx : ts = [] → FirstLit x l') : FirstLit (ts ++ x) l' := by
  cases ts with
  | nil => exact hx rfl
  | cons t ts => cases t <;> simp_all [FirstLit]

/-- Representation of the output so far: finished tokens, then the place holder of the
literal run being collected and its bytes. -/
structure Rep (data : List Nat) (ip : Nat) (out : List Nat) (copy : Nat)
    (ts : List Tok) (lits : List Nat) : Prop where
  out_eq : out = encToks ts ++ 31 :: lits
  copy_eq : lits.length = copy
  copy_lt : copy < 32
  ok : ToksOk [] ts
  app : applyToks [] ts ++ lits = data.take ip
  ip_le : ip ≤ data.length
  first : FirstLit ts lits
  size : (encToks ts).length ≤ (applyToks [] ts).length + (applyToks [] ts).length / 32

theorem rep_literal {data ip out copy ts lits} (h : Rep data ip out copy ts lits)
    (hip : ip < data.length) :
    ∃ ts' lits', Rep data (ip + 1) (emitLiteral out copy (inp data ip)).1
      (emitLiteral out copy (inp data ip)).2 ts' lits' := by
  have happ : applyToks [] ts ++ (lits ++ [inp data ip]) = data.take (ip + 1) := by
    rw [take_succ_inp _ _ hip, ← h.app]; simp
  unfold emitLiteral
  dsimp only
  split
  · rename_i hc
    refine ⟨ts ++ [.lit (lits ++ [inp data ip])], [], ?_⟩
    have hl : (lits ++ [inp data ip]).length = 32 := by simp [h.copy_eq]; omega
    constructor
    · rw [h.out_eq]; simp [encToks, encTok, h.copy_eq]; omega
    · simp
    · omega
    · rw [toksOk_append]; exact ⟨h.ok, ⟨by omega, by omega⟩, trivial⟩
    · rw [applyToks_append, List.append_nil]; exact happ
    · omega
    · exact firstLit_append _ _ _ _ h.first (fun _ => trivial)
    · have := h.size
      rw [applyToks_append, encToks, List.flatMap_append, List.length_append]
      simp only [encToks] at this
      simp only [applyToks, List.foldl, applyTok, List.flatMap_cons, List.flatMap_nil, encTok,
        List.append_nil, List.length_cons] at this ⊢
      simp only [List.length_append] at hl ⊢
      omega
  · rename_i hc
    refine ⟨ts, lits ++ [inp data ip], ?_⟩
    constructor
    · rw [h.out_eq]; simp
    · simp [h.copy_eq]
    · have := h.copy_lt; omega
    · exact h.ok
    · exact happ
    · omega
    · cases ts with
      | nil => simp [FirstLit]
      | cons t _ => have := h.first; cases t <;> simp_all [FirstLit]
    · exact h.size

theorem patchCopy_rep {data ip out copy ts lits} (h : Rep data ip out copy ts lits) :
    ∃ ts', patchCopy out copy = encToks ts' ∧ ToksOk [] ts' ∧ applyToks [] ts' = data.take ip ∧
      FirstLit ts' [] ∧
      (encToks ts').length ≤ ip + ip / 32 + 1 ∧ ts' ≠ [] := by
  have hlen : (applyToks [] ts).length + lits.length = ip := by
    rw [← List.length_append, h.app, List.length_take]; have := h.ip_le; omega
  have hsz := h.size
  unfold patchCopy
  by_cases hc : copy = 0
  · rw [if_neg (by simpa using hc)]
    have hl : lits = [] := List.eq_nil_of_length_eq_zero (by rw [h.copy_eq, hc])
    subst hl
    have hne : ts ≠ [] := by
      rintro rfl
      exact h.first rfl
    refine ⟨ts, ?_, h.ok, by simpa using h.app, ?_, ?_, hne⟩
    · rw [h.out_eq]; simp
    · exact h.first
    · simp at hlen; rw [← hlen]; omega
  · rw [if_pos hc]
    refine ⟨ts ++ [.lit lits], ?_, ?_, ?_, ?_, ?_, by simp⟩
    · have hp : out.length - copy - 1 = (encToks ts).length := by
        rw [h.out_eq]; simp [h.copy_eq]; omega
      rw [hp, h.out_eq, List.set_append_right (h := Nat.le_refl _)]
      simp [encToks, encTok, h.copy_eq]
    · rw [toksOk_append]
      exact ⟨h.ok, ⟨by rw [h.copy_eq]; omega, by rw [h.copy_eq]; have := h.copy_lt; omega⟩, trivial⟩
    · rw [applyToks_append]; exact h.app
    · exact firstLit_append _ _ _ _ h.first (fun _ => trivial)
    · rw [encToks, List.flatMap_append, List.length_append]
      simp only [encToks] at hsz
      simp only [List.flatMap_cons, List.flatMap_nil, encTok, List.append_nil, List.length_cons]
      omega

/-- Sharper size bound before a match. -/
theorem patchCopy_match {data ip out copy ts lits} (h : Rep data ip out copy ts lits)
    (l d : Nat) (hl : 1 ≤ l) (hd1 : d + 1 ≤ ip) (hd2 : d < 8191 + 65536) (hfar : d ≥ 8191 → 3 ≤ l)
    (hend : ip + (l + 2) ≤ data.length)
    (hm : ∀ i, ip ≤ i → i < ip + (l + 2) → inp data i = inp data (i - (d + 1))) :
    ∃ ts' lits', Rep data (ip + (l + 2)) (patchCopy out copy ++ encodeMatch l d ++ [31]) 0
      ts' lits' := by
  have hlen : (applyToks [] ts).length + lits.length = ip := by
    rw [← List.length_append, h.app, List.length_take]; have := h.ip_le; omega
  have hip := h.ip_le
  obtain ⟨ts', e1, e2, e3, e4, _, e6⟩ := patchCopy_rep h
  have hlen' : (applyToks [] ts').length = ip := by rw [e3, List.length_take]; omega
  have hcost := encodeMatch_length l d hl hfar
  refine ⟨ts' ++ [.cpy l d], [], ?_⟩
  have happ : applyToks [] (ts' ++ [.cpy l d]) = data.take (ip + (l + 2)) := by
    rw [applyToks_append]
    show copyBytes (applyToks [] ts') ((applyToks [] ts').length - d - 1) (l + 2) = _
    rw [hlen', e3, show ip - d - 1 = ip - (d + 1) by omega]
    exact copyBytes_take data (l + 2) ip (d + 1) (by omega) (by omega) (by omega) hm
  constructor
  · rw [e1]; simp [encToks, encTok]
  · rfl
  · omega
  · rw [toksOk_append]
    exact ⟨e2, ⟨hl, by rw [hlen']; omega, hd2⟩, trivial⟩
  · rw [List.append_nil]; exact happ
  · exact hend
  · refine firstLit_append _ _ _ _ e4 (fun hc => absurd hc e6)
  · rw [happ, List.length_take, Nat.min_eq_left hend, encToks, List.flatMap_append,
      List.length_append]
    have : (List.flatMap encTok ts').length ≤ ip + ip / 32 + 1 := by
      have := patchCopy_rep h
      rename_i hz
      simpa [encToks] using hz
    simp only [List.flatMap_cons, List.flatMap_nil, encTok, List.append_nil]
    omega

/-- Loop invariant of the compressor. -/
structure Inv (data : List Nat) (st : Comp) : Prop where
  rep : ∃ ts lits, Rep data st.ip st.out st.copy ts lits
  tab : ∀ h, st.htab h < st.ip
  ip2 : 2 ≤ st.ip

theorem compStep_inv (data : List Nat) (hb : IsBytes data) (st : Comp) (h : Inv data st)
    (hlt : st.ip + 12 < data.length) :
    Inv data (compStep data st) ∧ st.ip < (compStep data st).ip := by
  obtain ⟨⟨ts, lits, hrep⟩, htab, h2⟩ := h
  have htab2 : ∀ h, htabAfterFind data st.htab st.ip h < st.ip + 1 := by
    intro h
    unfold htabAfterFind
    split
    · have := htab h; omega
    · dsimp only
      split
      · omega
      · have := htab h; omega
  unfold compStep
  dsimp only
  cases hf : findMatch data st.htab st.ip with
  | literal =>
    dsimp only
    exact ⟨⟨rep_literal hrep (by omega), htab2, by simp; omega⟩, by simp⟩
  | found D len ref =>
    dsimp only
    obtain ⟨f1, f2, f3, f4, f5, f6⟩ := findMatch_spec data hb _ _ (by omega) htab D len ref hf
    obtain ⟨m1, m2, m3⟩ := matchEnd_spec data st.ip D len f5 hlt f1 f2 f6
    rw [← f4] at m1 m2 m3
    generalize matchEnd data st.ip D len ref = e at m1 m2 m3
    have hip : e - 3 + 1 + 1 = st.ip + ((e - 3 - st.ip) + 2) := by omega
    have := patchCopy_match hrep (e - 3 - st.ip) (D - 1) (by omega) (by omega) (by omega)
      (by omega) (by omega) (fun i hi hi2 => by
        rw [show D - 1 + 1 = D by omega]; exact m3 i hi (by omega))
    refine ⟨⟨?_, ?_, ?_⟩, ?_⟩
    · dsimp only
      rw [hip]
      exact this
    · intro h
      have := htab2 h
      have hg : (if h = hashAt data (e - 3 + 1) then e - 3 + 1
          else if h = hashAt data (e - 3) then e - 3
          else htabAfterFind data st.htab st.ip h) < e - 3 + 1 + 1 := by
        split
        · omega
        · split
          · omega
          · omega
      exact hg
    · show 2 ≤ e - 3 + 1 + 1; omega
    · show st.ip < e - 3 + 1 + 1; omega

theorem compLoop_inv (data : List Nat) (hb : IsBytes data) (fuel : Nat) :
    ∀ st, Inv data st → Inv data (compLoop data fuel st) := by
  induction fuel with
  | zero => intro st h; exact h
  | succ f ih =>
    intro st h
    simp only [compLoop]
    split
    · rename_i hlt
      exact ih _ (compStep_inv data hb st h hlt).1
    · exact h

/-- The fuel given by `compress` is enough: the main loop ends because its condition is
false, as in C. -/
theorem compLoop_done (data : List Nat) (hb : IsBytes data) (fuel : Nat) :
    ∀ st, Inv data st → data.length ≤ st.ip + fuel →
      ¬ ((compLoop data fuel st).ip + 12 < data.length) := by
  induction fuel with
  | zero => intro st h hf; simp only [compLoop]; omega
  | succ f ih =>
    intro st h hf
    simp only [compLoop]
    split
    · rename_i hlt
      obtain ⟨a, b⟩ := compStep_inv data hb st h hlt
      exact ih _ a (by omega)
    · assumption

theorem leftOver_rep (data : List Nat) (k : Nat) :
    ∀ ip out copy ts lits, data.length - ip = k → Rep data ip out copy ts lits →
      ∃ ts' lits', Rep data data.length (leftOver data ip out copy).1
        (leftOver data ip out copy).2 ts' lits' := by
  induction k with
  | zero =>
    intro ip out copy ts lits hk h
    have : ip = data.length := by have := h.ip_le; omega
    subst this
    unfold leftOver
    rw [dif_neg (by omega)]
    exact ⟨_, _, h⟩
  | succ k ih =>
    intro ip out copy ts lits hk h
    unfold leftOver
    rw [dif_pos (by omega)]
    obtain ⟨ts', lits', h'⟩ := rep_literal h (by omega)
    exact ih _ _ _ _ _ (by omega) h'

theorem inv_init (data : List Nat) (h : 4 ≤ data.length) :
    Inv data { ip := 2, htab := fun _ => 0, out := [31, inp data 0, inp data 1], copy := 2 } := by
  refine ⟨⟨[], [inp data 0, inp data 1], ?_⟩, fun _ => by simp, Nat.le_refl _⟩
  constructor
  · rfl
  · rfl
  · show 2 < 32; omega
  · trivial
  · rw [take_succ_inp data 1 (by omega), take_succ_inp data 0 (by omega)]; rfl
  · simp; omega
  · simp [FirstLit]
  · simp [encToks, applyToks]

end Verif.Fastlz
