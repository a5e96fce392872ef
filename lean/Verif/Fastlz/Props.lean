import Verif.Fastlz.Comp

/-!
# C04: the block compressor is lossless

`compress` is the level-2 compressor, `decompress` the dispatcher with both
decompressors.  The result `.ok` excludes both the error return and any read beyond the
compressed data; the decompressor's output buffer is never exceeded because every write
is preceded by a check against `maxout` in the model as in C, and the result has length
`data.length ≤ maxout`.
-/

namespace Verif.Fastlz

theorem compress_toks (data : List Nat) (hb : IsBytes data) (h4 : 4 ≤ data.length) :
    ∃ bs ts, encToks (.lit bs :: ts) = (bs.length - 1) :: (bs ++ encToks ts) ∧
      compress data = ((bs.length - 1) ||| (1 <<< 5)) :: (bs ++ encToks ts) ∧
      ToksOk [] (.lit bs :: ts) ∧ applyToks [] (.lit bs :: ts) = data ∧
      (encToks (.lit bs :: ts)).length ≤ data.length + data.length / 32 + 1 := by
  have hinv := compLoop_inv data hb data.length _ (inv_init data h4)
  obtain ⟨ts0, lits0, h0⟩ := hinv.rep
  obtain ⟨ts1, lits1, h1⟩ := leftOver_rep data _ _ _ _ _ _ rfl h0
  obtain ⟨ts, e1, e2, e3, e4, e5, e6⟩ := patchCopy_rep h1
  rw [List.take_length] at e3
  obtain ⟨t, ts, rfl⟩ := List.exists_cons_of_ne_nil e6
  cases t with
  | cpy l d => exact absurd e4 (by simp [FirstLit])
  | lit bs =>
    refine ⟨bs, ts, rfl, ?_, e2, e3, e5⟩
    unfold compress
    rw [if_neg (by omega)]
    dsimp only
    rw [e1]
    rfl

theorem encToks_length (o : List Nat) (ts : List Tok) (h : ToksOk o ts) :
    ts.length ≤ (encToks ts).length := by
  induction ts generalizing o with
  | nil => simp
  | cons t ts ih =>
    have h1 : 1 ≤ (encTok t).length := by
      cases t with
      | lit x => simp [encTok]
      | cpy l d =>
        obtain ⟨c, r, hx, _⟩ := encodeMatch_read l d h.1.1 h.1.2.2 []
        rw [List.append_nil] at hx
        simp [encTok, hx]
    have h2 := ih _ h.2
    simp only [encToks, List.flatMap_cons, List.length_cons, List.length_append] at h2 ⊢
    omega

/-- **C04.**  Decompressing the compressed form of a non-empty block gives the block,
whenever the destination has room for it; for both copy variants. -/
theorem decompress_compress (al : Align) (data : List Nat) (hb : IsBytes data)
    (hne : data ≠ []) (maxout : Nat) (hmax : data.length ≤ maxout) :
    decompress al (compress data) maxout = .ok data := by
  have hpos : 0 < data.length := List.length_pos_iff.2 hne
  by_cases h4 : data.length < 4
  · unfold compress
    rw [if_pos h4, if_pos (by omega)]
    have hl : (data.length - 1) >>> 5 = 0 := by rw [Nat.shiftRight_eq_div_pow]; omega
    have ha : (data.length - 1) &&& 31 = data.length - 1 := by
      rw [show 31 = 2 ^ 5 - 1 from rfl, Nat.and_two_pow_sub_one_eq_mod]; omega
    simp only [decompress, hl, ha, decLoop]
    rw [if_pos (Or.inl (by trivial)), if_neg (by omega), if_neg (by simp; omega),
      if_neg (by omega)]
    rw [show data.length - 1 + 1 = data.length by omega]
    simp
  · obtain ⟨bs, ts, he, hc, hok, happ, _⟩ := compress_toks data hb (by omega)
    have hbs : 1 ≤ bs.length ∧ bs.length ≤ 32 := hok.1
    have hor : (bs.length - 1) ||| (1 <<< 5) = bs.length - 1 + 32 := by
      rw [Nat.or_comm, ← Nat.shiftLeft_add_eq_or_of_lt (by omega)]; simp; omega
    have hsh : (bs.length - 1 + 32) >>> 5 = 1 := by rw [Nat.shiftRight_eq_div_pow]; omega
    have ha : (bs.length - 1 + 32) &&& 31 = bs.length - 1 := by
      rw [show 31 = 2 ^ 5 - 1 from rfl, Nat.and_two_pow_sub_one_eq_mod]; omega
    have hfuel : ts.length < ((bs.length - 1 + 32) :: (bs ++ encToks ts)).length + 1 := by
      have := encToks_length _ ts hok.2
      simp; omega
    have := decLoop_toks al maxout ts (.lit bs) [] _ _ _ he hok (by rw [happ]; exact hmax) hfuel
    rw [happ] at this
    rw [hc, hor]
    simp only [decompress, hsh, ha]
    rw [if_pos (Or.inr (by trivial))]
    exact this

/-- **C04 (size).**  The compressed form of a non-empty block is at most
`n + n/32 + 1` bytes long. -/
theorem compress_length (data : List Nat) (hb : IsBytes data) (hne : data ≠ []) :
    (compress data).length ≤ data.length + data.length / 32 + 1 := by
  by_cases h4 : data.length < 4
  · unfold compress
    rw [if_pos h4]
    have hpos : 0 < data.length := List.length_pos_iff.2 hne
    rw [if_pos (by omega)]
    simp
  · obtain ⟨bs, ts, he, hc, _, _, hs⟩ := compress_toks data hb (by omega)
    rw [he] at hs
    rw [hc]
    simpa using hs

/-- Non-trivial instance: a block with a run, a near match and literals is really
compressed (the output is shorter), so the match branches are exercised. -/
example : IsBytes ((List.replicate 40 7) ++ [1, 2, 3, 4, 5, 6, 1, 2, 3, 4, 5, 6] ++
    List.replicate 20 9) := by unfold IsBytes; decide

example : (compress ((List.replicate 40 7) ++ [1, 2, 3, 4, 5, 6, 1, 2, 3, 4, 5, 6] ++
    List.replicate 20 9)).length = 24 := by decide +kernel

end Verif.Fastlz
