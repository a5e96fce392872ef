import Verif.Fbuf.FileLemmas

/-!
# C03: a library file reads back exactly what was written

The theorems speak about a sequence of typed writes `fs` into a fresh output buffer,
`closeOut` giving the file contents, `openIn` reading them, and the same sequence of
typed reads.  ZSTD itself is assumed lossless (`Zstd.Lossless`).
-/

namespace Verif.Fbuf

/-- A complete write session: open for output, write the fields, close. -/
def session (z : Zstd) (zip : Zip) (cs : Cs) (fs : List Field) : Option (List Nat) :=
  (writeFields (openOut zip cs) fs).map (closeOut z)

/-- The reader gets back `fs`, and the checksum test at close succeeds. -/
def ReadsBack (z : Zstd) (al : Fastlz.Align) (cs : Cs) (file : List Nat) (fs : List Field) :
    Prop :=
  ∃ r, openIn z al cs file = .ok r ∧ closeIn r = true ∧
    ∃ rest, readFields (fs.map Field.kind) r.rbuf = .ok fs rest

theorem session_reads_back (z : Zstd) (hz : z.Lossless) (al : Fastlz.Align) (zip : Zip)
    (cs cs' : Cs) (hcb : cs'.byte = cs.byte) (hs : cs.Supported) (hs' : cs'.Supported)
    (fs : List Field) (hv : ∀ f ∈ fs, f.Valid) (hm : ∀ f ∈ fs, f.more ≤ blockSize)
    (hf : zip = .fastlz → ∀ f ∈ fs, f.more + 15 ≤ blockSize)
    (hsz : (fs.flatMap Field.bytes).length + 16 < 2 ^ 32) :
    ∃ file, session z zip cs fs = some file ∧
      (file.length < 2 ^ 32 → ReadsBack z al cs' file fs) := by
  obtain ⟨w, e1, e2, e3, e4⟩ := writeFields_inv fs (openOut zip cs) [] (openOut_inv zip cs) hv hm hf
  rw [List.nil_append] at e2
  refine ⟨closeOut z w, by unfold session; rw [e1]; rfl, ?_⟩
  intro hfile
  have hc : w.cs = cs := e4
  obtain ⟨r, r1, r2, r3⟩ := open_close z hz al w _ e2 cs' (by rw [hc, hcb]) (by rw [hc]; exact hs)
    hs' hsz hfile
  exact ⟨r, r1, r3, _, by rw [r2]; exact readFields_bytes fs _⟩

/-- **C03** for files without compression and with (lossless) ZSTD, which is what
`fbuf_open` uses.  `hm` is the assertion in `fbuf_maybe_flush`; the sizes must fit the
32-bit header fields. -/
theorem file_roundtrip (z : Zstd) (hz : z.Lossless) (al : Fastlz.Align) (zip : Zip)
    (hzip : zip ≠ .fastlz) (cs cs' : Cs) (hcb : cs'.byte = cs.byte) (hs : cs.Supported)
    (hs' : cs'.Supported) (fs : List Field) (hv : ∀ f ∈ fs, f.Valid)
    (hm : ∀ f ∈ fs, f.more ≤ blockSize)
    (hsz : (fs.flatMap Field.bytes).length + 16 < 2 ^ 32) :
    ∃ file, session z zip cs fs = some file ∧
      (file.length < 2 ^ 32 → ReadsBack z al cs' file fs) :=
  session_reads_back z hz al zip cs cs' hcb hs hs' fs hv hm (fun h => absurd h hzip) hsz

/-- **C03**, partial, with the built-in block compressor: holds if no single raw write
is larger than `BLOCK_SIZE - 15` bytes.  Missing: larger raw writes, for which the
statement is false (`fastlz_roundtrip_counterexample`). -/
theorem fastlz_roundtrip_partial (z : Zstd) (hz : z.Lossless) (al : Fastlz.Align)
    (cs cs' : Cs) (hcb : cs'.byte = cs.byte) (hs : cs.Supported) (hs' : cs'.Supported)
    (fs : List Field) (hv : ∀ f ∈ fs, f.Valid) (hm : ∀ f ∈ fs, f.more + 15 ≤ blockSize)
    (hsz : (fs.flatMap Field.bytes).length + 16 < 2 ^ 32) :
    ∃ file, session z .fastlz cs fs = some file ∧
      (file.length < 2 ^ 32 → ReadsBack z al cs' file fs) :=
  session_reads_back z hz al .fastlz cs cs' hcb hs hs' fs hv (fun f h => by have := hm f h; omega)
    (fun _ => hm) hsz

/-- A raw string of exactly `BLOCK_SIZE` ones. -/
@[irreducible] def bigRaw : List Nat := List.replicate 61440 1

theorem bigRaw_length : bigRaw.length = 61440 := by unfold bigRaw; rw [List.length_replicate]

theorem bigRaw_isBytes : IsBytes bigRaw := by
  intro b hb
  unfold bigRaw at hb
  rw [List.mem_replicate] at hb
  omega

theorem bigRaw_head : bigRaw[0]? = some 1 := by
  unfold bigRaw
  rw [List.getElem?_replicate]
  rfl

/-- The two writes of the counterexample: one byte, then a raw string that fills a
block. -/
def badFields : List Field := [.u8 1, .raw bigRaw]

theorem bad_content : ∃ w, writeFields (openOut .fastlz .none) badFields = some w ∧
    WInv w (1 :: (List.replicate 15 0 ++ bigRaw)) ∧ w.cs = .none ∧
    w.zip = .fastlz ∧ w.pend.length = 61440 := by
  have hf1 : writeField (openOut .fastlz .none) (.u8 1) =
      some { openOut .fastlz .none with pend := [1] } := rfl
  obtain ⟨w1, a1, a2, _, _⟩ := writeField_inv _ _ (openOut_inv .fastlz .none) (.u8 1) trivial
    (by decide)
  rw [hf1] at a1
  obtain rfl := Option.some.inj a1
  have hp : pad (openOut .fastlz .none) (Field.u8 1).more = [] := rfl
  rw [hp] at a2
  have hv : (Field.raw bigRaw).Valid := bigRaw_isBytes
  have hml : (Field.raw bigRaw).more = 61440 := bigRaw_length
  obtain ⟨w2, b1, b2, b3, b4⟩ := writeField_inv _ _ a2 (.raw bigRaw) hv
    (by rw [hml]; decide)
  have hp2 : pad { openOut .fastlz .none with pend := [1] }
      (Field.raw bigRaw).more = List.replicate 15 0 := by
    rw [hml]; rfl
  rw [hp2] at b2
  refine ⟨w2, ?_, b2, b4, b3, ?_⟩
  · unfold badFields
    simp only [writeFields]
    rw [hf1]
    dsimp only
    rw [b1]
  · unfold writeField at b1
    rw [if_pos (by rw [hml]; decide)] at b1
    obtain rfl := Option.some.inj b1
    rw [hml]
    show ([] ++ bigRaw).length = 61440
    rw [List.nil_append, bigRaw_length]

/-- The file of the counterexample is far below the 32-bit limit. -/
theorem bad_file_small (z : Zstd) (file : List Nat)
    (h : session z .fastlz .none badFields = some file) : file.length < 2 ^ 32 := by
  obtain ⟨w, e1, e2, e3, e4, e5⟩ := bad_content
  have hses : session z .fastlz .none badFields = some (closeOut z w) := by
    unfold session; rw [e1]; rfl
  rw [hses] at h
  obtain rfl := Option.some.inj h
  obtain ⟨h1, h2, h3, h4⟩ := maybeFlush_inv w _ e2 blockSize (Nat.le_refl _)
  unfold closeOut
  dsimp only
  generalize maybeFlush w blockSize = v at *
  have hpad : (pad w blockSize).length ≤ 16 := by unfold pad; split <;> simp
  have hpend : v.pend = [] := List.eq_nil_of_length_eq_zero (by omega)
  have hflat := h1.content_eq
  rw [hpend, List.append_nil] at hflat
  have hlen := congrArg List.length hflat
  simp only [List.length_append, List.length_cons, List.length_replicate, bigRaw_length] at hlen
  have hbytes := h1.bytes
  rw [← hflat] at hbytes
  have hsum : ∀ bl : List (List Nat), (∀ b ∈ bl, 1 ≤ b.length ∧ b.length ≤ blockSize) →
      IsBytes bl.flatten → (bl.flatMap blockBytes).length ≤ 7 * bl.flatten.length := by
    intro bl hb hbb
    induction bl with
    | nil => simp
    | cons b bl ih =>
      have a := ih (fun x hx => hb x (by simp [hx]))
        (fun x hx => hbb x (by simp at hx ⊢; exact Or.inr hx))
      have hb1 := (hb b (by simp)).1
      have hne : b ≠ [] := by intro hc; simp [hc] at hb1
      have hl := Fastlz.compress_length b (fun x hx => hbb x (by simp; exact Or.inl hx)) hne
      simp only [List.flatMap_cons, List.flatten_cons, List.length_append, blockBytes,
        packBE32_length]
      omega
  have hpl : (payload z v).length ≤ 7 * v.blocks.flatten.length := by
    unfold payload
    rw [h3, e4]
    exact hsum _ h1.blocks_ok hbytes
  simp only [List.length_append, packBE32_length, List.length_cons, List.length_nil]
  omega

/-- **C03, counterexample** for the built-in block compressor: a legal sequence of two
writes after which the file opens without error, passes the checksum test, and the same
two reads return something else.  `fbuf_maybe_flush` pads a short block with zero bytes
although the stream continues (fbuf.c 516-520). -/
theorem fastlz_roundtrip_counterexample (z : Zstd) (hz : z.Lossless) (al : Fastlz.Align) :
    (∀ f ∈ badFields, f.Valid ∧ f.more ≤ blockSize) ∧
    ∃ file r fs' rest, session z .fastlz .none badFields = some file ∧
      openIn z al .none file = .ok r ∧ closeIn r = true ∧
      readFields (badFields.map Field.kind) r.rbuf = .ok fs' rest ∧ fs' ≠ badFields := by
  refine ⟨?_, ?_⟩
  · intro f hf
    simp only [badFields, List.mem_cons, List.not_mem_nil, or_false] at hf
    rcases hf with rfl | rfl
    · exact ⟨trivial, by decide⟩
    · refine ⟨bigRaw_isBytes, ?_⟩
      show bigRaw.length ≤ 61440
      rw [bigRaw_length]; omega
  · obtain ⟨w, e1, e2, e3, e4, e5⟩ := bad_content
    have hses : session z .fastlz .none badFields = some (closeOut z w) := by
      unfold session; rw [e1]; rfl
    obtain ⟨r, r1, r2, r3⟩ := open_close z hz al w _ e2 .none (by rw [e3]) (by rw [e3]; trivial)
      trivial (by simp only [List.length_cons, List.length_append, List.length_replicate, bigRaw_length]; omega)
      (bad_file_small z _ hses)
    have hp : pad w blockSize = [] := by
      unfold pad; rw [if_neg (by rw [e5]; omega)]
    rw [hp, List.append_nil] at r2
    refine ⟨closeOut z w, r,
      [.u8 1, .raw ((List.replicate 15 0 ++ bigRaw).take 61440)],
      (List.replicate 15 0 ++ bigRaw).drop 61440, hses, r1, r3, ?_, ?_⟩
    · rw [r2]
      simp only [badFields, List.map_cons, List.map_nil, Field.kind, readFields, readField,
        bigRaw_length]
      rw [show getLE 1 0 0 (1 :: (List.replicate 15 0 ++ bigRaw)) =
        .ok 1 (List.replicate 15 0 ++ bigRaw) from rfl]
      dsimp only [Rd.map]
      rw [if_neg (by rw [List.length_append, List.length_replicate, bigRaw_length]; omega)]
      rfl
    · intro hc
      simp only [badFields, List.cons.injEq, Field.raw.injEq, and_true, true_and] at hc
      have := congrArg (fun l => l[0]?) hc
      rw [bigRaw_head, List.getElem?_take_of_lt (by omega),
        List.getElem?_append_left (by simp)] at this
      simp at this

/-! ### Non-vacuity -/

/-- A lossless codec exists (storing the data). -/
example : (Zstd.mk List.flatten some).Lossless := ⟨rfl, fun _ _ _ => rfl⟩

/-- The hypotheses of the round trip are met by a mixed sequence. -/
example : (∀ f ∈ [Field.u8 3, .raw [1, 2, 255], .int (-5), .uint 300, .u64 7], f.Valid) ∧
    (∀ f ∈ [Field.u8 3, .raw [1, 2, 255], .int (-5), .uint 300, .u64 7],
      f.more + 15 ≤ blockSize) := by
  refine ⟨?_, by decide⟩
  intro f hf
  simp at hf
  rcases hf with rfl | rfl | rfl | rfl | rfl <;> simp [Field.Valid, IsBytes]

end Verif.Fbuf
