import Verif.Jit.LayoutTerms

/-
C67: where the parts of a value are placed.
-/

namespace Verif.Jit.Layout

/-! ### Numbers -/

/-- The width chosen for a range holds every number of the range: as a signed
number if the range has negative numbers, otherwise as an unsigned one. -/
theorem width_holds {low high x : Int} (hl : -9223372036854775808 ≤ low)
    (hh : high ≤ 9223372036854775807) (h1 : low ≤ x) (h2 : x ≤ high) :
    (low < 0 → -(2 ^ (bitsForRange low high - 1) : Nat) ≤ x ∧
      x < (2 ^ (bitsForRange low high - 1) : Nat)) ∧
    (0 ≤ low → 0 ≤ x ∧ x < (2 ^ bitsForRange low high : Nat)) := by
  constructor
  · intro hneg
    unfold bitsForRange
    rw [if_neg (by omega), if_pos hneg]
    split
    · simp; omega
    · split
      · simp; omega
      · split <;> simp <;> omega
  · intro hpos
    unfold bitsForRange
    rw [if_neg (by omega), if_neg (by omega)]
    split
    · simp; omega
    · split
      · simp; omega
      · split
        · simp; omega
        · split <;> simp <;> omega

/-- The length of a range is the number of its members. -/
theorem length_members {low high : Int} {n : Nat} (h : (Rng.known low high).length? = some n) :
    (high < low → n = 0) ∧ (low ≤ high → low + n = high + 1) := by
  simp only [Rng.length?, Option.some.injEq] at h
  omega

/-! ### The generated code -/

/-- Every access of the generated code to a part of a value of a VHDL type is
inside the value and aligned to its own width, if the value is aligned as
`irgen_align_of` says. -/
theorem access_inside {t : Ty} {m : MTy} {s : Nat} (hm : lowerType t = some m)
    (hs : sizeOf m = some s) {path : List Nat} {a : Access} (h : Leaf m path a) :
    0 < a.bytes ∧ a.at_ + a.bytes ≤ s ∧ a.bytes ∣ a.at_ ∧ a.bytes ∣ alignOf m :=
  ⟨(leaf_size h hs).1, (leaf_size h hs).2, leaf_align h ((lowerBoth_ok t).1 m hm).1⟩

/-- The same for the handles of the signals of a VHDL type. -/
theorem signal_access_inside {t : Ty} {m : MTy} {s : Nat} (hm : lowerSignalType t = some m)
    (hs : sizeOf m = some s) {path : List Nat} {a : Access} (h : Leaf m path a) :
    0 < a.bytes ∧ a.at_ + a.bytes ≤ s ∧ a.bytes ∣ a.at_ ∧ a.bytes ∣ alignOf m :=
  ⟨(leaf_size h hs).1, (leaf_size h hs).2, leaf_align h ((lowerSignalBoth_ok t).1 m hm)⟩

/-- Accesses to different parts of a value have no byte in common. -/
theorem access_apart {m : MTy} {s : Nat} (hs : sizeOf m = some s) {path path' : List Nat}
    {a b : Access} (ha : Leaf m path a) (hb : Leaf m path' b) (hne : path ≠ path') :
    a.at_ + a.bytes ≤ b.at_ ∨ b.at_ + b.bytes ≤ a.at_ :=
  leaf_apart ha hs hb hne

/-- The fields of a record are placed one after the other, each aligned, inside
the record, whose size is a multiple of eight. -/
theorem record_placed {fs : List MTy} {s : Nat} (h : sizeOf (.record fs) = some s) :
    8 ∣ s ∧ ∃ ps : List Place, ps.length = fs.length ∧
      (∀ (i : Nat) f, fs[i]? = some f → ∃ p, ps[i]? = some p ∧
        recordRef 0 fs i = some p.offset ∧ sizeOf f = some p.size ∧ p.align = alignOf f) ∧
      WellPlaced 0 s ps := by
  obtain ⟨bytes, hb, rfl⟩ := sizeOf_record h
  obtain ⟨ps, h1, h2, h3⟩ := fields_placed hb
  exact ⟨alignUp_dvd _ (by decide), ps, h1, h2, h3.weaken (le_alignUp _ (by decide))⟩

/-- The variables of a frame are placed behind its header, one after the other,
each aligned, inside the memory that is allocated. -/
theorem frame_placed {process : Bool} {vs : List MTy} {offs : List Nat} {sz : Nat}
    (h : placeVars (frameHeader process) vs = some (offs, sz)) :
    ∃ ps : List Place, ps.map (·.offset) = offs ∧ ps.length = vs.length ∧
      (∀ (i : Nat) v, vs[i]? = some v → ∃ p, ps[i]? = some p ∧ sizeOf v = some p.size ∧
        p.align = alignOf v) ∧
      WellPlaced (if process then 20 else 8) sz ps :=
  (vars_placed h).2

/-! ### The library -/

/-- Agreement for the types described by `Faithful`. -/
theorem layout_agrees_partial {t : Ty} (hf : Faithful t) {l : Lay} {m : MTy} {s : Nat}
    (hl : layoutOf t = some l) (hm : lowerType t = some m) (hs : sizeOf m = some s) :
    Agrees l m t.isRecord :=
  (agr_all t (faithful_computed t hf)).1 l m s hl hm hs

/-- Agreement for the signals of the types described by `FaithfulSignal`. -/
theorem signal_layout_agrees_partial {t : Ty} (hf : FaithfulSignal t) {l : Lay} {m : MTy} {s : Nat}
    (hl : signalLayoutOf t = some l) (hm : lowerSignalType t = some m) (hs : sizeOf m = some s) :
    AgreesSignal l m :=
  (agrSig_all t (faithfulSignal_computed t hf) l m s hl hm hs).1

/-- A loose array is lowered to a value with bounds for all dimensions that
must be kept, its own and those of loose elements; whatever is not loose has
none. -/
theorem lowered_dims {t : Ty} {m : MTy} {n : Nat} (h : KeptDims t n) (hl : Loose t)
    (hm : lowerType t = some m) : ∃ e, m = .uarray n e := by
  cases h with
  | stop h => exact (h hl).elim
  | array h =>
    rw [lowerType, lowerBoth, lowerSub, keptDims h] at hm
    obtain ⟨e, _, hm⟩ := bind_some hm
    rw [if_neg (by simp)] at hm
    exact ⟨e, (Option.some.inj hm).symm⟩
  | sub _ h =>
    rw [lowerType, lowerBoth, lowerSub, keptDims h, constant_false hl] at hm
    obtain ⟨e, _, hm⟩ := bind_some hm
    rw [if_neg (by simp)] at hm
    exact ⟨e, (Option.some.inj hm).symm⟩

/-- The same for signals. -/
theorem lowered_signal_dims {t : Ty} {m : MTy} {n : Nat} (h : KeptDims t n) (hl : Loose t)
    (hm : lowerSignalType t = some m) : ∃ e, m = .uarray n e := by
  cases h with
  | stop h => exact (h hl).elim
  | array h =>
    rw [lowerSignalType, lowerSignalBoth, lowerSignalSub, keptDims h] at hm
    dsimp only at hm
    split at hm
    · exact ⟨_, (Option.some.inj hm).symm⟩
    · obtain ⟨e, _, hm⟩ := bind_some hm
      rw [if_neg (by simp)] at hm
      exact ⟨e, (Option.some.inj hm).symm⟩
  | sub _ h =>
    rw [lowerSignalType, lowerSignalBoth, lowerSignalSub, keptDims h, constant_false hl] at hm
    dsimp only at hm
    split at hm
    · exact ⟨_, (Option.some.inj hm).symm⟩
    · obtain ⟨e, _, hm⟩ := bind_some hm
      rw [if_neg (by simp)] at hm
      exact ⟨e, (Option.some.inj hm).symm⟩

theorem layoutFields_placed {fs : List Ty} : ∀ {off : Nat} {acc : List LPart} {l : Lay},
    (∀ f ∈ fs, ∀ fl, layoutOf f = some fl → 0 < fl.align) → layoutFields off acc fs = some l →
    off ≤ l.size ∧ ∃ ps, l.parts = acc ++ ps ∧ ps.length = fs.length ∧
      WellPlaced off l.size (ps.map fun p => ⟨p.offset, p.size, p.align⟩) := by
  induction fs with
  | nil =>
    intro off acc l _ h
    rw [layoutFields] at h
    cases Option.some.inj h
    exact ⟨Nat.le_refl _, [], by simp, rfl, WellPlaced.nil _ _⟩
  | cons f fs ih =>
    intro off acc l ha h
    rw [layoutFields] at h
    obtain ⟨fl, hfl, h⟩ := bind_some h
    obtain ⟨next, hnext, h⟩ := bind_some h
    have hpos := ha f (by simp) fl hfl
    cases fitNat_eq hnext
    obtain ⟨h1, ps, h2, h3, h4⟩ := ih (fun g hg => ha g (by simp [hg])) h
    have h5 := le_alignUp off hpos
    refine ⟨by omega, ⟨alignUp off fl.align, fl.size, 1, fl.align, .data⟩ :: ps, ?_, by simp [h3], ?_⟩
    · rw [h2, List.append_assoc]; rfl
    · exact WellPlaced.cons (alignUp_dvd _ hpos) h5 (Nat.le_refl _) h1 h4

/-- The fields of a record are placed one after the other by the library too,
each aligned and inside the record, if no field is of a type with an empty
range (whose alignment would be zero). -/
theorem layout_record_placed {fs : List Ty} {l : Lay}
    (ha : ∀ f ∈ fs, ∀ fl, layoutOf f = some fl → 0 < fl.align)
    (h : layoutOf (.record fs) = some l) :
    l.parts.length = fs.length ∧
      WellPlaced 0 l.size (l.parts.map fun p => ⟨p.offset, p.size, p.align⟩) := by
  rw [layoutOf, layoutBoth] at h
  obtain ⟨_, ps, h1, h2, h3⟩ := layoutFields_placed ha h
  rw [h1, List.nil_append]
  exact ⟨h2, h3⟩

/-! ### Constants -/

/-- A constant is appended behind the others at an aligned place. -/
theorem append_placed {ptr sz align : Nat} (ha : 0 < align) :
    align ∣ (appendPool ptr sz align).1 ∧ ptr ≤ (appendPool ptr sz align).1 ∧
      (appendPool ptr sz align).1 + sz = (appendPool ptr sz align).2 :=
  ⟨alignUp_dvd _ ha, le_alignUp _ ha, rfl⟩

theorem memmem_found {needle : List Nat} : ∀ {hay : List Nat} {k : Nat},
    memmem needle hay = some k → (hay.drop k).take needle.length = needle := by
  intro hay
  induction hay with
  | nil =>
    intro k h
    rw [memmem] at h
    split at h
    · next hn => rw [hn]; rfl
    · exact absurd h (by simp)
  | cons b bs ih =>
    intro k h
    rw [memmem] at h
    split at h
    · next hp =>
      cases Option.some.inj h
      rw [List.drop_zero]
      exact (List.prefix_iff_eq_take.1 (List.isPrefixOf_iff_prefix.1 hp)).symm
    · obtain ⟨j, hj, rfl⟩ := map_some h
      rw [List.drop_succ_cons]
      exact ih hj

/-- The bytes at the place that is used for a constant are the bytes of the
constant. -/
theorem dedup_same {prefix_ : Nat} {pool : List Nat} {old : Nat} :
    (pool.drop (dedupPool prefix_ pool old)).take (pool.length - old) = pool.drop old := by
  unfold dedupPool
  split
  · next dup h =>
    have h1 := memmem_found h
    rw [List.length_drop] at h1
    rw [List.drop_take, List.take_take] at h1
    have h2 : pool.length - old ≤ min old prefix_ - dup ∨
        min old prefix_ - dup < pool.length - old := by omega
    rcases h2 with h2 | h2
    · rw [Nat.min_eq_left h2] at h1
      exact h1
    · rw [Nat.min_eq_right (by omega)] at h1
      have h3 := congrArg List.length h1
      rw [List.length_take, List.length_drop, List.length_drop] at h3
      omega
  · exact List.take_of_length_le (by rw [List.length_drop]; exact Nat.le_refl _)

/-! ### Examples -/

example : bitsForRange (-1) 127 = 8 ∧ bitsForRange 0 128 = 8 ∧ bitsForRange (-1) 128 = 16 ∧
    (Rng.known 3 7).length? = some 5 := by decide

/-- `type rec is record a : integer; b : bit; c : real; end record` -/
def exampleRecord : Ty :=
  .record [.int (.known (-2147483648) 2147483647) (.known (-2147483648) 2147483647), .enum 2, .real]

/-- The layout of the example record. -/
def exampleLay : Lay := ⟨16, 8, [⟨0, 4, 1, 4, .data⟩, ⟨4, 1, 1, 1, .data⟩, ⟨8, 8, 1, 8, .data⟩]⟩

/-- The lowered type of the example record. -/
def exampleLow : MTy := .record [.int (-2147483648) 2147483647, .int 0 1, .real]

example : layoutOf exampleRecord = some exampleLay := by decide +kernel
example : lowerType exampleRecord = some exampleLow ∧ sizeOf exampleLow = some 16 :=
  ⟨rfl, by decide +kernel⟩

theorem exampleRecord_faithful : Faithful exampleRecord := by
  unfold exampleRecord
  simp only [Faithful, allFaithful]
  refine ⟨⟨_, _, rfl, by decide⟩, ?_, by decide, ?_, trivial, ?_, trivial⟩
  all_goals intro l h; exact absurd h (by simp [Ty.isRecord])

/-- The theorems apply to an array of two of the example records. -/
example : ∃ t l m s, t = Ty.sub [.known 1 2] exampleRecord ∧ Faithful t ∧ layoutOf t = some l ∧
    lowerType t = some m ∧ sizeOf m = some s ∧ s = 32 ∧ l.size = 32 := by
  refine ⟨_, ⟨32, 8, [⟨0, 16, 2, 8, .data⟩]⟩, .carray 2 exampleLow, 32, rfl, ?_,
    by decide +kernel, rfl, by decide +kernel, rfl, rfl⟩
  have hc : Constant (Ty.sub [.known 1 2] exampleRecord) :=
    (constant_iff _).mp (by decide +kernel)
  refine Or.inl ⟨hc, exampleRecord_faithful, ?_⟩
  intro l _ hl
  have h1 : layoutOf exampleRecord = some exampleLay := by decide +kernel
  have h2 : exampleRecord.elemRecur = exampleRecord := rfl
  rw [h2, h1] at hl
  cases Option.some.inj hl
  decide

/-- The third field of the second element is read at byte 24. -/
example : Leaf (.carray 2 exampleLow) [1, 2, 0] ⟨24, 8⟩ := by
  have h1 : Leaf .real [0] ⟨0, 8⟩ := Leaf.here (k := 0) rfl rfl
  have h2 : Leaf exampleLow [2, 0] ⟨8 + 0, 8⟩ := Leaf.field rfl (by decide +kernel) h1
  exact Leaf.elem (s := 16) (by decide) (by decide +kernel) h2

/-- The signals of the example record. -/
example : ∃ l m s, FaithfulSignal exampleRecord ∧ signalLayoutOf exampleRecord = some l ∧
    lowerSignalType exampleRecord = some m ∧ sizeOf m = some s ∧ s = 48 ∧
    l.parts.map (·.offset) = [0, 16, 32] := by
  refine ⟨⟨48, 8, [⟨0, 16, 1, 8, .data⟩, ⟨16, 16, 1, 8, .data⟩, ⟨32, 16, 1, 8, .data⟩]⟩,
    .record [.signal, .signal, .signal], 48, ?_, by decide +kernel, rfl, by decide +kernel, rfl, rfl⟩
  simp [exampleRecord, FaithfulSignal, allFaithfulSignal]

/-- An array of unknown length of bit strings of unknown length keeps the bounds
of both; the types are faithful when the elements are bits. -/
example : KeptDims (.array 1 (.sub [.unknown] (.enum 2))) 2 ∧ Loose (.array 1 (.sub [.unknown] (.enum 2))) ∧
    lowerType (.array 1 (.sub [.unknown] (.enum 2))) = some (.uarray 2 (.int 0 1)) ∧
    Faithful (.sub [.unknown] (.enum 2)) := by
  have h1 : ¬ Constant (.sub [.unknown] (.enum 2)) := fun h => by
    rw [← constant_iff] at h
    exact absurd h (by decide +kernel)
  exact ⟨.array (.sub h1 (.stop fun h => h)), fun h => h, rfl,
    Or.inr ⟨h1, fun h => h, Or.inr (Or.inl (by simp))⟩⟩

/-- A frame with a bit, an integer and a signal. -/
example : placeVars (frameHeader true) [.int 0 1, .int (-5) 70000, .signal] =
    some ([20, 24, 32], 44) := by decide +kernel

/-- The record may be used with `layout_record_placed`. -/
example : ∀ f ∈ [Ty.enum 2, Ty.real], ∀ fl, layoutOf f = some fl → 0 < fl.align := by
  intro f hf fl h
  simp at hf
  rcases hf with rfl | rfl
  · cases Option.some.inj h; decide
  · cases Option.some.inj h; decide

/-- A constant that occurs before is not stored again. -/
example : dedupPool 16384 [1, 0, 0, 0, 7, 0, 0, 0, 1, 0, 0, 0] 8 = 0 := by decide +kernel

end Verif.Jit.Layout
