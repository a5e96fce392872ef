import Verif.Jit.LayoutProps

/-
C67: types for which the library and the generated code disagree.
-/

namespace Verif.Jit.Layout

/-- `type pair is record a : real; b : bit; end record` -/
def pairTy : Ty := .record [.real, .enum 2]

/-- A record inside a record: the generated code rounds the size of the inner
record up to eight (src/jit/jit-irgen.c 840), the library does not
(src/jit/jit-layout.c 170).  The library looks for the field behind it inside
the unused bytes, at byte 9 instead of 16. -/
theorem nested_record_counterexample :
    ∃ l m ms p, layoutOf (.record [pairTy, .enum 2]) = some l ∧
      lowerType (.record [pairTy, .enum 2]) = some m ∧ m = .record ms ∧
      l.parts[1]? = some p ∧ p.offset = 9 ∧ recordRef 0 ms 1 = some 16 :=
  ⟨⟨10, 8, [⟨0, 9, 1, 8, .data⟩, ⟨9, 1, 1, 1, .data⟩]⟩,
    .record [.record [.real, .int 0 1], .int 0 1], [.record [.real, .int 0 1], .int 0 1],
    ⟨9, 1, 1, 1, .data⟩, by decide +kernel, rfl, rfl, rfl, rfl, by decide +kernel⟩

/-- An array of records: the elements are 16 bytes apart in the generated code
and 9 bytes apart for the library, where all but the first are misaligned. -/
theorem array_of_records_counterexample :
    ∃ l m e p, layoutOf (.sub [.known 1 2] pairTy) = some l ∧
      lowerType (.sub [.known 1 2] pairTy) = some m ∧ m = .carray 2 e ∧ l.parts = [p] ∧
      p.size = 9 ∧ p.align = 8 ∧ sizeOf e = some 16 ∧ l.size = 18 ∧ sizeOf m = some 32 :=
  ⟨⟨18, 8, [⟨0, 9, 2, 8, .data⟩]⟩, .carray 2 (.record [.real, .int 0 1]),
    .record [.real, .int 0 1], ⟨0, 9, 2, 8, .data⟩, by decide +kernel, rfl, rfl, rfl, rfl, rfl,
    by decide +kernel, rfl, by decide +kernel⟩

/-- A field of a type with an empty range has alignment zero, for which
`ALIGN_UP` gives zero: the fields overlap. -/
theorem null_range_counterexample :
    ∃ l, layoutOf (.record [.real, .int (.known 1 0) (.known 1 0), .real]) = some l ∧
      l.parts.map (·.offset) = [0, 0, 0] ∧ l.size = 8 :=
  ⟨⟨8, 8, [⟨0, 8, 1, 8, .data⟩, ⟨0, 0, 1, 0, .data⟩, ⟨0, 8, 1, 8, .data⟩]⟩,
    by decide +kernel, rfl, rfl⟩

/-- An unconstrained array of unconstrained arrays has the bounds of both in
the generated code (src/lower.c 268-279); the library counts the outer ones
only, and looks for the next field too early. -/
theorem nested_unconstrained_counterexample :
    ∃ l m ms p, layoutOf (.record [.array 1 (.array 1 (.enum 2)), .real]) = some l ∧
      lowerType (.record [.array 1 (.array 1 (.enum 2)), .real]) = some m ∧ m = .record ms ∧
      l.parts[1]? = some p ∧ p.offset = 24 ∧ recordRef 0 ms 1 = some 40 :=
  ⟨⟨32, 8, [⟨0, 24, 1, 8, .data⟩, ⟨24, 8, 1, 8, .data⟩]⟩,
    .record [.uarray 2 (.int 0 1), .real], [.uarray 2 (.int 0 1), .real],
    ⟨24, 8, 1, 8, .data⟩, by decide +kernel, rfl, rfl, rfl, rfl, by decide +kernel⟩

/-- An array of three elements whose type is an integer subtype with bounds
that are not known: the code generator does not take the array for one with
constant bounds and uses a pointer, the library looks for the elements in
place. -/
theorem dynamic_element_counterexample :
    ∃ l m, layoutOf (.sub [.known 1 3] (.int (.known (-2147483648) 2147483647) .unknown)) = some l ∧
      lowerType (.sub [.known 1 3] (.int (.known (-2147483648) 2147483647) .unknown)) = some m ∧
      l.parts = [⟨0, 4, 3, 4, .data⟩] ∧ l.size = 12 ∧
      m = .uarray 1 (.int (-2147483648) 2147483647) ∧ sizeOf m = some 24 :=
  ⟨⟨12, 4, [⟨0, 4, 3, 4, .data⟩]⟩, .uarray 1 (.int (-2147483648) 2147483647),
    by decide +kernel, rfl, rfl, rfl, rfl, by decide +kernel⟩

/-- An empty array of arrays whose length is not known: minus one times zero is
zero, so that the library takes the array for one of known length. -/
theorem empty_of_dynamic_counterexample :
    ∃ l m, layoutOf (.sub [.known 1 0] (.sub [.unknown] (.enum 2))) = some l ∧
      lowerType (.sub [.known 1 0] (.sub [.unknown] (.enum 2))) = some m ∧
      l.size = 0 ∧ sizeOf m = some 40 :=
  ⟨⟨0, 1, [⟨0, 1, 0, 1, .data⟩]⟩, .uarray 2 (.int 0 1), by decide +kernel, rfl, rfl,
    by decide +kernel⟩

/-- A record with a field of an access type is lowered, but the library has no
layout for it: it stops the program (src/jit/jit-layout.c 175). -/
theorem access_field_counterexample :
    ∃ m, lowerType (.record [.access]) = some m ∧ sizeOf m = some 8 ∧
      layoutOf (.record [.access]) = none :=
  ⟨.record [.access], rfl, by decide +kernel, rfl⟩

/-- The signals of a constrained array of records are in place in the generated
code (src/lower.c 726-727); the library expects a pointer to them
(src/jit/jit-layout.c 247-253).  The field behind such an array is looked for
at byte 8 instead of 32. -/
theorem signal_array_of_records_counterexample :
    ∃ l m ms p, signalLayoutOf (.record [.sub [.known 1 2] (.record [.enum 2]), .enum 2]) = some l ∧
      lowerSignalType (.record [.sub [.known 1 2] (.record [.enum 2]), .enum 2]) = some m ∧
      m = .record ms ∧ l.parts[1]? = some p ∧ p.offset = 8 ∧ recordRef 0 ms 1 = some 32 :=
  ⟨⟨24, 8, [⟨0, 8, 1, 8, .data⟩, ⟨8, 16, 1, 8, .data⟩]⟩,
    .record [.carray 2 (.record [.signal]), .signal], [.carray 2 (.record [.signal]), .signal],
    ⟨8, 16, 1, 8, .data⟩, by decide +kernel, rfl, rfl, rfl, rfl, by decide +kernel⟩

/-- A constant of four bytes that is appended at an aligned place may be found
again at a place that is not aligned. -/
theorem dedup_align_counterexample :
    ∃ pool old, 4 ∣ old ∧ pool.length = old + 4 ∧ ¬ 4 ∣ dedupPool 16384 pool old :=
  ⟨[9, 1, 0, 0, 0, 0, 0, 0, 1, 0, 0, 0], 8, by decide, rfl, by decide +kernel⟩

end Verif.Jit.Layout
