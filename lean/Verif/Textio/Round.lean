import Verif.Textio.Digits
import Verif.Textio.Times

/-
Property C92, fifth part: values written to a line, with a text after them, and read.
-/

namespace Verif.Textio

open Spec

/-- `write` to a new line, then `write` of a text. -/
theorem write_then (s rest : List Char) (left : Bool) (w : Nat) :
    (write none s left w).bind (fun l => write l rest false 0) =
      some (some (field s left w ++ rest)) := by
  rw [write_correct, Option.bind_some, write_correct]
  simp [field]

/-- **C92**: bits. -/
theorem bit_round_trip (b left : Bool) (w : Nat) (rest : List Char) : ∃ l r,
    (writeBit none b left w).bind (fun l => write l rest false 0) = some l ∧
    readBit l = .done true (some b) (some (r ++ rest)) ∧ ∀ c ∈ r, White c := by
  obtain ⟨r, h1, h2⟩ := write_read_bit b left w rest
  exact ⟨_, r, write_then _ _ _ _, h1, h2⟩

/-- **C92**: bit vectors. -/
theorem bits_round_trip (bs : List Bool) (left : Bool) (w : Nat) (rest : List Char) (h : bs ≠ []) :
    ∃ l r, (writeBits none bs left w).bind (fun l => write l rest false 0) = some l ∧
    readBits bs.length l = .done true (some bs) (some (r ++ rest)) ∧ ∀ c ∈ r, White c := by
  obtain ⟨r, h1, h2⟩ := write_read_bits bs left w rest h
  exact ⟨_, r, write_then _ _ _ _, h1, h2⟩

/-- **C92**: booleans. -/
theorem bool_round_trip (b left : Bool) (w : Nat) (rest : List Char) : ∃ l r,
    (writeBool none b left w).bind (fun l => write l rest false 0) = some l ∧
    readBool l = .done true (some b) (some (r ++ rest)) ∧ ∀ c ∈ r, White c := by
  obtain ⟨r, h1, h2⟩ := write_read_bool b left w rest
  exact ⟨_, r, write_then _ _ _ _, h1, h2⟩

/-- **C92**: integers, if no digit follows. -/
theorem int_round_trip (v : Int) (hv : IsInt v) (left : Bool) (w : Nat) (rest : List Char)
    (hr : NoDig rest) : ∃ l r,
    (writeInt none v left w).bind (fun l => write l rest false 0) = some l ∧
    readInt l = .done true (some v) (some (r ++ rest)) ∧ ∀ c ∈ r, White c := by
  obtain ⟨r, h1, h2⟩ := write_read_int v hv left w rest hr
  exact ⟨_, r, write_then _ _ _ _, h1, h2⟩

/-- **C92**: strings, without a field. -/
theorem str_round_trip (s rest : List Char) (left : Bool) : ∃ l,
    (write none s left 0).bind (fun l => write l rest false 0) = some l ∧
    readStr s.length l = .done true (some s) (some rest) := by
  refine ⟨_, write_then _ _ _ _, ?_⟩
  rw [read_str_iff]
  exact ⟨rfl, rest, by cases left <;> simp [field], rfl⟩

/-- Two integers written one after the other are read as one. -/
theorem int_join_counterexample :
    (writeInt none 1 false 0).bind (fun l => writeInt l 2 false 0) = some (some ['1', '2']) ∧
    readInt (some ['1', '2']) = .done true (some 12) (some []) := by
  refine ⟨?_, by decide⟩
  have h1 : intText 1 = ['1'] := by simp [intText, natText]
  have h2 : intText 2 = ['2'] := by simp [intText, natText]
  rw [writeInt, h1, write_correct, Option.bind_some, writeInt, h2, write_correct]
  rfl

example : ∃ l r, (writeInt none (-25) true 5).bind (fun l => write l ['x'] false 0) = some l ∧
    readInt l = .done true (some (-25)) (some (r ++ ['x'])) ∧ ∀ c ∈ r, White c :=
  int_round_trip (-25) (by decide) true 5 ['x'] (fun c r e => by cases e; decide)

end Verif.Textio
