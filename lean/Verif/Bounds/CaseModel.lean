/-!
# Coverage check of scalar case statements

Model of `/repo/src/bounds.c`, lines 420-510 and 999-1082.  Values are unbounded integers (in the
code `int64_t`; `thigh + 1` overflows only for a type that ends at the largest 64-bit number).
Only the decision whether an error is reported is modelled, not the texts; missing choices of a case
statement go through `pedantic_diag` (bounds.c 512-517), which an option may turn into a warning.
-/

namespace Verif.Bounds

/-- `interval_t`, bounds.c 34-38, without the link. -/
structure Interval where
  low : Int
  high : Int
  deriving DecidableEq, Repr

/-- `bounds_cover_choice`, bounds.c 420-474: new list and whether "already covered" was reported.
The branch for `high == it->low - 1` is kept although the loop condition excludes it. -/
def cover (low high : Int) : List Interval → List Interval × Bool
  | [] => ([⟨low, high⟩], false)
  | it :: rest =>
    if it.low ≤ high then
      if low ≤ it.high ∧ it.low ≤ high then
        (⟨min low it.low, max high it.high⟩ :: rest, true)
      else if high = it.low - 1 then (⟨low, it.high⟩ :: rest, false)
      else if low = it.high + 1 then (⟨it.low, high⟩ :: rest, false)
      else
        let r := cover low high rest
        (it :: r.1, r.2)
    else (⟨low, high⟩ :: it :: rest, false)

/-- The count of `bounds_check_missing_choices`, bounds.c 496-507, before it is reduced to 32
bits: gaps may be negative. -/
def gaps (walk thigh : Int) : List Interval → Int
  | [] => thigh + 1 - walk
  | it :: rest => (it.low - walk) + gaps (it.high + 1) thigh rest

/-- `missing == 0`, bounds.c 496-510: `missing` is an `int`. -/
def noneMissing (tlow thigh : Int) (covered : List Interval) : Bool :=
  gaps tlow thigh covered % 2 ^ 32 = 0

/-- State of the loop in `bounds_check_scalar_case`. -/
structure St where
  covered : List Interval
  others : Bool
  error : Bool

/-- One choice, bounds.c 1028-1073: a value is the range from itself to itself.
`bounds_check_index` (bounds.c 277-293) reports an error for a bound outside of the type. -/
def step (tlow thigh : Int) (s : St) (c : Int × Int) : St :=
  let bad := tlow ≤ thigh ∧ (¬ (tlow ≤ c.1 ∧ c.1 ≤ thigh) ∨ ¬ (tlow ≤ c.2 ∧ c.2 ≤ thigh))
  let others := s.others || bad
  let error := s.error || bad
  if others then ⟨s.covered, true, error⟩
  else
    let r := cover c.1 c.2 s.covered
    ⟨r.1, false, error || r.2⟩

/-- `bounds_check_scalar_case`, bounds.c 999-1082, without an `others` choice: true if no error is
reported. -/
def accepts (tlow thigh : Int) (choices : List (Int × Int)) : Bool :=
  let s := choices.foldl (step tlow thigh) ⟨[], false, false⟩
  !s.error && (s.others || noneMissing tlow thigh s.covered)

end Verif.Bounds
