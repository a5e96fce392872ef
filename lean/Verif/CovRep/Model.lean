import Verif.CovRep.Spec

/-
Model of the numbers of the coverage report, src/cov/cov-report.c:1020-1290.

Simplifications: one kind of items, so one chain and one pair of counters;
`unreachable` is the answer of `cover_bin_unreachable`; lines and the counts of
consecutive items in the chains are left out.
-/

namespace Verif.CovRep

open Spec

/-- The counters and the lists of a chain. -/
structure St where
  total : Nat
  hit : Nat
  skipped : Nat
  hits : List Item
  miss : List Item
  excl : List Item
  deriving DecidableEq

def St.empty : St := ⟨0, 0, 0, [], [], []⟩

/-- One item in `cover_append_item_to_chain`, src/cov/cov-report.c:1133-1171;
the second part says whether the limit was reached, and then the item after it
is passed over by lines 1143, 1156 and 1165 together with the `for`. -/
def one (lim : Nat) (s : St) (i : Item) : St × Bool :=
  if i.data ≥ i.atleast ∧ i.atleast > 0 then
    if s.hits.length > lim then
      ({ s with total := s.total + 1, hit := s.hit + 1, skipped := s.skipped + 1 }, true)
    else ({ s with total := s.total + 1, hit := s.hit + 1, hits := s.hits ++ [i] }, false)
  else if i.excluded || i.unreachable then
    if s.excl.length > lim then
      ({ s with total := s.total + 1, hit := s.hit + 1, skipped := s.skipped + 1 }, true)
    else ({ s with total := s.total + 1, hit := s.hit + 1, excl := s.excl ++ [i] }, false)
  else
    if s.miss.length > lim then
      ({ s with total := s.total + 1, skipped := s.skipped + 1 }, true)
    else ({ s with total := s.total + 1, miss := s.miss ++ [i] }, false)

/-- The loop over the items of a construct, src/cov/cov-report.c:1133-1172;
`pass` says that the next item is passed over. -/
def group (lim : Nat) (s : St) (pass : Bool) : List Item → St
  | [] => s
  | i :: r => if pass then group lim s false r else group lim (one lim s i).1 (one lim s i).2 r

/-- The loop over the constructs of a scope, src/cov/cov-report.c:1185-1216. -/
def report (lim : Nat) (gs : List (List Item)) : St :=
  gs.foldl (fun s g => group lim s false g) St.empty

/-- `cover_stats_t`: hits and totals of statements, branches, toggles,
expressions, states and functional coverage. -/
structure Stats where
  stmt : Nat × Nat
  branch : Nat × Nat
  toggle : Nat × Nat
  expr : Nat × Nat
  state : Nat × Nat
  functional : Nat × Nat

/-- The average, src/cov/cov-report.c:1236-1241. -/
def average (s : Stats) : Nat × Nat :=
  (s.stmt.1 + s.branch.1 + s.toggle.1 + s.expr.1 + s.state.1 + s.functional.2,
   s.stmt.2 + s.branch.2 + s.toggle.2 + s.expr.2 + s.state.2 + s.functional.2)

/-- `cover_print_char`, src/cov/cov-report.c:389-400. -/
def printChar (c : Nat) : List Nat :=
  if c = 10 ∨ c = 32 then [38, 110, 98, 115, 112, 59]
  else if c = 60 then [38, 108, 116, 59]
  else if c = 62 then [38, 103, 116, 59]
  else if c = 38 then [38, 97, 109, 112, 59]
  else [c]

end Verif.CovRep
