/-!
# The driving value of a signal

Model of `/repo/src/rt/model.c`: `memo_resolution_fn` (1012-1079), `source_value` (1793-1824),
`call_resolution` (1826-1928), `get_pseudo_source` (1930-1943), `calculate_driving_value` (1956-2049),
`force_signal` (3444-3473), `release_signal` (3475-3498), `deposit_signal` (3500-3527) and the part of
`clone_source` (1480-1551) that concerns which sources are connected.

A value is the list of its elements; how they are stored is in `NexusModel`.  The value of a port is
the value of the signal at its other end.

Simplifications: resolution functions of composite types and conversion functions are not modelled;
the elements of a memoised table are not truncated to `int8_t`.
-/

namespace Verif.Sim.Driving

/-- `source_kind_t`, rt/structs.h 114-120. -/
inductive Kind where
  | driver | port | forcing | deposit | implicit
  deriving DecidableEq, Repr

/-- `rt_source_t`, rt/structs.h 157-171. -/
structure Source where
  kind : Kind
  disconnected : Bool
  val : List Nat
  deriving DecidableEq, Repr

/-- `res_memo_t`, rt/structs.h 175-180, with the function, which may fail. -/
structure Memo where
  fn : List Nat → Option Nat
  tab1 : List Nat
  tab2 : List (List Nat)
  memo : Bool
  ident : Bool

/-- The parts of `rt_nexus_t` and its signal that matter here. -/
structure Net where
  width : Nat
  register : Bool
  res : Option Memo
  initial : List Nat
  effective : List Nat
  sources : List Source

/-- A new driving value, an update of an implicit signal, a stop of the simulation because a
resolution function failed, or a fault of the simulator (null pointer, index out of range). -/
inductive Out where
  | value (v : List Nat)
  | implicit
  | stop
  | fault
  deriving DecidableEq, Repr

/-- `is_pseudo_source`, rt/model.c 1161-1165. -/
def isPseudo : Kind → Bool
  | .forcing | .deposit | .implicit => true
  | _ => false

/-- `memo_resolution_fn`, rt/model.c 1012-1079.  Entries for which the call fails stay 0; then
`model_exit_status` is not 0. -/
def buildMemo (fn : List Nat → Option Nat) (nlits : Nat) : Memo :=
  if nlits = 0 ∨ nlits > 16 then { fn := fn, tab1 := [], tab2 := [], memo := false, ident := false }
  else
    let ok := (List.range nlits).all (fun i => (List.range nlits).all (fun j => (fn [i, j]).isSome))
      && (List.range nlits).all (fun i => (fn [i]).isSome)
    { fn := fn
      tab1 := (List.range nlits).map (fun i => (fn [i]).getD 0)
      tab2 := (List.range nlits).map (fun i => (List.range nlits).map (fun j => (fn [i, j]).getD 0))
      memo := ok
      ident := ok && (List.range nlits).all (fun i => (fn [i]).getD 0 == i) }

/-- `source_value`, rt/model.c 1793-1824; `none` is NULL. -/
def sourceValue (s : Source) : Option (List Nat) :=
  match s.kind with
  | .driver => if s.disconnected then none else some s.val
  | .port => some s.val
  | .forcing | .deposit | .implicit => none

/-- rt/model.c 1858-1862: the value of the first later source that has one. -/
def nextValue : List Source → Option (List Nat)
  | [] => none
  | s :: l => match sourceValue s with
    | some v => some v
    | none => nextValue l

/-- One element through the table of one value, rt/model.c 1842-1845. -/
def look1 (r : Memo) (v : List Nat) (j : Nat) : Option Nat := v[j]?.bind (fun i => r.tab1[i]?)

/-- One element through the table of two values, rt/model.c 1864-1865. -/
def look2 (r : Memo) (v w : List Nat) (j : Nat) : Option Nat :=
  v[j]?.bind (fun i => w[j]?.bind (fun k => (r.tab2[i]?).bind (fun row => row[k]?)))

/-- The values of the `j`th element, rt/model.c 1908-1912; `none` if a value is too short. -/
def column (l : List Source) (j : Nat) : Option (List Nat) :=
  (l.filterMap sourceValue).mapM (fun v => v[j]?)

/-- rt/model.c 1904-1923: call the function for elements `j …`, `n` of them. -/
def callEach (fn : List Nat → Option Nat) (l : List Source) : Nat → Nat → Out
  | _, 0 => .value []
  | j, n + 1 =>
    match column l j with
    | none => .fault
    | some c =>
      match callEach fn l (j + 1) n with
      | .value vs => match fn c with
        | some x => .value (x :: vs)
        | none => .stop
      | o => o

/-- Elements, or a fault -/
def outOf (o : Option (List Nat)) : Out :=
  match o with
  | some v => .value v
  | none => .fault

/-- `call_resolution`, rt/model.c 1826-1928; `l` is the list of sources from `s0` on, empty if `s0`
is NULL. -/
def callResolution (n : Net) (r : Memo) (nonnull : Nat) (l : List Source) : Out :=
  if r.ident = true ∧ nonnull = 1 then
    outOf (l.head?.bind sourceValue)
  else if r.memo = true ∧ nonnull = 1 then
    match l.head?.bind sourceValue with
    | some v => outOf ((List.range n.width).mapM (look1 r v))
    | none => .fault
  else if r.memo = true ∧ nonnull = 2 then
    match l.head?.bind sourceValue, nextValue l.tail with
    | some v, some w => outOf ((List.range n.width).mapM (look2 r v w))
    | _, _ => .fault
  else callEach r.fn l 0 n.width

/-- What follows the loop of `calculate_driving_value`, rt/model.c 2002-2048; `l0` are the sources
from `s0` on, if `s0` is not NULL. -/
def finish (n : Net) (nonnull : Nat) (l0 : Option (List Source)) : Out :=
  match l0, n.res with
  | none, r =>
    if n.register then .value n.effective
    else match r with
      | none => .value n.initial
      | some r =>
        if (n.sources.head?.map (fun s => isPseudo s.kind)) = some true then .value n.initial
        else callResolution n r nonnull []
  | some [], none => .fault
  | some (s :: _), none => .value s.val
  | some l, some r => callResolution n r nonnull l

/-- The loop of `calculate_driving_value`, rt/model.c 1969-2000; `done` are the sources passed. -/
def scan (n : Net) (nonnull : Nat) (l0 : Option (List Source)) (done : List Source) :
    List Source → Out × List Source
  | [] => (finish n nonnull l0, done)
  | s :: rest =>
    if s.disconnected then scan n nonnull l0 (done ++ [s]) rest
    else match s.kind with
      | .forcing => (.value s.val, done ++ s :: rest)
      | .deposit => (.value s.val, done ++ { s with disconnected := true } :: rest)
      | .implicit => (.implicit, done ++ s :: rest)
      | .driver | .port =>
        scan n (nonnull + 1) (if l0.isNone then some (s :: rest) else l0) (done ++ [s]) rest

/-- `calculate_driving_value`, rt/model.c 1956-2049; also gives the sources afterwards. -/
def drive (n : Net) : Out × List Source :=
  if n.sources = [] then (.value n.initial, []) else scan n 0 none [] n.sources

/-- `get_pseudo_source`, rt/model.c 1930-1943, with a change to the source. -/
def onPseudo (k : Kind) (f : Source → Source) : List Source → List Source
  | [] => [f { kind := k, disconnected := false, val := [] }]
  | s :: l => if s.kind = k then f s :: l else s :: onPseudo k f l

/-- `force_signal`, rt/model.c 3444-3473, for one nexus. -/
def force (v : List Nat) (n : Net) : Net :=
  { n with sources := onPseudo .forcing (fun s => { s with val := v, disconnected := false }) n.sources }

/-- `release_signal`, rt/model.c 3475-3498, for one nexus. -/
def release (n : Net) : Net :=
  { n with sources := onPseudo .forcing (fun s => { s with disconnected := true }) n.sources }

/-- `deposit_signal`, rt/model.c 3500-3527, for one nexus. -/
def deposit (v : List Nat) (n : Net) : Net :=
  { n with sources := onPseudo .deposit (fun s => { s with val := v, disconnected := false }) n.sources }

/-- The sources of the new nexus, `clone_source`, rt/model.c 1480-1551, with `add_source`, rt/model.c
1225-1281, which makes the new source connected. -/
def cloneSources (k : Nat) (l : List Source) : List Source :=
  l.map (fun s => { kind := s.kind, disconnected := false, val := s.val.drop k })

/-- The old nexus after a split at element `k` -/
def lower (k : Nat) (n : Net) : Net :=
  { n with
    width := k, initial := n.initial.take k, effective := n.effective.take k
    sources := n.sources.map (fun s => { s with val := s.val.take k }) }

/-- The new nexus after a split at element `k` -/
def upper (k : Nat) (n : Net) : Net :=
  { n with
    width := n.width - k, initial := n.initial.drop k, effective := n.effective.drop k
    sources := cloneSources k n.sources }

end Verif.Sim.Driving
