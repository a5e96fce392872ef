import Verif.CovEx.Spec

/-
Model of exclusions from coverage, src/cov/cov-exclude.c.

Simplifications: the items of all scopes are one list in the order of the
walk; matching with patterns is a parameter (`ident_glob`, C20); counts are
not negative (toggles marked as unreachable are left out); messages are not
kept, but errors are.
-/

namespace Verif.CovEx

open Spec

/-- Comments and newlines, src/cov/cov-exclude.c:101-104. -/
def stripComment (line : Text) : Text :=
  line.takeWhile fun c => c != 0 && c != 35 && c != 10

/-- The tokens that `strtok` finds with a space as delimiter; `cur` is the
token begun. -/
def tokens : Text → Text → List Text
  | cur, [] => if cur.isEmpty then [] else [cur]
  | cur, c :: r =>
    if c = 32 then (if cur.isEmpty then tokens [] r else cur :: tokens [] r)
    else tokens (cur ++ [c]) r

/-- `toupper_iso88591`, src/util.c:1141-1149. -/
def upper (c : Nat) : Nat :=
  if 97 ≤ c ∧ c ≤ 122 then c - 32
  else if (0xe0 ≤ c ∧ c ≤ 0xf6) ∨ (0xf8 ≤ c ∧ c ≤ 0xfe) then c - 32
  else c

inductive Err where
  | noHier | noTarget | noSource | invalid (tok : Text)
  deriving DecidableEq

/-- "exclude" -/
def wExclude : Text := [101, 120, 99, 108, 117, 100, 101]

/-- "fold" -/
def wFold : Text := [102, 111, 108, 100]

/-- The loop over the tokens of a line, src/cov/cov-exclude.c:109-167: at its
end a token is taken by line 165 and thrown away by the `for`.  The number
bounds the number of rounds. -/
def parseToks : Nat → List Text → List Cmd × List Err
  | 0, _ => ([], [])
  | _, [] => ([], [])
  | n + 1, t :: ts =>
    if t = wExclude then
      match ts with
      | [] => ([], [.noHier])
      | h :: r => let q := parseToks n (r.drop 1); (.exclude (h.map upper) :: q.1, q.2)
    else if t = wFold then
      match ts with
      | [] => ([], [.noTarget])
      | [_] => ([], [.noSource])
      | a :: b :: r =>
        let q := parseToks n (r.drop 1)
        (.fold (a.map upper) (b.map upper) :: q.1, q.2)
    else let q := parseToks n (ts.drop 1); (q.1, .invalid t :: q.2)

/-- A line of the exclude file, src/cov/cov-exclude.c:99-169. -/
def parseLine (line : Text) : List Cmd × List Err :=
  let ts := tokens [] (stripComment line)
  parseToks ts.length ts

/-- A coverage item, as far as it is used here. -/
structure Item where
  hier : Text
  flags : Nat
  data : Nat
  atleast : Nat
  excluded : Bool
  deriving DecidableEq

/-- One item and one command in `cover_exclude_scope`,
src/cov/cov-exclude.c:52-68. -/
def excludeOne (glob : Text → Text → Bool) (i : Item) (pat : Text) : Item :=
  if glob i.hier pat then
    if i.data ≥ i.atleast then i else { i with excluded := true }
  else i

/-- `cover_exclude_scope`, src/cov/cov-exclude.c:45-75, for all items. -/
def exclude (glob : Text → Text → Bool) (pats : List Text) (items : List Item) : List Item :=
  items.map fun i => pats.foldl (excludeOne glob) i

/-- The patterns that are not found, src/cov/cov-exclude.c:183-186. -/
def notFound (glob : Text → Text → Bool) (pats : List Text) (items : List Item) : List Text :=
  pats.filter fun p => !(items.any fun i => glob i.hier p)

/-- `saturate_add` of counts. -/
def satAdd (a b : Nat) : Nat := if a + b ≤ 2 ^ 31 - 1 then a + b else 2 ^ 31 - 1

/-- The name after the prefix, `none` if there is nothing,
src/cov/cov-exclude.c:203-208. -/
def suffix (n : Nat) (h : Text) : Option Text := if h.length > n then some (h.drop n) else none

/-- Whether a source is folded into a target, src/cov/cov-exclude.c:210; the
flag for exclusion is one of the flags. -/
def same (tn sn : Nat) (t s : Item) : Bool :=
  suffix tn t.hier == suffix sn s.hier && t.flags == s.flags && t.excluded == s.excluded

/-- The inner loop, src/cov/cov-exclude.c:196-215: the first that fits. -/
def foldOne (tn sn : Nat) (s : Item) : List Item → List Item
  | [] => []
  | t :: ts =>
    if same tn sn t s then { t with data := satAdd t.data s.data } :: ts
    else t :: foldOne tn sn s ts

/-- The loop over the items of the source, src/cov/cov-exclude.c:193-216. -/
def foldItems (tn sn : Nat) (tgt src : List Item) : List Item :=
  src.foldl (fun ts s => foldOne tn sn s ts) tgt

/-! ## Pragmas -/

/-- INT_MAX -/
def intMax : Int := 2147483647

/-- The loop of `cover_ignore_from_pragmas`, src/cov/cov-exclude.c:404-425:
off is `true`; ranges, the last one first, and the state. -/
def pragmaStep (s : List (Int × Int) × Bool) (p : Bool × Int) : List (Int × Int) × Bool :=
  if p.1 && s.2 then ((p.2, intMax) :: s.1, false)
  else if !p.1 && !s.2 then
    match s.1 with
    | [] => s
    | r :: rs => ((r.1, p.2) :: rs, true)
  else s

def ranges (ps : List (Bool × Int)) : List (Int × Int) := (ps.foldl pragmaStep ([], true)).1

/-- Whether an item at a line is not made, src/cov/cov-data.c:652-656. -/
def ignored (rs : List (Int × Int)) (line : Int) : Bool :=
  rs.any fun r => decide (r.1 < line) && decide (line ≤ r.2)

/-! ## The specification file -/

/-- The lists of a specification file. -/
structure SpecFile where
  blockExclude : List Text
  blockInclude : List Text
  hierExclude : List Text
  hierInclude : List Text

/-- `cover_should_emit_scope`, src/cov/cov-data.c:881-932; `block` is the name
of the entity or package if there is one. -/
def shouldEmit (glob : Text → Text → Bool) (spec : Option SpecFile) (block : Option Text)
    (hier : Text) : Bool :=
  match spec with
  | none => true
  | some s =>
    let byHier := if s.hierExclude.any (glob hier) then false else s.hierInclude.any (glob hier)
    match block with
    | none => byHier
    | some b =>
      if s.blockExclude.any (glob b) then false
      else if s.blockInclude.any (glob b) then true
      else byHier

end Verif.CovEx
