import Verif.Case.Spec
import Verif.Util.Model

/-
Model of the code that is generated for case statements: `lower_case_scalar`,
`lower_case_array` and `lower_case_generate_thunk` of src/lower.c, the encoding of choices in
src/common.c, the folding of case statements in src/simp.c, and the translation of the
multi-way branch in src/vcode.c, src/mir/mir-node.c, src/jit/jit-irgen.c and
src/jit/jit-interp.c.
-/
namespace Verif.Case

/-! ### Elements and encodings of choices -/

mutual
/-- `get_case_choice_char`, common.c 1560-1650; `none` is the result `~0`.  An array whose
length is not known (fatal error) and expressions of other kinds (fatal error) are left out;
`rebase_index` (1040-1046) is `offsetOf`. -/
def getChar : Arr → Nat → Option Nat
  | .str chars, d => chars[d]?
  | .agg left up as, d => getAssoc left up as 0 d
  | .ref v, d => getChar v d
  | .slice b off, d => getChar b (d + off)

/-- The loop over the associations of an aggregate, common.c 1574-1626, `pos` positional
elements being done.  There is no case for `A_RANGE`, which is skipped. -/
def getAssoc (left : Int) (up : Bool) : Assocs → Nat → Nat → Option Nat
  | .nil, _, _ => none
  | .named i x rest, pos, d =>
    if offsetOf left up i = (d : Int) then some x else getAssoc left up rest pos d
  | .pos x rest, pos, d => if pos = d then some x else getAssoc left up rest (pos + 1) d
  | .concat a len rest, pos, d =>
    if d < pos + len then getChar a (d - pos) else getAssoc left up rest (pos + len) d
  | .others x _, _, _ => some x
  | .sliced l r a rest, pos, d =>
    if offsetOf left up l ≤ (d : Int) ∧ (d : Int) ≤ offsetOf left up r then
      getChar a ((d : Int) - offsetOf left up l).toNat
    else getAssoc left up rest pos d
  | .range _ _ _ rest, pos, d => getAssoc left up rest pos d
end

/-- The `unsigned` that `get_case_choice_char` returns, as an addend of type `uint64_t`. -/
def charWord (c : Option Nat) : BitVec 64 := BitVec.ofNat 64 (c.getD (2 ^ 32 - 1))

/-- One round of the loop of `encode_case_choice`, common.c 1660-1669. -/
def encStep (bits : Nat) (enc : BitVec 64) (c : Option Nat) : BitVec 64 :=
  if bits > 0 then (enc <<< bits) ||| charWord c
  else enc * 0x27d4eb2d#64 + charWord c

/-- `encode_case_choice`, common.c 1657-1672, for the characters of the choice. -/
def encodeChoice (bits : Nat) (cs : List (Option Nat)) : BitVec 64 := cs.foldl (encStep bits) 0#64

/-- The elements of a choice as `encode_case_choice` asks for them. -/
def chars (a : Arr) (length : Nat) : List (Option Nat) := (List.range length).map (getChar a)

/-- `max_cases`, lower.c 6919. -/
def maxCases : Int := 256

/-- The number that is the case label of a choice, lower.c 7028-7030: `int64_t` arithmetic,
`%` rounds towards zero. -/
def choiceEnc (exact : Bool) (nbits : Nat) (cs : List (Option Nat)) : Int :=
  if exact then (encodeChoice nbits cs).toInt else (encodeChoice 0 cs).toInt.tmod maxCases

/-- One element of the encoding that is computed when the statement is executed, lower.c
6938-6939 and 6962-6966: 64-bit arithmetic that wraps, the element is zero-extended. -/
def valueStep (exact : Bool) (nbits : Nat) (enc : BitVec 64) (x : Nat) : BitVec 64 :=
  if exact then enc * (1#64 <<< nbits) + BitVec.ofNat 64 x
  else enc * 0x27d4eb2d#64 + BitVec.ofNat 64 x

/-- The encoding of the value of the expression, lower.c 6928-6985.  Simplified: the loop that
is generated for more than four elements is a fold over the elements. -/
def valueEnc (exact : Bool) (nbits : Nat) (xs : List Nat) : Int :=
  let e := xs.foldl (valueStep exact nbits) 0#64
  if exact then e.toInt else e.toInt.tmod maxCases

/-- `exact_map`, lower.c 6914-6915, for an element type with `nlits` literals. -/
def exactMap (nbits length : Nat) : Bool := decide (length * nbits ≤ 64)

/-! ### Blocks of code -/

/-- What is seen of the execution: the statements of alternative `alt` are executed, the
coverage counter of a choice is incremented. -/
inductive Ev where
  | run (alt : Nat)
  | cover (alt choice : Nat)
  deriving DecidableEq, Repr

/-- The conditions that are computed: the value is in a range, the value is equal to an
array, the value is equal to a scalar. -/
inductive Test where
  | within (lo hi : Int)
  | equal (xs : List Nat)
  | same (v : Int)
  deriving DecidableEq, Repr

/-- The last operation of a block. -/
inductive Term where
  | jump (target : Nat)
  | cond (test : Test) (btrue bfalse : Nat)
  | switch (default : Nat) (cases : List (Int × Nat))
  | leave
  deriving DecidableEq, Repr

structure Blk where
  evs : List Ev := []
  term : Option Term := none

/-- The unit under construction: its blocks, how many there are, the active block, and whether
the assertion of `vcode_add_op` (vcode.c 268-271: nothing is added to a finished block) held
so far. -/
structure St where
  blk : Nat → Blk := fun _ => {}
  next : Nat := 0
  cur : Nat := 0
  ok : Bool := true

def St.setBlk (s : St) (b : Nat) (k : Blk) : St :=
  { s with blk := fun c => if c = b then k else s.blk c }

/-- `emit_block`, vcode.c 2974-2989: the number of the new block. -/
def emitBlock (s : St) : Nat × St := (s.next, { s with next := s.next + 1 })

/-- `vcode_select_block`. -/
def select (s : St) (b : Nat) : St := { s with cur := b }

/-- `vcode_block_finished`, vcode.c 930-945. -/
def finished (s : St) : Bool := (s.blk s.cur).term.isSome

/-- Adds an operation that can be seen to the active block. -/
def emitEv (s : St) (e : Ev) : St :=
  { s.setBlk s.cur { s.blk s.cur with evs := (s.blk s.cur).evs ++ [e] } with
    ok := s.ok && !finished s }

/-- Adds the last operation to the active block. -/
def emitTerm (s : St) (t : Term) : St :=
  { s.setBlk s.cur { s.blk s.cur with term := some t } with ok := s.ok && !finished s }

/-- What the lowering depends on: whether branch coverage is collected, and whether control
reaches the end of the statements of an alternative (they may end in `return` or `exit`). -/
structure Env where
  cover : Bool
  falls : Nat → Bool

/-- `lower_sequence` and the jump after it, e.g. lower.c 6779-6782.  Simplified: the statements
are one visible operation, and one that does not reach its end leaves the case statement. -/
def lowerBody (E : Env) (i exit : Nat) (s : St) : St :=
  emitTerm (emitEv s (.run i)) (if E.falls i then .jump exit else .leave)

/-- `lower_branch_coverage`, lower.c 1658-1679, for a choice: one item, the true block.
Simplified: an item is always made. -/
def branchCoverage (i j b : Nat) (s : St) : St := emitEv (select s b) (.cover i j)

/-- `branchCoverage` under `if (want_coverage)`. -/
def ifCover (E : Env) (i j b : Nat) (s : St) : St := if E.cover then branchCoverage i j b s else s

/-! ### Case statements over scalars -/

/-- The tests for one range choice, lower.c 6753-6785. -/
def lowerRange (E : Env) (exit i j : Nat) (lo hi : Int) (s : St) : St :=
  let (skip, s) := emitBlock s
  let (hit, s) := emitBlock s
  let s := emitTerm s (.cond (.within lo hi) hit skip)
  let s := ifCover E i j hit s
  let s := lowerBody E i exit (select s hit)
  select s skip

/-- The first loop over the choices of an alternative, lower.c 6750-6786, from choice `j`. -/
def rangesAlt (E : Env) (exit i : Nat) : Nat → List Choice → St → St
  | _, [], s => s
  | j, .range lo hi :: cs, s => rangesAlt E exit i (j + 1) cs (lowerRange E exit i j lo hi s)
  | j, _ :: cs, s => rangesAlt E exit i (j + 1) cs s

/-- The first loop over the alternatives, lower.c 6744-6787. -/
def rangesAlts (E : Env) (exit : Nat) : Nat → List (List Choice) → St → St
  | _, [], s => s
  | i, cs :: alts, s => rangesAlts E exit (i + 1) alts (rangesAlt E exit i 0 cs s)

/-- The variables of the second loop: `cases` and `blocks`, `def_bb`, `hit_bb`. -/
structure Loop where
  cases : List (Int × Nat) := []
  deflt : Option Nat := none
  hit : Option Nat := none

/-- `hit_bb`, lower.c 6809-6810. -/
def hitOf (l : Loop) (s : St) : Nat × St :=
  match l.hit with
  | some h => (h, s)
  | none => emitBlock s

/-- `hit_bb` and `cover_bb`, lower.c 6809-6815: the block of the statements, the block to go
to for the choice. -/
def hitBlocks (E : Env) (multi : Bool) (l : Loop) (s : St) : Nat × Nat × St :=
  let (h, s) := hitOf l s
  if E.cover && multi then
    let (c, s) := emitBlock s
    (h, c, s)
  else (h, h, s)

/-- Lower.c 6840-6843. -/
def joinHit (h c : Nat) (s : St) : St := if c = h then s else emitTerm (select s c) (.jump h)

/-- One choice in the second loop, lower.c 6801-6843; `start` is `start_bb`. -/
def choiceStep (E : Env) (start i j : Nat) (multi : Bool) (l : Loop) (s : St) : Choice → Loop × St
  | .range _ _ => (l, s)
  | .others =>
    let (h, c, s) := hitBlocks E multi l s
    let s := ifCover E i j c s
    ({ l with hit := some h, deflt := some c }, joinHit h c s)
  | .one v =>
    let (h, c, s) := hitBlocks E multi l s
    let s := select s start
    let s := ifCover E i j c s
    ({ l with hit := some h, cases := l.cases ++ [(v, c)] }, joinHit h c s)

/-- The second loop over the choices of an alternative, lower.c 6800-6844. -/
def choicesAlt (E : Env) (start i : Nat) (multi : Bool) :
    Nat → List Choice → Loop → St → Loop × St
  | _, [], l, s => (l, s)
  | j, c :: cs, l, s =>
    let (l, s) := choiceStep E start i j multi l s c
    choicesAlt E start i multi (j + 1) cs l s

/-- Lower.c 6846-6854. -/
def bodyAlt (E : Env) (exit i : Nat) (hit : Option Nat) (s : St) : St :=
  match hit with
  | none => s
  | some h => lowerBody E i exit (select s h)

/-- The second loop over the alternatives, lower.c 6795-6855. -/
def choicesAlts (E : Env) (start exit : Nat) :
    Nat → List (List Choice) → Loop → St → Loop × St
  | _, [], l, s => (l, s)
  | i, cs :: alts, l, s =>
    let (l, s) := choicesAlt E start i (decide (cs.length > 1)) 0 cs { l with hit := none } s
    choicesAlts E start exit (i + 1) alts l (bodyAlt E exit i l.hit s)

/-- Where a multi-way branch goes: the first label that is equal to the value. -/
def target (deflt : Nat) : List (Int × Nat) → Int → Nat
  | [], _ => deflt
  | (x, b) :: cs, v => if v = x then b else target deflt cs v

/-- `emit_case`, vcode.c 5350-5387, `known` being the value of the register if it is a
constant.  Simplified: labels are constants. -/
def emitCase (known : Option Int) (deflt : Nat) (cases : List (Int × Nat)) (s : St) : St :=
  match known with
  | some k => emitTerm s (.jump (target deflt cases k))
  | none => emitTerm s (.switch deflt cases)

/-- `lower_case_scalar`, lower.c 6732-6866.  The result is `exit_bb`, which is active then.
Simplified: comparisons with constants are not folded. -/
def lowerScalar (E : Env) (known : Option Int) (alts : List (List Choice)) (s : St) : Nat × St :=
  let (exit, s) := emitBlock s
  let s := rangesAlts E exit 0 alts s
  let start := s.cur
  let (l, s) := choicesAlts E start exit 0 alts {} s
  let s := emitCase known (l.deflt.getD exit) l.cases (select s start)
  (exit, select s exit)

/-! ### Case statements over arrays -/

/-- A choice of a case statement over an array: the value of the choice, which is what the
comparison uses, and its elements according to `get_case_choice_char`. -/
inductive Src where
  | one (xs : List Nat) (cs : List (Option Nat))
  | others

/-- What the lowering of an array depends on besides. -/
structure AEnv extends Env where
  exact : Bool
  nbits : Nat

/-- The block that is the target of the label `e`, if there is one, and the list with the
block replaced: lower.c 7036-7044. -/
def replaceBlock (e : Int) (b : Nat) : List (Int × Nat) → Option Nat × List (Int × Nat)
  | [] => (none, [])
  | (x, c) :: cs =>
    if x = e then (some c, (x, b) :: cs)
    else ((replaceBlock e b cs).1, (x, c) :: (replaceBlock e b cs).2)

/-- One choice, lower.c 7011-7078: `entry` is the first value of `hit_bb`. -/
def arrayStep (E : AEnv) (start exit fall i j : Nat) (l : Loop) (s : St) : Src → Loop × St
  | .others =>
    let (hit, s) := emitBlock s
    let s := ifCover E.toEnv i j hit s
    ({ l with deflt := some hit }, lowerBody E.toEnv i exit (select s hit))
  | .one xs cs =>
    let (entry, s) := emitBlock s
    let e := choiceEnc E.exact E.nbits cs
    if E.exact then
      let s := ifCover E.toEnv i j entry (select s start)
      ({ l with cases := l.cases ++ [(e, entry)] }, lowerBody E.toEnv i exit (select s entry))
    else
      let r := replaceBlock e entry l.cases
      let s := select s entry
      let (hit, s) := emitBlock s
      let s := emitTerm s (.cond (.equal xs) hit (r.1.getD fall))
      match r.1 with
      | some _ => ({ l with cases := r.2 }, lowerBody E.toEnv i exit (select s hit))
      | none =>
        let s := ifCover E.toEnv i j hit (select s start)
        ({ l with cases := l.cases ++ [(e, entry)] }, lowerBody E.toEnv i exit (select s hit))

/-- The loop over the choices of an alternative, lower.c 7010-7079. -/
def arrayAlt (E : AEnv) (start exit fall i : Nat) : Nat → List Src → Loop → St → Loop × St
  | _, [], l, s => (l, s)
  | j, c :: cs, l, s =>
    let (l, s) := arrayStep E start exit fall i j l s c
    arrayAlt E start exit fall i (j + 1) cs l s

/-- The loop over the alternatives, lower.c 7006-7080. -/
def arrayAlts (E : AEnv) (start exit fall : Nat) :
    Nat → List (List Src) → Loop → St → Loop × St
  | _, [], l, s => (l, s)
  | i, cs :: alts, l, s =>
    let (l, s) := arrayAlt E start exit fall i 0 cs l s
    arrayAlts E start exit fall (i + 1) alts l s

/-- Lower.c 7087-7090. -/
def fallThrough (exact : Bool) (fall deflt : Nat) (s : St) : St :=
  if exact then s else emitTerm (select s fall) (.jump deflt)

/-- `lower_case_array`, lower.c 6868-7097, after the encoding of the value has been computed.
Simplified: the check of the length has passed, all choices have the length of the value; the
block for falling through is made in the exact case too. -/
def lowerArray (E : AEnv) (known : Option Int) (alts : List (List Src)) (s : St) : Nat × St :=
  let (exit, s) := emitBlock s
  let start := s.cur
  let (fall, s) := emitBlock s
  let (l, s) := arrayAlts E start exit fall 0 alts {} s
  let deflt := l.deflt.getD exit
  let s := fallThrough E.exact fall deflt s
  let s := emitCase known deflt l.cases (select s start)
  (exit, select s exit)

/-! ### Execution of the blocks -/

/-- What the code is executed with: the outcome of tests, the value that is switched on. -/
structure Run where
  test : Test → Bool
  sel : Int

/-- Execution of the blocks `P` from block `b`: what is seen, and the block that is reached, or
`none` if the statement is left. -/
inductive To (P : Nat → Blk) (R : Run) : Nat → List Ev → Option Nat → Prop
  | here (b : Nat) : To P R b [] (some b)
  | leave : (P b).term = some .leave → To P R b (P b).evs none
  | jump : (P b).term = some (.jump c) → To P R c es f → To P R b ((P b).evs ++ es) f
  | cond : (P b).term = some (.cond t x y) → To P R (if R.test t then x else y) es f →
      To P R b ((P b).evs ++ es) f
  | switch : (P b).term = some (.switch d cs) → To P R (target d cs R.sel) es f →
      To P R b ((P b).evs ++ es) f

/-- Tests of a scalar value. -/
def scalarRun (v : Int) : Run :=
  ⟨fun | .within lo hi => decide (lo ≤ v ∧ v ≤ hi) | .same x => decide (v = x) | .equal _ => false, v⟩

/-- Tests of an array; the comparison is the predefined "=". -/
def arrayRun (E : AEnv) (v : List Nat) : Run :=
  ⟨fun | .equal xs => decide (v = xs) | _ => false, valueEnc E.exact E.nbits v⟩

/-! ### The multi-way branch further down -/

/-- `mir_build_case`, mir-node.c 1851-1893. -/
def mirCase (known : Option Int) (deflt : Nat) (cases : List (Int × Nat)) : Term :=
  match known with
  | some k => .jump (target deflt cases k)
  | none => .switch deflt cases

/-- Instructions of the JIT: `$CASE` (with the register left out) and `JUMP`. -/
inductive Ins where
  | case (x : Int) (label : Nat)
  | jump (label : Nat)

/-- `irgen_op_case`, jit-irgen.c 2253-2268. -/
def irgenCase (deflt : Nat) (cases : List (Int × Nat)) : List Ins :=
  cases.map (fun p => .case p.1 p.2) ++ [.jump deflt]

/-- `interp_case`, jit-interp.c 852-859, and `interp_jump`: the label that is gone to. -/
def interpCase (v : Int) : List Ins → Option Nat
  | [] => none
  | .case x l :: is => if v = x then some l else interpCase v is
  | .jump l :: _ => some l

/-! ### Folding of case statements with a known value -/

/-- A choice in `simp_case`: numbers and bounds that could not be folded are `none`. -/
inductive SChoice where
  | one (v : Option Int)
  | range (b : Option (Int × Int))
  | others
  deriving DecidableEq, Repr

/-- `simp_match_case_choice`, simp.c 890-919.  There is no `break` at the end of the case for
ranges, so that control falls into the case for `others`. -/
def simpMatch (v : Int) : List SChoice → Bool
  | [] => false
  | .one (some x) :: cs => if v = x then true else simpMatch v cs
  | .one none :: cs => simpMatch v cs
  | .range none :: cs => simpMatch v cs
  | .range (some (lo, hi)) :: _ => if lo ≤ v ∧ v ≤ hi then true else true
  | .others :: _ => true

/-- The loop of `simp_case`, simp.c 931-960, and of `simp_case_generate`, 975-1001: the
alternative that is kept; `none` if the statement is deleted. -/
def simpCase (v : Int) : Nat → List (List SChoice) → Option Nat
  | _, [] => none
  | i, cs :: alts => if simpMatch v cs then some i else simpCase v (i + 1) alts

/-! ### Case generate statements -/

/-- The choices of an alternative in `lower_case_generate_thunk`, lower.c 12873-12916: the test
for equality, or `others`.  The result of the thunk is the number of the alternative. -/
def thunkAlt {C V : Type} (eq : C → V → Bool) (isOthers : C → Bool) (v : V) : List C → Bool
  | [] => false
  | c :: cs => if isOthers c then true else if eq c v then true else thunkAlt eq isOthers v cs

/-- The rest of `lower_case_generate_thunk`, 12869-12919; `none` is the result -1. -/
def thunkCase {C V : Type} (eq : C → V → Bool) (isOthers : C → Bool) (v : V) :
    Nat → List (List C) → Option Nat
  | _, [] => none
  | i, cs :: alts =>
    if thunkAlt eq isOthers v cs then some i else thunkCase eq isOthers v (i + 1) alts

end Verif.Case
