import Verif.Jit.IrModel

/-!
# The control flow graph of the intermediate code and its liveness

Model of `/repo/src/jit/jit-optim.c` lines 27-266: `jit_get_cfg`, `jit_block_for`, `cfg_liveness`.

Simplifications: the list of edges, which holds four inline and more in an allocated array (38-58,
259-266), is a list; the edges into a block, which mirror those out of it (60-64), are left out; a bit
mask is a function from the bit to whether it is set; memory is not freed.  An operand that is not a
label has no `label` field; the source reads the union regardless, so this is only about code in which
the first operand of a jump and the second of a case are labels.
-/

namespace Verif.Code

/-- Codes of the exits that never return, jit-priv.h 117-126: INDEX_FAIL, OVERFLOW, NULL_DEREF,
LENGTH_FAIL, UNREACHABLE, DIV_ZERO, EXPONENT_FAIL, RANGE_FAIL. -/
def abortExits : List Nat := [0, 1, 2, 3, 4, 5, 6, 9]

/-- `jit_will_abort`, jit-core.c 1371-1385. -/
def Ir.willAbort (ir : Ir) : Bool :=
  match ir.op, ir.arg1 with
  | .exit, .exit e => abortExits.contains e
  | .trap, _ => true
  | _, _ => false

/-- `jit_block_t`, jit-priv.h 252-262, without the masks. -/
structure Block where
  first : Nat
  last : Nat
  returns : Bool
  aborts : Bool
  out : List Nat
  deriving DecidableEq, Repr

/-- A block from `xcalloc_flex` with its first instruction. -/
def Block.new (first : Nat) : Block := ⟨first, 0, false, false, []⟩

/-- `cfg_add_one_edge`, 38-58. -/
def Block.addOut (b : Block) (c : Nat) : Block := { b with out := b.out ++ [c] }

/-- The count of blocks, 166-173. -/
def countBlocks (f : Func) : List Ir → Nat → Nat → Nat → Nat
  | [], _, _, nb => nb
  | ir :: rest, i, first, nb =>
    let (first, nb) := if ir.target && decide (0 < i) && first != i then (i, nb + 1) else (first, nb)
    let (first, nb) :=
      if isTerminator f i ir && decide (i + 1 < f.irs.length) then (i + 1, nb + 1) else (first, nb)
    countBlocks f rest (i + 1) first nb

/-- Whether instruction `i` starts a block because it is a target, 181. -/
def splits (cur : Block) (i : Nat) (ir : Ir) : Bool := ir.target && decide (0 < i) && cur.first != i

/-- Leave the current block before a target, 182-184. -/
def leaveBefore (k : Nat) (b : Block) : Block :=
  if !b.returns && !b.aborts then b.addOut (k + 1) else b

/-- Add instruction `i` to the block, 187-192. -/
def extend (b : Block) (i : Nat) (ir : Ir) : Block :=
  { b with
    last := i
    returns := b.returns || ir.op == .ret
    aborts := b.aborts || (ir.op != .ret && ir.willAbort) }

/-- A conditional jump, or the last of some cases, 195-196. -/
def Ir.mayFall (ir : Ir) : Bool := (ir.op == .jump && ir.cc != .none) || ir.op == .case

/-- Leave the block after its terminator, 194-199. -/
def leaveAfter (k : Nat) (b : Block) (ir : Ir) : Block :=
  if ir.mayFall then b.addOut (k + 1) else b

/-- After the instruction was added, 194-199: the finished blocks and the current one. -/
def endIr (f : Func) (done : List Block) (cur : Block) (i : Nat) (ir : Ir) : List Block × Block :=
  if isTerminator f i ir && decide (i + 1 < f.irs.length) then
    (done ++ [leaveAfter done.length cur ir], Block.new (i + 1))
  else (done, cur)

/-- One round of the second loop, 179-200. -/
def addIr (f : Func) (done : List Block) (cur : Block) (i : Nat) (ir : Ir) : List Block × Block :=
  if splits cur i ir then endIr f (done ++ [leaveBefore done.length cur]) (extend (Block.new i) i ir) i ir
  else endIr f done (extend cur i ir) i ir

/-- The second loop, 179-200. -/
def buildBlocks (f : Func) : List Ir → Nat → List Block → Block → List Block
  | [], _, done, cur => done ++ [cur]
  | ir :: rest, i, done, cur =>
    buildBlocks f rest (i + 1) (addIr f done cur i ir).1 (addIr f done cur i ir).2

/-- The loop of `jit_block_for`, 242-257, with `high` one past the last block.  The range shrinks in every
round, so that as many rounds as there are blocks are enough. -/
def blockLoop (blocks : List Block) (pos : Nat) : Nat → Nat → Nat → Option Nat
  | 0, _, _ => none
  | rounds + 1, low, high =>
    if low < high then
      let mid := (low + (high - 1)) / 2
      match blocks[mid]? with
      | none => none
      | some b =>
        if b.last < pos then blockLoop blocks pos rounds (mid + 1) high
        else if pos < b.first then blockLoop blocks pos rounds low mid
        else some mid
    else none

/-- `jit_block_for`, 242-257; `none` is the fatal error. -/
def blockFor (blocks : List Block) (pos : Nat) : Option Nat :=
  blockLoop blocks pos blocks.length 0 blocks.length

/-- The label of a jump or a case, 204-209. -/
def Ir.label (ir : Ir) : Option Nat :=
  match ir.op, ir.arg1, ir.arg2 with
  | .jump, .label l, _ => some l
  | .case, _, .label l => some l
  | _, _, _ => none

/-- One round of the third loop, 202-217. -/
def addEdge (blocks : List Block) (i : Nat) (ir : Ir) : Option (List Block) :=
  match ir.label with
  | none => some blocks
  | some l =>
    match blockFor blocks i, blockFor blocks l with
    | some a, some c => some (blocks.modify a (·.addOut c))
    | _, _ => none

/-- The third loop, 202-217. -/
def addEdges : List Ir → Nat → List Block → Option (List Block)
  | [], _, blocks => some blocks
  | ir :: rest, i, blocks => (addEdge blocks i ir).bind fun blocks => addEdges rest (i + 1) blocks

/-- `jit_get_cfg`, 161-222, without the liveness. -/
def getCfg (f : Func) : Option (List Block) :=
  addEdges f.irs 0 (buildBlocks f f.irs 0 [] (Block.new 0))

/-! ## liveness -/

/-- `bit_mask_t` with a bit for every register and one for the flags. -/
abbrev Mask := Nat → Bool

def Mask.set (m : Mask) (r : Nat) : Mask := fun q => if q = r then true else m q

/-- What a block uses before it writes it, and what it writes. -/
structure Scan where
  use : Mask
  kill : Mask

/-- `if (!mask_test(&b->varkill, reg)) mask_set(&b->livein, reg)`, 101-110. -/
def Scan.useReg (s : Scan) (r : Option Nat) : Scan :=
  match r with
  | none => s
  | some r => if s.kill r then s else { s with use := s.use.set r }

/-- `if (cfg_writes_result(ir)) mask_set(&b->varkill, ir->result)`, 112-113. -/
def Scan.killResult (s : Scan) (ir : Ir) : Scan :=
  if ir.writesResult then
    match ir.result with
    | some r => { s with kill := s.kill.set r }
    | none => s
  else s

/-- The flags, 115-118. -/
def Scan.flags (nregs : Nat) (s : Scan) (ir : Ir) : Scan :=
  if ir.writesFlags then { s with kill := s.kill.set nregs }
  else if ir.readsFlags && !s.kill nregs then { s with use := s.use.set nregs }
  else s

/-- One instruction, 99-118. -/
def scanIr (nregs : Nat) (s : Scan) (ir : Ir) : Scan :=
  ((((s.useReg ir.arg1.regOf).useReg ir.arg2.regOf).useReg
    (if ir.op.readsResult then ir.result else none)).killResult ir).flags nregs ir

/-- The instructions of a block. -/
def blockIrs (f : Func) (b : Block) : List Ir := (f.irs.take (b.last + 1)).drop b.first

/-- The loop over a block, 92-120. -/
def scanBlock (f : Func) (b : Block) : Scan :=
  (blockIrs f b).foldl (scanIr f.nregs) ⟨fun _ => false, fun _ => false⟩

/-- The new value of `liveout`, 132-140. -/
def liveNew (scans : Nat → Scan) (b : Block) (out : Nat → Mask) : Mask := fun r =>
  b.out.any fun c => (out c r && !(scans c).kill r) || (scans c).use r

/-- `mask_eq` of masks with `n` bits. -/
def maskEq (n : Nat) (a b : Mask) : Bool := (List.range n).all fun r => a r == b r

/-- One block, 131-145. -/
def liveBlock (f : Func) (blocks : List Block) (st : (Nat → Mask) × Bool) (i : Nat) :
    (Nat → Mask) × Bool :=
  match blocks[i]? with
  | none => st
  | some b =>
    let new := liveNew (fun c => (blocks[c]?.map (scanBlock f)).getD ⟨fun _ => false, fun _ => false⟩) b st.1
    if maskEq (f.nregs + 1) new (st.1 i) then st
    else (fun c => if c = i then new else st.1 c, true)

/-- One round of the outer loop, 127-146: the blocks from the last to the first. -/
def livePass (f : Func) (blocks : List Block) (out : Nat → Mask) : (Nat → Mask) × Bool :=
  (List.range blocks.length).reverse.foldl (liveBlock f blocks) (out, false)

/-- The outer loop, 126-147, with at most `fuel` rounds. -/
def liveLoop (f : Func) (blocks : List Block) : Nat → (Nat → Mask) → Option (Nat → Mask)
  | 0, _ => none
  | fuel + 1, out =>
    let (out', changed) := livePass f blocks out
    if changed then liveLoop f blocks fuel out' else some out'

/-- `liveout` of every block, `cfg_liveness`, 88-159. -/
def liveOut (f : Func) (blocks : List Block) (fuel : Nat) : Option (Nat → Mask) :=
  liveLoop f blocks fuel fun _ _ => false

/-- `livein` of a block from its `liveout`, 149-155. -/
def liveIn (f : Func) (b : Block) (out : Mask) : Mask := fun r =>
  (scanBlock f b).use r || (out r && !(scanBlock f b).kill r)

end Verif.Code
