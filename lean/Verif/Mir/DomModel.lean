/-
C31: the control flow graph and the dominators of `src/mir/mir-optim.c`: `cfg_add_one_edge`,
`cfg_get_edge`, `mir_get_cfg` and `mir_dominator_tree`.

Bit masks are lists of booleans; that `src/mask.c` implements them is shown in `Verif/Mask`.
-/

namespace Verif.Dom

/-- An argument of the last operation of a block: a block, or something else. -/
inductive Arg where
  | block (id : Nat)
  | other
deriving DecidableEq

/-- The last operation of a block; `other` stands for jump, cond, case, pcall and unreachable. -/
inductive Term where
  | wait (resume : Nat)
  | ret
  | other (args : List Arg)
deriving DecidableEq

/-! ### Lists of edges -/

/-- `cfg_edge_list_t` (mir-optim.c 31-38): four edges are stored in place, more outside.  The array
outside is a list of what is stored so far, `max` its size. -/
structure Edges where
  count : Nat
  max : Nat
  inside : List Nat
  external : List Nat
deriving DecidableEq

/-- A structure full of zeros. -/
def Edges.empty : Edges := ⟨0, 0, [], []⟩

/-- `cfg_add_one_edge` (mir-optim.c 92-115).  `none`: a write outside the allocated array. -/
def addEdge (l : Edges) (e : Nat) : Option Edges :=
  if l.count < 4 then some { l with count := l.count + 1, inside := l.inside ++ [e] }
  else if l.count = 4 then some { l with count := 5, max := 16, external := l.inside ++ [e] }
  else if l.count = l.max then
    some { l with count := l.count + 1, max := l.max * 2, external := l.external ++ [e] }
  else if l.count < l.max then some { l with count := l.count + 1, external := l.external ++ [e] }
  else none

/-- `cfg_get_edge` (mir-optim.c 123-130).  `none`: the assertion fails, or a read of something that
was not written. -/
def getEdge (l : Edges) (nth : Nat) : Option Nat :=
  if nth < l.count then if l.max ≤ 4 then l.inside[nth]? else l.external[nth]? else none

/-! ### The graph -/

/-- The part of `cfg_block_t` that is used here. -/
structure Block where
  entry : Bool
  preds : List Nat
  succs : List Nat
deriving DecidableEq

/-- `cfg_add_edge` (mir-optim.c 117-121), with lists for the edges: see `addEdge_get`.  `none`: access
outside the array of blocks. -/
def cfgAddEdge (cfg : List Block) (src dst : Nat) : Option (List Block) :=
  match cfg[src]? with
  | none => none
  | some b =>
    let cfg := cfg.set src { b with succs := b.succs ++ [dst] }
    match cfg[dst]? with
    | none => none
    | some b => some (cfg.set dst { b with preds := b.preds ++ [src] })

/-- The loop over the arguments (mir-optim.c 156-159). -/
def cfgArgs (src : Nat) : List Arg → List Block → Option (List Block)
  | [], cfg => some cfg
  | .other :: as, cfg => cfgArgs src as cfg
  | .block d :: as, cfg =>
    match cfgAddEdge cfg src d with
    | none => none
    | some cfg => cfgArgs src as cfg

/-- One round of the loop over the blocks (mir-optim.c 137-162).  `none` also when the assertion on
the number of arguments fails. -/
def cfgTerm (src : Nat) (t : Term) (cfg : List Block) : Option (List Block) :=
  match t with
  | .wait r =>
    match cfg[r]? with
    | none => none
    | some b => some (cfg.set r { b with entry := true })
  | .ret => some cfg
  | .other args => if args.length ≤ 4 then cfgArgs src args cfg else none

def cfgTerms : Nat → List Term → List Block → Option (List Block)
  | _, [], cfg => some cfg
  | src, t :: ts, cfg =>
    match cfgTerm src t cfg with
    | none => none
    | some cfg => cfgTerms (src + 1) ts cfg

/-- `mir_get_cfg` (mir-optim.c 132-165). -/
def getCfg (ts : List Term) : Option (List Block) :=
  match List.replicate ts.length (⟨false, [], []⟩ : Block) with
  | [] => none
  | b :: bs => cfgTerms 0 ts ({ b with entry := true } :: bs)

/-! ### Dominators -/

/-- The masks before the loop (mir-optim.c 186-193). -/
def initDom (cfg : List Block) : List (List Bool) :=
  cfg.mapIdx fun i b =>
    if b.entry then (List.replicate cfg.length false).set i true
    else List.replicate cfg.length true

/-- The intersection over the predecessors (mir-optim.c 205-211), and the bit of the block. -/
def newRow (cfg : List Block) (dom : List (List Bool)) (i : Nat) (b : Block) : List Bool :=
  (b.preds.foldl (fun acc p => List.zipWith (· && ·) acc (dom.getD p []))
    (List.replicate cfg.length true)).set i true

/-- The loop over the blocks (mir-optim.c 202-219), for the blocks from `i` on. -/
def sweep (cfg : List Block) : Nat → List Block → List (List Bool) × Bool → List (List Bool) × Bool
  | _, [], s => s
  | i, b :: bs, (dom, changes) =>
    if b.entry then sweep cfg (i + 1) bs (dom, changes)
    else
      let tmp := newRow cfg dom i b
      sweep cfg (i + 1) bs (dom.set i tmp, changes || tmp != dom.getD i [])

/-- The outer loop (mir-optim.c 199-220); `none` if it does not end within `fuel` rounds. -/
def iterate (cfg : List Block) : Nat → List (List Bool) → Option (List (List Bool))
  | 0, _ => none
  | fuel + 1, dom =>
    match sweep cfg 0 cfg (dom, false) with
    | (dom, changes) => if changes then iterate cfg fuel dom else some dom

/-- `mir_dominator_tree` (mir-optim.c 182-221).  The number of rounds is shown to suffice. -/
def dominators (cfg : List Block) : Option (List (List Bool)) :=
  iterate cfg (cfg.length * cfg.length + 1) (initDom cfg)

/-! ### What is meant -/

/-- Control can go from one block to another. -/
def Edge (ts : List Term) (i j : Nat) : Prop := ∃ args, ts[i]? = some (.other args) ∧ .block j ∈ args

/-- Control can enter a block from outside: the first block, and the one after a wait. -/
def Entry (ts : List Term) (j : Nat) : Prop := j = 0 ∨ ∃ i : Nat, ts[i]? = some (.wait j)

/-- The blocks of a path from an entry, the last one first. -/
inductive Path (E : Nat → Prop) (R : Nat → Nat → Prop) : List Nat → Prop
  | start {i : Nat} : E i → Path E R [i]
  | step {i j : Nat} {p : List Nat} : Path E R (i :: p) → R i j → Path E R (j :: i :: p)

/-- Every path from an entry to `i` passes through `j`. -/
def DominatesIn (E : Nat → Prop) (R : Nat → Nat → Prop) (j i : Nat) : Prop :=
  ∀ p, Path E R (i :: p) → j ∈ i :: p

/-- The same for the blocks of a unit. -/
def Dominates (ts : List Term) (j i : Nat) : Prop := DominatesIn (Entry ts) (Edge ts) j i

/-- All blocks that are mentioned exist. -/
def WellFormed (ts : List Term) : Prop :=
  0 < ts.length ∧ (∀ i j, Edge ts i j → j < ts.length) ∧
  ∀ (i j : Nat), ts[i]? = some (.wait j) → j < ts.length

end Verif.Dom
