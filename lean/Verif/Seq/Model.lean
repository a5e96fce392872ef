import Verif.Seq.Spec

/-
Model of the lowering of sequential statements to basic blocks:
src/lower.c 6254-6318 (sequences and if), 6369-6396 (return), 6490-6722 (loops,
exit and next), 7255-7259 (unreachable statements), 1949-1977 (temporary
variables), 5546-5623 (wait), with the machine on which the blocks run.

Simplified: the code for an expression is one instruction which yields a
register, branches on constants are not folded (src/vcode.c 4373-4376,
src/lower.c 6526-6528), no coverage is collected, loads are not shared between
instructions, all loop parameters have a 32-bit type.
-/

namespace Verif.Seq

open Spec

variable {S : Type}

/-- Where a loop parameter is found (src/lower.c 6587-6593): in a register if
the body of the loop cannot suspend, otherwise in its variable. -/
inductive Loc where
  | reg (r : Nat)
  | var (v : Nat)
  deriving DecidableEq, Repr

/-- Instructions without control flow. -/
inductive Instr (S : Type) where
  | op (f : List Int → S → S) (env : List Loc)
  | eval (r : Nat) (f : List Int → S → Int) (env : List Loc)
  | rnull (r a b d : Nat)       -- emit_range_null
  | sel (r d : Nat)             -- emit_select(dir, -1, 1)
  | load (r v : Nat)
  | store (v r : Nat)
  | add (r a b : Nat)
  | eq (r a b : Nat)
  | leave                       -- lower_leave_subprogram

/-- The last instruction of a block. -/
inductive Term (S : Type) where
  | jump (b : Nat)
  | cond (r t f : Nat)
  | wait (f : List Int → S → S) (env : List Loc) (b : Nat)
  | ret (f : List Int → S → Int) (env : List Loc)
  | unreach                     -- emit_unreachable

structure Blk (S : Type) where
  ops : List (Instr S) := []
  term : Option (Term S) := none

/-! ## The machine -/

/-- Registers do not live across a suspension, variables do. -/
structure M (S : Type) where
  blk : Nat
  pos : Nat
  regs : Nat → Option Int
  vars : Nat → Option Int
  s : S

inductive MOut (S : Type) where
  | run (m : M S)
  | ret (v : Int) (s : S)
  | fail (s : S)                -- "function did not return a value"
  | stuck

def set (f : Nat → Option Int) (i : Nat) (x : Int) : Nat → Option Int :=
  fun j => if j = i then some x else f j

def M.setR (m : M S) (r : Nat) (x : Int) : M S := { m with regs := set m.regs r x }
def M.setV (m : M S) (v : Nat) (x : Int) : M S := { m with vars := set m.vars v x }
def M.setS (m : M S) (s : S) : M S := { m with s := s }
def M.go (m : M S) (b : Nat) : M S := { m with blk := b, pos := 0 }
def M.tick (m : M S) : M S := { m with pos := m.pos + 1 }
def M.clear (m : M S) : M S := { m with regs := fun _ => none }

/-- Signed 32-bit wrap-around of a store. -/
def wrap32 (x : Int) : Int := (x + 2147483648) % 4294967296 - 2147483648

def readLoc (m : M S) : Loc → Option Int
  | .reg r => m.regs r
  | .var v => m.vars v

def readEnv (m : M S) : List Loc → Option (List Int)
  | [] => some []
  | l :: t =>
    match readLoc m l, readEnv m t with
    | some v, some vs => some (v :: vs)
    | _, _ => none

def boolInt (b : Bool) : Int := if b then 1 else 0

/-- One instruction; `none` if a register or variable has no value. -/
def instr (leave : S → S) (m : M S) : Instr S → Option (M S)
  | .op f env =>
    match readEnv m env with
    | some e => some (m.setS (f e m.s))
    | none => none
  | .eval r f env =>
    match readEnv m env with
    | some e => some (m.setR r (f e m.s))
    | none => none
  | .rnull r a b d =>
    match m.regs a, m.regs b, m.regs d with
    | some x, some y, some z =>
      some (m.setR r (boolInt (if z ≠ 0 then decide (x < y) else decide (y < x))))
    | _, _, _ => none
  | .sel r d =>
    match m.regs d with
    | some z => some (m.setR r (if z ≠ 0 then -1 else 1))
    | none => none
  | .load r v =>
    match m.vars v with
    | some x => some (m.setR r x)
    | none => none
  | .store v r =>
    match m.regs r with
    | some x => some (m.setV v (wrap32 x))
    | none => none
  | .add r a b =>
    match m.regs a, m.regs b with
    | some x, some y => some (m.setR r (x + y))
    | _, _ => none
  | .eq r a b =>
    match m.regs a, m.regs b with
    | some x, some y => some (m.setR r (boolInt (decide (x = y))))
    | _, _ => none
  | .leave => some (m.setS (leave m.s))

/-- One step of the machine. -/
def mstep (leave : S → S) (G : Nat → Blk S) (m : M S) : MOut S :=
  match (G m.blk).ops[m.pos]? with
  | some i =>
    match instr leave m i with
    | some m' => .run m'.tick
    | none => .stuck
  | none =>
    match (G m.blk).term with
    | some (.jump b) => .run (m.go b)
    | some (.cond r t f) =>
      match m.regs r with
      | some x => .run (m.go (if x ≠ 0 then t else f))
      | none => .stuck
    | some (.wait f env b) =>
      match readEnv m env with
      | some e => .run ((m.setS (f e m.s)).clear.go b)
      | none => .stuck
    | some (.ret f env) =>
      match readEnv m env with
      | some e => .ret (f e m.s) m.s
      | none => .stuck
    | some .unreach => .fail m.s
    | none => .stuck

/-- Some number of steps. -/
inductive Steps (leave : S → S) (G : Nat → Blk S) : Nat → M S → M S → Prop where
  | refl (m : M S) : Steps leave G 0 m m
  | step {k : Nat} {m m' m'' : M S} : mstep leave G m = .run m' → Steps leave G k m' m'' →
      Steps leave G (k + 1) m m''

/-- The code returns a value. -/
def Returns (leave : S → S) (G : Nat → Blk S) (m : M S) (v : Int) (s : S) : Prop :=
  ∃ k m', Steps leave G k m m' ∧ mstep leave G m' = .ret v s

/-! ## The state of the compiler -/

structure B (S : Type) where
  blk : Nat → Blk S              -- the blocks
  n : Nat                        -- their number
  cur : Nat                      -- the one selected
  nreg : Nat
  nvar : Nat
  free : List Nat                -- temporary variables released
  nid : Nat                      -- number of loops so far
  lazyT : Nat → Option Nat       -- `test_bb` of for loops, made by "next"

/-- src/lower.c `loop_stack_t`; `test` is the block for "next" unless the loop
is a for loop, where it is made when needed. -/
structure Loop where
  name : Nat
  id : Nat
  test : Option Nat
  exit : Nat

def upd (f : Nat → Blk S) (i : Nat) (x : Blk S) : Nat → Blk S :=
  fun j => if j = i then x else f j

/-- src/vcode.c 930-945 `vcode_block_finished`. -/
def B.fin (b : B S) : Bool := (b.blk b.cur).term.isSome

/-- src/vcode.c 264-283 `vcode_add_op`: `none` is the fatal error. -/
def B.emit (b : B S) (i : Instr S) : Option (B S) :=
  if b.fin then none
  else some { b with blk := upd b.blk b.cur ⟨(b.blk b.cur).ops ++ [i], none⟩ }

/-- The same for an instruction which ends the block. -/
def B.close (b : B S) (t : Term S) : Option (B S) :=
  if b.fin then none
  else some { b with blk := upd b.blk b.cur ⟨(b.blk b.cur).ops, some t⟩ }

/-- `emit_block`. -/
def B.more (b : B S) : B S := { b with n := b.n + 1 }

/-- `vcode_select_block`. -/
def B.sel (b : B S) (i : Nat) : B S := { b with cur := i }

/-- An instruction with a new register for the result, which is `b.nreg`. -/
def B.emitR (b : B S) (i : Instr S) : Option (B S) :=
  (b.emit i).map (fun b' => { b' with nreg := b'.nreg + 1 })

/-- src/lower.c 1949-1971 `lower_temp_var`; all temporary variables here have
one type. -/
def B.temp (b : B S) : Nat × B S :=
  match b.free with
  | v :: t => (v, { b with free := t })
  | [] => (b.nvar, { b with nvar := b.nvar + 1 })

/-- src/lower.c 1973-1977 `lower_release_temp`. -/
def B.release (b : B S) (v : Nat) : B S := { b with free := b.free ++ [v] }

/-- src/lower.c 6707-6710: the loop with the label. -/
def findLoop (ls : List Loop) (l : Nat) : Option Loop := ls.find? (fun L => L.name == l)

/-- src/lower.c 6695-6705: the condition of an exit or next statement; the
block for the false case is the first one made. -/
def lowerWhen (env : List Loc) (c : Option (List Int → S → Bool)) (b : B S) :
    Option (B S) :=
  match c with
  | none => some b.more
  | some c => do
    let fb := b.n
    let tb := b.n + 1
    let r := b.nreg
    let b ← (b.more.more).emitR (.eval r (fun e s => boolInt (c e s)) env)
    let b ← b.close (.cond r tb fb)
    some (b.sel tb)

/-- src/lower.c 6712-6718: the block that a next statement goes to. -/
def nextTarget (L : Loop) (b : B S) : Nat × B S :=
  match L.test with
  | some t => (t, b)
  | none =>
    match b.lazyT L.id with
    | some t => (t, b)
    | none => (b.n, { b.more with lazyT := fun i => if i = L.id then some b.n else b.lazyT i })

/-- src/lower.c 6688-6722 `lower_loop_control`. -/
def lowerCtl (isExit : Bool) (l : Nat) (env : List Loc) (ls : List Loop)
    (c : Option (List Int → S → Bool)) (b : B S) : Option (B S) := do
  let fb := b.n
  let b ← lowerWhen env c b
  let L ← findLoop ls l
  let tb := if isExit then (L.exit, b) else nextTarget L b
  let b ← tb.2.close (.jump tb.1)
  some (b.sel fb)

mutual
/-- src/lower.c 6490-6512 `lower_is_wait_free`, negated: the statement contains
a wait statement or a procedure call. -/
def susS : Stmt S → Bool
  | .susp _ => true
  | .whil _ _ b => susQ b
  | .loop _ b => susQ b
  | .forL _ _ _ _ b => susQ b
  | .ite cs => susC cs
  | _ => false
def susQ : Sq S → Bool
  | .nil => false
  | .cons s t => susS s || susQ t
def susC : Conds S → Bool
  | .els b => susQ b
  | .last _ b => susQ b
  | .cons _ b t => susQ b || susC t
end

/-- src/lower.c 6516-6533: the range, a branch on whether it is null, and the
step; registers are left, right, dir, null and step in this order.  Selected
is the block for a range that is not null, the first one made; the second is
the exit. -/
def forHead (env : List Loc) (lo hi : List Int → S → Int) (dn : List Int → S → Bool)
    (b : B S) : Option (B S) := do
  let r := b.nreg
  let b ← b.emitR (.eval r lo env)
  let b ← b.emitR (.eval (r + 1) hi env)
  let b ← b.emitR (.eval (r + 2) (fun e s => boolInt (dn e s)) env)
  let b ← b.emitR (.rnull (r + 3) r (r + 1) (r + 2))
  let init := b.n
  let exit := b.n + 1
  let b ← (b.more.more).close (.cond (r + 3) exit init)
  (b.sel init).emitR (.sel (r + 4) (r + 2))

/-- src/lower.c 6551-6557: the right bound and the step are saved. -/
def forSave (sus : Bool) (right step : Nat) (b : B S) : Option ((Nat × Nat) × B S) :=
  if sus then do
    let rt := b.temp
    let b ← rt.2.emit (.store rt.1 right)
    let st := b.temp
    let b ← st.2.emit (.store st.1 step)
    some ((rt.1, st.1), b)
  else some ((0, 0), b)

/-- src/lower.c 6573-6593: the loop variable and the start of the body, with
the place of the loop parameter. -/
def forBody (sus : Bool) (left : Nat) (b : B S) : Option ((Nat × Nat × Loc) × B S) := do
  let ivar := b.nvar
  let b : B S := { b with nvar := b.nvar + 1 }
  let b ← b.emit (.store ivar left)
  let body := b.n
  let b ← (b.more).close (.jump body)
  let b := b.sel body
  if sus then some ((ivar, body, .var ivar), b)
  else do
    let r := b.nreg
    let b ← b.emitR (.load r ivar)
    some ((ivar, body, .reg r), b)

/-- src/lower.c 6608-6613: behind the body, if it contained a next
statement. -/
def forNext (test : Option Nat) (b : B S) : Option (B S) :=
  match test with
  | none => some b
  | some t =>
    if b.fin then some (b.sel t)
    else do
      let b ← b.close (.jump t)
      some (b.sel t)

/-- A load into a new register if the body may have suspended. -/
def loadIf (sus : Bool) (v : Nat) (b : B S) : Option (B S) :=
  if sus then b.emitR (.load b.nreg v) else some b

/-- A jump unless the block is finished. -/
def jumpIf (t : Nat) (b : B S) : Option (B S) :=
  if b.fin then some b else b.close (.jump t)

/-- src/lower.c 6627-6633: the next value and the test for the last one. -/
def forStep (ivar i right step exit body : Nat) (b : B S) : Option (B S) :=
  if b.fin then some b
  else do
    let r := b.nreg
    let b ← b.emitR (.add r i step)
    let b ← b.emit (.store ivar r)
    let b ← b.emitR (.eq (r + 1) i right)
    b.close (.cond (r + 1) exit body)

/-- src/lower.c 6615-6633: the registers are loaded again if the body may have
suspended. -/
def forTail (sus : Bool) (rvar svar ivar right step : Nat) (ip : Loc) (exit body : Nat)
    (b : B S) : Option (B S) := do
  let right' := if sus then b.nreg else right
  let b ← loadIf sus rvar b
  let step' := if sus then b.nreg else step
  let b ← loadIf sus svar b
  let i := match ip with
    | .reg i => i
    | .var _ => b.nreg
  let b ← loadIf sus ivar b
  forStep ivar i right' step' exit body b

/-- src/lower.c 6281-6282 and 6297-6298: the exit block of an if statement. -/
def needExit (ex : Option Nat) (b : B S) : Nat × B S :=
  match ex with
  | some e => (e, b)
  | none => (b.n, b.more)

/-- src/lower.c 6296-6300: go to the exit block unless the branch left. -/
def joinExit (ex : Option Nat) (b : B S) : Option (B S × Option Nat) :=
  if b.fin then some (b, ex)
  else do
    let ee := needExit ex b
    let b ← ee.2.close (.jump ee.1)
    some (b, some ee.1)

mutual
/-- src/lower.c 7255-7313 `lower_stmt`. -/
def lowerS : List Loc → List Loop → Stmt S → B S → Option (B S)
  | env, ls, st, b =>
    if b.fin then some b                                   -- unreachable
    else match st with
    | .op f => b.emit (.op f env)
    | .susp f => do                                        -- 5582-5585
      let resume := b.n
      let b ← (b.more).close (.wait f env resume)
      some (b.sel resume)
    | .ret f => do                                         -- 6369-6396
      let b ← b.emit .leave
      b.close (.ret f env)
    | .exit l c => lowerCtl true l env ls c b
    | .next l c => lowerCtl false l env ls c b
    | .whil l c bd => do                                   -- 6638-6671
      let test := b.n
      let body := b.n + 1
      let exit := b.n + 2
      let b ← (b.more.more.more).close (.jump test)
      let b := b.sel test
      let r := b.nreg
      let b ← b.emitR (.eval r (fun e s => boolInt (c e s)) env)
      let b ← b.close (.cond r body exit)
      let b := b.sel body
      let L : Loop := { name := l, id := b.nid, test := some test, exit := exit }
      let b ← lowerQ env (L :: ls) bd { b with nid := b.nid + 1 }
      let b ← jumpIf test b
      some (b.sel exit)
    | .loop l bd => do                                     -- 6673-6696
      let body := b.n
      let exit := b.n + 1
      let b ← (b.more.more).close (.jump body)
      let b := b.sel body
      let L : Loop := { name := l, id := b.nid, test := some body, exit := exit }
      let b ← lowerQ env (L :: ls) bd { b with nid := b.nid + 1 }
      let b ← jumpIf body b
      some (b.sel exit)
    | .forL l lo hi dn bd => do                            -- 6514-6636
      let r := b.nreg
      let exit := b.n + 1
      let b ← forHead env lo hi dn b
      let sv ← forSave (susQ bd) (r + 1) (r + 4) b
      let bo ← forBody (susQ bd) r sv.2
      let L : Loop := { name := l, id := bo.2.nid, test := none, exit := exit }
      let b ← lowerQ (bo.1.2.2 :: env) (L :: ls) bd { bo.2 with nid := bo.2.nid + 1 }
      let b ← forNext (b.lazyT L.id) b
      let b ← forTail (susQ bd) sv.1.1 sv.1.2 bo.1.1 (r + 1) (r + 4) bo.1.2.2 exit bo.1.2.1 b
      let b := b.sel exit
      some (if susQ bd then (b.release sv.1.1).release sv.1.2 else b)
    | .ite cs => do                                        -- 6261-6318
      let be ← lowerC env ls cs none b
      match be.2 with
      | some e => some (be.1.sel e)
      | none => some be.1
/-- src/lower.c 6254-6259 `lower_sequence`. -/
def lowerQ : List Loc → List Loop → Sq S → B S → Option (B S)
  | _, _, .nil, b => some b
  | env, ls, .cons s t, b => do
    let b ← lowerS env ls s b
    lowerQ env ls t b
/-- src/lower.c 6269-6314: the branches of an if statement; the exit block is
made when it is needed.  The false case of a last branch with a condition goes
to the exit block, which `lower_if` selects at the end. -/
def lowerC : List Loc → List Loop → Conds S → Option Nat → B S →
    Option (B S × Option Nat)
  | env, ls, .els bd, ex, b => do
    let b ← lowerQ env ls bd b
    joinExit ex b
  | env, ls, .last c bd, ex, b => do
    let r := b.nreg
    let b ← b.emitR (.eval r (fun e s => boolInt (c e s)) env)
    let btrue := b.n
    let ee := needExit ex b.more
    let b ← ee.2.close (.cond r btrue ee.1)
    let b ← lowerQ env ls bd (b.sel btrue)
    joinExit (some ee.1) b
  | env, ls, .cons c bd t, ex, b => do
    let r := b.nreg
    let b ← b.emitR (.eval r (fun e s => boolInt (c e s)) env)
    let btrue := b.n
    let next := b.n + 1
    let b ← (b.more.more).close (.cond r btrue next)
    let b ← lowerQ env ls bd (b.sel btrue)
    let be ← joinExit ex b
    lowerC env ls t be.2 (be.1.sel next)
end

/-! ## Whole bodies -/

/-- The state before the first statement. -/
def start : B S :=
  { blk := fun _ => {}, n := 1, cur := 0, nreg := 0, nvar := 0, free := [], nid := 0,
    lazyT := fun _ => none }

/-- src/lower.c 11053-11056: the end of a procedure. -/
def endProc (b : B S) : Option (B S) :=
  if b.fin then some b
  else do
    let b ← b.emit .leave
    b.close (.ret (fun _ _ => 0) [])

/-- src/lower.c 11091-11092: the end of a function. -/
def endFunc (b : B S) : Option (B S) :=
  if b.fin then some b else b.close .unreach

/-- src/lower.c 11465-11466: the end of a process. -/
def endProcess (b : B S) : Option (B S) := jumpIf 0 b

/-- src/lower.c 11032-11057 `lower_proc_body`, the statements. -/
def lowerProc (body : Sq S) : Option (B S) := do
  let b ← lowerQ [] [] body start
  endProc b

/-- src/lower.c 11059-11093 `lower_func_body`, the statements. -/
def lowerFunc (body : Sq S) : Option (B S) := do
  let b ← lowerQ [] [] body start
  endFunc b

/-- src/lower.c 11311-11470 `lower_process`, the statements of the body, where
the first block is `start_bb`. -/
def lowerProcess (body : Sq S) : Option (B S) := do
  let b ← lowerQ [] [] body start
  endProcess b

/-- The machine at the start of the code. -/
def M.init (s : S) : M S :=
  { blk := 0, pos := 0, regs := fun _ => none, vars := fun _ => none, s := s }

end Verif.Seq
