import Verif.Jit.DceModel
import Verif.Ident.TableModel
import Verif.Util.Model

/-!
# Local value numbering

Model of `/repo/src/jit/jit-optim.c` lines 270-993.

A fault, which stands for undefined behaviour, a failed assertion or a fatal error of the compiler, is
`none`.  Simplifications: `VN_INVALID` is `none`; numbers do not overflow (there are fewer than 2^31
instructions, and the sum for the hash is computed in 32 bits); the registers are in the range of the array
(property C51 assumes this); the contents of the constant pool are a parameter.
-/

namespace Verif.Code

/-- `lvn_state_t`, 297-305.  The index `nregs` is for the flags, those after it for the arguments. -/
structure Lvn where
  nregs : Nat
  regvn : Nat → Option Nat
  next : Nat
  tab : Nat → Option (Ir × Nat)
  tabsz : Nat
  consts : List Word

/-- `SMALL_CONST`, `MAX_CONSTS`, `FIRST_VN`, `TRACK_ARGS`, 284-287. -/
def smallConst : Nat := 100
def maxConsts : Nat := 32
def firstVn : Nat := smallConst + maxConsts
def trackArgs : Nat := 8

namespace Lvn

def setVn (st : Lvn) (r : Nat) (v : Option Nat) : Lvn := { st with regvn := fun q => if q = r then v else st.regvn q }

/-- `lvn_new_value`, 309-312. -/
def newValue (st : Lvn) : Nat × Lvn := (st.next, { st with next := st.next + 1 })

/-- `lvn_get_const`, 314-326. -/
def getConst (st : Lvn) (v : Nat) : Option Word :=
  if v < smallConst then some (BitVec.ofNat 64 v)
  else if v < smallConst + maxConsts then some (st.consts.getD (v - smallConst) 0)
  else none

/-- `lvn_get_const` of the number of a register, which may be invalid. -/
def regConst (st : Lvn) (r : Nat) : Option Word := (st.regvn r).bind st.getConst

/-- `lvn_is_const`, 328-339. -/
def isConst (st : Lvn) : Val → Option Word
  | .int i => some i
  | .reg r => st.regConst r
  | _ => none

/-- `lvn_can_fold`, 341-346. -/
def canFold (st : Lvn) (ir : Ir) : Option (Word × Word) :=
  (st.isConst ir.arg1).bind fun a => (st.isConst ir.arg2).map fun b => (a, b)

/-- The number of a register, 372-376. -/
def regNum (st : Lvn) (r : Nat) : Option Nat × Lvn :=
  match st.regvn r with
  | some v => (some v, st)
  | none => (some st.next, { st with next := st.next + 1 }.setVn r (some st.next))

/-- The number of a constant that is not small, 382-392. -/
def bigNum (st : Lvn) (i : Word) : Option Nat × Lvn :=
  match st.consts.findIdx? (· == i) with
  | some k => (some (smallConst + k), st)
  | none =>
    if st.consts.length < maxConsts then
      (some (smallConst + st.consts.length), { st with consts := st.consts ++ [i] })
    else (some st.next, { st with next := st.next + 1 })

/-- The number of a constant, 378-393. -/
def intNum (st : Lvn) (i : Word) : Option Nat × Lvn :=
  if 0 ≤ i.toInt ∧ i.toInt < smallConst then (some i.toNat, st) else bigNum st i

/-- The other kinds of operands, 395-404. -/
def otherNum (st : Lvn) (v : Val) : Option (Option Nat × Lvn) :=
  if v = .invalid then some (none, st)
  else
    match v with
    | .handle _ | .dbl _ => some (some st.next, { st with next := st.next + 1 })
    | _ => none

/-- `lvn_value_num`, 369-405. -/
def valueNum (st : Lvn) : Val → Option (Option Nat × Lvn)
  | .reg r => some (st.regNum r)
  | .int i => some (st.intNum i)
  | v => st.otherNum v

/-- `lvn_kill_flags`, 412-415. -/
def killFlags (st : Lvn) : Lvn := st.setVn st.nregs none

/-- `lvn_kill_args`, 417-421. -/
def killArgs (st : Lvn) : Lvn :=
  { st with regvn := fun q => if st.nregs < q ∧ q ≤ st.nregs + trackArgs then none else st.regvn q }

/-- All numbers are dropped at the start of a block, 950-953. -/
def reset (st : Lvn) : Lvn :=
  { st with regvn := fun q => if q < st.nregs + 1 + trackArgs then none else st.regvn q }

end Lvn

/-- `jit_op_t`, jit-priv.h 31-89, as a number. -/
def Op.code (op : Op) : Nat := if op.ctorIdx < Op.copy.ctorIdx then op.ctorIdx else op.ctorIdx - Op.copy.ctorIdx + 128

/-- `jit_size_t`, jit-priv.h 91-98. -/
def Size.code : Size → Nat
  | .s8 => 0
  | .s16 => 1
  | .s32 => 2
  | .s64 => 3
  | .unspec => 7

/-- `jit_cc_t`, jit-priv.h 100-114. -/
def CC.code (cc : CC) : Nat := cc.ctorIdx

/-- The tuple with the operation and the numbers of the operands. -/
abbrev Tuple := Nat × Option Nat × Option Nat

/-- `lvn_is_commutative`, 407-410. -/
def Op.commutative : Op → Bool
  | .add | .mul | .and | .or => true
  | _ => false

/-- `vn1 > vn2`, where `VN_INVALID` is the greatest number. -/
def vnGreater : Option Nat → Option Nat → Bool
  | none, some _ => true
  | some a, some b => decide (a > b)
  | _, none => false

/-- `lvn_get_tuple`, 435-450.  The parts of the first number use different bits. -/
def getTuple (st : Lvn) (ir : Ir) : Option (Tuple × Lvn) :=
  (st.valueNum ir.arg1).bind fun (v1, st) =>
    (st.valueNum ir.arg2).map fun (v2, st) =>
      let code := ir.op.code + ir.size.code * 256 + ir.cc.code * 2048
      if ir.op.commutative && vnGreater v1 v2 then ((code, v2, v1), st) else ((code, v1, v2), st)

def vnBits : Option Nat → BitVec 32
  | some v => BitVec.ofNat 32 v
  | none => -1

/-- The hash, 459-460. -/
def tupleHash (t : Tuple) : BitVec 32 :=
  Verif.Ident.mixBits32 (BitVec.ofNat 32 t.1 * 29 + vnBits t.2.1 * 1093 + vnBits t.2.2 * 6037)

/-- The instruction becomes a move, 350-354 and 486-497. -/
def asMov (ir : Ir) (v : Val) : Ir :=
  { ir with op := .mov, size := .unspec, cc := .none, arg1 := v, arg2 := .invalid }

/-- Store a new entry, 467-471. -/
def insertEntry (st : Lvn) (ir : Ir) (res : Nat) (vn : Option Nat) (slot : Nat) : Lvn :=
  let (v, st) := match vn with
    | none => st.newValue
    | some v => (v, st)
  { st.setVn res (some v) with tab := fun i => if i = slot then some (ir, v) else st.tab i }

/-- An entry with the same tuple was found, 484-499. -/
def useEntry (st : Lvn) (ir : Ir) (res : Nat) (eres evn : Nat) : Ir × Lvn :=
  (asMov ir (match st.regConst eres with
    | some c => .int c
    | none => .reg eres), st.setVn res (some evn))

/-- The loop, 462-503: at most `n` more probes. -/
def probe (ir : Ir) (res : Nat) (t : Tuple) (vn : Option Nat) : Nat → Nat → Option Nat → Lvn → Option (Ir × Lvn)
  | 0, _, _, st => some (ir, st)
  | n + 1, idx, stale, st =>
    match st.tab idx with
    | none => some (ir, insertEntry st ir res vn (stale.getD idx))
    | some (e, evn) =>
      match e.result with
      | none => none
      | some eres =>
        if st.regvn eres = some evn then
          match getTuple st e with
          | none => none
          | some (c, st) =>
            if c = t then some (useEntry st ir res eres evn)
            else probe ir res t vn n ((idx + 1) % st.tabsz) stale st
        else probe ir res t vn n ((idx + 1) % st.tabsz) (some idx) st

/-- `jit_lvn_generic`, 452-504. -/
def lvnGeneric (st : Lvn) (ir : Ir) (vn : Option Nat) : Option (Ir × Lvn) :=
  match ir.result with
  | none => none
  | some res =>
    (getTuple st ir).bind fun (t, st) => probe ir res t vn 10 ((tupleHash t).toNat % st.tabsz) none st

/-- `jit_lvn_mov`, 667-682. -/
def lvnMov (st : Lvn) (ir : Ir) : Option (Ir × Lvn) :=
  match ir.result with
  | none => none
  | some res =>
    if ir.arg1 = .reg res then some (ir.toNop, st)
    else
      (st.valueNum ir.arg1).bind fun (vn, st) =>
        if st.regvn res = vn then some (ir.toNop, st) else lvnGeneric st ir vn

/-- `lvn_convert_mov`, 348-357. -/
def convertMov (st : Lvn) (ir : Ir) (v : Val) : Option (Ir × Lvn) := lvnMov st (asMov ir v)

/-- `LVN_REG(ir->arg1.reg)`: the operand must be a register. -/
def convertMovReg (st : Lvn) (ir : Ir) (v : Val) : Option (Ir × Lvn) :=
  match v with
  | .reg r => convertMov st ir (.reg r)
  | _ => none

/-- `lvn_commute_const`, 423-433. -/
def commuteConst (st : Lvn) (ir : Ir) : Ir :=
  if (st.isConst ir.arg1).isSome then { ir with arg1 := ir.arg2, arg2 := ir.arg1 } else ir

/-- The macros `FOLD_MUL`, `FOLD_ADD`, `FOLD_SUB`, 513-519, 579-585, 608-614: the exact result, if it is in
the range of the signed type. -/
def foldArith (k : Arith) (size : Size) (a b : Word) : Option Word :=
  if inRange true (size.bits.getD 64) (k.eval a.toInt b.toInt) then some (BitVec.ofInt 64 (k.eval a.toInt b.toInt)) else none

/-- `is_power_of_2`, util.h 86. -/
def isPow2 (x : Word) : Bool := x &&& (x - 1) == 0

/-- Kill the flags if the instruction writes them. -/
def killIfChecked (st : Lvn) (ir : Ir) : Lvn := if ir.cc != .none then st.killFlags else st

/-- The second part of `jit_lvn_mul`, 527-544. -/
def lvnMulReg (st : Lvn) (ir : Ir) : Option (Ir × Lvn) :=
  match st.isConst ir.arg2 with
  | some rhs =>
    if rhs = 0 then convertMov st ir (.int 0)
    else if rhs = 1 then convertMovReg st ir ir.arg1
    else if 0 < rhs.toInt ∧ isPow2 rhs = true ∧ ir.size = .unspec then
      (Verif.Util.ilog2 rhs.toInt).bind fun n => lvnGeneric st { ir with op := .shl, arg2 := .int (BitVec.ofNat 64 n) } none
    else lvnGeneric st ir none
  | none => lvnGeneric st ir none

/-- `jit_lvn_mul`, 506-545. -/
def lvnMul (st : Lvn) (ir : Ir) : Option (Ir × Lvn) :=
  let st := killIfChecked st ir
  match (st.canFold ir).bind fun (a, b) => foldArith .mul ir.size a b with
  | some x => convertMov st ir (.int x)
  | none => lvnMulReg st (commuteConst st ir)

/-- `FOLD_DIV`, 555-559: both operands are converted to the type; narrow types are divided as `int`. -/
def foldDiv (size : Size) (a b : Word) : Option Word :=
  let n := size.bits.getD 64
  let x := wrap true n a.toInt
  let y := wrap true n b.toInt
  if y = 0 then none
  else if inRange true (max n 32) (x.tdiv y) then some (BitVec.ofInt 64 (wrap true n (x.tdiv y)))
  else none

/-- The number if it is not zero. -/
def nonZero (p : Word × Word) : Option (Word × Word) := if p.2 = 0 then none else some p

/-- `jit_lvn_div`, 547-570. -/
def lvnDiv (st : Lvn) (ir : Ir) : Option (Ir × Lvn) :=
  let st := killIfChecked st ir
  match (st.canFold ir).bind nonZero with
  | some (a, b) => (foldDiv ir.size a b).bind fun x => convertMov st ir (.int x)
  | none => if st.isConst ir.arg2 = some 1 then convertMovReg st ir ir.arg1 else lvnGeneric st ir none

/-- The second part of `jit_lvn_add`, 593-598. -/
def lvnAddReg (st : Lvn) (ir : Ir) : Option (Ir × Lvn) :=
  if st.isConst ir.arg2 = some 0 then convertMovReg st ir ir.arg1 else lvnGeneric st ir none

/-- `jit_lvn_add`, 572-599. -/
def lvnAdd (st : Lvn) (ir : Ir) : Option (Ir × Lvn) :=
  let st := killIfChecked st ir
  match (st.canFold ir).bind fun (a, b) => foldArith .add ir.size a b with
  | some x => convertMov st ir (.int x)
  | none => lvnAddReg st (commuteConst st ir)

/-- `jit_lvn_sub`, 601-634. -/
def lvnSub (st : Lvn) (ir : Ir) : Option (Ir × Lvn) :=
  let st := killIfChecked st ir
  match (st.canFold ir).bind fun (a, b) => foldArith .sub ir.size a b with
  | some x => convertMov st ir (.int x)
  | none =>
    if st.isConst ir.arg2 = some 0 then convertMovReg st ir ir.arg1
    else if st.isConst ir.arg1 = some 0 ∧ ir.cc = .none ∧ ir.size = .unspec then
      lvnGeneric st { ir with op := .neg, arg1 := ir.arg2, arg2 := .invalid } none
    else lvnGeneric st ir none

/-- `jit_lvn_neg`, 636-643. -/
def lvnNeg (st : Lvn) (ir : Ir) : Option (Ir × Lvn) :=
  match st.isConst ir.arg1 with
  | some a => (plain (-a.toInt)).bind fun x => convertMov st ir (.int x)
  | none => lvnGeneric st ir none

/-- `jit_lvn_xor`, 645-656. -/
def lvnXor (st : Lvn) (ir : Ir) : Option (Ir × Lvn) :=
  match st.canFold ir with
  | some (a, b) => convertMov st ir (.int (a ^^^ b))
  | none =>
    if st.isConst ir.arg1 = some 0 then convertMov st ir ir.arg2
    else if st.isConst ir.arg2 = some 0 then convertMov st ir ir.arg1
    else lvnGeneric st ir none

/-- `jit_lvn_asr`, 658-665. -/
def lvnAsr (st : Lvn) (ir : Ir) : Option (Ir × Lvn) :=
  match (st.canFold ir).bind fun (a, b) => shift BitVec.sshiftRight a b with
  | some x => convertMov st ir (.int x)
  | none => lvnGeneric st ir none

/-- Whether `jit_lvn_cmp` knows the condition code, 689-698. -/
def CC.compares : CC → Bool
  | .eq | .ne | .lt | .gt | .le | .ge => true
  | _ => false

/-- `jit_lvn_cmp`, 684-704. -/
def lvnCmp (st : Lvn) (ir : Ir) : Option (Ir × Lvn) :=
  match st.canFold ir with
  | some (a, b) =>
    if ir.cc.compares then some (ir, st.setVn st.nregs (some (if compare ir.cc a b then 1 else 0))) else none
  | none => some (ir, st.killFlags)

/-- `jit_lvn_ccmp`, 706-717. -/
def lvnCcmp (st : Lvn) (ir : Ir) : Option (Ir × Lvn) :=
  match st.regvn st.nregs with
  | some 0 => some (ir.toNop, st)
  | some _ => lvnCmp st { ir with op := .cmp }
  | none => some (ir, st.killFlags)

/-- `jit_lvn_csel`, 719-724. -/
def lvnCsel (st : Lvn) (ir : Ir) : Option (Ir × Lvn) :=
  match st.regvn st.nregs with
  | some v => convertMov st ir (if v = 0 then ir.arg2 else ir.arg1)
  | none => some (ir, st)

/-- `jit_lvn_cset`, 726-731. -/
def lvnCset (st : Lvn) (ir : Ir) : Option (Ir × Lvn) :=
  match st.regvn st.nregs with
  | some v => convertMov st ir (.int (BitVec.ofNat 64 v))
  | none => some (ir, st)

/-- The end of `jit_lvn_jump`, 748-751. -/
def lvnJumpDest (irs : List Ir) (i : Nat) (ir : Ir) (l : Nat) : Option Ir :=
  irs[l]?.map fun dest =>
    if l = i + 1 then ir.toNop
    else if dest.op = .jump ∧ dest.cc = .none then { ir with arg1 := dest.arg1 }
    else ir

/-- `jit_lvn_jump`, 733-752, for the instruction at position `i` with the destination `l`. -/
def lvnJumpTo (irs : List Ir) (i : Nat) (flags : Option Nat) (ir : Ir) (l : Nat) : Option Ir :=
  match flags with
  | some v =>
    if ir.cc = .none then lvnJumpDest irs i ir l
    else if v = (if ir.cc = .t then 1 else 0) then lvnJumpDest irs i { ir with cc := .none } l
    else some ir.toNop
  | none => lvnJumpDest irs i ir l

/-- The label of a jump. -/
def Val.labelOf : Val → Option Nat
  | .label l => some l
  | _ => none

def lvnJump (irs : List Ir) (i : Nat) (st : Lvn) (ir : Ir) : Option (Ir × Lvn) :=
  ir.arg1.labelOf.bind fun l => (lvnJumpTo irs i (st.regvn st.nregs) ir l).map fun ir => (ir, st)

/-- `jit_lvn_clamp`, 754-761. -/
def lvnClamp (st : Lvn) (ir : Ir) : Option (Ir × Lvn) :=
  match st.isConst ir.arg1 with
  | some a => convertMov st ir (.int (if a.toInt < 0 then 0 else a))
  | none => lvnGeneric st ir none

/-- `const unsigned nth = ir->arg1.int64`, 765, 782. -/
def argSlot : Val → Option Nat
  | .int i => some (i.toNat % 2 ^ 32)
  | _ => none

/-- `jit_lvn_recv`, 763-778. -/
def lvnRecv (st : Lvn) (ir : Ir) : Option (Ir × Lvn) :=
  (argSlot ir.arg1).bind fun n =>
    if trackArgs ≤ n then some (ir, st)
    else
      ir.result.map fun res =>
        match st.regvn (st.nregs + 1 + n) with
        | some v => (ir, st.setVn res (some v))
        | none =>
          let (v, st) := st.newValue
          (ir, (st.setVn (st.nregs + 1 + n) (some v)).setVn res (some v))

/-- `jit_lvn_send`, 780-793. -/
def lvnSend (st : Lvn) (ir : Ir) : Option (Ir × Lvn) :=
  (argSlot ir.arg1).bind fun n =>
    if trackArgs ≤ n then some (ir, st)
    else
      match ir.arg2 with
      | .reg _ =>
        (st.valueNum ir.arg2).map fun (vn, st) =>
          if vn ≠ none ∧ st.regvn (st.nregs + 1 + n) = vn then (ir.toNop, st) else (ir, st)
      | _ => some (ir, st)

/-- The size of a store with so many bytes, 806-833, 852-858, 900-907; `none` if there is none. -/
def storeSize (count : Word) : Option Size :=
  if count = 1 then some .s8
  else if count = 2 then some .s16
  else if count = 4 then some .s32
  else if count = 8 then some .s64
  else none

/-- The count register is clobbered, 840-841 and so on. -/
def clobber (st : Lvn) (ir : Ir) : Option (Ir × Lvn) :=
  ir.result.map fun res =>
    let (v, st) := st.newValue
    (ir, st.setVn res (some v))

/-- The instruction becomes a store. -/
def asStore (ir : Ir) (size : Size) (v : Word) : Ir :=
  { ir with op := .store, size := size, result := none, arg1 := .int v, arg2 := ir.arg1 }

/-- The number of bytes is known, 801, 847, 895. -/
def countConst (st : Lvn) (ir : Ir) : Option Word := ir.result.bind st.regConst

/-- `jit_lvn_copy`, 795-842; `pool` is the constant pool. -/
def lvnCopy (pool : Word → Size → Word) (st : Lvn) (ir : Ir) : Option (Ir × Lvn) :=
  match ir.arg2 with
  | .cpool off =>
    let ir := { ir with op := .copy }
    match countConst st ir with
    | some count =>
      if count = 0 then some (ir.toNop, st)
      else
        match storeSize count with
        | some size => some (asStore ir size (pool off size), st)
        | none => clobber st ir
    | none => clobber st ir
  | _ => if countConst st ir = some 0 then some (ir.toNop, st) else clobber st ir

/-- `jit_lvn_bzero`, 844-865. -/
def lvnBzero (st : Lvn) (ir : Ir) : Option (Ir × Lvn) :=
  match countConst st ir with
  | some count =>
    if count = 0 then some (ir.toNop, st)
    else
      match storeSize count with
      | some size => some (asStore ir size 0, st)
      | none => clobber st ir
  | none => clobber st ir

/-- `compress`, 871-873. -/
def compress : Size → Option Word
  | .s8 => some 0x01
  | .s16 => some 0x0101
  | .s32 => some 0x01010101
  | .s64 => some 0x0101010101010101
  | .unspec => none

/-- `expand`, 874-876. -/
def expand : Size → Option Word
  | .s8 => some 0x0101010101010101
  | .s16 => some 0x0001000100010001
  | .s32 => some 0x100000001
  | .s64 => some 1
  | .unspec => none

/-- `mask`, 877-879. -/
def sizeMask : Size → Word
  | .s8 => 0xff
  | .s16 => 0xffff
  | .s32 => 0xffffffff
  | _ => 0xffffffffffffffff

/-- The end of `jit_lvn_memset`, 894-914, for the known value `bits`. -/
def lvnMemsetCount (st : Lvn) (ir : Ir) (bits : Word) : Option (Ir × Lvn) :=
  match countConst st ir with
  | some count =>
    if count = 0 then some (ir.toNop, st)
    else
      match storeSize count with
      | some size => (expand ir.size).map fun m => (asStore ir size ((bits * m) &&& sizeMask size), st)
      | none => clobber st ir
  | none => clobber st ir

/-- `jit_lvn_memset`, 867-915. -/
def lvnMemset (st : Lvn) (ir : Ir) : Option (Ir × Lvn) :=
  match st.isConst ir.arg2 with
  | some v =>
    if v = 0 then lvnBzero st { ir with op := .bzero, size := .unspec, arg2 := .invalid }
    else
      (compress ir.size).bind fun m =>
        if v = (v &&& 0xff) * m then lvnMemsetCount st { ir with size := .s8, arg2 := .int (v &&& 0xff) } (v &&& 0xff)
        else lvnMemsetCount st ir v
  | none => clobber st ir

/-- `ir->arg1.int64 = 1`, which does not change the kind of the operand: in a register operand the number of
the register is overwritten (on a little-endian machine). -/
def storeInt64 (v : Val) (x : Nat) : Option Val :=
  match v with
  | .int _ => some (.int (BitVec.ofNat 64 x))
  | .reg _ => some (.reg x)
  | _ => none

/-- `jit_lvn_exp`, 917-933. -/
def lvnExp (st : Lvn) (ir : Ir) : Option (Ir × Lvn) :=
  if ir.cc != .none then lvnGeneric st.killFlags ir none
  else
    match st.canFold ir with
    | some (a, b) => (power .unspec .none a b).bind fun (x, _) => convertMov st ir (.int x)
    | none =>
      if st.isConst ir.arg1 = some 2 then
        (storeInt64 ir.arg1 1).bind fun v => lvnGeneric st { ir with op := .shl, arg1 := v } none
      else lvnGeneric st ir none

/-- The result is not numbered, 982-985. -/
def lvnOther (st : Lvn) (ir : Ir) : Lvn :=
  let st := if ir.writesFlags then st.killFlags else st
  match ir.result with
  | some r => st.setVn r none
  | none => st

/-- One instruction, 955-986. -/
def lvnIr (pool : Word → Size → Word) (irs : List Ir) (i : Nat) (st : Lvn) (ir : Ir) : Option (Ir × Lvn) :=
  match ir.op with
  | .mul => lvnMul st ir
  | .div => lvnDiv st ir
  | .add => lvnAdd st ir
  | .sub => lvnSub st ir
  | .neg => lvnNeg st ir
  | .xor => lvnXor st ir
  | .asr => lvnAsr st ir
  | .mov => lvnMov st ir
  | .cmp => lvnCmp st ir
  | .ccmp => lvnCcmp st ir
  | .csel => lvnCsel st ir
  | .cset => lvnCset st ir
  | .jump => lvnJump irs i st ir
  | .clamp => lvnClamp st ir
  | .recv => lvnRecv st ir
  | .send => lvnSend st ir
  | .move | .copy => lvnCopy pool st ir
  | .bzero => lvnBzero st ir
  | .memset => lvnMemset st ir
  | .exp => lvnExp st ir
  | .exit | .call => some (ir, lvnOther st.killArgs ir)
  | _ => some (ir, lvnOther st ir)

/-- The loop, 946-987: `n` instructions from position `i` on. -/
def lvnLoop (pool : Word → Size → Word) (nregs : Nat) : Nat → Nat → Bool → List Ir → Lvn → Option (List Ir)
  | 0, _, _, irs, _ => some irs
  | n + 1, i, reset, irs, st =>
    irs[i]?.bind fun ir =>
      (lvnIr pool irs i (if reset || ir.target then st.reset else st) ir).bind fun (ir', st) =>
        let irs := irs.set i ir'
        lvnLoop pool nregs n (i + 1) (isTerminator { irs := irs, nregs := nregs } i ir') irs st

/-- The state at the beginning, 937-944. -/
def lvnStart (f : Func) : Lvn :=
  { nregs := f.nregs, regvn := fun _ => none, next := firstVn, tab := fun _ => none,
    tabsz := (Verif.Util.nextPowerOf2 (BitVec.ofNat 32 f.irs.length)).toNat, consts := [] }

/-- `jit_do_lvn`, 935-993. -/
def lvn (pool : Word → Size → Word) (f : Func) : Option Func :=
  (lvnLoop pool f.nregs f.irs.length 0 true f.irs (lvnStart f)).map fun irs => { f with irs := irs }

end Verif.Code
