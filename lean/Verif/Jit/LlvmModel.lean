import Verif.Jit.CfgModel

/-!
# Code generation with LLVM

Model of `/repo/src/jit/jit-llvm.c` lines 1064-2513, 2732-2825, 2884-3091 and 3166-3287: from the
intermediate code of a function to an LLVM function in static single assignment form.

An expression stands for the instructions that compute it, which are emitted where it is evaluated.  A
value has 64 bits, of which an integer of a smaller type uses the low ones; a value that is not defined
(poison) and an operation whose behaviour is not defined are both a fault, `none`.  What the calls into the
library of LLVM reject, an operand of the wrong type for example, makes generation fail; so does a failed
assertion of the generator.

Simplifications: only code that is used at once (`CGEN_JIT`) is modelled, not that which is saved in a file
and loads addresses through relocations; debugging information, names, alignments, orderings and the anchor
of the frame are left out; the guard for functions whose entry may change (2827-2882) is left out; an
addition to a pointer is one on its 64 bits; a stack allocation yields the address that the interpreter
uses; a move gives a new value instead of another name for the old one; arithmetic on values of 32 bits, which
only handles have, is rejected; the list of edges into a block is in another order.
-/

namespace Verif.Code.Llvm

/-- `llvm_type_t`, jit-llvm.c 50-73, those of values. -/
inductive Ty where
  | i1 | i8 | i16 | i32 | i64 | ptr | f64
  deriving DecidableEq, Repr

def Ty.bits : Ty → Nat
  | .i1 => 1
  | .i8 => 8
  | .i16 => 16
  | .i32 => 32
  | .i64 | .ptr | .f64 => 64

/-- `LLVM_INT8 + size`; for an unspecified size this is `LLVM_INTPTR`. -/
def tyOf : Size → Ty
  | .s8 => .i8
  | .s16 => .i16
  | .s32 => .i32
  | .s64 | .unspec => .i64

/-- The names of values: `phi` for what a register holds at the start of a block, `res` and `flag` for what
the instruction at a position computes. -/
inductive Ref where
  | phi (b r : Nat)
  | phiFlag (b : Nat)
  | res (i : Nat)
  | flag (i : Nat)
  deriving DecidableEq, Repr

/-- Instructions with two operands. -/
inductive Bin where
  | add | sub | mul | sdiv | srem | shl | ashr | and | or | xor
  deriving DecidableEq, Repr

inductive Expr where
  | ref (r : Ref) (t : Ty)
  | const (t : Ty) (w : Word)
  /-- an address in the pool of constants -/
  | cpool (o : Word)
  /-- the address of a counter -/
  | cover (t : Word)
  | bin (op : Bin) (a b : Expr)
  | neg (a : Expr)
  | gep (p i : Expr)
  | toPtr (a : Expr)
  | toInt (a : Expr)
  /-- to an integer or a real number with the same bits -/
  | cast (t : Ty) (a : Expr)
  | trunc (t : Ty) (a : Expr)
  /-- from the given type to 64 bits -/
  | sext (t : Ty) (a : Expr)
  | zext (t : Ty) (a : Expr)
  | icmp (cc : CC) (a b : Expr)
  | fcmp (cc : CC) (a b : Expr)
  | not (a : Expr)
  | and (a b : Expr)
  | select (c a b : Expr)
  /-- the value of `llvm.sadd.with.overflow` and its like -/
  | ovf (k : Arith) (signed : Bool) (t : Ty) (a b : Expr)
  /-- its flag -/
  | ovfFlag (k : Arith) (signed : Bool) (t : Ty) (a b : Expr)
  /-- the value of `nvc.sexp.with.overflow` and its like -/
  | exp (signed : Bool) (t : Ty) (a b : Expr)
  | expFlag (signed : Bool) (t : Ty) (a b : Expr)
  /-- operations on real numbers -/
  | real (op : Op) (a b : Expr)
  | real1 (op : Op) (a : Expr)
  deriving DecidableEq, Repr

/-- Whether LLVM has integers of the type that the generator computes with. -/
def Ty.isInt : Ty → Bool
  | .i8 | .i16 | .i32 | .i64 => true
  | _ => false

/-- `LLVMTypeOf`, or `none` if the instruction is not valid. -/
def Expr.ty : Expr → Option Ty
  | .ref _ t => some t
  | .const t _ => some t
  | .cpool _ => some .ptr
  | .cover _ => some .ptr
  | .bin _ a b => if a.ty = some .i64 ∧ b.ty = some .i64 then some .i64 else none
  | .neg a => if a.ty = some .i64 then some .i64 else none
  | .gep p i => if p.ty = some .ptr ∧ i.ty = some .i64 then some .ptr else none
  | .toPtr a => if a.ty = some .i64 then some .ptr else none
  | .toInt a => if a.ty = some .ptr then some .i64 else none
  | .cast t a =>
    if (t = .i64 ∨ t = .f64) ∧ (a.ty = some .i64 ∨ a.ty = some .f64) then some t else none
  | .trunc t a => if t.isInt = true ∧ ∃ s, a.ty = some s ∧ s.isInt = true ∧ t.bits < s.bits then some t else none
  | .sext t a => if t.isInt = true ∧ t.bits < 64 ∧ a.ty = some t then some .i64 else none
  | .zext t a => if (t.isInt = true ∨ t = .i1) ∧ t.bits < 64 ∧ a.ty = some t then some .i64 else none
  | .icmp _ a b =>
    if (a.ty = some .i64 ∧ b.ty = some .i64) ∨ (a.ty = some .ptr ∧ b.ty = some .ptr) then some .i1 else none
  | .fcmp _ a b => if a.ty = some .f64 ∧ b.ty = some .f64 then some .i1 else none
  | .not a => if a.ty = some .i1 then some .i1 else none
  | .and a b => if a.ty = some .i1 ∧ b.ty = some .i1 then some .i1 else none
  | .select c a b => if c.ty = some .i1 ∧ a.ty = b.ty then a.ty else none
  | .ovf _ _ t a b => if t.isInt = true ∧ a.ty = some t ∧ b.ty = some t then some t else none
  | .ovfFlag _ _ t a b => if t.isInt = true ∧ a.ty = some t ∧ b.ty = some t then some .i1 else none
  | .exp _ t a b => if t.isInt = true ∧ a.ty = some t ∧ b.ty = some t then some t else none
  | .expFlag _ t a b => if t.isInt = true ∧ a.ty = some t ∧ b.ty = some t then some .i1 else none
  | .real _ a b => if a.ty = some .f64 ∧ b.ty = some .f64 then some .f64 else none
  | .real1 .scvtf a => if a.ty = some .i64 then some .f64 else none
  | .real1 .fcvtns a => if a.ty = some .f64 then some .i64 else none
  | .real1 _ a => if a.ty = some .f64 then some .f64 else none

/-! ## what the instructions mean -/

/-- The low bits. -/
def low (n : Nat) (w : Word) : Word := (w.setWidth n).setWidth 64

/-- The low bits as a signed number. -/
def signExt (n : Nat) (w : Word) : Word := (w.setWidth n).signExtend 64

/-- An instruction with two operands of 64 bits; a division by zero or whose result does not fit, and a
shift by 64 or more, are faults. -/
def Bin.eval : Bin → Word → Word → Option Word
  | .add, a, b => some (a + b)
  | .sub, a, b => some (a - b)
  | .mul, a, b => some (a * b)
  | .sdiv, a, b => if b = 0 ∨ (a.toInt = -2 ^ 63 ∧ b.toInt = -1) then none else some (a.sdiv b)
  | .srem, a, b => if b = 0 ∨ (a.toInt = -2 ^ 63 ∧ b.toInt = -1) then none else some (a.srem b)
  | .shl, a, b => if b.toNat < 64 then some (a <<< b.toNat) else none
  | .ashr, a, b => if b.toNat < 64 then some (a.sshiftRight b.toNat) else none
  | .and, a, b => some (a &&& b)
  | .or, a, b => some (a ||| b)
  | .xor, a, b => some (a ^^^ b)

/-- The integer that the low bits stand for. -/
def asInt (signed : Bool) (n : Nat) (w : Word) : Int :=
  if signed then (w.setWidth n).toInt else (w.setWidth n).toNat

/-- `llvm.sadd.with.overflow` and its like: the low bits of the exact result, and whether it does not
fit. -/
def withOverflow (k : Arith) (signed : Bool) (n : Nat) (a b : Word) : Word × Bool :=
  let exact := k.eval (asInt signed n a) (asInt signed n b)
  ((BitVec.ofInt n exact).setWidth 64, !inRange signed n exact)

/-- `cgen_exp_overflow_body`, 3166-3287, the loop from its header.  The exponent is shifted as an unsigned
number of `n` bits, so that `n` rounds are enough. -/
def llExp (signed : Bool) (n : Nat) : Nat → Int → Nat → Int → Bool → Bool → Int × Bool
  | 0, _, _, r, o, _ => (r, o)
  | rounds + 1, x, y, r, o, xo =>
    if y = 0 then (r, o)
    else
      let r2 := if y % 2 = 0 then r else wrap signed n (r * x)
      let o2 := if y % 2 = 0 then o else (o || xo) || !inRange signed n (r * x)
      llExp signed n rounds (wrap signed n (x * x)) (y / 2) r2 o2 (!inRange signed n (x * x))

/-- `nvc.sexp.with.overflow` and its like. -/
def expOverflow (signed : Bool) (n : Nat) (a b : Word) : Word × Bool :=
  let (r, o) := llExp signed n n (asInt signed n a) (b.setWidth n).toNat 1 false false
  ((BitVec.ofInt n r).setWidth 64, o)

/-- Whether the bits are those of a number that compares with nothing. -/
def isNaN (w : Word) : Bool := (w &&& 0x7ff0000000000000 == 0x7ff0000000000000) && (w &&& 0xfffffffffffff != 0)

/-- Everything outside the registers.  Where the code that LLVM makes does not do what the interpreter
does, there is a function of its own. -/
structure LEnv (W : Type) where
  env : Env W
  /-- store 32 bits in the argument vector, 1424-1459 -/
  send32 : W → Word → Word → Option W
  /-- `nvc.memset`, 2040-2066, 3289-3353 -/
  memset : W → Size → Word → Word → Word → Option W
  /-- `llvm.uadd.sat`, 2306-2323 -/
  sadd : W → Size → Word → Word → Option W
  /-- `nvc.tlab_alloc`, 2149-2164, 3093-3164 -/
  lalloc : W → Word → Option (Word × W)
  /-- 2264-2276 -/
  trim : W → Option W

def ofBool (b : Bool) : Word := if b then 1 else 0

section
variable {W : Type}

/-- The value of an expression. -/
def Expr.eval (x : LEnv W) (σ : Ref → Option Word) : Expr → Option Word
  | .ref r _ => σ r
  | .const t w => some (low t.bits w)
  | .cpool o => some (x.env.cpool + o)
  | .cover t => some (x.env.cover t)
  | .bin op a b => (a.eval x σ).bind fun a => (b.eval x σ).bind fun b => op.eval a b
  | .neg a => (a.eval x σ).map fun a => -a
  | .gep p i => (p.eval x σ).bind fun p => (i.eval x σ).map fun i => p + i
  | .toPtr a | .toInt a | .cast _ a => a.eval x σ
  | .trunc t a => (a.eval x σ).map fun a => low t.bits a
  | .sext t a => (a.eval x σ).map fun a => signExt t.bits a
  | .zext t a => (a.eval x σ).map fun a => low t.bits a
  | .icmp cc a b => (a.eval x σ).bind fun a => (b.eval x σ).map fun b => ofBool (compare cc a b)
  | .fcmp cc a b => (a.eval x σ).bind fun a => (b.eval x σ).map fun b =>
      ofBool (isNaN a || isNaN b || x.env.fcompare cc a b)
  | .not a => (a.eval x σ).map fun a => a ^^^ 1
  | .and a b => (a.eval x σ).bind fun a => (b.eval x σ).map fun b => a &&& b
  | .select c a b => (c.eval x σ).bind fun c => (a.eval x σ).bind fun a => (b.eval x σ).map fun b =>
      if c = 0 then b else a
  | .ovf k s t a b => (a.eval x σ).bind fun a => (b.eval x σ).map fun b => (withOverflow k s t.bits a b).1
  | .ovfFlag k s t a b => (a.eval x σ).bind fun a => (b.eval x σ).map fun b => ofBool (withOverflow k s t.bits a b).2
  | .exp s t a b => (a.eval x σ).bind fun a => (b.eval x σ).map fun b => (expOverflow s t.bits a b).1
  | .expFlag s t a b => (a.eval x σ).bind fun a => (b.eval x σ).map fun b => ofBool (expOverflow s t.bits a b).2
  | .real op a b => (a.eval x σ).bind fun a => (b.eval x σ).bind fun b => x.env.farith op a b
  | .real1 op a => (a.eval x σ).bind fun a => x.env.farith op a 0

end

/-- Instructions with effects. -/
inductive Act where
  | recv (n : Word)
  | send (n : Word) (v : Expr)
  | send32 (n : Word) (v : Expr)
  | store (s : Size) (v p : Expr)
  | load (s : Size) (signed : Bool) (p : Expr)
  | copy (n d s : Expr)
  | move (n d s : Expr)
  | bzero (n d : Expr)
  | memset (s : Size) (n d v : Expr)
  | sadd (s : Size) (p v : Expr)
  | galloc (n : Expr)
  | lalloc (n : Expr)
  | salloc (o n : Word)
  | call (h : Word)
  | exit (e : Word)
  | getpriv (h : Word)
  | putpriv (h : Word) (v : Expr)
  | trim
  deriving DecidableEq, Repr

/-- What is emitted for an instruction that does not end a block. -/
inductive Code where
  | nop
  /-- the value named `res` -/
  | val (e : Expr)
  /-- the values named `res` and `flag` -/
  | valFlag (e fl : Expr)
  | flag (fl : Expr)
  | act (a : Act)
  /-- the value that the instruction returns is named `res` -/
  | actVal (a : Act)
  deriving DecidableEq, Repr

/-- The instruction that ends a block. -/
inductive Term where
  | br (b : Nat)
  | condBr (c : Expr) (t f : Nat)
  | switch (v : Expr) (cases : List (Word × Nat)) (els : Nat)
  | ret
  | reexec
  | unreachable
  deriving DecidableEq, Repr

/-! ## the generator -/

/-- `outregs` and `outflags` of a block. -/
structure Gen where
  regs : Nat → Option Expr
  flags : Expr

/-- `cgen_must_be_pointer`, 2732-2742. -/
def mustPtr (m : Mask) (v : Val) : Mask :=
  match v.regOf with
  | some r => m.set r
  | none => m

def setOpt (m : Mask) (r : Option Nat) : Mask :=
  match r with
  | some r => m.set r
  | none => m

/-- One round of the loop in `cgen_pointer_mask`, 2748-2784. -/
def ptrIr (m : Mask) (ir : Ir) : Mask :=
  match ir.op with
  | .load | .uload | .bzero | .sadd => mustPtr m ir.arg1
  | .store | .putpriv => mustPtr m ir.arg2
  | .copy | .move => mustPtr (mustPtr m ir.arg1) ir.arg2
  | .add | .mov =>
    match ir.arg1 with
    | .reg r => if m r then setOpt m ir.result else m
    | _ => m
  | .lea | .getpriv | .lalloc | .salloc | .galloc => setOpt m ir.result
  | _ => m

/-- `cgen_pointer_mask`, 2744-2785. -/
def ptrMask (f : Func) : Mask := f.irs.foldl ptrIr fun _ => false

/-- `cgen_get_value`, 1171-1242. -/
def getValue (g : Gen) : Val → Option Expr
  | .reg r => g.regs r
  | .int i => some (.const .i64 i)
  | .dbl b => some (.const .f64 b)
  | .cpool o => some (.cpool o)
  | .addrReg r d =>
    (g.regs r).bind fun p =>
      if d = 0 then some p
      else if p.ty = some .ptr then some (.gep p (.const .i64 d))
      else some (.bin .add p (.const .i64 d))
  | .exit e => some (.const .i32 (BitVec.ofNat 64 e))
  | .handle h => some (.const .i32 h)
  | .addrAbs a => some (.const .ptr a)
  | .cover t => some (.cover t)
  | .locus p => some (.const .ptr p)
  | _ => none

/-- `cgen_coerce_value` to a pointer, 1250-1254. -/
def coercePtr (e : Expr) : Option Expr :=
  match e.ty with
  | some .i64 => some (.toPtr e)
  | some .ptr => some e
  | _ => none

/-- `cgen_coerce_value` to an integer with more than one bit, 1262-1284.  A pointer stays what it is. -/
def coerceInt (t : Ty) (e : Expr) : Option Expr :=
  match e.ty with
  | some .ptr => some e
  | some .f64 => if t = .i64 then some (.cast .i64 e) else none
  | some s =>
    if s.isInt then
      if s.bits < t.bits then some (.sext s e)
      else if s = t then some e
      else some (.trunc t e)
    else none
  | none => none

/-- `cgen_coerce_value` to one bit, 1274-1277. -/
def coerceBool (e : Expr) : Option Expr := some (.icmp .ne e (.const .i64 0))

/-- `cgen_coerce_value` to a real number, 1288-1289. -/
def coerceReal (e : Expr) : Option Expr := some (.cast .f64 e)

/-- `cgen_pointer_result`, 1298-1311. -/
def ptrResult (m : Mask) (r : Nat) (e : Expr) : Option Expr :=
  if e.ty = some .ptr then some (if m r then e else .toInt e) else none

/-- `cgen_sext_result`, 1313-1343. -/
def sextResult (m : Mask) (r : Nat) (e : Expr) : Option Expr :=
  match e.ty with
  | some .i64 => some e
  | some .f64 => some (.cast .i64 e)
  | some .ptr => ptrResult m r e
  | some .i1 => none
  | some t => some (.sext t e)
  | none => none

/-- `cgen_zext_result`, 1345-1365. -/
def zextResult (e : Expr) : Option Expr :=
  match e.ty with
  | some .i64 => some e
  | some .f64 | some .ptr => none
  | some t => some (.zext t e)
  | none => none

def setReg (g : Gen) (r : Nat) (e : Expr) : Gen := { g with regs := fun q => if q = r then some e else g.regs q }

/-- The instruction at `i` computes the value for its result register.  A pointer only goes to a register in
the mask, since results that may be pointers pass through `cgen_pointer_result`. -/
def setVal (m : Mask) (i : Nat) (g : Gen) (result : Option Nat) (e : Expr) : Option (Code × Gen) :=
  result.bind fun r => e.ty.bind fun t =>
    if t = .i64 ∨ (t = .ptr ∧ m r = true) then some (.val e, setReg g r (.ref (.res i) t)) else none

/-- It also computes the flags. -/
def setValFlag (m : Mask) (i : Nat) (g : Gen) (result : Option Nat) (e fl : Expr) : Option (Code × Gen) :=
  result.bind fun r => e.ty.bind fun t =>
    if (t = .i64 ∨ (t = .ptr ∧ m r = true)) ∧ fl.ty = some .i1 then
      some (.valFlag e fl, { setReg g r (.ref (.res i) t) with flags := .ref (.flag i) .i1 })
    else none

def setFlag (i : Nat) (g : Gen) (fl : Expr) : Option (Code × Gen) :=
  if fl.ty = some .i1 then some (.flag fl, { g with flags := .ref (.flag i) .i1 }) else none

/-- The instruction returns a value of type `t`. -/
def setAct (i : Nat) (g : Gen) (result : Option Nat) (t : Ty) (a : Act) : Option (Code × Gen) :=
  result.map fun r => (.actVal a, setReg g r (.ref (.res i) t))

/-- The type of the register, pointer or not. -/
def regTy (m : Mask) (r : Option Nat) : Ty :=
  match r with
  | some r => if m r then .ptr else .i64
  | none => .i64

/-- The type of the operands with a check for overflow: the function for an unspecified size is another. -/
def checkTy : Size → Option Ty
  | .unspec => none
  | s => some (tyOf s)

/-- `cgen_op_sub` and `cgen_op_mul`, 1555-1617, and `cgen_op_add` with a check, 1507-1531. -/
def genChecked (m : Mask) (i : Nat) (ir : Ir) (g : Gen) (k : Arith) (signed : Bool) : Option (Code × Gen) :=
  (checkTy ir.size).bind fun t =>
    ((getValue g ir.arg1).bind (coerceInt t)).bind fun a =>
      ((getValue g ir.arg2).bind (coerceInt t)).bind fun b =>
        ir.result.bind fun r =>
          (if signed then sextResult m r (.ovf k signed t a b) else zextResult (.ovf k signed t a b)).bind fun e =>
            setValFlag m i g ir.result e (.ovfFlag k signed t a b)

/-- An instruction with two operands and no check. -/
def genBin (m : Mask) (i : Nat) (ir : Ir) (g : Gen) (op : Bin) : Option (Code × Gen) :=
  (getValue g ir.arg1).bind fun a => (getValue g ir.arg2).bind fun b => setVal m i g ir.result (.bin op a b)

/-- The sum for `cgen_op_add` without a check, 1533-1552. -/
def addExpr (m : Mask) (r : Nat) (a b : Expr) : Option Expr :=
  if a.ty = some .ptr then ptrResult m r (.gep a b)
  else if m r then ptrResult m r (.gep (.toPtr a) b)
  else some (.bin .add a b)

/-- `cgen_op_add`, 1507-1553. -/
def genAdd (m : Mask) (i : Nat) (ir : Ir) (g : Gen) : Option (Code × Gen) :=
  match ir.cc with
  | .o => genChecked m i ir g .add true
  | .c => genChecked m i ir g .add false
  | _ => (getValue g ir.arg1).bind fun a => (getValue g ir.arg2).bind fun b => ir.result.bind fun r =>
      (addExpr m r a b).bind fun e => setVal m i g ir.result e

def genSubMul (m : Mask) (i : Nat) (ir : Ir) (g : Gen) (k : Arith) (op : Bin) : Option (Code × Gen) :=
  match ir.cc with
  | .o => genChecked m i ir g k true
  | .c => genChecked m i ir g k false
  | _ => genBin m i ir g op

/-- The condition codes of comparisons, 1064-1090. -/
def CC.isCompare : CC → Bool
  | .eq | .ne | .lt | .gt | .le | .ge => true
  | _ => false

/-- A pointer is compared with a pointer, 1791-1797, 1808-1814. -/
def icmpExpr (cc : CC) (a b : Expr) : Expr :=
  if a.ty = some .ptr ∧ b.ty ≠ some .ptr then .icmp cc a (.toPtr b)
  else if a.ty ≠ some .ptr ∧ b.ty = some .ptr then .icmp cc (.toPtr a) b
  else .icmp cc a b

/-- `cgen_op_cmp` and `cgen_op_ccmp`, 1786-1820. -/
def genCmp (i : Nat) (ir : Ir) (g : Gen) (chain : Bool) : Option (Code × Gen) :=
  if CC.isCompare ir.cc then
    (getValue g ir.arg1).bind fun a => (getValue g ir.arg2).bind fun b =>
      setFlag i g (if chain then .and g.flags (icmpExpr ir.cc a b) else icmpExpr ir.cc a b)
  else none

/-- `cgen_op_fcmp` and `cgen_op_fccmp`, 1822-1840. -/
def genFcmp (i : Nat) (ir : Ir) (g : Gen) (chain : Bool) : Option (Code × Gen) :=
  if CC.isCompare ir.cc then
    ((getValue g ir.arg1).bind coerceReal).bind fun a => ((getValue g ir.arg2).bind coerceReal).bind fun b =>
      setFlag i g (if chain then .and g.flags (.fcmp ir.cc a b) else .fcmp ir.cc a b)
  else none

/-- `cgen_op_fadd` and its like, 1655-1689, and `cgen_macro_fexp`, 1979-1988. -/
def genReal (m : Mask) (i : Nat) (ir : Ir) (g : Gen) : Option (Code × Gen) :=
  ((getValue g ir.arg1).bind coerceReal).bind fun a => ((getValue g ir.arg2).bind coerceReal).bind fun b =>
    ir.result.bind fun r => (sextResult m r (.real ir.op a b)).bind fun e => setVal m i g ir.result e

/-- `cgen_op_fneg`, `cgen_op_fcvtns`, `cgen_op_scvtf`, 1691-1719. -/
def genReal1 (m : Mask) (i : Nat) (ir : Ir) (g : Gen) : Option (Code × Gen) :=
  ((getValue g ir.arg1).bind fun e => if ir.op = .scvtf then some e else coerceReal e).bind fun a =>
    ir.result.bind fun r => (sextResult m r (.real1 ir.op a)).bind fun e => setVal m i g ir.result e

/-- `cgen_macro_exp`, 1955-1977. -/
def genExp (m : Mask) (i : Nat) (ir : Ir) (g : Gen) : Option (Code × Gen) :=
  let t := if ir.cc = .o ∨ ir.cc = .c then checkTy ir.size else if tyOf ir.size = .i64 then some .i64 else none
  let signed := ir.cc != .c
  t.bind fun t =>
    ((getValue g ir.arg1).bind (coerceInt t)).bind fun a =>
      ((getValue g ir.arg2).bind (coerceInt t)).bind fun b =>
        ir.result.bind fun r =>
          (if signed then sextResult m r (.exp signed t a b) else zextResult (.exp signed t a b)).bind fun e =>
            setValFlag m i g ir.result e (.expFlag signed t a b)

/-- `cgen_op_send`, 1424-1459. -/
def genSend (g : Gen) (ir : Ir) : Option (Code × Gen) :=
  match ir.arg1 with
  | .int n => (getValue g ir.arg2).bind fun v =>
    match v.ty with
    | some .i64 | some .ptr | some .f64 => some (.act (.send n v), g)
    | some .i32 => some (.act (.send32 n v), g)
    | _ => none
  | _ => none

/-- `cgen_op_store`, 1461-1476.  A pointer is stored with all its bits. -/
def genStore (g : Gen) (ir : Ir) : Option (Code × Gen) :=
  ((getValue g ir.arg1).bind (coerceInt (tyOf ir.size))).bind fun v =>
    ((getValue g ir.arg2).bind coercePtr).bind fun p =>
      if v.ty = some .ptr then some (.act (.store .s64 v p), g)
      else if v.ty = some (tyOf ir.size) then some (.act (.store ir.size v p), g)
      else none

/-- `cgen_op_load`, 1478-1505.  A pointer is loaded with all its bits. -/
def genLoad (m : Mask) (i : Nat) (ir : Ir) (g : Gen) : Option (Code × Gen) :=
  ((getValue g ir.arg1).bind coercePtr).bind fun p => ir.result.bind fun r =>
    if m r then
      if ir.op = .uload then none else setAct i g ir.result .ptr (.load .s64 true p)
    else (checkTy ir.size).bind fun _ => setAct i g ir.result .i64 (.load ir.size (ir.op == .load) p)

/-- The register that holds a count of bytes. -/
def countOf (g : Gen) (ir : Ir) : Option Expr :=
  (ir.result.bind g.regs).bind fun n => if n.ty = some .i64 then some n else none

/-- An operand of 64 bits. -/
def getInt (g : Gen) (v : Val) : Option Expr :=
  (getValue g v).bind fun n => if n.ty = some .i64 then some n else none

/-- `cgen_ir`, 2325-2491, for instructions that do not end a block. -/
def genIr (m : Mask) (i : Nat) (ir : Ir) (g : Gen) : Option (Code × Gen) :=
  match ir.op with
  | .recv =>
    match ir.arg1 with
    | .int n => setAct i g ir.result (regTy m ir.result) (.recv n)
    | _ => none
  | .send => genSend g ir
  | .store => genStore g ir
  | .load | .uload => genLoad m i ir g
  | .add => genAdd m i ir g
  | .sub => genSubMul m i ir g .sub .sub
  | .mul => genSubMul m i ir g .mul .mul
  | .div => genBin m i ir g .sdiv
  | .rem => genBin m i ir g .srem
  | .shl => genBin m i ir g .shl
  | .asr => genBin m i ir g .ashr
  | .and => genBin m i ir g .and
  | .or => genBin m i ir g .or
  | .xor => genBin m i ir g .xor
  | .fadd | .fsub | .fmul | .fdiv | .fexp => genReal m i ir g
  | .fneg | .fcvtns | .scvtf => genReal1 m i ir g
  | .not =>
    ((getValue g ir.arg1).bind coerceBool).bind fun a => (zextResult (.not a)).bind fun e => setVal m i g ir.result e
  | .cmp => genCmp i ir g false
  | .ccmp => genCmp i ir g true
  | .fcmp => genFcmp i ir g false
  | .fccmp => genFcmp i ir g true
  | .cset => (zextResult g.flags).bind fun e => setVal m i g ir.result e
  | .csel => (getValue g ir.arg1).bind fun a => (getValue g ir.arg2).bind fun b => ir.result.bind fun r =>
      (sextResult m r (.select g.flags a b)).bind fun e => setVal m i g ir.result e
  | .lea => (getValue g ir.arg1).bind fun p => ir.result.bind fun r =>
      (if p.ty = some .ptr then ptrResult m r p else zextResult p).bind fun e => setVal m i g ir.result e
  | .mov => (getValue g ir.arg1).bind fun p => ir.result.bind fun r =>
      (sextResult m r p).bind fun e => setVal m i g ir.result e
  | .neg => (getValue g ir.arg1).bind fun a => setVal m i g ir.result (.neg a)
  | .clamp => (getValue g ir.arg1).bind fun a =>
      setVal m i g ir.result (.select (.icmp .lt a (.const .i64 0)) (.const .i64 0) a)
  | .call =>
    match ir.arg1 with
    | .handle h => some (.act (.call h), g)
    | _ => none
  | .debug | .nop | .trap => some (.nop, g)
  | .exp => genExp m i ir g
  | .copy => (countOf g ir).bind fun n => ((getValue g ir.arg1).bind coercePtr).bind fun d =>
      ((getValue g ir.arg2).bind coercePtr).bind fun s => some (.act (.copy n d s), g)
  | .move => (countOf g ir).bind fun n => ((getValue g ir.arg1).bind coercePtr).bind fun d =>
      ((getValue g ir.arg2).bind coercePtr).bind fun s => some (.act (.move n d s), g)
  | .bzero => (countOf g ir).bind fun n => ((getValue g ir.arg1).bind coercePtr).bind fun d =>
      some (.act (.bzero n d), g)
  | .memset => (checkTy ir.size).bind fun t => (countOf g ir).bind fun n =>
      ((getValue g ir.arg1).bind coercePtr).bind fun d => ((getValue g ir.arg2).bind (coerceInt t)).bind fun v =>
        if v.ty = some t then some (.act (.memset ir.size n d v), g) else none
  | .sadd => (checkTy ir.size).bind fun t => ((getValue g ir.arg1).bind coercePtr).bind fun p =>
      ((getValue g ir.arg2).bind (coerceInt t)).bind fun v =>
        if v.ty = some t then some (.act (.sadd ir.size p v), g) else none
  | .galloc => (getInt g ir.arg1).bind fun n => setAct i g ir.result (regTy m ir.result) (.galloc n)
  | .lalloc => (getInt g ir.arg1).bind fun n => setAct i g ir.result (regTy m ir.result) (.lalloc n)
  | .salloc =>
    match ir.arg1, ir.arg2 with
    | .int o, .int n => setAct i g ir.result (regTy m ir.result) (.salloc o n)
    | _, _ => none
  | .exit =>
    match ir.arg1 with
    | .exit e => some (.act (.exit (BitVec.ofNat 64 e)), g)
    | _ => none
  | .getpriv =>
    match ir.arg1 with
    | .handle h => setAct i g ir.result (regTy m ir.result) (.getpriv h)
    | _ => none
  | .putpriv =>
    match ir.arg1 with
    | .handle h => ((getValue g ir.arg2).bind coercePtr).bind fun v => some (.act (.putpriv h v), g)
    | _ => none
  | .trim => some (.act .trim, g)
  | .jump | .ret | .case | .reexec => none

/-- Instructions for which the generator ends the block. -/
def Op.ends : Op → Bool
  | .jump | .ret | .case | .reexec => true
  | _ => false

/-- The cases of a switch, 2254-2261: values are constants, and different. -/
def genCases (out : List Nat) : List Ir → Nat → Option (List (Word × Nat))
  | [], _ => some []
  | ir :: rest, nth =>
    match ir.op, ir.arg1, out[nth + 1]? with
    | .case, .int v, some d => (genCases out rest (nth + 1)).bind fun l =>
        if (l.map Prod.fst).contains v then none else some ((v, d) :: l)
    | _, _, _ => none

/-- The instruction that ends the block, from the first one that has an end: `cgen_op_jump`, 1760-1784,
`cgen_op_ret`, 1755-1758, `cgen_macro_case`, 2235-2262, `cgen_macro_reexec`, 2278-2304. -/
def genTerm (k : Nat) (b : Block) (irs : List Ir) (g : Gen) : Option Term :=
  match irs with
  | [] => none
  | ir :: _ =>
    match ir.op with
    | .jump =>
      match ir.cc, b.out with
      | .none, [d] => some (.br d)
      | .t, [_, d] => some (.condBr g.flags d (k + 1))
      | .f, [_, d] => some (.condBr g.flags (k + 1) d)
      | _, _ => none
    | .ret => some .ret
    | .reexec => some .reexec
    | .case =>
      (ir.result.bind g.regs).bind fun v =>
        if v.ty = some .i64 ∧ b.out.length = irs.length + 1 then
          (genCases b.out irs 0).map fun l => .switch v l (k + 1)
        else none
    | _ => none

/-- The end of a block that has none yet, 3018-3027. -/
def fallTerm (nblocks k : Nat) (b : Block) : Option Term :=
  if b.aborts then some .unreachable
  else if b.returns = false ∧ k + 1 < nblocks then some (.br (k + 1))
  else none

/-- The instructions of a block from position `i` on: the loop in `cgen_function`, 2961-3030. -/
def genRest (m : Mask) (nblocks k : Nat) (b : Block) : List Ir → Nat → Gen → Option (List Code × Term × Gen)
  | [], _, g => (fallTerm nblocks k b).map fun t => ([], t, g)
  | ir :: rest, i, g =>
    if Op.ends ir.op then (genTerm k b (ir :: rest) g).map fun t => ([], t, g)
    else (genIr m i ir g).bind fun (c, g1) =>
      (genRest m nblocks k b rest (i + 1) g1).map fun (cs, t, g2) => (c :: cs, t, g2)

/-- `cgen_fix_liveout_types`, 2807-2825. -/
def fixLiveout (m : Mask) (liveout : Mask) (g : Gen) : Gen :=
  { g with regs := fun j => (g.regs j).map fun e =>
      if liveout j = true ∧ m j = true ∧ e.ty ≠ some .ptr then .toPtr e else e }

/-- A block of the LLVM function. -/
structure LBlock where
  first : Nat
  body : List Code
  term : Term
  /-- whether what is live at the start are phi nodes -/
  phi : Bool
  out : Gen

/-- The blocks from which there is an edge to `c`, as often as there is one. -/
def preds (blocks : List Block) (c : Nat) : List Nat :=
  blocks.zipIdx.flatMap fun (b, k) => (b.out.filter (· == c)).map fun _ => k

/-- The block from which everything is taken if there is only one edge, 2968-2970, 2976, 2993. -/
def domOf (blocks : List Block) (k : Nat) : Option Nat :=
  match preds blocks k with
  | [d] => if d < k then some d else none
  | _ => none

/-- The values at the start of block `k`, 2972-3008.  `livein` has a bit for every register and one for the
flags. -/
def genIn (m : Mask) (nregs : Nat) (blocks : List Block) (done : List LBlock) (k : Nat) (livein : Mask) :
    Option Gen :=
  match domOf blocks k with
  | some d =>
    (done[d]?).bind fun db =>
      if (List.range nregs).all fun j => !livein j || (db.out.regs j).isSome then
        some ⟨fun j => if j < nregs ∧ livein j = true then db.out.regs j else none,
          if livein nregs then db.out.flags else .const .i1 0⟩
      else none
  | none =>
    if preds blocks k = [] then
      some ⟨fun j => if j < nregs ∧ livein j = true then some (.const (if m j then .ptr else .i64) 0) else none,
        .const .i1 0⟩
    else
      some ⟨fun j => if j < nregs ∧ livein j = true then some (.ref (.phi k j) (if m j then .ptr else .i64)) else none,
        if livein nregs then .ref (.phiFlag k) .i1 else .const .i1 0⟩

/-- One block, 2961-3034. -/
def genBlock (f : Func) (m : Mask) (blocks : List Block) (live : Nat → Mask) (done : List LBlock) (k : Nat)
    (b : Block) : Option LBlock :=
  (genIn m f.nregs blocks done k (liveIn f b (live k))).bind fun g =>
    (genRest m blocks.length k b (blockIrs f b) b.first g).map fun (cs, t, g2) =>
      ⟨b.first, cs, t, (domOf blocks k).isNone && !(preds blocks k).isEmpty, fixLiveout m (live k) g2⟩

def genBlocks (f : Func) (m : Mask) (blocks : List Block) (live : Nat → Mask) :
    List Block → List LBlock → Option (List LBlock)
  | [], done => some done
  | b :: rest, done =>
    (genBlock f m blocks live done done.length b).bind fun lb => genBlocks f m blocks live rest (done ++ [lb])

/-- What is added to the phi nodes of block `c`, 3044-3077, has their type; and control enters the first
block from outside, so that it can have none. -/
def phiOk (f : Func) (m : Mask) (blocks : List Block) (live : Nat → Mask) (l : List LBlock) (c : Nat) : Bool :=
  match blocks[c]?, l[c]? with
  | some b, some lb =>
    !lb.phi ||
      ((List.range f.nregs).all fun j => !liveIn f b (live c) j ||
        (c != 0 && (preds blocks c).all fun p =>
          ((l[p]?.bind fun pb => pb.out.regs j).bind Expr.ty) == some (if m j then .ptr else .i64))) &&
      (!liveIn f b (live c) f.nregs || c != 0)
  | _, _ => false

/-- `cgen_function`, 2884-3091. -/
def cgen (f : Func) (blocks : List Block) (live : Nat → Mask) : Option (List LBlock) :=
  (genBlocks f (ptrMask f) blocks live blocks []).bind fun l =>
    if (List.range blocks.length).all (phiOk f (ptrMask f) blocks live l) then some l else none

/-! ## running the code -/

/-- A block, a position in it, the values and the world. -/
structure LState (W : Type) where
  blk : Nat
  pos : Nat
  vals : Ref → Option Word
  world : W

inductive LRes (W : Type) where
  | next (s : LState W)
  | halt (returns : Bool) (w : W)

section
variable {W : Type}

def setRef (σ : Ref → Option Word) (r : Ref) (v : Word) : Ref → Option Word := fun q => if q = r then some v else σ q

/-- A value and the world from a call that returns. -/
def ok (v : Option Word) (w : Option W) : Option (Bool × Option Word × W) := w.map fun w => (true, v, w)

/-- An instruction with effects: whether it returns, its value and the world. -/
def Act.run (x : LEnv W) (σ : Ref → Option Word) (w : W) : Act → Option (Bool × Option Word × W)
  | .recv n => (x.env.recv w n).map fun v => (true, some v, w)
  | .send n v => (v.eval x σ).bind fun v => ok none (x.env.send w n v)
  | .send32 n v => (v.eval x σ).bind fun v => ok none (x.send32 w n v)
  | .store s v p => (v.eval x σ).bind fun v => (p.eval x σ).bind fun p => ok none (x.env.store w s v p)
  | .load s signed p => (p.eval x σ).bind fun p => (x.env.load w s signed p).map fun v => (true, some v, w)
  | .copy n d s => (n.eval x σ).bind fun n => (d.eval x σ).bind fun d => (s.eval x σ).bind fun s =>
      ok none (x.env.copy w n d s)
  | .move n d s => (n.eval x σ).bind fun n => (d.eval x σ).bind fun d => (s.eval x σ).bind fun s =>
      ok none (x.env.move w n d s)
  | .bzero n d => (n.eval x σ).bind fun n => (d.eval x σ).bind fun d => ok none (x.env.bzero w n d)
  | .memset s n d v => (n.eval x σ).bind fun n => (d.eval x σ).bind fun d => (v.eval x σ).bind fun v =>
      ok none (x.memset w s n d v)
  | .sadd s p v => (p.eval x σ).bind fun p => (v.eval x σ).bind fun v => ok none (x.sadd w s p v)
  | .galloc n => (n.eval x σ).bind fun n => (x.env.galloc w n).map fun (v, w) => (true, some v, w)
  | .lalloc n => (n.eval x σ).bind fun n => (x.lalloc w n).map fun (v, w) => (true, some v, w)
  | .salloc o n => (x.env.salloc o n).map fun v => (true, some v, w)
  | .call h => ok none (x.env.call w h)
  | .exit e => (x.env.exit w e).map fun (r, w) => (r, none, w)
  | .getpriv h => (x.env.getpriv w h).map fun v => (true, some v, w)
  | .putpriv h v => (v.eval x σ).bind fun v => ok none (x.env.putpriv w h v)
  | .trim => ok none (x.trim w)

/-- What the code for the instruction at `i` does: whether control goes on, the values and the world. -/
def Code.run (x : LEnv W) (i : Nat) (σ : Ref → Option Word) (w : W) : Code → Option (Bool × (Ref → Option Word) × W)
  | .nop => some (true, σ, w)
  | .val e => (e.eval x σ).map fun v => (true, setRef σ (.res i) v, w)
  | .valFlag e fl => (e.eval x σ).bind fun v => (fl.eval x σ).map fun b =>
      (true, setRef (setRef σ (.res i) v) (.flag i) b, w)
  | .flag fl => (fl.eval x σ).map fun b => (true, setRef σ (.flag i) b, w)
  | .act a => (a.run x σ w).map fun (go, _, w) => (go, σ, w)
  | .actVal a => (a.run x σ w).bind fun (go, v, w) => v.map fun v => (go, setRef σ (.res i) v, w)

/-- The phi nodes of block `c` take their values, all at once, when control comes from block `k`. -/
def enter (x : LEnv W) (l : List LBlock) (k c : Nat) (σ : Ref → Option Word) : Ref → Option Word := fun r =>
  match r, l[k]?, l[c]? with
  | .phi c' j, some kb, some cb =>
    if c' = c ∧ cb.phi = true then (kb.out.regs j).bind fun e => e.eval x σ else σ r
  | .phiFlag c', some kb, some cb => if c' = c ∧ cb.phi = true then kb.out.flags.eval x σ else σ r
  | _, _, _ => σ r

/-- Control goes to the start of a block. -/
def goBlock (x : LEnv W) (l : List LBlock) (s : LState W) (c : Nat) : LRes W :=
  .next ⟨c, 0, enter x l s.blk c s.vals, s.world⟩

/-- The block for a value. -/
def pick (v : Word) (els : Nat) : List (Word × Nat) → Nat
  | [] => els
  | (c, d) :: l => if v = c then d else pick v els l

def Term.run (x : LEnv W) (l : List LBlock) (s : LState W) : Term → Option (LRes W)
  | .br c => some (goBlock x l s c)
  | .condBr c t f => (c.eval x s.vals).map fun v => goBlock x l s (if v = 0 then f else t)
  | .switch v cases els => (v.eval x s.vals).map fun v => goBlock x l s (pick v els cases)
  | .ret => some (.halt true s.world)
  | .reexec => (x.env.reexec s.world).map fun w => .halt true w
  | .unreachable => none

def lstep (x : LEnv W) (l : List LBlock) (s : LState W) : Option (LRes W) :=
  (l[s.blk]?).bind fun b =>
    match b.body[s.pos]? with
    | some c => (c.run x (b.first + s.pos) s.vals s.world).map fun (go, σ, w) =>
        if go then .next ⟨s.blk, s.pos + 1, σ, w⟩ else .halt false w
    | none => b.term.run x l s

/-- At most `n` steps. -/
def lrun (x : LEnv W) (l : List LBlock) : Nat → LState W → Option (LRes W)
  | 0, s => some (.next s)
  | n + 1, s => match lstep x l s with
    | some (.next s') => lrun x l n s'
    | r => r

/-- The start of the function. -/
def lstart (w : W) : LState W := ⟨0, 0, fun _ => none, w⟩

end

end Verif.Code.Llvm
