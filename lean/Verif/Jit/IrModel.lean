/-!
# The intermediate code of the just-in-time compiler and its interpreter

Model of the instructions, `/repo/src/jit/jit-priv.h` lines 31-311, and of the interpreter,
`/repo/src/jit/jit-interp.c` lines 135-1058.

Registers hold 64 bits.  Memory, the argument vector, the stack frame and everything else outside the
registers is a world of any type, changed by the functions of an environment; so are the operations on
real numbers.  A fault, which stands for an undefined operation, a failed assertion or a fatal error of
the interpreter, is `none`.

Simplifications: the three ways to read an operand (`interp_get_int`, `interp_get_pointer`,
`interp_get_scalar`, 135-222), which differ in the kinds they accept, are one function that accepts all
(which kinds are accepted is in `CpropModel`); the count `nargs` of arguments, which only a dump for
debugging reads, is left out; calls, and exits to the run-time system, either return or
end the function.
-/

namespace Verif.Code

/-- A 64-bit register, `jit_scalar_t`. -/
abbrev Word := BitVec 64

/-- `jit_op_t`, jit-priv.h 31-89. -/
inductive Op where
  | send | recv | add | ret | trap | uload | store | jump | cmp | cset | sub | mov | fadd | mul | fmul
  | call | neg | load | csel | lea | not | div | fdiv | scvtf | fneg | fcvtns | fcmp | and | or | xor
  | fsub | rem | debug | nop | asr | shl | clamp | ccmp | fccmp
  | copy | galloc | exit | fexp | exp | bzero | getpriv | putpriv | lalloc | salloc | case | trim
  | move | memset | reexec | sadd
  deriving DecidableEq, Repr

/-- `jit_size_t`, jit-priv.h 91-98. -/
inductive Size where
  | s8 | s16 | s32 | s64 | unspec
  deriving DecidableEq, Repr

/-- `jit_cc_t`, jit-priv.h 100-114. -/
inductive CC where
  | none | t | f | eq | ne | lt | ge | gt | le | o | no | c | nc
  deriving DecidableEq, Repr

/-- `jit_value_t`, jit-priv.h 180-219; the displacement is sign-extended. -/
inductive Val where
  | invalid
  | reg (r : Nat)
  | int (i : Word)
  | dbl (bits : Word)
  | addrReg (r : Nat) (disp : Word)
  | addrAbs (a : Word)
  | cpool (off : Word)
  | cover (tag : Word)
  | label (l : Nat)
  | handle (h : Word)
  | exit (e : Nat)
  | loc
  | vpos
  | locus (p : Word)
  deriving DecidableEq, Repr

/-- `jit_ir_t`, jit-priv.h 223-231; `JIT_REG_INVALID` is `none`. -/
structure Ir where
  op : Op
  size : Size
  target : Bool
  cc : CC
  result : Option Nat
  arg1 : Val
  arg2 : Val
  deriving DecidableEq, Repr

/-- `jit_func_t`, jit-priv.h 290-311: what matters here. -/
structure Func where
  irs : List Ir
  nregs : Nat
  deriving DecidableEq, Repr

/-- Everything outside the registers. -/
structure Env (W : Type) where
  cpool : Word
  cover : Word → Word
  recv : W → Word → Option Word
  send : W → Word → Word → Option W
  load : W → Size → Bool → Word → Option Word
  store : W → Size → Word → Word → Option W
  copy : W → Word → Word → Word → Option W
  move : W → Word → Word → Word → Option W
  bzero : W → Word → Word → Option W
  memset : W → Size → Word → Word → Word → Option W
  sadd : W → Size → Word → Word → Option W
  galloc : W → Word → Option (Word × W)
  lalloc : W → Word → Option (Word × W)
  salloc : Word → Word → Option Word
  call : W → Word → Option W
  /-- whether the exit returns, and the world after it -/
  exit : W → Word → Option (Bool × W)
  getpriv : W → Word → Option Word
  putpriv : W → Word → Word → Option W
  trim : W → Option W
  reexec : W → Option W
  /-- operations on the bits of real numbers -/
  farith : Op → Word → Word → Option Word
  fcompare : CC → Word → Word → Bool

/-- The interpreter's `jit_interp_t`. -/
structure State (W : Type) where
  regs : Nat → Word
  flags : Bool
  pc : Nat
  world : W

/-- What to do next. -/
inductive Ctl where
  | next
  | goto (l : Nat)
  /-- the function ends, by returning or not -/
  | stop (returns : Bool)
  deriving DecidableEq, Repr

/-- What an instruction does: the value for the result register, new flags, and so on. -/
structure Eff (W : Type) where
  result : Option Word
  flags : Option Bool
  world : W
  ctl : Ctl

/-- `interp_get_int`, `interp_get_pointer`, `interp_get_scalar`, jit-interp.c 135-222. -/
def eval {W} (env : Env W) (regs : Nat → Word) : Val → Word
  | .invalid => 0
  | .reg r => regs r
  | .int i => i
  | .dbl b => b
  | .addrReg r d => regs r + d
  | .addrAbs a => a
  | .cpool o => env.cpool + o
  | .cover t => env.cover t
  | .label l => BitVec.ofNat 64 l
  | .handle h => h
  | .exit e => BitVec.ofNat 64 e
  | .loc => 0
  | .vpos => 0
  | .locus p => p

/-- Number of bits, `FOR_EACH_SIZE`, jit-interp.c 65-74. -/
def Size.bits : Size → Option Nat
  | .s8 => some 8
  | .s16 => some 16
  | .s32 => some 32
  | .s64 => some 64
  | .unspec => none

/-- Whether a number is in the range of the signed or unsigned type with `n` bits. -/
def inRange (signed : Bool) (n : Nat) (x : Int) : Bool :=
  if signed then decide (-2 ^ (n - 1) ≤ x ∧ x < 2 ^ (n - 1)) else decide (0 ≤ x ∧ x < 2 ^ n)

/-- Conversion to the type with `n` bits, as a number. -/
def wrap (signed : Bool) (n : Nat) (x : Int) : Int :=
  if signed then x.bmod (2 ^ n) else x % 2 ^ n

/-- The three operations with checks. -/
inductive Arith where
  | add | sub | mul
  deriving DecidableEq, Repr

def Arith.eval : Arith → Int → Int → Int
  | .add, a, b => a + b
  | .sub, a, b => a - b
  | .mul, a, b => a * b

/-- The macros `ADD_OVERFLOW`, `UADD_OVERFLOW` and their like, jit-interp.c 276-295, 335-354, 378-397:
both operands are converted to the type, and `__builtin_add_overflow` computes the wrapped result and
whether it differs from the exact one. -/
def checked (k : Arith) (signed : Bool) (n : Nat) (a b : Word) : Word × Bool :=
  let i1 := wrap signed n a.toInt
  let i2 := wrap signed n b.toInt
  let exact := k.eval i1 i2
  (BitVec.ofInt 64 (wrap signed n exact), !inRange signed n exact)

/-- The loop of `EXP_OVERFLOW` and `UEXP_OVERFLOW`, jit-interp.c 702-711, 720-729.  The exponent is
converted to the type too: if it is negative then the arithmetic shift never makes it zero (`none`). -/
def expLoop (signed : Bool) (n : Nat) (xt : Int) (yt : Nat) (r : Int) (overflow xo : Bool) :
    Int × Bool :=
  if _h : yt = 0 then (r, overflow)
  else
    let (r, overflow) :=
      if yt % 2 = 1 then
        if xo then (r, true)
        else (wrap signed n (r * xt), overflow || !inRange signed n (r * xt))
      else (r, overflow)
    expLoop signed n (wrap signed n (xt * xt)) (yt / 2) r overflow
      (xo || !inRange signed n (xt * xt))
termination_by yt

def checkedExp (signed : Bool) (n : Nat) (x y : Word) : Option (Word × Bool) :=
  let xt := wrap signed n x.toInt
  let yt := wrap signed n y.toInt
  if yt < 0 then none
  else
    let (r, o) := expLoop signed n xt yt.toNat 1 false false
    some (BitVec.ofInt 64 r, o)

/-- Signed arithmetic in `int64_t`, which must not overflow. -/
def plain (x : Int) : Option Word := if inRange true 64 x then some (BitVec.ofInt 64 x) else none

/-- The operation of ADD, SUB and MUL, jit-interp.c 268-301, 327-360, 370-403. -/
def arith (k : Arith) (size : Size) (cc : CC) (a b : Word) : Option (Word × Option Bool) :=
  match cc with
  | .o => size.bits.map fun n => let (r, o) := checked k true n a b; (r, some o)
  | .c => size.bits.map fun n => let (r, o) := checked k false n a b; (r, some o)
  | _ => (plain (k.eval a.toInt b.toInt)).map fun r => (r, none)

/-- `interp_exp`, jit-interp.c 694-737.  Without a check `ipow` is called, which fails a debugging
assertion on overflow. -/
def power (size : Size) (cc : CC) (x y : Word) : Option (Word × Option Bool) :=
  match cc with
  | .o => size.bits.bind fun n => (checkedExp true n x y).map fun (r, o) => (r, some o)
  | .c => size.bits.bind fun n => (checkedExp false n x y).map fun (r, o) => (r, some o)
  | _ => (checkedExp true 64 x y).bind fun (r, o) => if o then none else some (r, none)

/-- `interp_cmp`, jit-interp.c 508-522. -/
def compare (cc : CC) (a b : Word) : Bool :=
  match cc with
  | .eq => a == b
  | .ne => a != b
  | .lt => decide (a.toInt < b.toInt)
  | .gt => decide (a.toInt > b.toInt)
  | .le => decide (a.toInt ≤ b.toInt)
  | .ge => decide (a.toInt ≥ b.toInt)
  | _ => false

/-- `arg1 / arg2`, with the cases that trap. -/
def divide (a b : Word) : Option Word :=
  if b = 0 then none else plain (a.toInt.tdiv b.toInt)

/-- The shift amount must be below 64. -/
def shift (f : Word → Nat → Word) (a b : Word) : Option Word :=
  if b.toNat < 64 then some (f a b.toNat) else none

section
variable {W : Type}

/-- The value is written to the result register, nothing else happens. -/
def give (w : W) (x : Option Word) : Option (Eff W) := x.map fun x => ⟨some x, none, w, .next⟩

/-- The value is written and perhaps the flags. -/
def giveFlags (w : W) (x : Option (Word × Option Bool)) : Option (Eff W) :=
  x.map fun (x, f) => ⟨some x, f, w, .next⟩

/-- Only the world changes. -/
def act (w : Option W) : Option (Eff W) := w.map fun w => ⟨none, none, w, .next⟩

/-- The world changes, and a value is written. -/
def actGive (x : Option (Word × W)) : Option (Eff W) := x.map fun (x, w) => ⟨some x, none, w, .next⟩

/-- `interp_jump`, jit-interp.c 599-617. -/
def jumpTo (w : W) (cc : CC) (flags : Bool) (l : Word) : Option (Eff W) :=
  match cc with
  | .none => some ⟨none, none, w, .goto l.toNat⟩
  | .t => some ⟨none, none, w, if flags then .goto l.toNat else .next⟩
  | .f => some ⟨none, none, w, if flags then .next else .goto l.toNat⟩
  | _ => none

/-- One instruction, jit-interp.c 224-884, from the values of its operands, the old value of the
result register, the flags and the world. -/
def effect (env : Env W) (op : Op) (size : Size) (cc : CC) (a b old : Word) (flags : Bool) (w : W) :
    Option (Eff W) :=
  match op with
  | .recv => give w (env.recv w a)
  | .send => act (env.send w a b)
  | .and => give w (some (a &&& b))
  | .or => give w (some (a ||| b))
  | .xor => give w (some (a ^^^ b))
  | .add => giveFlags w (arith .add size cc a b)
  | .sub => giveFlags w (arith .sub size cc a b)
  | .mul => giveFlags w (arith .mul size cc a b)
  | .div => give w (divide a b)
  | .rem => give w ((divide a b).bind fun q => plain (a.toInt - q.toInt * b.toInt))
  | .fadd | .fsub | .fmul | .fdiv | .fexp | .fneg | .scvtf | .fcvtns => give w (env.farith op a b)
  | .shl => give w (shift (· <<< ·) a b)
  | .asr => give w (shift BitVec.sshiftRight a b)
  | .ret => some ⟨none, none, w, .stop true⟩
  | .store => act (env.store w size a b)
  | .uload => give w (env.load w size false a)
  | .load => give w (env.load w size true a)
  | .cmp => some ⟨none, some (compare cc a b), w, .next⟩
  | .ccmp => some ⟨none, some (flags && compare cc a b), w, .next⟩
  | .fcmp => some ⟨none, some (env.fcompare cc a b), w, .next⟩
  | .fccmp => some ⟨none, some (flags && env.fcompare cc a b), w, .next⟩
  | .cset => give w (some (if flags then 1 else 0))
  | .jump => jumpTo w cc flags a
  | .trap => none
  | .call => act (env.call w a)
  | .mov | .lea => give w (some a)
  | .csel => give w (some (if flags then a else b))
  | .neg => give w (plain (-a.toInt))
  | .not => give w (some (if a = 0 then 1 else 0))
  | .clamp => give w (some (if a.toInt < 0 then 0 else a))
  | .debug | .nop => some ⟨none, none, w, .next⟩
  | .copy => act (env.copy w old a b)
  | .move => act (env.move w old a b)
  | .bzero => act (env.bzero w old a)
  | .memset => act (env.memset w size old a b)
  | .galloc => actGive (env.galloc w a)
  | .lalloc => actGive (env.lalloc w a)
  | .salloc => give w (env.salloc a b)
  | .exit => (env.exit w a).map fun (r, w) => ⟨none, none, w, if r then .next else .stop false⟩
  | .exp => giveFlags w (power size cc a b)
  | .getpriv => give w (env.getpriv w a)
  | .putpriv => act (env.putpriv w a b)
  | .case => some ⟨none, none, w, if old = a then .goto b.toNat else .next⟩
  | .trim => act (env.trim w)
  | .reexec => (env.reexec w).map fun w => ⟨none, none, w, .stop true⟩
  | .sadd => act (env.sadd w size a b)

def setReg (regs : Nat → Word) (r : Nat) (x : Word) : Nat → Word := fun q => if q = r then x else regs q

/-- The value is stored; without a result register this writes outside the array. -/
def writeReg (regs : Nat → Word) (r : Option Nat) (x : Option Word) : Option (Nat → Word) :=
  match x, r with
  | none, _ => some regs
  | some x, some r => some (setReg regs r x)
  | some _, none => none

/-- `cfg_reads_result`, jit-optim.c 77-81: instructions that read the result register. -/
def Op.readsResult : Op → Bool
  | .copy | .case | .bzero | .move | .memset => true
  | _ => false

/-- The register that holds the old value, if the instruction reads it. -/
def oldValue (regs : Nat → Word) (ir : Ir) : Option Word :=
  if ir.op.readsResult then ir.result.map regs else some 0

/-- The end of a function, or a state in which it goes on. -/
inductive Res (W : Type) where
  | next (s : State W)
  | halt (returns : Bool) (s : State W)

/-- Apply the effect of an instruction at `s.pc`. -/
def apply (s : State W) (result : Option Nat) (e : Eff W) : Option (Res W) :=
  (writeReg s.regs result e.result).map fun regs =>
    let s' : State W := { regs := regs, flags := e.flags.getD s.flags, pc := s.pc, world := e.world }
    match e.ctl with
    | .next => .next { s' with pc := s.pc + 1 }
    | .goto l => .next { s' with pc := l }
    | .stop r => .halt r s'

/-- Execute one instruction. -/
def execIr (env : Env W) (ir : Ir) (s : State W) : Option (Res W) :=
  (oldValue s.regs ir).bind fun old =>
    (effect env ir.op ir.size ir.cc (eval env s.regs ir.arg1) (eval env s.regs ir.arg2) old s.flags
      s.world).bind (apply s ir.result)

/-- One round of `interp_loop`, jit-interp.c 886-1058. -/
def step (env : Env W) (f : Func) (s : State W) : Option (Res W) :=
  f.irs[s.pc]?.bind fun ir => execIr env ir s

/-- At most `n` instructions. -/
def run (env : Env W) (f : Func) : Nat → State W → Option (Res W)
  | 0, s => some (.next s)
  | n + 1, s => match step env f s with
    | some (.next s') => run env f n s'
    | r => r

end

/-- `jit_writes_flags`, jit-core.c 1040-1048. -/
def Ir.writesFlags (ir : Ir) : Bool :=
  match ir.op with
  | .cmp | .fcmp | .ccmp | .fccmp => true
  | .add | .sub | .mul | .exp => ir.cc != .none
  | _ => false

/-- `jit_reads_flags`, jit-core.c 1050-1055. -/
def Ir.readsFlags (ir : Ir) : Bool :=
  match ir.op with
  | .jump => ir.cc != .none
  | .cset | .csel | .ccmp | .fccmp => true
  | _ => false

/-- `cfg_writes_result`, jit-optim.c 83-86. -/
def Ir.writesResult (ir : Ir) : Bool := ir.result.isSome && ir.op != .case

/-- `cfg_is_terminator`, jit-optim.c 30-36. -/
def isTerminator (f : Func) (i : Nat) (ir : Ir) : Bool :=
  match ir.op with
  | .case => match f.irs[i + 1]? with
    | some next => next.op != .case
    | none => false
  | .jump | .ret | .reexec => true
  | _ => false

/-- `cfg_get_reg`, jit-optim.c 66-75: the register an operand reads. -/
def Val.regOf : Val → Option Nat
  | .reg r => some r
  | .addrReg r _ => some r
  | _ => none

end Verif.Code
