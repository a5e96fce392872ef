import Verif.Jit.IrModel

/-!
# Copy propagation in the intermediate code

Model of `/repo/src/jit/jit-optim.c` lines 998-1044.

Simplification: the array `map` with an element for each register is a function, so reading the entry of
a register that the function does not have, an access outside the array in C, reads an invalid entry here.
-/

namespace Verif.Code

/-- The array `map`: what each register is a copy of, or `invalid`. -/
abbrev CopyMap := Nat → Val

def CopyMap.empty : CopyMap := fun _ => .invalid

/-- `map[r] = v` -/
def CopyMap.set (m : CopyMap) (r : Nat) (v : Val) : CopyMap := fun q => if q = r then v else m q

/-- Replace an operand, jit-optim.c 1011-1021: only a plain register. -/
def propVal (m : CopyMap) : Val → Val
  | .reg r => if m r = .invalid then .reg r else m r
  | v => v

def propIr (m : CopyMap) (ir : Ir) : Ir :=
  { ir with arg1 := propVal m ir.arg1, arg2 := propVal m ir.arg2 }

/-- The result register is not written, jit-optim.c 1025-1027. -/
def Op.keepsResult : Op → Bool
  | .memset | .copy | .move | .bzero => true
  | _ => false

/-- Invalidate any existing copies of the register, jit-optim.c 1028-1034. -/
def dropCopies (m : CopyMap) (d : Nat) : CopyMap :=
  if m d = .invalid then m else fun j => if m j = .reg d then .invalid else m j

/-- The map after an instruction whose operands have been replaced, jit-optim.c 1023-1042. -/
def afterIr (m : CopyMap) (ir : Ir) : CopyMap :=
  match ir.result with
  | none => m
  | some d =>
    if ir.op.keepsResult then m
    else if ir.op = .mov then
      let m := (dropCopies m d).set d ir.arg1
      match ir.arg1 with
      | .reg r => m.set r (.reg r)
      | _ => m
    else (dropCopies m d).set d .invalid

/-- The loop, jit-optim.c 1002-1043: at index `i`, with the instructions that are left. -/
def cpropLoop (f : Func) (i : Nat) (reset : Bool) (m : CopyMap) : List Ir → List Ir
  | [] => []
  | ir :: rest =>
    let m := if reset || ir.target then CopyMap.empty else m
    let ir' := propIr m ir
    ir' :: cpropLoop f (i + 1) (isTerminator f i ir') (afterIr m ir') rest

/-- `jit_do_cprop`, jit-optim.c 998-1044. -/
def cprop (f : Func) : Func := { f with irs := cpropLoop f 0 true CopyMap.empty f.irs }

/-! ## which kinds of operands the interpreter handles -/

/-- How an instruction reads an operand. -/
inductive Access where
  /-- not at all, or of one fixed kind that is never a register -/
  | fixed
  /-- `interp_get_int`, jit-interp.c 135-147 -/
  | int
  /-- `interp_get_real`, jit-interp.c 150-162 -/
  | real
  /-- `interp_get_pointer`, jit-interp.c 165-184 -/
  | pointer
  /-- `interp_get_scalar`, jit-interp.c 187-222 -/
  | scalar
  deriving DecidableEq, Repr

def Access.accepts : Access → Val → Bool
  | .fixed, _ => true
  | .int, .reg _ | .int, .int _ | .int, .dbl _ | .int, .addrAbs _ => true
  | .int, _ => false
  | .real, .reg _ | .real, .int _ | .real, .dbl _ => true
  | .real, _ => false
  | .pointer, .reg _ | .pointer, .cpool _ | .pointer, .addrReg _ _ | .pointer, .addrAbs _
  | .pointer, .cover _ => true
  | .pointer, _ => false
  | .scalar, .invalid | .scalar, .exit _ | .scalar, .loc | .scalar, .vpos => false
  | .scalar, _ => true

/-- How each instruction reads its operands, jit-interp.c 224-884. -/
def Op.access : Op → Access × Access
  | .send => (.fixed, .scalar)
  | .and | .or | .xor | .add | .sub | .mul | .div | .rem | .shl | .asr | .exp => (.int, .int)
  | .cmp | .ccmp | .csel => (.int, .int)
  | .fadd | .fsub | .fmul | .fdiv | .fexp | .fcmp | .fccmp => (.real, .real)
  | .store => (.scalar, .pointer)
  | .uload | .load | .lea => (.pointer, .fixed)
  | .clamp | .neg | .not | .scvtf => (.int, .fixed)
  | .fneg | .fcvtns => (.real, .fixed)
  | .mov => (.scalar, .fixed)
  | .copy | .move => (.pointer, .pointer)
  | .bzero => (.pointer, .fixed)
  | .memset | .sadd => (.pointer, .int)
  | .galloc | .lalloc | .case => (.int, .fixed)
  | .putpriv => (.fixed, .pointer)
  | .recv | .ret | .trap | .jump | .cset | .call | .debug | .nop | .exit | .getpriv | .salloc | .trim
  | .reexec => (.fixed, .fixed)

/-- The interpreter handles both operands. -/
def Ir.accepted (ir : Ir) : Bool :=
  ir.op.access.1.accepts ir.arg1 && ir.op.access.2.accepts ir.arg2

end Verif.Code
