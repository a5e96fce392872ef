import Verif.Jit.LvnModel
import Verif.Jit.MemEnv
import Verif.Jit.CpropProps

/-!
# Where local value numbering goes wrong

Property C51, the negative part: functions whose result is different after `jit_do_lvn`.
-/

namespace Verif.Code

/-- An empty constant pool. -/
def noPool : Word → Size → Word := fun _ _ => 0

/-- Memory that is all zero, and arguments. -/
def memWith (args : Word → Word) : Mem := { args := args, bytes := fun _ => 0, exited := none }

/-- Run a function from the start, registers zero. -/
def runMem {α} (obs : Mem → α) (args : Word → Word) (f : Func) (n : Nat) : Option (Bool × α) :=
  outcome obs (run memEnv f n ⟨fun _ => 0, false, 0, memWith args⟩)

/-- With a size. -/
def mkSize (op : Op) (size : Size) (result : Option Nat) (a b : Val := .invalid) (cc : CC := .none) : Ir :=
  { mk op result a b cc with size := size }

/-! ## checked arithmetic -/

/-- `if a = 0 then x := 5; y := x + 1` with a check: the code of a checked addition is the addition, a jump
over the code for the error if there was no overflow, and that code. -/
def foldTest : Func :=
  { irs := [mk .recv (some 0) (.int 0), mk .cmp none (.reg 0) (.int 0) .eq, mk .jump none (.label 4) .invalid .t,
      mk .ret none, mk .mov (some 1) (.int 5) .invalid .none true, mkSize .add .s32 (some 2) (.reg 1) (.int 1) .o,
      mk .jump none (.label 8) .invalid .f, mk .exit none (.exit 1), mk .send none (.int 0) (.reg 2) .none true,
      mk .ret none],
    nregs := 3 }

/-- The addition becomes a move, which does not write the flags: the jump after it looks at the result of
the comparison with 0.  The argument is 0; the original returns 6; the optimised function reports an
overflow. -/
theorem lvn_checked_counterexample :
    ∃ g, lvn noPool foldTest = some g ∧
      runMem (fun w => (w.args 0, w.exited)) (fun _ => 0) foldTest 20 = some (true, 6, none) ∧
      runMem (fun w => (w.args 0, w.exited)) (fun _ => 0) g 20 = some (false, 0, some 1) := by
  refine ⟨_, rfl, ?_⟩
  decide +kernel

/-- A subtraction of unsigned numbers, `1 - 2` with 8 bits. -/
def unsignedTest : Func :=
  { irs := [mk .mov (some 0) (.int 1), mkSize .sub .s8 (some 1) (.reg 0) (.int 2) .c,
      mk .jump none (.label 4) .invalid .f, mk .exit none (.exit 1), mk .send none (.int 0) (.reg 1) .none true,
      mk .ret none],
    nregs := 2 }

/-- The range of the signed type is used also for unsigned subtraction: the result is -1 and the overflow is
not reported. -/
theorem lvn_unsigned_counterexample :
    ∃ g, lvn noPool unsignedTest = some g ∧
      runMem (fun w => (w.args 0, w.exited)) (fun _ => 0) unsignedTest 20 = some (false, 0, some 1) ∧
      runMem (fun w => (w.args 0, w.exited)) (fun _ => 0) g 20 = some (true, -1, none) := by
  refine ⟨_, rfl, ?_⟩
  decide +kernel

/-! ## filling memory -/

/-- Fill eight bytes at the address 4096 with the number -1 of 32 bits. -/
def memsetTest : Func :=
  { irs := [mk .mov (some 0) (.int 8), mk .mov (some 1) (.int 4096), mkSize .memset .s32 (some 0) (.addrReg 1 0) (.int (-1)),
      mk .ret none],
    nregs := 2 }

/-- The value is multiplied with `0x100000001` as if it had no bits above the lower 32, so the second element
becomes -2. -/
theorem lvn_memset_counterexample :
    ∃ g, lvn noPool memsetTest = some g ∧
      runMem (fun w => (memLoad w .s32 true 4096, memLoad w .s32 true 4100)) (fun _ => 0) memsetTest 20 =
        some (true, some (-1), some (-1)) ∧
      runMem (fun w => (memLoad w .s32 true 4096, memLoad w .s32 true 4100)) (fun _ => 0) g 20 =
        some (true, some (-1), some (-2)) := by
  refine ⟨_, rfl, ?_⟩
  decide +kernel

/-! ## powers of two -/

/-- `2 ** n` where the two is in a register. -/
def expTest : Func :=
  { irs := [mk .recv (some 1) (.int 0), mk .mov (some 0) (.int 2), mk .exp (some 2) (.reg 0) (.reg 1),
      mk .send none (.int 0) (.reg 2), mk .ret none],
    nregs := 3 }

/-- The operand stays a register operand when 1 is stored in it: `1 << n` becomes `n << n`. -/
theorem lvn_exp_counterexample :
    ∃ g, lvn noPool expTest = some g ∧
      runMem (fun w => w.args 0) (fun _ => 3) expTest 20 = some (true, 8) ∧
      runMem (fun w => w.args 0) (fun _ => 3) g 20 = some (true, 24) := by
  refine ⟨_, rfl, ?_⟩
  decide +kernel

/-! ## the hash table -/

/-- Twenty other additions, then `x := x + 1` and `x` is returned; the variable is register 1. -/
def tableTest : Func :=
  { irs := [mk .recv (some 0) (.int 0), mk .mov (some 1) (.reg 0), mk .nop none .invalid .invalid .none true] ++
      ((List.range 20).map fun j => mk .add (some (5 + j)) (.reg 0) (.int (BitVec.ofNat 64 (50 + j)))) ++
      [mk .mov (some 2) (.reg 1), mk .add (some 3) (.reg 2) (.int 1), mk .mov (some 1) (.reg 3),
        mk .mov (some 4) (.reg 1), mk .send none (.int 0) (.reg 4), mk .ret none],
    nregs := 25 }

/-- The entry of the table for `r2 := r1` is compared with the numbers that the registers have now.  After
`r1` has got a new value, `r4 := r1` finds this entry, if it comes to it before another, and becomes
`r4 := r2`, the old value. -/
theorem lvn_table_counterexample :
    ∃ g, lvn noPool tableTest = some g ∧
      runMem (fun w => w.args 0) (fun _ => 10) tableTest 40 = some (true, 11) ∧
      runMem (fun w => w.args 0) (fun _ => 10) g 40 = some (true, 10) := by
  refine ⟨_, rfl, ?_⟩
  decide +kernel

/-! ## arguments -/

/-- An argument is overwritten and then restored. -/
def sendTest : Func :=
  { irs := [mk .recv (some 0) (.int 0), mk .send none (.int 0) (.int 7), mk .send none (.int 0) (.reg 0), mk .ret none],
    nregs := 1 }

/-- A send does not change the number for the argument. -/
theorem lvn_send_counterexample :
    ∃ g, lvn noPool sendTest = some g ∧
      runMem (fun w => w.args 0) (fun _ => 10) sendTest 40 = some (true, 10) ∧
      runMem (fun w => w.args 0) (fun _ => 10) g 40 = some (true, 7) := by
  refine ⟨_, rfl, ?_⟩
  decide +kernel

end Verif.Code
