import Verif.Jit.LlvmProps

/-!
# Programs for which the LLVM function does something else

Each of them compiles; the first component is whether the function returns, the second what it sends.
-/

namespace Verif.Code.Llvm

/-- `x ** 4` with a check in a type of 32 bits, and whether there was an overflow. -/
def expFunc : Func :=
  { irs := [mk .recv (some 0) (.int 0), mkSize .exp .s32 (some 1) (.reg 0) (.int 4) .o, mk .cset (some 2),
      mk .send none (.int 0) (.reg 2), mk .ret none], nregs := 3 }

/-- 65536 ** 4 = 2 ** 64 is far out of range.  The square overflows, but the square of the truncated square
does not, and only the last one counts: the code of LLVM reports no overflow, and the result is zero. -/
theorem llvm_exp_counterexample : compiles expFunc = true ∧
    iend (run wordEnv expFunc 9 (istart 65536)) = some (true, 1) ∧
    lend (lrun wordX (compile expFunc) 9 (lstart 65536)) = some (true, 0) ∧
    expOverflow true 32 65536 4 = (0, false) := by decide +kernel

/-- The body of the function is right when the first overflow is that of the last square. -/
example : expOverflow true 32 65536 2 = (0, true) ∧ expOverflow true 32 3 4 = (81, false) := by decide +kernel

/-- A comparison of a real number. -/
def nanFunc : Func :=
  { irs := [mk .recv (some 0) (.int 0), mk .fcmp none (.reg 0) (.dbl 0) .lt, mk .cset (some 1),
      mk .send none (.int 0) (.reg 1), mk .ret none], nregs := 2 }

/-- For a number that compares with nothing the predicates that LLVM is given are true, 1060-1077. -/
theorem llvm_nan_counterexample : compiles nanFunc = true ∧
    iend (run wordEnv nanFunc 9 (istart 0x7ff8000000000000)) = some (true, 0) ∧
    lend (lrun wordX (compile nanFunc) 9 (lstart 0x7ff8000000000000)) = some (true, 1) := by decide +kernel

/-- A power without a check between a comparison and the reader of its flags. -/
def expFlagFunc : Func :=
  { irs := [mk .recv (some 0) (.int 0), mk .cmp none (.reg 0) (.int 3) .eq,
      mkSize .exp .s64 (some 1) (.reg 0) (.int 2), mk .cset (some 2),
      mk .send none (.int 0) (.reg 2), mk .ret none], nregs := 3 }

/-- The flags are those of the comparison in the interpreter, and of the power in the LLVM function,
1955-1977. -/
theorem llvm_exp_flags_counterexample : compiles expFlagFunc = true ∧
    iend (run wordEnv expFlagFunc 9 (istart 3)) = some (true, 1) ∧
    lend (lrun wordX (compile expFlagFunc) 9 (lstart 3)) = some (true, 0) := by decide +kernel

/-- Two cases that test different registers. -/
def switchFunc : Func :=
  { irs := [mk .recv (some 0) (.int 0), mk .mov (some 1) (.int 5),
      mk .case (some 0) (.int 1) (.label 6), mk .case (some 1) (.int 5) (.label 8),
      mk .send none (.int 0) (.int 10), mk .ret none,
      mk .send none (.int 0) (.int 11) .none true, mk .ret none,
      mk .send none (.int 0) (.int 12) .none true, mk .ret none], nregs := 2 }

/-- They become one switch on the first register, 2240-2261. -/
theorem llvm_switch_counterexample : compiles switchFunc = true ∧
    iend (run wordEnv switchFunc 9 (istart 7)) = some (true, 12) ∧
    lend (lrun wordX (compile switchFunc) 9 (lstart 7)) = some (true, 10) := by decide +kernel

/-- A handle in a register and as an operand, as for a subprogram that is not known. -/
def handleFunc : Func :=
  { irs := [mk .mov (some 0) (.handle 0xffffffff), mk .send none (.int 0) (.reg 0), mk .ret none], nregs := 1 }

/-- A handle is unsigned in the interpreter, and extended with its sign in the LLVM function. -/
theorem llvm_handle_counterexample : compiles handleFunc = true ∧
    iend (run wordEnv handleFunc 9 (istart 0)) = some (true, 0xffffffff) ∧
    lend (lrun wordX (compile handleFunc) 9 (lstart 0)) = some (true, 0xffffffffffffffff) := by decide +kernel

/-- Code for which there is no LLVM function: the second case has the value of the first, so that the switch
is not valid; the interpreter takes the first. -/
def twiceFunc : Func :=
  { irs := [mk .recv (some 0) (.int 0), mk .case (some 0) (.int 1) (.label 4), mk .case (some 0) (.int 1) (.label 4),
      mk .ret none, mk .send none (.int 0) (.int 11) .none true, mk .ret none], nregs := 1 }

example : compiles twiceFunc = false ∧ iend (run wordEnv twiceFunc 9 (istart 1)) = some (true, 11) := by decide +kernel

/-- A register that is live at the start of a function that is a loop: the phi node would need a value for
the entry. -/
def loopFunc : Func :=
  { irs := [mk .add (some 0) (.reg 0) (.int 1) .none true, mk .cmp none (.reg 0) (.int 3) .eq,
      mk .jump none (.label 0) .invalid .f, mk .send none (.int 0) (.reg 0), mk .ret none], nregs := 1 }

example : compiles loopFunc = false ∧ iend (run wordEnv loopFunc 20 (istart 1)) = some (true, 3) := by decide +kernel

end Verif.Code.Llvm
