import Verif.Jit.Mem2regFrame
import Verif.Jit.LvnBugs

/-!
# Promotion of stack variables: where it goes wrong, and tests

Property C62: functions whose result is different after `jit_do_mem2reg`, and a function for which all
assumptions of the theorems hold.
-/

namespace Verif.Code

/-- Flat memory with a frame at the address 0x20000. -/
def frameEnv : Env Mem := memEnv.places fun off _ => some (0x20000 + off)

/-- Run a function from the start, registers zero. -/
def runFrame (f : Func) (n : Nat) : Option (Bool × Word) :=
  outcome (fun w => w.args 0) (run frameEnv f n ⟨fun _ => 0, false, 0, memWith fun _ => 0⟩)

/-- The address of the variable `r0` is stored in the variable `r1`, read again, and used to change the first
variable. -/
def escapeTest : Func :=
  { irs := [mk .salloc (some 0) (.int 0) (.int 8), mk .salloc (some 1) (.int 8) (.int 8),
      mkSize .store .s64 none (.int 0x30000) (.reg 0), mkSize .store .s64 none (.reg 0) (.reg 1),
      mkSize .load .s64 (some 2) (.reg 1), mkSize .store .s64 none (.int 7) (.reg 2),
      mkSize .load .s64 (some 3) (.reg 0), mk .send none (.int 0) (.reg 3), mk .ret none],
    nregs := 4 }

/-- A store of the address to another place does not prevent the promotion (jit-optim.c 1192-1193 goes on to
the next instruction before line 1196 looks at the value), so the value of the variable is stored in place of
its address. -/
theorem mem2reg_escape_counterexample :
    ∃ g sz, mem2reg escapeTest 16 = some (g, sz) ∧
      runFrame escapeTest 20 = some (true, 7) ∧ runFrame g 20 = some (true, 0x30000) := by
  refine ⟨_, _, rfl, ?_⟩
  decide +kernel

/-- 300 in a variable of one byte. -/
def narrowTest : Func :=
  { irs := [mk .salloc (some 0) (.int 0) (.int 1), mkSize .store .s8 none (.int 300) (.reg 0),
      mkSize .load .s8 (some 1) (.reg 0), mk .send none (.int 0) (.reg 1), mk .ret none],
    nregs := 2 }

/-- The move that replaces a store of one byte keeps all the bits. -/
theorem mem2reg_narrow_counterexample :
    ∃ g sz, mem2reg narrowTest 8 = some (g, sz) ∧
      runFrame narrowTest 20 = some (true, 44) ∧ runFrame g 20 = some (true, 300) := by
  refine ⟨_, _, rfl, ?_⟩
  decide +kernel

/-! ## a test of the assumptions -/

/-- Two variables, one of which is promoted; the address of the other is sent. -/
def frameTest : Func :=
  { irs := [mk .salloc (some 0) (.int 0) (.int 4), mk .salloc (some 1) (.int 8) (.int 8),
      mkSize .store .s32 none (.int 5) (.reg 0), mk .send none (.int 1) (.reg 1),
      mkSize .load .s32 (some 2) (.reg 0), mk .send none (.int 0) (.reg 2), mk .ret none],
    nregs := 3 }

example : mem2reg frameTest 16 = some (
    { irs := [Ir.toNop (mk .salloc none), mk .salloc (some 1) (.int 0) (.int 8),
        mk .mov (some 0) (.int 5), mk .send none (.int 1) (.reg 1),
        mk .mov (some 2) (.reg 0), mk .send none (.int 0) (.reg 2), mk .ret none],
      nregs := 3 }, 8) := by decide +kernel

/-- The cell of the variable. -/
def frameCell : Cell := ⟨0, 0, 0x20000, .s32⟩

example : CellOk frameEnv frameTest frameCell := by
  refine ⟨?_, ?_, ?_, ?_⟩
  · intro ir h off n h1 h2
    injection h with h; subst h
    injection h1 with h1; subst h1
    rfl
  · intro ir h
    injection h with h; subst h
    exact ⟨_, rfl⟩
  · intro j ir h
    match j, h with
    | 0, h => injection h with h; subst h; decide
    | 1, h => injection h with h; subst h; decide
    | 2, h => injection h with h; subst h; decide
    | 3, h => injection h with h; subst h; decide
    | 4, h => injection h with h; subst h; decide
    | 5, h => injection h with h; subst h; decide
    | 6, h => injection h with h; subst h; decide
    | j + 7, h => simp [frameTest] at h
  · intro j ir hj
    exact absurd hj (Nat.not_lt_zero _)

/-- `CellGood` at every state of the run. -/
example : ∀ k : Nat, k < 7 → ∀ t, run (cellsEnv frameEnv [frameCell]) frameTest k
    ⟨fun _ => 0, false, 0, Cells.init (memWith fun _ => 0) [frameCell]⟩ = some (.next t) →
    CellGood frameEnv frameTest frameCell t.regs t.pc := by
  intro k hk t h
  match k, hk with
  | 0, _ => injection h with h; injection h with h; subst h; intro ir hir; injection hir with hir; subst hir; simp [Ir.accessesReg, Op.accesses, mk]
  | 1, _ => injection h with h; injection h with h; subst h; intro ir hir; injection hir with hir; subst hir; simp [Ir.accessesReg, Op.accesses, mk]
  | 2, _ => injection h with h; injection h with h; subst h; intro ir hir; injection hir with hir; subst hir; decide
  | 3, _ => injection h with h; injection h with h; subst h; intro ir hir; injection hir with hir; subst hir; simp [Ir.accessesReg, Op.accesses, mk]
  | 4, _ => injection h with h; injection h with h; subst h; intro ir hir; injection hir with hir; subst hir; decide
  | 5, _ => injection h with h; injection h with h; subst h; intro ir hir; injection hir with hir; subst hir; simp [Ir.accessesReg, Op.accesses, mk]
  | 6, _ => injection h with h; injection h with h; subst h; intro ir hir; injection hir with hir; subst hir; simp [Ir.accessesReg, Op.accesses, mk]

/-- The variable has the number, the outcome is that of the function before. -/
example : outcome (fun w => (w.base [frameCell]).args 0)
    (run (cellsEnv frameEnv [frameCell]) frameTest 10 ⟨fun _ => 0, false, 0, Cells.init (memWith fun _ => 0) [frameCell]⟩) =
    some (true, 5) := by decide +kernel

example : Frame frameTest 16 := by
  refine ⟨?_, ?_, by omega⟩
  · intro j ir h ho _
    match j, h with
    | 0, h => injection h with h; subst h; exact ⟨_, _, rfl, rfl, by simp [mk], by decide, by decide, by decide⟩
    | 1, h => injection h with h; subst h; exact ⟨_, _, rfl, rfl, by simp [mk], by decide, by decide, by decide⟩
    | 2, h => injection h with h; subst h; simp [mkSize, mk] at ho
    | 3, h => injection h with h; subst h; simp [mk] at ho
    | 4, h => injection h with h; subst h; simp [mkSize, mk] at ho
    | 5, h => injection h with h; subst h; simp [mk] at ho
    | 6, h => injection h with h; subst h; simp [mk] at ho
    | j + 7, h => simp [frameTest] at h
  · intro j k irj irk offj nj offk hjk hj hk hoj hok _ h1 h2 h3
    match k, hk with
    | 0, hk => omega
    | 1, hk =>
      have : j = 0 := by omega
      subst this
      injection hj with hj; subst hj
      injection hk with hk; subst hk
      injection h1 with h1; subst h1
      injection h2 with h2; subst h2
      injection h3 with h3; subst h3
      decide
    | 2, h => injection h with h; subst h; simp [mkSize, mk] at hok
    | 3, h => injection h with h; subst h; simp [mk] at hok
    | 4, h => injection h with h; subst h; simp [mkSize, mk] at hok
    | 5, h => injection h with h; subst h; simp [mk] at hok
    | 6, h => injection h with h; subst h; simp [mk] at hok
    | j + 7, h => simp [frameTest] at h

end Verif.Code
