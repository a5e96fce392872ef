import Verif.Jit.IrModel

/-!
# Dead code elimination and deletion of no-ops in the intermediate code

Model of `/repo/src/jit/jit-optim.c` lines 359-367 and 1049-1152.

Simplification: the arrays `count`, `renumber` and `map` are functions, so an access outside them reads 0
here; `count` never overflows.  Memory that the no-ops leave at the end of the buffer is kept, as in C, and
then cut off.
-/

namespace Verif.Code

/-- `lvn_convert_nop`, jit-optim.c 359-367. -/
def Ir.toNop (ir : Ir) : Ir := ⟨.nop, .unspec, ir.target, .none, none, .invalid, .invalid⟩

/-- `dce_state_t`, jit-optim.c 1049-1053. -/
structure Dce where
  count : Nat → Nat
  renumber : Nat → Nat
  next : Nat

def updNat (f : Nat → Nat) (r x : Nat) : Nat → Nat := fun q => if q = r then x else f q

/-- `if (count[r]++ == 0) renumber[r] = next++`, jit-optim.c 1058-1059, 1088-1089. -/
def Dce.touch (st : Dce) (r : Nat) : Dce :=
  if st.count r = 0 then
    { count := updNat st.count r (st.count r + 1), renumber := updNat st.renumber r st.next,
      next := st.next + 1 }
  else { st with count := updNat st.count r (st.count r + 1) }

/-- `dce_count_use`, jit-optim.c 1055-1061. -/
def Dce.countUse (st : Dce) (v : Val) : Dce :=
  match v.regOf with
  | some r => st.touch r
  | none => st

/-- One round of the first loop, jit-optim.c 1080-1090. -/
def Dce.countIr (st : Dce) (ir : Ir) : Dce :=
  let st := (st.countUse ir.arg1).countUse ir.arg2
  match ir.result with
  | some r => if ir.op.readsResult || ir.writesFlags then st.touch r else st
  | none => st

/-- The first loop, jit-optim.c 1071-1090. -/
def dceCount (f : Func) : Dce := f.irs.foldl Dce.countIr ⟨fun _ => 0, fun _ => 0, 0⟩

/-- `dce_renumber`, jit-optim.c 1063-1067. -/
def renVal (ren : Nat → Nat) : Val → Val
  | .reg r => .reg (ren r)
  | .addrReg r d => .addrReg (ren r) d
  | v => v

/-- Which instruction may be removed if the flags are overwritten, jit-optim.c 1096-1105: at index `i`,
with the instruction `cmp` that wrote them.  Returns the instruction to remove and the new `cmp`. -/
def cmpStep (f : Func) (i : Nat) (ir : Ir) (cmp : Option Nat) : Option Nat × Option Nat :=
  if ir.readsFlags || isTerminator f i ir then (none, none)
  else if ir.writesFlags then
    (cmp, if ir.op = .cmp ∨ ir.op = .fcmp then some i else none)
  else (none, cmp)

/-- What becomes of the instruction itself, jit-optim.c 1093-1094, 1107-1112. -/
def dceIr (st : Dce) (ir : Ir) : Ir :=
  let ir' := { ir with arg1 := renVal st.renumber ir.arg1, arg2 := renVal st.renumber ir.arg2 }
  match ir.result with
  | none => ir'
  | some r =>
    if st.count r = 0 ∧ ir.writesFlags = false then ir'.toNop
    else { ir' with result := some (st.renumber r) }

/-- The second loop, jit-optim.c 1092-1113: `out` are the instructions before index `i`. -/
def dceLoop (f : Func) (st : Dce) (i : Nat) (cmp : Option Nat) (out : List Ir) : List Ir → List Ir
  | [] => out
  | ir :: rest =>
    let (kill, cmp) := cmpStep f i ir cmp
    let out := match kill with
      | some c => out.modify c Ir.toNop
      | none => out
    dceLoop f st (i + 1) cmp (out ++ [dceIr st ir]) rest

/-- `jit_do_dce`, jit-optim.c 1069-1119. -/
def dce (f : Func) : Func :=
  let st := dceCount f
  { irs := dceLoop f st 0 none [] f.irs, nregs := st.next }

/-! ## no-ops -/

/-- `map`: the number of other instructions before the index, jit-optim.c 1128-1137. -/
def nopMap (irs : List Ir) (i : Nat) : Nat := (irs.take i).countP fun ir => ir.op != .nop

/-- The buffer after the first loop: the other instructions, then what was there before. -/
def compact (irs : List Ir) : List Ir :=
  let kept := irs.filter fun ir => ir.op != .nop
  kept ++ irs.drop kept.length

/-- `irbuf[l].target = 1` -/
def markTarget (buf : List Ir) (l : Nat) : List Ir := buf.modify l fun ir => { ir with target := true }

/-- The first operand of the instruction at `i`, jit-optim.c 1140-1143. -/
def relabelArg1 (map : Nat → Nat) (buf : List Ir) (i : Nat) : List Ir :=
  match buf[i]? with
  | some ir => match ir.arg1 with
    | .label l => markTarget (buf.modify i fun ir => { ir with arg1 := .label (map l) }) (map l)
    | _ => buf
  | none => buf

/-- The second operand, jit-optim.c 1144-1147. -/
def relabelArg2 (map : Nat → Nat) (buf : List Ir) (i : Nat) : List Ir :=
  match buf[i]? with
  | some ir => match ir.arg2 with
    | .label l => markTarget (buf.modify i fun ir => { ir with arg2 := .label (map l) }) (map l)
    | _ => buf
  | none => buf

/-- One round of the second loop, jit-optim.c 1139-1148. -/
def relabelAt (map : Nat → Nat) (buf : List Ir) (i : Nat) : List Ir :=
  relabelArg2 map (relabelArg1 map buf i) i

/-- `jit_delete_nops`, jit-optim.c 1124-1151. -/
def deleteNops (f : Func) : Func :=
  let n := (f.irs.filter fun ir => ir.op != .nop).length
  let buf := (List.range f.irs.length).foldl (relabelAt (nopMap f.irs)) (compact f.irs)
  { f with irs := buf.take n }

end Verif.Code
