import Verif.Jit.DceModel

/-!
# Promotion of stack variables to registers in the intermediate code

Model of `/repo/src/jit/jit-optim.c` lines 1153-1275.

Simplifications: the second loop of `try_promote_allocation`, which goes from the first to the last access,
goes over all instructions here (outside that range there is no access, so nothing is changed); the field
`disp` of an operand that is not an address is 0, as all its constructors leave it; a failed assertion is
`none`; the size of the frame, `int` in C, does not overflow.
-/

namespace Verif.Code

/-- The field `disp`. -/
def Val.disp : Val → Word
  | .addrReg _ d => d
  | _ => 0

/-- jit-optim.c 1171-1180: the size of accesses to a variable of so many bytes, if it may be promoted.
`is_power_of_2(0)` holds, util.h 86. -/
def allocSize (n : Word) : Option Size :=
  if n = 0 then some .unspec
  else if n = 1 then some .s8
  else if n = 2 then some .s16
  else if n = 4 then some .s32
  else if n = 8 then some .s64
  else none

/-- The address of a load or store, jit-optim.c 1191. -/
def Ir.addr (ir : Ir) : Val := if ir.op = .load then ir.arg1 else ir.arg2

/-- Loads and stores, jit-optim.c 1190. -/
def Op.accesses (op : Op) : Bool := op == .load || op == .store

/-- Whether the instruction is a load from or store to the address in the register. -/
def Ir.accessesReg (ir : Ir) (reg : Nat) : Bool := ir.op.accesses && ir.addr.regOf == some reg

/-- One round of the first loop, jit-optim.c 1187-1208: whether the instruction allows the promotion. -/
def allows (reg : Nat) (sz : Size) (isAlloc : Bool) (ir : Ir) : Bool :=
  if ir.result = some reg ∧ isAlloc = false then false
  else if ir.op.accesses then
    if ir.addr.regOf ≠ some reg then true
    else if ir.addr.disp ≠ 0 ∨ ir.size ≠ sz then false
    else if ir.op = .store ∧ ir.arg1.regOf = some reg then false
    else true
  else if ir.arg1.regOf = some reg then false
  else if ir.arg2.regOf = some reg then false
  else true

/-- One round of the second loop, jit-optim.c 1210-1227. -/
def promoteIr (reg : Nat) (ir : Ir) : Ir :=
  if ir.op = .store ∧ ir.arg2.regOf = some reg then
    { ir with op := .mov, size := .unspec, cc := .none, result := some reg, arg2 := .invalid }
  else if ir.op = .load ∧ ir.arg1.regOf = some reg then
    { ir with op := .mov, size := .unspec, cc := .none, arg1 := .reg reg }
  else ir

/-- The first loop for the allocation at index `i`. -/
def allAllow (f : Func) (i reg : Nat) (sz : Size) : Bool :=
  (List.range f.irs.length).all fun j => match f.irs[j]? with
    | some ir => allows reg sz (j == i) ir
    | none => true

/-- The function after the promotion, jit-optim.c 1210-1234. -/
def promoted (f : Func) (i reg : Nat) : Func :=
  { f with irs := (f.irs.map (promoteIr reg)).modify i Ir.toNop }

/-- `try_promote_allocation`, jit-optim.c 1167-1237.  The outer `none` is a failed assertion, the inner one
a refusal. -/
def tryPromote (f : Func) (i : Nat) (alloc : Ir) : Option (Option Func) :=
  match alloc.arg2, alloc.result with
  | .int n, some reg =>
    match allocSize n with
    | some sz => if allAllow f i reg sz then some (some (promoted f i reg)) else some none
    | none => some none
  | _, _ => none

/-- The first loop of `jit_do_mem2reg`, jit-optim.c 1244-1251, with `n` instructions left: the function and
the number of promotions. -/
def promoteLoop : Nat → Func → Nat → Nat → Option (Func × Nat)
  | 0, f, _, k => some (f, k)
  | n + 1, f, i, k =>
    match f.irs[i]? with
    | none => some (f, k)
    | some ir =>
      if ir.op = .salloc then
        match tryPromote f i ir with
        | none => none
        | some (some f') => promoteLoop n f' (i + 1) (k + 1)
        | some none => promoteLoop n f (i + 1) k
      else if isTerminator f i ir then some (f, k)
      else promoteLoop n f (i + 1) k

/-- `ALIGN_UP(n, 8)`, util.h 89-92. -/
def alignUp8 (n : Nat) : Nat := (n + 7) / 8 * 8

/-- The second loop, jit-optim.c 1256-1268, from index `i` on. -/
def layoutLoop (f : Func) : List Ir → Nat → Nat → Option (List Ir × Nat)
  | [], _, newsize => some ([], newsize)
  | ir :: rest, i, newsize =>
    if ir.op = .salloc then
      match ir.arg1, ir.arg2 with
      | .int off, .int n =>
        if (newsize : Int) ≤ off.toInt ∧ 0 ≤ n.toInt then
          (layoutLoop f rest (i + 1) (newsize + alignUp8 n.toNat)).map fun (irs, sz) =>
            ({ ir with arg1 := .int (BitVec.ofNat 64 newsize) } :: irs, sz)
        else none
      | _, _ => none
    else if isTerminator f i ir then some (ir :: rest, newsize)
    else (layoutLoop f rest (i + 1) newsize).map fun (irs, sz) => (ir :: irs, sz)

/-- `jit_do_mem2reg`, jit-optim.c 1239-1275: the function and the size of its frame. -/
def mem2reg (f : Func) (framesz : Nat) : Option (Func × Nat) :=
  if framesz = 0 then some (f, framesz)
  else
    match promoteLoop f.irs.length f 0 0 with
    | none => none
    | some (f, k) =>
      if k = 0 then some (f, framesz)
      else
        match layoutLoop f f.irs 0 0 with
        | none => none
        | some (irs, newsize) => if newsize ≤ framesz then some ({ f with irs := irs }, newsize) else none

end Verif.Code
