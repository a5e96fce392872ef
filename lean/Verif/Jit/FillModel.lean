/-!
# Generating the intermediate code of a function: `jit_fill_irbuf`

Model of `jit_fill_irbuf`, `/repo/src/jit/jit-core.c` lines 381-447, of `jit_missing_unit` (jit-core.c
365-379), of the order in which `jit_irgen` (`/repo/src/jit/jit-irgen.c` 4489-4583) writes the fields
of the function it generates, and of the places where generating one function asks for another:
`irgen_op_link_var` (jit-irgen.c 2673-2698, always) and `irgen_op_var_upref` (jit-irgen.c 2098-2127,
when the table of variables of the other function is not yet published).

A transition system of any number of threads, one step per access to the shared fields of a
function, sequentially consistent.  A thread is a stack of calls of `jit_fill_irbuf`.

Simplifications: publishing the table (jit-irgen.c 4185) and the first instruction written to
`irbuf` are one step; so are the last instruction and the optimisation passes.  Code taken from a
pack (jit-core.c 417-424) is the case of a function without dependencies.  The lock of the registry
(jit-core.c 430) is not modelled: no call of `jit_fill_irbuf` is made while it is held.
A failed unit or assertion empties the stack of the thread (`jit_abort` unwinds to the caller of
the outermost `jit_try_call`).
-/

namespace Verif.Jit.Fill

/-- `func_state_t`, `/repo/src/jit/jit-priv.h` 269-274. -/
inductive FS where
  | placeholder
  | compiling
  | ready
  | error
  deriving DecidableEq, Repr

/-- `f->irbuf`: not allocated, being written (and moved by `realloc`), complete. -/
inductive Buf where
  | null
  | part
  | full
  deriving DecidableEq, Repr

/-- The fields of `jit_func_t` concerned; `gens` counts how often code was generated. -/
structure Fn where
  st : FS
  buf : Buf
  tab : Bool
  gens : Nat
  deriving DecidableEq, Repr

/-- A reference of a unit to the variables of another. -/
inductive Dep where
  /-- jit-irgen.c 2673 -/
  | link (f : Nat)
  /-- jit-irgen.c 2098 -/
  | upref (f : Nat)
  deriving DecidableEq, Repr

def Dep.fn : Dep → Nat
  | .link f => f
  | .upref f => f

/-- The units: the references in the order in which `jit_irgen` meets them, and which units do not
exist. -/
structure Prog where
  deps : Nat → List Dep
  missing : Nat → Bool

/-- Where a call of `jit_fill_irbuf` is. -/
inductive Pc where
  /-- jit-core.c 383 -/
  | load
  /-- jit-core.c 386 -/
  | check
  /-- jit-core.c 390 -/
  | cas (s : FS)
  /-- jit-core.c 395 -/
  | wait
  /-- jit-core.c 408 -/
  | start
  /-- jit-core.c 415-440 -/
  | lookup
  /-- in `jit_irgen`, with the references still to come -/
  | gen (rem : List Dep)
  /-- jit-irgen.c 4571 -/
  | store
  deriving DecidableEq, Repr

structure Frame where
  f : Nat
  pc : Pc
  deriving DecidableEq, Repr

structure St where
  fn : Nat → Fn
  /-- the calls in progress of each thread, innermost first -/
  thr : Nat → List Frame

inductive Ev where
  | tau
  /-- a test of the waiting loop fails -/
  | spin
  /-- the call for `f` returns -/
  | ret (f : Nat)
  /-- jit-core.c 408: the assertion fails -/
  | abort (f : Nat)
  /-- `jit_missing_unit` -/
  | fail (f : Nat)
  deriving DecidableEq, Repr

def upd (g : Nat → α) (k : Nat) (v : α) : Nat → α := fun x => if x = k then v else g x

/-- Replace the stack of a thread. -/
def St.stk (s : St) (t : Nat) (l : List Frame) : St := { s with thr := upd s.thr t l }

/-- Replace a function. -/
def St.put (s : St) (f : Nat) (x : Fn) : St := { s with fn := upd s.fn f x }

/-- jit-core.c 383-405. -/
def stepLoad (s : St) (t f : Nat) (rest : List Frame) : Ev × St :=
  match (s.fn f).st with
  | .ready => (.tau, s.stk t (⟨f, .check⟩ :: rest))
  | .placeholder => (.tau, s.stk t (⟨f, .cas .placeholder⟩ :: rest))
  | .compiling => (.tau, s.stk t (⟨f, .wait⟩ :: rest))
  | .error => (.fail f, s.stk t [])

/-- jit-core.c 386-388. -/
def stepCheck (s : St) (t f : Nat) (rest : List Frame) : Ev × St :=
  if (s.fn f).buf ≠ .null then (.ret f, s.stk t rest)
  else (.tau, s.stk t (⟨f, .cas .ready⟩ :: rest))

/-- jit-core.c 390. -/
def stepCas (s : St) (t f : Nat) (e : FS) (rest : List Frame) : Ev × St :=
  if (s.fn f).st = e then
    (.tau, (s.put f { s.fn f with st := .compiling }).stk t (⟨f, .start⟩ :: rest))
  else (.tau, s.stk t (⟨f, .wait⟩ :: rest))

/-- jit-core.c 395-400. -/
def stepWait (s : St) (t f : Nat) (rest : List Frame) : Ev × St :=
  if (s.fn f).st = .ready then (.ret f, s.stk t rest) else (.spin, s)

/-- jit-core.c 408. -/
def stepStart (s : St) (t f : Nat) (rest : List Frame) : Ev × St :=
  if (s.fn f).buf = .null then (.tau, s.stk t (⟨f, .lookup⟩ :: rest))
  else (.abort f, s.stk t [])

/-- jit-core.c 415-442, jit-irgen.c 4489-4552. -/
def stepLookup (P : Prog) (s : St) (t f : Nat) (rest : List Frame) : Ev × St :=
  if P.missing f then (.fail f, (s.put f { s.fn f with st := .error }).stk t [])
  else
    (.tau, (s.put f { s.fn f with buf := .part, tab := true, gens := (s.fn f).gens + 1 }).stk t
      (⟨f, .gen (P.deps f)⟩ :: rest))

/-- jit-irgen.c 4554-4569. -/
def stepGen (s : St) (t f : Nat) (rem : List Dep) (rest : List Frame) : Ev × St :=
  match rem with
  | [] => (.tau, (s.put f { s.fn f with buf := .full }).stk t (⟨f, .store⟩ :: rest))
  | .link d :: r => (.tau, s.stk t (⟨d, .load⟩ :: ⟨f, .gen r⟩ :: rest))
  | .upref d :: r =>
    if (s.fn d).tab then (.tau, s.stk t (⟨f, .gen r⟩ :: rest))
    else (.tau, s.stk t (⟨d, .load⟩ :: ⟨f, .gen r⟩ :: rest))

/-- jit-irgen.c 4571. -/
def stepStore (s : St) (t f : Nat) (rest : List Frame) : Ev × St :=
  (.ret f, (s.put f { s.fn f with st := .ready }).stk t rest)

/-- One step of the innermost call of a thread. -/
def runTop (P : Prog) (s : St) (t : Nat) (a : Frame) (rest : List Frame) : Ev × St :=
  match a.pc with
  | .load => stepLoad s t a.f rest
  | .check => stepCheck s t a.f rest
  | .cas e => stepCas s t a.f e rest
  | .wait => stepWait s t a.f rest
  | .start => stepStart s t a.f rest
  | .lookup => stepLookup P s t a.f rest
  | .gen rem => stepGen s t a.f rem rest
  | .store => stepStore s t a.f rest

/-- A step of thread `t`. -/
inductive Step (P : Prog) : St → Nat → Ev → St → Prop where
  /-- the thread calls `jit_fill_irbuf` -/
  | call (s t f) (h : s.thr t = []) : Step P s t .tau (s.stk t [⟨f, .load⟩])
  | run (s t a rest) (h : s.thr t = a :: rest) :
      Step P s t (runTop P s t a rest).1 (runTop P s t a rest).2

/-- A function as `jit_lazy_compile_locked` creates it when there is no code compiled ahead of time
(jit-core.c 278-286). -/
def Fn.fresh : Fn := ⟨.placeholder, .null, false, 0⟩

/-- A function with code compiled ahead of time (jit-core.c 280, 333). -/
def Fn.aot : Fn := ⟨.ready, .null, false, 0⟩

/-- All functions as `fn0` says, no call in progress. -/
def start (fn0 : Nat → Fn) : St := ⟨fn0, fun _ => []⟩

inductive Reach (P : Prog) (fn0 : Nat → Fn) : St → Prop where
  | start : Reach P fn0 (start fn0)
  | step {s t e s'} : Reach P fn0 s → Step P s t e s' → Reach P fn0 s'

end Verif.Jit.Fill
