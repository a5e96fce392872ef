import Verif.Thread.Count

/-!
# The work-stealing deque of `thread.c`

Model of `push_bot`, `pop_bot` and `pop_top`, `/repo/src/thread.c` lines 804-859, as a transition
system with one owner and any number of thieves.  One step per access to shared memory,
sequentially consistent.  Tasks (32 bytes) are neither written nor read atomically: writing a task
takes two steps between which the slot has no value, and a read which overlaps a write of the slot
gives any value.

The field `tag` counts the resets of the deque; C keeps its low 32 bits, so a compare-and-swap
compares modulo 2^32.  Simplification: tasks are natural numbers.
-/

namespace Verif.Thread.Deque

open Verif.Thread

/-- `THREADQ_SIZE`, thread.c 164. -/
def size : Nat := 256

/-- Where the owner is. -/
inductive OPc where
  | idle
  /-- thread.c 806-807 -/
  | pushRead (ts : List Nat)
  /-- thread.c 809: about to write task `k`, or 810 when all are written -/
  | pushCopy (b : Nat) (ts : List Nat) (k : Nat)
  /-- thread.c 809: in the middle of writing task `k` -/
  | pushMid (b : Nat) (ts : List Nat) (k : Nat)
  /-- thread.c 815 -/
  | popRead
  /-- thread.c 820 -/
  | popStore (nb : Nat)
  /-- thread.c 822 -/
  | popTask (nb : Nat)
  /-- thread.c 824 -/
  | popAge (nb x : Nat)
  /-- thread.c 828 -/
  | popZero (nb x top tag : Nat)
  /-- thread.c 831-832 -/
  | popCas (nb x top tag : Nat)
  /-- thread.c 836 -/
  | popSet (tag : Nat)
  deriving DecidableEq, Repr

/-- Where a thief is; `tp`, `tg` are its copy of the age. -/
inductive TPc where
  | idle
  /-- thread.c 843 -/
  | age
  /-- thread.c 844 -/
  | bot (tp tg : Nat)
  /-- thread.c 851, about to read -/
  | read (tp tg : Nat)
  /-- thread.c 851, reading; `none` when the slot was written meanwhile -/
  | reading (tp tg : Nat) (v : Option Nat)
  /-- thread.c 858 -/
  | cas (tp tg x : Nat)
  deriving DecidableEq, Repr

/-- Number of values of `abp_tag_t`, thread.c 152. -/
def tags : Nat := 2 ^ 32

/-- `threadq_t`, thread.c 166-170, the owner and the thieves. -/
structure St where
  top : Nat
  tag : Nat
  bot : Nat
  cell : Nat → Option Nat
  own : OPc
  thief : Nat → TPc

inductive Label where
  | tau
  /-- `push_bot` returns -/
  | push (ts : List Nat)
  /-- `pop_bot` returns true with the task -/
  | popBot (x : Nat)
  /-- `pop_top` returns true with the task in thief `t` -/
  | popTop (t x : Nat)
  deriving DecidableEq, Repr

/-- Reads of slot `i` that are under way are spoilt. -/
def spoil (i : Nat) : TPc → TPc
  | .reading tp tg v => .reading tp tg (if tp = i then none else v)
  | p => p

inductive Step : St → Label → St → Prop where
  /-- call of `push_bot`; the assertion of thread.c 807 is the caller's duty -/
  | push (s ts) (h : s.own = .idle) (hs : s.bot + ts.length ≤ size) :
      Step s .tau { s with own := .pushRead ts }
  | pushRead (s ts) (h : s.own = .pushRead ts) : Step s .tau { s with own := .pushCopy s.bot ts 0 }
  | pushBegin (s b ts k) (h : s.own = .pushCopy b ts k) (hk : k < ts.length) :
      Step s .tau { s with cell := upd s.cell (b + k) none, own := .pushMid b ts k,
                           thief := fun t => spoil (b + k) (s.thief t) }
  | pushEnd (s b ts k) (h : s.own = .pushMid b ts k) :
      Step s .tau { s with cell := upd s.cell (b + k) ts[k]?, own := .pushCopy b ts (k + 1) }
  | pushStore (s b ts) (h : s.own = .pushCopy b ts ts.length) :
      Step s (.push ts) { s with bot := b + ts.length, own := .idle }
  /-- call of `pop_bot` -/
  | pop (s) (h : s.own = .idle) : Step s .tau { s with own := .popRead }
  | popEmpty (s) (h : s.own = .popRead) (hb : s.bot = 0) : Step s .tau { s with own := .idle }
  | popRead (s) (h : s.own = .popRead) (hb : s.bot ≠ 0) :
      Step s .tau { s with own := .popStore (s.bot - 1) }
  | popStore (s nb) (h : s.own = .popStore nb) :
      Step s .tau { s with bot := nb, own := .popTask nb }
  | popTask (s nb x) (h : s.own = .popTask nb) (hx : ∀ y, s.cell nb = some y → x = y) :
      Step s .tau { s with own := .popAge nb x }
  | popMany (s nb x) (h : s.own = .popAge nb x) (ht : nb > s.top) :
      Step s (.popBot x) { s with own := .idle }
  | popFew (s nb x) (h : s.own = .popAge nb x) (ht : ¬ nb > s.top) :
      Step s .tau { s with own := .popZero nb x s.top s.tag }
  | popZero (s nb x tp tg) (h : s.own = .popZero nb x tp tg) :
      Step s .tau { s with bot := 0, own := .popCas nb x tp tg }
  | popCasNo (s nb x tp tg) (h : s.own = .popCas nb x tp tg) (hn : nb ≠ tp) :
      Step s .tau { s with own := .popSet tg }
  | popCasOk (s nb x tp tg) (h : s.own = .popCas nb x tp tg) (hn : nb = tp)
      (ha : s.top = tp ∧ s.tag % tags = tg % tags) :
      Step s (.popBot x) { s with top := 0, tag := tg + 1, own := .idle }
  | popCasFail (s nb x tp tg) (h : s.own = .popCas nb x tp tg) (hn : nb = tp)
      (ha : ¬ (s.top = tp ∧ s.tag % tags = tg % tags)) :
      Step s .tau { s with own := .popSet tg }
  | popSet (s tg) (h : s.own = .popSet tg) :
      Step s .tau { s with top := 0, tag := tg + 1, own := .idle }
  /-- call of `pop_top` -/
  | steal (s t) (h : s.thief t = .idle) : Step s .tau { s with thief := upd s.thief t .age }
  | stealAge (s t) (h : s.thief t = .age) :
      Step s .tau { s with thief := upd s.thief t (.bot s.top s.tag) }
  | stealEmpty (s t tp tg) (h : s.thief t = .bot tp tg) (hb : s.bot ≤ tp) :
      Step s .tau { s with thief := upd s.thief t .idle }
  | stealBot (s t tp tg) (h : s.thief t = .bot tp tg) (hb : ¬ s.bot ≤ tp) :
      Step s .tau { s with thief := upd s.thief t (.read tp tg) }
  | stealRead (s t tp tg) (h : s.thief t = .read tp tg) :
      Step s .tau { s with thief := upd s.thief t (.reading tp tg (s.cell tp)) }
  | stealGot (s t tp tg v x) (h : s.thief t = .reading tp tg v) (hx : ∀ y, v = some y → x = y) :
      Step s .tau { s with thief := upd s.thief t (.cas tp tg x) }
  | stealOk (s t tp tg x) (h : s.thief t = .cas tp tg x) (ha : s.top = tp ∧ s.tag % tags = tg % tags) :
      Step s (.popTop t x) { s with top := tp + 1, thief := upd s.thief t .idle }
  | stealFail (s t tp tg x) (h : s.thief t = .cas tp tg x) (ha : ¬ (s.top = tp ∧ s.tag % tags = tg % tags)) :
      Step s .tau { s with thief := upd s.thief t .idle }

/-- thread.c 423-424: an empty deque whose slots have any contents. -/
def init (cell : Nat → Option Nat) : St :=
  { top := 0, tag := 0, bot := 0, cell := cell, own := .idle, thief := fun _ => .idle }

/-- Executions in which all states have the property `P`. -/
inductive Run (P : St → Prop) (cell : Nat → Option Nat) : List Label → St → Prop where
  | start : Run P cell [] (init cell)
  | step {tr s a s'} : Run P cell tr s → P s → Step s a s' → Run P cell (tr ++ [a]) s'

end Verif.Thread.Deque
