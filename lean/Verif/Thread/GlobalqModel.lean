import Verif.Util.Model
/-!
# The global queue

Model of `globalq_put` and `globalq_take`, `/repo/src/thread.c` lines 861-904.  Both run with
`gq->lock` held, so each is one step of the model in `Verif/Thread/WorkqModel`; this file has the
array underneath.  Tasks are of any type; a slot of the array that was not written since it was
allocated is `none`.  An access outside the array, a read of a slot that was not written, and a
division by zero are `none` results of the functions.  `push_bot` gets the tasks that were read.
Simplified: counts are natural numbers, except that the size of the array is what the 32-bit
`next_power_of_2` gives; the theorems ask for at most 2^30 tasks.
-/
namespace Verif.Thread.Globalq

/-- `globalq_t`, thread.c 238-243, without the lock.  `gq->max` is the length of the array. -/
structure Gq (α : Type) where
  tasks : List (Option α)
  wptr : Nat
  rptr : Nat

/-- Static storage: thread.c 265. -/
def empty : Gq α := ⟨[], 0, 0⟩

/-- thread.c 865-866: start again from the front. -/
def rewind (g : Gq α) : Gq α :=
  if g.wptr = g.rptr then { g with wptr := 0, rptr := 0 } else g

/-- `xrealloc_array` keeps what fits and leaves the rest unwritten. -/
def realloc (l : List (Option α)) (n : Nat) : List (Option α) :=
  l.take n ++ List.replicate (n - l.length) none

/-- thread.c 868-871 -/
def grow (g : Gq α) (count : Nat) : Gq α :=
  if g.wptr + count > g.tasks.length then
    { g with tasks := realloc g.tasks
                        (Util.nextPowerOf2 (BitVec.ofNat 32 (g.wptr + count))).toNat }
  else g

/-- `memcpy` into an array; `none` if it would write past the end. -/
def copyIn (l : List (Option α)) (at' : Nat) (new : List α) : Option (List (Option α)) :=
  if at' + new.length ≤ l.length then
    some (l.take at' ++ new.map some ++ l.drop (at' + new.length))
  else none

/-- `globalq_put`, thread.c 861-875. -/
def put (g : Gq α) (new : List α) : Option (Gq α) :=
  let g := grow (rewind g) new.length
  (copyIn g.tasks g.wptr new).map fun l => { g with tasks := l, wptr := g.wptr + new.length }

/-- The values of `count` slots, `none` if one is outside the array or not written. -/
def copyOut (l : List (Option α)) (at' count : Nat) : Option (List α) :=
  if at' + count ≤ l.length then ((l.drop at').take count).mapM id else none

/-- `MIN_TAKE`, thread.c 55, and `THREADQ_SIZE`, thread.c 164. -/
def minTake : Nat := 8
def threadqSize : Nat := 256

/-- thread.c 895-897; `nthreads` is `running_threads`. -/
def share (g : Gq α) (nthreads : Nat) : Nat :=
  Nat.min (g.wptr - g.rptr) (Nat.max minTake (Nat.min threadqSize (g.wptr / nthreads)))

/-- `globalq_take`, thread.c 883-904: what goes to `push_bot`, and the queue after.  The test
without the lock in front returns 0 tasks early. -/
def take (g : Gq α) (nthreads : Nat) : Option (List α × Gq α) :=
  if g.wptr = g.rptr then some ([], g)
  else if nthreads = 0 then none
  else (copyOut g.tasks g.rptr (share g nthreads)).map fun l =>
    (l, { g with rptr := g.rptr + share g nthreads })

end Verif.Thread.Globalq
