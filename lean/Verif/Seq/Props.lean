import Verif.Seq.Whole
import Verif.Seq.Total

/-
Property C89: the blocks made for a sequence of statements do what the
statements say.
-/

namespace Verif.Seq

open Spec

variable {S : Type}

/-- The code of a function ends exactly as its statements do: it returns a value
if and only if they return this value, it reports a missing return if and only
if their end is reached, it runs for ever if and only if they do and it never
gets stuck. -/
theorem function_correct_partial {leave : S → S} {body : Sq S} {b : B S}
    (h : lowerFunc body = some b) (ok : body.ok leave) (s : S) (r : MOut S) :
    Halts leave b.blk (.init s) r ↔
      ∃ n o, execQ leave n [] body s = some o ∧ funcEnd o = some r := by
  constructor
  · intro hh
    obtain ⟨ho, k, m', h1, h2⟩ := hh
    have q := func_sim (leave := leave) (k + 1) h ok s
    cases e : execQ leave (k + 1) [] body s with
    | none =>
      rw [e] at q
      obtain ⟨j, m2, hj, h3⟩ := q
      have := steps_stop h1 ho h2 h3
      omega
    | some o =>
      rw [e] at q
      obtain ⟨r', hr, hh'⟩ := q
      refine ⟨_, o, e, ?_⟩
      rw [hr, halts_det hh' ⟨ho, k, m', h1, h2⟩]
  · rintro ⟨n, o, e, hr⟩
    have q := func_sim (leave := leave) n h ok s
    rw [e] at q
    obtain ⟨r', hr', hh⟩ := q
    rw [hr] at hr'
    obtain rfl := Option.some.inj hr'
    exact hh

/-- The same for a procedure, which also returns at the end of its
statements, once the local objects have been released. -/
theorem procedure_correct_partial {leave : S → S} {body : Sq S} {b : B S}
    (h : lowerProc body = some b) (ok : body.ok leave) (s : S) (r : MOut S) :
    Halts leave b.blk (.init s) r ↔
      ∃ n o, execQ leave n [] body s = some o ∧ procEnd leave o = some r := by
  constructor
  · intro hh
    obtain ⟨ho, k, m', h1, h2⟩ := hh
    have q := proc_sim (leave := leave) (k + 1) h ok s
    cases e : execQ leave (k + 1) [] body s with
    | none =>
      rw [e] at q
      obtain ⟨j, m2, hj, h3⟩ := q
      have := steps_stop h1 ho h2 h3
      omega
    | some o =>
      rw [e] at q
      obtain ⟨r', hr, hh'⟩ := q
      refine ⟨_, o, e, ?_⟩
      rw [hr, halts_det hh' ⟨ho, k, m', h1, h2⟩]
  · rintro ⟨n, o, e, hr⟩
    have q := proc_sim (leave := leave) n h ok s
    rw [e] at q
    obtain ⟨r', hr', hh⟩ := q
    rw [hr] at hr'
    obtain rfl := Option.some.inj hr'
    exact hh

/-- A process repeats its statements: after each turn the code is at the start
again, with the state which the statements yield. -/
theorem process_correct_partial {leave : S → S} {body : Sq S} {b : B S}
    (h : lowerProcess body = some b) (ok : body.ok leave) (n k : Nat) (s s' : S)
    (ht : turns leave n body k s = some s') :
    ∃ j m', Steps leave b.blk j (.init s) m' ∧ m'.blk = 0 ∧ m'.pos = 0 ∧ m'.s = s' ∧ k ≤ j := by
  obtain ⟨j, m', h1, h2, h3, h4⟩ :=
    process_turns n h ok k s s' (.init s) ⟨rfl, rfl⟩ rfl ht
  exact ⟨j, m', h1, h2.1, h2.2, h3, h4⟩

/-! ## Which statements can be lowered -/

theorem body_lowers (body : Sq S) (hs : scopedQ [] body) :
    Tot [] start (safeQ body) (endsQ body) (fun l => nextsQ l body)
      (lowerQ [] [] body (start : B S)) :=
  totQ body [] [] start start_wf (fun _ h => by cases h) (fun _ _ h => by cases h) rfl hs

/-- Lowering a procedure fails exactly if it contains a for loop which may wait,
whose body returns at the end of all branches and has no next statement for the
loop. -/
theorem procedure_lowers_iff (body : Sq S) (hs : scopedQ [] body) :
    (∃ b, lowerProc body = some b) ↔ safeQ body = true := by
  have t := body_lowers body hs
  unfold lowerProc
  cases h : lowerQ [] [] body (start : B S) with
  | none =>
    rw [h] at t
    have t : safeQ body = false := t
    simp [t]
  | some c =>
    rw [h] at t
    simp only [t.1, Option.bind_eq_bind, Option.bind_some, iff_true]
    unfold endProc
    cases hf : c.fin with
    | true => exact ⟨_, rfl⟩
    | false =>
      obtain ⟨d, h1⟩ := emit_ok hf .leave
      obtain ⟨e, h2⟩ := close_ok (emit_small h1).2.2 (.ret (fun _ _ => 0) [])
      exact ⟨e, by simp [h1, h2]⟩

mutual
theorem safeS_of : ∀ st : Stmt S, susS st = false → safeS st = true
  | .op _, _ => rfl
  | .susp _, _ => rfl
  | .ret _, _ => rfl
  | .exit _ _, _ => rfl
  | .next _ _, _ => rfl
  | .whil _ _ b, h => safeQ_of b h
  | .loop _ b, h => safeQ_of b h
  | .forL l lo hi dn b, h => by
    have h : susQ b = false := h
    show (safeQ b && !(susQ b && endsQ b && !nextsQ l b)) = true
    rw [safeQ_of b h, h]; rfl
  | .ite cs, h => safeC_of cs h
theorem safeQ_of : ∀ st : Sq S, susQ st = false → safeQ st = true
  | .nil, _ => rfl
  | .cons s t, h => by
    have h := Bool.or_eq_false_iff.mp h
    show (safeS s && (endsS s || safeQ t)) = true
    rw [safeS_of s h.1, safeQ_of t h.2, Bool.or_true]; rfl
theorem safeC_of : ∀ cs : Conds S, susC cs = false → safeC cs = true
  | .els b, h => safeQ_of b h
  | .last _ b, h => safeQ_of b h
  | .cons _ b t, h => by
    have h := Bool.or_eq_false_iff.mp h
    show (safeQ b && safeC t) = true
    rw [safeQ_of b h.1, safeC_of t h.2]; rfl
end

/-- Functions, which cannot wait, are always lowered. -/
theorem function_lowers (body : Sq S) (hs : scopedQ [] body) (hw : susQ body = false) :
    ∃ b, lowerFunc body = some b := by
  have t := body_lowers body hs
  unfold lowerFunc
  cases h : lowerQ [] [] body (start : B S) with
  | none =>
    rw [h] at t
    have t : safeQ body = false := t
    rw [safeQ_of body hw] at t
    cases t
  | some c =>
    simp only [Option.bind_eq_bind, Option.bind_some]
    unfold endFunc
    cases hf : c.fin with
    | true => exact ⟨_, rfl⟩
    | false => exact close_ok hf _

/-- The unreachable instruction is at the end of those functions in which not
all branches return: the others never fail for want of a return statement. -/
theorem function_never_fails {leave : S → S} {body : Sq S} {b : B S}
    (h : lowerFunc body = some b) (ok : body.ok leave) (hs : scopedQ [] body)
    (he : endsQ body = true) (s s' : S) : ¬ Halts leave b.blk (.init s) (.fail s') := by
  intro hh
  obtain ⟨n, o, e, hr⟩ := (function_correct_partial h ok s _).mp hh
  have t := body_lowers body hs
  unfold lowerFunc at h
  simp only [Option.bind_eq_bind, Option.bind_eq_some_iff] at h
  obtain ⟨c, h1, _⟩ := h
  rw [h1] at t
  have hf : c.fin = true := t.2.1.trans he
  have q := body_sim (leave := leave) n h1 (.refl _) ok s _ (at_init s) rfl
  cases o with
  | norm s'' =>
    rw [e] at q
    obtain ⟨_, _, _, q, _⟩ := q
    rw [hf] at q
    cases q
  | ret v s'' => cases hr
  | exit l s'' => cases hr
  | next l s'' => cases hr

/-! ## Examples -/

/-- The sum of the numbers from 1 to `s.2`, those that are divisible by three
left out, with a wait in the loop; the state is the sum and the bound. -/
def demo : Sq (Int × Int) :=
  .cons (.forL 0 (fun _ _ => 1) (fun _ s => min 100 (max 0 s.2)) (fun _ _ => false)
    (.cons (.next 0 (some (fun e _ => e.getD 0 0 % 3 == 0)))
      (.cons (.susp (fun e s => (s.1 + e.getD 0 0, s.2)))
        .nil)))
    (.cons (.ite (.cons (fun _ s => s.1 == 0) (.cons (.ret (fun _ _ => -1)) .nil)
      (.last (fun _ s => s.2 == 5) (.cons (.ret (fun _ s => s.1)) .nil))))
      .nil)

def outcome : Option (Out S) → Option (Option Int)
  | none => none
  | some (.ret v _) => some (some v)
  | some _ => some none

example : outcome (execQ id 1 [] demo (0, 5)) = some (some 12) := by decide +kernel
example : outcome (execQ id 1 [] demo (0, 0)) = some (some (-1)) := by decide +kernel
example : outcome (execQ id 1 [] demo (0, 4)) = some none := by decide +kernel
example : susQ demo = true ∧ endsQ demo = false ∧ safeQ demo = true := by decide
example : scopedQ [] demo := by
  simp [demo, scopedQ, scopedS, scopedC]
example : demo.ok id := by
  simp [demo, Sq.ok, Stmt.ok, Conds.ok, Fits]
  intro s
  omega
example : ∃ b, lowerProc demo = some b :=
  (procedure_lowers_iff demo (by simp [demo, scopedQ, scopedS, scopedC])).mpr (by decide)

/-- The machine, for a number of steps. -/
def runM (leave : S → S) (G : Nat → Blk S) : Nat → M S → MOut S
  | 0, m => .run m
  | k + 1, m =>
    match mstep leave G m with
    | .run m' => runM leave G k m'
    | o => o

def value : MOut S → Option Int
  | .ret v _ => some v
  | _ => none

/-- The code of this procedure yields 12. -/
example : ∃ b, lowerProc demo = some b ∧ ∃ s, Halts id b.blk (.init (0, 5)) (.ret 12 s) := by
  obtain ⟨b, h⟩ :=
    (procedure_lowers_iff demo (by simp [demo, scopedQ, scopedS, scopedC])).mpr (by decide)
  refine ⟨b, h, ?_⟩
  have ok : demo.ok id := by
    simp [demo, Sq.ok, Stmt.ok, Conds.ok, Fits]
    intro s
    omega
  have e : outcome (execQ id 1 [] demo (0, 5)) = some (some 12) := by decide +kernel
  cases hq : execQ id 1 [] demo (0, 5) with
  | none => rw [hq] at e; cases e
  | some o =>
    rw [hq] at e
    cases o with
    | ret v s =>
      simp only [outcome, Option.some.injEq] at e
      subst e
      exact ⟨s, (procedure_correct_partial h ok _ _).mpr ⟨1, _, hq, rfl⟩⟩
    | norm s => cases e
    | exit l s => cases e
    | next l s => cases e

/-- `loop s := s + 1; if s = 2 then exit; end if; end loop; return s;`, with an
endless loop from 3 on. -/
def demo2 : Sq Int :=
  .cons (.loop 0 (.cons (.op (fun _ s => s + 1)) (.cons (.exit 0 (some (fun _ s => s == 2))) .nil)))
    (.cons (.ret (fun _ s => s)) .nil)

example : outcome (execQ id 5 [] demo2 0) = some (some 2) := by decide +kernel
example : endsQ demo2 = true ∧ susQ demo2 = false := by decide

/-! ## Where the code is wrong -/

/-- `for i in 1 to 3 loop wait for 1 ns; return; end loop;`: the compiler stops
with an internal error. -/
theorem for_wait_return_counterexample :
    ¬ ∃ b, lowerProc (.cons (.forL 0 (fun _ _ => 1) (fun _ _ => 3) (fun _ _ => false)
      (.cons (.susp (fun _ s => s)) (.cons (.ret (fun _ _ => 0)) .nil))) .nil : Sq Int) =
        some b := by
  rw [procedure_lowers_iff _ (by simp [scopedQ, scopedS])]
  decide

/-- `return f(x)` where `f` reads a local object which is released when the
function is left, such as a variable of a protected type or a file: the code
releases it first.  Here the state is the value of the object, zero once
released. -/
theorem return_after_release_counterexample :
    let body : Sq Int := .cons (.ret (fun _ s => s)) .nil
    outcome (execQ (fun _ => 0) 1 [] body 7) = some (some 7) ∧
      (lowerFunc body).bind
        (fun b => value (runM (fun _ => 0) b.blk 10 (.init 7))) = some 0 := by
  decide +kernel

end Verif.Seq
