import Verif.Jit.FillProgress

/-!
# Property C82: code is generated once, and who asks for it gets it complete

For functions which start without code compiled ahead of time.
-/

namespace Verif.Jit.Fill

/-! ## Safety -/

/-- Whenever a call of `jit_fill_irbuf` returns, the code of the function is complete. -/
theorem fill_returns_partial {P : Prog} {fn0 : Nat → Fn} {s s' : St} {t f : Nat}
    (h0 : ∀ f, fn0 f = Fn.fresh) (h : Reach P fn0 s) (hs : Step P s t (.ret f) s') :
    (s'.fn f).st = .ready ∧ (s'.fn f).buf = .full ∧ (s'.fn f).tab = true := by
  have hi := h.inv h0
  have hi' := hi.step hs
  have key : (s'.fn f).st = .ready := by
    generalize he : Ev.ret f = e at hs
    cases hs with
    | call g hc => cases he
    | run a rest hc =>
      obtain ⟨g, pc⟩ := a
      have hfa : FrameOk (s.fn g) pc := hi.frames t ⟨g, pc⟩ (by simp [hc])
      cases pc with
      | load =>
        have he : Ev.ret f = (stepLoad s t g rest).1 := he
        unfold stepLoad at he; split at he <;> cases he
      | check =>
        have he : Ev.ret f = (stepCheck s t g rest).1 := he
        show ((stepCheck s t g rest).2.fn f).st = .ready
        unfold stepCheck at he ⊢
        split at he
        · rename_i hb; rw [if_pos hb]; cases he; exact hfa
        · cases he
      | cas q =>
        have he : Ev.ret f = (stepCas s t g q rest).1 := he
        unfold stepCas at he; split at he <;> cases he
      | wait =>
        have he : Ev.ret f = (stepWait s t g rest).1 := he
        show ((stepWait s t g rest).2.fn f).st = .ready
        unfold stepWait at he ⊢
        split at he
        · rename_i hb; rw [if_pos hb]; cases he; exact hb
        · cases he
      | start =>
        have he : Ev.ret f = (stepStart s t g rest).1 := he
        unfold stepStart at he; split at he <;> cases he
      | lookup =>
        have he : Ev.ret f = (stepLookup P s t g rest).1 := he
        unfold stepLookup at he; split at he <;> cases he
      | gen rem =>
        have he : Ev.ret f = (stepGen s t g rem rest).1 := he
        unfold stepGen at he
        split at he
        · cases he
        · cases he
        · split at he <;> cases he
      | store =>
        cases he
        show (upd s.fn g { s.fn g with st := .ready } g).st = .ready
        rw [upd_same]
  have := hi'.fns f
  simp only [FnOk, key] at this
  exact ⟨key, this.1, this.2.2⟩

/-- Complete code is not touched again. -/
theorem fill_stays_partial {P : Prog} {fn0 : Nat → Fn} {s s' : St} {t f : Nat} {e : Ev}
    (h0 : ∀ f, fn0 f = Fn.fresh) (h : Reach P fn0 s) (hr : (s.fn f).st = .ready)
    (hs : Step P s t e s') : s'.fn f = s.fn f := by
  have hi := h.inv h0
  cases hs with
  | call g hc => rfl
  | run a rest hc =>
    obtain ⟨g, pc⟩ := a
    have hfa : FrameOk (s.fn g) pc := hi.frames t ⟨g, pc⟩ (by simp [hc])
    have ne : (s.fn g).st ≠ .ready → ∀ x l, ((s.put g x).stk t l).fn f = s.fn f := by
      intro hg x l
      show upd s.fn g x f = s.fn f
      refine upd_other _ _ ?_
      intro h; rw [h] at hr; exact hg hr
    cases pc with
    | load => show (stepLoad s t g rest).2.fn f = _; unfold stepLoad; split <;> rfl
    | check => show (stepCheck s t g rest).2.fn f = _; unfold stepCheck; split <;> rfl
    | cas q =>
      show (stepCas s t g q rest).2.fn f = _; unfold stepCas
      simp only [FrameOk] at hfa
      subst hfa
      split
      · rename_i h; exact ne (by rw [h]; decide) _ _
      · rfl
    | wait => show (stepWait s t g rest).2.fn f = _; unfold stepWait; split <;> rfl
    | start => show (stepStart s t g rest).2.fn f = _; unfold stepStart; split <;> rfl
    | lookup =>
      show (stepLookup P s t g rest).2.fn f = _; unfold stepLookup
      have : (s.fn g).st ≠ .ready := by rw [hfa.1]; decide
      split <;> exact ne this _ _
    | gen rem =>
      show (stepGen s t g rem rest).2.fn f = _; unfold stepGen
      have : (s.fn g).st ≠ .ready := by rw [hfa.1]; decide
      split
      · exact ne this _ _
      · rfl
      · split <;> rfl
    | store =>
      have : (s.fn g).st ≠ .ready := by rw [hfa.1]; decide
      exact ne this _ _

/-- No function is generated twice, and the assertion that its code does not exist yet
(jit-core.c 408) holds. -/
theorem fill_once_partial {P : Prog} {fn0 : Nat → Fn} {s : St}
    (h0 : ∀ f, fn0 f = Fn.fresh) (h : Reach P fn0 s) (f : Nat) :
    (s.fn f).gens ≤ 1 ∧ ∀ t s', ¬ Step P s t (.abort f) s' := by
  have hi := h.inv h0
  refine ⟨?_, ?_⟩
  · have := hi.fns f
    unfold FnOk at this
    split at this <;> omega
  · intro t s' hs
    generalize he : Ev.abort f = e at hs
    cases hs with
    | call g hc => cases he
    | run a rest hc =>
      obtain ⟨g, pc⟩ := a
      have hfa : FrameOk (s.fn g) pc := hi.frames t ⟨g, pc⟩ (by simp [hc])
      cases pc with
      | load =>
        have he : Ev.abort f = (stepLoad s t g rest).1 := he
        unfold stepLoad at he; split at he <;> cases he
      | check =>
        have he : Ev.abort f = (stepCheck s t g rest).1 := he
        unfold stepCheck at he; split at he <;> cases he
      | cas q =>
        have he : Ev.abort f = (stepCas s t g q rest).1 := he
        unfold stepCas at he; split at he <;> cases he
      | wait =>
        have he : Ev.abort f = (stepWait s t g rest).1 := he
        unfold stepWait at he; split at he <;> cases he
      | start =>
        have he : Ev.abort f = (stepStart s t g rest).1 := he
        unfold stepStart at he
        rw [if_pos hfa.2.1] at he
        cases he
      | lookup =>
        have he : Ev.abort f = (stepLookup P s t g rest).1 := he
        unfold stepLookup at he; split at he <;> cases he
      | gen rem =>
        have he : Ev.abort f = (stepGen s t g rem rest).1 := he
        unfold stepGen at he
        split at he
        · cases he
        · cases he
        · split at he <;> cases he
      | store => cases he

/-! ## Progress -/

/-- `n` steps of calls in progress, none of them a failed test of the waiting loop. -/
inductive Work (P : Prog) : St → Nat → St → Prop where
  | done (s) : Work P s 0 s
  | step {s t a rest n s'} (h : s.thr t = a :: rest) (hne : (runTop P s t a rest).1 ≠ .spin)
      (hw : Work P (runTop P s t a rest).2 n s') : Work P s (n + 1) s'

def sumW (w : List Frame → Nat) (s : St) : List Nat → Nat
  | [] => 0
  | t :: ts => w (s.thr t) + sumW w s ts

theorem sumW_other {P : Prog} {w : List Frame → Nat} {s : St} {t : Nat} {a : Frame}
    {rest : List Frame} : ∀ ts : List Nat, t ∉ ts →
      sumW w (runTop P s t a rest).2 ts = sumW w s ts
  | [], _ => rfl
  | u :: us, h => by
    unfold sumW
    rw [run_other (fun e => h (by simp [e])), sumW_other us (fun e => h (by simp [e]))]

theorem sumW_step {P : Prog} {w : List Frame → Nat} {s : St} {t : Nat} {a : Frame}
    {rest : List Frame} (hw : w ((runTop P s t a rest).2.thr t) < w (s.thr t)) :
    ∀ ts : List Nat, ts.Nodup → t ∈ ts → sumW w (runTop P s t a rest).2 ts < sumW w s ts
  | [], _, h => by cases h
  | u :: us, hn, h => by
    have hn' := List.nodup_cons.mp hn
    unfold sumW
    by_cases hu : u = t
    · subst hu
      rw [sumW_other us hn'.1]; omega
    · rw [run_other hu]
      have : t ∈ us := by
        rcases List.mem_cons.mp h with h | h
        · exact absurd h.symm hu
        · exact h
      have := sumW_step hw us hn'.2 this
      omega

theorem Work.reach {P : Prog} {fn0 : Nat → Fn} {s s' : St} {n : Nat} (h : Work P s n s')
    (hr : Reach P fn0 s) : Reach P fn0 s' := by
  induction h with
  | done => exact hr
  | step h _ _ ih => exact ih (hr.step (.run _ _ _ _ h))

/-- If the references form no cycle and all units exist, the calls in progress in finitely many
threads come to an end: a bounded number of steps is left, not counting failed tests of waiting
loops, and as long as a call is in progress some thread can make such a step. -/
theorem fill_ends_partial {P : Prog} {rank : Nat → Nat} {fn0 : Nat → Fn} {s : St}
    (h0 : ∀ f, fn0 f = Fn.fresh) (hac : Acyclic P rank) (hm : ∀ f, P.missing f = false)
    (h : Reach P fn0 s) {ts : List Nat} (hn : ts.Nodup) (hts : ∀ t, s.thr t ≠ [] → t ∈ ts) :
    ∃ N, ∀ n s', Work P s n s' → n ≤ N ∧
      ((∃ t, s'.thr t ≠ []) → ∃ t a rest, s'.thr t = a :: rest ∧
        (runTop P s' t a rest).1 ≠ .spin) := by
  refine ⟨sumW (weight P rank) s ts, ?_⟩
  intro n s' hw
  refine ⟨?_, ?_⟩
  · clear h
    induction hw with
    | done => exact Nat.zero_le _
    | @step s t a rest n s' hs hne _ ih =>
      have hlt := sumW_step (P := P) (w := weight P rank) (a := a) (rest := rest)
        (by rw [hs]; exact weight_step hac hne) ts hn (hts t (by rw [hs]; simp))
      have := ih (by
        intro t' ht'
        by_cases he : t' = t
        · subst he; exact hts t' (by rw [hs]; simp)
        · rw [run_other he] at ht'; exact hts t' ht')
      omega
  · intro ⟨t, ht⟩
    have hr := hw.reach h
    cases hs : s'.thr t with
    | nil => exact absurd hs ht
    | cons a rest =>
      exact exists_unstuck (hr.inv h0) (hr.inv2 h0 hac hm) _ t a rest hs (Nat.lt_succ_self _)

/-- If all units exist no call fails. -/
theorem fill_no_fail_partial {P : Prog} {rank : Nat → Nat} {fn0 : Nat → Fn} {s s' : St} {t f : Nat}
    (h0 : ∀ f, fn0 f = Fn.fresh) (hac : Acyclic P rank) (hm : ∀ f, P.missing f = false)
    (h : Reach P fn0 s) : ¬ Step P s t (.fail f) s' := by
  intro hs
  have hi2 := h.inv2 h0 hac hm
  generalize he : Ev.fail f = e at hs
  cases hs with
  | call g hc => cases he
  | run a rest hc =>
    obtain ⟨g, pc⟩ := a
    cases pc with
    | load =>
      have he : Ev.fail f = (stepLoad s t g rest).1 := he
      unfold stepLoad at he
      split at he
      · cases he
      · cases he
      · cases he
      · rename_i hst; exact hi2.noerr g hst
    | check =>
      have he : Ev.fail f = (stepCheck s t g rest).1 := he
      unfold stepCheck at he; split at he <;> cases he
    | cas q =>
      have he : Ev.fail f = (stepCas s t g q rest).1 := he
      unfold stepCas at he; split at he <;> cases he
    | wait =>
      have he : Ev.fail f = (stepWait s t g rest).1 := he
      unfold stepWait at he; split at he <;> cases he
    | start =>
      have he : Ev.fail f = (stepStart s t g rest).1 := he
      unfold stepStart at he; split at he <;> cases he
    | lookup =>
      have he : Ev.fail f = (stepLookup P s t g rest).1 := he
      unfold stepLookup at he
      rw [if_neg (by simp [hm g])] at he
      cases he
    | gen rem =>
      have he : Ev.fail f = (stepGen s t g rem rest).1 := he
      unfold stepGen at he
      split at he
      · cases he
      · cases he
      · split at he <;> cases he
    | store => cases he

/-! ## Executions for examples -/

inductive Act where
  | call (t f : Nat)
  | run (t : Nat)

/-- The event and the state after an action; `none` if it is not possible. -/
def act (P : Prog) (s : St) : Act → Option (Ev × St)
  | .call t f => if s.thr t = [] then some (.tau, s.stk t [⟨f, .load⟩]) else none
  | .run t => match s.thr t with
    | [] => none
    | a :: rest => some (runTop P s t a rest)

def acts (P : Prog) (s : St) : List Act → Option St
  | [] => some s
  | x :: xs => (act P s x).bind fun r => acts P r.2 xs

def Act.tid : Act → Nat
  | .call t _ => t
  | .run t => t

theorem act_step {P : Prog} {s s' : St} {x : Act} {e : Ev} (h : act P s x = some (e, s')) :
    Step P s x.tid e s' := by
  cases x with
  | call t f =>
    simp only [act] at h
    split at h
    · rename_i hc; cases h; exact Step.call s t f hc
    · cases h
  | run t =>
    simp only [act] at h
    split at h
    · cases h
    · rename_i a rest hc
      have h : runTop P s t a rest = (e, s') := Option.some.inj h
      have := Step.run (P := P) s t a rest hc
      rw [h] at this
      exact this

theorem acts_reach {P : Prog} {fn0 : Nat → Fn} : ∀ (xs : List Act) (s s' : St),
    Reach P fn0 s → acts P s xs = some s' → Reach P fn0 s'
  | [], s, s', hr, h => by cases h; exact hr
  | x :: xs, s, s', hr, h => by
    simp only [acts] at h
    cases hx : act P s x with
    | none => rw [hx] at h; cases h
    | some r =>
      rw [hx] at h
      exact acts_reach xs r.2 s' (hr.step (act_step (e := r.1) hx)) h

/-- What the action returns and leaves of function `f`, after the others. -/
def lastly (P : Prog) (s : St) (xs : List Act) (x : Act) (f : Nat) : Option (Ev × Fn) :=
  (acts P s xs).bind fun s' => (act P s' x).map fun r => (r.1, r.2.fn f)

theorem lastly_step {P : Prog} {fn0 : Nat → Fn} {xs : List Act} {x : Act} {f : Nat} {e : Ev} {y : Fn}
    (h : lastly P (start fn0) xs x f = some (e, y)) :
    ∃ s s', Reach P fn0 s ∧ Step P s x.tid e s' ∧ s'.fn f = y := by
  unfold lastly at h
  cases hs : acts P (start fn0) xs with
  | none => rw [hs] at h; cases h
  | some s =>
    rw [hs] at h
    cases hx : act P s x with
    | none => simp [hx] at h
    | some r =>
      simp only [hx, Option.bind_some, Option.map_some, Option.some.injEq, Prod.mk.injEq] at h
      refine ⟨s, r.2, acts_reach xs _ _ .start hs, ?_, h.2⟩
      rw [← h.1]
      exact act_step hx

/-- Function 0 refers to function 1. -/
def exProg : Prog := ⟨fun f => if f = 0 then [.link 1, .upref 1] else [], fun _ => false⟩

/-- Two threads ask for function 0 at the same time. -/
example : ∃ s s', Reach exProg (fun _ => Fn.fresh) s ∧ Step exProg s 1 (.ret 0) s' ∧
    s'.fn 0 = ⟨.ready, .full, true, 1⟩ :=
  lastly_step (xs := [.call 0 0, .call 1 0, .run 0, .run 1, .run 0, .run 1, .run 0, .run 0, .run 0,
    .run 0, .run 0, .run 0, .run 0, .run 0, .run 0, .run 0, .run 0, .run 0]) (x := .run 1) (by decide)

example : Acyclic exProg (fun f => if f = 0 then 1 else 0) := by
  intro f d hd
  simp only [exProg] at hd
  split at hd
  · rename_i h
    subst h
    rcases List.mem_cons.mp hd with h | h
    · subst h; decide
    · simp only [List.mem_singleton] at h; subst h; decide
  · cases hd

/-! ## Counterexamples -/

/-- No references. -/
def flat : Prog := ⟨fun _ => [], fun _ => false⟩

/-- With code compiled ahead of time `jit_fill_irbuf` can return while the code is being
written. -/
theorem aot_incomplete_counterexample :
    ∃ s s' t, Reach flat (fun _ => Fn.aot) s ∧ Step flat s t (.ret 0) s' ∧
      s'.fn 0 = ⟨.compiling, .part, true, 1⟩ := by
  obtain ⟨s, s', h⟩ := lastly_step (P := flat) (fn0 := fun _ => Fn.aot) (f := 0)
    (e := .ret 0) (y := ⟨.compiling, .part, true, 1⟩)
    (xs := [.call 0 0, .run 0, .call 1 0, .run 1, .run 1, .run 1, .run 1, .run 1]) (x := .run 0)
    (by decide)
  exact ⟨s, s', 0, h⟩

/-- With code compiled ahead of time the assertion at jit-core.c 408 can fail. -/
theorem aot_assert_counterexample :
    ∃ s s' t, Reach flat (fun _ => Fn.aot) s ∧ Step flat s t (.abort 0) s' ∧
      s'.fn 0 = ⟨.compiling, .full, true, 1⟩ := by
  obtain ⟨s, s', h⟩ := lastly_step (P := flat) (fn0 := fun _ => Fn.aot) (f := 0)
    (e := .abort 0) (y := ⟨.compiling, .full, true, 1⟩)
    (xs := [.call 0 0, .run 0, .run 0, .call 1 0, .run 1, .run 1, .run 1, .run 1, .run 1, .run 1,
      .run 1, .run 0]) (x := .run 0) (by decide)
  exact ⟨s, s', 0, h⟩

/-- `s'` comes after `s`. -/
inductive Later (P : Prog) (s : St) : St → Prop where
  | here : Later P s s
  | step {s' t e s''} : Later P s s' → Step P s' t e s'' → Later P s s''

theorem Later.reach {P : Prog} {fn0 : Nat → Fn} {s s' : St} (h : Later P s s')
    (hr : Reach P fn0 s) : Reach P fn0 s' := by
  induction h with
  | here => exact hr
  | step _ hs ih => exact ih.step hs

/-- The innermost call waits for a function which nobody makes ready: it waits for ever. -/
theorem waits {P : Prog} {s : St} {t f : Nat} {rest : List Frame}
    (hs : s.thr t = ⟨f, .wait⟩ :: rest) (hc : ∀ s', Later P s s' → (s'.fn f).st ≠ .ready) :
    ∀ s', Later P s s' → s'.thr t = ⟨f, .wait⟩ :: rest := by
  intro s' h
  induction h with
  | here => exact hs
  | step h1 h2 ih =>
    have hne := hc _ h1
    cases h2 with
    | call g hg =>
      rename_i s1 t1
      show upd s1.thr t1 _ t = _
      by_cases ht : t = t1
      · subst ht; rw [ih] at hg; cases hg
      · rw [upd_other _ _ ht]; exact ih
    | run a l hl =>
      rename_i s1 t1
      by_cases ht : t = t1
      · subst ht
        rw [ih] at hl
        cases hl
        show (stepWait s1 t f rest).2.thr t = _
        unfold stepWait
        rw [if_neg hne]
        exact ih
      · rw [run_other ht]; exact ih

/-- A function whose generation is never finished. -/
structure Dead (f : Nat) (s : St) : Prop where
  inv : Inv s
  st : (s.fn f).st = .compiling
  none : ∀ t a, a ∈ s.thr t → a.f = f → ¬ Holds a

theorem Dead.step {P : Prog} {f : Nat} {s s' : St} {t : Nat} {e : Ev} (hd : Dead f s)
    (h : Step P s t e s') : Dead f s' := by
  have hi' := hd.inv.step h
  cases h with
  | call g hg =>
    refine ⟨hi', hd.st, ?_⟩
    intro t' a ha
    have ha' : a ∈ upd s.thr t [⟨g, .load⟩] t' := ha
    by_cases ht : t' = t
    · subst ht
      rw [upd_same] at ha'
      simp only [List.mem_singleton] at ha'
      subst ha'
      exact fun _ h => h
    · rw [upd_other _ _ ht] at ha'; exact hd.none t' a ha'
  | run a rest hs =>
    have hmem : a ∈ s.thr t := by simp [hs]
    have hna := hd.none t a hmem
    -- a change of the function and of the innermost call
    have put : ∀ x new, a.f ≠ f → (∀ b ∈ new, b.f = f → ¬ Holds b) →
        Inv ((s.put a.f x).stk t (new ++ rest)) → Dead f ((s.put a.f x).stk t (new ++ rest)) := by
      intro x new hne hnew hin
      refine ⟨hin, ?_, ?_⟩
      · show (upd s.fn a.f x f).st = _
        rw [upd_other _ _ (Ne.symm hne)]; exact hd.st
      · intro t' b hb
        have hb' : b ∈ upd s.thr t (new ++ rest) t' := hb
        by_cases ht : t' = t
        · subst ht
          rw [upd_same] at hb'
          rcases List.mem_append.mp hb' with h | h
          · exact hnew b h
          · exact hd.none t' b (by simp [hs, h])
        · rw [upd_other _ _ ht] at hb'; exact hd.none t' b hb'
    have move : ∀ new, (∀ b ∈ new, b.f = f → ¬ Holds b) →
        Inv (s.stk t (new ++ rest)) → Dead f (s.stk t (new ++ rest)) := by
      intro new hnew hin
      refine ⟨hin, hd.st, ?_⟩
      intro t' b hb
      have hb' : b ∈ upd s.thr t (new ++ rest) t' := hb
      by_cases ht : t' = t
      · subst ht
        rw [upd_same] at hb'
        rcases List.mem_append.mp hb' with h | h
        · exact hnew b h
        · exact hd.none t' b (by simp [hs, h])
      · rw [upd_other _ _ ht] at hb'; exact hd.none t' b hb'
    have dropped : ∀ s1 : St, (s1.fn f).st = .compiling → s1.thr = s.thr → Inv (s1.stk t []) →
        Dead f (s1.stk t []) := by
      intro s1 h1 h2 hin
      refine ⟨hin, h1, ?_⟩
      intro t' b hb
      have hb' : b ∈ upd s1.thr t [] t' := hb
      by_cases ht : t' = t
      · subst ht; rw [upd_same] at hb'; cases hb'
      · rw [upd_other _ _ ht, h2] at hb'; exact hd.none t' b hb'
    obtain ⟨g, pc⟩ := a
    have one : ∀ q : Pc, (g = f → ¬ Holds ⟨g, q⟩) → ∀ b ∈ [(⟨g, q⟩ : Frame)], b.f = f → ¬ Holds b := by
      intro q hq b hb; simp only [List.mem_singleton] at hb; subst hb; exact hq
    have hfa : FrameOk (s.fn g) pc := hd.inv.frames t ⟨g, pc⟩ hmem
    have hgf : Holds ⟨g, pc⟩ → g ≠ f := fun h e => hna e h
    cases pc with
    | load =>
      have hi' : Inv (stepLoad s t g rest).2 := hi'
      show Dead f (stepLoad s t g rest).2
      unfold stepLoad at hi' ⊢
      split at hi'
      · exact move [⟨g, .check⟩] (one _ (fun _ h => h)) hi'
      · exact move [⟨g, .cas .placeholder⟩] (one _ (fun _ h => h)) hi'
      · exact move [⟨g, .wait⟩] (one _ (fun _ h => h)) hi'
      · exact dropped s hd.st rfl hi'
    | check =>
      have hi' : Inv (stepCheck s t g rest).2 := hi'
      show Dead f (stepCheck s t g rest).2
      unfold stepCheck at hi' ⊢
      split at hi'
      · rename_i hb; rw [if_pos hb]; exact move [] (by simp) hi'
      · rename_i hb; rw [if_neg hb]; exact move [⟨g, .cas .ready⟩] (one _ (fun _ h => h)) hi'
    | cas q =>
      have hi' : Inv (stepCas s t g q rest).2 := hi'
      show Dead f (stepCas s t g q rest).2
      simp only [FrameOk] at hfa
      subst hfa
      unfold stepCas at hi' ⊢
      split at hi'
      · rename_i hb; rw [if_pos hb]
        have hne : g ≠ f := by
          intro e; rw [e, hd.st] at hb; cases hb
        exact put _ [⟨g, .start⟩] hne (one _ (fun e => absurd e hne)) hi'
      · rename_i hb; rw [if_neg hb]; exact move [⟨g, .wait⟩] (one _ (fun _ h => h)) hi'
    | wait =>
      have hi' : Inv (stepWait s t g rest).2 := hi'
      show Dead f (stepWait s t g rest).2
      unfold stepWait at hi' ⊢
      split at hi'
      · rename_i hb; rw [if_pos hb]; exact move [] (by simp) hi'
      · rename_i hb; rw [if_neg hb]; exact hd
    | start =>
      have hi' : Inv (stepStart s t g rest).2 := hi'
      show Dead f (stepStart s t g rest).2
      unfold stepStart at hi' ⊢
      split at hi'
      · rename_i hb; rw [if_pos hb]
        exact move [⟨g, .lookup⟩] (one _ (fun e => absurd e (hgf trivial))) hi'
      · rename_i hb; rw [if_neg hb]; exact dropped s hd.st rfl hi'
    | lookup =>
      have hi' : Inv (stepLookup P s t g rest).2 := hi'
      show Dead f (stepLookup P s t g rest).2
      have hne := hgf trivial
      unfold stepLookup at hi' ⊢
      split at hi'
      · rename_i hb; rw [if_pos hb]
        refine dropped (s.put g _) ?_ rfl hi'
        show (upd s.fn g _ f).st = _
        rw [upd_other _ _ (Ne.symm hne)]; exact hd.st
      · rename_i hb; rw [if_neg hb]
        exact put _ [⟨g, .gen (P.deps g)⟩] hne (one _ (fun e => absurd e hne)) hi'
    | gen rem =>
      have hi' : Inv (stepGen s t g rem rest).2 := hi'
      show Dead f (stepGen s t g rem rest).2
      have hne := hgf trivial
      have two : ∀ d r, ∀ b ∈ [(⟨d, .load⟩ : Frame), ⟨g, .gen r⟩], b.f = f → ¬ Holds b := by
        intro d r b hb hbf
        rcases List.mem_cons.mp hb with hb | hb
        · subst hb; exact fun h => h
        · simp only [List.mem_singleton] at hb; subst hb; exact absurd hbf hne
      unfold stepGen at hi' ⊢
      split at hi'
      · exact put _ [⟨g, .store⟩] hne (one _ (fun e => absurd e hne)) hi'
      · exact move [⟨_, .load⟩, ⟨g, .gen _⟩] (two _ _) hi'
      · split at hi'
        · rename_i hb; simp only [if_pos hb]
          exact move [⟨g, .gen _⟩] (one _ (fun e => absurd e hne)) hi'
        · rename_i hb; simp only [if_neg hb]
          exact move [⟨_, .load⟩, ⟨g, .gen _⟩] (two _ _) hi'
    | store => exact put _ [] (hgf trivial) (by simp) hi'

theorem Dead.later {P : Prog} {f : Nat} {s s' : St} (hd : Dead f s) (h : Later P s s') :
    Dead f s' := by
  induction h with
  | here => exact hd
  | step _ hs ih => exact ih.step hs

/-- Function 0 refers to function 1, which has no unit. -/
def missingProg : Prog := ⟨fun f => if f = 0 then [.link 1] else [], fun f => f = 1⟩

/-- The actions of `missing_hang_counterexample`. -/
def missingActs : List Act :=
  [.call 0 0, .run 0, .run 0, .run 0, .run 0, .run 0, .run 0, .run 0, .run 0, .run 0,
    .call 0 0, .run 0]

/-- After generating code has failed because a unit is missing, the next call for the function
which needed it waits for ever: its state stays `JIT_FUNC_COMPILING`. -/
theorem missing_hang_counterexample :
    ∃ s, Reach missingProg (fun _ => Fn.fresh) s ∧
      ∀ s', Later missingProg s s' → s'.thr 0 = [⟨0, .wait⟩] := by
  have hsome : (acts missingProg (start fun _ => Fn.fresh) missingActs).isSome = true := by decide
  obtain ⟨s, hs⟩ := Option.isSome_iff_exists.mp hsome
  have hr : Reach missingProg (fun _ => Fn.fresh) s := acts_reach _ _ _ .start hs
  have h1 : (acts missingProg (start fun _ => Fn.fresh) missingActs).map (fun s => s.thr 0)
      = some [⟨0, .wait⟩] := by decide
  have h2 : (acts missingProg (start fun _ => Fn.fresh) missingActs).map (fun s => (s.fn 0).st)
      = some .compiling := by decide
  have h3 : (acts missingProg (start fun _ => Fn.fresh) missingActs).map (fun s => s.thr)
      = some (upd (upd (fun _ => []) 0 []) 0 [⟨0, .wait⟩]) := by
    rw [hs]
    rw [hs] at h1
    simp only [Option.map_some, Option.some.injEq] at h1 ⊢
    funext t
    by_cases ht : t = 0
    · subst ht; rw [h1, upd_same]
    · rw [upd_other _ _ ht, upd_other _ _ ht]
      have : ∀ (xs : List Act) (s s' : St), (∀ x ∈ xs, x.tid = 0) →
          acts missingProg s xs = some s' → s'.thr t = s.thr t := by
        intro xs
        induction xs with
        | nil => intro s s' _ h; cases h; rfl
        | cons x xs ih =>
          intro s s' hx h
          simp only [acts] at h
          cases hx' : act missingProg s x with
          | none => rw [hx'] at h; cases h
          | some r =>
            rw [hx'] at h
            rw [ih r.2 s' (fun y hy => hx y (by simp [hy])) h]
            have hst := act_step (e := r.1) hx'
            rw [hx x (by simp)] at hst
            have he : Step missingProg s 0 r.1 r.2 := hst
            generalize r.2 = s2 at he ⊢
            generalize r.1 = e2 at he
            cases he with
            | call g hg => exact upd_other _ _ ht
            | run a l hl => exact run_other ht
      rw [this missingActs _ s (by decide) hs]
      rfl
  rw [hs] at h1 h2 h3
  simp only [Option.map_some, Option.some.injEq] at h1 h2 h3
  have hd : Dead 0 s := by
    refine ⟨hr.inv (fun _ => rfl), h2, ?_⟩
    intro t a ha
    rw [h3] at ha
    by_cases ht : t = 0
    · subst ht; rw [upd_same] at ha
      simp only [List.mem_singleton] at ha
      subst ha; exact fun _ h => h
    · rw [upd_other _ _ ht, upd_other _ _ ht] at ha; cases ha
  refine ⟨s, hr, waits h1 ?_⟩
  intro s' h
  rw [(hd.later h).st]; decide

/-- Functions 0 and 1 refer to each other, as package bodies can. -/
def cyclicProg : Prog :=
  ⟨fun f => if f = 0 then [.link 1] else if f = 1 then [.link 0] else [], fun _ => false⟩

/-- One thread alone waits for itself for ever when units refer to each other's variables. -/
theorem cyclic_hang_counterexample :
    ∃ s, Reach cyclicProg (fun _ => Fn.fresh) s ∧
      ∀ s', Later cyclicProg s s' → s'.thr 0 = [⟨0, .wait⟩, ⟨1, .gen []⟩, ⟨0, .gen []⟩] := by
  have hsome : (acts cyclicProg (start fun _ => Fn.fresh)
      [.call 0 0, .run 0, .run 0, .run 0, .run 0, .run 0, .run 0, .run 0, .run 0, .run 0, .run 0,
        .run 0]).isSome = true := by decide
  obtain ⟨s, hs⟩ := Option.isSome_iff_exists.mp hsome
  have hr : Reach cyclicProg (fun _ => Fn.fresh) s := acts_reach _ _ _ .start hs
  have h1 : (acts cyclicProg (start fun _ => Fn.fresh)
      [.call 0 0, .run 0, .run 0, .run 0, .run 0, .run 0, .run 0, .run 0, .run 0, .run 0, .run 0,
        .run 0]).map (fun s => s.thr 0) = some [⟨0, .wait⟩, ⟨1, .gen []⟩, ⟨0, .gen []⟩] := by decide
  rw [hs] at h1
  simp only [Option.map_some, Option.some.injEq] at h1
  refine ⟨s, hr, ?_⟩
  intro s' h
  induction h with
  | here => exact h1
  | step h1 h2 ih =>
    have hi := (h1.reach hr).inv (fun _ => rfl)
    cases h2 with
    | call g hg =>
      rename_i s1 t1
      show upd s1.thr t1 _ 0 = _
      by_cases ht : 0 = t1
      · subst ht; rw [ih] at hg; cases hg
      · rw [upd_other _ _ ht]; exact ih
    | run a l hl =>
      rename_i s1 t1
      by_cases ht : 0 = t1
      · subst ht
        have hg := hi.frames 0 ⟨0, .gen []⟩ (by rw [ih]; simp)
        rw [ih] at hl
        cases hl
        show (stepWait s1 0 0 _).2.thr 0 = _
        unfold stepWait
        rw [if_neg (by rw [hg.1]; decide)]
        exact ih
      · rw [run_other ht]; exact ih

end Verif.Jit.Fill
