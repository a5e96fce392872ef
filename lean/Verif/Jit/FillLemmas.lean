import Verif.Jit.FillModel

/-!
# Invariant of `jit_fill_irbuf`
-/

namespace Verif.Jit.Fill

/-- The call generates the function. -/
def Holds (a : Frame) : Prop :=
  match a.pc with
  | .start | .lookup | .gen _ | .store => True
  | _ => False

def FnOk (x : Fn) : Prop :=
  match x.st with
  | .placeholder => x.buf = .null ∧ x.gens = 0 ∧ x.tab = false
  | .compiling => x.gens ≤ 1
  | .ready => x.buf = .full ∧ x.gens = 1 ∧ x.tab = true
  | .error => x.gens = 0

def FrameOk (x : Fn) (pc : Pc) : Prop :=
  match pc with
  | .load => True
  | .check => x.st = .ready
  | .cas e => e = .placeholder
  | .wait => x.st ≠ .placeholder
  | .start => x.st = .compiling ∧ x.buf = .null ∧ x.gens = 0
  | .lookup => x.st = .compiling ∧ x.buf = .null ∧ x.gens = 0
  | .gen _ => x.st = .compiling ∧ x.gens = 1 ∧ x.tab = true
  | .store => x.st = .compiling ∧ x.gens = 1 ∧ x.tab = true ∧ x.buf = .full

def isGen : Pc → Prop
  | .gen _ => True
  | _ => False

/-- No two calls of the list generate the same function. -/
def Distinct (l : List Frame) : Prop :=
  l.Pairwise fun a b => Holds a → Holds b → a.f ≠ b.f

structure Inv (s : St) : Prop where
  fns : ∀ f, FnOk (s.fn f)
  frames : ∀ t a, a ∈ s.thr t → FrameOk (s.fn a.f) a.pc
  tails : ∀ t a l, s.thr t = a :: l → ∀ b ∈ l, isGen b.pc
  dist : ∀ t, Distinct (s.thr t)
  excl : ∀ t t' a b, t ≠ t' → a ∈ s.thr t → b ∈ s.thr t' → Holds a → Holds b → a.f ≠ b.f

theorem upd_same (g : Nat → α) (k : Nat) (v : α) : upd g k v k = v := by simp [upd]

theorem upd_other (g : Nat → α) {k x : Nat} (v : α) (h : x ≠ k) : upd g k v x = g x := by
  simp [upd, h]

theorem Holds.compiling {x : Fn} {a : Frame} (h : Holds a) (ho : FrameOk x a.pc) :
    x.st = .compiling := by
  unfold Holds at h
  unfold FrameOk at ho
  split at h <;> simp_all

/-- A call which does not generate the function is not disturbed by a change of the function. -/
theorem frame_stable {x y : Fn} {a : Frame} (h : FrameOk x a.pc) (hn : ¬ Holds a)
    (h1 : x.st = .ready → y.st = .ready) (h2 : x.st ≠ .placeholder → y.st ≠ .placeholder) :
    FrameOk y a.pc := by
  unfold FrameOk at *
  unfold Holds at hn
  split <;> simp_all

/-- Replacing the innermost call of thread `t` (by none, one or two) and the function of that
call. -/
theorem Inv.change {s : St} (hi : Inv s) {t : Nat} {a : Frame} {rest new : List Frame} {x : Fn}
    (hs : s.thr t = a :: rest) (hx : FnOk x)
    (hready : (s.fn a.f).st = .ready → x.st = .ready)
    (hplace : (s.fn a.f).st ≠ .placeholder → x.st ≠ .placeholder)
    (hown : x = s.fn a.f ∨ Holds a ∨ (s.fn a.f).st = .placeholder)
    (hlen : ∀ b ∈ new.tail, isGen b.pc)
    (hnew : ∀ b ∈ new, FrameOk (if b.f = a.f then x else s.fn b.f) b.pc)
    (hh : ∀ b ∈ new, Holds b → b.f = a.f ∧ (Holds a ∨ (s.fn a.f).st = .placeholder))
    (hd : Distinct new) :
    Inv ((s.put a.f x).stk t (new ++ rest)) := by
  have hfa : FrameOk (s.fn a.f) a.pc := hi.frames t a (by simp [hs])
  have hdist := hi.dist t
  rw [hs] at hdist
  have hd1 := List.pairwise_cons.mp hdist
  -- other calls which generate code do not generate `a.f` if `x` differs
  have other : ∀ t' b, b ∈ s.thr t' → (t' ≠ t ∨ b ∈ rest) → Holds b →
      (Holds a ∨ (s.fn a.f).st = .placeholder) → b.f ≠ a.f := by
    intro t' b hb hor hhb ho heq
    rcases ho with ho | ho
    · rcases hor with hne | hr
      · exact hi.excl t' t b a hne hb (by simp [hs]) hhb ho heq
      · exact hd1.1 b hr ho hhb heq.symm
    · have := hhb.compiling (hi.frames t' b hb)
      rw [heq, ho] at this
      cases this
  have keep : ∀ t' b, b ∈ s.thr t' → (t' ≠ t ∨ b ∈ rest) →
      FrameOk (upd s.fn a.f x b.f) b.pc := by
    intro t' b hb hor
    have hfb := hi.frames t' b hb
    by_cases hbf : b.f = a.f
    · rw [hbf, upd_same]
      rw [hbf] at hfb
      rcases hown with h | h
      · rw [h]; exact hfb
      · by_cases hhb : Holds b
        · exact absurd hbf (other t' b hb hor hhb h)
        · exact frame_stable hfb hhb hready hplace
    · rw [upd_other _ _ hbf]; exact hfb
  constructor
  · intro f
    show FnOk (upd s.fn a.f x f)
    by_cases h : f = a.f
    · rw [h, upd_same]; exact hx
    · rw [upd_other _ _ h]; exact hi.fns f
  · intro t' b hb
    show FrameOk (upd s.fn a.f x b.f) b.pc
    have hb' : b ∈ upd s.thr t (new ++ rest) t' := hb
    by_cases ht : t' = t
    · subst ht
      rw [upd_same] at hb'
      rcases List.mem_append.mp hb' with h | h
      · have := hnew b h
        by_cases hbf : b.f = a.f
        · simp only [if_pos hbf] at this; rw [hbf, upd_same]; exact this
        · simp only [if_neg hbf] at this; rw [upd_other _ _ hbf]; exact this
      · exact keep t' b (by simp [hs, h]) (Or.inr h)
    · rw [upd_other _ _ ht] at hb'
      exact keep t' b hb' (Or.inl ht)
  · intro t' c l hl b hb
    have hl' : upd s.thr t (new ++ rest) t' = c :: l := hl
    by_cases ht : t' = t
    · subst ht
      rw [upd_same] at hl'
      have ht := hi.tails t' a rest hs
      cases new with
      | nil =>
        have : rest = c :: l := hl'
        exact ht b (by rw [this]; exact List.mem_cons_of_mem _ hb)
      | cons n ns =>
        have : ns ++ rest = l := (List.cons.inj hl').2
        rw [← this] at hb
        rcases List.mem_append.mp hb with h | h
        · exact hlen b h
        · exact ht b h
    · rw [upd_other _ _ ht] at hl'
      exact hi.tails t' c l hl' b hb
  · intro t'
    show Distinct (upd s.thr t (new ++ rest) t')
    by_cases ht : t' = t
    · subst ht
      rw [upd_same]
      refine List.pairwise_append.mpr ⟨hd, hd1.2, ?_⟩
      intro b hb c hc hhb hhc heq
      have := hh b hb hhb
      exact other t' c (by simp [hs, hc]) (Or.inr hc) hhc this.2 (heq.symm.trans this.1)
    · rw [upd_other _ _ ht]; exact hi.dist t'
  · have key : ∀ t' b c, t' ≠ t → b ∈ new ++ rest → c ∈ s.thr t' → Holds b → Holds c →
        b.f ≠ c.f := by
      intro t' b c ht hb hc hhb hhc heq
      rcases List.mem_append.mp hb with h | h
      · have := hh b h hhb
        exact other t' c hc (Or.inl ht) hhc this.2 (heq.symm.trans this.1)
      · exact hi.excl t t' b c (Ne.symm ht) (by simp [hs, h]) hc hhb hhc heq
    intro t1 t2 b c hne hb hc hhb hhc
    have hb' : b ∈ upd s.thr t (new ++ rest) t1 := hb
    have hc' : c ∈ upd s.thr t (new ++ rest) t2 := hc
    by_cases h1 : t1 = t
    · subst h1
      have h2 : t2 ≠ t1 := Ne.symm hne
      rw [upd_same] at hb'
      rw [upd_other _ _ h2] at hc'
      exact key t2 b c h2 hb' hc' hhb hhc
    · rw [upd_other _ _ h1] at hb'
      by_cases h2 : t2 = t
      · subst h2
        rw [upd_same] at hc'
        exact fun h => key t1 c b h1 hc' hb' hhc hhb h.symm
      · rw [upd_other _ _ h2] at hc'
        exact hi.excl t1 t2 b c hne hb' hc' hhb hhc

theorem put_self (s : St) (f : Nat) : s.put f (s.fn f) = s := by
  have : upd s.fn f (s.fn f) = s.fn := by
    funext x
    by_cases h : x = f
    · rw [h, upd_same]
    · rw [upd_other _ _ h]
  cases s
  simp only [St.put] at *
  rw [this]

/-- Replacing the innermost call only. -/
theorem Inv.move {s : St} (hi : Inv s) {t : Nat} {a : Frame} {rest new : List Frame}
    (hs : s.thr t = a :: rest)
    (hlen : ∀ b ∈ new.tail, isGen b.pc)
    (hnew : ∀ b ∈ new, FrameOk (s.fn b.f) b.pc)
    (hh : ∀ b ∈ new, Holds b → b.f = a.f ∧ Holds a)
    (hd : Distinct new) :
    Inv (s.stk t (new ++ rest)) := by
  have := hi.change (x := s.fn a.f) hs (hi.fns _) (fun h => h) (fun h => h) (Or.inl rfl) hlen
    (by
      intro b hb
      by_cases h : b.f = a.f
      · simp only [if_pos h]; rw [← h]; exact hnew b hb
      · simp only [if_neg h]; exact hnew b hb)
    (fun b hb h => ⟨(hh b hb h).1, Or.inl (hh b hb h).2⟩) hd
  rw [put_self] at this
  exact this

/-- The thread gives up. -/
theorem Inv.drop {s : St} (hi : Inv s) (t : Nat) : Inv (s.stk t []) := by
  have sub : ∀ t' b, b ∈ (s.stk t []).thr t' → t' ≠ t ∧ b ∈ s.thr t' := by
    intro t' b hb
    have hb' : b ∈ upd s.thr t [] t' := hb
    by_cases h : t' = t
    · subst h; rw [upd_same] at hb'; cases hb'
    · rw [upd_other _ _ h] at hb'; exact ⟨h, hb'⟩
  refine ⟨hi.fns, fun t' b hb => hi.frames t' b (sub t' b hb).2, ?_, ?_, ?_⟩
  · intro t' c l hl b hb
    have hl' : upd s.thr t [] t' = c :: l := hl
    by_cases h : t' = t
    · subst h; rw [upd_same] at hl'; cases hl'
    · rw [upd_other _ _ h] at hl'; exact hi.tails t' c l hl' b hb
  · intro t'
    show Distinct (upd s.thr t [] t')
    by_cases h : t' = t
    · subst h; rw [upd_same]; exact List.Pairwise.nil
    · rw [upd_other _ _ h]; exact hi.dist t'
  · intro t1 t2 b c hne hb hc
    exact hi.excl t1 t2 b c hne (sub t1 b hb).2 (sub t2 c hc).2

theorem distinct_one (a : Frame) : Distinct [a] := List.pairwise_singleton _ _

theorem Inv.step {P : Prog} {s s' : St} {t : Nat} {e : Ev} (hi : Inv s) (h : Step P s t e s') :
    Inv s' := by
  cases h with
  | call f h =>
    have hnil : ∀ b, b ∈ [(⟨f, .load⟩ : Frame)] → ¬ Holds b := by
      intro b hb; simp only [List.mem_singleton] at hb; subst hb; exact fun h => h
    have cases' : ∀ t' b, b ∈ (s.stk t [⟨f, .load⟩]).thr t' →
        (t' = t ∧ b = ⟨f, .load⟩) ∨ (t' ≠ t ∧ b ∈ s.thr t') := by
      intro t' b hb
      have hb' : b ∈ upd s.thr t [⟨f, .load⟩] t' := hb
      by_cases ht : t' = t
      · subst ht; rw [upd_same] at hb'; exact Or.inl ⟨rfl, List.mem_singleton.mp hb'⟩
      · rw [upd_other _ _ ht] at hb'; exact Or.inr ⟨ht, hb'⟩
    refine ⟨hi.fns, ?_, ?_, ?_, ?_⟩
    · intro t' b hb
      rcases cases' t' b hb with ⟨_, h⟩ | ⟨_, h⟩
      · subst h; exact trivial
      · exact hi.frames t' b h
    · intro t' c l hl b hb
      have hl' : upd s.thr t [⟨f, .load⟩] t' = c :: l := hl
      by_cases ht : t' = t
      · subst ht; rw [upd_same] at hl'
        have := (List.cons.inj hl').2
        rw [← this] at hb; cases hb
      · rw [upd_other _ _ ht] at hl'; exact hi.tails t' c l hl' b hb
    · intro t'
      show Distinct (upd s.thr t [⟨f, .load⟩] t')
      by_cases ht : t' = t
      · subst ht; rw [upd_same]; exact distinct_one _
      · rw [upd_other _ _ ht]; exact hi.dist t'
    · intro t1 t2 b c hne hb hc hhb hhc
      rcases cases' t1 b hb with ⟨_, h⟩ | ⟨_, h⟩
      · subst h; exact absurd hhb (fun h => h)
      rcases cases' t2 c hc with ⟨_, h'⟩ | ⟨_, h'⟩
      · subst h'; exact absurd hhc (fun h => h)
      exact hi.excl t1 t2 b c hne h h' hhb hhc
  | run a rest h =>
    obtain ⟨f, pc⟩ := a
    have hfa : FrameOk (s.fn f) pc := hi.frames t ⟨f, pc⟩ (by simp [h])
    have hfn := hi.fns f
    cases pc with
    | load =>
      show Inv (stepLoad s t f rest).2
      unfold stepLoad
      have mv : ∀ q : Pc, FrameOk (s.fn f) q → ¬ Holds ⟨f, q⟩ →
          Inv (s.stk t (⟨f, q⟩ :: rest)) := by
        intro q hq hnh
        refine hi.move (new := [⟨f, q⟩]) h (by simp) ?_ ?_ (distinct_one _)
        · intro b hb; simp only [List.mem_singleton] at hb; subst hb; exact hq
        · intro b hb hhb; simp only [List.mem_singleton] at hb; subst hb; exact absurd hhb hnh
      split
      · rename_i hst; exact mv .check hst (fun h => h)
      · exact mv (.cas .placeholder) rfl (fun h => h)
      · rename_i hst; exact mv .wait (by simp [FrameOk, hst]) (fun h => h)
      · exact hi.drop t
    | check =>
      show Inv (stepCheck s t f rest).2
      unfold stepCheck
      have hr : (s.fn f).buf = .full := by
        simp only [FrameOk] at hfa
        simp only [FnOk, hfa] at hfn
        exact hfn.1
      rw [if_pos (by rw [hr]; decide)]
      exact hi.move (new := []) h (by simp) (by simp) (by simp) List.Pairwise.nil
    | cas e =>
      show Inv (stepCas s t f e rest).2
      unfold stepCas
      simp only [FrameOk] at hfa
      subst hfa
      by_cases hst : (s.fn f).st = .placeholder
      · rw [if_pos hst]
        simp only [FnOk, hst] at hfn
        refine hi.change (new := [⟨f, .start⟩]) h ?_ ?_ ?_ (Or.inr (Or.inr hst)) (by simp) ?_ ?_ (distinct_one _)
        · simp [FnOk, hfn.2.1]
        · simp [hst]
        · simp
        · intro b hb; simp only [List.mem_singleton] at hb; subst hb
          simp [FrameOk, hfn.1, hfn.2.1]
        · intro b hb _; simp only [List.mem_singleton] at hb; subst hb; exact ⟨rfl, Or.inr hst⟩
      · rw [if_neg hst]
        refine hi.move (new := [⟨f, .wait⟩]) h (by simp) ?_ ?_ (distinct_one _)
        · intro b hb; simp only [List.mem_singleton] at hb; subst hb; exact hst
        · intro b hb hhb; simp only [List.mem_singleton] at hb; subst hb; exact absurd hhb (fun h => h)
    | wait =>
      show Inv (stepWait s t f rest).2
      unfold stepWait
      split
      · exact hi.move (new := []) h (by simp) (by simp) (by simp) List.Pairwise.nil
      · exact hi
    | start =>
      show Inv (stepStart s t f rest).2
      unfold stepStart
      split
      · refine hi.move (new := [⟨f, .lookup⟩]) h (by simp) ?_ ?_ (distinct_one _)
        · intro b hb; simp only [List.mem_singleton] at hb; subst hb; exact hfa
        · intro b hb _; simp only [List.mem_singleton] at hb; subst hb; exact ⟨rfl, trivial⟩
      · exact hi.drop t
    | lookup =>
      show Inv (stepLookup P s t f rest).2
      unfold stepLookup
      simp only [FrameOk] at hfa
      split
      · have := hi.change (new := []) (x := { s.fn f with st := .error }) h (by simp [FnOk, hfa.2.2])
          (by simp [hfa.1]) (by simp) (Or.inr (Or.inl trivial)) (by simp)
          (by simp) (by simp) List.Pairwise.nil
        have := this.drop t
        have e : ((s.put f { s.fn f with st := .error }).stk t ([] ++ rest)).stk t []
            = (s.put f { s.fn f with st := .error }).stk t [] := by
          simp only [St.stk, St.put]
          congr 1
          funext x
          by_cases hx : x = t
          · rw [hx, upd_same, upd_same]
          · simp [upd, hx]
        rw [← e]
        exact this
      · refine hi.change (new := [⟨f, .gen (P.deps f)⟩]) h ?_ ?_ ?_ (Or.inr (Or.inl trivial)) (by simp) ?_ ?_ (distinct_one _)
        · simp [FnOk, hfa.1, hfa.2.2]
        · simp [hfa.1]
        · simp [hfa.1]
        · intro b hb; simp only [List.mem_singleton] at hb; subst hb
          simp [FrameOk, hfa.1, hfa.2.2]
        · intro b hb _; simp only [List.mem_singleton] at hb; subst hb; exact ⟨rfl, Or.inl trivial⟩
    | gen rem =>
      show Inv (stepGen s t f rem rest).2
      have push : ∀ d r, Inv (s.stk t (⟨d, .load⟩ :: ⟨f, .gen r⟩ :: rest)) := by
        intro d r
        refine hi.move (new := [⟨d, .load⟩, ⟨f, .gen r⟩]) h ?_ ?_ ?_ ?_
        · intro b hb; simp only [List.tail_cons, List.mem_singleton] at hb; subst hb; exact trivial
        · intro b hb
          rcases List.mem_cons.mp hb with hb | hb
          · subst hb; exact trivial
          · simp only [List.mem_singleton] at hb; subst hb; exact hfa
        · intro b hb hhb
          rcases List.mem_cons.mp hb with hb | hb
          · subst hb; exact absurd hhb (fun h => h)
          · simp only [List.mem_singleton] at hb; subst hb; exact ⟨rfl, trivial⟩
        · refine List.pairwise_cons.mpr ⟨?_, distinct_one _⟩
          intro b _ hhb; exact absurd hhb (fun h => h)
      unfold stepGen
      split
      · simp only [FrameOk] at hfa
        refine hi.change (new := [⟨f, .store⟩]) h ?_ ?_ ?_ (Or.inr (Or.inl trivial)) (by simp) ?_ ?_ (distinct_one _)
        · simp [FnOk, hfa.1, hfa.2.1]
        · simp [hfa.1]
        · simp [hfa.1]
        · intro b hb; simp only [List.mem_singleton] at hb; subst hb
          simp [FrameOk, hfa.1, hfa.2.1, hfa.2.2]
        · intro b hb _; simp only [List.mem_singleton] at hb; subst hb; exact ⟨rfl, Or.inl trivial⟩
      · exact push _ _
      · rename_i d r
        by_cases hd : (s.fn d).tab = true
        · rw [if_pos hd]
          refine hi.move (new := [⟨f, .gen r⟩]) h (by simp) ?_ ?_ (distinct_one _)
          · intro b hb; simp only [List.mem_singleton] at hb; subst hb; exact hfa
          · intro b hb _; simp only [List.mem_singleton] at hb; subst hb; exact ⟨rfl, trivial⟩
        · rw [if_neg hd]; exact push _ _
    | store =>
      show Inv (stepStore s t f rest).2
      unfold stepStore
      simp only [FrameOk] at hfa
      refine hi.change (new := []) h ?_ ?_ ?_ (Or.inr (Or.inl trivial)) (by simp) (by simp) (by simp) List.Pairwise.nil
      · simp [FnOk, hfa.2.1, hfa.2.2]
      · simp
      · simp

theorem Inv.start {fn0 : Nat → Fn} (h : ∀ f, fn0 f = Fn.fresh) : Inv (start fn0) := by
  refine ⟨fun f => ?_, ?_, ?_, fun _ => List.Pairwise.nil, ?_⟩
  · show FnOk (fn0 f); rw [h f]; exact ⟨rfl, rfl, rfl⟩
  · intro t a ha; exact absurd ha (by simp [Fill.start])
  · intro t a l ha; exact absurd ha (by simp [Fill.start])
  · intro t t' a b _ ha; exact absurd ha (by simp [Fill.start])

theorem Reach.inv {P : Prog} {fn0 : Nat → Fn} {s : St} (h0 : ∀ f, fn0 f = Fn.fresh)
    (h : Reach P fn0 s) : Inv s := by
  induction h with
  | start => exact Inv.start h0
  | step _ hs ih => exact ih.step hs

end Verif.Jit.Fill
