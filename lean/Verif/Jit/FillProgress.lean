import Verif.Jit.FillLemmas

/-!
# Invariant for the progress of `jit_fill_irbuf`
-/

namespace Verif.Jit.Fill

/-- The references do not form a cycle. -/
def Acyclic (P : Prog) (rank : Nat → Nat) : Prop :=
  ∀ f, ∀ d ∈ P.deps f, rank d.fn < rank f

structure Inv2 (rank : Nat → Nat) (s : St) : Prop where
  chain : ∀ t, (s.thr t).Pairwise fun a b => rank a.f < rank b.f
  rems : ∀ t a r, a ∈ s.thr t → a.pc = .gen r → ∀ d ∈ r, rank d.fn < rank a.f
  owner : ∀ f, (s.fn f).st = .compiling → ∃ t a, a ∈ s.thr t ∧ a.f = f ∧ Holds a
  noerr : ∀ f, (s.fn f).st ≠ .error

theorem Inv2.change {rank : Nat → Nat} {s : St} (hi : Inv2 rank s) {t : Nat} {a : Frame}
    {rest new : List Frame} {x : Fn} (hs : s.thr t = a :: rest)
    (hrank : ∀ b ∈ new, rank b.f ≤ rank a.f)
    (hnew : new.Pairwise fun a b => rank a.f < rank b.f)
    (hrem : ∀ b ∈ new, ∀ r, b.pc = .gen r → ∀ d ∈ r, rank d.fn < rank b.f)
    (hown : x.st = .compiling → (∃ b ∈ new, b.f = a.f ∧ Holds b) ∨
      (¬ Holds a ∧ (s.fn a.f).st = .compiling))
    (herr : x.st ≠ .error) :
    Inv2 rank ((s.put a.f x).stk t (new ++ rest)) := by
  have hch := hi.chain t
  rw [hs] at hch
  have hch1 := List.pairwise_cons.mp hch
  have keep : ∀ t' b, b ∈ s.thr t' → (b ≠ a ∨ t' ≠ t) →
      b ∈ ((s.put a.f x).stk t (new ++ rest)).thr t' := by
    intro t' b hb hne
    show b ∈ upd s.thr t (new ++ rest) t'
    by_cases ht : t' = t
    · subst ht
      rw [upd_same]
      rw [hs] at hb
      rcases List.mem_cons.mp hb with h | h
      · rcases hne with hne | hne
        · exact absurd h hne
        · exact absurd rfl hne
      · exact List.mem_append.mpr (Or.inr h)
    · rw [upd_other _ _ ht]; exact hb
  constructor
  · intro t'
    show (upd s.thr t (new ++ rest) t').Pairwise _
    by_cases ht : t' = t
    · subst ht
      rw [upd_same]
      refine List.pairwise_append.mpr ⟨hnew, hch1.2, ?_⟩
      intro b hb c hc
      exact Nat.lt_of_le_of_lt (hrank b hb) (hch1.1 c hc)
    · rw [upd_other _ _ ht]; exact hi.chain t'
  · intro t' b r hb hpc
    have hb' : b ∈ upd s.thr t (new ++ rest) t' := hb
    by_cases ht : t' = t
    · subst ht
      rw [upd_same] at hb'
      rcases List.mem_append.mp hb' with h | h
      · exact hrem b h r hpc
      · exact hi.rems t' b r (by simp [hs, h]) hpc
    · rw [upd_other _ _ ht] at hb'
      exact hi.rems t' b r hb' hpc
  · intro f hf
    have hf' : (upd s.fn a.f x f).st = .compiling := hf
    by_cases hfa : f = a.f
    · subst hfa
      rw [upd_same] at hf'
      rcases hown hf' with ⟨b, hb, hbf, hhb⟩ | ⟨hna, hc⟩
      · refine ⟨t, b, ?_, hbf, hhb⟩
        show b ∈ upd s.thr t (new ++ rest) t
        rw [upd_same]; exact List.mem_append.mpr (Or.inl hb)
      · obtain ⟨t', b, hb, hbf, hhb⟩ := hi.owner _ hc
        exact ⟨t', b, keep t' b hb (Or.inl (fun h => hna (h ▸ hhb))), hbf, hhb⟩
    · rw [upd_other _ _ hfa] at hf'
      obtain ⟨t', b, hb, hbf, hhb⟩ := hi.owner f hf'
      exact ⟨t', b, keep t' b hb (Or.inl (fun h => hfa (by rw [← hbf, h]))), hbf, hhb⟩
  · intro f
    show (upd s.fn a.f x f).st ≠ .error
    by_cases hfa : f = a.f
    · rw [hfa, upd_same]; exact herr
    · rw [upd_other _ _ hfa]; exact hi.noerr f

theorem Inv2.move {rank : Nat → Nat} {s : St} (hi : Inv2 rank s) {t : Nat} {a : Frame}
    {rest new : List Frame} (hs : s.thr t = a :: rest)
    (hrank : ∀ b ∈ new, rank b.f ≤ rank a.f)
    (hnew : new.Pairwise fun a b => rank a.f < rank b.f)
    (hrem : ∀ b ∈ new, ∀ r, b.pc = .gen r → ∀ d ∈ r, rank d.fn < rank b.f)
    (hown : Holds a → ∃ b ∈ new, b.f = a.f ∧ Holds b) :
    Inv2 rank (s.stk t (new ++ rest)) := by
  have := hi.change (x := s.fn a.f) hs hrank hnew hrem (by
    intro hc
    by_cases h : Holds a
    · exact Or.inl (hown h)
    · exact Or.inr ⟨h, hc⟩) (hi.noerr _)
  rw [put_self] at this
  exact this

/-- Replacing the innermost call by one at another place for the same function. -/
theorem Inv2.goto {rank : Nat → Nat} {s : St} (hi : Inv2 rank s) {t f : Nat} {p q : Pc}
    {rest : List Frame} (hs : s.thr t = ⟨f, p⟩ :: rest) (hh : Holds ⟨f, p⟩ → Holds ⟨f, q⟩)
    (hrem : ∀ r, q = .gen r → ∀ d ∈ r, rank d.fn < rank f) :
    Inv2 rank (s.stk t (⟨f, q⟩ :: rest)) := by
  refine hi.move (new := [⟨f, q⟩]) hs ?_ (List.pairwise_singleton _ _) ?_ ?_
  · intro b hb; simp only [List.mem_singleton] at hb; subst hb; exact Nat.le_refl _
  · intro b hb; simp only [List.mem_singleton] at hb; subst hb; exact hrem
  · intro h; exact ⟨_, List.mem_singleton.mpr rfl, rfl, hh h⟩

theorem Inv2.step {P : Prog} {rank : Nat → Nat} {s s' : St} {t : Nat} {e : Ev}
    (hac : Acyclic P rank) (hm : ∀ f, P.missing f = false) (hI : Inv s)
    (hi : Inv2 rank s) (h : Step P s t e s') : Inv2 rank s' := by
  cases h with
  | call f h =>
    have keep : ∀ t' b, b ∈ s.thr t' → b ∈ (s.stk t [⟨f, .load⟩]).thr t' := by
      intro t' b hb
      show b ∈ upd s.thr t [⟨f, .load⟩] t'
      by_cases ht : t' = t
      · subst ht; rw [h] at hb; cases hb
      · rw [upd_other _ _ ht]; exact hb
    refine ⟨?_, ?_, ?_, hi.noerr⟩
    · intro t'
      show (upd s.thr t [⟨f, .load⟩] t').Pairwise _
      by_cases ht : t' = t
      · subst ht; rw [upd_same]; exact List.pairwise_singleton _ _
      · rw [upd_other _ _ ht]; exact hi.chain t'
    · intro t' b r hb hpc
      have hb' : b ∈ upd s.thr t [⟨f, .load⟩] t' := hb
      by_cases ht : t' = t
      · subst ht; rw [upd_same] at hb'
        simp only [List.mem_singleton] at hb'
        subst hb'
        cases hpc
      · rw [upd_other _ _ ht] at hb'; exact hi.rems t' b r hb' hpc
    · intro g hg
      obtain ⟨t', b, hb, hbf, hhb⟩ := hi.owner g hg
      exact ⟨t', b, keep t' b hb, hbf, hhb⟩
  | run a rest h =>
    obtain ⟨f, pc⟩ := a
    have hfa : FrameOk (s.fn f) pc := hI.frames t ⟨f, pc⟩ (by simp [h])
    have hfn := hI.fns f
    have pop : ¬ Holds ⟨f, pc⟩ → Inv2 rank (s.stk t rest) := by
      intro hn
      exact hi.move (new := []) h (by simp) List.Pairwise.nil (by simp) (fun h => absurd h hn)
    have hno : ∀ p : Pc, (¬ Holds ⟨f, p⟩) → ∀ q : Pc, Holds ⟨f, p⟩ → Holds ⟨f, q⟩ :=
      fun p hp q h => absurd h hp
    cases pc with
    | load =>
      show Inv2 rank (stepLoad s t f rest).2
      unfold stepLoad
      split
      · exact hi.goto h (fun h => h) (by simp)
      · exact hi.goto h (fun h => h) (by simp)
      · exact hi.goto h (fun h => h) (by simp)
      · rename_i he; exact absurd he (hi.noerr f)
    | check =>
      show Inv2 rank (stepCheck s t f rest).2
      unfold stepCheck
      split
      · exact pop (fun h => h)
      · exact hi.goto h (fun h => h) (by simp)
    | cas e =>
      show Inv2 rank (stepCas s t f e rest).2
      unfold stepCas
      split
      · refine hi.change (new := [⟨f, .start⟩]) h ?_ (List.pairwise_singleton _ _) ?_ ?_ ?_
        · intro b hb; simp only [List.mem_singleton] at hb; subst hb; exact Nat.le_refl _
        · intro b hb; simp only [List.mem_singleton] at hb; subst hb; simp
        · intro _; exact Or.inl ⟨_, List.mem_singleton.mpr rfl, rfl, trivial⟩
        · simp
      · exact hi.goto h (fun h => h) (by simp)
    | wait =>
      show Inv2 rank (stepWait s t f rest).2
      unfold stepWait
      split
      · exact pop (fun h => h)
      · exact hi
    | start =>
      show Inv2 rank (stepStart s t f rest).2
      unfold stepStart
      simp only [FrameOk] at hfa
      rw [if_pos hfa.2.1]
      exact hi.goto h (fun h => h) (by simp)
    | lookup =>
      show Inv2 rank (stepLookup P s t f rest).2
      unfold stepLookup
      simp only [FrameOk] at hfa
      rw [if_neg (by simp [hm f])]
      refine hi.change (new := [⟨f, .gen (P.deps f)⟩]) h ?_ (List.pairwise_singleton _ _) ?_ ?_ ?_
      · intro b hb; simp only [List.mem_singleton] at hb; subst hb; exact Nat.le_refl _
      · intro b hb; simp only [List.mem_singleton] at hb; subst hb
        intro r hr; cases hr; exact hac f
      · intro _; exact Or.inl ⟨_, List.mem_singleton.mpr rfl, rfl, trivial⟩
      · simp [hfa.1]
    | gen rem =>
      show Inv2 rank (stepGen s t f rem rest).2
      have hr := hi.rems t ⟨f, .gen rem⟩ rem (by simp [h]) rfl
      have push : ∀ d r, rank d < rank f → (∀ x ∈ r, rank x.fn < rank f) →
          Inv2 rank (s.stk t (⟨d, .load⟩ :: ⟨f, .gen r⟩ :: rest)) := by
        intro d r hd hr'
        refine hi.move (new := [⟨d, .load⟩, ⟨f, .gen r⟩]) h ?_ ?_ ?_ ?_
        · intro b hb
          rcases List.mem_cons.mp hb with hb | hb
          · subst hb; exact Nat.le_of_lt hd
          · simp only [List.mem_singleton] at hb; subst hb; exact Nat.le_refl _
        · refine List.pairwise_cons.mpr ⟨?_, List.pairwise_singleton _ _⟩
          intro b hb; simp only [List.mem_singleton] at hb; subst hb; exact hd
        · intro b hb
          rcases List.mem_cons.mp hb with hb | hb
          · subst hb; simp
          · simp only [List.mem_singleton] at hb; subst hb
            intro r' hr''; cases hr''; exact hr'
        · intro _; exact ⟨⟨f, .gen r⟩, by simp, rfl, trivial⟩
      unfold stepGen
      split
      · simp only [FrameOk] at hfa
        refine hi.change (new := [⟨f, .store⟩]) h ?_ (List.pairwise_singleton _ _) ?_ ?_ ?_
        · intro b hb; simp only [List.mem_singleton] at hb; subst hb; exact Nat.le_refl _
        · intro b hb; simp only [List.mem_singleton] at hb; subst hb; simp
        · intro _; exact Or.inl ⟨_, List.mem_singleton.mpr rfl, rfl, trivial⟩
        · simp [hfa.1]
      · rename_i d r
        exact push d r (hr (.link d) (by simp)) (fun x hx => hr x (by simp [hx]))
      · rename_i d r
        by_cases hd : (s.fn d).tab = true
        · rw [if_pos hd]
          refine hi.goto h (fun h => h) ?_
          intro r' hr'; cases hr'; exact fun x hx => hr x (by simp [hx])
        · rw [if_neg hd]
          exact push d r (hr (.upref d) (by simp)) (fun x hx => hr x (by simp [hx]))
    | store =>
      show Inv2 rank (stepStore s t f rest).2
      unfold stepStore
      exact hi.change (new := []) h (by simp) List.Pairwise.nil (by simp) (by simp) (by simp)

theorem Inv2.start {rank : Nat → Nat} {fn0 : Nat → Fn} (h : ∀ f, fn0 f = Fn.fresh) :
    Inv2 rank (start fn0) := by
  refine ⟨fun _ => List.Pairwise.nil, ?_, ?_, ?_⟩
  · intro t a r ha; exact absurd ha (by simp [Fill.start])
  · intro f hf
    have : (fn0 f).st = .compiling := hf
    rw [h f] at this; cases this
  · intro f
    show (fn0 f).st ≠ .error
    rw [h f]; decide

theorem Reach.inv2 {P : Prog} {rank : Nat → Nat} {fn0 : Nat → Fn} {s : St}
    (h0 : ∀ f, fn0 f = Fn.fresh) (hac : Acyclic P rank) (hm : ∀ f, P.missing f = false)
    (h : Reach P fn0 s) : Inv2 rank s := by
  induction h with
  | start => exact Inv2.start h0
  | step hr hs ih => exact ih.step hac hm (hr.inv h0) hs

/-- A call which cannot go on waits for a function which is being generated. -/
theorem spin_wait {P : Prog} {s : St} {t : Nat} {a : Frame} {rest : List Frame}
    (h : (runTop P s t a rest).1 = .spin) : a.pc = .wait ∧ (s.fn a.f).st ≠ .ready := by
  obtain ⟨f, pc⟩ := a
  cases pc with
  | wait =>
    have h : (stepWait s t f rest).1 = .spin := h
    unfold stepWait at h
    split at h
    · cases h
    · rename_i hst; exact ⟨rfl, hst⟩
  | load =>
    have h : (stepLoad s t f rest).1 = .spin := h
    unfold stepLoad at h; split at h <;> cases h
  | check =>
    have h : (stepCheck s t f rest).1 = .spin := h
    unfold stepCheck at h; split at h <;> cases h
  | cas e =>
    have h : (stepCas s t f e rest).1 = .spin := h
    unfold stepCas at h; split at h <;> cases h
  | start =>
    have h : (stepStart s t f rest).1 = .spin := h
    unfold stepStart at h; split at h <;> cases h
  | lookup =>
    have h : (stepLookup P s t f rest).1 = .spin := h
    unfold stepLookup at h; split at h <;> cases h
  | gen rem =>
    have h : (stepGen s t f rem rest).1 = .spin := h
    unfold stepGen at h
    split at h
    · cases h
    · cases h
    · split at h <;> cases h
  | store => exact absurd h (by simp [runTop, stepStore])

/-- Not all threads with a call in progress wait. -/
theorem exists_unstuck {P : Prog} {rank : Nat → Nat} {s : St} (hI : Inv s) (hi : Inv2 rank s)
    (n : Nat) : ∀ t a rest, s.thr t = a :: rest → rank a.f < n →
      ∃ t' a' rest', s.thr t' = a' :: rest' ∧ (runTop P s t' a' rest').1 ≠ .spin := by
  induction n with
  | zero => intro t a rest _ h; exact absurd h (Nat.not_lt_zero _)
  | succ n ih =>
    intro t a rest hs hr
    by_cases hsp : (runTop P s t a rest).1 = .spin
    · obtain ⟨hw, hst⟩ := spin_wait hsp
      have hfa := hI.frames t a (by simp [hs])
      rw [hw] at hfa
      have hc : (s.fn a.f).st = .compiling := by
        have h1 : (s.fn a.f).st ≠ .placeholder := hfa
        have h2 := hi.noerr a.f
        cases h : (s.fn a.f).st with
        | placeholder => exact absurd h h1
        | compiling => rfl
        | ready => exact absurd h hst
        | error => exact absurd h h2
      obtain ⟨t', b, hb, hbf, hhb⟩ := hi.owner _ hc
      cases hs' : s.thr t' with
      | nil => rw [hs'] at hb; cases hb
      | cons c l =>
        by_cases hsp' : (runTop P s t' c l).1 = .spin
        · obtain ⟨hw', _⟩ := spin_wait hsp'
          rw [hs'] at hb
          have hch := hi.chain t'
          rw [hs'] at hch
          rcases List.mem_cons.mp hb with h | h
          · subst h
            unfold Holds at hhb
            rw [hw'] at hhb
            exact absurd hhb (fun h => h)
          · have := (List.pairwise_cons.mp hch).1 b h
            rw [hbf] at this
            exact ih t' c l hs' (by omega)
        · exact ⟨t', c, l, hs', hsp'⟩
    · exact ⟨t, a, rest, hs, hsp⟩

/-! ## The work left in a thread -/

/-- Sum over the references of a function. -/
def sumDeps (g : Nat → Nat) : List Dep → Nat
  | [] => 0
  | d :: r => 1 + g d.fn + sumDeps g r

/-- Steps of a call of `jit_fill_irbuf` for `f` at most, down to depth `n`. -/
def cost (P : Prog) : Nat → Nat → Nat
  | 0, _ => 0
  | n + 1, f => 7 + sumDeps (cost P n) (P.deps f)

theorem sumDeps_congr {g g' : Nat → Nat} : ∀ (l : List Dep), (∀ d ∈ l, g d.fn = g' d.fn) →
    sumDeps g l = sumDeps g' l
  | [], _ => rfl
  | d :: r, h => by
    unfold sumDeps
    rw [h d (by simp), sumDeps_congr r (fun x hx => h x (by simp [hx]))]

theorem cost_fuel {P : Prog} {rank : Nat → Nat} (hac : Acyclic P rank) (n : Nat) :
    ∀ f m m', rank f < n → rank f < m → rank f < m' → cost P m f = cost P m' f := by
  induction n with
  | zero => intro f m m' h; exact absurd h (Nat.not_lt_zero _)
  | succ n ih =>
    intro f m m' h h1 h2
    cases m with
    | zero => exact absurd h1 (Nat.not_lt_zero _)
    | succ m =>
      cases m' with
      | zero => exact absurd h2 (Nat.not_lt_zero _)
      | succ m' =>
        unfold cost
        rw [sumDeps_congr (P.deps f)]
        intro d hd
        have := hac f d hd
        exact ih d.fn m m' (by omega) (by omega) (by omega)

/-- Steps of a call for `f` at most. -/
def full (P : Prog) (rank : Nat → Nat) (f : Nat) : Nat := cost P (rank f + 1) f

theorem full_eq {P : Prog} {rank : Nat → Nat} (hac : Acyclic P rank) (f : Nat) :
    full P rank f = 7 + sumDeps (full P rank) (P.deps f) := by
  show cost P (rank f + 1) f = _
  conv => lhs; unfold cost
  rw [sumDeps_congr (P.deps f)]
  intro d hd
  have := hac f d hd
  exact cost_fuel hac (rank d.fn + 1) d.fn _ _ (by omega) (by omega) (by omega)

/-- Steps left in a call at most. -/
def wframe (P : Prog) (rank : Nat → Nat) (a : Frame) : Nat :=
  match a.pc with
  | .load => full P rank a.f
  | .check => 6 + sumDeps (full P rank) (P.deps a.f)
  | .cas _ => 5 + sumDeps (full P rank) (P.deps a.f)
  | .wait => 1
  | .start => 4 + sumDeps (full P rank) (P.deps a.f)
  | .lookup => 3 + sumDeps (full P rank) (P.deps a.f)
  | .gen r => 2 + sumDeps (full P rank) r
  | .store => 1

def weight (P : Prog) (rank : Nat → Nat) : List Frame → Nat
  | [] => 0
  | a :: l => wframe P rank a + weight P rank l

/-- Every step but a failed test of the waiting loop leaves less work in the thread. -/
theorem weight_step {P : Prog} {rank : Nat → Nat} (hac : Acyclic P rank) {s : St} {t : Nat}
    {a : Frame} {rest : List Frame} (hne : (runTop P s t a rest).1 ≠ .spin) :
    weight P rank ((runTop P s t a rest).2.thr t) < weight P rank (a :: rest) := by
  obtain ⟨f, pc⟩ := a
  have hfull := full_eq hac f
  have e : ∀ (s : St) l, (s.stk t l).thr t = l := fun s l => upd_same _ _ _
  have hw : weight P rank (⟨f, pc⟩ :: rest) = wframe P rank ⟨f, pc⟩ + weight P rank rest := rfl
  rw [hw]
  cases pc with
  | load =>
    show weight P rank ((stepLoad s t f rest).2.thr t) < _
    unfold stepLoad
    split <;> simp only [e, weight, wframe] <;> omega
  | check =>
    show weight P rank ((stepCheck s t f rest).2.thr t) < _
    unfold stepCheck
    split <;> simp only [e, weight, wframe] <;> omega
  | cas q =>
    show weight P rank ((stepCas s t f q rest).2.thr t) < _
    unfold stepCas
    split <;> simp only [e, weight, wframe] <;> omega
  | wait =>
    have hne : (stepWait s t f rest).1 ≠ .spin := hne
    show weight P rank ((stepWait s t f rest).2.thr t) < _
    unfold stepWait at hne ⊢
    split at hne
    · rename_i hst; rw [if_pos hst]; simp only [e, wframe]; omega
    · exact absurd rfl hne
  | start =>
    show weight P rank ((stepStart s t f rest).2.thr t) < _
    unfold stepStart
    split <;> simp only [e, weight, wframe] <;> omega
  | lookup =>
    show weight P rank ((stepLookup P s t f rest).2.thr t) < _
    unfold stepLookup
    split <;> simp only [e, weight, wframe] <;> omega
  | gen rem =>
    show weight P rank ((stepGen s t f rem rest).2.thr t) < _
    unfold stepGen
    split
    · simp only [e, weight, wframe]; omega
    · simp only [e, weight, wframe, sumDeps, Dep.fn]; omega
    · split <;> simp only [e, weight, wframe, sumDeps, Dep.fn] <;> omega
  | store =>
    show weight P rank ((stepStore s t f rest).2.thr t) < _
    unfold stepStore
    simp only [e, wframe]; omega

theorem run_other {P : Prog} {s : St} {t : Nat} {a : Frame} {rest : List Frame} {t' : Nat}
    (h : t' ≠ t) : (runTop P s t a rest).2.thr t' = s.thr t' := by
  obtain ⟨f, pc⟩ := a
  have e : ∀ (s : St) l, (s.stk t l).thr t' = s.thr t' := fun s l => upd_other _ _ h
  cases pc with
  | load => show (stepLoad s t f rest).2.thr t' = _; unfold stepLoad; split <;> exact e _ _
  | check => show (stepCheck s t f rest).2.thr t' = _; unfold stepCheck; split <;> exact e _ _
  | cas q =>
    show (stepCas s t f q rest).2.thr t' = _; unfold stepCas
    split
    · exact e (s.put _ _) _
    · exact e _ _
  | wait =>
    show (stepWait s t f rest).2.thr t' = _; unfold stepWait
    split
    · exact e _ _
    · rfl
  | start => show (stepStart s t f rest).2.thr t' = _; unfold stepStart; split <;> exact e _ _
  | lookup =>
    show (stepLookup P s t f rest).2.thr t' = _; unfold stepLookup
    split <;> exact e (s.put _ _) _
  | gen rem =>
    show (stepGen s t f rem rest).2.thr t' = _; unfold stepGen
    split
    · exact e (s.put _ _) _
    · exact e _ _
    · split <;> exact e _ _
  | store => exact e (s.put _ _) _

end Verif.Jit.Fill
