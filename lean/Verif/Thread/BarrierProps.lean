import Verif.Thread.BarrierModel

/-!
# The barrier holds threads back until all have arrived (C44)
-/

namespace Verif.Thread.Barrier

open Verif.Thread

/-! ## Specification: calls started and calls returned -/

def entered (tr : List Label) (t : Nat) : Nat := tr.count (.enter t)
def returned (tr : List Label) (t : Nat) : Nat := tr.count (.leave t)

/-! ## Invariant -/

def Pc.isLast : Pc → Bool
  | .reset _ | .bump _ => true
  | _ => false

/-- Arrived in round `g`; `r` is the number of calls that have returned. -/
def inRound (g : Nat) (r : Nat → Nat) (pc : Nat → Pc) (t : Nat) : Bool :=
  match pc t with
  | .wait _ => decide (r t = g)
  | .reset _ | .bump _ => true
  | _ => false

/-- `g` rounds are over; `e` and `r` count calls started and returned. -/
structure Inv (n g : Nat) (e r : Nat → Nat) (s : St) : Prop where
  passed : s.passed = g % modulus
  idle : ∀ t, s.pc t = .idle → e t = g ∧ r t = g ∨ n ≤ t
  read : ∀ t, s.pc t = .read → e t = g + 1 ∧ r t = g
  add : ∀ t p, s.pc t = .add p → e t = g + 1 ∧ r t = g ∧ p = g % modulus
  last : ∀ t p, (s.pc t = .reset p ∨ s.pc t = .bump p) → e t = g + 1 ∧ r t = g ∧ p = g % modulus
  wait : ∀ t p, s.pc t = .wait p →
    e t = r t + 1 ∧ p = r t % modulus ∧ (r t = g ∨ r t + 1 = g)
  uniq : ∀ t t', (s.pc t).isLast = true → (s.pc t').isLast = true → t = t'
  full : ∀ t, (s.pc t).isLast = true → count (inRound g r s.pc) n = n
  notFull : (∀ t, (s.pc t).isLast = false) → count (inRound g r s.pc) n < n
  reached : (∀ t p, s.pc t ≠ .bump p) → s.reached = count (inRound g r s.pc) n
  reached0 : ∀ t p, s.pc t = .bump p → s.reached = 0
  out : ∀ t, n ≤ t → s.pc t = .idle

theorem inv_init (n : Nat) (hn : 0 < n) : Inv n 0 (fun _ => 0) (fun _ => 0) init := by
  have hc : count (inRound 0 (fun _ => 0) (fun _ => Pc.idle)) n = 0 := by
    rw [count_zero_iff]; intro t _; rfl
  constructor <;> intros <;> simp_all [init, Pc.isLast]

theorem count_upd (n g : Nat) (r : Nat → Nat) (pc : Nat → Pc) (t : Nat) (p : Pc) (ht : t < n) :
    count (inRound g r (upd pc t p)) n + (if inRound g r pc t then 1 else 0) =
      count (inRound g r pc) n + (if inRound g r (upd pc t p) t then 1 else 0) := by
  exact count_change (inRound g r pc) (inRound g r (upd pc t p)) n t ht
    (fun x hx => by simp [inRound, hx])

theorem upd_app {α : Type} (f : Nat → α) (a : Nat) (v : α) (x : Nat) :
    upd f a v x = if x = a then v else f x := rfl

attribute [local grind =] upd_app
attribute [local grind] Pc.isLast

/-- A thread not in the round: there is no last thread. -/
theorem noLast (n g : Nat) (e r : Nat → Nat) (s : St) (hi : Inv n g e r s) (t : Nat) (ht : t < n)
    (h : inRound g r s.pc t = false) : ∀ t', (s.pc t').isLast = false := by
  intro t'
  cases c : (s.pc t').isLast with
  | false => rfl
  | true =>
    have := (count_eq_iff _ n).1 (hi.full t' c) t ht
    rw [h] at this
    exact this.symm

theorem same_count (n g : Nat) (r : Nat → Nat) (pc : Nat → Pc) (t : Nat) (p : Pc) (ht : t < n)
    (h : inRound g r pc t = inRound g r (upd pc t p) t) :
    count (inRound g r (upd pc t p)) n = count (inRound g r pc) n := by
  have := count_upd n g r pc t p ht
  rw [h] at this
  omega

theorem isLast_back (pc : Nat → Pc) (t : Nat) (p : Pc) (h : (pc t).isLast = false)
    (hx : ∀ x, (upd pc t p x).isLast = false) : ∀ x, (pc x).isLast = false := by
  intro x
  by_cases c : x = t
  · subst c; exact h
  · have := hx x; simpa [c] using this

theorem bump_back (pc : Nat → Pc) (t : Nat) (p : Pc) (h : ∀ q, pc t ≠ .bump q)
    (hx : ∀ x q, upd pc t p x ≠ .bump q) : ∀ x q, pc x ≠ .bump q := by
  intro x q
  by_cases c : x = t
  · subst c; exact h q
  · have := hx x q; simpa [c] using this

theorem inv_call (n g : Nat) (e r : Nat → Nat) (s : St) (hi : Inv n g e r s) (t : Nat) (ht : t < n)
    (h : s.pc t = .idle) :
    Inv n g (upd e t (e t + 1)) r { s with pc := upd s.pc t .read } := by
  have hc := same_count n g r s.pc t .read ht (by simp [inRound, h])
  obtain ⟨i1, i2, i3, i4, i5, i6, i7, i8, i9, i10, i11, i12⟩ := hi
  constructor
  case notFull => intro hx; rw [hc]; exact i9 (isLast_back _ _ _ (by rw [h]; rfl) hx)
  case reached => intro hx; rw [hc]; exact i10 (bump_back _ _ _ (by rw [h]; simp) hx)
  all_goals (try simp only [hc]) <;> grind

theorem inv_read (n g : Nat) (e r : Nat → Nat) (s : St) (hi : Inv n g e r s) (t : Nat) (ht : t < n)
    (h : s.pc t = .read) :
    Inv n g e r { s with pc := upd s.pc t (.add s.passed) } := by
  have hc := same_count n g r s.pc t (.add s.passed) ht (by simp [inRound, h])
  obtain ⟨i1, i2, i3, i4, i5, i6, i7, i8, i9, i10, i11, i12⟩ := hi
  constructor
  case notFull => intro hx; rw [hc]; exact i9 (isLast_back _ _ _ (by rw [h]; rfl) hx)
  case reached => intro hx; rw [hc]; exact i10 (bump_back _ _ _ (by rw [h]; simp) hx)
  all_goals (try simp only [hc]) <;> grind

theorem inv_addLast (n g : Nat) (e r : Nat → Nat) (s : St) (hi : Inv n g e r s) (t p : Nat)
    (ht : t < n) (h : s.pc t = .add p) (hr : s.reached = n - 1) :
    Inv n g e r { s with reached := s.reached + 1, pc := upd s.pc t (.reset p) } := by
  have hn := noLast n g e r s hi t ht (by simp [inRound, h])
  have hc := count_upd n g r s.pc t (.reset p) ht
  have e1 : inRound g r s.pc t = false := by simp [inRound, h]
  have e2 : inRound g r (upd s.pc t (.reset p)) t = true := by simp [inRound]
  rw [e1, e2] at hc
  simp only [Bool.false_eq_true, if_false, if_true, Nat.add_zero] at hc
  obtain ⟨i1, i2, i3, i4, i5, i6, i7, i8, i9, i10, i11, i12⟩ := hi
  have hb : ∀ t' p', s.pc t' ≠ .bump p' := fun t' p' c => by
    have := hn t'; rw [c] at this; simp [Pc.isLast] at this
  have hr2 := i10 hb
  constructor
  case notFull => intro hx; have := hx t; simp [Pc.isLast] at this
  all_goals (try simp only [hc]) <;> grind

theorem inv_addWait (n g : Nat) (e r : Nat → Nat) (s : St) (hi : Inv n g e r s) (t p : Nat)
    (ht : t < n) (h : s.pc t = .add p) (hr : s.reached ≠ n - 1) :
    Inv n g e r { s with reached := s.reached + 1, pc := upd s.pc t (.wait p) } := by
  have hn := noLast n g e r s hi t ht (by simp [inRound, h])
  have hc := count_upd n g r s.pc t (.wait p) ht
  have e1 : inRound g r s.pc t = false := by simp [inRound, h]
  have e2 : inRound g r (upd s.pc t (.wait p)) t = true := by simp [inRound, (hi.add t p h).2.1]
  rw [e1, e2] at hc
  simp only [Bool.false_eq_true, if_false, if_true, Nat.add_zero] at hc
  obtain ⟨i1, i2, i3, i4, i5, i6, i7, i8, i9, i10, i11, i12⟩ := hi
  have hb : ∀ t' p', s.pc t' ≠ .bump p' := fun t' p' c => by
    have := hn t'; rw [c] at this; simp [Pc.isLast] at this
  have hr2 := i10 hb
  constructor <;> (try simp only [hc]) <;> grind

theorem inv_reset (n g : Nat) (e r : Nat → Nat) (s : St) (hi : Inv n g e r s) (t p : Nat)
    (ht : t < n) (h : s.pc t = .reset p) :
    Inv n g e r { s with reached := 0, pc := upd s.pc t (.bump p) } := by
  have hc := same_count n g r s.pc t (.bump p) ht (by simp [inRound, h])
  obtain ⟨i1, i2, i3, i4, i5, i6, i7, i8, i9, i10, i11, i12⟩ := hi
  constructor
  case notFull => intro hx; have := hx t; simp [Pc.isLast] at this
  case reached => intro hx; exact absurd (upd_same _ _ _) (hx t p)
  all_goals (try simp only [hc]) <;> grind

theorem inv_leave (n g : Nat) (e r : Nat → Nat) (s : St) (hi : Inv n g e r s) (t p : Nat)
    (ht : t < n) (h : s.pc t = .wait p) (hp : s.passed ≠ p) :
    Inv n g e (upd r t (r t + 1)) { s with pc := upd s.pc t .idle } := by
  have hw := hi.wait t p h
  have hg : r t + 1 = g := by
    rcases hw.2.2 with c | c
    · have := hi.passed; rw [← c, ← hw.2.1] at this; exact absurd this hp
    · exact c
  have hc : count (inRound g (upd r t (r t + 1)) (upd s.pc t .idle)) n =
      count (inRound g r s.pc) n := by
    apply count_congr
    intro x hx
    by_cases c : x = t
    · subst c; simp [inRound, h]; omega
    · simp [inRound, c]
  obtain ⟨i1, i2, i3, i4, i5, i6, i7, i8, i9, i10, i11, i12⟩ := hi
  constructor
  case notFull => intro hx; rw [hc]; exact i9 (isLast_back _ _ _ (by rw [h]; rfl) hx)
  case reached => intro hx; rw [hc]; exact i10 (bump_back _ _ _ (by rw [h]; simp) hx)
  all_goals (try simp only [hc]) <;> grind

theorem inv_bump (n g : Nat) (e r : Nat → Nat) (s : St) (hi : Inv n g e r s) (t p : Nat)
    (ht : t < n) (h : s.pc t = .bump p) :
    Inv n (g + 1) e (upd r t (r t + 1))
      { s with passed := (p + 1) % modulus, pc := upd s.pc t .idle } := by
  have hl : (s.pc t).isLast = true := by rw [h]; rfl
  have hall := (count_eq_iff _ n).1 (hi.full t hl)
  have hwait : ∀ t' < n, t' ≠ t → ∃ q, s.pc t' = .wait q ∧ r t' = g := by
    intro t' ht' hne
    have := hall t' ht'
    cases c : s.pc t' with
    | wait q => simp [inRound, c] at this; exact ⟨q, rfl, this⟩
    | reset q => exact absurd (hi.uniq t' t (by rw [c]; rfl) hl) hne
    | bump q => exact absurd (hi.uniq t' t (by rw [c]; rfl) hl) hne
    | idle => simp [inRound, c] at this
    | read => simp [inRound, c] at this
    | add q => simp [inRound, c] at this
  have hc : count (inRound (g + 1) (upd r t (r t + 1)) (upd s.pc t .idle)) n = 0 := by
    rw [count_zero_iff]
    intro x hx
    by_cases c : x = t
    · subst c; simp [inRound]
    · obtain ⟨q, h1, h2⟩ := hwait x hx c
      simp [inRound, c, h1, h2]
  have hm : (p + 1) % modulus = (g + 1) % modulus := by
    rw [(hi.last t p (Or.inr h)).2.2, Nat.mod_add_mod]
  have h5 := hi.last t p (Or.inr h)
  obtain ⟨i1, i2, i3, i4, i5, i6, i7, i8, i9, i10, i11, i12⟩ := hi
  have out : ∀ t', n ≤ t' ∨ t' = t ∨ ∃ q, s.pc t' = .wait q ∧ r t' = g := by
    intro t'
    by_cases c : t' < n
    · by_cases c2 : t' = t
      · exact Or.inr (Or.inl c2)
      · exact Or.inr (Or.inr (hwait t' c c2))
    · exact Or.inl (by omega)
  constructor <;> (try simp only [hc]) <;> grind

theorem run_inv (n : Nat) (hn : 0 < n) (tr : List Label) (s : St) (h : Run n tr s) :
    ∃ g, Inv n g (entered tr) (returned tr) s := by
  induction h with
  | start => exact ⟨0, inv_init n hn⟩
  | @step tr s t a s' hr ht hs ih =>
    obtain ⟨g, hi⟩ := ih
    have ee : ∀ t', entered (tr ++ [.enter t']) = upd (entered tr) t' (entered tr t' + 1) := by
      intro t'; funext x
      by_cases c : x = t'
      · subst c; simp [entered, upd]
      · have : ¬ t' = x := fun e => c e.symm
        simp [entered, upd, c, this]
    have re : ∀ t', returned (tr ++ [.enter t']) = returned tr := by
      intro t'; funext x; simp [returned]
    have el : ∀ t', entered (tr ++ [.leave t']) = entered tr := by
      intro t'; funext x; simp [entered]
    have rl : ∀ t', returned (tr ++ [.leave t']) = upd (returned tr) t' (returned tr t' + 1) := by
      intro t'; funext x
      by_cases c : x = t'
      · subst c; simp [returned, upd]
      · have : ¬ t' = x := fun e => c e.symm
        simp [returned, upd, c, this]
    have et : entered (tr ++ [.tau]) = entered tr := by funext x; simp [entered]
    have rt : returned (tr ++ [.tau]) = returned tr := by funext x; simp [returned]
    cases hs with
    | call h => rw [ee, re]; exact ⟨g, inv_call n g _ _ s hi t ht h⟩
    | read h => rw [et, rt]; exact ⟨g, inv_read n g _ _ s hi t ht h⟩
    | addLast p h hr => rw [et, rt]; exact ⟨g, inv_addLast n g _ _ s hi t p ht h hr⟩
    | addWait p h hr => rw [et, rt]; exact ⟨g, inv_addWait n g _ _ s hi t p ht h hr⟩
    | reset p h => rw [et, rt]; exact ⟨g, inv_reset n g _ _ s hi t p ht h⟩
    | bump p h => rw [el, rl]; exact ⟨g + 1, inv_bump n g _ _ s hi t p ht h⟩
    | leave p h hp => rw [el, rl]; exact ⟨g, inv_leave n g _ _ s hi t p ht h hp⟩

/-! ## Properties -/

/-- No thread returns from its `k`-th call before every thread has started its `k`-th call: at every
moment the calls returned to one thread are at most the calls started by any other.  As the traces
are of any length, the barrier is reusable at once. -/
theorem barrier_safe (n : Nat) (hn : 0 < n) (tr : List Label) (s : St) (h : Run n tr s)
    (t t' : Nat) (ht : t < n) (ht' : t' < n) : returned tr t ≤ entered tr t' := by
  obtain ⟨g, hi⟩ := run_inv n hn tr s h
  have h1 : returned tr t ≤ g := by
    cases c : s.pc t with
    | idle => rcases hi.idle t c with c | c <;> omega
    | read => have := hi.read t c; omega
    | add p => have := hi.add t p c; omega
    | reset p => have := hi.last t p (Or.inl c); omega
    | bump p => have := hi.last t p (Or.inr c); omega
    | wait p => have := hi.wait t p c; omega
  have h2 : g ≤ entered tr t' := by
    cases c : s.pc t' with
    | idle => rcases hi.idle t' c with c | c <;> omega
    | read => have := hi.read t' c; omega
    | add p => have := hi.add t' p c; omega
    | reset p => have := hi.last t' p (Or.inl c); omega
    | bump p => have := hi.last t' p (Or.inr c); omega
    | wait p => have := hi.wait t' p c; omega
  omega

/-- The barrier does not get stuck: when every thread is inside `barrier_wait`, one of them can take
a step. -/
theorem barrier_progress (n : Nat) (hn : 0 < n) (tr : List Label) (s : St) (h : Run n tr s)
    (hall : ∀ t < n, s.pc t ≠ .idle) : ∃ t < n, ∃ a s', Step n t s a s' := by
  obtain ⟨g, hi⟩ := run_inv n hn tr s h
  refine Classical.byContradiction fun hno => ?_
  have hw : ∀ t < n, ∃ p, s.pc t = .wait p ∧ s.passed = p := by
    intro t ht
    cases c : s.pc t with
    | idle => exact absurd c (hall t ht)
    | read => exact absurd ⟨t, ht, _, _, .read s c⟩ hno
    | add p =>
      by_cases hr : s.reached = n - 1
      · exact absurd ⟨t, ht, _, _, .addLast s p c hr⟩ hno
      · exact absurd ⟨t, ht, _, _, .addWait s p c hr⟩ hno
    | reset p => exact absurd ⟨t, ht, _, _, .reset s p c⟩ hno
    | bump p => exact absurd ⟨t, ht, _, _, .bump s p c⟩ hno
    | wait p =>
      by_cases hp : s.passed = p
      · exact ⟨p, rfl, hp⟩
      · exact absurd ⟨t, ht, _, _, .leave s p c hp⟩ hno
  have hcount : count (inRound g (returned tr) s.pc) n = n := by
    rw [count_eq_iff]
    intro t ht
    obtain ⟨p, h1, h2⟩ := hw t ht
    obtain ⟨w1, w2, w3⟩ := hi.wait t p h1
    have : returned tr t = g := by
      rcases w3 with c | c
      · exact c
      · have hp := hi.passed
        rw [h2, w2, ← c] at hp
        unfold modulus at hp
        omega
    simp [inRound, h1, this]
  have hnl : ∀ t, (s.pc t).isLast = false := by
    intro t
    by_cases ht : t < n
    · obtain ⟨p, h1, _⟩ := hw t ht
      rw [h1]; rfl
    · rw [hi.out t (by omega)]; rfl
  have := hi.notFull hnl
  omega

/-- A thread whose round is complete is let go: as soon as all threads have returned from or are
waiting in a later round it does not wait any more. -/
theorem barrier_releases (n : Nat) (hn : 0 < n) (tr : List Label) (s : St) (h : Run n tr s)
    (t t' p : Nat) (ht' : t' < n) (hw : s.pc t = .wait p)
    (hlt : returned tr t < returned tr t') : ∃ s', Step n t s (.leave t) s' := by
  obtain ⟨g, hi⟩ := run_inv n hn tr s h
  have h1 : returned tr t' ≤ g := by
    cases c : s.pc t' with
    | idle => rcases hi.idle t' c with c | c <;> omega
    | read => have := hi.read t' c; omega
    | add p => have := hi.add t' p c; omega
    | reset p => have := hi.last t' p (Or.inl c); omega
    | bump p => have := hi.last t' p (Or.inr c); omega
    | wait p => have := hi.wait t' p c; omega
  obtain ⟨w1, w2, w3⟩ := hi.wait t p hw
  have hg : returned tr t + 1 = g := by omega
  refine ⟨_, .leave s p hw ?_⟩
  rw [hi.passed, w2, ← hg]
  unfold modulus
  omega

/-! ## Example -/

/-- Two threads meet: both have entered, thread 1 arrived last. -/
example : ∃ tr s, Run 2 tr s ∧ returned tr 1 = 1 ∧ returned tr 0 = 0 ∧ s.pc 0 = .wait 0 ∧
    s.passed = 1 := by
  refine ⟨_, _, .step (t := 1) (.step (t := 1) (.step (t := 1) (.step (t := 1) (.step (t := 0)
    (.step (t := 0) (.step (t := 1) (.step (t := 0) .start (by decide) (.call _ rfl)) (by decide)
    (.call _ rfl)) (by decide) (.read _ rfl)) (by decide) (.addWait _ 0 rfl (by decide)))
    (by decide) (.read _ rfl)) (by decide) (.addLast _ 0 rfl (by decide))) (by decide)
    (.reset _ 0 rfl)) (by decide) (.bump _ 0 rfl), ?_, ?_, ?_, ?_⟩ <;> decide

end Verif.Thread.Barrier
