import Verif.Thread.DequeLemmas

/-!
# The deque neither loses nor duplicates tasks (C43)
-/

namespace Verif.Thread.Deque

open Verif.Thread

/-! ## Specification -/

/-- Tasks pushed, in order. -/
def pushed : List Label → List Nat
  | [] => []
  | .push ts :: tr => ts ++ pushed tr
  | _ :: tr => pushed tr

/-- Tasks returned by pops. -/
def popped : List Label → List Nat
  | [] => []
  | .popBot x :: tr => x :: popped tr
  | .popTop _ x :: tr => x :: popped tr
  | _ :: tr => popped tr

/-! ## Contents -/

/-- The values of the slots `lo .. lo + n - 1`. -/
def seg (c : Nat → Option Nat) (lo : Nat) : Nat → List Nat
  | 0 => []
  | n + 1 => seg c lo n ++ (c (lo + n)).toList

/-- The tasks in the deque. -/
def contents (s : St) : List Nat := seg s.cell s.top (high s - s.top)

theorem seg_congr (c d : Nat → Option Nat) (lo n : Nat) (h : ∀ i < n, c (lo + i) = d (lo + i)) :
    seg c lo n = seg d lo n := by
  induction n with
  | zero => rfl
  | succ n ih => rw [seg, seg, ih (fun i hi => h i (by omega)), h n (by omega)]

theorem seg_first (c : Nat → Option Nat) (lo n : Nat) :
    seg c lo (n + 1) = (c lo).toList ++ seg c (lo + 1) n := by
  induction n with
  | zero => simp [seg]
  | succ n ih =>
    rw [seg, ih, seg, List.append_assoc, (by omega : lo + 1 + n = lo + (n + 1))]

theorem seg_append (c : Nat → Option Nat) (lo n m : Nat) :
    seg c lo (n + m) = seg c lo n ++ seg c (lo + n) m := by
  induction m with
  | zero => simp [seg]
  | succ m ih => rw [← Nat.add_assoc, seg, ih, seg, List.append_assoc, Nat.add_assoc]

theorem seg_list (c : Nat → Option Nat) (lo : Nat) (ts : List Nat)
    (h : ∀ j < ts.length, c (lo + j) = ts[j]?) : seg c lo ts.length = ts := by
  induction ts generalizing lo with
  | nil => rfl
  | cons t ts ih =>
    rw [List.length_cons, seg_first]
    have h0 := h 0 (by simp)
    simp at h0
    rw [h0, ih (lo + 1) (fun j hj => ?_)]
    · rfl
    · have := h (j + 1) (by simp; omega)
      rw [(by omega : lo + 1 + j = lo + (j + 1)), this]; rfl

theorem contents_same (s s' : St) (h1 : s'.top = s.top) (h2 : high s' = high s)
    (h3 : ∀ i, s.top ≤ i → i < high s → s'.cell i = s.cell i) : contents s' = contents s := by
  unfold contents
  rw [h1, h2]
  exact seg_congr _ _ _ _ (fun i hi => h3 _ (by omega) (by omega))

theorem contents_empty (s : St) (h : high s ≤ s.top) : contents s = [] := by
  unfold contents
  rw [(by omega : high s - s.top = 0)]; rfl

theorem contents_step (s s' : St) (a : Label) (hi : Inv s) (hp : Prompt s)
    (h : Step s a s') (x : Nat) :
    (contents s').count x + (popped [a]).count x = (contents s).count x + (pushed [a]).count x := by
  have same : ∀ s' : St, s'.top = s.top → high s' = high s →
      (∀ i, s.top ≤ i → i < high s → s'.cell i = s.cell i) →
      (contents s').count x + (popped [Label.tau]).count x =
        (contents s).count x + (pushed [Label.tau]).count x := by
    intro s' h1 h2 h3
    rw [contents_same s s' h1 h2 h3]
    simp [popped, pushed]
  cases h with
  | push ts h hs => exact same _ rfl (by simp [high, h]) (fun _ _ _ => rfl)
  | pushRead ts h => exact same _ rfl (by simp [high, h]) (fun _ _ _ => rfl)
  | pushBegin b ts k h hk =>
    refine same _ rfl (by simp [high, h]) (fun i h1 h2 => ?_)
    have := (hi.pushCopy b ts k h).1
    simp only [high, h] at h2
    exact upd_ne _ _ _ _ (by omega)
  | pushEnd b ts k h =>
    refine same _ rfl (by simp [high, h]) (fun i h1 h2 => ?_)
    have := (hi.pushMid b ts k h).1
    simp only [high, h] at h2
    exact upd_ne _ _ _ _ (by omega)
  | pushStore b ts h =>
    obtain ⟨p1, p2, p3, p4⟩ := hi.pushCopy b ts _ h
    have ht := hi.top
    simp only [high, h] at ht
    have : contents { s with bot := b + ts.length, own := .idle } = contents s ++ ts := by
      unfold contents
      simp only [high, h]
      rw [(by omega : b + ts.length - s.top = (s.bot - s.top) + ts.length), seg_append,
        (by omega : s.top + (s.bot - s.top) = b), seg_list s.cell b ts p4]
    rw [this]
    simp [popped, pushed]
  | pop h => exact same _ rfl (by simp [high, h]) (fun _ _ _ => rfl)
  | popEmpty h hb => exact same _ rfl (by simp [high, h]) (fun _ _ _ => rfl)
  | popRead h hb => exact same _ rfl (by simp [high, h]) (fun _ _ _ => rfl)
  | popStore nb h =>
    have := hi.popStore nb h
    exact same _ rfl (by simp only [high, h]; omega) (fun _ _ _ => rfl)
  | popTask nb y h hx => exact same _ rfl (by simp [high, h]) (fun _ _ _ => rfl)
  | popMany nb y h ht =>
    obtain ⟨p1, p2⟩ := hi.popAge nb y h
    have : contents s = contents { s with own := .idle } ++ [y] := by
      unfold contents
      simp only [high, h]
      rw [(by omega : nb + 1 - s.top = (nb - s.top) + 1), seg, p1,
        (by omega : s.top + (nb - s.top) = nb), p2 (by omega)]
      rfl
    rw [this]
    simp [popped, pushed, List.count_cons]
  | popFew nb y h ht => exact same _ rfl (by simp [high, h]) (fun _ _ _ => rfl)
  | popZero nb y tp tg h => exact same _ rfl (by simp [high, h]) (fun _ _ _ => rfl)
  | popCasNo nb y tp tg h hn =>
    obtain ⟨p1, p2, p3, p4, p5⟩ := hi.popCas nb y tp tg h
    rw [contents_empty s (by simp only [high, h]; omega),
      contents_empty _ (by simp only [high]; omega)]
    simp [popped, pushed]
  | popCasFail nb y tp tg h hn ha =>
    have ha : ¬ (s.top = tp ∧ s.tag = tg) := fun h2 => ha ⟨h2.1, by rw [h2.2]⟩
    obtain ⟨p1, p2, p3, p4, p5⟩ := hi.popCas nb y tp tg h
    rw [contents_empty s (by simp only [high, h]; omega),
      contents_empty _ (by simp only [high]; omega)]
    simp [popped, pushed]
  | popCasOk nb y tp tg h hn ha =>
    have ha := pop_tag s nb tp tg y hi h ha
    obtain ⟨p1, p2, p3, p4, p5⟩ := hi.popCas nb y tp tg h
    have : contents s = [y] := by
      unfold contents
      simp only [high, h]
      rw [(by omega : nb + 1 - s.top = 0 + 1), seg, seg, (by omega : s.top + 0 = nb),
        p5 (by omega)]
      rfl
    rw [this, contents_empty _ (by simp only [high]; omega)]
    simp [popped, pushed, List.count_cons]
  | popSet tg h =>
    obtain ⟨p1, p2⟩ := hi.popSet tg h
    rw [contents_empty s (by simp only [high, h]; omega),
      contents_empty _ (by simp only [high]; omega)]
    simp [popped, pushed]
  | steal t h => exact same _ rfl (by simp [high]) (fun _ _ _ => rfl)
  | stealAge t h => exact same _ rfl (by simp [high]) (fun _ _ _ => rfl)
  | stealEmpty t tp tg h hb => exact same _ rfl (by simp [high]) (fun _ _ _ => rfl)
  | stealBot t tp tg h hb => exact same _ rfl (by simp [high]) (fun _ _ _ => rfl)
  | stealRead t tp tg h => exact same _ rfl (by simp [high]) (fun _ _ _ => rfl)
  | stealGot t tp tg v y h hx => exact same _ rfl (by simp [high]) (fun _ _ _ => rfl)
  | stealFail t tp tg y h ha => exact same _ rfl (by simp [high]) (fun _ _ _ => rfl)
  | stealOk t tp tg y h ha =>
    obtain ⟨h1, h2⟩ := steal_tag s t tp tg y hi hp h ha
    have hv := hi.valid t tp tg (by rw [h]; rfl) h1.symm h2.symm
    have hc := hi.cas t tp tg y h h1.symm h2.symm
    have hp : ∀ tg, s.own ≠ .popSet tg := by
      intro tg e
      simp only [high, e] at hv
      omega
    have hh : high { s with top := tp + 1, thief := upd s.thief t .idle } = high s := by
      unfold high
      dsimp only
      split
      case h_5 => rename_i tg e; exact absurd e (hp tg)
      all_goals first | rfl | simp_all
    have : contents s = y :: contents { s with top := tp + 1, thief := upd s.thief t .idle } := by
      unfold contents
      rw [hh]
      dsimp only
      rw [(by omega : high s - s.top = (high s - (tp + 1)) + 1), seg_first, h1, hc]
      rfl
    rw [this]
    simp [popped, pushed, List.count_cons]

theorem pushed_append (a b : List Label) : pushed (a ++ b) = pushed a ++ pushed b := by
  induction a with
  | nil => rfl
  | cons x a ih => cases x <;> simp [pushed, ih]

theorem popped_append (a b : List Label) : popped (a ++ b) = popped a ++ popped b := by
  induction a with
  | nil => rfl
  | cons x a ih => cases x <;> simp [popped, ih]

theorem run_inv (cell : Nat → Option Nat) (tr : List Label) (s : St) (h : Run Prompt cell tr s) :
    Inv s := by
  induction h with
  | start => exact inv_init cell
  | step _ hp hs ih => exact inv_step _ _ _ ih hp hs

theorem balance (cell : Nat → Option Nat) (tr : List Label) (s : St) (h : Run Prompt cell tr s) (x : Nat) :
    (pushed tr).count x = (popped tr).count x + (contents s).count x := by
  induction h with
  | start => simp [pushed, popped, contents, high, init, seg]
  | step hr hp hs ih =>
    have := contents_step _ _ _ (run_inv _ _ _ hr) hp hs x
    rw [pushed_append, popped_append, List.count_append, List.count_append]
    omega

/-! ## Properties -/

/-- No task is returned more often than it was pushed. -/
theorem no_duplicates (cell : Nat → Option Nat) (tr : List Label) (s : St) (h : Run Prompt cell tr s)
    (x : Nat) : (popped tr).count x ≤ (pushed tr).count x := by
  have := balance cell tr s h x
  omega

/-- When the owner is not in the middle of an operation and the deque is empty, in particular after
`pop_bot` has returned false, the tasks returned so far are the tasks pushed so far. -/
theorem none_lost (cell : Nat → Option Nat) (tr : List Label) (s : St) (h : Run Prompt cell tr s)
    (ho : s.own = .idle) (he : s.bot ≤ s.top) : (popped tr).Perm (pushed tr) := by
  rw [List.perm_iff_count]
  intro x
  have := balance cell tr s h x
  rw [contents_empty s (by simp only [high, ho]; exact he)] at this
  simp at this
  exact this.symm

/-- `pop_bot` returns false only when nothing is left. -/
theorem pop_false (cell : Nat → Option Nat) (tr : List Label) (s s' : St) (h : Run Prompt cell tr s)
    (hp : Prompt s) (hs : Step s .tau s') (ho : s.own = .popRead ∨ ∃ tg, s.own = .popSet tg)
    (ho' : s'.own = .idle) : (popped (tr ++ [.tau])).Perm (pushed (tr ++ [.tau])) := by
  refine none_lost cell _ s' (.step h hp hs) ho' ?_
  have hi := run_inv cell tr s h
  cases hs with
  | popEmpty h hb => dsimp only; omega
  | popSet tg h => have := hi.popSet tg h; dsimp only; omega
  | _ => simp_all

/-- All accesses to the array of tasks are within its bounds. -/
theorem in_bounds (cell : Nat → Option Nat) (tr : List Label) (s : St) (h : Run Prompt cell tr s) :
    (∀ t tp tg, s.thief t = .read tp tg → tp < size) ∧
    (∀ b ts k, s.own = .pushCopy b ts k → k < ts.length → b + k < size) ∧
    (∀ nb, s.own = .popTask nb → nb < size) := by
  have hi := run_inv cell tr s h
  refine ⟨fun t tp tg e => hi.safe t tp tg (by rw [e]; rfl), fun b ts k e hk => ?_, fun nb e => ?_⟩
  · have := hi.pushCopy b ts k e; omega
  · have := hi.room.2
    simp only [high, e] at this
    omega

/-! ## Wrap-around of the tag -/

/-- An empty deque with a thief that read task 7 at the time of no reset. -/
def Waiting (k : Nat) (tr : List Label) (s : St) : Prop :=
  s.own = .idle ∧ s.bot = 0 ∧ s.top = 0 ∧ s.tag = k ∧ s.thief 0 = .cas 0 0 7 ∧
    (pushed tr).count 7 = 1 ∧ (popped tr).count 7 = 1

/-- Push and pop of one task. -/
theorem round (cell : Nat → Option Nat) (k : Nat) (tr : List Label) (s : St)
    (hr : Run (fun _ => True) cell tr s) (h : Waiting k tr s) :
    ∃ tr' s', Run (fun _ => True) cell tr' s' ∧ Waiting (k + 1) tr' s' := by
  obtain ⟨h1, h2, h3, h4, h5, h6, h7⟩ := h
  obtain ⟨top, tag, bot, cl, own, thief⟩ := s
  dsimp only at h1 h2 h3 h4 h5
  subst h1 h2 h3 h4
  have r1 := hr.step trivial (.push _ [8] rfl (by simp [size]))
  have r2 := r1.step trivial (.pushRead _ [8] rfl)
  have r3 := r2.step trivial (.pushBegin _ 0 [8] 0 rfl (by decide))
  have r4 := r3.step trivial (.pushEnd _ 0 [8] 0 rfl)
  have r5 := r4.step trivial (.pushStore _ 0 [8] rfl)
  have r6 := r5.step trivial (.pop _ rfl)
  have r7 := r6.step trivial (.popRead _ rfl (by simp))
  have r8 := r7.step trivial (.popStore _ 0 rfl)
  have r9 := r8.step trivial (.popTask _ 0 8 rfl (by intro y h; simpa using h))
  have r10 := r9.step trivial (.popFew _ 0 8 rfl (by simp))
  have r11 := r10.step trivial (.popZero _ 0 8 0 tag rfl)
  have r12 := r11.step trivial (.popCasOk _ 0 8 0 tag rfl rfl ⟨rfl, rfl⟩)
  refine ⟨_, _, r12, rfl, rfl, rfl, rfl, ?_, ?_, ?_⟩
  · simp [h5, spoil]
  · simp [pushed_append, pushed, h6]
  · simp [popped_append, popped, h7]

/-- A thief that is suspended while the owner resets the deque 2^32 times between its reading the
age and its compare-and-swap: the tag is 32 bits wide, the swap succeeds and a task is returned
twice. -/
theorem wrap_counterexample : ∃ cell tr s x, Run (fun _ => True) cell tr s ∧
    (pushed tr).count x < (popped tr).count x := by
  have r0 : Run (fun _ => True) (fun _ => none) [] _ := .start
  have r1 := r0.step trivial (.push _ [7] rfl (by decide))
  have r2 := r1.step trivial (.pushRead _ [7] rfl)
  have r3 := r2.step trivial (.pushBegin _ 0 [7] 0 rfl (by decide))
  have r4 := r3.step trivial (.pushEnd _ 0 [7] 0 rfl)
  have r5 := r4.step trivial (.pushStore _ 0 [7] rfl)
  have r6 := r5.step trivial (.steal _ 0 rfl)
  have r7 := r6.step trivial (.stealAge _ 0 rfl)
  have r8 := r7.step trivial (.stealBot _ 0 0 0 rfl (by decide))
  have r9 := r8.step trivial (.stealRead _ 0 0 0 rfl)
  have r10 := r9.step trivial (.stealGot _ 0 0 0 (some 7) 7 rfl (by decide))
  have r11 := r10.step trivial (.pop _ rfl)
  have r12 := r11.step trivial (.popRead _ rfl (by decide))
  have r13 := r12.step trivial (.popStore _ 0 rfl)
  have r14 := r13.step trivial (.popTask _ 0 7 rfl (by decide))
  have r15 := r14.step trivial (.popFew _ 0 7 rfl (by decide))
  have r16 := r15.step trivial (.popZero _ 0 7 0 0 rfl)
  have r17 := r16.step trivial (.popCasOk _ 0 7 0 0 rfl rfl ⟨rfl, rfl⟩)
  have w1 : ∃ tr s, Run (fun _ => True) (fun _ => none) tr s ∧ Waiting 1 tr s :=
    ⟨_, _, r17, rfl, rfl, rfl, rfl, rfl, rfl, rfl⟩
  have w : ∀ k, ∃ tr s, Run (fun _ => True) (fun _ => none) tr s ∧ Waiting (k + 1) tr s := by
    intro k
    induction k with
    | zero => exact w1
    | succ k ih =>
      obtain ⟨tr, s, hr, hw⟩ := ih
      exact round _ _ tr s hr hw
  obtain ⟨tr, s, hr, h1, h2, h3, h4, h5, h6, h7⟩ := w (2 ^ 32 - 1)
  have q := hr.step trivial (.stealOk s 0 0 0 7 h5 ⟨h3, by rw [h4]; decide +kernel⟩)
  refine ⟨_, _, _, 7, q, ?_⟩
  simp [pushed_append, popped_append, pushed, popped, h6, h7]

/-! ## Example -/

theorem prompt0 (s : St) (h : s.tag < tags) : Prompt s := fun t tp tg x _ => by omega


/-- The owner pushes two tasks, a thief steals one and the owner pops the other. -/
example : ∃ tr s, Run Prompt (fun _ => none) tr s ∧ pushed tr = [7, 8] ∧ popped tr = [7, 8] ∧
    s.own = .idle ∧ s.bot ≤ s.top := by
  have r0 : Run Prompt (fun _ => none) [] _ := .start
  have r1 := r0.step (prompt0 _ (by decide)) (.push _ [7, 8] rfl (by decide))
  have r2 := r1.step (prompt0 _ (by decide)) (.pushRead _ [7, 8] rfl)
  have r3 := r2.step (prompt0 _ (by decide)) (.pushBegin _ 0 [7, 8] 0 rfl (by decide))
  have r4 := r3.step (prompt0 _ (by decide)) (.pushEnd _ 0 [7, 8] 0 rfl)
  have r5 := r4.step (prompt0 _ (by decide)) (.pushBegin _ 0 [7, 8] 1 rfl (by decide))
  have r6 := r5.step (prompt0 _ (by decide)) (.pushEnd _ 0 [7, 8] 1 rfl)
  have r7 := r6.step (prompt0 _ (by decide)) (.pushStore _ 0 [7, 8] rfl)
  have r8 := r7.step (prompt0 _ (by decide)) (.steal _ 3 rfl)
  have r9 := r8.step (prompt0 _ (by decide)) (.stealAge _ 3 rfl)
  have r10 := r9.step (prompt0 _ (by decide)) (.stealBot _ 3 0 0 rfl (by decide))
  have r11 := r10.step (prompt0 _ (by decide)) (.stealRead _ 3 0 0 rfl)
  have r12 := r11.step (prompt0 _ (by decide)) (.stealGot _ 3 0 0 (some 7) 7 rfl (by decide))
  have r13 := r12.step (prompt0 _ (by decide)) (.stealOk _ 3 0 0 7 rfl ⟨rfl, rfl⟩)
  have r14 := r13.step (prompt0 _ (by decide)) (.pop _ rfl)
  have r15 := r14.step (prompt0 _ (by decide)) (.popRead _ rfl (by decide))
  have r16 := r15.step (prompt0 _ (by decide)) (.popStore _ 1 rfl)
  have r17 := r16.step (prompt0 _ (by decide)) (.popTask _ 1 8 rfl (by decide))
  have r18 := r17.step (prompt0 _ (by decide)) (.popFew _ 1 8 rfl (by decide))
  have r19 := r18.step (prompt0 _ (by decide)) (.popZero _ 1 8 1 0 rfl)
  have r20 := r19.step (prompt0 _ (by decide)) (.popCasOk _ 1 8 1 0 rfl rfl ⟨rfl, rfl⟩)
  exact ⟨_, _, r20, rfl, rfl, rfl, by decide⟩

/-- **An undisturbed steal succeeds**: if the deque is not empty and nothing else happens, a thief gets
the task at the top. -/
theorem steal_alone (s : St) (t x : Nat) (h : s.thief t = .idle) (hb : s.top < s.bot)
    (hx : s.cell s.top = some x) :
    ∃ s1 s2 s3 s4 s5 s6, Step s .tau s1 ∧ Step s1 .tau s2 ∧ Step s2 .tau s3 ∧ Step s3 .tau s4 ∧
      Step s4 .tau s5 ∧ Step s5 (.popTop t x) s6 ∧ s6.top = s.top + 1 ∧ s6.bot = s.bot ∧
      s6.thief t = .idle := by
  have e : ∀ (f : Nat → TPc) v, upd f t v t = v := fun f v => by simp [upd]
  refine ⟨_, _, _, _, _, _, .steal s t h, .stealAge _ t (e _ _),
    .stealBot _ t s.top s.tag (e _ _) (Nat.not_le.2 hb), .stealRead _ t s.top s.tag (e _ _),
    .stealGot _ t s.top s.tag (some x) x (by simp [e, hx]) (by simp),
    .stealOk _ t s.top s.tag x (e _ _) ⟨rfl, rfl⟩, rfl, rfl, e _ _⟩

end Verif.Thread.Deque
