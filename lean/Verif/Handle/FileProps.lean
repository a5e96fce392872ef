import Verif.Handle.Lemmas

/-!
# C79: handles of files

Specification: a handle stands for the file that was opened last with it and not closed since.
-/

namespace Verif.Handle

variable {c : Cfg}

/-! ## Specification -/

/-- What one event does to the meaning of the handle `h`. -/
def Ev.on (h : Nat) (r : Option Nat) : Ev → Option Nat
  | .opened h' f => if h' = h then some f else r
  | .closed h' => if h' = h then none else r

/-- The file for which the handle `h` stands after the events `tr`. -/
def fileOf (tr : List Ev) (h : Nat) : Option Nat := tr.foldl (Ev.on h) none

/-- The handle that an event returns. -/
def Ev.handle? : Ev → Option Nat
  | .opened h _ => some h
  | .closed _ => none

/-- The handles that were returned, the oldest first. -/
def handles (tr : List Ev) : List Nat := tr.filterMap Ev.handle?

theorem fileOf_snoc (tr : List Ev) (e : Ev) (h : Nat) :
    fileOf (tr ++ [e]) h = e.on h (fileOf tr h) := by simp [fileOf]

/-! ## Decoding -/

/-- A handle other than 0 is decoded to the file it stands for: after any sequence of opening and
closing, also of numbers that are not handles. -/
theorem decode_file {tr t} (hr : Run c tr t) (h : Nat) (h0 : h ≠ 0) :
    decode c t h = fileOf tr h := by
  induction hr with
  | new => simp [decode_eq, fileOf, slotAt]
  | opened tr t f h' t' hr ha ih =>
    obtain ⟨i, hi, hf, rfl, _, _, hv⟩ := alloc_spec ha
    obtain ⟨e1, e2⟩ := handle_split (g := (slotAt t i).gen) hi
    rw [fileOf_snoc, ← ih, decode_eq, hv]
    simp only [Ev.on]
    by_cases hc : (slotAt t i).gen * c.lim + i = h
    · subst hc
      rw [e1, e2]
      simp only [if_true, and_true]
      rw [if_pos h0]
    · rw [if_neg hc, decode_eq]
      by_cases hm : h % c.lim = i
      · have hg : (slotAt t i).gen ≠ h / c.lim := fun hg => hc (handle_eq hm hg.symm).symm
        simp [hm, hg]
      · simp [hm]
  | closed tr t h' hr ih =>
    rw [fileOf_snoc, ← ih]
    simp only [Ev.on]
    unfold close
    cases hd : decodeSlot c t h' with
    | none =>
      dsimp only
      split
      · rename_i e; subst e; simp [decode, hd]
      · rfl
    | some r =>
      obtain ⟨i, s⟩ := r
      obtain ⟨h1, rfl, rfl, h3, h4⟩ := decodeSlot_some hd
      dsimp only
      rw [decode_eq, release_slotAt _ _ _ (slot_lt h3), decode_eq]
      by_cases hc : h' = h
      · subst hc
        simp
      · rw [if_neg hc]
        by_cases hm : h % c.lim = h' % c.lim
        · have hg : (slotAt t (h % c.lim)).gen ≠ h / c.lim := by
            intro hg
            rw [hm] at hg
            rw [hg] at h4
            apply hc
            rw [← handle_join (c := c) h', ← hm, ← h4, handle_join]
          rw [hm] at hg
          simp [hm, hg]
        · simp [hm]

/-- The number 0, which stands for no file, is never decoded. -/
theorem decode_zero (t : Tab) : decode c t 0 = none := by simp [decode, decodeSlot]

/-! ## Handles are not issued twice -/

/-- What holds as long as no generation has wrapped around. -/
structure Fresh (c : Cfg) (tr : List Ev) (t : Tab) : Prop where
  pos : ∀ i, 1 ≤ (slotAt t i).gen
  free : ∀ i, (slotAt t i).obj = none → (slotAt t i).gen ≤ (handles tr).length + 1
  used : ∀ i, (slotAt t i).obj ≠ none → (slotAt t i).gen ≤ (handles tr).length
  old : ∀ h ∈ handles tr, h / c.lim ≤ (slotAt t (h % c.lim)).gen
  gone : ∀ h ∈ handles tr, (slotAt t (h % c.lim)).obj = none →
    h / c.lim < (slotAt t (h % c.lim)).gen

theorem handles_open (tr : List Ev) (h f : Nat) :
    handles (tr ++ [.opened h f]) = handles tr ++ [h] := by simp [handles, Ev.handle?]

theorem handles_close (tr : List Ev) (h : Nat) :
    handles (tr ++ [.closed h]) = handles tr := by simp [handles, Ev.handle?]

theorem Run.inv {tr t} (hr : Run c tr t) (hb : (handles tr).length + 2 ≤ c.lim) :
    Fresh c tr t := by
  induction hr with
  | new =>
    constructor <;> simp [slotAt, handles]
  | opened tr t f h t' hr ha ih =>
    rw [handles_open] at hb
    simp at hb
    have ih := ih (by omega)
    obtain ⟨i, hi, hf, rfl, _, _, hv⟩ := alloc_spec ha
    obtain ⟨e1, e2⟩ := handle_split (g := (slotAt t i).gen) hi
    constructor
    · intro j; rw [hv]; split
      · exact ih.pos i
      · exact ih.pos j
    · intro j; rw [hv, handles_open]; simp; split
      · simp
      · intro hj; have := ih.free j hj; omega
    · intro j; rw [hv, handles_open]; simp; split
      · intro _; exact ih.free i hf
      · intro hj; have := ih.used j hj; omega
    · intro h; rw [hv, handles_open]; simp
      rintro (hh | rfl)
      · have := ih.old h hh
        split
        · rename_i e; rw [e] at this; exact this
        · exact this
      · rw [e1, e2]; simp
    · intro h; rw [hv, handles_open]; simp
      rintro (hh | rfl)
      · have := ih.gone h hh
        split
        · simp
        · exact this
      · rw [e1]; simp
  | closed tr t h hr ih =>
    rw [handles_close] at hb
    have ih := ih hb
    unfold close
    cases hd : decodeSlot c t h with
    | none =>
      dsimp only
      constructor
      · exact ih.pos
      · rw [handles_close]; exact ih.free
      · rw [handles_close]; exact ih.used
      · rw [handles_close]; exact ih.old
      · rw [handles_close]; exact ih.gone
    | some r =>
      obtain ⟨i, s⟩ := r
      obtain ⟨h1, rfl, rfl, h3, h4⟩ := decodeSlot_some hd
      have hu := ih.used _ h3
      have hmod : ((slotAt t (h % c.lim)).gen + 1) % c.lim = (slotAt t (h % c.lim)).gen + 1 :=
        Nat.mod_eq_of_lt (by omega)
      have hv := release_slotAt (c := c) t _ (slotAt t (h % c.lim)) (slot_lt h3)
      rw [hmod] at hv
      dsimp only
      constructor
      · intro j; rw [hv]; split
        · exact Nat.le_add_left _ _
        · exact ih.pos j
      · intro j; rw [hv, handles_close]; split
        · intro _; exact Nat.succ_le_succ hu
        · exact ih.free j
      · intro j; rw [hv, handles_close]; split
        · simp
        · exact ih.used j
      · intro h'; rw [hv, handles_close]; intro hh
        have := ih.old h' hh
        split
        · rename_i e; rw [e] at this; exact Nat.le_succ_of_le this
        · exact this
      · intro h'; rw [hv, handles_close]; intro hh
        have h5 := ih.old h' hh
        have := ih.gone h' hh
        split
        · rename_i e; rw [e] at h5; intro _; exact Nat.lt_succ_of_le h5
        · exact this

/-- As long as at most `lim - 1` files have been opened (65535, counting files that were closed
since), no handle is issued twice and none is 0.  So a handle that was closed stays closed, and an
open file never looks closed. -/
theorem fresh_partial {tr t} (hr : Run c tr t) (hb : (handles tr).length ≤ c.lim - 1) :
    (handles tr).Nodup ∧ 0 ∉ handles tr := by
  induction hr with
  | new => simp [handles]
  | opened tr t f h t' hr ha ih =>
    rw [handles_open] at hb ⊢
    simp at hb
    have hl := lim_pos (c := c)
    obtain ⟨n1, n2⟩ := ih (by omega)
    have inv := hr.inv (by omega)
    obtain ⟨i, hi, hf, rfl, _, _, hv⟩ := alloc_spec ha
    obtain ⟨e1, e2⟩ := handle_split (g := (slotAt t i).gen) hi
    constructor
    · rw [List.nodup_append]
      refine ⟨n1, by simp, ?_⟩
      rintro a ha' b hb' rfl
      simp at hb'
      subst hb'
      have := inv.gone _ ha'
      rw [e1, e2] at this
      exact Nat.lt_irrefl _ (this hf)
    · simp only [List.mem_append, List.mem_singleton, not_or]
      refine ⟨n2, ?_⟩
      intro h0
      rw [← h0] at e2
      simp at e2
      have := inv.pos i
      omega
  | closed tr t h hr ih =>
    rw [handles_close] at hb ⊢
    exact ih hb

/-- For files of nvc. -/
theorem file_handles_partial {tr t} (hr : Run fileCfg tr t) (hb : (handles tr).length ≤ 65535) :
    (∀ h, decode fileCfg t h = fileOf tr h) ∧ (handles tr).Nodup ∧ 0 ∉ handles tr := by
  have hf := fresh_partial hr hb
  refine ⟨fun h => ?_, hf⟩
  by_cases h0 : h = 0
  · subst h0
    rw [decode_zero]
    have : ∀ l : List Ev, 0 ∉ handles l → l.foldl (Ev.on 0) none = none := by
      intro l
      induction l with
      | nil => intro _; rfl
      | cons e l ih =>
        intro hn
        have h1 : Ev.on 0 none e = none := by
          cases e with
          | closed h => simp [Ev.on]
          | opened h f =>
            simp [handles, Ev.handle?] at hn
            simp [Ev.on]; omega
        rw [List.foldl_cons, h1]
        apply ih
        cases e <;> simp [handles, Ev.handle?] at hn ⊢
        · exact hn.2
        · exact hn
    exact (this tr hf.2).symm
  · exact decode_file hr h h0

/-- Three opened, the second closed and its slot used again: the old handle 65537 is refused. -/
example : ∃ tr t, Run fileCfg tr t ∧ handles tr = [65536, 65537, 131073] ∧
    decode fileCfg t 65536 = some 10 ∧ decode fileCfg t 65537 = none ∧
    decode fileCfg t 131073 = some 12 := by
  refine ⟨_, _, .opened _ _ 12 131073 _ (.closed _ _ 65537 (.opened _ _ 11 65537 _
    (.opened _ _ 10 65536 _ .new rfl) rfl)) rfl, ?_, ?_, ?_, ?_⟩ <;> decide +kernel

/-! ## Handles that wrap around -/

/-- Opening and closing the file `f` again and again with the slot `i`. -/
def rounds (c : Cfg) (f i : Nat) : Nat → List Ev
  | 0 => []
  | n + 1 => rounds c f i n ++
    [.opened ((n + 1) % c.lim * c.lim + i) f, .closed ((n + 1) % c.lim * c.lim + i)]

theorem alloc_hint (t : Tab) (f i g : Nat) (hi : i < c.lim) (hh : t.hint = i)
    (hs : t.slots[i]? = some { obj := none, ref := 0, gen := g }) :
    alloc c t f = some (g * c.lim + i,
      { slots := t.slots.set i { obj := some f, ref := 1, gen := g }, hint := i + 1 }) := by
  have hl := (List.getElem?_eq_some_iff.1 hs).1
  have hp : pick c t = i := by unfold pick; simp only [hh, hs]; rfl
  unfold alloc
  dsimp only
  rw [hp, if_neg (by omega)]
  simp only [if_neg (Nat.ne_of_lt hl), hs]

theorem close_hint (t : Tab) (f i g : Nat) (hi : i < c.lim) (hn : g * c.lim + i ≠ 0)
    (hs : t.slots[i]? = some { obj := some f, ref := 1, gen := g }) :
    close c t (g * c.lim + i) =
      { slots := t.slots.set i { obj := none, ref := 0, gen := (g + 1) % c.lim }, hint := i } := by
  obtain ⟨e1, e2⟩ := handle_split (g := g) hi
  unfold close decodeSlot
  rw [if_neg hn, e1, e2]
  simp [hs, release]

theorem run_rounds {pre : List Ev} {t0 : Tab} (hr : Run c pre t0) (f i : Nat) (hi : i < c.lim)
    (hh : t0.hint = i) (hs : t0.slots[i]? = some { obj := none, ref := 0, gen := 1 % c.lim })
    (n : Nat) (hn : ∀ k, k < n → (k + 1) % c.lim * c.lim + i ≠ 0) :
    ∃ t, Run c (pre ++ rounds c f i n) t ∧ t.hint = i ∧
      t.slots[i]? = some { obj := none, ref := 0, gen := (n + 1) % c.lim } := by
  have hl := (List.getElem?_eq_some_iff.1 hs).1
  induction n with
  | zero => exact ⟨t0, by simpa [rounds] using hr, hh, by simpa using hs⟩
  | succ n ih =>
    obtain ⟨t, h1, h2, h3⟩ := ih fun k hk => hn k (by omega)
    have hlt := (List.getElem?_eq_some_iff.1 h3).1
    have a := alloc_hint (c := c) t f i _ hi h2 h3
    have r1 := Run.opened _ _ f _ _ h1 a
    have r2 := Run.closed _ _ ((n + 1) % c.lim * c.lim + i) r1
    rw [close_hint _ f i ((n + 1) % c.lim) hi (hn n (by omega)) (by simp [hlt])] at r2
    refine ⟨_, by simpa [rounds] using r2, rfl, ?_⟩
    simp [hlt]

/-- Opening and closing one file 65535 times, one at a time: the next opening returns the handle 0,
which stands for no file.  The file is open, but for the program it is closed. -/
theorem wrap_counterexample (f : Nat) : ∃ tr t t',
    Run fileCfg tr t ∧ (handles tr).length = 65535 ∧ (∀ h, decode fileCfg t h = none) ∧
    alloc fileCfg t f = some (0, t') ∧ decode fileCfg t' 0 = none ∧
    ∃ s, t'.slots[0]? = some s ∧ s.obj = some f := by
  have hlim : fileCfg.lim = 65536 := by decide
  -- the first round makes the table
  let t0 : Tab := { slots := { obj := none, ref := 0, gen := 2 } :: List.replicate 15 {}, hint := 0 }
  have r0 : Run fileCfg [.opened 65536 f, .closed 65536] t0 := by
    have a : alloc fileCfg {} f = some (65536,
      { slots := { obj := some f, ref := 1, gen := 1 } :: List.replicate 15 {}, hint := 1 }) := rfl
    have := Run.closed _ _ 65536 (Run.opened _ _ f _ _ .new a)
    exact this
  -- further rounds
  have step : ∀ n, n ≤ 65534 → ∃ tr t, Run fileCfg tr t ∧ (handles tr).length = n + 1 ∧ t.hint = 0 ∧
      t.slots.length = 16 ∧ t.slots[0]? = some { obj := none, ref := 0, gen := (n + 2) % 65536 } ∧
      ∀ i, (slotAt t i).obj = none := by
    intro n hn
    induction n with
    | zero =>
      refine ⟨_, t0, r0, by simp [handles, Ev.handle?], rfl, rfl, rfl, ?_⟩
      intro i
      unfold slotAt
      match i with
      | 0 => rfl
      | i + 1 =>
        simp only [t0, List.getElem?_cons_succ, List.getElem?_replicate]
        split <;> rfl
    | succ n ih =>
      obtain ⟨tr, t, h1, h2, h3, h4, h5, h6⟩ := ih (by omega)
      have a := alloc_hint (c := fileCfg) t f 0 _ lim_pos h3 h5
      have r1 := Run.opened _ _ f _ _ h1 a
      have r2 := Run.closed _ _ ((n + 2) % 65536 * fileCfg.lim + 0) r1
      have hne : (n + 2) % 65536 * fileCfg.lim + 0 ≠ 0 := by
        rw [hlim, Nat.mod_eq_of_lt (by omega)]; omega
      rw [close_hint _ f 0 _ lim_pos hne (by simp [h4])] at r2
      refine ⟨_, _, r2, ?_, rfl, by simp [h4], ?_, ?_⟩
      · rw [handles_close, handles_open]; simp [h2]
      · simp [h4, hlim]
      · intro i
        rw [List.set_set, set_slotAt _ _ _ _ (by omega)]
        split
        · rfl
        · exact h6 i
  obtain ⟨tr, t, h1, h2, h3, h4, h5, h6⟩ := step 65534 (Nat.le_refl _)
  have a := alloc_hint (c := fileCfg) t f 0 _ lim_pos h3 h5
  refine ⟨tr, t, _, h1, h2, ?_, by rw [a]; simp; rfl, decode_zero _, ?_⟩
  · intro h; rw [decode_eq, h6]; simp
  · simp [h4]

/-- With one file kept open, 65536 rounds with another one bring back its first handle: a program
that still has the handle of the first round then has the handle of another file. -/
theorem alias_counterexample (f f' : Nat) : ∃ tr t t' h,
    Run fileCfg tr t ∧ h ∈ handles tr ∧ fileOf tr h = none ∧
    alloc fileCfg t f' = some (h, t') ∧ decode fileCfg t' h = some f' := by
  have hlim : fileCfg.lim = 65536 := by decide
  have r0 : Run fileCfg [.opened 65536 f]
      { slots := { obj := some f, ref := 1, gen := 1 } :: List.replicate 15 {}, hint := 1 } :=
    .opened _ _ f _ _ .new rfl
  obtain ⟨t, h1, h2, h3⟩ := run_rounds r0 f 1 (by decide) rfl rfl 65536
    (fun k _ => by omega)
  have a := alloc_hint (c := fileCfg) t f' 1 _ (by decide) h2 h3
  have he : (65536 + 1) % fileCfg.lim * fileCfg.lim + 1 = 65537 := by rw [hlim]
  rw [he] at a
  refine ⟨_, t, _, 65537, h1, ?_, ?_, a, ?_⟩
  · have key : ∀ n, 65537 ∈ handles (rounds fileCfg f 1 (n + 1)) := by
      intro n
      induction n with
      | zero => simp [rounds, handles, Ev.handle?, hlim]
      | succ n ih =>
        rw [rounds]
        unfold handles at ih ⊢
        rw [List.filterMap_append]
        exact List.mem_append_left _ ih
    unfold handles at key ⊢
    rw [List.filterMap_append]
    exact List.mem_append_right _ (key 65535)
  · rw [← decode_file h1 _ (by omega), decode_eq]
    have : slotAt t (65537 % fileCfg.lim) = { obj := none, ref := 0, gen := (65536 + 1) % fileCfg.lim } := by
      have e : 65537 % fileCfg.lim = 1 := by rw [hlim]
      unfold slotAt; rw [e, h3]; rfl
    rw [this]; simp
  · rw [decode_file (Run.opened _ _ f' _ _ h1 a) _ (by omega), fileOf_snoc]
    simp [Ev.on]

end Verif.Handle
