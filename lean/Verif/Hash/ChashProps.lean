import Verif.Hash.ChashTrace

/-!
# C78: the concurrent hash table is a map

`put_linear`, `store_linear` and `get_linear` together say that the table is linearizable: every
`chash_put` stores its value at one moment between its call and its return, and every `chash_get`
returns the value stored last before some moment between its call and its return.  This needs that
no value is overwritten while the table is being copied: `lost_counterexample` and
`assert_counterexample`.
-/

namespace Verif.Hash.Chash

open Verif.Thread

variable {c : Cfg}

theorem Run.snoc_inv {tr l s} (h : Run c (tr ++ [l]) s) :
    ∃ s0 a, Run c tr s0 ∧ Chash.step c s0 a = some (l, s) := by
  generalize e : tr ++ [l] = tr' at h
  cases h with
  | new => simp at e
  | step tr1 s0 a l' _ h hs =>
    obtain ⟨rfl, e⟩ := List.append_inj' e rfl
    simp at e; subst e
    exact ⟨s0, a, h, hs⟩

/-- Which thread can have caused a label, and where it was. -/
theorem step_write {s a x k v s'} (h : step c s a = some (.write x k v, s')) :
    ∃ t d f, s.pc x = .write k v t d f := by
  unfold step at h
  split at h
  · simp at h
  · cases a with
    | call y o =>
      cases o <;> dsimp only at h <;> split at h <;> simp at h
    | go y =>
      dsimp only at h
      unfold go at h
      split at h <;> try (dsimp only at h)
      all_goals try (split at h)
      all_goals try (split at h)
      all_goals simp at h
      all_goals obtain ⟨⟨rfl, rfl, rfl⟩, _⟩ := h
      all_goals exact ⟨_, _, _, by assumption⟩

theorem step_retPut {s a x s'} (h : step c s a = some (.retPut x, s')) : s.pc x = .retp := by
  unfold step at h
  split at h
  · simp at h
  · cases a with
    | call y o =>
      cases o <;> dsimp only at h <;> split at h <;> simp at h
    | go y =>
      dsimp only at h
      unfold go at h
      split at h <;> try (dsimp only at h)
      all_goals try (split at h)
      all_goals try (split at h)
      all_goals simp at h
      all_goals obtain ⟨rfl, _⟩ := h
      all_goals assumption

theorem step_retGet {s a x r s'} (h : step c s a = some (.retGet x r, s')) :
    s.pc x = .retg r := by
  unfold step at h
  split at h
  · simp at h
  · cases a with
    | call y o =>
      cases o <;> dsimp only at h <;> split at h <;> simp at h
    | go y =>
      dsimp only at h
      unfold go at h
      split at h <;> try (dsimp only at h)
      all_goals try (split at h)
      all_goals try (split at h)
      all_goals simp at h
      all_goals obtain ⟨⟨rfl, rfl⟩, _⟩ := h
      all_goals assumption

/-- A value is stored by a `chash_put` with that key and value that has stored nothing before. -/
theorem store_linear (h0 : 0 < c.size0) {tr x k v s} (h : Run c (tr ++ [.write x k v]) s) :
    Open tr x (.put k v) := by
  obtain ⟨s0, a, hr, hs⟩ := h.snoc_inv
  obtain ⟨t, d, f, hx⟩ := step_write hs
  have := (hr.tinv h0).pct x
  rw [hx] at this
  exact this

/-- When `chash_put` returns it has stored its value, once. -/
theorem put_linear (h0 : 0 < c.size0) {tr x s} (h : Run c (tr ++ [.retPut x]) s) :
    ∃ k v, Written tr x k v := by
  obtain ⟨s0, a, hr, hs⟩ := h.snoc_inv
  have := (hr.tinv h0).pct x
  rw [step_retPut hs] at this
  exact this

/-- `chash_get` returns the value that its key had at some moment since it was called (the null
pointer if it had none), if no value was overwritten while the table was being copied. -/
theorem get_linear (h0 : 0 < c.size0) {tr x r s} (h : Run c (tr ++ [.retGet x r]) s)
    (hc : Clean tr) : ∃ k o, Seen tr x k o ∧ o.getD 0 = r := by
  obtain ⟨s0, a, hr, hs⟩ := h.snoc_inv
  have := (hr.tinv h0).pct x
  rw [step_retGet hs] at this
  obtain ⟨k, _, _, hh⟩ := this
  exact ⟨k, hh hc⟩

/-- In any case `chash_get` returns a value that was stored for its key, or the null pointer if the
key had no value at some moment since it was called. -/
theorem get_sound (h0 : 0 < c.size0) {tr x r s} (h : Run c (tr ++ [.retGet x r]) s) :
    ∃ k, Open tr x (.get k) ∧ ((∃ y, .write y k r ∈ tr) ∨ r = 0 ∧ Seen tr x k none) := by
  obtain ⟨s0, a, hr, hs⟩ := h.snoc_inv
  have := (hr.tinv h0).pct x
  rw [step_retGet hs] at this
  obtain ⟨k, h1, h2, _⟩ := this
  exact ⟨k, h1, h2⟩

theorem split_unique {α : Type} {P : α → Prop} {p q p' q' : List α} {a a' : α}
    (e : p ++ a :: q = p' ++ a' :: q') (ha : P a) (ha' : P a') (hq : ∀ l ∈ q, ¬ P l)
    (hq' : ∀ l ∈ q', ¬ P l) : p = p' ∧ a = a' ∧ q = q' := by
  induction p generalizing p' with
  | nil =>
    cases p' with
    | nil => simp at e; exact ⟨rfl, e⟩
    | cons b p' =>
      simp at e
      exact absurd ha' (hq a' (by rw [e.2]; simp))
  | cons b p ih =>
    cases p' with
    | nil =>
      simp at e
      exact absurd ha (hq' a (by rw [← e.2]; simp))
    | cons b' p' =>
      simp at e
      obtain ⟨h1, h2⟩ := ih e.2
      exact ⟨by rw [e.1, h1], h2⟩

theorem lastWrite_append_some {p q : List Label} {k} (h : lastWrite p k ≠ none) :
    lastWrite (p ++ q) k ≠ none := by
  induction q generalizing p with
  | nil => simpa using h
  | cons l q ih =>
    have : p ++ l :: q = (p ++ [l]) ++ q := by simp
    rw [this]
    apply ih
    rw [lastWrite_snoc]
    cases l <;> try exact h
    dsimp only
    split
    · simp
    · exact h

/-- If only the value `v` is ever stored for `k`, then every `chash_get (k)` that begins after it
was stored returns it, also while the table is being copied. -/
theorem put_once (h0 : 0 < c.size0) {p q x k v r s}
    (h : Run c (p ++ .callGet x k :: q ++ [.retGet x r]) s) (hq : ∀ l ∈ q, l.of x = false)
    (hp : lastWrite p k ≠ none)
    (hv : ∀ y w, .write y k w ∈ p ++ .callGet x k :: q → w = v) : r = v := by
  obtain ⟨k', ⟨p1, q1, e1, hq1⟩, hh⟩ := get_sound h0 h
  have hkk := split_unique (P := fun l => l.of x = true) e1 (by simp [Label.of])
    (by simp [callOf, Label.of]) (by simpa using hq) (by simpa using hq1)
  obtain ⟨rfl, e2, rfl⟩ := hkk
  simp [callOf] at e2
  subst e2
  rcases hh with ⟨y, hy⟩ | ⟨_, p2, q2, w2, e3, hq2, hn⟩
  · exact hv y r hy
  · exfalso
    obtain ⟨rfl, _, _⟩ := split_unique (P := fun l => l.of x = true) e3 (by simp [Label.of])
      (by simp [Label.of]) (by simpa using hq) (by simpa using hq2)
    exact lastWrite_append_some hp hn

/-- No assertion fails if no value is overwritten while the table is being copied. -/
theorem no_abort (h0 : 0 < c.size0) {tr s} (h : Run c tr s) (hc : Clean tr) :
    ∀ x, Label.abort x ∉ tr := by
  induction h with
  | new => simp
  | step tr s a l s' hr hs ih =>
    intro x hx
    rcases List.mem_append.1 hx with hx | hx
    · exact ih hc.of_snoc x hx
    · simp at hx; subst hx
      have hI := hr.inv h0
      have hT := hr.tinv h0
      unfold step at hs
      split at hs
      · simp at hs
      · cases a with
        | call y o => cases o <;> dsimp only at hs <;> split at hs <;> simp at hs
        | go y =>
          dsimp only at hs
          unfold go at hs
          have hp := hI.pcs y
          have ht := hT.pct y
          cases hy : s.pc y with
          | scan k v t i =>
            obtain ⟨q, e, _⟩ := hI.scan hy
            rw [hy] at hs
            dsimp only at hs
            rw [e] at hs; simp at hs
          | find k v t i kk d =>
            have := (hI.find hy).2.1
            rw [hy] at hs
            dsimp only at hs
            rw [this] at hs
            split at hs <;> simp at hs
          | move k v t i e =>
            rw [hy] at hp ht hs
            dsimp only at hs
            split at hs
            · simp at hs
            · rename_i hne
              split at hs
              · simp at hs
              · rename_i hen
                obtain ⟨kk, rfl⟩ := Option.ne_none_iff_exists'.1 hen
                have h1 := ht.2 (by simp) hc.of_snoc
                have h2 := (hp.2.2 kk rfl).1
                simp [Slot.expects, h1, h2] at hne
          | swap k v t =>
            rw [hy] at hp hs
            obtain ⟨h1, h2, _⟩ := hp
            dsimp only at hs
            rw [if_pos ⟨by omega, h1.symm⟩] at hs
            simp at hs
          | load o => cases o <;> rw [hy] at hs <;> simp at hs
          | own k v t d =>
            rw [hy] at hs
            dsimp only at hs
            split at hs
            · simp at hs
              have := hs.1
              split at this <;> simp at this
            · simp at hs
          | _ =>
            rw [hy] at hs
            (try (dsimp only at hs)) <;> (try split at hs) <;> simp at hs

/-! ## Examples -/

/-- A table of two slots. -/
def small : Cfg := ⟨2, fun n k => k % n⟩

/-- Thread `x` takes `n` steps. -/
def steps (x n : Nat) : List Act := List.replicate n (.go x)

/-- The events that are not internal. -/
def visible (tr : List Label) : List Label := tr.filter fun l => match l with
  | .tau _ => false
  | _ => true

/-- What can be seen when the schedule `as` is run. -/
def shows (as : List Act) : Option (List Label) := (exec small {} as).map fun r => visible r.1

/-- Thread 0 has found out that the table need not grow before storing `1 ↦ 11` for the second
time; thread 1 begins to copy the table and has copied `1 ↦ 10`. -/
def before : List Act :=
  .call 0 (.put 1 10) :: steps 0 8 ++ .call 0 (.put 1 11) :: steps 0 2 ++
  .call 1 (.put 2 20) :: steps 1 8 ++ .call 1 (.put 3 30) :: steps 1 10

/-- A store is lost: after `chash_put (1, 11)` has returned `chash_get (1)` returns 10.  Thread 0
marks the slot busy, stores the value and marks the slot in use again between the moments at which
thread 1 reads the value (hash.c 591) and compares the tagged key (hash.c 605), which is the same
again. -/
def lost : List Act :=
  before ++ steps 0 5 ++ steps 1 3 ++ .call 2 (.get 1) :: steps 2 4

theorem lost_counterexample :
    shows lost = some
      [.callPut 0 1 10, .write 0 1 10, .retPut 0, .callPut 0 1 11,
       .callPut 1 2 20, .write 1 2 20, .retPut 1, .callPut 1 3 30,
       .race 0 1, .write 0 1 11, .retPut 0,
       .callGet 2 1, .retGet 2 10] := by
  decide +kernel

/-- The assertion in line 608 fails if thread 1 compares while the slot is busy. -/
theorem assert_counterexample :
    shows (before ++ steps 0 2 ++ steps 1 1) = some
      [.callPut 0 1 10, .write 0 1 10, .retPut 0, .callPut 0 1 11,
       .callPut 1 2 20, .write 1 2 20, .retPut 1, .callPut 1 3 30,
       .race 0 1, .abort 1] := by
  decide +kernel

/-- The lost store is not linearizable: `get_linear` does not hold without its hypothesis. -/
theorem get_linear_counterexample : ¬ ∀ (c : Cfg) (_ : 0 < c.size0) (tr : List Label) (x r : Nat)
    (s : St), Run c (tr ++ [.retGet x r]) s → ∃ k o, Seen tr x k o ∧ o.getD 0 = r := by
  intro hall
  obtain ⟨tr, hlen⟩ : ∃ tr, (exec small {} lost).map (·.1) = some (tr ++ [.retGet 2 10]) ∧
      (∃ p q, tr = p ++ .callGet 2 1 :: q ∧ (∀ l ∈ q, l.of 2 = false) ∧
        ∀ n, n ≤ q.length → lastWrite (p ++ .callGet 2 1 :: q.take n) 1 = some 11) := by
    refine ⟨((exec small {} lost).map (·.1.dropLast)).getD [], by decide +kernel,
      ((exec small {} lost).map (·.1.take 40)).getD [],
      ((exec small {} lost).map (·.1.dropLast.drop 41)).getD [], ?_⟩
    refine ⟨by decide +kernel, by decide +kernel, ?_⟩
    have : ∀ n < 4, lastWrite (((exec small {} lost).map (·.1.take 40)).getD [] ++ .callGet 2 1 ::
        (((exec small {} lost).map (·.1.dropLast.drop 41)).getD []).take n) 1 = some 11 := by
      decide +kernel
    intro n hn
    exact this n (Nat.lt_of_le_of_lt hn (by decide +kernel))
  obtain ⟨hex, p, q, rfl, hq, hw⟩ := hlen
  cases he : exec small {} lost with
  | none => simp [he] at hex
  | some r =>
    simp only [he, Option.map_some, Option.some.injEq] at hex
    have hr := Run.exec Run.new lost (c := small) (tr' := r.1) (s' := r.2) he
    rw [hex] at hr
    obtain ⟨k, o, ⟨p', q', w', e, hqw, hl⟩, ho⟩ := hall small (by decide) _ _ _ _ hr
    obtain ⟨rfl, e2, rfl⟩ := split_unique (P := fun l => l.of 2 = true) e (by simp [Label.of])
      (by simp [Label.of]) (by simpa using hq) (by simpa using hqw)
    simp at e2; subst e2
    have := hw q'.length (by simp)
    simp only [List.take_left'] at this
    rw [this] at hl
    subst hl
    simp at ho

/-- The hypotheses of `get_linear`, `put_linear` and `store_linear` are met by three threads while
the table grows. -/
def grows : List Act :=
  .call 0 (.put 1 10) :: steps 0 8 ++ .call 1 (.put 2 20) :: steps 1 8 ++
  .call 1 (.put 3 30) :: steps 1 7 ++ .call 2 (.get 1) :: steps 2 2 ++ .call 0 (.get 3) ::
  steps 1 14 ++ steps 0 4 ++ steps 2 2 ++ .call 0 (.put 1 11) :: steps 0 26 ++ .call 2 (.get 1) ::
  steps 2 4

example : shows grows = some
    [.callPut 0 1 10, .write 0 1 10, .retPut 0, .callPut 1 2 20, .write 1 2 20, .retPut 1,
     .callPut 1 3 30, .callGet 2 1, .callGet 0 3, .write 1 3 30, .retPut 1, .retGet 0 30,
     .retGet 2 10, .callPut 0 1 11, .write 0 1 11, .retPut 0, .callGet 2 1, .retGet 2 11] := by
  decide +kernel

end Verif.Hash.Chash
