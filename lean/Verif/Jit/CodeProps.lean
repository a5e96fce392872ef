import Verif.Jit.CodeInv

/-!
# C83: generated machine code is what was asked for and stays that way
-/

namespace Verif.Jit.Code

/-- Code whose entry point was stored is complete: it has the bytes that were emitted, one after
the other, every jump leads to its label, and the span has its length. -/
theorem code_linked {s : St} (h : Reach s) {d : Done} (hd : d ∈ s.done) :
    Linked s.mem d.base d.items ∧ d.size = total d.items :=
  let hi := h.inv.dones d hd
  ⟨hi.1, hi.2.1⟩

/-- Every byte of finished code lies in a page that was mapped, is not part of other finished
code, not part of a blob to which a thread is writing, and not part of what is free. -/
theorem code_apart {s : St} (h : Reach s) {i : Nat} {d : Done} (hd : s.done[i]? = some d) :
    d.base % 256 = 0 ∧
    (∃ p ∈ s.pages, Inside ⟨d.base, d.size⟩ p) ∧
    (∀ (j : Nat) (e : Done), j ≠ i → s.done[j]? = some e → Disj ⟨d.base, d.size⟩ ⟨e.base, e.size⟩) ∧
    (∀ t b, s.blob t = some b → Disj ⟨d.base, d.size⟩ ⟨b.base, b.size⟩) ∧
    (∀ t fr, s.free t = some fr → Disj ⟨d.base, d.size⟩ fr) ∧
    Disj ⟨d.base, d.size⟩ s.gfree := by
  have hi := h.inv
  have hm := List.mem_of_getElem? hd
  have hr : reg s (.done i) = ⟨d.base, d.size⟩ := by simp only [reg, hd, doneReg]
  refine ⟨hi.dal d hm, ?_, ?_, ?_, ?_, ?_⟩
  · have := hi.regs.inside (.done i)
    rw [hr] at this
    exact this (hi.dones d hm).2.2
  · intro j e hne he
    have := hi.regs.disj (.done i) (.done j) (by intro h; cases h; exact hne rfl)
    rw [hr] at this
    simpa only [reg, he, doneReg] using this
  · intro t b hb
    have := hi.regs.disj (.done i) (.open_ t) (by intro h; cases h)
    rw [hr] at this
    simpa only [reg, hb, blobReg] using this
  · intro t fr hf
    have := hi.regs.disj (.done i) (.free t) (by intro h; cases h)
    rw [hr] at this
    simpa only [reg, hf, Option.getD_some] using this
  · have := hi.regs.disj (.done i) .glob (by intro h; cases h)
    rw [hr] at this
    exact this

theorem finalise_mem {s s' : St} {t : Nat} {b : Blob} (h : finalise s t b = .ok s') :
    s'.mem = s.mem ∧ ∀ d ∈ s.done, d ∈ s'.done := by
  unfold finalise at h
  simp only at h
  split at h
  · cases h
  · split at h
    · cases h
    · split at h
      · have h := Res.ok.inj h
        subst h
        exact ⟨rfl, fun d hd => hd⟩
      · split at h
        · cases h
        · have h := Res.ok.inj h
          subst h
          exact ⟨rfl, fun d hd => List.mem_append.mpr (Or.inl hd)⟩

/-- Finished code does not change any more, whatever the threads do. -/
theorem code_stays {s s' : St} {op : Op} (h : Reach s) (ha : Allowed s op)
    (hs : exec s op = some (.ok s')) {d : Done} (hd : d ∈ s.done) :
    d ∈ s'.done ∧ ∀ a, d.base ≤ a → a < d.base + d.size → s'.mem a = s.mem a := by
  have hi := h.inv
  cases op with
  | new t name hint page =>
    simp only [exec] at hs
    split at hs
    · rename_i hb
      obtain ⟨s1, h1, _, h3, h4⟩ := blobNew_ok hi hb ha
      rw [h1] at hs
      cases hs
      rw [h3, h4]
      exact ⟨hd, fun _ _ _ => rfl⟩
    · cases hs
  | emit t bs =>
    simp only [exec] at hs
    cases hb : s.blob t with
    | none => rw [hb] at hs; cases hs
    | some b =>
      rw [hb] at hs
      cases hs
      refine ⟨hd, ?_⟩
      intro a h1 h2
      exact (emit_ok (hi.blobs t b hb) bs).2.mem a (hi.apart_done hb hd a h1 h2)
  | mark t l =>
    simp only [exec] at hs
    cases hb : s.blob t with
    | none => rw [hb] at hs; cases hs
    | some b =>
      rw [hb] at hs
      simp only [Option.map_some, Option.some.injEq] at hs
      cases hm : mark s.mem b l with
      | fatal => rw [hm] at hs; cases hs
      | assert => rw [hm] at hs; cases hs
      | ok x =>
        rw [hm] at hs
        have hs := Res.ok.inj hs
        subst hs
        refine ⟨hd, ?_⟩
        intro a h1 h2
        exact (mark_ok (hi.blobs t b hb) (ha b hb) (mem' := x.1) (b' := x.2) hm).2.mem a
          (hi.apart_done hb hd a h1 h2)
  | branch t opc l w =>
    simp only [exec] at hs
    cases hb : s.blob t with
    | none => rw [hb] at hs; cases hs
    | some b =>
      rw [hb] at hs
      simp only [Option.map_some, Option.some.injEq] at hs
      cases hm : branch s.mem b opc l w with
      | fatal => rw [hm] at hs; cases hs
      | assert => rw [hm] at hs; cases hs
      | ok x =>
        rw [hm] at hs
        have hs := Res.ok.inj hs
        subst hs
        refine ⟨hd, ?_⟩
        intro a h1 h2
        exact ((branch_cases (hi.blobs t b hb) opc l w).2 x.1 x.2 hm).2.mem a
          (hi.apart_done hb hd a h1 h2)
  | finalise t =>
    simp only [exec] at hs
    cases hb : s.blob t with
    | none => rw [hb] at hs; cases hs
    | some b =>
      rw [hb] at hs
      simp only [Option.map_some, Option.some.injEq] at hs
      have := finalise_mem hs
      rw [this.1]
      exact ⟨this.2 d hd, fun _ _ _ => rfl⟩

/-- No assertion of the code cache fails, if a blob is never asked for that is larger than a
page. -/
theorem code_no_assert {s : St} {op : Op} (h : Reach s) (ha : Allowed s op) :
    exec s op ≠ some .assert := exec_assert h.inv ha

theorem find?_first {α : Type} (p : α → Bool) {l : List α} {x : α} (hx : x ∈ l) (hp : p x = true)
    (hu : ∀ y ∈ l, p y = true → y = x) : l.find? p = some x := by
  cases hf : l.find? p with
  | none =>
    have := List.find?_eq_none.mp hf x hx
    exact absurd hp this
  | some y =>
    rw [hu y (List.mem_of_find?_eq_some hf) (List.find?_some hf)]

/-- The unwinder gives the name of the function for an address in its code.  What is missing: an
address that also lies in the span left by a blob which was too small. -/
theorem unwind_partial {s : St} (h : Reach s) {d : Done} (hd : d ∈ s.done) {pc : Nat}
    (h1 : d.base ≤ pc) (h2 : pc < d.base + d.size)
    (hst : ∀ sp ∈ s.stale, ¬ (sp.base ≤ pc ∧ pc < sp.base + sp.size)) :
    unwind s pc = some d.name := by
  have hi := h.inv
  obtain ⟨k, hk, _⟩ := hi.spanOf d hd
  have := find?_first (fun sp : Span => decide (sp.base ≤ pc) && decide (pc < sp.base + sp.size))
    (List.mem_of_getElem? hk) (by simp only [Bool.and_eq_true, decide_eq_true_eq]; exact ⟨h1, h2⟩) ?_
  · unfold unwind
    rw [this]
    rfl
  · intro y hy hp
    simp only [Bool.and_eq_true, decide_eq_true_eq] at hp
    obtain ⟨j, hj⟩ := List.getElem?_of_mem hy
    rcases hi.spans j y hj with ⟨t, b, hb, _, he⟩ | ⟨e, he, hye⟩ | hs
    · subst he
      have := hi.apart_done hb hd pc h1 h2
      simp only at hp
      omega
    · obtain ⟨i1, hi1⟩ := List.getElem?_of_mem hd
      obtain ⟨i2, hi2⟩ := List.getElem?_of_mem he
      by_cases hne : i2 = i1
      · subst hne
        rw [hi1] at hi2
        cases hi2
        exact hye
      · have := (code_apart h hi1).2.2.1 i2 e hne hi2
        subst hye
        unfold Disj at this
        simp only at this hp
        omega
    · exact absurd hp (hst y hs)

/-! ## Runs -/

/-- Run operations, checking as far as can be computed how they are used. -/
def allowedB (s : St) : Op → Bool
  | .new _ _ hint page =>
    hint ≤ pageSize && page % pageAlign == 0 &&
      s.pages.all fun p => decide (p + pageSize ≤ page) || decide (page + pageSize ≤ p)
  | .mark t l => match s.blob t with
    | some b => (lookup l b.labels).isNone
    | none => true
  | _ => true

theorem allowedB_spec {s : St} {op : Op} (h : allowedB s op = true) : Allowed s op := by
  cases op with
  | new t name hint page =>
    simp only [allowedB, Bool.and_eq_true, decide_eq_true_eq, beq_iff_eq, List.all_eq_true,
      Bool.or_eq_true] at h
    refine ⟨h.1.1, h.1.2, ?_⟩
    intro p hp
    exact h.2 p hp
  | mark t l =>
    intro b hb
    simp only [allowedB, hb] at h
    exact Option.isNone_iff_eq_none.mp h
  | emit => trivial
  | branch => trivial
  | finalise => trivial

def run (s : St) : List Op → Option St
  | [] => some s
  | op :: ops =>
    if allowedB s op then
      match exec s op with
      | some (.ok s') => run s' ops
      | _ => none
    else none

theorem run_reach {s : St} (h : Reach s) : ∀ {ops : List Op} {s' : St}, run s ops = some s' →
    Reach s' := by
  intro ops
  induction ops generalizing s with
  | nil => intro s' hr; cases hr; exact h
  | cons op ops ih =>
    intro s' hr
    simp only [run] at hr
    by_cases ha : allowedB s op = true
    · rw [if_pos ha] at hr
      split at hr
      · rename_i s1 he
        exact ih (h.step (allowedB_spec ha) he) hr
      · cases hr
    · rw [if_neg ha] at hr; cases hr

def zero : St := cacheNew 4096 (fun _ => 0)

/-- A function with a jump forward over two bytes and a jump back. -/
def loopOps : List Op :=
  [.new 0 7 0 (1 <<< 24), .emit 0 [0x90], .mark 0 1, .branch 0 [0x0f, 0x84] 2 .w32,
   .emit 0 [0x31, 0xc0], .branch 0 [0xeb] 1 .w8, .mark 0 2, .emit 0 [0xc3], .finalise 0]

example : (run zero loopOps).map (fun s => (s.done.map (fun d => (d.name, d.base, d.size)),
      (List.range 12).map (fun i => s.mem (4096 + i)))) =
    some ([(7, 4096, 12)], [0x90, 0x0f, 0x84, 4, 0, 0, 0, 0x31, 0xc0, 0xeb, 0xf6, 0xc3]) := by
  decide +kernel

example : ∃ s d, Reach s ∧ d ∈ s.done ∧ d.base ≤ 4100 ∧ 4100 < d.base + d.size ∧
    (∀ sp ∈ s.stale, ¬ (sp.base ≤ 4100 ∧ 4100 < sp.base + sp.size)) ∧ unwind s 4100 = some 7 := by
  have h : ∃ s, run zero loopOps = some s ∧ (s.done.map fun d => (d.name, d.base, d.size)) = [(7, 4096, 12)]
      ∧ s.stale = [] := by
    cases hr : run zero loopOps with
    | none =>
      have : (run zero loopOps).isSome = true := by decide +kernel
      rw [hr] at this; cases this
    | some s =>
      refine ⟨s, rfl, ?_⟩
      have h1 : (run zero loopOps).map (fun s => ((s.done.map fun d => (d.name, d.base, d.size)), s.stale))
          = some ([(7, 4096, 12)], []) := by decide +kernel
      rw [hr] at h1
      simp only [Option.map_some, Option.some.injEq, Prod.mk.injEq] at h1
      exact h1
  obtain ⟨s, hr, hd, hst⟩ := h
  have hreach : Reach s := run_reach (Reach.start 4096 _ rfl) hr
  have hm : (7, 4096, 12) ∈ (s.done.map fun d => (d.name, d.base, d.size)) := by rw [hd]; simp
  obtain ⟨d, hdm, he⟩ := List.mem_map.mp hm
  simp only [Prod.mk.injEq] at he
  have hst' : ∀ sp ∈ s.stale, ¬ (sp.base ≤ 4100 ∧ 4100 < sp.base + sp.size) := by
    intro sp hsp; rw [hst] at hsp; cases hsp
  refine ⟨s, d, hreach, hdm, by omega, by omega, hst', ?_⟩
  rw [unwind_partial hreach hdm (by omega) (by omega) hst', he.1]

/-- A blob for a function is too small, its memory is given back, and the next function gets it. -/
def staleOps : List Op :=
  [.new 0 1 0 (1 <<< 24), .emit 0 [0x90, 0x90, 0x90], .emit 0 (List.replicate 65536 0x90),
   .finalise 0, .new 0 2 0 (1 <<< 24), .emit 0 [0xc3], .finalise 0]

/-- After a blob was too small the unwinder gives its name for an address in the code of another
function: the span stays in the list. -/
theorem unwind_counterexample : ∃ s d, Reach s ∧ d ∈ s.done ∧ d.name = 2 ∧ d.base ≤ 4096 ∧
    4096 < d.base + d.size ∧ unwind s 4096 = some 1 := by
  have h1 : (run zero staleOps).map (fun s => (s.done.map (fun d => (d.name, d.base, d.size)),
      unwind s 4096)) = some ([(2, 4096, 1)], some 1) := by decide +kernel
  cases hr : run zero staleOps with
  | none => rw [hr] at h1; cases h1
  | some s =>
    rw [hr] at h1
    simp only [Option.map_some, Option.some.injEq, Prod.mk.injEq] at h1
    have hm : (2, 4096, 1) ∈ (s.done.map fun d => (d.name, d.base, d.size)) := by rw [h1.1]; simp
    obtain ⟨d, hdm, he⟩ := List.mem_map.mp hm
    simp only [Prod.mk.injEq] at he
    exact ⟨s, d, run_reach (Reach.start 4096 _ rfl) hr, hdm, he.1, by omega, by omega, h1.2⟩

/-- Asking for more than a page fails an assertion. -/
theorem huge_counterexample : ∃ s op, Reach s ∧ (∀ t name hint page, op = .new t name hint page →
      page % pageAlign = 0 ∧ ∀ p ∈ s.pages, Apart p page) ∧ exec s op = some .assert := by
  refine ⟨zero, .new 0 1 (pageSize + 1) (1 <<< 24), Reach.start 4096 _ rfl, ?_, ?_⟩
  · intro t name hint page h
    cases h
    refine ⟨by decide, ?_⟩
    intro p hp
    simp only [zero, cacheNew, List.mem_singleton] at hp
    subst hp
    left; decide
  · have h : (match exec zero (.new 0 1 (pageSize + 1) (1 <<< 24)) with
        | some .assert => true | _ => false) = true := by decide +kernel
    split at h
    · assumption
    · cases h

/-- A label too far away for a jump of two bytes ends the program. -/
theorem near_counterexample : ∃ s op, Reach s ∧ Allowed s op ∧ exec s op = some .fatal := by
  have h1 : (run zero [.new 0 1 0 (1 <<< 24), .branch 0 [0xeb] 1 .w8,
      .emit 0 (List.replicate 128 0x90)]).map (fun s => (allowedB s (.mark 0 1),
      match exec s (.mark 0 1) with | some .fatal => true | _ => false)) = some (true, true) := by
    decide +kernel
  cases hr : run zero [.new 0 1 0 (1 <<< 24), .branch 0 [0xeb] 1 .w8,
      .emit 0 (List.replicate 128 0x90)] with
  | none => rw [hr] at h1; cases h1
  | some s =>
    rw [hr] at h1
    simp only [Option.map_some, Option.some.injEq, Prod.mk.injEq] at h1
    refine ⟨s, .mark 0 1, run_reach (Reach.start 4096 _ rfl) hr, allowedB_spec h1.1, ?_⟩
    have h := h1.2
    split at h
    · assumption
    · cases h

end Verif.Jit.Code
