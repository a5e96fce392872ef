import Verif.Jit.DceProps

/-!
# Deletion of no-ops preserves behaviour

Property C52, second part, and the passes together.
-/

namespace Verif.Code

variable {W : Type}

/-! ## what the property assumes -/

/-- Labels are the first operand of jumps and the second of cases, and nowhere else, and name an
instruction. -/
def LabelsOk (f : Func) : Prop :=
  ∀ ir ∈ f.irs,
    (∀ l, ir.arg1 = .label l → ir.op = .jump ∧ l < f.irs.length) ∧
    (∀ l, ir.arg2 = .label l → ir.op = .case ∧ l < f.irs.length) ∧
    (ir.op = .jump → ∃ l, ir.arg1 = .label l) ∧ (ir.op = .case → ∃ l, ir.arg2 = .label l)

/-! ## the buffer after the loops -/

/-- An instruction without its mark. -/
def Ir.strip (ir : Ir) : Ir := { ir with target := false }

def mapLabel (map : Nat → Nat) : Val → Val
  | .label l => .label (map l)
  | v => v

def Ir.relabel (map : Nat → Nat) (ir : Ir) : Ir :=
  { ir with arg1 := mapLabel map ir.arg1, arg2 := mapLabel map ir.arg2 }

theorem mark_strip (buf : List Ir) (l j : Nat) :
    (markTarget buf l)[j]?.map Ir.strip = buf[j]?.map Ir.strip := by
  unfold markTarget
  rw [List.getElem?_modify]
  cases buf[j]? with
  | none => rfl
  | some ir => simp only [Option.map_some]; split <;> rfl

/-- First half of a round. -/
theorem relabel_first (map : Nat → Nat) (buf : List Ir) (i j : Nat) :
    (relabelArg1 map buf i)[j]?.map Ir.strip =
    if i = j then buf[j]?.map (fun ir => { ir with arg1 := mapLabel map ir.arg1 : Ir }.strip)
    else buf[j]?.map Ir.strip := by
  unfold relabelArg1
  cases hi : buf[i]? with
  | none =>
    dsimp only
    split
    · rename_i c; subst c; rw [hi]; rfl
    · rfl
  | some ir =>
    dsimp only
    split
    · rename_i l hl
      rw [mark_strip, List.getElem?_modify]
      split
      · rename_i c; subst c; rw [hi]; simp [hl, mapLabel]
      · simp
    · rename_i hl
      split
      · rename_i c; subst c; rw [hi]
        simp only [Option.map_some]
        congr 2
        cases ha : ir.arg1 <;> simp only [mapLabel] <;> first | (rw [← ha]) | (exact absurd ha (hl _))
      · rfl

theorem relabel_second (map : Nat → Nat) (buf : List Ir) (i j : Nat) :
    (relabelArg2 map buf i)[j]?.map Ir.strip =
    if i = j then buf[j]?.map (fun ir => { ir with arg2 := mapLabel map ir.arg2 : Ir }.strip)
    else buf[j]?.map Ir.strip := by
  unfold relabelArg2
  cases hi : buf[i]? with
  | none =>
    dsimp only
    split
    · rename_i c; subst c; rw [hi]; rfl
    · rfl
  | some ir =>
    dsimp only
    split
    · rename_i l hl
      rw [mark_strip, List.getElem?_modify]
      split
      · rename_i c; subst c; rw [hi]; simp [hl, mapLabel]
      · simp
    · rename_i hl
      split
      · rename_i c; subst c; rw [hi]
        simp only [Option.map_some]
        congr 2
        cases ha : ir.arg2 <;> simp only [mapLabel] <;> first | (rw [← ha]) | (exact absurd ha (hl _))
      · rfl

theorem map_strip_eq {x y : Option Ir} (g : Ir → Ir) (hg : ∀ a b : Ir, a.strip = b.strip → (g a).strip = (g b).strip)
    (h : x.map Ir.strip = y.map Ir.strip) : x.map (fun ir => (g ir).strip) = y.map fun ir => (g ir).strip := by
  cases x <;> cases y <;> simp at h ⊢
  exact hg _ _ h

theorem relabelAt_strip (map : Nat → Nat) (buf : List Ir) (i j : Nat) :
    (relabelAt map buf i)[j]?.map Ir.strip =
      if i = j then buf[j]?.map (fun ir => (ir.relabel map).strip) else buf[j]?.map Ir.strip := by
  unfold relabelAt
  rw [relabel_second]
  have h1 := relabel_first map buf i j
  by_cases c : i = j
  · rw [if_pos c] at h1 ⊢
    rw [if_pos c]
    generalize (relabelArg1 map buf i) = b1 at *
    have h2 : b1[j]?.map Ir.strip = (buf[j]?.map fun ir => { ir with arg1 := mapLabel map ir.arg1 : Ir }).map
        Ir.strip := by rw [h1]; cases buf[j]? <;> rfl
    have := map_strip_eq (fun ir => { ir with arg2 := mapLabel map ir.arg2 : Ir }) (by
      intro a b h
      simp only [Ir.strip, Ir.mk.injEq] at h ⊢
      grind) h2
    rw [this]
    cases buf[j]? <;> rfl
  · rw [if_neg c] at h1 ⊢
    rw [if_neg c]
    exact h1

theorem strip_relabel (map : Nat → Nat) (a b : Ir) (h : a.strip = b.strip) :
    (a.relabel map).strip = (b.relabel map).strip := by
  simp only [Ir.strip, Ir.relabel, Ir.mk.injEq] at h ⊢
  grind

theorem foldl_relabel (map : Nat → Nat) (buf : List Ir) (n j : Nat) :
    ((List.range n).foldl (relabelAt map) buf)[j]?.map Ir.strip =
      if j < n then buf[j]?.map (fun ir => (ir.relabel map).strip) else buf[j]?.map Ir.strip := by
  induction n with
  | zero => simp
  | succ n ih =>
    rw [List.range_succ, List.foldl_append, List.foldl_cons, List.foldl_nil, relabelAt_strip]
    generalize (List.range n).foldl (relabelAt map) buf = b at *
    by_cases c : n = j
    · rw [if_pos c, if_pos (by omega)]
      rw [if_neg (by omega)] at ih
      exact map_strip_eq (Ir.relabel map) (strip_relabel map) ih
    · rw [if_neg c, ih]
      by_cases c' : j < n
      · rw [if_pos c', if_pos (by omega)]
      · rw [if_neg c', if_neg (by omega)]

/-- The other instructions, at their new places. -/
theorem filter_get (l : List Ir) (p : Ir → Bool) (i : Nat) (x : Ir) (h : l[i]? = some x) (hx : p x = true) :
    (l.filter p)[(l.take i).countP p]? = some x := by
  induction l generalizing i with
  | nil => simp at h
  | cons y l ih =>
    cases i with
    | zero =>
      simp at h; subst h
      simp [hx]
    | succ i =>
      rw [List.getElem?_cons_succ] at h
      have := ih i h
      rw [List.take_succ_cons, List.countP_cons, List.filter_cons]
      split
      · rw [List.getElem?_cons_succ]; exact this
      · simpa using this

theorem filter_end (l : List Ir) (p : Ir → Bool) (i : Nat) (h : l.length ≤ i) :
    (l.take i).countP p = (l.filter p).length := by
  rw [List.take_of_length_le h, List.countP_eq_length_filter]

theorem nopMap_succ {irs : List Ir} {i : Nat} {ir : Ir} (h : irs[i]? = some ir) :
    nopMap irs (i + 1) = nopMap irs i + if ir.op = .nop then 0 else 1 := by
  unfold nopMap
  have hi := (List.getElem?_eq_some_iff.1 h)
  rw [List.take_succ, h]
  simp only [Option.toList_some, List.countP_append, List.countP_cons, List.countP_nil]
  by_cases c : ir.op = .nop <;> simp [c]

theorem nopMap_le (irs : List Ir) (i : Nat) : nopMap irs i ≤ i := by
  unfold nopMap
  have h1 : (irs.take i).countP (fun ir => ir.op != .nop) ≤ (irs.take i).length := List.countP_le_length
  rw [List.length_take] at h1
  omega

theorem filter_lt (l : List Ir) (p : Ir → Bool) (i : Nat) (x : Ir) (h : l[i]? = some x) (hx : p x = true) :
    (l.take i).countP p < (l.filter p).length :=
  (List.getElem?_eq_some_iff.1 (filter_get l p i x h hx)).1

theorem length_relabelAt (map : Nat → Nat) (buf : List Ir) (i : Nat) :
    (relabelAt map buf i).length = buf.length := by
  have h1 : (relabelArg1 map buf i).length = buf.length := by
    unfold relabelArg1 markTarget
    split
    · split <;> simp
    · rfl
  have h2 : ∀ b, (relabelArg2 map b i).length = b.length := by
    intro b
    unfold relabelArg2 markTarget
    split
    · split <;> simp
    · rfl
  unfold relabelAt
  rw [h2, h1]

theorem length_foldl_relabel (map : Nat → Nat) (buf : List Ir) (l : List Nat) :
    (l.foldl (relabelAt map) buf).length = buf.length := by
  induction l generalizing buf with
  | nil => rfl
  | cons i l ih => rw [List.foldl_cons, ih, length_relabelAt]

/-- The instruction is found at its new place, with new labels. -/
theorem deleteNops_get {f : Func} {i : Nat} {ir : Ir} (h : f.irs[i]? = some ir) (hn : ir.op ≠ .nop) :
    ∃ ir', (deleteNops f).irs[nopMap f.irs i]? = some ir' ∧ ir'.strip = (ir.relabel (nopMap f.irs)).strip := by
  have hp : (ir.op != .nop) = true := by simpa using hn
  have hlt : nopMap f.irs i < _ := filter_lt f.irs (fun ir => ir.op != .nop) i ir h hp
  have hi := (List.getElem?_eq_some_iff.1 h).1
  have hle := nopMap_le f.irs i
  have hget : (compact f.irs)[nopMap f.irs i]? = some ir := by
    unfold compact
    dsimp only
    rw [List.getElem?_append_left hlt]
    exact filter_get f.irs _ i ir h hp
  have := foldl_relabel (nopMap f.irs) (compact f.irs) f.irs.length (nopMap f.irs i)
  rw [if_pos (by omega), hget] at this
  simp only [Option.map_some] at this
  rw [Option.map_eq_some_iff] at this
  obtain ⟨ir', h1, h2⟩ := this
  refine ⟨ir', ?_, h2⟩
  unfold deleteNops
  dsimp only
  rw [List.getElem?_take, if_pos hlt]
  exact h1

theorem compact_length (irs : List Ir) : (compact irs).length = irs.length := by
  unfold compact
  dsimp only
  rw [List.length_append, List.length_drop]
  have := List.length_filter_le (fun ir : Ir => ir.op != .nop) irs
  omega

theorem deleteNops_length (f : Func) :
    (deleteNops f).irs.length = (f.irs.filter fun ir => ir.op != .nop).length := by
  unfold deleteNops
  dsimp only
  rw [List.length_take, length_foldl_relabel, compact_length]
  have := List.length_filter_le (fun ir : Ir => ir.op != .nop) f.irs
  omega

/-- Each instruction of the new function is one of the old. -/
theorem deleteNops_from {f : Func} {j : Nat} {ir' : Ir} (h : (deleteNops f).irs[j]? = some ir') :
    ∃ i ir, f.irs[i]? = some ir ∧ ir.op ≠ .nop ∧ j = nopMap f.irs i ∧
      ir'.strip = (ir.relabel (nopMap f.irs)).strip := by
  have hj := (List.getElem?_eq_some_iff.1 h).1
  rw [deleteNops_length] at hj
  have : ∀ (l : List Ir) (j : Nat), j < (l.filter fun ir => ir.op != .nop).length →
      ∃ i ir, l[i]? = some ir ∧ ir.op ≠ .nop ∧ j = nopMap l i := by
    intro l
    induction l with
    | nil => intro j hj; simp at hj
    | cons x l ih =>
      intro j hj
      rw [List.filter_cons] at hj
      by_cases c : x.op = .nop
      · simp only [c, bne_self_eq_false, Bool.false_eq_true, if_false] at hj
        obtain ⟨i, ir, h1, h2, h3⟩ := ih j hj
        refine ⟨i + 1, ir, by simpa using h1, h2, ?_⟩
        unfold nopMap at h3 ⊢
        rw [List.take_succ_cons, List.countP_cons]
        simp [c, h3]
      · have c' : (x.op != .nop) = true := by simpa using c
        simp only [c', if_true] at hj
        cases j with
        | zero => exact ⟨0, x, by simp, c, by simp [nopMap]⟩
        | succ j =>
          obtain ⟨i, ir, h1, h2, h3⟩ := ih j (by simpa using hj)
          refine ⟨i + 1, ir, by simpa using h1, h2, ?_⟩
          unfold nopMap at h3 ⊢
          rw [List.take_succ_cons, List.countP_cons]
          simp [c, h3]
  obtain ⟨i, ir, h1, h2, h3⟩ := this f.irs j hj
  obtain ⟨ir'', h4, h5⟩ := deleteNops_get h1 h2
  rw [← h3, h] at h4
  injection h4 with h4
  subst h4
  exact ⟨i, ir, h1, h2, h3, h5⟩

/-! ## simulation -/

/-- The same state at the new place. -/
def State.moved (f : Func) (s : State W) : State W := { s with pc := nopMap f.irs s.pc }

def Res.moved (f : Func) : Res W → Res W
  | .next s => .next (s.moved f)
  | .halt b s => .halt b (s.moved f)

theorem execIr_strip (env : Env W) (a b : Ir) (s : State W) (h : a.strip = b.strip) :
    execIr env a s = execIr env b s := by
  simp only [Ir.strip, Ir.mk.injEq] at h
  obtain ⟨h1, h2, -, h4, h5, h6, h7⟩ := h
  unfold execIr oldValue
  rw [h1, h2, h4, h5, h6, h7]

theorem exec_moved {env : Env W} {f : Func} (hl : LabelsOk f) (hsz : f.irs.length ≤ 2 ^ 32) {s : State W}
    {ir : Ir} (h : f.irs[s.pc]? = some ir) (hn : ir.op ≠ .nop) :
    execIr env (ir.relabel (nopMap f.irs)) (s.moved f) = (execIr env ir s).map (Res.moved f) := by
  obtain ⟨l1, l2, l3, l4⟩ := hl ir (List.mem_of_getElem? h)
  have hsucc : nopMap f.irs (s.pc + 1) = nopMap f.irs s.pc + 1 := by rw [nopMap_succ h, if_neg hn]
  unfold execIr
  have ho : oldValue (s.moved f).regs (ir.relabel (nopMap f.irs)) = oldValue s.regs ir := rfl
  rw [ho]
  cases hold : oldValue s.regs ir with
  | none => rfl
  | some old =>
    simp only [Option.bind_some]
    by_cases hj : ir.op = .jump
    · obtain ⟨l, hla⟩ := l3 hj
      have hlt := (l1 l hla).2
      have e : eval env (s.moved f).regs (ir.relabel (nopMap f.irs)).arg1 = BitVec.ofNat 64 (nopMap f.irs l) := by
        simp [Ir.relabel, hla, mapLabel, eval]
      have e2 : eval env s.regs ir.arg1 = BitVec.ofNat 64 l := by simp [hla, eval]
      rw [e, e2]
      have n1 : (BitVec.ofNat 64 l).toNat = l := by rw [BitVec.toNat_ofNat]; omega
      have n2 : (BitVec.ofNat 64 (nopMap f.irs l)).toNat = nopMap f.irs l := by
        have := nopMap_le f.irs l
        rw [BitVec.toNat_ofNat]; omega
      have o1 : (ir.relabel (nopMap f.irs)).op = .jump := hj
      rw [o1, hj]
      have c1 : (ir.relabel (nopMap f.irs)).cc = ir.cc := rfl
      have f1 : (s.moved f).flags = s.flags := rfl
      simp only [effect, jumpTo, c1, n1, n2, f1]
      cases ir.cc <;> try rfl
      all_goals simp only [Option.bind_some, apply, writeReg, Option.map_some]
      all_goals cases hfl : s.flags <;> simp [Res.moved, State.moved, hsucc, hfl]
    · by_cases hc : ir.op = .case
      · obtain ⟨l, hla⟩ := l4 hc
        have hlt := (l2 l hla).2
        have e : eval env (s.moved f).regs (ir.relabel (nopMap f.irs)).arg2 =
            BitVec.ofNat 64 (nopMap f.irs l) := by
          simp [Ir.relabel, hla, mapLabel, eval]
        have e2 : eval env s.regs ir.arg2 = BitVec.ofNat 64 l := by simp [hla, eval]
        have e3 : eval env (s.moved f).regs (ir.relabel (nopMap f.irs)).arg1 = eval env s.regs ir.arg1 := by
          have : mapLabel (nopMap f.irs) ir.arg1 = ir.arg1 := by
            cases ha : ir.arg1 <;> try rfl
            have := (l1 _ ha).1
            rw [hc] at this; cases this
          show eval env s.regs (mapLabel (nopMap f.irs) ir.arg1) = _
          rw [this]
        rw [e, e2, e3]
        have n1 : (BitVec.ofNat 64 l).toNat = l := by rw [BitVec.toNat_ofNat]; omega
        have n2 : (BitVec.ofNat 64 (nopMap f.irs l)).toNat = nopMap f.irs l := by
          have := nopMap_le f.irs l
          rw [BitVec.toNat_ofNat]; omega
        have o1 : (ir.relabel (nopMap f.irs)).op = .case := hc
        rw [o1, hc]
        simp only [effect, n1, n2, Option.bind_some, apply, writeReg, Option.map_some]
        by_cases c : old = eval env s.regs ir.arg1
        · rw [if_pos c, if_pos c]; rfl
        · rw [if_neg c, if_neg c]; simp [Res.moved, State.moved, hsucc]
      · have e1 : ir.relabel (nopMap f.irs) = ir := by
          have a1 : mapLabel (nopMap f.irs) ir.arg1 = ir.arg1 := by
            cases ha : ir.arg1 <;> try rfl
            exact absurd (l1 _ ha).1 hj
          have a2 : mapLabel (nopMap f.irs) ir.arg2 = ir.arg2 := by
            cases ha : ir.arg2 <;> try rfl
            exact absurd (l2 _ ha).1 hc
          unfold Ir.relabel
          rw [a1, a2]
        rw [e1]
        have hs : (s.moved f).regs = s.regs ∧ (s.moved f).flags = s.flags ∧ (s.moved f).world = s.world :=
          ⟨rfl, rfl, rfl⟩
        rw [hs.1, hs.2.1, hs.2.2]
        cases he : effect env ir.op ir.size ir.cc (eval env s.regs ir.arg1) (eval env s.regs ir.arg2) old
          s.flags s.world with
        | none => rfl
        | some e =>
          simp only [Option.bind_some]
          unfold apply
          rw [hs.1]
          cases writeReg s.regs ir.result e.result with
          | none => rfl
          | some regs =>
            simp only [Option.map_some]
            cases hctl : e.ctl with
            | next => simp [Res.moved, State.moved, hsucc]
            | stop b => rfl
            | goto l =>
              rcases effect_goto he hctl with ⟨c, _⟩ | ⟨c, _⟩
              · exact absurd c hj
              · exact absurd c hc

/-- A step that is not a no-op. -/
theorem step_moved {env : Env W} {f : Func} (hl : LabelsOk f) (hsz : f.irs.length ≤ 2 ^ 32) {s : State W}
    (hn : ∀ ir, f.irs[s.pc]? = some ir → ir.op ≠ .nop) :
    step env (deleteNops f) (s.moved f) = (step env f s).map (Res.moved f) := by
  unfold step
  cases h : f.irs[s.pc]? with
  | none =>
    have hge : f.irs.length ≤ s.pc := by
      apply Classical.byContradiction
      intro c
      rw [List.getElem?_eq_getElem (by omega)] at h
      cases h
    have : (deleteNops f).irs[(s.moved f).pc]? = none := by
      apply List.getElem?_eq_none
      rw [deleteNops_length]
      show _ ≤ nopMap f.irs s.pc
      unfold nopMap
      rw [filter_end _ _ _ hge]
      exact Nat.le_refl _
    rw [this]
    rfl
  | some ir =>
    obtain ⟨ir', h1, h2⟩ := deleteNops_get h (hn ir h)
    have h1' : (deleteNops f).irs[(s.moved f).pc]? = some ir' := h1
    rw [h1']
    show execIr env ir' (s.moved f) = _
    rw [execIr_strip env ir' _ (s.moved f) h2]
    exact exec_moved hl hsz h (hn ir h)

theorem step_nop {env : Env W} {f : Func} {s : State W} {ir : Ir} (h : f.irs[s.pc]? = some ir)
    (hn : ir.op = .nop) :
    step env f s = some (.next { s with pc := s.pc + 1 }) ∧ ({ s with pc := s.pc + 1 } : State W).moved f = s.moved f := by
  constructor
  · unfold step
    rw [h]
    show execIr env ir s = _
    unfold execIr oldValue
    rw [hn]
    rfl
  · unfold State.moved
    dsimp only
    rw [nopMap_succ h, if_pos hn]
    rfl

theorem run_some_next {env : Env W} {f : Func} {s s1 : State W} (h : step env f s = some (.next s1)) (n : Nat) :
    run env f (n + 1) s = run env f n s1 := by
  rw [run, h]

theorem run_not_next {env : Env W} {f : Func} {s : State W} (h : ∀ s1, step env f s ≠ some (.next s1)) (n : Nat) :
    run env f (n + 1) s = step env f s := by
  rw [run]
  split
  · exact absurd ‹_› (h _)
  · rfl

/-- **C52 (no-ops), one direction.**  Whatever the function does in `n` steps (a fault included), the
function without no-ops does in at most as many. -/
theorem deleteNops_forward (env : Env W) (f : Func) (hl : LabelsOk f) (hsz : f.irs.length ≤ 2 ^ 32) (n : Nat)
    (s : State W) :
    ∃ m, m ≤ n ∧ run env (deleteNops f) m (s.moved f) = (run env f n s).map (Res.moved f) := by
  induction n generalizing s with
  | zero => exact ⟨0, Nat.le_refl _, rfl⟩
  | succ n ih =>
    by_cases hnop : ∃ ir, f.irs[s.pc]? = some ir ∧ ir.op = .nop
    · obtain ⟨ir, h, hn⟩ := hnop
      obtain ⟨h1, h2⟩ := step_nop (env := env) h hn
      obtain ⟨m, hm, hr⟩ := ih { s with pc := s.pc + 1 }
      rw [h2] at hr
      refine ⟨m, by omega, ?_⟩
      rw [run_some_next h1]
      exact hr
    · have hst := step_moved (env := env) hl hsz (s := s) (fun ir h hn => hnop ⟨ir, h, hn⟩)
      by_cases hx : ∃ s1, step env f s = some (.next s1)
      · obtain ⟨s1, hs1⟩ := hx
        obtain ⟨m, hm, hr⟩ := ih s1
        refine ⟨m + 1, by omega, ?_⟩
        rw [hs1] at hst
        rw [run_some_next hs1, run_some_next (s1 := s1.moved f) hst]
        exact hr
      · refine ⟨1, by omega, ?_⟩
        have hx' : ∀ s1, step env f s ≠ some (.next s1) := fun s1 h => hx ⟨s1, h⟩
        rw [run_not_next hx', run_not_next, hst]
        intro s1 h
        rw [hst, Option.map_eq_some_iff] at h
        obtain ⟨r, hr1, hr2⟩ := h
        cases r with
        | next s2 => exact hx' s2 hr1
        | halt b s2 => cases hr2

/-- Run over the no-ops. -/
theorem skip_nops (env : Env W) (f : Func) (k : Nat) (s : State W) (hk : f.irs.length - s.pc ≤ k) :
    ∃ m s1, run env f m s = some (.next s1) ∧ (∀ n, run env f (m + n) s = run env f n s1) ∧
      s1.moved f = s.moved f ∧ ∀ ir, f.irs[s1.pc]? = some ir → ir.op ≠ .nop := by
  induction k generalizing s with
  | zero =>
    refine ⟨0, s, rfl, fun n => by rw [Nat.zero_add], rfl, ?_⟩
    intro ir h
    have := (List.getElem?_eq_some_iff.1 h).1
    omega
  | succ k ih =>
    by_cases hnop : ∃ ir, f.irs[s.pc]? = some ir ∧ ir.op = .nop
    · obtain ⟨ir, h, hn⟩ := hnop
      obtain ⟨h1, h2⟩ := step_nop (env := env) h hn
      obtain ⟨m, s1, a, b, c, d⟩ := ih { s with pc := s.pc + 1 } (by dsimp only; omega)
      refine ⟨m + 1, s1, by rw [run_some_next h1]; exact a, ?_, by rw [c, h2], d⟩
      intro n
      have : m + 1 + n = m + n + 1 := by omega
      rw [this, run_some_next h1]
      exact b n
    · exact ⟨0, s, rfl, fun n => by rw [Nat.zero_add], rfl, fun ir h hn => hnop ⟨ir, h, hn⟩⟩

/-- **C52 (no-ops), other direction.**  Whatever the function without no-ops does in `m` steps, the function
does in some number of steps, at least as many. -/
theorem deleteNops_backward (env : Env W) (f : Func) (hl : LabelsOk f) (hsz : f.irs.length ≤ 2 ^ 32) (m : Nat)
    (s : State W) :
    ∃ n, m ≤ n ∧ run env (deleteNops f) m (s.moved f) = (run env f n s).map (Res.moved f) := by
  induction m generalizing s with
  | zero => exact ⟨0, Nat.le_refl _, rfl⟩
  | succ m ih =>
    obtain ⟨k, s1, h1, h2, h3, h4⟩ := skip_nops env f _ s (Nat.le_refl _)
    have hst := step_moved (env := env) hl hsz h4
    rw [h3] at hst
    by_cases hx : ∃ s2, step env f s1 = some (.next s2)
    · obtain ⟨s2, hs2⟩ := hx
      obtain ⟨n, hn, hr⟩ := ih s2
      refine ⟨k + (n + 1), by omega, ?_⟩
      rw [h2, run_some_next hs2]
      rw [hs2] at hst
      rw [run_some_next (s1 := s2.moved f) hst]
      exact hr
    · have hx' : ∀ s2, step env f s1 ≠ some (.next s2) := fun s2 h => hx ⟨s2, h⟩
      refine ⟨k + (m + 1), by omega, ?_⟩
      rw [h2, run_not_next hx', run_not_next, hst]
      intro s2 h
      rw [hst, Option.map_eq_some_iff] at h
      obtain ⟨r, hr1, hr2⟩ := h
      cases r with
      | next s3 => exact hx' s3 hr1
      | halt b s3 => cases hr2

/-! ## targets stay marked -/

/-- The instruction, if there is one, is marked. -/
def Marked (buf : List Ir) (l : Nat) : Prop := ∀ t, buf[l]? = some t → t.target = true

theorem marked_mark (buf : List Ir) (l : Nat) : Marked (markTarget buf l) l := by
  intro t h
  unfold markTarget at h
  rw [List.getElem?_modify] at h
  cases hb : buf[l]? with
  | none => rw [hb] at h; cases h
  | some x => rw [hb] at h; simp at h; rw [← h]

theorem marked_modify {buf : List Ir} {l : Nat} (h : Marked buf l) (i : Nat) (g : Ir → Ir)
    (hg : ∀ ir, ir.target = true → (g ir).target = true) : Marked (buf.modify i g) l := by
  intro t ht
  rw [List.getElem?_modify] at ht
  cases hb : buf[l]? with
  | none => rw [hb] at ht; cases ht
  | some x =>
    rw [hb] at ht
    simp only [Option.map_eq_map, Option.map_some, Option.some.injEq] at ht
    split at ht
    · rw [← ht]; exact hg x (h x hb)
    · rw [← ht]; exact h x hb

theorem marked_target {buf : List Ir} {l : Nat} (h : Marked buf l) (i : Nat) : Marked (markTarget buf i) l :=
  marked_modify h i _ (fun _ _ => rfl)

theorem marked_arg1 {map : Nat → Nat} {buf : List Ir} {l : Nat} (h : Marked buf l) (i : Nat) :
    Marked (relabelArg1 map buf i) l := by
  unfold relabelArg1
  split
  · split
    · apply marked_target
      apply marked_modify h
      intro _ h; exact h
    · exact h
  · exact h

theorem marked_arg2 {map : Nat → Nat} {buf : List Ir} {l : Nat} (h : Marked buf l) (i : Nat) :
    Marked (relabelArg2 map buf i) l := by
  unfold relabelArg2
  split
  · split
    · apply marked_target
      apply marked_modify h
      intro _ h; exact h
    · exact h
  · exact h

theorem marked_relabelAt {map : Nat → Nat} {buf : List Ir} {l : Nat} (h : Marked buf l) (i : Nat) :
    Marked (relabelAt map buf i) l := marked_arg2 (marked_arg1 h i) i

theorem marked_foldl {map : Nat → Nat} (is : List Nat) {buf : List Ir} {l : Nat} (h : Marked buf l) :
    Marked (is.foldl (relabelAt map) buf) l := by
  induction is generalizing buf with
  | nil => exact h
  | cons i is ih => exact ih (marked_relabelAt h i)

/-- A round marks the targets of its instruction. -/
theorem relabelAt_marks (map : Nat → Nat) (buf : List Ir) (i : Nat) (ir : Ir) (h : buf[i]? = some ir) (l : Nat) :
    (ir.arg1 = .label l → Marked (relabelAt map buf i) (map l)) ∧
    (ir.arg2 = .label l → Marked (relabelAt map buf i) (map l)) := by
  constructor
  · intro hl
    unfold relabelAt
    have e : relabelArg1 map buf i =
        markTarget (buf.modify i fun ir => { ir with arg1 := .label (map l) }) (map l) := by
      unfold relabelArg1
      rw [h]
      dsimp only
      rw [hl]
    rw [e]
    exact marked_arg2 (marked_mark _ _) i
  · intro hl
    unfold relabelAt relabelArg2
    have h1 := relabel_first map buf i i
    rw [if_pos rfl, h] at h1
    generalize (relabelArg1 map buf i) = b1 at *
    simp only [Option.map_some] at h1
    rw [Option.map_eq_some_iff] at h1
    obtain ⟨x, hx1, hx2⟩ := h1
    have hx : x.arg2 = .label l := by
      simp only [Ir.strip, Ir.mk.injEq] at hx2
      rw [hx2.2.2.2.2.2.2, hl]
    rw [hx1]
    dsimp only
    rw [hx]
    exact marked_mark _ _

theorem foldl_marks (map : Nat → Nat) (buf : List Ir) (n i : Nat) (hi : i < n) (ir : Ir) (h : buf[i]? = some ir)
    (l : Nat) (hl : ir.arg1 = .label l ∨ ir.arg2 = .label l) :
    Marked ((List.range n).foldl (relabelAt map) buf) (map l) := by
  induction n with
  | zero => omega
  | succ n ih =>
    rw [List.range_succ, List.foldl_append, List.foldl_cons, List.foldl_nil]
    by_cases c : i < n
    · exact marked_relabelAt (ih c) n
    · have : i = n := by omega
      subst this
      have hf := foldl_relabel map buf i i
      rw [if_neg (by omega), h] at hf
      simp only [Option.map_some] at hf
      rw [Option.map_eq_some_iff] at hf
      obtain ⟨x, hx1, hx2⟩ := hf
      simp only [Ir.strip, Ir.mk.injEq] at hx2
      obtain ⟨m1, m2⟩ := relabelAt_marks map _ i x hx1 l
      rcases hl with hl | hl
      · exact m1 (by rw [hx2.2.2.2.2.2.1, hl])
      · exact m2 (by rw [hx2.2.2.2.2.2.2, hl])

/-- The targets of all jumps and cases of the new function are marked. -/
theorem deleteNops_marked (f : Func) (hl : LabelsOk f) (hsz : f.irs.length ≤ 2 ^ 32) :
    TargetsMarked (deleteNops f) := by
  intro j ir' h
  obtain ⟨i, ir, h1, h2, h3, h4⟩ := deleteNops_from h
  simp only [Ir.strip, Ir.relabel, Ir.mk.injEq] at h4
  obtain ⟨l1, l2, l3, l4⟩ := hl ir (List.mem_of_getElem? h1)
  have hp : (ir.op != .nop) = true := by simpa using h2
  have hget : (compact f.irs)[nopMap f.irs i]? = some ir := by
    unfold compact
    dsimp only
    have hlt : nopMap f.irs i < _ := filter_lt f.irs (fun ir => ir.op != .nop) i ir h1 hp
    rw [List.getElem?_append_left hlt]
    exact filter_get f.irs _ i ir h1 hp
  have hi := (List.getElem?_eq_some_iff.1 h1).1
  have hmarks : ∀ l, ir.arg1 = .label l ∨ ir.arg2 = .label l →
      ∀ t, (deleteNops f).irs[nopMap f.irs l]? = some t → t.target = true := by
    intro l hll t ht
    have hle := nopMap_le f.irs i
    refine foldl_marks (nopMap f.irs) (compact f.irs) f.irs.length (nopMap f.irs i) (by omega) ir hget l hll t ?_
    unfold deleteNops at ht
    dsimp only at ht
    rw [List.getElem?_take] at ht
    split at ht
    · exact ht
    · cases ht
  constructor
  · intro ho
    have ho' : ir.op = .jump := by rw [← h4.1]; exact ho
    obtain ⟨l, hla⟩ := l3 ho'
    have hlt := (l1 l hla).2
    have := nopMap_le f.irs l
    refine ⟨nopMap f.irs l, ?_, by omega, hmarks l (Or.inl hla)⟩
    rw [h4.2.2.2.2.2.1, hla]
    rfl
  · intro ho
    have ho' : ir.op = .case := by rw [← h4.1]; exact ho
    obtain ⟨l, hla⟩ := l4 ho'
    have hlt := (l2 l hla).2
    have := nopMap_le f.irs l
    refine ⟨nopMap f.irs l, ?_, by omega, hmarks l (Or.inr hla)⟩
    rw [h4.2.2.2.2.2.2, hla]
    rfl

/-- No no-op is left. -/
theorem deleteNops_none (f : Func) : ∀ ir ∈ (deleteNops f).irs, ir.op ≠ .nop := by
  intro ir h
  obtain ⟨j, hj⟩ := List.mem_iff_getElem?.1 h
  obtain ⟨i, ir0, _, h2, _, h4⟩ := deleteNops_from hj
  simp only [Ir.strip, Ir.relabel, Ir.mk.injEq] at h4
  rw [h4.1]
  exact h2

/-! ## the passes together -/

theorem cprop_length (f : Func) : (cprop f).irs.length = f.irs.length := by
  have h : ∀ i : Nat, (cprop f).irs[i]? = none ↔ f.irs[i]? = none := by
    intro i; rw [cprop_get]; simp
  have h1 := (h f.irs.length).2 (List.getElem?_eq_none (Nat.le_refl _))
  have h2 := (h (cprop f).irs.length).1 (List.getElem?_eq_none (Nat.le_refl _))
  rw [List.getElem?_eq_none_iff] at h1 h2
  omega

theorem cprop_mem {f : Func} {ir' : Ir} (h : ir' ∈ (cprop f).irs) :
    ∃ i ir, f.irs[i]? = some ir ∧ ir' = propIr (mapFor f i ir) ir := by
  obtain ⟨i, hi⟩ := List.mem_iff_getElem?.1 h
  rw [cprop_get, Option.map_eq_some_iff] at hi
  obtain ⟨ir, h1, h2⟩ := hi
  exact ⟨i, ir, h1, h2.symm⟩

theorem cprop_checks {f : Func} (h : ChecksOk f) : ChecksOk (cprop f) := by
  intro ir' hir
  obtain ⟨i, ir, h1, rfl⟩ := cprop_mem hir
  exact h ir (List.mem_of_getElem? h1)

theorem cprop_labels {f : Func} (h : LabelsOk f) : LabelsOk (cprop f) := by
  intro ir' hir
  obtain ⟨i, ir, h1, rfl⟩ := cprop_mem hir
  have hmem := List.mem_of_getElem? h1
  obtain ⟨l1, l2, l3, l4⟩ := h ir hmem
  rw [cprop_length]
  have hall := mapAll_for (P := fun v => ∀ l, v ≠ .label l) f (by
    intro ir hir hm l hl
    have := ((h ir hir).1 l hl).1
    rw [hm] at this; cases this) i ir
  have hv : ∀ v l, propVal (mapFor f i ir) v = .label l → v = .label l := by
    intro v l e
    cases v <;> simp only [propVal] at e <;> try exact e
    split at e
    · cases e
    · exact absurd e ((hall _).resolve_left ‹_› l)
  refine ⟨fun l e => l1 l (hv _ l e), fun l e => l2 l (hv _ l e), ?_, ?_⟩
  · intro ho
    obtain ⟨l, hl⟩ := l3 ho
    exact ⟨l, by show propVal _ ir.arg1 = _; rw [hl]; rfl⟩
  · intro ho
    obtain ⟨l, hl⟩ := l4 ho
    exact ⟨l, by show propVal _ ir.arg2 = _; rw [hl]; rfl⟩

theorem dce_mem {f : Func} {ir' : Ir} (h : ir' ∈ (dce f).irs) :
    ∃ ir ∈ f.irs, ir' = ir.toNop ∨ ∃ res, ir' = ⟨ir.op, ir.size, ir.target, ir.cc, res,
        renVal (dceCount f).renumber ir.arg1, renVal (dceCount f).renumber ir.arg2⟩ := by
  obtain ⟨i, hi⟩ := List.mem_iff_getElem?.1 h
  have hlt := (List.getElem?_eq_some_iff.1 hi).1
  rw [dce_length] at hlt
  have hir : f.irs[i]? = some f.irs[i] := List.getElem?_eq_getElem hlt
  refine ⟨f.irs[i], List.getElem_mem hlt, ?_⟩
  rcases dce_get f i _ hir with ⟨e, _⟩ | ⟨e, _⟩
  · rw [hi] at e; injection e with e; exact Or.inl e
  · rw [hi] at e; injection e with e; exact Or.inr ⟨_, e⟩

theorem dce_labels {f : Func} (h : LabelsOk f) : LabelsOk (dce f) := by
  intro ir' hir
  rw [dce_length]
  obtain ⟨ir, hmem, rfl | ⟨res, rfl⟩⟩ := dce_mem hir
  · exact ⟨fun l e => (by cases e), fun l e => (by cases e), fun e => (by cases e), fun e => (by cases e)⟩
  · obtain ⟨l1, l2, l3, l4⟩ := h ir hmem
    have hv : ∀ ren v l, renVal ren v = .label l ↔ v = .label l := by
      intro ren v l
      cases v <;> simp [renVal]
    dsimp only
    refine ⟨fun l e => l1 l ((hv _ _ l).1 e), fun l e => l2 l ((hv _ _ l).1 e), ?_, ?_⟩
    · intro ho
      obtain ⟨l, hl⟩ := l3 ho
      exact ⟨l, (hv _ _ l).2 hl⟩
    · intro ho
      obtain ⟨l, hl⟩ := l4 ho
      exact ⟨l, (hv _ _ l).2 hl⟩

/-- Dead code elimination keeps the marks of targets, and the labels. -/
theorem dce_marked {f : Func} (h : TargetsMarked f) : TargetsMarked (dce f) := by
  have mark : ∀ (l : Nat), (∀ t, f.irs[l]? = some t → t.target = true) → ∀ t, (dce f).irs[l]? = some t → t.target = true := by
    intro l hl t ht
    have hlt := (List.getElem?_eq_some_iff.1 ht).1
    rw [dce_length] at hlt
    have hir : f.irs[l]? = some f.irs[l] := List.getElem?_eq_getElem hlt
    have := hl _ hir
    rcases dce_get f l _ hir with ⟨e, _⟩ | ⟨e, _⟩
    · rw [ht] at e; injection e with e; rw [e]; exact this
    · rw [ht] at e; injection e with e; rw [e]; exact this
  intro i ir' hi
  have hlt := (List.getElem?_eq_some_iff.1 hi).1
  rw [dce_length] at hlt
  have hir : f.irs[i]? = some f.irs[i] := List.getElem?_eq_getElem hlt
  obtain ⟨h1, h2⟩ := h i _ hir
  rcases dce_get f i _ hir with ⟨e, _⟩ | ⟨e, _⟩
  · rw [hi] at e; injection e with e; subst e
    exact ⟨fun c => (by cases c), fun c => (by cases c)⟩
  · rw [hi] at e; injection e with e; subst e
    refine ⟨fun c => ?_, fun c => ?_⟩
    · obtain ⟨l, a, b, d⟩ := h1 c
      exact ⟨l, by show renVal _ _ = _; rw [a]; rfl, b, mark l d⟩
    · obtain ⟨l, a, b, d⟩ := h2 c
      exact ⟨l, by show renVal _ _ = _; rw [a]; rfl, b, mark l d⟩

/-- **C52 (passes together).**  If a function ends, in any number of steps, then the function after copy
propagation, dead code elimination and deletion of no-ops ends too, in the same way and with the same
world. -/
theorem passes_end_partial (env : Env W) (f : Func) (ht : TargetsMarked f) (hm : NoAddressMoved f)
    (hl : LabelsOk f) (hc : ChecksOk f) (hp : DeadPure (cprop f)) (hsz : f.irs.length ≤ 2 ^ 32)
    (n : Nat) (s : State W) (h0 : s.pc = 0) (s' : State W) (hrel : DceRel (cprop f) s s') (b : Bool)
    (s1 : State W) (hr : run env f n s = some (.halt b s1)) :
    ∃ m s2, m ≤ n ∧ run env (deleteNops (dce (cprop f))) m { s' with pc := 0 } = some (.halt b s2) ∧
      s2.world = s1.world := by
  rw [← cprop_correct_partial env f ht hm n s h0] at hr
  obtain ⟨r', h1, h2⟩ := dce_correct_partial env (cprop f) hp (cprop_checks hc) n s s' hrel _ hr
  cases h2 with
  | halt hw hpc =>
    rename_i s2
    obtain ⟨m, hm, h3⟩ := deleteNops_forward env (dce (cprop f)) (dce_labels (cprop_labels hl))
      (by rw [dce_length, cprop_length]; exact hsz) n s'
    have e : s'.moved (dce (cprop f)) = { s' with pc := 0 } := by
      unfold State.moved
      rw [hrel.pc, h0]
      rfl
    rw [h1, e] at h3
    exact ⟨m, _, hm, h3, hw⟩

/-! ## tests -/

/-- A loop around a no-op; the target itself is one. -/
def nopTest : Func :=
  { irs := [mk .nop none, mk .mov (some 0) (.int 3), mk .nop none .invalid .invalid .none true,
      mk .sub (some 0) (.reg 0) (.int 1), mk .cmp none (.reg 0) (.int 0) .gt, mk .nop none,
      mk .jump none (.label 2) .invalid .t, mk .ret none], nregs := 1 }

example : deleteNops nopTest =
  { irs := [mk .mov (some 0) (.int 3), mk .sub (some 0) (.reg 0) (.int 1) .none true,
      mk .cmp none (.reg 0) (.int 0) .gt, mk .jump none (.label 1) .invalid .t, mk .ret none], nregs := 1 } := by
  decide +kernel

example : LabelsOk nopTest := by
  intro ir h
  simp [nopTest] at h
  rcases h with rfl | rfl | rfl | rfl | rfl | rfl | rfl | rfl <;> simp [mk, nopTest]

example : valueOf 0 (run noEnv nopTest 30 ⟨fun _ => 7, false, 0, ()⟩) = some 0 ∧
    valueOf 0 (run noEnv (deleteNops nopTest) 11 ⟨fun _ => 7, false, 0, ()⟩) = some 0 := by decide +kernel

/-- A function that meets all conditions: a loop with a copy, an unused sum and a comparison that is
overwritten. -/
def passTest : Func :=
  { irs := [mk .recv (some 0) (.int 0), mk .mov (some 1) (.reg 0) .invalid .none true,
      mk .add (some 2) (.reg 1) (.int 9), mk .cmp none (.reg 1) (.int 5) .eq,
      mk .sub (some 0) (.reg 1) (.int 1), mk .cmp none (.reg 0) (.int 0) .gt,
      mk .jump none (.label 1) .invalid .t, mk .send none (.int 0) (.reg 0), mk .ret none], nregs := 3 }

example : deleteNops (dce (cprop passTest)) =
  { irs := [mk .recv (some 0) (.int 0), mk .sub (some 0) (.reg 0) (.int 1) .none true,
      mk .cmp none (.reg 0) (.int 0) .gt, mk .jump none (.label 1) .invalid .t,
      mk .send none (.int 0) (.reg 0), mk .ret none], nregs := 1 } := by decide +kernel

example : TargetsMarked passTest ∧ NoAddressMoved passTest ∧ LabelsOk passTest ∧ ChecksOk passTest ∧
    DeadPure (cprop passTest) := by
  refine ⟨?_, ?_, ?_, ?_, ?_⟩
  · intro i ir h
    have hi : i < 9 := by
      have := (List.getElem?_eq_some_iff.1 h).1
      simpa [passTest] using this
    match i, hi with
    | 0, _ | 1, _ | 2, _ | 3, _ | 4, _ | 5, _ | 7, _ | 8, _ => simp [passTest] at h; subst h; simp [mk]
    | 6, _ =>
      simp [passTest] at h; subst h
      refine ⟨fun _ => ⟨1, rfl, by decide, ?_⟩, by simp [mk]⟩
      intro t ht; simp [passTest] at ht; subst ht; rfl
  · intro ir h hm r d
    simp [passTest] at h
    rcases h with rfl | rfl | rfl | rfl | rfl | rfl | rfl | rfl | rfl <;> simp [mk]
  · intro ir h
    simp [passTest] at h
    rcases h with rfl | rfl | rfl | rfl | rfl | rfl | rfl | rfl | rfl <;> simp [mk, passTest]
  · intro ir h _
    simp [passTest] at h
    rcases h with rfl | rfl | rfl | rfl | rfl | rfl | rfl | rfl | rfl <;> simp_all [mk]
  · intro ir' h d hd _
    obtain ⟨i, ir, h1, rfl⟩ := cprop_mem h
    have hm := List.mem_of_getElem? h1
    show ir.op.isPure = true
    have hd' : ir.result = some d := hd
    simp [passTest] at hm
    rcases hm with rfl | rfl | rfl | rfl | rfl | rfl | rfl | rfl | rfl <;> simp [mk] at hd' <;> rfl

end Verif.Code
