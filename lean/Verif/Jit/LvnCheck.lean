import Verif.Jit.LvnEnv

/-!
# Functions that satisfy the assumptions

A program that decides the assumptions of `lvn_correct_partial`, and functions to which it applies.
-/

namespace Verif.Code

/-- Everything at every position. -/
def allAt (irs : List Ir) (p : Nat → Ir → Bool) : Bool :=
  (List.range irs.length).all fun i => match irs[i]? with
    | some ir => p i ir
    | none => true

theorem allAt_spec {irs : List Ir} {p : Nat → Ir → Bool} (h : allAt irs p = true) {i : Nat} {ir : Ir}
    (hi : irs[i]? = some ir) : p i ir = true := by
  unfold allAt at h
  rw [List.all_eq_true] at h
  obtain ⟨hlt, _⟩ := List.getElem?_eq_some_iff.mp hi
  have := h i (List.mem_range.mpr hlt)
  rw [hi] at this
  exact this

def slotB : Val → Bool
  | .int a => decide (a.toNat < 2 ^ 32)
  | _ => false

def poolB (psize : Nat) : Val → Bool
  | .cpool off => decide (off.toNat < psize)
  | _ => true

/-- Decides `IrOk`. -/
def irOkB (psize : Nat) (ir : Ir) : Bool :=
  ir.accepted && (!(ir.op.generic || ir.op == .csel || ir.op == .cset) || ir.result.isSome) &&
    (!(ir.op == .div) || ir.size == .unspec) && (!(ir.op == .send || ir.op == .recv) || slotB ir.arg1) &&
    (!(ir.op == .copy || ir.op == .move) || poolB psize ir.arg2)

theorem irOkB_spec {psize : Nat} {ir : Ir} (h : irOkB psize ir = true) : IrOk psize ir := by
  simp only [irOkB, Bool.and_eq_true, Bool.or_eq_true, Bool.not_eq_true', Bool.or_eq_false_iff, beq_iff_eq,
    beq_eq_false_iff_ne] at h
  obtain ⟨⟨⟨⟨h1, h2⟩, h3⟩, h4⟩, h5⟩ := h
  refine ⟨h1, ?_, ?_, ?_, ?_⟩
  · intro hg
    rcases h2 with ⟨⟨c1, c2⟩, c3⟩ | h2
    · rcases hg with e | e | e
      · rw [c1] at e; cases e
      · exact absurd e c2
      · exact absurd e c3
    · exact Option.isSome_iff_exists.mp h2
  · intro e; exact h3.resolve_left (fun c => c e)
  · intro e
    have := h4.resolve_left (fun c => e.elim c.1 c.2)
    unfold slotB at this
    split at this
    · rename_i a ha; exact ⟨a, ha, of_decide_eq_true this⟩
    · cases this
  · intro e off ho
    have := h5.resolve_left (fun c => e.elim c.1 c.2)
    rw [ho] at this
    exact of_decide_eq_true this

/-- Decides `OutOk`. -/
def outOkB (ir ir' : Ir) : Bool :=
  (!(ir.op == .add || ir.op == .sub || ir.op == .mul || ir.op == .exp) || ir.cc == .none || ir'.op == ir.op) &&
    (!(ir.op == .exp) || ir'.op == .exp || (match ir.arg1 with | .reg _ => false | _ => true)) &&
    (!(ir.op == .memset) || !(ir'.op == .store) || match ir.arg2, ir.size.bits with
      | .int v, some b => decide (v.toNat < 2 ^ b)
      | _, _ => false)

theorem outOkB_spec {ir ir' : Ir} (h : outOkB ir ir' = true) : OutOk ir ir' := by
  simp only [outOkB, Bool.and_eq_true, Bool.or_eq_true, Bool.not_eq_true', Bool.or_eq_false_iff, beq_iff_eq,
    beq_eq_false_iff_ne] at h
  obtain ⟨⟨h1, h2⟩, h3⟩ := h
  refine ⟨?_, ?_, ?_⟩
  · intro e hc
    rcases h1 with (⟨⟨⟨c1, c2⟩, c3⟩, c4⟩ | h1) | h1
    · rcases e with e | e | e | e
      · exact absurd e c1
      · exact absurd e c2
      · exact absurd e c3
      · exact absurd e c4
    · exact absurd h1 hc
    · exact h1
  · intro e r hr
    rcases h2 with (c | h2) | h2
    · exact absurd e c
    · exact h2
    · rw [hr] at h2; cases h2
  · intro e hs
    rcases h3 with (c | h3) | h3
    · exact absurd e c
    · exact absurd hs h3
    · split at h3
      · rename_i v b hv hb; exact ⟨v, b, hv, hb, of_decide_eq_true h3⟩
      · cases h3

/-- No mark between. -/
def noTargetB (f : Func) (i j : Nat) : Bool :=
  allAt f.irs fun k t => !(decide (i < k) && decide (k < j)) || !t.target

theorem noTargetB_spec {f : Func} {i j : Nat} (h : NoTarget f i j) : noTargetB f i j = true := by
  unfold noTargetB allAt
  rw [List.all_eq_true]
  intro k _
  split
  · rename_i t ht
    by_cases hk : i < k ∧ k < j
    · dsimp only; rw [h k t hk.1 hk.2 ht]; simp
    · simp; omega
  · rfl

/-- The register that is defined. -/
def Ir.defB (ir : Ir) : Option Nat := if ir.op.readsResult then none else ir.result

theorem defB_spec {ir : Ir} {r : Nat} (h : ir.defines r) : ir.defB = some r := by
  unfold Ir.defB; rw [h.2]; exact h.1

/-- Whether the register is read. -/
def Ir.readsB (ir : Ir) (r : Nat) : Bool :=
  ir.arg1.regOf == some r || ir.arg2.regOf == some r || (ir.op.readsResult && ir.result == some r)

theorem readsB_spec {ir : Ir} {r : Nat} (h : ir.reads r) : ir.readsB r = true := by
  unfold Ir.reads at h
  simp only [Ir.readsB, Bool.or_eq_true, beq_iff_eq, Bool.and_eq_true]
  rcases h with h | h | h
  · exact Or.inl (Or.inl h)
  · exact Or.inl (Or.inr h)
  · exact Or.inr h

def labelB (f : Func) : Val → Bool
  | .label l => decide (l < 2 ^ 32) && match f.irs[l]? with
    | some t => t.target
    | none => true
  | _ => false

def orderB (f : Func) : Bool :=
  allAt f.irs fun i a => allAt f.irs fun j b => match b.defB with
    | some r => !(decide (i ≤ j) && a.readsB r) || !noTargetB f i (j + 1)
    | none => true

def argsB (f : Func) : Bool :=
  allAt f.irs fun i a => allAt f.irs fun j b =>
    !(decide (i < j) && a.op == .send && (b.op == .send || b.op == .recv) && (argSlot b.arg1 == argSlot a.arg1) &&
      noTargetB f i (j + 1)) ||
    !allAt f.irs fun k c => !(decide (i < k) && decide (k < j) && (c.op == .call || c.op == .exit))

/-- Decides `LvnOk`. -/
def lvnOkB (psize : Nat) (f : Func) : Bool :=
  (f.irs.all fun ir => ir.arg1.regOf.all (· < f.nregs) && ir.arg2.regOf.all (· < f.nregs) && ir.result.all (· < f.nregs)) &&
  (f.irs.all fun ir => (!(ir.op == .jump) || labelB f ir.arg1) && (!(ir.op == .case) || labelB f ir.arg2)) &&
  (f.irs.all (irOkB psize)) &&
  (allAt f.irs fun i a => allAt f.irs fun j b => a.defB == none || a.defB != b.defB || i == j) &&
  orderB f && argsB f

theorem labelB_spec {f : Func} {v : Val} (h : labelB f v = true) :
    ∃ l, v = .label l ∧ l < 2 ^ 32 ∧ ∀ t, f.irs[l]? = some t → t.target = true := by
  unfold labelB at h
  split at h
  · rename_i l
    rw [Bool.and_eq_true] at h
    refine ⟨l, rfl, of_decide_eq_true h.1, ?_⟩
    intro t ht
    have := h.2
    rw [ht] at this
    exact this
  · cases h

theorem option_all_lt {o : Option Nat} {n r : Nat} (h : o.all (· < n) = true) (ho : o = some r) : r < n := by
  subst ho
  simpa using h

theorem not_allAt {irs : List Ir} {p : Nat → Ir → Bool} (h : allAt irs p = false) :
    ∃ (k : Nat) (c : Ir), irs[k]? = some c ∧ p k c = false := by
  unfold allAt at h
  rw [List.all_eq_false] at h
  obtain ⟨k, _, h⟩ := h
  split at h
  · rename_i c hc; exact ⟨k, c, hc, by simpa using h⟩
  · simp at h

theorem lvnOkB_spec {psize : Nat} {f : Func} (h : lvnOkB psize f = true) : LvnOk psize f := by
  unfold lvnOkB at h
  simp only [Bool.and_eq_true] at h
  obtain ⟨⟨⟨⟨⟨h1, h2⟩, h3⟩, h4⟩, h5⟩, h6⟩ := h
  rw [List.all_eq_true] at h1 h2 h3
  refine ⟨?_, ?_, ?_, ?_, ?_, ?_⟩
  · intro ir hi r hr
    have := h1 ir hi
    simp only [Bool.and_eq_true] at this
    rcases hr with e | e | e
    · exact option_all_lt this.1.1 e
    · exact option_all_lt this.1.2 e
    · exact option_all_lt this.2 e
  · intro i ir hi
    have := h2 ir (List.mem_of_getElem? hi)
    simp only [Bool.and_eq_true, Bool.or_eq_true, Bool.not_eq_true', beq_eq_false_iff_ne] at this
    exact ⟨fun e => labelB_spec (this.1.resolve_left fun c => c e), fun e => labelB_spec (this.2.resolve_left fun c => c e)⟩
  · intro ir hi; exact irOkB_spec (h3 ir hi)
  · intro i j r a b hi hj ha hb
    have := allAt_spec (allAt_spec h4 hi) hj
    simp only [Bool.or_eq_true, beq_iff_eq, bne_iff_ne, ne_eq] at this
    rw [defB_spec ha, defB_spec hb] at this
    rcases this with (c | c) | c
    · cases c
    · exact absurd rfl c
    · exact c
  · intro i j r a b hij hi hj ha hb hn
    have := allAt_spec (allAt_spec h5 hi) hj
    rw [defB_spec hb] at this
    simp only [Bool.or_eq_true, Bool.not_eq_true'] at this
    rw [noTargetB_spec hn, readsB_spec ha] at this
    simp at this
    omega
  · intro i j n a b hij hi hj ha hs hb hs' hn
    have := allAt_spec (allAt_spec h6 hi) hj
    rw [noTargetB_spec hn, ha, hs, hs'] at this
    have e : (b.op == .send || b.op == .recv) = true := by
      simp only [Bool.or_eq_true, beq_iff_eq]; exact hb
    rw [e, decide_eq_true hij] at this
    simp only [beq_self_eq_true, Bool.and_self, Bool.not_true, Bool.false_or, Bool.not_eq_true'] at this
    obtain ⟨k, c, hk, hc⟩ := not_allAt this
    simp only [Bool.not_eq_false', Bool.and_eq_true, decide_eq_true_eq, Bool.or_eq_true, beq_iff_eq] at hc
    exact ⟨k, c, hc.1.1, hc.1.2, hk, hc.2⟩

/-- Decides `OutOk` for all instructions. -/
def outsOkB (f f' : Func) : Bool :=
  allAt f.irs fun k ir => match f'.irs[k]? with
    | some ir' => outOkB ir ir'
    | none => true

theorem outsOkB_spec {f f' : Func} (h : outsOkB f f' = true) (k : Nat) (ir ir' : Ir) (hi : f.irs[k]? = some ir)
    (hi' : f'.irs[k]? = some ir') : OutOk ir ir' := by
  have := allAt_spec h hi
  rw [hi'] at this
  exact outOkB_spec this

/-! ## an example -/

/-- The sum of two arguments, twice; four bytes from the constant pool; a test of a constant; and a jump to a
jump. -/
def demo : Func :=
  { irs := [mk .recv (some 0) (.int 0), mk .recv (some 1) (.int 1), mk .add (some 2) (.reg 0) (.reg 1),
      mk .add (some 3) (.reg 1) (.reg 0), mk .mov (some 4) (.int 4), mk .mov (some 5) (.int 0x2000),
      mk .move (some 4) (.addrReg 5 0) (.cpool 1), mk .cmp none (.reg 3) (.int 0) .gt,
      mk .jump none (.label 12) .invalid .t, mk .cmp none (.int 4) (.int 4) .eq, mk .jump none (.label 14) .invalid .t,
      mk .ret none, mk .jump none (.label 13) .invalid .none true, mk .jump none (.label 15) .invalid .none true,
      mk .send none (.int 0) (.reg 0) .none true, mk .send none (.int 1) (.reg 3) .none true, mk .ret none],
    nregs := 6 }

def demoData : List (BitVec 8) := [1, 2, 3, 4, 5, 6]

def demoOut : Func := (lvn (romPool demoData) demo).getD demo

/-- What becomes of it. -/
example : demoOut.irs.map (fun ir => (ir.op, ir.cc, ir.result, ir.arg1, ir.arg2)) =
    [(.recv, .none, some 0, .int 0, .invalid), (.recv, .none, some 1, .int 1, .invalid),
     (.add, .none, some 2, .reg 0, .reg 1), (.mov, .none, some 3, .reg 2, .invalid), (.mov, .none, some 4, .int 4, .invalid),
     (.mov, .none, some 5, .int 0x2000, .invalid), (.store, .none, none, .int 0x05040302, .addrReg 5 0),
     (.cmp, .gt, none, .reg 3, .int 0), (.jump, .t, none, .label 13, .invalid), (.cmp, .eq, none, .int 4, .int 4),
     (.jump, .none, none, .label 14, .invalid), (.ret, .none, none, .invalid, .invalid),
     (.nop, .none, none, .invalid, .invalid), (.jump, .none, none, .label 15, .invalid),
     (.send, .none, none, .int 0, .reg 0), (.send, .none, none, .int 1, .reg 3), (.ret, .none, none, .invalid, .invalid)] := by
  decide +kernel

example : lvn (romPool demoData) demo = some demoOut ∧ LvnOk 6 demo ∧
    (∀ (k : Nat) (ir ir' : Ir), demo.irs[k]? = some ir → demoOut.irs[k]? = some ir' → OutOk ir ir') ∧
    LvnLaws (romEnv demoData) (romPool demoData) 6 :=
  ⟨by decide +kernel, lvnOkB_spec (by decide +kernel), outsOkB_spec (by decide +kernel),
    romEnv_laws demoData (by decide)⟩

/-- The two functions on an example. -/
example :
    outcome (fun w => (w.args 0, w.args 1, memLoad w .s32 true 0x2000))
      (run (romEnv demoData) demo 40 ⟨fun _ => 0, false, 0, ⟨fun _ => 10, fun _ => 0, none⟩⟩) = some (true, 10, 20, some 0x05040302) ∧
    outcome (fun w => (w.args 0, w.args 1, memLoad w .s32 true 0x2000))
      (run (romEnv demoData) demoOut 40 ⟨fun _ => 0, false, 0, ⟨fun _ => 10, fun _ => 0, none⟩⟩) = some (true, 10, 20, some 0x05040302) := by
  decide +kernel

end Verif.Code
