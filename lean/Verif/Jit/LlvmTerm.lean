import Verif.Jit.LlvmStep

/-!
# The ends of blocks
-/

namespace Verif.Code.Llvm

variable {W : Type} {x : LEnv W} {f : Func} {blocks : List Block} {live : Nat → Mask} {l : List LBlock}

/-- An instruction that ends the block: nothing else is left of the body. -/
theorem at_end {s : State W} {L : LState W} {b : Block} {lb : LBlock} {g gin gout : Gen}
    (hS : Sim x f blocks live l s L b lb g gin gout) {ir : Ir} (hir : f.irs[b.first + L.pos]? = some ir)
    (hle : b.first + L.pos ≤ b.last) (hop : Op.ends ir.op = true) :
    genTerm L.blk b (irsFrom f b (b.first + L.pos)) g = some lb.term ∧ gout = g ∧
      lstep x l L = lb.term.run x l L := by
  have hrest0 := hS.rest
  have hcons := irsFrom_cons hir hle
  rw [hcons, genRest, if_pos hop, Option.map_eq_some_iff] at hrest0
  obtain ⟨t, ht, heq⟩ := hrest0
  simp only [Prod.mk.injEq] at heq
  obtain ⟨h1, h2, h3⟩ := heq
  refine ⟨by rw [hcons, ht, h2], h3.symm, ?_⟩
  unfold lstep
  have hnb : lb.body[L.pos]? = none := by
    rw [List.getElem?_eq_none_iff]
    rwa [eq_comm, List.drop_eq_nil_iff] at h1
  rw [hS.isBlock.get, Option.bind_some, hnb]

/-- A return or a new start. -/
theorem step_return (S : Setup x f blocks live l) {s : State W} {L : LState W} {w : Nat} {r : Res W} {ir : Ir}
    (hM : Match x f blocks live l s L w) (hst : step x.env f s = some r)
    (hir : f.irs[s.pc]? = some ir) (hop : ir.op = .ret ∨ ir.op = .reexec) : Follows x f blocks live l L w r := by
  obtain ⟨b, lb, g, gin, gout, hS, hw⟩ := hM
  have hpc := sim_plain S hS hir (by rcases hop with h | h <;> rw [h] <;> exact fun h => by cases h)
  obtain ⟨ir', old, e, hir', hold, he, happ⟩ := step_split hst
  rw [hir] at hir'; cases hir'
  obtain ⟨hterm, -, hl⟩ := at_end hS (ir := ir) (by rw [hpc]; exact hir) (by rw [hpc]; exact hS.has.2)
    (by rcases hop with h | h <;> rw [h] <;> rfl)
  rw [hpc, irsFrom_cons hir hS.has.2] at hterm
  unfold genTerm at hterm
  dsimp only at hterm
  rcases hop with hop | hop
  · rw [hop] at hterm he
    cases he
    have hterm := Option.some.inj hterm
    cases happ
    refine ⟨1, lrun_one ?_⟩
    rw [hl, ← hterm]
    show some (LRes.halt true L.world) = _
    rw [hS.world]
  · rw [hop] at hterm he
    simp only [effect, Option.map_eq_some_iff] at he
    obtain ⟨w', hw', rfl⟩ := he
    simp only [Option.some.injEq] at hterm
    cases happ
    refine ⟨1, lrun_one ?_⟩
    rw [hl, ← hterm]
    show (x.env.reexec L.world).map _ = _
    rw [hS.world, hw']
    rfl

/-- What is live at the target of a jump or case is live before it, and unchanged. -/
theorem holds_jump {k p i j : Nat} {ir : Ir} {g : Gen} {σ : Ref → Option Word}
    {regs : Nat → Word} {fl : Bool} (hir : f.irs[i]? = some ir) (hop : ir.op = .jump ∨ ir.op = .case)
    (hres : ir.op = .jump → ir.result = none) (h : Holds x f g k p σ i regs fl) (hs : Succ f i j) :
    Holds x f g k p σ j regs fl := by
  refine ⟨h.typed, fun r hr => h.regs r (.later hir ?_ hs hr), fun hr => h.flags (.later hir ?_ hs hr)⟩
  · rintro ⟨h1, h2⟩
    rcases hop with hop | hop
    · rw [hres hop] at h1; cases h1
    · rw [hop] at h2; cases h2
  · intro hw
    unfold Ir.writesFlags at hw
    rcases hop with hop | hop <;> rw [hop] at hw <;> cases hw

theorem jump_noresult (S : Setup x f blocks live l) {i : Nat} {ir : Ir} (hir : f.irs[i]? = some ir) :
    ir.op = .jump → ir.result = none := by
  intro hop
  cases hr : ir.result with
  | none => rfl
  | some r =>
    rcases S.results ir (List.mem_of_getElem? hir) (by rw [hr]; exact fun h => by cases h) with h | h <;>
      rw [hop] at h <;> cases h

/-- The next block follows the last instruction of this one. -/
theorem next_block (S : Setup x f blocks live l) {k : Nat} {b : Block} (hb : blocks[k]? = some b)
    (hlt : b.last + 1 < f.irs.length) : ∃ d, blocks[k + 1]? = some d ∧ d.first = b.last + 1 := by
  obtain ⟨hcov, hed⟩ := cfg_edges S.nonempty S.labels S.cfg
  have hk1 : k + 1 < blocks.length := by
    have := hcov.final _ _ hb
    have hk := (List.getElem?_eq_some_iff.1 hb).1
    rcases Nat.lt_or_ge (k + 1) blocks.length with c | c
    · exact c
    · have := this.1 (by omega); omega
  have hd : blocks[k + 1]? = some blocks[k + 1] := List.getElem?_eq_some_iff.2 ⟨hk1, rfl⟩
  exact ⟨_, hd, hcov.next _ _ _ hb hd⟩

theorem fall_edge (S : Setup x f blocks live l) {k : Nat} {b : Block} (hb : blocks[k]? = some b)
    (hcl : Clean f blocks b.last) (hs : Succ f b.last (b.last + 1)) :
    k + 1 ∈ b.out ∧ ∃ d, blocks[k + 1]? = some d ∧ d.first = b.last + 1 := by
  obtain ⟨hcov, hed⟩ := cfg_edges S.nonempty S.labels S.cfg
  obtain ⟨d, hd, hdf⟩ := next_block S hb hs.1
  refine ⟨?_, d, hd, hdf⟩
  have hg := hcov.good _ _ hb
  rcases succ_edge hcov hed S.labels S.targets hs hcl hb ⟨hg.le, Nat.le_refl _⟩ with h1 | ⟨c', d', h1, h2, h3⟩
  · have := h1.2.2; omega
  · have hgd := hcov.good _ _ h2
    have hgd2 := hcov.good _ _ hd
    have : c' = k + 1 := covers_unique hcov h2 hd (i := b.last + 1) ⟨by omega, by have := hgd.le; omega⟩
      ⟨by omega, by have := hgd2.le; omega⟩
    subst this
    exact h1

/-- The block to which a label leads. -/
theorem target_block (S : Setup x f blocks live l) {k i t : Nat} {b : Block} {ir : Ir} (hb : blocks[k]? = some b)
    (hbi : b.has i) (hir : f.irs[i]? = some ir) (hl : ir.label = some t) :
    ∃ c d, targetOf blocks ir = some c ∧ blocks[c]? = some d ∧ d.first = t ∧ c ∈ b.out := by
  obtain ⟨hcov, hed⟩ := cfg_edges S.nonempty S.labels S.cfg
  have ht := label_lt S.labels hir hl
  obtain ⟨c, d, hd, hdt⟩ := covers_exists hcov t ht
  refine ⟨c, d, ?_, hd, label_first hcov S.targets hir hl hd hdt, ?_⟩
  · unfold targetOf
    rw [hl, Option.bind_some]
    exact (blockFor_ok hcov t ht c).2 ⟨d, hd, hdt⟩
  · exact (hed k b hb c).2 (Or.inr ⟨i, t, ir, b, d, Nat.zero_le _, (List.getElem?_eq_some_iff.1 hir).1, hir, hl, hb, hbi, hd, hdt⟩)

/-- A state at the start of a block that control enters from `L`. -/
theorem go_enter (S : Setup x f blocks live l) {s : State W} {L : LState W} {c : Nat} {b d : Block} {lb : LBlock}
    {g gin gout : Gen} {w : Nat} (hb : blocks[L.blk]? = some b) (hB : IsBlock f blocks live l L.blk b lb gin gout)
    (hd : blocks[c]? = some d) (hedge : c ∈ b.out) (hp : b.first + L.pos ≤ b.last) (hg : gout = g) (hw : L.world = s.world)
    (hpc : s.pc = d.first) (hstep : lstep x l L = some (goBlock x l L c))
    (h : Holds x f g L.blk (b.first + L.pos) L.vals s.pc s.regs s.flags) :
    ∃ m L' w', lrun x l m L = some (.next L') ∧ Match x f blocks live l s L' w' ∧ ((m = 0 ∧ w' = w + 1) ∨ (1 ≤ m ∧ w' = 0)) := by
  subst hg
  refine ⟨1, _, 0, lrun_one hstep, ?_, Or.inr ⟨Nat.le_refl _, rfl⟩⟩
  rw [hw]
  exact match_enter S hb hd hB hedge hpc (by omega) h

theorem ofBool_zero (v : Bool) : (ofBool v = 0) ↔ v = false := by
  cases v
  · exact ⟨fun _ => rfl, fun _ => rfl⟩
  · exact ⟨fun h => absurd h (by decide), fun h => by cases h⟩

/-- A jump. -/
theorem step_jump (S : Setup x f blocks live l) {s : State W} {L : LState W} {w : Nat} {r : Res W} {ir : Ir}
    (hM : Match x f blocks live l s L w) (hst : step x.env f s = some r)
    (hir : f.irs[s.pc]? = some ir) (hop : ir.op = .jump) : Follows x f blocks live l L w r := by
  obtain ⟨hcov, hed⟩ := cfg_edges S.nonempty S.labels S.cfg
  obtain ⟨b, lb, g, gin, gout, hS, hw⟩ := hM
  have hpc := sim_plain S hS hir (by rw [hop]; exact fun h => by cases h)
  obtain ⟨ir', old, e, hir', hold, he, happ⟩ := step_split hst
  rw [hir] at hir'; cases hir'
  obtain ⟨hterm, hgo, hl⟩ := at_end hS (ir := ir) (by rw [hpc]; exact hir) (by rw [hpc]; exact hS.has.2) (by rw [hop]; rfl)
  have hgood := hcov.good _ _ hS.get
  have hlast : s.pc = b.last := by
    rcases Nat.lt_or_ge s.pc b.last with c | c
    · have := hgood.inner s.pc ir hS.has.1 c hir
      unfold isTerminator at this
      rw [hop] at this; cases this
    · exact Nat.le_antisymm hS.has.2 c
  -- the label
  obtain ⟨t, hlab, ht32, -⟩ := (S.targets s.pc ir hir).1 hop
  have hlabel : ir.label = some t := by unfold Ir.label; rw [hop, hlab]
  have ha : (eval x.env s.regs ir.arg1).toNat = t := by
    rw [hlab]
    simp only [eval, BitVec.toNat_ofNat]
    omega
  obtain ⟨c, d, htc, hd, hdf, hedge⟩ := target_block S hS.get hS.has hir hlabel
  -- the edges
  obtain ⟨pre, hout, -⟩ := out_order S.nonempty S.labels S.cfg _ _ hS.get
  have hno : ∀ (j : Nat) (jr : Ir), b.first ≤ j → j < s.pc → f.irs[j]? = some jr → jr.op ≠ .case := by
    intro j jr h1 h2 h3 h4
    obtain ⟨kr, h5, h6⟩ := case_run hcov hS.get (s.pc - j) j jr h1 (by omega) h3 h4
    rw [show j + (s.pc - j) = s.pc by omega, hir] at h5
    cases h5
    rw [hop] at h6; cases h6
  rw [no_labels hcov hS.get s.pc hS.has.2 hno (s.pc - b.first) b.first (by have := hS.has.1; omega) (Nat.le_refl _),
    irsFrom_cons hir hS.has.2, irsFrom_nil (by omega)] at hout
  simp only [List.filterMap_cons, htc, List.filterMap_nil] at hout
  -- what is live
  have hh := hS.holds
  have hjump : ∀ j, Succ f s.pc j → Holds x f g L.blk (b.first + L.pos) L.vals j s.regs s.flags := fun j hj =>
    holds_jump hir (Or.inl hop) (jump_noresult S hir) hh hj
  have hple : b.first + L.pos ≤ b.last := by rw [hpc]; exact hS.has.2
  have taken : ∀ s' : State W, s' = { s with pc := t } → s'.pc < f.irs.length → lstep x l L = some (goBlock x l L c) →
      ∃ m L' w', lrun x l m L = some (.next L') ∧ Match x f blocks live l s' L' w' ∧ ((m = 0 ∧ w' = w + 1) ∨ (1 ≤ m ∧ w' = 0)) := by
    rintro s' rfl hlt hstep
    refine go_enter S hS.get hS.isBlock hd hedge hple hgo hS.world hdf.symm hstep ?_
    exact hjump t ⟨hlt, ir, hir, Or.inl hlabel⟩
  have falls : ∀ s' : State W, s' = { s with pc := s.pc + 1 } → s'.pc < f.irs.length → ir.cc ≠ .none →
      lstep x l L = some (goBlock x l L (L.blk + 1)) →
      ∃ m L' w', lrun x l m L = some (.next L') ∧ Match x f blocks live l s' L' w' ∧ ((m = 0 ∧ w' = w + 1) ∨ (1 ≤ m ∧ w' = 0)) := by
    rintro s' rfl hlt hcc hstep
    have hlt : s.pc + 1 < f.irs.length := hlt
    have hsucc : Succ f s.pc (s.pc + 1) :=
      ⟨hlt, ir, hir, Or.inr ⟨rfl, by unfold Ir.canFall; rw [hop]; simpa using hcc⟩⟩
    have hcl := hS.clean
    rw [hlast] at hcl
    obtain ⟨h1, d', h2, h3⟩ := fall_edge S hS.get hcl (by rw [← hlast]; exact hsucc)
    refine go_enter S hS.get hS.isBlock h2 h1 hple hgo hS.world ?_ hstep (hjump _ hsucc)
    show s.pc + 1 = d'.first
    omega
  rw [hpc, irsFrom_cons hir hS.has.2] at hterm
  unfold genTerm at hterm
  dsimp only at hterm
  rw [hop] at hterm he
  dsimp only at hterm
  simp only [effect] at he
  split at hterm
  · -- always
    rename_i d0 hcc hout0
    rw [hout0] at hout
    have hd0 : d0 = c := by
      cases pre with
      | nil => simpa using hout
      | cons a pre => simp at hout
    subst hd0
    have hterm := Option.some.inj hterm
    rw [hcc] at he
    cases he
    cases happ
    intro hlt
    refine taken _ ?_ hlt ?_
    · show State.mk s.regs s.flags _ s.world = State.mk s.regs s.flags t s.world
      rw [ha]
    · rw [hl, ← hterm]; rfl
  · -- if true
    rename_i d1 d0 hcc hout0
    rw [hout0] at hout
    have hd0 : d0 = c := by
      have := congrArg List.getLast? hout
      simpa using this
    subst hd0
    have hfl := (hh.flags (.use hir (by unfold Ir.readsFlags; rw [hop, hcc]; rfl))).2
    simp only [Option.some.injEq] at hterm
    have hrun : lstep x l L = some (goBlock x l L (if s.flags = true then d0 else L.blk + 1)) := by
      rw [hl, ← hterm]
      simp only [Term.run, hfl, Option.map_some, ofBool_zero]
      cases s.flags <;> rfl
    rw [hcc] at he
    cases hf : s.flags with
    | true =>
      rw [hf] at he
      cases he
      cases happ
      intro hlt
      refine taken _ ?_ hlt (by rw [hrun, hf]; rfl)
      show State.mk s.regs _ _ s.world = State.mk s.regs s.flags t s.world
      rw [ha]; rfl
    | false =>
      rw [hf] at he
      cases he
      cases happ
      intro hlt
      exact falls _ rfl hlt (by rw [hcc]; exact fun h => by cases h) (by rw [hrun, hf]; rfl)
  · -- if false
    rename_i d1 d0 hcc hout0
    rw [hout0] at hout
    have hd0 : d0 = c := by
      have := congrArg List.getLast? hout
      simpa using this
    subst hd0
    have hfl := (hh.flags (.use hir (by unfold Ir.readsFlags; rw [hop, hcc]; rfl))).2
    simp only [Option.some.injEq] at hterm
    have hrun : lstep x l L = some (goBlock x l L (if s.flags = true then L.blk + 1 else d0)) := by
      rw [hl, ← hterm]
      simp only [Term.run, hfl, Option.map_some, ofBool_zero]
      cases s.flags <;> rfl
    rw [hcc] at he
    cases hf : s.flags with
    | true =>
      rw [hf] at he
      cases he
      cases happ
      intro hlt
      exact falls _ rfl hlt (by rw [hcc]; exact fun h => by cases h) (by rw [hrun, hf]; rfl)
    | false =>
      rw [hf] at he
      cases he
      cases happ
      intro hlt
      refine taken _ ?_ hlt (by rw [hrun, hf]; rfl)
      show State.mk s.regs _ _ s.world = State.mk s.regs s.flags t s.world
      rw [ha]; rfl
  · cases hterm

/-! ## switches -/

theorem pick_hit {out : List Nat} {v : Word} {els : Nat} : ∀ (irs : List Ir) (nth : Nat) (cs : List (Word × Nat)) (n : Nat) (ir : Ir),
    genCases out irs nth = some cs → irs[n]? = some ir → ir.arg1 = .int v →
    (∀ (j : Nat) (jr : Ir), j < n → irs[j]? = some jr → jr.arg1 ≠ .int v) →
    out[nth + n + 1]? = some (pick v els cs) := by
  intro irs
  induction irs with
  | nil => intro nth cs n ir _ h; cases h
  | cons a rest ih =>
    intro nth cs n ir hg hn hv hbefore
    unfold genCases at hg
    split at hg
    · rename_i u d hop hu hd
      obtain ⟨cs', hcs', hg⟩ := bind_split hg
      split at hg
      · cases hg
      · cases hg
        cases n with
        | zero =>
          cases hn
          rw [hu] at hv; cases hv
          simp only [pick, if_true, Nat.add_zero]
          exact hd
        | succ n =>
          have hne : v ≠ u := by
            rintro rfl
            exact hbefore 0 a (by omega) rfl hu
          simp only [pick, if_neg hne]
          rw [show nth + (n + 1) + 1 = nth + 1 + n + 1 by omega]
          exact ih (nth + 1) cs' n ir hcs' hn hv fun j jr hj hjr => hbefore (j + 1) jr (by omega) hjr
    · cases hg

theorem pick_miss {out : List Nat} {v : Word} {els : Nat} : ∀ (irs : List Ir) (nth : Nat) (cs : List (Word × Nat)),
    genCases out irs nth = some cs → (∀ (j : Nat) (jr : Ir), irs[j]? = some jr → jr.arg1 ≠ .int v) →
    pick v els cs = els := by
  intro irs
  induction irs with
  | nil => intro nth cs hg _; cases hg; rfl
  | cons a rest ih =>
    intro nth cs hg hall
    unfold genCases at hg
    split at hg
    · rename_i u d hop hu hd
      obtain ⟨cs', hcs', hg⟩ := bind_split hg
      split at hg
      · cases hg
      · cases hg
        have hne : v ≠ u := by
          rintro rfl
          exact hall 0 a rfl hu
        simp only [pick, if_neg hne]
        exact ih (nth + 1) cs' hcs' fun j jr hjr => hall (j + 1) jr hjr
    · cases hg

theorem cases_int {out : List Nat} : ∀ (irs : List Ir) (nth : Nat) (cs : List (Word × Nat)) (n : Nat) (ir : Ir),
    genCases out irs nth = some cs → irs[n]? = some ir → ir.op = .case ∧ ∃ v, ir.arg1 = .int v := by
  intro irs
  induction irs with
  | nil => intro nth cs n ir _ h; cases h
  | cons a rest ih =>
    intro nth cs n ir hg hn
    unfold genCases at hg
    split at hg
    · rename_i u d hop hu hd
      obtain ⟨cs', hcs', hg⟩ := bind_split hg
      cases n with
      | zero => cases hn; exact ⟨hop, u, hu⟩
      | succ n => exact ih (nth + 1) cs' n ir hcs' hn
    · cases hg

theorem irsFrom_get {b : Block} {i n : Nat} (h : i + n ≤ b.last) : (irsFrom f b i)[n]? = f.irs[i + n]? := by
  unfold irsFrom
  rw [List.getElem?_drop, List.getElem?_take, if_pos (by omega)]

theorem irsFrom_lt {b : Block} {i n : Nat} {ir : Ir} (h : (irsFrom f b i)[n]? = some ir) : i + n ≤ b.last := by
  unfold irsFrom at h
  rw [List.getElem?_drop, List.getElem?_take] at h
  split at h
  · omega
  · cases h

/-- The body is made from instructions that do not end the block. -/
theorem body_plain {m : Mask} {nb k : Nat} {b : Block} : ∀ (irs : List Ir) (i : Nat) (g : Gen) (cs : List Code) (t : Term) (g2 : Gen),
    genRest m nb k b irs i g = some (cs, t, g2) → ∀ (n : Nat) (ir : Ir), n < cs.length → irs[n]? = some ir →
    Op.ends ir.op = false := by
  intro irs
  induction irs with
  | nil => intro i g cs t g2 _ n ir _ h; cases h
  | cons a rest ih =>
    intro i g cs t g2 hg n ir hn hir
    rw [genRest] at hg
    split at hg
    · rw [Option.map_eq_some_iff] at hg
      obtain ⟨t', -, heq⟩ := hg
      simp only [Prod.mk.injEq] at heq
      rw [← heq.1] at hn
      cases hn
    · rename_i hends
      obtain ⟨⟨c, g1⟩, -, hg1⟩ := bind_split hg
      rw [Option.map_eq_some_iff] at hg1
      obtain ⟨⟨cs', t', g2'⟩, hg2, heq⟩ := hg1
      simp only [Prod.mk.injEq] at heq
      rw [← heq.1, List.length_cons] at hn
      cases n with
      | zero => cases hir; simpa using hends
      | succ n => exact ih _ _ _ _ _ hg2 n ir (by omega) hir

/-- Every instruction of a list of cases has a target. -/
theorem filterMap_get {α β} {h : α → Option β} : ∀ (as : List α), (∀ a ∈ as, (h a).isSome = true) →
    ∀ n : Nat, (as.filterMap h)[n]? = as[n]?.bind h := by
  intro as
  induction as with
  | nil => intro _ n; rfl
  | cons a as ih =>
    intro hall n
    obtain ⟨b, hb⟩ := Option.isSome_iff_exists.1 (hall a List.mem_cons_self)
    rw [List.filterMap_cons, hb]
    cases n with
    | zero => exact hb.symm
    | succ n => exact ih (fun a' ha' => hall a' (List.mem_cons_of_mem _ ha')) n

theorem filterMap_len {α β} {h : α → Option β} : ∀ (as : List α), (∀ a ∈ as, (h a).isSome = true) →
    (as.filterMap h).length = as.length := by
  intro as
  induction as with
  | nil => intro _; rfl
  | cons a as ih =>
    intro hall
    obtain ⟨b, hb⟩ := Option.isSome_iff_exists.1 (hall a List.mem_cons_self)
    rw [List.filterMap_cons, hb, List.length_cons, List.length_cons, ih fun a' ha' => hall a' (List.mem_cons_of_mem _ ha')]

/-- The cases of a block test the same register. -/
theorem same_result (S : Setup x f blocks live l) {k : Nat} {b : Block} (hb : blocks[k]? = some b) {p : Nat} {ir : Ir}
    (hp : b.first ≤ p) (hir : f.irs[p]? = some ir) (hop : ir.op = .case) : ∀ (n : Nat) (jr : Ir), p + n ≤ b.last →
    f.irs[p + n]? = some jr → jr.op = .case ∧ jr.result = ir.result := by
  obtain ⟨hcov, -⟩ := cfg_edges S.nonempty S.labels S.cfg
  have hgood := hcov.good _ _ hb
  intro n
  induction n with
  | zero => intro jr _ h; rw [Nat.add_zero, hir] at h; cases h; exact ⟨hop, rfl⟩
  | succ n ih =>
    intro jr hle hjr
    have hprev : f.irs[p + n]? = some (f.irs[p + n]'(by have := hgood.lt; omega)) := List.getElem?_eq_some_iff.2 ⟨_, rfl⟩
    obtain ⟨h1, h2⟩ := ih _ (by omega) hprev
    obtain ⟨kr, h3, h4⟩ := case_run hcov hb (n + 1) p ir hp hle hir hop
    rw [hjr] at h3; cases h3
    have hjr' : f.irs[p + n + 1]? = some jr := hjr
    exact ⟨h4, (S.tests (p + n) _ jr hprev hjr' h1 h4 (hgood.target _ jr (by omega) (by omega) hjr)).trans h2⟩

/-- A case of a switch. -/
theorem step_case (S : Setup x f blocks live l) {s : State W} {L : LState W} {w : Nat} {r : Res W} {ir : Ir}
    (hM : Match x f blocks live l s L w) (hst : step x.env f s = some r)
    (hir : f.irs[s.pc]? = some ir) (hop : ir.op = .case) : Follows x f blocks live l L w r := by
  obtain ⟨hcov, hed⟩ := cfg_edges S.nonempty S.labels S.cfg
  obtain ⟨b, lb, g, gin, gout, hS, hw⟩ := hM
  obtain ⟨hple, hwait⟩ := hS.waits
  generalize hp : b.first + L.pos = p at hple hwait
  have hgood := hcov.good _ _ hS.get
  have hbl := hS.has.2
  have hlt := hgood.lt
  obtain ⟨ir', old, e, hir', hold, he, happ⟩ := step_split hst
  rw [hir] at hir'; cases hir'
  -- the first of the cases
  obtain ⟨ip, hip, hopp⟩ : ∃ ip, f.irs[p]? = some ip ∧ ip.op = .case := by
    rcases Nat.lt_or_ge p s.pc with c | c
    · obtain ⟨jr, _, _, h1, h2, -⟩ := hwait p (Nat.le_refl _) c
      exact ⟨jr, h1, h2⟩
    · have : p = s.pc := by omega
      rw [this]; exact ⟨ir, hir, hop⟩
  have hall := same_result S hS.get (p := p) (by omega) hip hopp
  have hsame : ir.result = ip.result := (hall (s.pc - p) ir (by omega) (by rw [show p + (s.pc - p) = s.pc by omega]; exact hir)).2
  obtain ⟨hterm, hgo, hl⟩ := at_end hS (ir := ip) (by rw [hp]; exact hip) (by omega) (by rw [hopp]; rfl)
  rw [hp] at hterm
  have hcons : irsFrom f b p = ip :: irsFrom f b (p + 1) := irsFrom_cons hip (by omega)
  have hterm' : ((ip.result.bind g.regs).bind fun v =>
      if v.ty = some .i64 ∧ b.out.length = (irsFrom f b p).length + 1 then
        (genCases b.out (irsFrom f b p) 0).map fun l => Term.switch v l (L.blk + 1) else none) = some lb.term := by
    rw [hcons] at hterm ⊢
    unfold genTerm at hterm
    dsimp only at hterm
    rw [hopp] at hterm
    exact hterm
  obtain ⟨v, hv, hterm'⟩ := bind_split hterm'
  split at hterm'
  case isFalse => cases hterm'
  rename_i hlen
  rw [Option.map_eq_some_iff] at hterm'
  obtain ⟨cs, hcs, hterm'⟩ := hterm'
  obtain ⟨q, hq, hv⟩ := bind_split hv
  -- the value
  have hh := hS.holds
  rw [hp] at hh
  have hval : v.eval x L.vals = some (s.regs q) := by
    obtain ⟨ex, h1, -, h3⟩ := hh.regs q (.use hir (Or.inr (Or.inr ⟨by rw [hop]; rfl, by rw [hsame, hq]⟩)))
    rw [hv] at h1; cases h1
    exact h3
  have hold' : old = s.regs q := by
    unfold oldValue at hold
    rw [hop, hsame, hq] at hold
    exact (Option.some.inj hold).symm
  obtain ⟨-, c0, hc0⟩ := cases_int (irsFrom f b p) 0 cs (s.pc - p) ir hcs (by
    rw [irsFrom_get (by omega), show p + (s.pc - p) = s.pc by omega]; exact hir)
  have hrun : lstep x l L = some (goBlock x l L (pick (s.regs q) (L.blk + 1) cs)) := by
    rw [hl, ← hterm']
    simp only [Term.run, hval, Option.map_some]
  -- the cases before do not match
  have hbefore : ∀ (j : Nat) (jr : Ir), j < s.pc - p → (irsFrom f b p)[j]? = some jr → jr.arg1 ≠ .int (s.regs q) := by
    intro j jr hj hjr
    rw [irsFrom_get (by omega)] at hjr
    obtain ⟨kr, rr, vv, h1, h2, h3, h4, h5⟩ := hwait (p + j) (by omega) (by omega)
    rw [hjr] at h1; cases h1
    have := (hall j jr (by omega) hjr).2
    rw [h3, hq] at this
    cases this
    rw [h4]
    intro h6
    cases h6
    exact h5 rfl
  -- the label
  obtain ⟨t, hlab, ht32, -⟩ := (S.targets s.pc ir hir).2 hop
  have hlabel : ir.label = some t := by unfold Ir.label; rw [hop, hlab]
  have hb : (eval x.env s.regs ir.arg2).toNat = t := by
    rw [hlab]
    simp only [eval, BitVec.toNat_ofNat]
    omega
  have ha : eval x.env s.regs ir.arg1 = c0 := by rw [hc0]; rfl
  rw [hop, ha] at he
  simp only [effect, Option.some.injEq] at he
  rw [hb] at he
  by_cases hmatch : old = c0
  · -- a match
    have happ : Res.next { s with pc := t } = r := by
      rw [if_pos hmatch] at he
      subst he
      exact Option.some.inj happ
    subst happ
    intro hlt'
    have hlt' : t < f.irs.length := hlt'
    obtain ⟨c, d, htc, hd, hdf, hedge⟩ := target_block S hS.get hS.has hir hlabel
    obtain ⟨pre, hout, -⟩ := out_order S.nonempty S.labels S.cfg _ _ hS.get
    have hpick : pick (s.regs q) (L.blk + 1) cs = c := by
      have h1 := pick_hit (els := L.blk + 1) (v := s.regs q) (irsFrom f b p) 0 cs (s.pc - p) ir hcs
        (by rw [irsFrom_get (by omega), show p + (s.pc - p) = s.pc by omega]; exact hir)
        (by rw [hc0, ← hold', hmatch]) hbefore
      -- only cases from `p` on have labels
      have hnocase : ∀ (j : Nat) (jr : Ir), b.first ≤ j → j < p → f.irs[j]? = some jr → jr.op ≠ .case := by
        intro j jr h2 h3 h4 h5
        have h6 := body_plain _ _ _ _ _ _ hS.isBlock.rest (j - b.first) jr (by have := hS.pos; omega) (by
          show (irsFrom f b b.first)[j - b.first]? = _
          rw [irsFrom_get (by omega), show b.first + (j - b.first) = j by omega]; exact h4)
        rw [h5] at h6; cases h6
      rw [no_labels hcov hS.get p (by omega) hnocase (p - b.first) b.first (by omega) (Nat.le_refl _)] at hout
      have hsome : ∀ a ∈ irsFrom f b p, (targetOf blocks a).isSome = true := by
        intro a ha
        obtain ⟨n, hn, hna⟩ := List.getElem_of_mem ha
        have hget : (irsFrom f b p)[n]? = some a := List.getElem?_eq_some_iff.2 ⟨hn, hna⟩
        have hle := irsFrom_lt hget
        rw [irsFrom_get hle] at hget
        obtain ⟨hopa, -⟩ := hall n a hle hget
        obtain ⟨ta, hta, -⟩ := (S.targets _ a hget).2 hopa
        have hla : a.label = some ta := by unfold Ir.label; rw [hopa, hta]
        obtain ⟨ca, da, h2, -⟩ := target_block S hS.get ⟨by omega, hle⟩ hget hla
        rw [h2]; rfl
      have hpl : pre.length = 1 := by
        have h2 := hlen.2
        rw [hout, List.length_append, filterMap_len _ hsome] at h2
        omega
      rw [hout, List.getElem?_append_right (by omega), hpl,
        show 0 + (s.pc - p) + 1 - 1 = s.pc - p by omega, filterMap_get _ hsome, irsFrom_get (by omega),
        show p + (s.pc - p) = s.pc by omega, hir, Option.bind_some, htc] at h1
      exact (Option.some.inj h1).symm
    rw [hpick] at hrun
    refine go_enter (g := g) S hS.get hS.isBlock hd hedge (by omega) hgo hS.world hdf.symm hrun ?_
    rw [hp]
    exact holds_jump hir (Or.inr hop) (fun h => by rw [hop] at h; cases h) hh ⟨hlt', ir, hir, Or.inl hlabel⟩
  · -- no match
    have happ : Res.next { s with pc := s.pc + 1 } = r := by
      rw [if_neg hmatch] at he
      subst he
      exact Option.some.inj happ
    subst happ
    intro hlt'
    have hlt' : s.pc + 1 < f.irs.length := hlt'
    have hsucc : Succ f s.pc (s.pc + 1) := by
      refine ⟨hlt', ir, hir, Or.inr ⟨rfl, ?_⟩⟩
      unfold Ir.canFall Ir.willAbort
      rw [hop]; rfl
    have hh' := holds_jump hir (Or.inr hop) (fun h => by rw [hop] at h; cases h) hh hsucc
    rcases Nat.lt_or_ge s.pc b.last with hin | hout
    · -- the next case
      refine ⟨0, L, w + 1, rfl, ⟨b, lb, g, gin, gout, ?_, by show s.pc + 1 = _; omega⟩, Or.inl ⟨rfl, rfl⟩⟩
      refine ⟨hS.get, hS.isBlock, ⟨?_, ?_⟩, succ_clean hcov hed S.labels S.targets hsucc hS.clean, hS.world, hS.pos, hS.rest, ?_, ?_⟩
      · show b.first ≤ s.pc + 1; have := hS.has.1; omega
      · show s.pc + 1 ≤ b.last; omega
      · rw [hp]; exact hh'
      · rw [hp]
        refine ⟨by show p ≤ s.pc + 1; omega, fun j h1 h2 => ?_⟩
        have h2 : j < s.pc + 1 := h2
        rcases Nat.lt_or_ge j s.pc with c | c
        · exact hwait j h1 c
        · have : j = s.pc := by omega
          subst this
          refine ⟨ir, q, c0, hir, hop, by rw [hsame, hq], hc0, ?_⟩
          show s.regs q ≠ c0
          rw [← hold']; exact hmatch
    · have hlast : s.pc = b.last := Nat.le_antisymm hbl hout
      have hpick : pick (s.regs q) (L.blk + 1) cs = L.blk + 1 := by
        apply pick_miss (irsFrom f b p) 0 cs hcs
        intro j jr hjr
        have hle := irsFrom_lt hjr
        rcases Nat.lt_or_ge j (s.pc - p) with c | c
        · exact hbefore j jr c hjr
        · have : j = s.pc - p := by omega
          rw [irsFrom_get hle, this, show p + (s.pc - p) = s.pc by omega, hir] at hjr
          cases hjr
          rw [hc0]
          intro h; cases h
          exact hmatch hold'
      rw [hpick] at hrun
      have hcl := hS.clean
      rw [hlast] at hcl
      obtain ⟨h1, d, h2, h3⟩ := fall_edge S hS.get hcl (by rw [← hlast]; exact hsucc)
      refine go_enter (g := g) S hS.get hS.isBlock h2 h1 (by omega) hgo hS.world ?_ hrun ?_
      · show s.pc + 1 = d.first; omega
      · rw [hp]; exact hh'

end Verif.Code.Llvm
