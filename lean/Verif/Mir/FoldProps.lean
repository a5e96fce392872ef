import Verif.Mir.FoldSpec

/-
C29: building arithmetic with constant folding preserves the meaning, for all expressions whose
construction does not meet one of the wrong foldings (`Sound2`, `Sound1`, `SoundSelect`); the wrong
ones are in `Verif/Mir/FoldBugs.lean`.
-/

namespace Verif.Mir

variable {env : Nat → Int}

/-! ### Running nodes -/

theorem valueOf_append {vals : List Int} (more : List Int) {v : Value} {x : Int}
    (h : valueOf env vals v = some x) : valueOf env (vals ++ more) v = some x := by
  cases v with
  | node i =>
    simp only [valueOf] at h ⊢
    obtain ⟨hi, -⟩ := List.getElem?_eq_some_iff.1 h
    rw [List.getElem?_append_left hi]
    exact h
  | _ => exact h

theorem valuesOf_append {vals : List Int} (more : List Int) : ∀ {vs : List Value} {xs : List Int},
    valuesOf env vals vs = some xs → valuesOf env (vals ++ more) vs = some xs
  | [], xs, h => h
  | v :: vs, xs, h => by
    simp only [valuesOf] at h ⊢
    cases hv : valueOf env vals v with
    | none => rw [hv] at h; cases h
    | some x =>
      cases hvs : valuesOf env vals vs with
      | none => rw [hv, hvs] at h; cases h
      | some ys =>
        rw [hv, hvs] at h
        rw [valueOf_append more hv, valuesOf_append more hvs]
        exact h

theorem runNodes_append (ns ms : List Node) : ∀ vals : List Int,
    runNodes env (ns ++ ms) vals = (runNodes env ns vals).bind (runNodes env ms) := by
  induction ns with
  | nil => intro vals; rfl
  | cons n ns ih =>
    intro vals
    simp only [List.cons_append, runNodes]
    cases runNode env vals n with
    | ok v => exact ih _
    | trap => rfl
    | undef => rfl

theorem run_extends : ∀ {ns : List Node} {vals vs : List Int}, runNodes env ns vals = .ok vs →
    ∃ more, vs = vals ++ more ∧ more.length = ns.length
  | [], vals, vs, h => by cases h; exact ⟨[], by simp, rfl⟩
  | n :: ns, vals, vs, h => by
    simp only [runNodes] at h
    cases hr : runNode env vals n with
    | trap => rw [hr] at h; cases h
    | undef => rw [hr] at h; cases h
    | ok v =>
      rw [hr] at h
      obtain ⟨more, h₁, h₂⟩ := run_extends h
      exact ⟨v :: more, by simp [h₁], by simp [h₂]⟩

theorem run_length {ns : List Node} {vs : List Int} (h : runNodes env ns [] = .ok vs) :
    vs.length = ns.length := by
  obtain ⟨more, h₁, h₂⟩ := run_extends h
  simp [h₁, h₂]

/-- When the nodes have run, the result of each is what its operation computes from the results
its operands stand for. -/
theorem run_node {ns : List Node} {vs : List Int} (h : runNodes env ns [] = .ok vs) {i : Nat}
    {n : Node} (hn : ns[i]? = some n) :
    ∃ xs v, valuesOf env vs n.args = some xs ∧ n.op.meaning n.ty xs = .ok v ∧
      vs[i]? = some v := by
  obtain ⟨hi, hni⟩ := List.getElem?_eq_some_iff.1 hn
  have hsplit : ns = ns.take i ++ n :: ns.drop (i + 1) := by
    rw [← hni, List.getElem_cons_drop, List.take_append_drop]
  rw [hsplit, runNodes_append] at h
  cases hr : runNodes env (ns.take i) [] with
  | trap => rw [hr] at h; cases h
  | undef => rw [hr] at h; cases h
  | ok vals =>
    rw [hr] at h
    have hlen := run_length hr
    simp only [Out.bind, runNodes] at h
    cases hrn : runNode env vals n with
    | trap => rw [hrn] at h; cases h
    | undef => rw [hrn] at h; cases h
    | ok v =>
      rw [hrn] at h
      obtain ⟨more, h₁, -⟩ := run_extends h
      unfold runNode at hrn
      cases hv : valuesOf env vals n.args with
      | none => rw [hv] at hrn; cases hrn
      | some xs =>
        rw [hv] at hrn
        refine ⟨xs, v, ?_, hrn, ?_⟩
        · rw [h₁, List.append_assoc]
          exact valuesOf_append _ hv
        · rw [h₁, List.append_assoc, List.getElem?_append_right (by rw [hlen]; simp; omega)]
          have : i - vals.length = 0 := by rw [hlen]; simp; omega
          rw [this]; rfl

/-! ### The invariant of a unit -/

/-- The state of a unit while it is being built, for one assignment of the parameters: its nodes
run, and every stamp contains the value it is about. -/
structure Consistent (env : Nat → Int) (u : MUnit) (vals : List Int) : Prop where
  run : runNodes env u.nodes [] = .ok vals
  params : ∀ (i : Nat) s, u.params[i]? = some s → Within s (env i) ∧ ValidStamp s
  stamps : ∀ (i : Nat) n v, u.nodes[i]? = some n → vals[i]? = some v →
    Within n.stamp v ∧ ValidStamp n.stamp

theorem fits_small (id : Fin 268435456) : Fits ((id.val : Int) - bias) := by
  have := id.isLt
  unfold Fits i64min i64max bias; omega

theorem valid_none : ValidStamp none := by intro s h; cases h

theorem valid_point {c : Int} (h : Fits c) : ValidStamp (intStamp c c) := by
  intro s hs; cases hs; exact ⟨h, h, Int.le_refl _⟩

theorem within_point (c : Int) : Within (intStamp c c) c :=
  within_some (Int.le_refl _) (Int.le_refl _)

theorem getStamp_sound {u : MUnit} {vals : List Int} (hc : Consistent env u vals) {v : Value}
    {x : Int} (hv : valueOf env vals v = some x) :
    Within (getStamp u v) x ∧ ValidStamp (getStamp u v) := by
  cases v with
  | const id =>
    simp only [valueOf, Option.some.injEq] at hv
    subst hv
    exact ⟨within_point _, valid_point (fits_small id)⟩
  | enum id => exact ⟨within_none _, valid_none⟩
  | param i =>
    simp only [valueOf, Option.some.injEq] at hv
    subst hv
    simp only [getStamp]
    split
    · next s h => exact hc.params i s h
    · exact ⟨within_none _, valid_none⟩
  | node i =>
    simp only [valueOf] at hv
    simp only [getStamp]
    split
    · next n h => exact hc.stamps i n x h hv
    · exact ⟨within_none _, valid_none⟩

theorem reg_ok {x z : Int} (h : reg x = .ok z) : z = x ∧ Fits x := by
  unfold reg at h
  split at h
  · next hf => cases h; exact ⟨rfl, hf⟩
  · cases h

theorem reg_not_trap (x : Int) : reg x ≠ .trap := by
  unfold reg; split <;> exact fun h => by cases h

theorem meaning_const {ty : Ty} {c : Int} {xs : List Int} {z : Int}
    (h : (Op.const c).meaning ty xs = .ok z) : z = c := by
  cases xs with
  | nil => exact (reg_ok h).1
  | cons => cases h

theorem getConst_sound {u : MUnit} {vals : List Int} (hc : Consistent env u vals) {v : Value}
    {x c : Int} (hv : valueOf env vals v = some x) (h : getConst u v = some c) : x = c := by
  cases v with
  | const id => simp only [valueOf, getConst, Option.some.injEq] at hv h; omega
  | enum id => simp only [valueOf, getConst, Option.some.injEq] at hv h; omega
  | param i => cases h
  | node i =>
    simp only [valueOf] at hv
    simp only [getConst] at h
    split at h
    · next n hn =>
      obtain ⟨xs, w, -, h₂, h₃⟩ := run_node hc.run hn
      split at h
      · next k hk =>
        rw [hk] at h₂
        have := meaning_const h₂
        rw [hv] at h₃
        cases h; cases h₃; exact this
      · cases h
    · cases h

/-! ### What it means to build correctly -/

/-- Nodes are only added at the end. -/
def Extends (u w : MUnit) : Prop := w.params = u.params ∧ ∃ ns, w.nodes = u.nodes ++ ns

theorem Extends.refl (u : MUnit) : Extends u u := ⟨rfl, [], by simp⟩

theorem Extends.trans {a b c : MUnit} (h : Extends a b) (h' : Extends b c) : Extends a c := by
  obtain ⟨h₁, ns, h₂⟩ := h
  obtain ⟨h₃, ms, h₄⟩ := h'
  exact ⟨h₃.trans h₁, ns ++ ms, by simp [h₄, h₂]⟩

theorem Extends.trap {a b : MUnit} (h : Extends a b) (ht : runNodes env a.nodes [] = .trap) :
    runNodes env b.nodes [] = .trap := by
  obtain ⟨-, ns, h⟩ := h
  rw [h, runNodes_append, ht]; rfl

/-- What was built from unit `u` computes `o`: a value in the place that was returned, or a trap;
if `o` is undefined anything is allowed. -/
def Computes (env : Nat → Int) (vals : List Int) (o : Out Int) (p : MUnit × Value) : Prop :=
  match o with
  | .ok x => ∃ more, Consistent env p.1 (vals ++ more) ∧ valueOf env (vals ++ more) p.2 = some x
  | .trap => runNodes env p.1.nodes [] = .trap
  | .undef => True

theorem addNode_extends (u : MUnit) (op : Op) (ty : Ty) (st : Option Stamp) (args : List Value) :
    Extends u (addNode u op ty st args).1 := ⟨rfl, _, rfl⟩

theorem mkConst_extends (u : MUnit) (ty : Ty) (c : Int) : Extends u (mkConst u ty c).1 := by
  unfold mkConst
  split
  · exact Extends.refl u
  · exact addNode_extends ..

/-- A node computes what its operation computes, if its stamp is right. -/
theorem computes_node {u : MUnit} {vals : List Int} (hc : Consistent env u vals) {op : Op} {ty : Ty}
    {st : Option Stamp} {args : List Value} {xs : List Int}
    (hargs : valuesOf env vals args = some xs)
    (hst : ∀ z, op.meaning ty xs = .ok z → Within st z ∧ ValidStamp st) :
    Computes env vals (op.meaning ty xs) (addNode u op ty st args) := by
  have hlen := run_length hc.run
  have hrun : runNodes env (addNode u op ty st args).1.nodes [] =
      (op.meaning ty xs).bind fun v => .ok (vals ++ [v]) := by
    simp only [addNode, runNodes_append, hc.run, Out.bind, runNodes, runNode, hargs]
  cases hm : op.meaning ty xs with
  | undef => trivial
  | trap => rw [hm] at hrun; exact hrun
  | ok z =>
    rw [hm] at hrun
    refine ⟨[z], ⟨hrun, hc.params, ?_⟩, ?_⟩
    · intro i n v hn hv
      simp only [addNode] at hn
      by_cases hi : i < u.nodes.length
      · rw [List.getElem?_append_left hi] at hn
        rw [List.getElem?_append_left (by omega)] at hv
        exact hc.stamps i n v hn hv
      · rw [List.getElem?_append_right (by omega)] at hn
        rw [List.getElem?_append_right (by omega)] at hv
        have h0 : i - u.nodes.length = 0 := by
          by_cases h0 : i - u.nodes.length = 0
          · exact h0
          · rw [List.getElem?_eq_none (by simp; omega)] at hn; cases hn
        have h1 : i - vals.length = 0 := by omega
        rw [h0] at hn
        rw [h1] at hv
        simp only [List.getElem?_cons_zero, Option.some.injEq] at hn hv
        subst hn; subst hv
        exact hst _ hm
    · simp only [addNode, valueOf]
      rw [← hlen, List.getElem?_append_right (by omega)]
      simp

/-- A value that exists already may be returned if it is what the operation computes. -/
theorem computes_value {u : MUnit} {vals : List Int} (hc : Consistent env u vals) {v : Value}
    {x : Int} {o : Out Int} (hv : valueOf env vals v = some x)
    (h : ∀ z, o = .ok z → z = x) (ht : o ≠ .trap) : Computes env vals o (u, v) := by
  cases ho : o with
  | undef => trivial
  | trap => exact absurd ho ht
  | ok z =>
    rw [h z ho]
    exact ⟨[], by simpa using hc, by simpa using hv⟩

/-- A constant may be returned if it is what the operation computes. -/
theorem computes_const {u : MUnit} {vals : List Int} (hc : Consistent env u vals) (ty : Ty)
    {c : Int} {o : Out Int} (h : ∀ z, o = .ok z → z = c ∧ Fits c) (ht : o ≠ .trap) :
    Computes env vals o (mkConst u ty c) := by
  cases ho : o with
  | undef => trivial
  | trap => exact absurd ho ht
  | ok z =>
    obtain ⟨hz, hf⟩ := h z ho
    subst hz
    unfold mkConst
    split
    · next hs =>
      refine computes_value hc (x := z) ?_ (fun w hw => by cases hw; rfl) (fun h => by cases h)
      simp only [valueOf, Option.some.injEq]
      unfold bias at *
      simp only [Fin.ofNat]
      omega
    · have : Computes env vals ((Op.const z).meaning ty []) _ :=
        computes_node hc (op := .const z) (ty := ty) (st := intStamp z z) (args := []) (xs := [])
          rfl (fun w hw => by
            rw [meaning_const hw]; exact ⟨within_point _, valid_point hf⟩)
      simpa only [Op.meaning, reg, if_pos hf] using this

/-! ### Where folding is right -/

/-- The foldings and stamps of an operation with one operand that are right: a cast to a range that
does not contain all values the operand may have gives a wrong stamp. -/
def Sound1 (u : MUnit) (op : Op) (ty : Ty) (v : Value) : Prop :=
  match op with
  | .cast => getStamp u v = none ∨ getConst u v ≠ none ∨
      ∃ s, getStamp u v = some s ∧ ty.low ≤ s.low ∧ s.high ≤ ty.high
  | _ => True

/-- Both operands are constant and the result does not fit the type. -/
def FoldsOverflow (u : MUnit) (ty : Ty) (l r : Value) (f : Int → Int → Int) : Prop :=
  ∃ a b, getConst u l = some a ∧ getConst u r = some b ∧ ¬ ty.repr.Has (f a b)

/-- The foldings and stamps of an operation with two operands that are right:

* a trapping addition or subtraction of two constants must not overflow the type,
* a subtraction must not subtract from the constant zero,
* a trapping multiplication must not be folded nor get a stamp at all,
* the divisor of a remainder must have a range that is not below the negative of its upper bound. -/
def Sound2 (u : MUnit) (op : Op) (ty : Ty) (l r : Value) : Prop :=
  match op with
  | .trapAdd => ¬ FoldsOverflow u ty l r (· + ·)
  | .sub => getConst u l ≠ some 0
  | .trapSub => getConst u l ≠ some 0 ∧ ¬ FoldsOverflow u ty l r (· - ·)
  | .trapMul => getConst u l ≠ some 0 ∧ getConst u r ≠ some 0 ∧
      (getConst u l = none ∨ getConst u r = none) ∧ l ≠ r ∧
      (getStamp u l = none ∨ getStamp u r = none)
  | .rem => ∀ s, getStamp u r = some s → -s.high ≤ s.low
  | _ => True

/-- A selection gets a right stamp if both or neither of its values has one. -/
def SoundSelect (u : MUnit) (t a b : Value) : Prop :=
  getConst u t ≠ none ∨ a = b ∨ ((getStamp u a = none ↔ getStamp u b = none))

theorem valuesOf_one {vals : List Int} {v : Value} {x : Int} (h : valueOf env vals v = some x) :
    valuesOf env vals [v] = some [x] := by simp only [valuesOf, h]

theorem valuesOf_two {vals : List Int} {l r : Value} {x y : Int}
    (hl : valueOf env vals l = some x) (hr : valueOf env vals r = some y) :
    valuesOf env vals [l, r] = some [x, y] := by simp only [valuesOf, hl, hr]

theorem valuesOf_three {vals : List Int} {t l r : Value} {c x y : Int}
    (ht : valueOf env vals t = some c)
    (hl : valueOf env vals l = some x) (hr : valueOf env vals r = some y) :
    valuesOf env vals [t, l, r] = some [c, x, y] := by simp only [valuesOf, ht, hl, hr]

theorem checked_ok {r : Rep} {x z : Int} (h : checked r x = .ok z) :
    z = x ∧ Fits x ∧ r.Has x := by
  unfold checked at h
  split at h
  · next hr => exact ⟨(reg_ok h).1, (reg_ok h).2, hr⟩
  · cases h

theorem checked_trap {r : Rep} {x : Int} (h : checked r x = .trap) : ¬ r.Has x := by
  unfold checked at h
  split at h
  · exact absurd h (reg_not_trap _)
  · assumption

/-- Outcomes that allow a value to be used in place of the operation. -/
theorem guard_ok {c : Prop} [Decidable c] {o : Out Int} {z : Int}
    (h : (if c then o else .undef) = .ok z) : c ∧ o = .ok z := by
  split at h
  · exact ⟨by assumption, h⟩
  · cases h

theorem guard_trap {c : Prop} [Decidable c] {o : Out Int}
    (h : (if c then o else .undef) = .trap) : c ∧ o = .trap := by
  split at h
  · exact ⟨by assumption, h⟩
  · cases h

theorem guard_ok' {c : Prop} [Decidable c] {o : Out Int} {z : Int}
    (h : (if c then .undef else o) = .ok z) : ¬ c ∧ o = .ok z := by
  split at h
  · cases h
  · exact ⟨by assumption, h⟩

theorem guard_trap' {c : Prop} [Decidable c] {o : Out Int}
    (h : (if c then .undef else o) = .trap) : ¬ c ∧ o = .trap := by
  split at h
  · cases h
  · exact ⟨by assumption, h⟩

/-- The comment in `mir_build_mod`: for operands that are not negative `mod` is `rem`. -/
theorem fmod_eq_tmod {x y : Int} (hx : 0 ≤ x) (hy : 0 ≤ y) : x.fmod y = x.tmod y := by
  rw [Int.fmod_eq_emod_of_nonneg _ hy, Int.tmod_eq_emod_of_nonneg hx]

theorem rep_one (q : Rep) : q.Has 1 ∧ q.Has 0 := by cases q <;> decide

section Operations

variable {u : MUnit} {vals : List Int} (hc : Consistent env u vals) {l r : Value} {x y : Int}
  (hl : valueOf env vals l = some x) (hr : valueOf env vals r = some y) (ty : Ty)

include hc hl hr

theorem add_node {op : Op} (hop : ∀ z, op.meaning ty [x, y] = .ok z → z = x + y ∧ Fits (x + y)) :
    Computes env vals (op.meaning ty [x, y])
      (addNode u op ty (stampAdd (getStamp u l) (getStamp u r)) [l, r]) := by
  refine computes_node hc (valuesOf_two hl hr) fun z hz => ?_
  obtain ⟨h₁, h₂⟩ := hop z hz
  obtain ⟨wl, vl⟩ := getStamp_sound hc hl
  obtain ⟨wr, vr⟩ := getStamp_sound hc hr
  rw [h₁]
  exact ⟨stampAdd_sound vl wl wr h₂, (stamp_valid vl vr).1⟩

theorem buildAddOp_computes {op : Op}
    (hop : ∀ z, op.meaning ty [x, y] = .ok z → z = x + y ∧ Fits (x + y))
    (htrap : (getConst u l = some 0 ∨ getConst u r = some 0 ∨
      (getConst u l = some x ∧ getConst u r = some y)) → op.meaning ty [x, y] ≠ .trap) :
    Computes env vals (op.meaning ty [x, y]) (buildAddOp u op ty l r) := by
  unfold buildAddOp
  split
  · next a b ha hb =>
    have hx := getConst_sound hc hl ha
    have hy := getConst_sound hc hr hb
    subst hx; subst hy
    have ht := htrap (.inr (.inr ⟨ha, hb⟩))
    split
    · next h0 =>
      exact computes_value hc hr (fun z hz => by have := (hop z hz).1; omega) ht
    · split
      · next h0 =>
        exact computes_value hc hl (fun z hz => by have := (hop z hz).1; omega) ht
      · split
        · next hf => exact computes_const hc ty (fun z hz => ⟨(hop z hz).1, hf⟩) ht
        · exact add_node hc hl hr ty hop
  · next a ha hb =>
    have hx := getConst_sound hc hl ha
    subst hx
    split
    · next h0 =>
      refine computes_value hc hr (fun z hz => by have := (hop z hz).1; omega)
        (htrap (.inl (by rw [ha, h0])))
    · exact add_node hc hl hr ty hop
  · next b ha hb =>
    have hy := getConst_sound hc hr hb
    subst hy
    split
    · next h0 =>
      exact computes_value hc hl (fun z hz => by have := (hop z hz).1; omega)
        (htrap (.inr (.inl (by rw [hb, h0]))))
    · exact add_node hc hl hr ty hop
  · exact add_node hc hl hr ty hop

theorem sub_rest {op : Op} (hop : ∀ z, op.meaning ty [x, y] = .ok z → z = x - y ∧ Fits (x - y))
    (htrap : x = y → op.meaning ty [x, y] ≠ .trap) :
    Computes env vals (op.meaning ty [x, y]) (buildSubRest u op ty l r) := by
  unfold buildSubRest
  split
  · next he =>
    subst he
    have hxy : x = y := by rw [hl] at hr; cases hr; rfl
    exact computes_const hc ty (fun z hz => ⟨by have := (hop z hz).1; omega, by decide⟩)
      (htrap hxy)
  · refine computes_node hc (valuesOf_two hl hr) fun z hz => ?_
    obtain ⟨h₁, h₂⟩ := hop z hz
    obtain ⟨wl, vl⟩ := getStamp_sound hc hl
    obtain ⟨wr, vr⟩ := getStamp_sound hc hr
    rw [h₁]
    exact ⟨stampSub_sound vl wl wr h₂, (stamp_valid vl vr).2.1⟩

theorem buildSubOp_computes {op : Op}
    (hop : ∀ z, op.meaning ty [x, y] = .ok z → z = x - y ∧ Fits (x - y))
    (h0 : getConst u l ≠ some 0)
    (htrap : (getConst u r = some 0 ∨ x = y ∨
      (getConst u l = some x ∧ getConst u r = some y)) → op.meaning ty [x, y] ≠ .trap) :
    Computes env vals (op.meaning ty [x, y]) (buildSubOp u op ty l r) := by
  have hrest := sub_rest hc hl hr ty hop (fun h => htrap (.inr (.inl h)))
  unfold buildSubOp
  split
  · next a b ha hb =>
    have hx := getConst_sound hc hl ha
    have hy := getConst_sound hc hr hb
    subst hx; subst hy
    have ht := htrap (.inr (.inr ⟨ha, hb⟩))
    split
    · next h => exact absurd (h ▸ ha) h0
    · split
      · next h =>
        exact computes_value hc hl (fun z hz => by have := (hop z hz).1; omega) ht
      · split
        · next hf => exact computes_const hc ty (fun z hz => ⟨(hop z hz).1, hf⟩) ht
        · exact hrest
  · next a ha hb =>
    split
    · next h => exact absurd (h ▸ ha) h0
    · exact hrest
  · next b ha hb =>
    have hy := getConst_sound hc hr hb
    subst hy
    split
    · next h =>
      exact computes_value hc hl (fun z hz => by have := (hop z hz).1; omega)
        (htrap (.inl (by rw [hb, h])))
    · exact hrest
  · exact hrest

theorem buildMulOp_computes : Computes env vals (Op.mul.meaning ty [x, y])
    (buildMulOp u .mul ty l r) := by
  have hop : ∀ z, Op.mul.meaning ty [x, y] = .ok z → z = x * y ∧ Fits (x * y) :=
    fun z h => reg_ok h
  have ht : Op.mul.meaning ty [x, y] ≠ .trap := reg_not_trap _
  have hnode : Computes env vals (Op.mul.meaning ty [x, y])
      (addNode u .mul ty (stampMul (getStamp u l) (getStamp u r)) [l, r]) := by
    refine computes_node hc (valuesOf_two hl hr) fun z hz => ?_
    obtain ⟨h₁, h₂⟩ := hop z hz
    obtain ⟨wl, vl⟩ := getStamp_sound hc hl
    obtain ⟨wr, vr⟩ := getStamp_sound hc hr
    rw [h₁]
    exact ⟨stampMul_sound wl wr h₂, (stamp_valid vl vr).2.2.1⟩
  have hleft : x = 0 → Computes env vals (Op.mul.meaning ty [x, y]) (u, l) := fun h =>
    computes_value hc hl (fun z hz => by rw [(hop z hz).1, h]; simp) ht
  have hright : y = 0 → Computes env vals (Op.mul.meaning ty [x, y]) (u, r) := fun h =>
    computes_value hc hr (fun z hz => by rw [(hop z hz).1, h]; simp) ht
  unfold buildMulOp
  split
  · next a b ha hb =>
    have hx := getConst_sound hc hl ha
    have hy := getConst_sound hc hr hb
    subst hx; subst hy
    split
    · next h => exact hleft h
    · split
      · next h => exact hright h
      · split
        · next hf => exact computes_const hc ty (fun z hz => ⟨(hop z hz).1, hf⟩) ht
        · exact hnode
  · next a ha hb =>
    have hx := getConst_sound hc hl ha
    subst hx
    split
    · next h => exact hleft h
    · exact hnode
  · next b ha hb =>
    have hy := getConst_sound hc hr hb
    subst hy
    split
    · next h => exact hright h
    · exact hnode
  · exact hnode

theorem buildDiv_computes : Computes env vals (Op.div.meaning ty [x, y]) (buildDiv u ty l r) := by
  have ht : Op.div.meaning ty [x, y] ≠ .trap := fun h => reg_not_trap _ (guard_trap' h).2
  have hnode : Computes env vals (Op.div.meaning ty [x, y])
      (addNode u .div ty (stampDiv (getStamp u l) (getStamp u r)) [l, r]) :=
    computes_node hc (valuesOf_two hl hr) fun z _ => ⟨within_none _, valid_none⟩
  unfold buildDiv
  split
  · next a b ha hb =>
    have hx := getConst_sound hc hl ha
    have hy := getConst_sound hc hr hb
    subst hx; subst hy
    split
    · exact computes_const hc ty (fun z hz => reg_ok (guard_ok' hz).2) ht
    · exact hnode
  · next b ha hb =>
    have hy := getConst_sound hc hr hb
    subst hy
    split
    · next h =>
      refine computes_value hc hl (fun z hz => ?_) ht
      rw [(reg_ok (guard_ok' hz).2).1, h, Int.tdiv_one]
    · exact hnode
  · exact hnode

theorem remConst_sound {c : Int} (h : remConst u l r = some c) : x > 0 ∧ y > 0 ∧ c = x.tmod y := by
  unfold remConst at h
  split at h
  · next a b ha hb =>
    have hx := getConst_sound hc hl ha
    have hy := getConst_sound hc hr hb
    subst hx; subst hy
    split at h
    · next hp => cases h; exact ⟨hp.1, hp.2, rfl⟩
    · cases h
  · cases h

theorem buildRem_computes (hs : ∀ s, getStamp u r = some s → -s.high ≤ s.low) :
    Computes env vals (Op.rem.meaning ty [x, y]) (buildRem u ty l r) := by
  have ht : Op.rem.meaning ty [x, y] ≠ .trap := fun h => reg_not_trap _ (guard_trap' h).2
  unfold buildRem
  split
  · next c h =>
    obtain ⟨-, -, rfl⟩ := remConst_sound hc hl hr h
    exact computes_const hc ty (fun z hz => reg_ok (guard_ok' hz).2) ht
  · refine computes_node hc (valuesOf_two hl hr) fun z hz => ?_
    obtain ⟨h0, hz⟩ := guard_ok' hz
    obtain ⟨h₁, h₂⟩ := reg_ok hz
    obtain ⟨wl, vl⟩ := getStamp_sound hc hl
    obtain ⟨wr, vr⟩ := getStamp_sound hc hr
    rw [h₁]
    exact ⟨stampRem_sound_partial wl wr h0 hs, (stamp_valid vl vr).2.2.2.2.1⟩

theorem buildMod_computes : Computes env vals (Op.mod.meaning ty [x, y]) (buildMod u ty l r) := by
  have ht : Op.mod.meaning ty [x, y] ≠ .trap := fun h => reg_not_trap _ (guard_trap' h).2
  have hmod : Computes env vals (Op.mod.meaning ty [x, y]) (addNode u .mod ty none [l, r]) :=
    computes_node hc (valuesOf_two hl hr) fun z _ => ⟨within_none _, valid_none⟩
  obtain ⟨wl, vl⟩ := getStamp_sound hc hl
  obtain ⟨wr, vr⟩ := getStamp_sound hc hr
  unfold buildMod
  split
  · next c h =>
    obtain ⟨h₁, h₂, rfl⟩ := remConst_sound hc hl hr h
    refine computes_const hc ty (fun z hz => ?_) ht
    rw [← fmod_eq_tmod (by omega) (by omega)]
    exact reg_ok (guard_ok' hz).2
  · split
    · next a b ha hb =>
      rw [ha] at wl vl
      rw [hb] at wr vr
      have := wl a rfl
      have := wr b rfl
      split
      · next hn =>
        have he : Op.mod.meaning ty [x, y] = Op.rem.meaning ty [x, y] := by
          simp only [Op.meaning, fmod_eq_tmod (show 0 ≤ x by omega) (show 0 ≤ y by omega)]
        rw [he]
        refine computes_node hc (valuesOf_two hl hr) fun z hz => ?_
        obtain ⟨h0, hz⟩ := guard_ok' hz
        obtain ⟨h₁, h₂⟩ := reg_ok hz
        rw [h₁]
        refine ⟨stampRem_sound_partial wl wr h0 ?_, (stamp_valid vl vr).2.2.2.2.1⟩
        intro s hs; cases hs
        have := (vr b rfl).2.2
        omega
      · exact hmod
    · exact hmod

theorem buildTrapExp_computes :
    Computes env vals (Op.trapExp.meaning ty [x, y]) (buildTrapExp u ty l r) := by
  have hnode : Computes env vals (Op.trapExp.meaning ty [x, y])
      (addNode u .trapExp ty none [l, r]) :=
    computes_node hc (valuesOf_two hl hr) fun z _ => ⟨within_none _, valid_none⟩
  unfold buildTrapExp
  split
  · next b hb =>
    have hy := getConst_sound hc hr hb
    subst hy
    split
    · next h =>
      subst h
      refine computes_const hc ty (fun z hz => ?_) fun hz => ?_
      · have := checked_ok (guard_ok hz).2
        simp at this
        exact ⟨this.1, this.2.1⟩
      · have := checked_trap (guard_trap hz).2
        exact this (by simpa using (rep_one ty.repr).1)
    · split
      · next h =>
        subst h
        refine computes_value hc hl (fun z hz => ?_) fun hz => ?_
        · have := checked_ok (guard_ok hz).2
          simp [Int.pow_succ] at this
          exact this.1
        · have h₁ := guard_trap hz
          have := checked_trap h₁.2
          exact this (by simpa [Int.pow_succ] using h₁.1.1)
      · exact hnode
  · exact hnode

/-! ### Logical operations -/

theorem logic_node {op : Op} (ty' : Ty) : Computes env vals (op.meaning ty' [x, y])
    (addNode u op ty' none [l, r]) :=
  computes_node hc (valuesOf_two hl hr) fun _ _ => ⟨within_none _, valid_none⟩

end Operations

/-- The meaning of a logical operation of two operands does not depend on the type, is a Boolean,
and never traps. -/
theorem logic_ok {x y z : Int} {p : Prop} [Decidable p]
    (h : (if IsBit x ∧ IsBit y then Out.ok (truth p) else .undef) = .ok z) :
    IsBit x ∧ IsBit y ∧ ((p ∧ z = 1) ∨ (¬ p ∧ z = 0)) := by
  obtain ⟨⟨h₁, h₂⟩, h₃⟩ := guard_ok h
  cases h₃
  exact ⟨h₁, h₂, truth_cases p⟩

theorem logic_not_trap {x y : Int} {p : Prop} [Decidable p] :
    (if IsBit x ∧ IsBit y then Out.ok (truth p) else .undef) ≠ .trap := by
  intro h
  cases (guard_trap h).2

theorem fits_bit {c : Int} (h : IsBit c) : Fits c := by
  unfold Fits i64min i64max; rcases h with h | h <;> omega

theorem bit_cases (b : Bool) : (b = true ∧ bit b = 1) ∨ (b = false ∧ bit b = 0) := by
  cases b
  · exact .inr ⟨rfl, rfl⟩
  · exact .inl ⟨rfl, rfl⟩

theorem isBit_bit (b : Bool) : IsBit (bit b) := by
  cases b
  · exact .inl rfl
  · exact .inr rfl

section Logic

variable {u : MUnit} {vals : List Int} (hc : Consistent env u vals) {l r : Value} {x y : Int}
  (hl : valueOf env vals l = some x) (hr : valueOf env vals r = some y)

include hc hl hr

theorem buildAnd_computes : Computes env vals (Op.and.meaning tBool [x, y]) (buildAnd u l r) := by
  unfold buildAnd
  split
  · next a b ha hb =>
    obtain rfl := getConst_sound hc hl ha
    obtain rfl := getConst_sound hc hr hb
    refine computes_const hc _ (fun z hz => ⟨?_, fits_bit (isBit_bit _)⟩) logic_not_trap
    obtain ⟨hx, hy, h⟩ := logic_ok hz
    rcases hx with rfl | rfl <;> rcases hy with rfl | rfl <;> simp [bit] at h ⊢ <;> exact h
  · next a ha hb =>
    obtain rfl := getConst_sound hc hl ha
    split
    · next h0 =>
      refine computes_value hc hr (fun z hz => ?_) logic_not_trap
      obtain ⟨hx, hy, h⟩ := logic_ok hz
      rcases hx with rfl | rfl <;> rcases hy with rfl | rfl <;> simp at h h0 ⊢ <;> omega
    · next h0 =>
      refine computes_const hc _ (fun z hz => ⟨?_, by decide⟩) logic_not_trap
      obtain ⟨hx, hy, h⟩ := logic_ok hz
      rcases hx with rfl | rfl <;> rcases hy with rfl | rfl <;> simp at h h0 ⊢ <;> omega
  · next b ha hb =>
    obtain rfl := getConst_sound hc hr hb
    split
    · next h0 =>
      refine computes_value hc hl (fun z hz => ?_) logic_not_trap
      obtain ⟨hx, hy, h⟩ := logic_ok hz
      rcases hx with rfl | rfl <;> rcases hy with rfl | rfl <;> simp at h h0 ⊢ <;> omega
    · next h0 =>
      refine computes_const hc _ (fun z hz => ⟨?_, by decide⟩) logic_not_trap
      obtain ⟨hx, hy, h⟩ := logic_ok hz
      rcases hx with rfl | rfl <;> rcases hy with rfl | rfl <;> simp at h h0 ⊢ <;> omega
  · exact logic_node hc hl hr tBool

theorem buildOr_computes : Computes env vals (Op.or.meaning tBool [x, y]) (buildOr u l r) := by
  unfold buildOr
  split
  · next a b ha hb =>
    obtain rfl := getConst_sound hc hl ha
    obtain rfl := getConst_sound hc hr hb
    refine computes_const hc _ (fun z hz => ⟨?_, fits_bit (isBit_bit _)⟩) logic_not_trap
    obtain ⟨hx, hy, h⟩ := logic_ok hz
    rcases hx with rfl | rfl <;> rcases hy with rfl | rfl <;> simp [bit] at h ⊢ <;> exact h
  · next a ha hb =>
    obtain rfl := getConst_sound hc hl ha
    split
    · next h0 =>
      refine computes_const hc _ (fun z hz => ⟨?_, by decide⟩) logic_not_trap
      obtain ⟨hx, hy, h⟩ := logic_ok hz
      rcases hx with rfl | rfl <;> rcases hy with rfl | rfl <;> simp at h h0 ⊢ <;> omega
    · next h0 =>
      refine computes_value hc hr (fun z hz => ?_) logic_not_trap
      obtain ⟨hx, hy, h⟩ := logic_ok hz
      rcases hx with rfl | rfl <;> rcases hy with rfl | rfl <;> simp at h h0 ⊢ <;> omega
  · next b ha hb =>
    obtain rfl := getConst_sound hc hr hb
    split
    · next h0 =>
      refine computes_const hc _ (fun z hz => ⟨?_, by decide⟩) logic_not_trap
      obtain ⟨hx, hy, h⟩ := logic_ok hz
      rcases hx with rfl | rfl <;> rcases hy with rfl | rfl <;> simp at h h0 ⊢ <;> omega
    · next h0 =>
      refine computes_value hc hl (fun z hz => ?_) logic_not_trap
      obtain ⟨hx, hy, h⟩ := logic_ok hz
      rcases hx with rfl | rfl <;> rcases hy with rfl | rfl <;> simp at h h0 ⊢ <;> omega
  · exact logic_node hc hl hr tBool

theorem buildNand_computes : Computes env vals (Op.nand.meaning tBool [x, y]) (buildNand u l r) := by
  unfold buildNand
  split
  · next a b ha hb =>
    obtain rfl := getConst_sound hc hl ha
    obtain rfl := getConst_sound hc hr hb
    refine computes_const hc _ (fun z hz => ⟨?_, fits_bit (isBit_bit _)⟩) logic_not_trap
    obtain ⟨hx, hy, h⟩ := logic_ok hz
    rcases hx with rfl | rfl <;> rcases hy with rfl | rfl <;> simp [bit] at h ⊢ <;> exact h
  · exact logic_node hc hl hr tBool

theorem buildNor_computes : Computes env vals (Op.nor.meaning tBool [x, y]) (buildNor u l r) := by
  unfold buildNor
  split
  · next a b ha hb =>
    obtain rfl := getConst_sound hc hl ha
    obtain rfl := getConst_sound hc hr hb
    refine computes_const hc _ (fun z hz => ⟨?_, fits_bit (isBit_bit _)⟩) logic_not_trap
    obtain ⟨hx, hy, h⟩ := logic_ok hz
    rcases hx with rfl | rfl <;> rcases hy with rfl | rfl <;> simp [bit] at h ⊢ <;> exact h
  · exact logic_node hc hl hr tBool

theorem buildXor_computes : Computes env vals (Op.xor.meaning tBool [x, y]) (buildXor u l r) := by
  unfold buildXor
  split
  · next a b ha hb =>
    obtain rfl := getConst_sound hc hl ha
    obtain rfl := getConst_sound hc hr hb
    refine computes_const hc _ (fun z hz => ?_) logic_not_trap
    obtain ⟨hx, hy, h⟩ := logic_ok hz
    rcases hx with rfl | rfl <;> rcases hy with rfl | rfl <;> simp at h <;>
      exact ⟨h, by decide⟩
  · split
    · next he =>
      subst he
      have hxy : x = y := by rw [hl] at hr; cases hr; rfl
      refine computes_const hc _ (fun z hz => ⟨?_, by decide⟩) logic_not_trap
      obtain ⟨hx, hy, h⟩ := logic_ok hz
      omega
    · exact logic_node hc hl hr tBool

theorem buildXnor_computes : Computes env vals (Op.xnor.meaning tBool [x, y]) (buildXnor u l r) := by
  unfold buildXnor
  split
  · next a b ha hb =>
    obtain rfl := getConst_sound hc hl ha
    obtain rfl := getConst_sound hc hr hb
    refine computes_const hc _ (fun z hz => ⟨?_, fits_bit (isBit_bit _)⟩) logic_not_trap
    obtain ⟨hx, hy, h⟩ := logic_ok hz
    rcases hx with rfl | rfl <;> rcases hy with rfl | rfl <;> simp [bit, cxor] at h ⊢ <;> exact h
  · exact logic_node hc hl hr tBool

theorem cmpConst_eq (c : Cmp) (a b : Int) : bit (cmpConst c a b) = truth (c.Holds a b) := by
  have h : cmpConst c a b = true ↔ c.Holds a b := by
    cases c <;> simp [cmpConst, Cmp.Holds]
  rcases truth_cases (c.Holds a b) with ⟨h₁, h₂⟩ | ⟨h₁, h₂⟩
  · rw [h₂, h.2 h₁]; rfl
  · rw [h₂]
    cases hb : cmpConst c a b
    · rfl
    · exact absurd (h.1 hb) h₁

theorem truth_bit (p : Prop) [Decidable p] : IsBit (truth p) := by
  rcases truth_cases p with ⟨-, h⟩ | ⟨-, h⟩
  · exact .inr h
  · exact .inl h

theorem buildCmp_computes (c : Cmp) :
    Computes env vals ((Op.cmp c).meaning tBool [x, y]) (buildCmp u c l r) := by
  have ht : (Op.cmp c).meaning tBool [x, y] ≠ .trap := fun h => by cases h
  have hm : ∀ z, (Op.cmp c).meaning tBool [x, y] = .ok z → z = truth (c.Holds x y) :=
    fun z h => by cases h; rfl
  obtain ⟨wl, vl⟩ := getStamp_sound hc hl
  obtain ⟨wr, vr⟩ := getStamp_sound hc hr
  have hst : Computes env vals ((Op.cmp c).meaning tBool [x, y]) (buildCmpStamp u c l r) := by
    unfold buildCmpStamp
    split
    · next k hk =>
      refine computes_const hc _ (fun z hz => ?_) ht
      have := stampConst_sound (stampCmp_sound c wl wr) hk
      rw [hm z hz, this]
      exact ⟨rfl, this ▸ fits_bit (truth_bit hc hl hr _)⟩
    · refine computes_node hc (valuesOf_two hl hr) fun z hz => ?_
      rw [hm z hz]
      exact ⟨stampCmp_sound c wl wr, (stamp_valid vl vr).2.2.2.2.2.1 c⟩
  unfold buildCmp
  split
  · next a b ha hb =>
    obtain rfl := getConst_sound hc hl ha
    obtain rfl := getConst_sound hc hr hb
    refine computes_const hc _ (fun z hz => ?_) ht
    rw [hm z hz, cmpConst_eq hc hl hr]
    exact ⟨rfl, fits_bit (truth_bit hc hl hr _)⟩
  · exact hst

end Logic

/-! ### Operations with one operand, selection -/

section Unary

variable {u : MUnit} {vals : List Int} (hc : Consistent env u vals) {v : Value} {x : Int}
  (hv : valueOf env vals v = some x) (ty : Ty)

include hc hv

theorem buildNeg_computes : Computes env vals (Op.neg.meaning ty [x]) (buildNeg u ty v) := by
  unfold buildNeg
  split
  · next c h =>
    obtain rfl := getConst_sound hc hv h
    exact computes_const hc ty (fun z hz => reg_ok hz) (reg_not_trap _)
  · exact computes_node hc (valuesOf_one hv) fun z _ => ⟨within_none _, valid_none⟩

theorem buildAbs_computes : Computes env vals (Op.abs.meaning ty [x]) (buildAbs u ty v) := by
  unfold buildAbs
  split
  · next c h =>
    obtain rfl := getConst_sound hc hv h
    exact computes_const hc ty (fun z hz => reg_ok hz) (reg_not_trap _)
  · exact computes_node hc (valuesOf_one hv) fun z _ => ⟨within_none _, valid_none⟩

theorem buildTrapNeg_computes :
    Computes env vals (Op.trapNeg.meaning ty [x]) (buildTrapNeg u ty v) := by
  have hnode : Computes env vals (Op.trapNeg.meaning ty [x]) (addNode u .trapNeg ty none [v]) :=
    computes_node hc (valuesOf_one hv) fun z _ => ⟨within_none _, valid_none⟩
  unfold buildTrapNeg
  split
  · next c h =>
    obtain rfl := getConst_sound hc hv h
    split
    · next h0 =>
      have hle : ¬ x ≤ ty.repr.least := by
        have : ty.repr.least < 0 := by cases ty.repr <;> decide
        omega
      have he : Op.trapNeg.meaning ty [x] = reg (-x) := by simp only [Op.meaning, if_neg hle]
      rw [he]
      exact computes_const hc ty (fun z hz => reg_ok hz) (reg_not_trap _)
    · exact hnode
  · exact hnode

theorem buildCast_computes (hs : getStamp u v = none ∨ getConst u v ≠ none ∨
      ∃ s, getStamp u v = some s ∧ ty.low ≤ s.low ∧ s.high ≤ ty.high) :
    Computes env vals (Op.cast.meaning ty [x]) (buildCast u ty v) := by
  unfold buildCast
  split
  · exact computes_value hc hv (fun z hz => (reg_ok hz).1) (reg_not_trap _)
  · split
    · next c h =>
      obtain rfl := getConst_sound hc hv h
      exact computes_const hc ty (fun z hz => reg_ok hz) (reg_not_trap _)
    · next hn =>
      obtain ⟨w, vd⟩ := getStamp_sound hc hv
      refine computes_node hc (valuesOf_one hv) fun z hz => ?_
      rcases hs with h | h | ⟨s, h, h₁, h₂⟩
      · rw [h]; exact ⟨within_none _, valid_none⟩
      · exact absurd hn h
      · have := w s h
        have hvs := vd s h
        rw [(reg_ok hz).1]
        refine ⟨stampCast_sound_partial w (by omega) (by omega), ?_⟩
        rw [h]
        intro t ht
        simp only [stampCast, intStamp, Option.some.injEq] at ht
        subst ht
        obtain ⟨a, b, c⟩ := hvs
        rw [Int.max_eq_right h₁, Int.min_eq_right h₂]
        exact ⟨a, b, c⟩

theorem getArg_not {w : Value} (h : getOp u v = some .not) (hw : getArg u v 0 = w) :
    ∃ a, valueOf env vals w = some a ∧ IsBit a ∧ x = truth (a = 0) := by
  cases v with
  | node i =>
    simp only [valueOf] at hv
    simp only [getOp] at h
    simp only [getArg] at hw
    cases hn : u.nodes[i]? with
    | none => rw [hn] at h; cases h
    | some n =>
      rw [hn] at h hw
      simp only [Option.some.injEq] at h
      obtain ⟨xs, z, h₁, h₂, h₃⟩ := run_node hc.run hn
      rw [h] at h₂
      have hz : z = x := by rw [hv] at h₃; cases h₃; rfl
      subst hz
      match xs, h₁, h₂ with
      | [a], h₁, h₂ =>
        obtain ⟨hb, hok⟩ := guard_ok (c := IsBit a) (o := .ok (truth (a = 0))) h₂
        cases hok
        refine ⟨a, ?_, hb, rfl⟩
        match hargs : n.args, h₁ with
        | [], h₁ => cases h₁
        | p :: ps, h₁ =>
          dsimp only at hw
          rw [hargs] at hw
          simp only [List.getD_cons_zero] at hw
          subst hw
          simp only [valuesOf] at h₁
          cases hp : valueOf env vals p with
          | none => rw [hp] at h₁; cases h₁
          | some b =>
            rw [hp] at h₁
            cases hps : valuesOf env vals ps with
            | none => rw [hps] at h₁; cases h₁
            | some bs =>
              rw [hps] at h₁
              simp only [Option.some.injEq, List.cons.injEq] at h₁
              rw [h₁.1]
      | [], _, h₂ => cases h₂
      | _ :: _ :: _, _, h₂ => cases h₂
  | _ => cases h

theorem buildNot_computes : Computes env vals (Op.not.meaning tBool [x]) (buildNot u v) := by
  have hm : ∀ z, Op.not.meaning tBool [x] = .ok z →
      IsBit x ∧ ((x = 0 ∧ z = 1) ∨ (x ≠ 0 ∧ z = 0)) := by
    intro z hz
    obtain ⟨hb, hok⟩ := guard_ok (c := IsBit x) (o := .ok (truth (x = 0))) hz
    cases hok
    exact ⟨hb, truth_cases (x = 0)⟩
  have ht : Op.not.meaning tBool [x] ≠ .trap := by
    intro h
    cases (guard_trap (c := IsBit x) (o := .ok (truth (x = 0))) h).2
  unfold buildNot
  split
  · next c h =>
    obtain rfl := getConst_sound hc hv h
    refine computes_const hc _ (fun z hz => ⟨?_, fits_bit (isBit_bit _)⟩) ht
    rcases hm z hz with ⟨rfl | rfl, h⟩ <;> simp [bit] at h ⊢ <;> exact h
  · split
    · next hn =>
      obtain ⟨a, h₁, h₂, h₃⟩ := getArg_not hc hv hn rfl
      refine computes_value hc h₁ (fun z hz => ?_) ht
      have h₄ := hm z hz
      have h₅ := truth_cases (a = 0)
      rw [← h₃] at h₅
      rcases h₂ with rfl | rfl <;> omega
    · exact computes_node hc (valuesOf_one hv) fun z _ => ⟨within_none _, valid_none⟩

end Unary

theorem buildSelect_computes {u : MUnit} {vals : List Int} (hc : Consistent env u vals)
    {t a b : Value} {c x y : Int} (ht : valueOf env vals t = some c)
    (ha : valueOf env vals a = some x) (hb : valueOf env vals b = some y) (ty : Ty)
    (hs : SoundSelect u t a b) :
    Computes env vals (Op.select.meaning ty [c, x, y]) (buildSelect u ty t a b) := by
  have hm : ∀ z, Op.select.meaning ty [c, x, y] = .ok z →
      IsBit c ∧ z = (if c = 1 then x else y) := by
    intro z hz
    obtain ⟨hbit, hok⟩ := guard_ok (c := IsBit c) (o := reg (if c = 1 then x else y)) hz
    exact ⟨hbit, (reg_ok hok).1⟩
  have hnt : Op.select.meaning ty [c, x, y] ≠ .trap := fun h =>
    reg_not_trap _ (guard_trap (c := IsBit c) (o := reg (if c = 1 then x else y)) h).2
  unfold buildSelect
  split
  · next k hk =>
    obtain rfl := getConst_sound hc ht hk
    split
    · next h0 =>
      refine computes_value hc ha (fun z hz => ?_) hnt
      obtain ⟨hbit, rfl⟩ := hm z hz
      rcases hbit with h | h
      · exact absurd h h0
      · rw [if_pos h]
    · next h0 =>
      refine computes_value hc hb (fun z hz => ?_) hnt
      obtain ⟨hbit, rfl⟩ := hm z hz
      rw [if_neg (by omega)]
  · next hk =>
    split
    · next he =>
      subst he
      have hxy : x = y := by rw [ha] at hb; cases hb; rfl
      refine computes_value hc ha (fun z hz => ?_) hnt
      obtain ⟨-, rfl⟩ := hm z hz
      split
      · rfl
      · exact hxy.symm
    · next hne =>
      have hs : getStamp u a = none ↔ getStamp u b = none := by
        rcases hs with h | h | h
        · exact absurd hk h
        · exact absurd h hne
        · exact h
      obtain ⟨wa, va⟩ := getStamp_sound hc ha
      obtain ⟨wb, vb⟩ := getStamp_sound hc hb
      refine computes_node hc (valuesOf_three ht ha hb) fun z hz => ?_
      obtain ⟨-, rfl⟩ := hm z hz
      refine ⟨?_, (stamp_valid va vb).2.2.2.2.2.2⟩
      cases hsa : getStamp u a with
      | none => rw [hs.1 hsa]; exact within_none _
      | some p =>
        cases hsb : getStamp u b with
        | none => rw [hs.2 hsb] at hsa; cases hsa
        | some q =>
          rw [hsa] at wa
          rw [hsb] at wb
          apply stampUnion_sound_partial
          split
          · exact .inl wa
          · exact .inr wb

/-! ### Whole expressions -/

theorem const_or_node_extends {u : MUnit} {p : MUnit × Value}
    (h : p.1 = u ∨ (∃ ty c, p = mkConst u ty c) ∨ ∃ op ty st args, p = addNode u op ty st args) :
    Extends u p.1 := by
  rcases h with h | ⟨ty, c, rfl⟩ | ⟨op, ty, st, args, rfl⟩
  · rw [h]; exact Extends.refl u
  · exact mkConst_extends ..
  · exact addNode_extends ..

/-- Close a goal that what was returned extends the unit, by going through the cases of the
builder. -/
macro "extend" : tactic => `(tactic|
  ((repeat' split) <;>
    first | exact Extends.refl _ | exact mkConst_extends .. | exact addNode_extends ..))

theorem build1_extends (u : MUnit) (op : Op) (ty : Ty) (v : Value) :
    Extends u (build1 u op ty v).1 := by
  cases op <;> simp only [build1, buildNeg, buildTrapNeg, buildAbs, buildNot, buildCast] <;> extend

theorem build2_extends (u : MUnit) (op : Op) (ty : Ty) (l r : Value) :
    Extends u (build2 u op ty l r).1 := by
  cases op <;> simp only [build2, buildAddOp, buildSubOp, buildSubRest, buildMulOp, buildTrapMul,
    buildDiv, buildRem, buildMod, buildTrapExp, buildAnd, buildNand, buildOr, buildNor, buildXor,
    buildXnor, buildCmp, buildCmpStamp] <;> extend

theorem buildSelect_extends (u : MUnit) (ty : Ty) (t a b : Value) :
    Extends u (buildSelect u ty t a b).1 := by
  simp only [buildSelect]; extend

theorem build_extends (e : Expr) : ∀ u : MUnit, Extends u (build u e).1 := by
  induction e with
  | const ty v => intro u; exact mkConst_extends ..
  | param i => intro u; exact Extends.refl u
  | un op ty a ih => intro u; exact (ih u).trans (build1_extends ..)
  | bin op ty a b iha ihb =>
    intro u; exact ((iha u).trans (ihb _)).trans (build2_extends ..)
  | select ty t a b iht iha ihb =>
    intro u
    exact (((iht u).trans (iha _)).trans (ihb _)).trans (buildSelect_extends ..)

theorem build1_computes {u : MUnit} {vals : List Int} (hc : Consistent env u vals) {v : Value}
    {x : Int} (hv : valueOf env vals v = some x) (op : Op) (ty : Ty) (hs : Sound1 u op ty v) :
    Computes env vals (op.meaning ty [x]) (build1 u op ty v) := by
  cases op with
  | neg => exact buildNeg_computes hc hv ty
  | trapNeg => exact buildTrapNeg_computes hc hv ty
  | abs => exact buildAbs_computes hc hv ty
  | not => exact buildNot_computes hc hv
  | cast => exact buildCast_computes hc hv ty hs
  | _ => trivial

theorem build2_computes {u : MUnit} {vals : List Int} (hc : Consistent env u vals) {l r : Value}
    {x y : Int} (hl : valueOf env vals l = some x) (hr : valueOf env vals r = some y) (op : Op)
    (ty : Ty) (hs : Sound2 u op ty l r) :
    Computes env vals (op.meaning ty [x, y]) (build2 u op ty l r) := by
  have h0 : ∀ {v : Value} {z c : Int}, valueOf env vals v = some z → getConst u v = some c →
      z = c := fun h h' => getConst_sound hc h h'
  cases op with
  | add =>
    exact buildAddOp_computes hc hl hr ty (fun z hz => reg_ok hz) (fun _ => reg_not_trap _)
  | trapAdd =>
    refine buildAddOp_computes hc hl hr ty (fun z hz => ?_) fun h ht => ?_
    · have := checked_ok (guard_ok hz).2
      exact ⟨this.1, this.2.1⟩
    · have hg := guard_trap ht
      have hn := checked_trap hg.2
      rcases h with h | h | ⟨h, h'⟩
      · have := h0 hl h; subst this
        rw [Int.zero_add] at hn; exact hn hg.1.2
      · have := h0 hr h; subst this
        rw [Int.add_zero] at hn; exact hn hg.1.1
      · exact hs ⟨x, y, h, h', hn⟩
  | sub =>
    exact buildSubOp_computes hc hl hr ty (fun z hz => reg_ok hz) hs (fun _ => reg_not_trap _)
  | trapSub =>
    refine buildSubOp_computes hc hl hr ty (fun z hz => ?_) hs.1 fun h ht => ?_
    · have := checked_ok (guard_ok hz).2
      exact ⟨this.1, this.2.1⟩
    · have hg := guard_trap ht
      have hn := checked_trap hg.2
      rcases h with h | h | ⟨h, h'⟩
      · have := h0 hr h; subst this
        rw [Int.sub_zero] at hn; exact hn hg.1.1
      · subst h
        rw [Int.sub_self] at hn; exact hn (rep_one _).2
      · exact hs.2 ⟨x, y, h, h', hn⟩
  | mul => exact buildMulOp_computes hc hl hr ty
  | trapMul =>
    obtain ⟨h₁, h₂, h₃, h₄, h₅⟩ := hs
    have hb : build2 u .trapMul ty l r = addNode u .trapMul ty none [l, r] := by
      have hst : stampSub (getStamp u l) (getStamp u r) = none := by
        rcases h₅ with h | h
        · rw [h]; rfl
        · rw [h]; cases getStamp u l <;> rfl
      have hrest : buildSubRest u .trapMul ty l r = addNode u .trapMul ty none [l, r] := by
        simp only [buildSubRest, if_neg h₄, hst]
      simp only [build2, buildTrapMul, buildSubOp]
      split
      · next a b ha hb =>
        rcases h₃ with h | h
        · rw [ha] at h; cases h
        · rw [hb] at h; cases h
      · next a ha hb => rw [if_neg (fun (h : a = 0) => h₁ (h ▸ ha)), hrest]
      · next b ha hb => rw [if_neg (fun (h : b = 0) => h₂ (h ▸ hb)), hrest]
      · exact hrest
    rw [hb]
    exact computes_node hc (valuesOf_two hl hr) fun z _ => ⟨within_none _, valid_none⟩
  | div => exact buildDiv_computes hc hl hr ty
  | rem => exact buildRem_computes hc hl hr ty hs
  | mod => exact buildMod_computes hc hl hr ty
  | trapExp => exact buildTrapExp_computes hc hl hr ty
  | exp => exact computes_node hc (valuesOf_two hl hr) fun z _ => ⟨within_none _, valid_none⟩
  | and => exact buildAnd_computes hc hl hr
  | nand => exact buildNand_computes hc hl hr
  | or => exact buildOr_computes hc hl hr
  | nor => exact buildNor_computes hc hl hr
  | xor => exact buildXor_computes hc hl hr
  | xnor => exact buildXnor_computes hc hl hr
  | cmp c => exact buildCmp_computes hc hl hr c
  | _ => trivial

/-- The construction of an expression in a unit does not meet a wrong folding or stamp. -/
def Expr.Sound (u : MUnit) : Expr → Prop
  | .const _ _ => True
  | .param _ => True
  | .un op ty a => a.Sound u ∧ Sound1 (build u a).1 op ty (build u a).2
  | .bin op ty a b =>
    a.Sound u ∧ b.Sound (build u a).1 ∧
      Sound2 (build (build u a).1 b).1 op ty (build u a).2 (build (build u a).1 b).2
  | .select _ t a b =>
    t.Sound u ∧ a.Sound (build u t).1 ∧ b.Sound (build (build u t).1 a).1 ∧
      SoundSelect (build (build (build u t).1 a).1 b).1 (build u t).2 (build (build u t).1 a).2
        (build (build (build u t).1 a).1 b).2

theorem Computes.shift {vals more : List Int} {o : Out Int} {p : MUnit × Value}
    (h : Computes env (vals ++ more) o p) : Computes env vals o p := by
  cases o with
  | ok x =>
    obtain ⟨m, h₁, h₂⟩ := h
    rw [List.append_assoc] at h₁ h₂
    exact ⟨more ++ m, h₁, h₂⟩
  | trap => exact h
  | undef => trivial

theorem build_computes (e : Expr) : ∀ {u : MUnit} {vals : List Int}, Consistent env u vals →
    e.Sound u → Computes env vals (e.eval env) (build u e) := by
  induction e with
  | const ty v =>
    intro u vals hc _
    exact computes_const hc ty (fun z hz => reg_ok hz) (reg_not_trap _)
  | param i =>
    intro u vals hc _
    exact ⟨[], by simpa [build] using hc, rfl⟩
  | un op ty a ih =>
    intro u vals hc hs
    have ha := ih hc hs.1
    simp only [Expr.eval]
    cases hea : a.eval env with
    | undef => trivial
    | trap =>
      rw [hea] at ha
      exact (build1_extends ..).trap ha
    | ok x =>
      rw [hea] at ha
      obtain ⟨m, hc', hv⟩ := ha
      exact (build1_computes hc' hv op ty hs.2).shift
  | bin op ty a b iha ihb =>
    intro u vals hc hs
    have ha := iha hc hs.1
    simp only [Expr.eval]
    cases hea : a.eval env with
    | undef => trivial
    | trap =>
      rw [hea] at ha
      exact ((build_extends b _).trans (build2_extends ..)).trap ha
    | ok x =>
      rw [hea] at ha
      obtain ⟨m, hc', hv⟩ := ha
      have hb := ihb hc' hs.2.1
      simp only [Out.bind]
      cases heb : b.eval env with
      | undef => trivial
      | trap =>
        rw [heb] at hb
        exact (build2_extends ..).trap hb
      | ok y =>
        rw [heb] at hb
        obtain ⟨m', hc'', hw⟩ := hb
        exact (build2_computes hc'' (valueOf_append m' hv) hw op ty hs.2.2).shift.shift
  | select ty t a b iht iha ihb =>
    intro u vals hc hs
    have ht := iht hc hs.1
    simp only [Expr.eval]
    cases het : t.eval env with
    | undef => trivial
    | trap =>
      rw [het] at ht
      exact (((build_extends a _).trans (build_extends b _)).trans (buildSelect_extends ..)).trap ht
    | ok c =>
      rw [het] at ht
      obtain ⟨m, hc', hv⟩ := ht
      have ha := iha hc' hs.2.1
      simp only [Out.bind]
      cases hea : a.eval env with
      | undef => trivial
      | trap =>
        rw [hea] at ha
        exact ((build_extends b _).trans (buildSelect_extends ..)).trap ha
      | ok x =>
        rw [hea] at ha
        obtain ⟨m', hc'', hw⟩ := ha
        have hb := ihb hc'' hs.2.2.1
        simp only
        cases heb : b.eval env with
        | undef => trivial
        | trap =>
          rw [heb] at hb
          exact (buildSelect_extends ..).trap hb
        | ok y =>
          rw [heb] at hb
          obtain ⟨m'', hc3, hz⟩ := hb
          exact (buildSelect_computes hc3 (valueOf_append m'' (valueOf_append m' hv))
            (valueOf_append m'' hw) hz ty hs.2.2.2).shift.shift.shift

/-- **C29**: for every expression whose construction does not meet one of the wrong foldings, and
for all values of the parameters within their ranges, running what the builder has built gives the
value of the expression, and it traps if the expression traps.  (The expression must not be
undefined, that is overflow 64 bits without a trap, divide by zero, or use operands outside of their
type.)  What is missing are the wrong foldings, see `Sound1`, `Sound2` and `SoundSelect`. -/
theorem build_correct_partial {ps : List (Option Stamp)} {e : Expr}
    (hp : ∀ (i : Nat) s, ps[i]? = some s → Within s (env i) ∧ ValidStamp s)
    (hs : e.Sound (emptyUnit ps)) (hd : e.eval env ≠ .undef) :
    runBuilt env (build (emptyUnit ps) e) = e.eval env := by
  have hc : Consistent env (emptyUnit ps) [] :=
    ⟨rfl, hp, fun i n v h => by simp [emptyUnit] at h⟩
  have h := build_computes e hc hs
  unfold runBuilt
  cases he : e.eval env with
  | undef => exact absurd he hd
  | trap =>
    rw [he] at h
    have h : runNodes env (build (emptyUnit ps) e).1.nodes [] = .trap := h
    rw [h]; rfl
  | ok x =>
    rw [he] at h
    obtain ⟨m, hc', hv⟩ := h
    rw [hc'.run]
    simp only [Out.bind, hv]

/-- **C30, whole units**: every range that the builder gives to a node contains the result of the
node. -/
theorem build_stamps_partial {ps : List (Option Stamp)} {e : Expr} {x : Int}
    (hp : ∀ (i : Nat) s, ps[i]? = some s → Within s (env i) ∧ ValidStamp s)
    (hs : e.Sound (emptyUnit ps)) (hd : e.eval env = .ok x) :
    ∃ vals, runNodes env (build (emptyUnit ps) e).1.nodes [] = .ok vals ∧
      ∀ (i : Nat) n v, (build (emptyUnit ps) e).1.nodes[i]? = some n → vals[i]? = some v →
        Within n.stamp v := by
  have hc : Consistent env (emptyUnit ps) [] :=
    ⟨rfl, hp, fun i n v h => by simp [emptyUnit] at h⟩
  have h := build_computes e hc hs
  rw [hd] at h
  obtain ⟨m, hc', hv⟩ := h
  exact ⟨_, hc'.run, fun i n v h₁ h₂ => (hc'.stamps i n v h₁ h₂).1⟩

/-- **C29, modulus**: the code generated for `mod` computes the modulus of VHDL: it has the sign
of the divisor and differs from the dividend by a multiple of the divisor. -/
theorem irgenMod_correct {x y : Int} (hy : y ≠ 0) : irgenMod x y = x.fmod y ∧
    (∃ k, x = y * k + irgenMod x y) ∧
    ((0 < y → 0 ≤ irgenMod x y ∧ irgenMod x y < y) ∧
      (y < 0 → y < irgenMod x y ∧ irgenMod x y ≤ 0)) := by
  have hdiv : x = y * x.tdiv y + x.tmod y := (Int.mul_tdiv_add_tmod x y).symm
  have hrange : (0 < y → 0 ≤ irgenMod x y ∧ irgenMod x y < y) ∧
      (y < 0 → y < irgenMod x y ∧ irgenMod x y ≤ 0) := by
    have hlt : (x.tmod y).natAbs < y.natAbs := by
      rw [Int.natAbs_tmod]
      exact Nat.mod_lt _ (by omega)
    unfold irgenMod
    dsimp only
    generalize x.tmod y = r at *
    split <;> omega
  have hmul : ∃ k, x = y * k + irgenMod x y := by
    unfold irgenMod
    dsimp only
    split
    · refine ⟨x.tdiv y - 1, ?_⟩
      rw [Int.mul_sub]
      omega
    · exact ⟨_, hdiv⟩
  refine ⟨?_, hmul, hrange⟩
  obtain ⟨k, hk⟩ := hmul
  have hf := Int.mul_fdiv_add_fmod x y
  have h₁ : 0 < y → 0 ≤ x.fmod y ∧ x.fmod y < y := fun h =>
    ⟨Int.fmod_nonneg_of_pos x h, Int.fmod_lt_of_pos x h⟩
  have h₂ : y < 0 → y < x.fmod y ∧ x.fmod y ≤ 0 := fun h => by
    have he : x.fmod y = -((-x).fmod (-y)) := by rw [Int.neg_fmod_neg]; simp
    have := Int.fmod_nonneg_of_pos (-x) (show 0 < -y by omega)
    have := Int.fmod_lt_of_pos (-x) (show 0 < -y by omega)
    omega
  have hd : y * (k - x.fdiv y) = x.fmod y - irgenMod x y := by rw [Int.mul_sub]; omega
  have hlt : (x.fmod y - irgenMod x y).natAbs < y.natAbs := by
    obtain ⟨a, b⟩ := hrange
    rcases Int.lt_or_gt_of_ne hy with h | h
    · have := h₂ h; have := b h; omega
    · have := h₁ h; have := a h; omega
  rw [← hd, Int.natAbs_mul] at hlt
  have hz : (k - x.fdiv y).natAbs = 0 := by
    by_cases h : (k - x.fdiv y).natAbs = 0
    · exact h
    · have : y.natAbs * 1 ≤ y.natAbs * (k - x.fdiv y).natAbs := Nat.mul_le_mul_left _ (by omega)
      omega
  have hz : k - x.fdiv y = 0 := by omega
  rw [hz] at hd
  omega

end Verif.Mir
