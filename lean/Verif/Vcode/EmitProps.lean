import Verif.Vcode.EmitInv

/-
C63: emitting arithmetic with constant folding, and with overflow checks left out, preserves the
meaning; and the ranges attached to registers contain their values, so that range checks may be left
out.  Excluded are the cases in which the program is wrong (`BinSound`, `UnSound`, `SelectSound`);
for these see `Verif/Vcode/EmitBugs.lean`.
-/

namespace Verif.Vcode

open Verif.Mir (Rep Ty Cmp Fits Out tBool truth reg checked clamp clamp_mono clamp_fits
  clamp_of_fits sadd64_eq ssub64_eq smul64_eq i64min i64max)

variable {env : Nat → Int}

/-! ### When the emitted operation is right -/

/-- Representations for which leaving out overflow checks goes wrong: those of 64 bits, because the
computed bounds are saturated; and that of one bit, because it is checked like one of 8 bits. -/
abbrev Wide (r : Rep) : Prop := r = .i64 ∨ r = .u64 ∨ r = .u1

/-- The result is representable. -/
abbrev Calm (ty : Ty) (z : Int) : Prop :=
  ty.repr.Has z ∧ Fits z ∧ (ty.repr = .u1 → z ≤ 1)

/-- Both operands are constant. -/
abbrev BothConst (u : Unit) (l r : Nat) : Prop := regConst u l ≠ none ∧ regConst u r ≠ none

/-- The range of a register has no negative value. -/
def NonNeg (u : Unit) (r : Nat) : Prop := ∃ lo hi, regBounds u r = some (lo, hi) ∧ lo ≥ 0

/-- For addition and multiplication: the result is representable if it is computed by the compiler,
or if the representation is one for which the program is wrong. -/
def ArithSound (u : Unit) (ty : Ty) (l r : Nat) (z : Int) : Prop :=
  (BothConst u l r → ty.repr.Has z) ∧ (Wide ty.repr → Calm ty z)

/-- Zero minus a register is emitted as an unchecked negation, whose range is that of the type. -/
def NegSound (u : Unit) (ty : Ty) (l r : Nat) (z : Int) : Prop :=
  regConst u l = some 0 → regConst u r = none → InTy ty z

/-- The conditions under which an operation is emitted correctly; `x` and `y` are the values of its
operands. -/
def BinSound (u : Unit) (ty : Ty) (op : BinOp) (l r : Nat) (x y : Int) : Prop :=
  match op with
  | .add => ArithSound u ty l r (x + y)
  | .sub => ArithSound u ty l r (x - y) ∧ NegSound u ty l r (x - y)
  | .mul => ArithSound u ty l r (x * y)
  | .padd | .pmul => True
  | .psub => NegSound u ty l r (x - y)
  | .div =>
    (BothConst u l r → ty.repr.Has (x.tdiv y)) ∧
    (regConst u l = none → regConst u r ≠ none → 0 ≤ y) ∧
    (regConst u r = none → InTy ty (x.tdiv y))
  | .rem => remConst u l r = none → ¬ (NonNeg u l ∧ NonNeg u r) → InTy ty (x.tmod y)
  | .mod => remConst u l r = none → ¬ (NonNeg u l ∧ NonNeg u r) → InTy ty (x.fmod y)
  | .exp => regConst u r ≠ some 0 → regConst u r ≠ some 1 → ty.repr.Has (x ^ y.toNat) →
    InTy ty (x ^ y.toNat)
  | .logic _ | .cmp _ => True

def UnSound (u : Unit) (ty : Ty) (op : UnOp) (v : Nat) (x : Int) : Prop :=
  match op with
  | .neg =>
    (∀ c, regConst u v = some c → 0 ≤ c → ty.repr.Has (-x)) ∧
    ((∀ c, regConst u v = some c → ¬ 0 ≤ c) →
      InTy ty (-x) ∨ (ty.repr.low < 0 ∧ ¬ NonNeg u v ∧ ¬ ty.repr.Has (-x)))
  | .abs =>
    (regConst u v ≠ none → ty.repr.Has x.natAbs) ∧ (regConst u v = none → InTy ty x.natAbs)
  | .not => True

def SelectSound (u : Unit) (ty : Ty) (t vtrue vfalse : Nat) (z : Int) : Prop :=
  regConst u t = none → vtrue ≠ vfalse → InTy ty z

/-! ### Results of operations -/

theorem reg_fits {z : Int} (h : Fits z) : reg z = .ok z := if_pos h

theorem checked_ok {r : Rep} {z : Int} (h : r.Has z) (hf : Fits z) : checked r z = .ok z := by
  unfold checked; rw [if_pos h]; exact reg_fits hf

theorem checked_cases (r : Rep) (z : Int) :
    (r.Has z ∧ Fits z ∧ checked r z = .ok z) ∨ (¬ r.Has z ∧ checked r z = .trap) ∨
    (checked r z = .undef) := by
  by_cases h : r.Has z
  · by_cases hf : Fits z
    · exact .inl ⟨h, hf, checked_ok h hf⟩
    · refine .inr (.inr ?_)
      unfold checked reg; rw [if_pos h, if_neg hf]
  · refine .inr (.inl ⟨h, ?_⟩)
    unfold checked; rw [if_neg h]

theorem unchecked_cases (r : Rep) (z : Int) :
    (r.Has z ∧ Fits z ∧ unchecked r z = .ok z) ∨ (unchecked r z = .undef) := by
  by_cases h : r.Has z
  · by_cases hf : Fits z
    · refine .inl ⟨h, hf, ?_⟩
      unfold unchecked; rw [if_pos h]; exact reg_fits hf
    · refine .inr ?_
      unfold unchecked reg; rw [if_pos h, if_neg hf]
  · refine .inr ?_
    unfold unchecked; rw [if_neg h]

theorem gives_undef {vals : List Int} {ty : Ty} {p : Unit × Nat} : Gives env vals ty p .undef :=
  trivial

/-- The computed range is part of the representation: the result is representable, except for
64 bits. -/
theorem inRepr_has {r : Rep} {A B z : Int} (h₁ : A ≤ z) (h₂ : z ≤ B) (hw : ¬ Wide r)
    (hi : InRepr r (clamp A) (clamp B)) : r.Has z ∧ Fits z := by
  obtain ⟨hi₁, hi₂⟩ := hi
  unfold clamp i64min i64max at hi₁ hi₂
  unfold Fits Rep.Has i64min i64max
  cases r <;> simp only [reprLow, reprHigh, Rep.low, Rep.high, toU64] at hi₁ hi₂ ⊢ <;>
    first
    | exact absurd (.inl rfl) hw
    | exact absurd (.inr (.inl rfl)) hw
    | exact absurd (.inr (.inr rfl)) hw
    | (split at hi₂ <;> omega)

/-- The clamped range contains every result that is representable. -/
theorem clampToRepr_contains {r : Rep} {A B z : Int} (h₁ : A ≤ z) (h₂ : z ≤ B) (hz : r.Has z)
    (hf : Fits z) (hu : r = .u1 → z ≤ 1) :
    ((clampToRepr r (clamp A) (clamp B)).1 ≤ z ∧ z ≤ (clampToRepr r (clamp A) (clamp B)).2) ∧
    Fits (clampToRepr r (clamp A) (clamp B)).1 ∧ Fits (clampToRepr r (clamp A) (clamp B)).2 := by
  have hA := clamp_mono h₁
  have hB := clamp_mono h₂
  rw [clamp_of_fits hf] at hA hB
  have fA := clamp_fits A
  have fB := clamp_fits B
  generalize clamp A = a at hA fA
  generalize clamp B = b at hB fB
  unfold clampToRepr
  split
  · exact ⟨⟨hA, hB⟩, fA, fB⟩
  · dsimp only
    unfold Fits i64min i64max at *
    unfold Rep.Has at hz
    unfold toI64 toU64
    cases r <;> simp only [reprLow, reprHigh, Rep.low, Rep.high] at hz ⊢ <;>
      first
      | (have := hu rfl; split <;> split <;> omega)
      | (split <;> split <;> omega)

/-- The common part of addition, subtraction and multiplication. -/
theorem emitRanged_gives {u : Unit} {vals : List Int} (h : Inv env u vals none) {l r : Nat}
    {x y z A B : Int} {ty : Ty} (hx : vals[l]? = some x) (hy : vals[r]? = some y)
    (ht : regTy u l = some ty) (hr : regTy u r = some ty) (trap : Bool) {trapping plain : Mir.Op}
    (ha : tyFrom (.op trapping) = .arg 0) (hb : tyFrom (.op plain) = .arg 0)
    (hm : trapping.meaning ty [x, y] =
      if ty.repr.Has x ∧ ty.repr.Has y then checked ty.repr z else .undef)
    (hm' : plain.meaning ty [x, y] = reg z) (h₁ : A ≤ z) (h₂ : z ≤ B)
    (hs : trap = true → Wide ty.repr → Calm ty z) :
    Gives env vals ty (emitRanged u trap trapping plain ty l r (clamp A) (clamp B))
      (if trap then checked ty.repr z else unchecked ty.repr z) := by
  obtain ⟨hg, hx', -⟩ := regTy_good h hx ht
  obtain ⟨-, hy', -⟩ := regTy_good h hy hr
  rw [if_pos ⟨hx', hy'⟩] at hm
  have hta : ArithTy u trapping ty l := by unfold ArithTy; rw [ha]; exact ⟨rfl, ht⟩
  have htb : ArithTy u plain ty l := by unfold ArithTy; rw [hb]; exact ⟨rfl, ht⟩
  cases trap with
  | false =>
    simp only [emitRanged, Bool.false_eq_true, if_false]
    rcases unchecked_cases ty.repr z with ⟨hz, hf, he⟩ | he
    · rw [he]
      have hA := clamp_mono h₁
      have hB := clamp_mono h₂
      rw [clamp_of_fits hf] at hA hB
      exact setBounds_gives (emitArith_nearly h hx hy htb (by rw [hm', reg_fits hf]) hg hz hf)
        hA hB (clamp_fits _) (clamp_fits _)
    · rw [he]; exact gives_undef
  | true =>
    simp only [emitRanged, if_true]
    have hs := hs rfl
    by_cases hi : InRepr ty.repr (clamp A) (clamp B)
    · rw [if_pos hi]
      have hc : ty.repr.Has z ∧ Fits z ∧ (ty.repr = .u1 → z ≤ 1) := by
        by_cases hw : Wide ty.repr
        · exact hs hw
        · obtain ⟨h₃, h₄⟩ := inRepr_has h₁ h₂ hw hi
          exact ⟨h₃, h₄, fun e => absurd (.inr (.inr e)) hw⟩
      obtain ⟨hz, hf, hu⟩ := hc
      rw [checked_ok hz hf]
      obtain ⟨⟨c₁, c₂⟩, c₃, c₄⟩ := clampToRepr_contains h₁ h₂ hz hf hu
      exact setBounds_gives (emitArith_nearly h hx hy htb (by rw [hm', reg_fits hf]) hg hz hf)
        c₁ c₂ c₃ c₄
    · rw [if_neg hi]
      rcases checked_cases ty.repr z with ⟨hz, hf, he⟩ | ⟨hz, he⟩ | he
      · rw [he]
        have hu : ty.repr = .u1 → z ≤ 1 := fun e => (hs (.inr (.inr e))).2.2 e
        obtain ⟨⟨c₁, c₂⟩, c₃, c₄⟩ := clampToRepr_contains h₁ h₂ hz hf hu
        exact setBounds_gives (emitArith_nearly h hx hy hta (by rw [hm, he]) hg hz hf)
          c₁ c₂ c₃ c₄
      · rw [he]
        exact emitArith_trap h hx hy hta (by rw [hm, he])
      · rw [he]; exact gives_undef

theorem Inv.range {u : Unit} {vals : List Int} (h : Inv env u vals none) {r : Nat} {x lo hi : Int}
    (hx : vals[r]? = some x) (hb : regBounds u r = some (lo, hi)) :
    (lo ≤ x ∧ x ≤ hi) ∧ Fits lo ∧ Fits hi :=
  h.bound r (lo, hi) x (by intro hh; cases hh) hb hx

theorem emitRanged_extends (u : Unit) (trap : Bool) (o p : Mir.Op) (ty : Ty) (l r : Nat)
    (lo hi : Int) : Extends u (emitRanged u trap o p ty l r lo hi).1 := by
  unfold emitRanged
  split
  · exact emitArith_extends u _ ty l r
  · exact emitArith_extends u _ ty l r

/-- The specification of a checked or unchecked operation on a representable result. -/
theorem spec_ok {ty : Ty} {z : Int} (trap : Bool) (h : ty.repr.Has z) (hf : Fits z) :
    (if trap then checked ty.repr z else unchecked ty.repr z) = .ok z := by
  cases trap with
  | true => exact checked_ok h hf
  | false =>
    simp only [Bool.false_eq_true, if_false]
    unfold unchecked; rw [if_pos h]; exact reg_fits hf

/-- A result computed by the compiler. -/
theorem fold_gives {u : Unit} {vals : List Int} (h : Inv env u vals none) {ty : Ty} {z : Int}
    {p : Unit × Nat} (hp : emitFold u ty z = some p) (hg : GoodTy ty) (trap : Bool)
    (hz : trap = true → ty.repr.Has z) :
    Gives env vals ty p (if trap then checked ty.repr z else unchecked ty.repr z) := by
  have hf : Fits z := by
    unfold emitFold at hp
    split at hp
    · assumption
    · cases hp
  by_cases hh : ty.repr.Has z
  · rw [spec_ok trap hh hf]; exact emitFold_gives h hp hg hh
  · cases trap with
    | true => exact absurd (hz rfl) hh
    | false =>
      simp only [Bool.false_eq_true, if_false]
      unfold unchecked; rw [if_neg hh]; exact gives_undef

theorem both_const {u : Unit} {l r : Nat} {a b : Int} (h₁ : regConst u l = some a)
    (h₂ : regConst u r = some b) : BothConst u l r :=
  ⟨by rw [h₁]; simp, by rw [h₂]; simp⟩

theorem emitAdd_gives {u : Unit} {vals : List Int} (h : Inv env u vals none) {l r : Nat}
    {x y : Int} {ty : Ty} (hx : vals[l]? = some x) (hy : vals[r]? = some y)
    (ht : regTy u l = some ty) (hr : regTy u r = some ty) (trap : Bool) {p : Unit × Nat}
    (hp : emitAdd u trap l r = some p) (hs : trap = true → ArithSound u ty l r (x + y)) :
    Gives env vals ty p (if trap then checked ty.repr (x + y) else unchecked ty.repr (x + y)) := by
  obtain ⟨hg, hx', hxf⟩ := regTy_good h hx ht
  obtain ⟨-, hy', hyf⟩ := regTy_good h hy hr
  unfold emitAdd at hp
  rw [ht] at hp
  cases hbl : regBounds u l with
  | none => rw [hbl] at hp; cases hp
  | some bl =>
    cases hbr : regBounds u r with
    | none => rw [hbl, hbr] at hp; cases hp
    | some br =>
      obtain ⟨ll, lh⟩ := bl
      obtain ⟨rl, rh⟩ := br
      rw [hbl, hbr] at hp
      dsimp only at hp
      obtain ⟨⟨l₁, l₂⟩, f₁, f₂⟩ := h.range hx hbl
      obtain ⟨⟨r₁, r₂⟩, -, -⟩ := h.range hy hbr
      have general : Gives env vals ty
          (emitRanged u trap .trapAdd .add ty l r (Mir.sadd64 ll rl) (Mir.sadd64 lh rh))
          (if trap then checked ty.repr (x + y) else unchecked ty.repr (x + y)) := by
        rw [sadd64_eq f₁, sadd64_eq f₂]
        exact emitRanged_gives h hx hy ht hr trap rfl rfl rfl rfl (by omega) (by omega)
          (fun e => (hs e).2)
      cases hl : regConst u l with
      | none =>
        cases hc : regConst u r with
        | none => rw [hl, hc] at hp; cases hp; exact general
        | some b =>
          rw [hl, hc] at hp
          dsimp only at hp
          split at hp
          · next h0 =>
            cases hp
            have := h.const hy hc
            have hz : x + y = x := by omega
            rw [hz, spec_ok trap hx' hxf]
            exact here_gives h hx ht
          · cases hp; exact general
      | some a =>
        cases hc : regConst u r with
        | none =>
          rw [hl, hc] at hp
          dsimp only at hp
          split at hp
          · next h0 =>
            cases hp
            have := h.const hx hl
            have hz : x + y = y := by omega
            rw [hz, spec_ok trap hy' hyf]
            exact here_gives h hy hr
          · cases hp; exact general
        | some b =>
          rw [hl, hc] at hp
          dsimp only at hp
          rw [← h.const hx hl, ← h.const hy hc] at hp
          exact fold_gives h hp hg trap fun e => (hs e).1 (both_const hl hc)

theorem emitNeg_gives {u : Unit} {vals : List Int} (h : Inv env u vals none) {v : Nat}
    {x : Int} {ty : Ty} (hx : vals[v]? = some x) (ht : regTy u v = some ty) {p : Unit × Nat}
    (hp : emitNeg u v = some p) (hs : InTy ty (-x)) : Gives env vals ty p (.ok (-x)) := by
  obtain ⟨hg, hx', hxf⟩ := regTy_good h hx ht
  have hz : ty.repr.Has (-x) := ⟨by have := hg.1.1; have := hs.1; omega,
    by have := hg.1.2; have := hs.2; omega⟩
  have hf : Fits (-x) := ⟨by have := hg.2.1.1; have := hs.1; omega,
    by have := hg.2.2.2; have := hs.2; omega⟩
  unfold emitNeg at hp
  rw [ht] at hp
  dsimp only at hp
  split at hp
  · next c hc =>
    rw [← h.const hx hc] at hp
    exact emitFold_gives h hp hg hz
  · cases hp
    refine addNode_gives h (valuesOf_one hx) ?_ hg hs ?_
    · simp only [Mir.Op.meaning]; exact reg_fits hf
    · unfold regTy at ht
      cases hn : u.nodes[v]? with
      | none => rw [hn] at ht; cases ht
      | some n => rw [hn] at ht; cases ht; exact ⟨v, n, by simp, hn, rfl⟩

theorem emitSub_gives {u : Unit} {vals : List Int} (h : Inv env u vals none) {l r : Nat}
    {x y : Int} {ty : Ty} (hx : vals[l]? = some x) (hy : vals[r]? = some y)
    (ht : regTy u l = some ty) (hr : regTy u r = some ty) (trap : Bool) {p : Unit × Nat}
    (hp : emitSub u trap l r = some p) (hs : trap = true → ArithSound u ty l r (x - y))
    (hn : NegSound u ty l r (x - y)) :
    Gives env vals ty p (if trap then checked ty.repr (x - y) else unchecked ty.repr (x - y)) := by
  obtain ⟨hg, hx', hxf⟩ := regTy_good h hx ht
  unfold emitSub at hp
  rw [ht] at hp
  cases hbl : regBounds u l with
  | none => rw [hbl] at hp; cases hp
  | some bl =>
    cases hbr : regBounds u r with
    | none => rw [hbl, hbr] at hp; cases hp
    | some br =>
      obtain ⟨ll, lh⟩ := bl
      obtain ⟨rl, rh⟩ := br
      rw [hbl, hbr] at hp
      dsimp only at hp
      obtain ⟨⟨l₁, l₂⟩, f₁, f₂⟩ := h.range hx hbl
      obtain ⟨⟨r₁, r₂⟩, -, -⟩ := h.range hy hbr
      have general : Gives env vals ty
          (emitRanged u trap .trapSub .sub ty l r (Mir.ssub64 ll rh) (Mir.ssub64 lh rl))
          (if trap then checked ty.repr (x - y) else unchecked ty.repr (x - y)) := by
        rw [ssub64_eq f₁, ssub64_eq f₂]
        exact emitRanged_gives h hx hy ht hr trap rfl rfl rfl rfl (by omega) (by omega)
          (fun e => (hs e).2)
      cases hl : regConst u l with
      | none =>
        cases hc : regConst u r with
        | none => rw [hl, hc] at hp; cases hp; exact general
        | some b =>
          rw [hl, hc] at hp
          dsimp only at hp
          split at hp
          · next h0 =>
            cases hp
            have := h.const hy hc
            have hz : x - y = x := by omega
            rw [hz, spec_ok trap hx' hxf]
            exact here_gives h hx ht
          · cases hp; exact general
      | some a =>
        cases hc : regConst u r with
        | none =>
          rw [hl, hc] at hp
          dsimp only at hp
          split at hp
          · next h0 =>
            have := h.const hx hl
            have hi := hn (by rw [hl, h0]) hc
            have hz : ty.repr.Has (x - y) := ⟨by have := hg.1.1; have := hi.1; omega,
              by have := hg.1.2; have := hi.2; omega⟩
            have hf : Fits (x - y) := ⟨by have := hg.2.1.1; have := hi.1; omega,
              by have := hg.2.2.2; have := hi.2; omega⟩
            rw [spec_ok trap hz hf]
            have he : x - y = -y := by omega
            rw [he] at hi ⊢
            exact emitNeg_gives h hy hr hp hi
          · cases hp; exact general
        | some b =>
          rw [hl, hc] at hp
          dsimp only at hp
          rw [← h.const hx hl, ← h.const hy hc] at hp
          exact fold_gives h hp hg trap fun e => (hs e).1 (both_const hl hc)

theorem mulLow_eq (a b c d : Int) : mulLow a b c d =
    clamp (min (min (a * c) (a * d)) (min (b * c) (b * d))) := by
  unfold mulLow
  simp only [smul64_eq, Mir.clamp_min]

theorem mulHigh_eq (a b c d : Int) : mulHigh a b c d =
    clamp (max (max (a * c) (a * d)) (max (b * c) (b * d))) := by
  unfold mulHigh
  simp only [smul64_eq, Mir.clamp_max]

/-- Zero is in every representation. -/
theorem has_zero (r : Rep) : r.Has 0 := by
  cases r <;> exact ⟨by decide, by decide⟩

theorem has_one (r : Rep) : r.Has 1 := by
  cases r <;> exact ⟨by decide, by decide⟩

theorem emitMul_gives {u : Unit} {vals : List Int} (h : Inv env u vals none) {l r : Nat}
    {x y : Int} {ty : Ty} (hx : vals[l]? = some x) (hy : vals[r]? = some y)
    (ht : regTy u l = some ty) (hr : regTy u r = some ty) (trap : Bool) {p : Unit × Nat}
    (hp : emitMul u trap l r = some p) (hs : trap = true → ArithSound u ty l r (x * y)) :
    Gives env vals ty p (if trap then checked ty.repr (x * y) else unchecked ty.repr (x * y)) := by
  obtain ⟨hg, hx', hxf⟩ := regTy_good h hx ht
  obtain ⟨-, hy', hyf⟩ := regTy_good h hy hr
  unfold emitMul at hp
  rw [ht] at hp
  cases hbl : regBounds u l with
  | none => rw [hbl] at hp; cases hp
  | some bl =>
    cases hbr : regBounds u r with
    | none => rw [hbl, hbr] at hp; cases hp
    | some br =>
      obtain ⟨ll, lh⟩ := bl
      obtain ⟨rl, rh⟩ := br
      rw [hbl, hbr] at hp
      dsimp only at hp
      obtain ⟨⟨l₁, l₂⟩, f₁, f₂⟩ := h.range hx hbl
      obtain ⟨⟨r₁, r₂⟩, -, -⟩ := h.range hy hbr
      obtain ⟨m₁, m₂⟩ := Mir.mul_corners l₁ l₂ r₁ r₂
      have general : Gives env vals ty (emitMulRest u trap ty l r ll lh rl rh)
          (if trap then checked ty.repr (x * y) else unchecked ty.repr (x * y)) := by
        unfold emitMulRest
        rw [mulLow_eq, mulHigh_eq]
        exact emitRanged_gives h hx hy ht hr trap rfl rfl rfl rfl m₁ m₂
          (fun e => (hs e).2)
      have zero : x * y = 0 → Gives env vals ty (emitConst u ty 0)
          (if trap then checked ty.repr (x * y) else unchecked ty.repr (x * y)) := by
        intro hz
        have hf : Fits 0 := by decide
        rw [hz, spec_ok trap (has_zero _) hf]
        exact emitConst_gives h hg (has_zero _) hf
      cases hl : regConst u l with
      | none =>
        cases hc : regConst u r with
        | none => rw [hl, hc] at hp; cases hp; exact general
        | some b =>
          rw [hl, hc] at hp
          dsimp only at hp
          have hb := h.const hy hc
          split at hp
          · next h1 =>
            cases hp
            have hz : x * y = x := by rw [hb, h1]; simp
            rw [hz, spec_ok trap hx' hxf]
            exact here_gives h hx ht
          · split at hp
            · next h0 => cases hp; exact zero (by rw [hb, h0]; simp)
            · cases hp; exact general
      | some a =>
        have ha := h.const hx hl
        cases hc : regConst u r with
        | none =>
          rw [hl, hc] at hp
          dsimp only at hp
          split at hp
          · next h1 =>
            cases hp
            have hz : x * y = y := by rw [ha, h1]; simp
            rw [hz, spec_ok trap hy' hyf]
            exact here_gives h hy hr
          · split at hp
            · next h0 => cases hp; exact zero (by rw [ha, h0]; simp)
            · cases hp; exact general
        | some b =>
          rw [hl, hc] at hp
          dsimp only at hp
          rw [← h.const hx hl, ← h.const hy hc] at hp
          exact fold_gives h hp hg trap fun e => (hs e).1 (both_const hl hc)

theorem inTy_has {ty : Ty} {z : Int} (hg : GoodTy ty) (hz : InTy ty z) :
    ty.repr.Has z ∧ Fits z :=
  ⟨⟨by have := hg.1.1; have := hz.1; omega, by have := hg.1.2; have := hz.2; omega⟩,
    ⟨by have := hg.2.1.1; have := hz.1; omega, by have := hg.2.2.2; have := hz.2; omega⟩⟩

/-- A value between zero and a representable value is representable. -/
theorem has_between {r : Rep} {x z : Int} (hx : r.Has x) (hf : Fits x)
    (h : (0 ≤ z ∧ z ≤ x) ∨ (x ≤ z ∧ z ≤ 0)) : r.Has z ∧ Fits z := by
  have h0 := has_zero r
  have f0 : Fits 0 := by decide
  rcases h with h | h
  · exact ⟨⟨by have := h0.1; omega, by have := hx.2; omega⟩,
      ⟨by have := f0.1; omega, by have := hf.2; omega⟩⟩
  · exact ⟨⟨by have := hx.1; omega, by have := h0.2; omega⟩,
      ⟨by have := hf.1; omega, by have := f0.2; omega⟩⟩

theorem tdiv_between (x : Int) {b : Int} (hb : 0 < b) :
    (0 ≤ x.tdiv b ∧ x.tdiv b ≤ x) ∨ (x ≤ x.tdiv b ∧ x.tdiv b ≤ 0) := by
  have h := Int.natAbs_tdiv_le_natAbs x b
  by_cases hx : 0 ≤ x
  · have := Int.tdiv_nonneg hx (Int.le_of_lt hb)
    exact .inl ⟨this, by omega⟩
  · have h₁ := Int.tdiv_le_tdiv hb (show x ≤ 0 by omega)
    rw [Int.zero_tdiv] at h₁
    exact .inr ⟨by omega, h₁⟩

theorem emitDiv_gives {u : Unit} {vals : List Int} (h : Inv env u vals none) {l r : Nat}
    {x y : Int} {ty : Ty} (hx : vals[l]? = some x) (hy : vals[r]? = some y)
    (ht : regTy u l = some ty) {p : Unit × Nat} (hp : emitDiv u l r = some p)
    (hs : BinSound u ty .div l r x y) :
    Gives env vals ty p (BinOp.div.meaning ty x y) := by
  obtain ⟨hg, hx', hxf⟩ := regTy_good h hx ht
  obtain ⟨hs₁, hs₂, hs₃⟩ := hs
  have hta : ArithTy u .div ty l := ⟨rfl, ht⟩
  unfold emitDiv at hp
  rw [ht] at hp
  simp only [BinOp.meaning]
  by_cases hy0 : y = 0
  · rw [if_pos hy0]; exact gives_undef
  · rw [if_neg hy0]
    cases hbl : regBounds u l with
    | none => rw [hbl] at hp; cases hp
    | some bl =>
      obtain ⟨ll, lh⟩ := bl
      rw [hbl] at hp
      dsimp only at hp
      obtain ⟨⟨l₁, l₂⟩, -, -⟩ := h.range hx hbl
      have general : InTy ty (x.tdiv y) →
          Gives env vals ty (emitArith u .div ty l r) (checked ty.repr (x.tdiv y)) := by
        intro hz
        obtain ⟨hz', hf⟩ := inTy_has hg hz
        rw [checked_ok hz' hf]
        refine emitArith_gives h hx hy hta ?_ hg hz
        simp only [Mir.Op.meaning, if_neg hy0]
        exact reg_fits hf
      cases hc : regConst u r with
      | none =>
        rw [hc] at hp
        have : some (emitArith u .div ty l r) = some p := by
          cases hl : regConst u l with
          | none => rw [hl] at hp; exact hp
          | some a => rw [hl] at hp; exact hp
        cases this
        exact general (hs₃ hc)
      | some b =>
        have hb := h.const hy hc
        have hb0 : b ≠ 0 := by omega
        cases hl : regConst u l with
        | some a =>
          rw [hl, hc] at hp
          dsimp only at hp
          rw [if_pos hb0, ← h.const hx hl, ← hb] at hp
          exact fold_gives h hp hg true fun _ => hs₁ (both_const hl hc)
        | none =>
          rw [hl, hc] at hp
          dsimp only at hp
          split at hp
          · next h1 =>
            cases hp
            rw [hb, h1, Int.tdiv_one, checked_ok hx' hxf]
            exact here_gives h hx ht
          · split at hp
            · next hfit =>
              cases hp
              have hpos : 0 < y := by have := hs₂ hl (by rw [hc]; simp); omega
              obtain ⟨hz, hf⟩ := has_between hx' hxf (tdiv_between x hpos)
              rw [checked_ok hz hf]
              refine setBounds_gives (emitArith_nearly h hx hy hta ?_ hg hz hf) ?_ ?_ hfit.1 hfit.2
              · simp only [Mir.Op.meaning, if_neg hy0]
                exact reg_fits hf
              · rw [← hb]; exact Int.tdiv_le_tdiv hpos l₁
              · rw [← hb]; exact Int.tdiv_le_tdiv hpos l₂
            · cases hp

theorem remConst_some {u : Unit} {vals : List Int} (h : Inv env u vals none) {l r : Nat}
    {x y c : Int} (hx : vals[l]? = some x) (hy : vals[r]? = some y)
    (hc : remConst u l r = some c) : 0 < x ∧ 0 < y ∧ c = x.tmod y := by
  unfold remConst at hc
  cases hl : regConst u l with
  | none => rw [hl] at hc; cases hc
  | some a =>
    cases hr : regConst u r with
    | none => rw [hl, hr] at hc; cases hc
    | some b =>
      rw [hl, hr] at hc
      dsimp only at hc
      split at hc
      · next hab =>
        cases hc
        rw [h.const hx hl, h.const hy hr]
        exact ⟨hab.1, hab.2, rfl⟩
      · cases hc

theorem tmod_small {x y : Int} (hx : 0 ≤ x) (hy : 0 < y) : 0 ≤ x.tmod y ∧ x.tmod y ≤ y - 1 := by
  have := Int.tmod_nonneg y hx
  have := Int.tmod_lt_of_pos x hy
  omega

theorem tmod_has {r : Rep} {x y : Int} (hy' : r.Has y) (hf : Fits y) (hx : 0 ≤ x) (hy : 0 < y) :
    r.Has (x.tmod y) ∧ Fits (x.tmod y) := by
  have := tmod_small hx hy
  exact has_between hy' hf (.inl ⟨this.1, by omega⟩)

theorem emitRem_gives {u : Unit} {vals : List Int} (h : Inv env u vals none) {l r : Nat}
    {x y : Int} {ty : Ty} (hx : vals[l]? = some x) (hy : vals[r]? = some y)
    (ht : regTy u l = some ty) (hr : regTy u r = some ty) {p : Unit × Nat}
    (hp : emitRem u l r = some p) (hs : BinSound u ty .rem l r x y) :
    Gives env vals ty p (BinOp.rem.meaning ty x y) := by
  obtain ⟨hg, -, -⟩ := regTy_good h hx ht
  obtain ⟨-, hy', hyf⟩ := regTy_good h hy hr
  have hta : ArithTy u .rem ty l := ⟨rfl, ht⟩
  unfold emitRem at hp
  rw [ht] at hp
  simp only [BinOp.meaning]
  by_cases hy0 : y = 0
  · rw [if_pos hy0]; exact gives_undef
  · rw [if_neg hy0]
    cases hbl : regBounds u l with
    | none => rw [hbl] at hp; cases hp
    | some bl =>
      cases hbr : regBounds u r with
      | none => rw [hbl, hbr] at hp; cases hp
      | some br =>
        obtain ⟨ll, lh⟩ := bl
        obtain ⟨rl, rh⟩ := br
        rw [hbl, hbr] at hp
        dsimp only at hp
        obtain ⟨⟨l₁, l₂⟩, -, -⟩ := h.range hx hbl
        obtain ⟨⟨r₁, r₂⟩, -, -⟩ := h.range hy hbr
        have hm : Fits (x.tmod y) → Mir.Op.rem.meaning ty [x, y] = .ok (x.tmod y) := by
          intro hf
          simp only [Mir.Op.meaning, if_neg hy0]
          exact reg_fits hf
        split at hp
        · next c hc =>
          obtain ⟨h₁, h₂, h₃⟩ := remConst_some h hx hy hc
          obtain ⟨hz, hf⟩ := tmod_has hy' hyf (Int.le_of_lt h₁) h₂
          rw [h₃] at hp
          rw [checked_ok hz hf]
          exact emitFold_gives h hp hg hz
        · next hc =>
          split at hp
          · next hn =>
            split at hp
            · next hfit =>
              cases hp
              have hpos : 0 < y := by omega
              have hxn : 0 ≤ x := by omega
              obtain ⟨hz, hf⟩ := tmod_has hy' hyf hxn hpos
              have := tmod_small hxn hpos
              rw [checked_ok hz hf]
              exact setBounds_gives (emitArith_nearly h hx hy hta (hm hf) hg hz hf) this.1
                (by omega) (by decide) hfit
            · cases hp
          · next hn =>
            cases hp
            have hz : InTy ty (x.tmod y) := hs hc (by
              rintro ⟨⟨a, b, h₁, h₂⟩, ⟨c, d, h₃, h₄⟩⟩
              rw [hbl] at h₁; rw [hbr] at h₃
              cases h₁; cases h₃
              exact hn ⟨h₂, h₄⟩)
            obtain ⟨hz', hf⟩ := inTy_has hg hz
            rw [checked_ok hz' hf]
            exact emitArith_gives h hx hy hta (hm hf) hg hz

theorem emitMod_gives {u : Unit} {vals : List Int} (h : Inv env u vals none) {l r : Nat}
    {x y : Int} {ty : Ty} (hx : vals[l]? = some x) (hy : vals[r]? = some y)
    (ht : regTy u l = some ty) (hr : regTy u r = some ty) {p : Unit × Nat}
    (hp : emitMod u l r = some p) (hs : BinSound u ty .mod l r x y) :
    Gives env vals ty p (BinOp.mod.meaning ty x y) := by
  obtain ⟨hg, -, -⟩ := regTy_good h hx ht
  obtain ⟨-, hy', hyf⟩ := regTy_good h hy hr
  unfold emitMod at hp
  rw [ht] at hp
  simp only [BinOp.meaning]
  by_cases hy0 : y = 0
  · rw [if_pos hy0]; exact gives_undef
  · rw [if_neg hy0]
    cases hbl : regBounds u l with
    | none => rw [hbl] at hp; cases hp
    | some bl =>
      cases hbr : regBounds u r with
      | none => rw [hbl, hbr] at hp; cases hp
      | some br =>
        obtain ⟨ll, lh⟩ := bl
        obtain ⟨rl, rh⟩ := br
        rw [hbl, hbr] at hp
        dsimp only at hp
        obtain ⟨⟨l₁, l₂⟩, -, -⟩ := h.range hx hbl
        obtain ⟨⟨r₁, r₂⟩, -, -⟩ := h.range hy hbr
        split at hp
        · next c hc =>
          obtain ⟨h₁, h₂, h₃⟩ := remConst_some h hx hy hc
          obtain ⟨hz, hf⟩ := tmod_has hy' hyf (Int.le_of_lt h₁) h₂
          rw [h₃] at hp
          rw [Int.fmod_eq_tmod_of_nonneg (Int.le_of_lt h₁) (Int.le_of_lt h₂), checked_ok hz hf]
          exact emitFold_gives h hp hg hz
        · next hc =>
          split at hp
          · next hn =>
            split at hp
            · next hfit =>
              cases hp
              have hpos : 0 < y := by omega
              have hxn : 0 ≤ x := by omega
              obtain ⟨hz, hf⟩ := tmod_has hy' hyf hxn hpos
              have := tmod_small hxn hpos
              have hm : Mir.Op.rem.meaning ty [x, y] = .ok (x.tmod y) := by
                simp only [Mir.Op.meaning, if_neg hy0]
                exact reg_fits hf
              rw [Int.fmod_eq_tmod_of_nonneg hxn (Int.le_of_lt hpos), checked_ok hz hf]
              have hmax : Fits (max 0 (rh - 1)) := by
                have f0 : Fits 0 := by decide
                have := f0.1
                have := f0.2
                have := hfit.1
                have := hfit.2
                constructor <;> omega
              exact setBounds_gives (emitArith_nearly h hx hy ⟨rfl, ht⟩ hm hg hz hf) this.1
                (by omega) (by decide) hmax
            · cases hp
          · next hn =>
            cases hp
            have hz : InTy ty (x.fmod y) := hs hc (by
              rintro ⟨⟨a, b, h₁, h₂⟩, ⟨c, d, h₃, h₄⟩⟩
              rw [hbl] at h₁; rw [hbr] at h₃
              cases h₁; cases h₃
              exact hn ⟨h₂, h₄⟩)
            obtain ⟨hz', hf⟩ := inTy_has hg hz
            rw [checked_ok hz' hf]
            refine emitArith_gives h hx hy ⟨rfl, ht⟩ ?_ hg hz
            simp only [Mir.Op.meaning, if_neg hy0]
            exact reg_fits hf

theorem emitTrapExp_gives {u : Unit} {vals : List Int} (h : Inv env u vals none) {l r : Nat}
    {x y : Int} {ty : Ty} (hx : vals[l]? = some x) (hy : vals[r]? = some y)
    (ht : regTy u l = some ty) {p : Unit × Nat} (hp : emitTrapExp u l r = some p)
    (hs : BinSound u ty .exp l r x y) :
    Gives env vals ty p (BinOp.exp.meaning ty x y) := by
  obtain ⟨hg, hx', hxf⟩ := regTy_good h hx ht
  unfold emitTrapExp at hp
  rw [ht] at hp
  dsimp only at hp
  simp only [BinOp.meaning]
  by_cases hy0 : y < 0
  · rw [if_pos hy0]; exact gives_undef
  · rw [if_neg hy0]
    have general : regConst u r ≠ some 0 → regConst u r ≠ some 1 →
        Gives env vals ty (emitArith u .trapExp ty l r) (checked ty.repr (x ^ y.toNat)) := by
      intro h₁ h₂
      have hm : Mir.Op.trapExp.meaning ty [x, y] = checked ty.repr (x ^ y.toNat) := by
        simp only [Mir.Op.meaning]
        rw [if_pos ⟨hx', by omega⟩]
      rcases checked_cases ty.repr (x ^ y.toNat) with ⟨hz, hf, he⟩ | ⟨hz, he⟩ | he
      · rw [he]
        exact emitArith_gives h hx hy ⟨rfl, ht⟩ (by rw [hm, he]) hg (hs h₁ h₂ hz)
      · rw [he]
        exact emitArith_trap h hx hy ⟨rfl, ht⟩ (by rw [hm, he])
      · rw [he]; exact gives_undef
    split at hp
    · next b hc =>
      have hb := h.const hy hc
      split at hp
      · next h0 =>
        cases hp
        have : x ^ y.toNat = 1 := by rw [hb, h0]; exact Int.pow_zero x
        rw [this, checked_ok (has_one _) (by decide)]
        exact emitConst_gives h hg (has_one _) (by decide)
      · next h0 =>
        split at hp
        · next h1 =>
          cases hp
          have : x ^ y.toNat = x := by rw [hb, h1]; exact Int.pow_one x
          rw [this, checked_ok hx' hxf]
          exact here_gives h hx ht
        · next h1 =>
          cases hp
          exact general (by rw [hc]; intro e; cases e; exact h0 rfl)
            (by rw [hc]; intro e; cases e; exact h1 rfl)
    · next hc => cases hp; exact general (by rw [hc]; simp) (by rw [hc]; simp)

theorem unTy_ok {u : Unit} {op : Mir.Op} {ty : Ty} {v : Nat} (hf : tyFrom (.op op) = .arg 0)
    (ht : regTy u v = some ty) : TyOk u.nodes ⟨.op op, ty, [v]⟩ := by
  unfold TyOk
  dsimp only
  rw [hf]
  unfold regTy at ht
  cases hn : u.nodes[v]? with
  | none => rw [hn] at ht; cases ht
  | some n => rw [hn] at ht; cases ht; exact ⟨v, n, by simp, hn, rfl⟩

theorem emitTrapNeg_gives {u : Unit} {vals : List Int} (h : Inv env u vals none) {v : Nat}
    {x : Int} {ty : Ty} (hx : vals[v]? = some x) (ht : regTy u v = some ty) {p : Unit × Nat}
    (hp : emitTrapNeg u v = some p) (hs : UnSound u ty .neg v x) :
    Gives env vals ty p (UnOp.neg.meaning ty x) := by
  obtain ⟨hg, hx', hxf⟩ := regTy_good h hx ht
  obtain ⟨hs₁, hs₂⟩ := hs
  unfold emitTrapNeg at hp
  rw [ht] at hp
  simp only [UnOp.meaning]
  cases hb : regBounds u v with
  | none => rw [hb] at hp; cases hp
  | some b =>
    obtain ⟨lo, hi⟩ := b
    rw [hb] at hp
    dsimp only at hp
    have trapping : (∀ c, regConst u v = some c → ¬ 0 ≤ c) →
        Gives env vals ty (addNode u .trapNeg ty [v]) (checked ty.repr (-x)) := by
      intro hc
      rcases hs₂ hc with hz | ⟨hsg, -, hz⟩
      · obtain ⟨hz', hf⟩ := inTy_has hg hz
        rw [checked_ok hz' hf]
        refine addNode_gives h (valuesOf_one hx) ?_ hg hz (unTy_ok rfl ht)
        simp only [Mir.Op.meaning]
        rw [if_neg, reg_fits hf]
        revert hz'
        generalize ty.repr = rp at *
        cases rp <;> simp only [Rep.Has, Rep.low, Rep.high, Rep.least] at hx' ⊢ <;> omega
      · have he : checked ty.repr (-x) = .trap := by unfold checked; rw [if_neg hz]
        rw [he]
        refine addNode_trap h (valuesOf_one hx) ?_
        simp only [Mir.Op.meaning]
        rw [if_pos]
        revert hz hx' hsg
        generalize ty.repr = rp
        cases rp <;> simp only [Rep.Has, Rep.low, Rep.high, Rep.least] <;> omega
    split at hp
    · next c hc =>
      split at hp
      · next h0 =>
        rw [← h.const hx hc] at hp
        exact fold_gives h hp hg true fun _ => hs₁ c hc h0
      · next h0 =>
        cases hp
        exact trapping fun d hd => by rw [hc] at hd; cases hd; exact h0
    · next hc =>
      have hno : ∀ c, regConst u v = some c → ¬ 0 ≤ c := fun c h' => by rw [hc] at h'; cases h'
      split at hp
      · next h0 =>
        rcases hs₂ hno with hz | ⟨-, hn, -⟩
        · obtain ⟨hz', hf⟩ := inTy_has hg hz
          rw [checked_ok hz' hf]
          exact emitNeg_gives h hx ht hp hz
        · exact absurd ⟨lo, hi, hb, h0⟩ hn
      · cases hp; exact trapping hno

theorem emitAbs_gives {u : Unit} {vals : List Int} (h : Inv env u vals none) {v : Nat}
    {x : Int} {ty : Ty} (hx : vals[v]? = some x) (ht : regTy u v = some ty) {p : Unit × Nat}
    (hp : emitAbs u v = some p) (hs : UnSound u ty .abs v x) :
    Gives env vals ty p (UnOp.abs.meaning ty x) := by
  obtain ⟨hg, hx', hxf⟩ := regTy_good h hx ht
  obtain ⟨hs₁, hs₂⟩ := hs
  unfold emitAbs at hp
  rw [ht] at hp
  dsimp only at hp
  simp only [UnOp.meaning]
  split at hp
  · next c hc =>
    rw [← h.const hx hc] at hp
    exact fold_gives h hp hg true fun _ => hs₁ (by rw [hc]; simp)
  · next hc =>
    cases hp
    have hz := hs₂ hc
    obtain ⟨hz', hf⟩ := inTy_has hg hz
    rw [checked_ok hz' hf]
    refine addNode_gives h (valuesOf_one hx) ?_ hg hz (unTy_ok rfl ht)
    simp only [Mir.Op.meaning]
    exact reg_fits hf

/-! ### Logical operations -/

theorem good_bool : GoodTy tBool := by decide

theorem bool_has {z : Int} (h : z = 0 ∨ z = 1) : tBool.repr.Has z ∧ Fits z ∧ InTy tBool z := by
  rcases h with h | h <;> subst h <;> decide

theorem emitBool_gives {u : Unit} {vals : List Int} (h : Inv env u vals none) {z : Int}
    (hz : z = 0 ∨ z = 1) : Gives env vals tBool (emitConst u tBool z) (.ok z) :=
  emitConst_gives h good_bool (bool_has hz).1 (bool_has hz).2.1

theorem emitNot_gives {u : Unit} {vals : List Int} (h : Inv env u vals none) {v : Nat} {x : Int}
    (hx : vals[v]? = some x) (hb : x = 0 ∨ x = 1) :
    Gives env vals tBool (emitNot u v) (.ok (1 - x)) := by
  unfold emitNot
  split
  · next c hc =>
    have := h.const hx hc
    subst this
    have he : Mir.bit (x == 0) = 1 - x := by rcases hb with hb | hb <;> subst hb <;> rfl
    rw [he]
    exact emitBool_gives h (by omega)
  · refine addNode_gives h (valuesOf_one hx) ?_ good_bool (bool_has (by omega)).2.2 rfl
    simp only [Mir.Op.meaning]
    rw [if_pos hb]
    rcases hb with hb | hb <;> subst hb <;> rfl

/-- The value of a logical operation on 0 and 1. -/
def Logic.value (op : Logic) (x y : Int) : Int :=
  match op with
  | .and => truth (x = 1 ∧ y = 1)
  | .or => truth (x = 1 ∨ y = 1)
  | .xor => truth (x ≠ y)
  | .xnor => truth (x = y)
  | .nand => truth (¬ (x = 1 ∧ y = 1))
  | .nor => truth (¬ (x = 1 ∨ y = 1))

theorem logic_spec (op : Logic) {x y : Int} (hx : x = 0 ∨ x = 1) (hy : y = 0 ∨ y = 1) :
    op.meaning x y = .ok (op.value x y) := by
  unfold Logic.meaning
  rw [if_pos ⟨hx, hy⟩]
  rfl

theorem logic_node (op : Logic) {x y : Int} (hx : x = 0 ∨ x = 1) (hy : y = 0 ∨ y = 1) :
    op.op.meaning tBool [x, y] = .ok (op.value x y) := by
  cases op <;> simp only [Logic.op, Logic.value, Mir.Op.meaning] <;> rw [if_pos ⟨hx, hy⟩]

theorem logic_bool (op : Logic) (x y : Int) : op.value x y = 0 ∨ op.value x y = 1 := by
  have key : ∀ (p : Prop) [Decidable p], truth p = 0 ∨ truth p = 1 := fun p _ => by
    rcases Mir.truth_cases p with ⟨-, h⟩ | ⟨-, h⟩
    · exact .inr h
    · exact .inl h
  cases op <;> exact key _

theorem logic_const (op : Logic) {x y : Int} (hx : x = 0 ∨ x = 1) (hy : y = 0 ∨ y = 1) :
    logicConst op x y = op.value x y := by
  rcases hx with hx | hx <;> rcases hy with hy | hy <;> subst hx <;> subst hy <;> cases op <;>
    decide

theorem logic_comm (op : Logic) {x y : Int} (hx : x = 0 ∨ x = 1) (hy : y = 0 ∨ y = 1) :
    op.value x y = op.value y x := by
  rcases hx with hx | hx <;> rcases hy with hy | hy <;> subst hx <;> subst hy <;> cases op <;>
    decide

theorem emitIdentity_gives {u : Unit} {vals : List Int} (h : Inv env u vals none) {v : Nat}
    {a y : Int} (hy : vals[v]? = some y) (ht : regTy u v = some tBool) (ha : a = 0 ∨ a = 1)
    (hb : y = 0 ∨ y = 1) (op : Logic) :
    Gives env vals tBool (emitIdentity u op v (a != 0)) (.ok (op.value a y)) := by
  have same : op.value a y = y → Gives env vals tBool (u, v) (.ok (op.value a y)) := fun e => by
    rw [e]; exact here_gives h hy ht
  have inv : op.value a y = 1 - y → Gives env vals tBool (emitNot u v) (.ok (op.value a y)) :=
    fun e => by rw [e]; exact emitNot_gives h hy hb
  have const : ∀ c, op.value a y = c →
      Gives env vals tBool (emitConst u tBool c) (.ok (op.value a y)) := fun c e => by
    rw [← e]; exact emitBool_gives h (logic_bool op a y)
  unfold emitIdentity
  rcases ha with ha | ha <;> subst ha <;> cases op <;> dsimp only <;>
    simp only [bne_self_eq_false, Bool.false_eq_true, if_false, Int.reduceBNe, if_true,
      show ((1 : Int) != 0) = true from rfl] <;>
    first
    | exact same (by rcases hb with hb | hb <;> subst hb <;> decide)
    | exact inv (by rcases hb with hb | hb <;> subst hb <;> decide)
    | exact const _ (by rcases hb with hb | hb <;> subst hb <;> decide)

theorem emitSame_gives {u : Unit} {vals : List Int} (h : Inv env u vals none) {v : Nat}
    {y : Int} (hy : vals[v]? = some y) (ht : regTy u v = some tBool) (hb : y = 0 ∨ y = 1)
    (op : Logic) : Gives env vals tBool (emitSame u op v) (.ok (op.value y y)) := by
  have same : op.value y y = y → Gives env vals tBool (u, v) (.ok (op.value y y)) := fun e => by
    rw [e]; exact here_gives h hy ht
  have inv : op.value y y = 1 - y → Gives env vals tBool (emitNot u v) (.ok (op.value y y)) :=
    fun e => by rw [e]; exact emitNot_gives h hy hb
  have const : ∀ c, op.value y y = c →
      Gives env vals tBool (emitConst u tBool c) (.ok (op.value y y)) := fun c e => by
    rw [← e]; exact emitBool_gives h (logic_bool op y y)
  unfold emitSame
  cases op <;> dsimp only <;>
    first
    | exact same (by rcases hb with hb | hb <;> subst hb <;> decide)
    | exact inv (by rcases hb with hb | hb <;> subst hb <;> decide)
    | exact const _ (by rcases hb with hb | hb <;> subst hb <;> decide)

theorem emitLogical_gives {u : Unit} {vals : List Int} (h : Inv env u vals none) {l r : Nat}
    {x y : Int} (hx : vals[l]? = some x) (hy : vals[r]? = some y)
    (ht : regTy u l = some tBool) (hr : regTy u r = some tBool) (op : Logic) :
    Gives env vals tBool (emitLogical u op l r) (op.meaning x y) := by
  by_cases hbits : (x = 0 ∨ x = 1) ∧ (y = 0 ∨ y = 1)
  · obtain ⟨hbx, hby⟩ := hbits
    rw [logic_spec op hbx hby]
    unfold emitLogical
    cases hl : regConst u l with
    | none =>
      cases hc : regConst u r with
      | none =>
        dsimp only
        split
        · next he =>
          subst he
          rw [hx] at hy
          cases hy
          exact emitSame_gives h hx ht hbx op
        · refine emitArith_gives h hx hy ?_ (logic_node op hbx hby) good_bool
            (bool_has (logic_bool op x y)).2.2
          cases op <;> exact ⟨rfl, ht⟩
      | some b =>
        dsimp only
        rw [← h.const hy hc, logic_comm op hbx hby]
        exact emitIdentity_gives h hx ht hby hbx op
    | some a =>
      cases hc : regConst u r with
      | none =>
        dsimp only
        rw [← h.const hx hl]
        exact emitIdentity_gives h hy hr hbx hby op
      | some b =>
        dsimp only
        rw [← h.const hx hl, ← h.const hy hc, logic_const op hbx hby]
        exact emitBool_gives h (logic_bool op x y)
  · have : op.meaning x y = .undef := by unfold Logic.meaning; rw [if_neg hbits]
    rw [this]; exact gives_undef

/-! ### Comparison, selection, conversion -/

theorem cmp_bool (c : Cmp) (x y : Int) : truth (c.Holds x y) = 0 ∨ truth (c.Holds x y) = 1 := by
  rcases Mir.truth_cases (c.Holds x y) with ⟨-, h⟩ | ⟨-, h⟩
  · exact .inr h
  · exact .inl h

theorem cmpSame_eq (c : Cmp) (x : Int) : cmpSame c = truth (c.Holds x x) := by
  cases c <;> simp [cmpSame, truth, Cmp.Holds]

theorem cmpConst_eq (c : Cmp) (x y : Int) :
    Mir.bit (Mir.cmpConst c x y) = truth (c.Holds x y) := by
  rcases Mir.truth_cases (c.Holds x y) with ⟨h, e⟩ | ⟨h, e⟩ <;> rw [e] <;> cases c <;>
    simp only [Cmp.Holds] at h <;> simp [Mir.cmpConst, Mir.bit] <;> omega

theorem emitCmp_gives {u : Unit} {vals : List Int} (h : Inv env u vals none) {l r : Nat}
    {x y : Int} (hx : vals[l]? = some x) (hy : vals[r]? = some y) (c : Cmp) :
    Gives env vals tBool (emitCmp u c l r) (.ok (truth (c.Holds x y))) := by
  have hb := cmp_bool c x y
  have general : Gives env vals tBool (emitArith u (.cmp c) tBool l r)
      (.ok (truth (c.Holds x y))) :=
    emitArith_gives h hx hy rfl rfl good_bool (bool_has hb).2.2
  unfold emitCmp
  split
  · next he =>
    subst he
    rw [hx] at hy
    cases hy
    rw [cmpSame_eq c x]
    exact emitBool_gives h hb
  · cases hl : regConst u l with
    | none => exact general
    | some a =>
      cases hc : regConst u r with
      | none => exact general
      | some b =>
        dsimp only
        rw [← h.const hx hl, ← h.const hy hc, cmpConst_eq]
        exact emitBool_gives h hb

theorem emitSelect_gives {u : Unit} {vals : List Int} (h : Inv env u vals none) {t l r : Nat}
    {c x y : Int} {ty : Ty} (hc : vals[t]? = some c) (hx : vals[l]? = some x)
    (hy : vals[r]? = some y) (ht : regTy u l = some ty) (hr : regTy u r = some ty)
    {p : Unit × Nat} (hp : emitSelect u t l r = some p)
    (hs : SelectSound u ty t l r (if c = 1 then x else y)) :
    Gives env vals ty p
      (if c = 0 ∨ c = 1 then .ok (if c = 1 then x else y) else .undef) := by
  by_cases hb : c = 0 ∨ c = 1
  · rw [if_pos hb]
    obtain ⟨hg, hx', hxf⟩ := regTy_good h hx ht
    obtain ⟨-, hy', hyf⟩ := regTy_good h hy hr
    unfold emitSelect at hp
    rw [ht] at hp
    dsimp only at hp
    split at hp
    · next k hk =>
      cases hp
      have := h.const hc hk
      subst this
      rcases hb with hb | hb <;> subst hb
      · exact here_gives h hy hr
      · exact here_gives h hx ht
    · next hk =>
      split at hp
      · next he =>
        cases hp
        subst he
        rw [hx] at hy
        cases hy
        have : (if c = 1 then x else x) = x := by split <;> rfl
        rw [this]
        exact here_gives h hx ht
      · next he =>
        have hz := hs hk he
        obtain ⟨hz', hf⟩ := inTy_has hg hz
        have hv : valuesOf vals [t, l, r] = some [c, x, y] := by simp only [valuesOf, hc, hx, hy]
        have hm : Mir.Op.select.meaning ty [c, x, y] = .ok (if c = 1 then x else y) := by
          simp only [Mir.Op.meaning]
          rw [if_pos hb]
          exact reg_fits hf
        split at hp
        · next i hi =>
          cases hp
          obtain ⟨n, hn, hq, -⟩ := lastIdx_some hi
          simp only [Nat.sub_zero] at hn
          simp only [Bool.and_eq_true, beq_iff_eq] at hq
          obtain ⟨xs, w, h₁, h₂, h₃⟩ := run_node h.run hn hq.1
          have hty : n.ty = ty := by
            have := h.typed i n hn
            unfold TyOk at this
            rw [hq.1] at this
            obtain ⟨a, m, k₁, k₂, k₃⟩ := this
            rw [hq.2] at k₁
            cases k₁
            unfold regTy at ht
            rw [k₂] at ht
            cases ht
            exact k₃
          rw [hq.2, hv] at h₁
          cases h₁
          rw [hty, hm] at h₂
          cases h₂
          exact here_gives h h₃ (by unfold regTy; rw [hn, ← hty]; rfl)
        · cases hp
          refine addNode_gives h hv hm hg hz ?_
          unfold regTy at ht
          cases hn : u.nodes[l]? with
          | none => rw [hn] at ht; cases ht
          | some n => rw [hn] at ht; cases ht; exact ⟨l, n, by simp, hn, rfl⟩
  · rw [if_neg hb]; exact gives_undef

theorem emitCast_gives {u : Unit} {vals : List Int} (h : Inv env u vals none) {v : Nat}
    {x lo hi : Int} {ty from_ : Ty} (hx : vals[v]? = some x) (ht : regTy u v = some from_)
    (hg : GoodTy ty) {p : Unit × Nat} (hp : emitCast u ty lo hi v = some p) :
    Gives env vals ty p (if InTy ty x ∧ lo ≤ x ∧ x ≤ hi then .ok x else .undef) := by
  by_cases hin : InTy ty x ∧ lo ≤ x ∧ x ≤ hi
  · rw [if_pos hin]
    obtain ⟨hin, hlo, hhi⟩ := hin
    obtain ⟨hz, hf⟩ := inTy_has hg hin
    unfold emitCast at hp
    rw [ht] at hp
    cases hb : regBounds u v with
    | none => rw [hb] at hp; cases hp
    | some b =>
      obtain ⟨vl, vh⟩ := b
      rw [hb] at hp
      dsimp only at hp
      obtain ⟨⟨l₁, l₂⟩, f₁, f₂⟩ := h.range hx hb
      have hm : Mir.Op.cast.meaning ty [x] = .ok x := by
        simp only [Mir.Op.meaning]; exact reg_fits hf
      split at hp
      · next he => cases hp; subst he; exact here_gives h hx ht
      · split at hp
        · next c hc =>
          cases hp
          rw [← h.const hx hc]
          exact emitConst_gives h hg hz hf
        · split at hp
          · next i hi' =>
            cases hp
            obtain ⟨n, hn, hq, -⟩ := lastIdx_some hi'
            simp only [Nat.sub_zero] at hn
            simp only [Bool.and_eq_true, beq_iff_eq] at hq
            obtain ⟨xs, w, h₁, h₂, h₃⟩ := run_node h.run hn hq.1.1
            rw [hq.2, valuesOf_one hx] at h₁
            cases h₁
            rw [hq.1.2, hm] at h₂
            cases h₂
            exact here_gives h h₃ (by unfold regTy; rw [hn, ← hq.1.2]; rfl)
          · cases hp
            refine setBounds_gives
              (addNode_nearly h (valuesOf_one hx) hm hg hz hf trivial) ?_ ?_ ?_ ?_
            · have := hin.1; omega
            · have := hin.2; omega
            · have := hg.2.1.1; have := hf.2; have := hin.1
              constructor <;> omega
            · have := hg.2.2.2; have := hf.1; have := hin.2
              constructor <;> omega
  · rw [if_neg hin]; exact gives_undef

/-! ### Operations are only added -/

theorem emitNeg_extends {u : Unit} {v : Nat} {p : Unit × Nat} (hp : emitNeg u v = some p) :
    Extends u p.1 := by
  unfold emitNeg at hp
  split at hp
  · split at hp
    · exact emitFold_extends hp
    · cases hp; exact addNode_extends ..
  · cases hp

theorem emitNot_extends (u : Unit) (v : Nat) : Extends u (emitNot u v).1 := by
  unfold emitNot
  split
  · exact emitConst_extends ..
  · exact addNode_extends ..

theorem emitLogical_extends (u : Unit) (op : Logic) (l r : Nat) :
    Extends u (emitLogical u op l r).1 := by
  have id : ∀ v b, Extends u (emitIdentity u op v b).1 := fun v b => by
    unfold emitIdentity
    cases op <;> dsimp only <;> split <;>
      first | exact .refl u | exact emitNot_extends .. | exact emitConst_extends ..
  unfold emitLogical
  split
  · exact emitConst_extends ..
  · exact id _ _
  · exact id _ _
  · split
    · unfold emitSame
      cases op <;> dsimp only <;>
        first | exact .refl u | exact emitNot_extends .. | exact emitConst_extends ..
    · exact emitArith_extends ..

theorem emitBin_extends {u : Unit} {op : BinOp} {l r : Nat} {p : Unit × Nat}
    (hp : emitBin u op l r = some p) : Extends u p.1 := by
  have add : ∀ {trap}, emitAdd u trap l r = some p → Extends u p.1 := by
    intro trap hp
    unfold emitAdd at hp
    split at hp
    · split at hp
      · exact emitFold_extends hp
      · split at hp
        · cases hp; exact .refl u
        · cases hp; exact emitRanged_extends ..
      · split at hp
        · cases hp; exact .refl u
        · cases hp; exact emitRanged_extends ..
      · cases hp; exact emitRanged_extends ..
    · cases hp
  have sub : ∀ {trap}, emitSub u trap l r = some p → Extends u p.1 := by
    intro trap hp
    unfold emitSub at hp
    split at hp
    · split at hp
      · exact emitFold_extends hp
      · split at hp
        · exact emitNeg_extends hp
        · cases hp; exact emitRanged_extends ..
      · split at hp
        · cases hp; exact .refl u
        · cases hp; exact emitRanged_extends ..
      · cases hp; exact emitRanged_extends ..
    · cases hp
  have mul : ∀ {trap}, emitMul u trap l r = some p → Extends u p.1 := by
    intro trap hp
    unfold emitMul at hp
    split at hp
    · split at hp
      · exact emitFold_extends hp
      · split at hp
        · cases hp; exact .refl u
        · split at hp
          · cases hp; exact emitConst_extends ..
          · cases hp; exact emitRanged_extends ..
      · split at hp
        · cases hp; exact .refl u
        · split at hp
          · cases hp; exact emitConst_extends ..
          · cases hp; exact emitRanged_extends ..
      · cases hp; exact emitRanged_extends ..
    · cases hp
  unfold emitBin at hp
  cases op with
  | add => exact add hp
  | sub => exact sub hp
  | mul => exact mul hp
  | padd => exact add hp
  | psub => exact sub hp
  | pmul => exact mul hp
  | div =>
    dsimp only at hp
    unfold emitDiv at hp
    split at hp
    · split at hp
      · split at hp
        · exact emitFold_extends hp
        · cases hp; exact emitArith_extends ..
      · split at hp
        · cases hp; exact .refl u
        · split at hp
          · split at hp
            · cases hp; exact setBounds_extends _ _ (emitArith_extends ..)
            · cases hp
          · cases hp; exact emitArith_extends ..
      · cases hp; exact emitArith_extends ..
    · cases hp
  | rem =>
    dsimp only at hp
    unfold emitRem at hp
    split at hp
    · split at hp
      · exact emitFold_extends hp
      · split at hp
        · split at hp
          · cases hp; exact setBounds_extends _ _ (emitArith_extends ..)
          · cases hp
        · cases hp; exact emitArith_extends ..
    · cases hp
  | mod =>
    dsimp only at hp
    unfold emitMod at hp
    split at hp
    · split at hp
      · exact emitFold_extends hp
      · split at hp
        · split at hp
          · cases hp; exact setBounds_extends _ _ (emitArith_extends ..)
          · cases hp
        · cases hp; exact emitArith_extends ..
    · cases hp
  | exp =>
    dsimp only at hp
    unfold emitTrapExp at hp
    split at hp
    · split at hp
      · split at hp
        · cases hp; exact emitConst_extends ..
        · split at hp
          · cases hp; exact .refl u
          · cases hp; exact emitArith_extends ..
      · cases hp; exact emitArith_extends ..
    · cases hp
  | logic op => cases hp; exact emitLogical_extends ..
  | cmp c =>
    cases hp
    unfold emitCmp
    split
    · exact emitConst_extends ..
    · split
      · exact emitConst_extends ..
      · exact emitArith_extends ..

theorem emitUn_extends {u : Unit} {op : UnOp} {v : Nat} {p : Unit × Nat}
    (hp : emitUn u op v = some p) : Extends u p.1 := by
  unfold emitUn at hp
  cases op with
  | neg =>
    dsimp only at hp
    unfold emitTrapNeg at hp
    split at hp
    · split at hp
      · split at hp
        · exact emitFold_extends hp
        · cases hp; exact addNode_extends ..
      · split at hp
        · exact emitNeg_extends hp
        · cases hp; exact addNode_extends ..
    · cases hp
  | abs =>
    dsimp only at hp
    unfold emitAbs at hp
    split at hp
    · split at hp
      · exact emitFold_extends hp
      · cases hp; exact addNode_extends ..
    · cases hp
  | not => cases hp; exact emitNot_extends ..

theorem emitSelect_extends {u : Unit} {t l r : Nat} {p : Unit × Nat}
    (hp : emitSelect u t l r = some p) : Extends u p.1 := by
  unfold emitSelect at hp
  split at hp
  · split at hp
    · cases hp; exact .refl u
    · split at hp
      · cases hp; exact .refl u
      · split at hp
        · cases hp; exact .refl u
        · cases hp; exact addNode_extends ..
  · cases hp

theorem emitCast_extends {u : Unit} {ty : Ty} {lo hi : Int} {v : Nat} {p : Unit × Nat}
    (hp : emitCast u ty lo hi v = some p) : Extends u p.1 := by
  unfold emitCast at hp
  split at hp
  · split at hp
    · cases hp; exact .refl u
    · split at hp
      · cases hp; exact emitConst_extends ..
      · split at hp
        · cases hp; exact .refl u
        · cases hp; exact setBounds_extends _ _ (addNode_extends ..)
  · cases hp

theorem emit_extends (e : Expr) : ∀ {u : Unit} {p : Unit × Nat}, emit u e = some p →
    Extends u p.1 := by
  induction e with
  | input i =>
    intro u p hp
    simp only [emit] at hp
    split at hp
    · cases hp; exact .refl u
    · cases hp
  | const ty v => intro u p hp; exact emitFold_extends hp
  | un op a ih =>
    intro u p hp
    simp only [emit, Option.bind_eq_some_iff] at hp
    obtain ⟨q, h₁, h₂⟩ := hp
    exact (ih h₁).trans (emitUn_extends h₂)
  | bin op a b iha ihb =>
    intro u p hp
    simp only [emit, Option.bind_eq_some_iff] at hp
    obtain ⟨q, h₁, s, h₂, h₃⟩ := hp
    exact ((iha h₁).trans (ihb h₂)).trans (emitBin_extends h₃)
  | select t a b iht iha ihb =>
    intro u p hp
    simp only [emit, Option.bind_eq_some_iff] at hp
    obtain ⟨q, h₁, s, h₂, k, h₃, h₄⟩ := hp
    exact (((iht h₁).trans (iha h₂)).trans (ihb h₃)).trans (emitSelect_extends h₄)
  | cast ty lo hi a ih =>
    intro u p hp
    simp only [emit, Option.bind_eq_some_iff] at hp
    obtain ⟨q, h₁, h₂⟩ := hp
    exact (ih h₁).trans (emitCast_extends h₂)

/-! ### Expressions -/

/-- All operations of the expression are emitted correctly: the conditions above hold for the state
in which each operation is emitted and for the values of its operands. -/
def Expr.Sound (tys : List Ty) (env : Nat → Int) : Unit → Expr → Prop
  | _, .input _ => True
  | _, .const _ _ => True
  | u, .un op a => a.Sound tys env u ∧ ∀ p ty x, emit u a = some p → a.typeOf tys = some ty →
      a.eval tys env = .ok x → UnSound p.1 ty op p.2 x
  | u, .bin op a b => a.Sound tys env u ∧ ∀ p, emit u a = some p → b.Sound tys env p.1 ∧
      ∀ q ty x y, emit p.1 b = some q → a.typeOf tys = some ty → a.eval tys env = .ok x →
        b.eval tys env = .ok y → BinSound q.1 ty op p.2 q.2 x y
  | u, .select t a b => t.Sound tys env u ∧ ∀ p, emit u t = some p → a.Sound tys env p.1 ∧
      ∀ q, emit p.1 a = some q → b.Sound tys env q.1 ∧
        ∀ s ty c x y, emit q.1 b = some s → a.typeOf tys = some ty → t.eval tys env = .ok c →
          a.eval tys env = .ok x → b.eval tys env = .ok y →
          SelectSound s.1 ty p.2 q.2 s.2 (if c = 1 then x else y)
  | u, .cast _ _ _ a => a.Sound tys env u

/-- The inputs are there, with their types and values. -/
def Inputs (tys : List Ty) (env : Nat → Int) (u : Unit) (vals : List Int) : Prop :=
  ∀ (i : Nat) ty, tys[i]? = some ty → vals[i]? = some (env i) ∧ regTy u i = some ty

theorem Inputs.extend {tys : List Ty} {u w : Unit} {vals : List Int}
    (h : Inputs tys env u vals) (he : Extends u w) (more : List Int) :
    Inputs tys env w (vals ++ more) := fun i ty hi =>
  ⟨get_append (h i ty hi).1, regTy_extends he (h i ty hi).2⟩

theorem emitBin_gives {u : Unit} {vals : List Int} (h : Inv env u vals none) {l r : Nat}
    {x y : Int} {ty tr : Ty} (hx : vals[l]? = some x) (hy : vals[r]? = some y)
    (ht : regTy u l = some ty) (hr : regTy u r = some ty) {op : BinOp}
    (htr : (match op with
      | .logic _ => if ty = tBool then some tBool else none
      | .cmp _ => some tBool
      | _ => some ty) = some tr) {p : Unit × Nat}
    (hp : emitBin u op l r = some p) (hs : BinSound u ty op l r x y) :
    Gives env vals tr p (op.meaning ty x y) := by
  unfold emitBin at hp
  cases op with
  | add => cases htr; exact emitAdd_gives h hx hy ht hr true hp fun _ => hs
  | sub => cases htr; exact emitSub_gives h hx hy ht hr true hp (fun _ => hs.1) hs.2
  | mul => cases htr; exact emitMul_gives h hx hy ht hr true hp fun _ => hs
  | padd => cases htr; exact emitAdd_gives h hx hy ht hr false hp (fun e => by cases e)
  | psub => cases htr; exact emitSub_gives h hx hy ht hr false hp (fun e => by cases e) hs
  | pmul => cases htr; exact emitMul_gives h hx hy ht hr false hp (fun e => by cases e)
  | div => cases htr; exact emitDiv_gives h hx hy ht hp hs
  | rem => cases htr; exact emitRem_gives h hx hy ht hr hp hs
  | mod => cases htr; exact emitMod_gives h hx hy ht hr hp hs
  | exp => cases htr; exact emitTrapExp_gives h hx hy ht hp hs
  | logic o =>
    dsimp only at htr
    split at htr
    · next e => cases htr; cases hp; subst e; exact emitLogical_gives h hx hy ht hr o
    · cases htr
  | cmp c => cases htr; cases hp; exact emitCmp_gives h hx hy c

theorem emitUn_gives {u : Unit} {vals : List Int} (h : Inv env u vals none) {v : Nat}
    {x : Int} {ty : Ty} (hx : vals[v]? = some x) (ht : regTy u v = some ty) {op : UnOp}
    (hn : ¬ (op = .not ∧ ty ≠ tBool)) {p : Unit × Nat} (hp : emitUn u op v = some p)
    (hs : UnSound u ty op v x) : Gives env vals ty p (op.meaning ty x) := by
  unfold emitUn at hp
  cases op with
  | neg => exact emitTrapNeg_gives h hx ht hp hs
  | abs => exact emitAbs_gives h hx ht hp hs
  | not =>
    cases hp
    have he : ty = tBool := Decidable.byContradiction fun e => hn ⟨rfl, e⟩
    subst he
    simp only [UnOp.meaning]
    by_cases hb : x = 0 ∨ x = 1
    · rw [if_pos hb]
      have : truth (x = 0) = 1 - x := by rcases hb with hb | hb <;> subst hb <;> rfl
      rw [this]
      exact emitNot_gives h hx hb
    · rw [if_neg hb]; exact gives_undef

/-- The result of emitting in a state that was extended. -/
theorem Gives.base {vals more : List Int} {ty : Ty} {p : Unit × Nat} {o : Out Int}
    (h : Gives env (vals ++ more) ty p o) : Gives env vals ty p o := by
  cases o with
  | ok z =>
    obtain ⟨m, h₁, h₂, h₃⟩ := h
    exact ⟨more ++ m, by rw [← List.append_assoc]; exact h₁,
      by rw [← List.append_assoc]; exact h₂, h₃⟩
  | trap => exact h
  | undef => trivial

theorem Gives.trap_extends {vals : List Int} {ty ty' : Ty} {p q : Unit × Nat}
    (h : Gives env vals ty p .trap) (he : Extends p.1 q.1) : Gives env vals ty' q .trap :=
  Extends.trap he h

/-- Emitting any expression in any state. -/
theorem emit_gives {tys : List Ty} (e : Expr) : ∀ {u : Unit} {vals : List Int} {p : Unit × Nat}
    {ty : Ty}, Inv env u vals none → Inputs tys env u vals → e.typeOf tys = some ty →
    e.Sound tys env u → emit u e = some p → Gives env vals ty p (e.eval tys env) := by
  induction e with
  | input i =>
    intro u vals p ty h hin hty _ hp
    simp only [emit] at hp
    split at hp
    · cases hp
      obtain ⟨h₁, h₂⟩ := hin i ty hty
      exact here_gives h h₁ h₂
    · cases hp
  | const cty v =>
    intro u vals p ty h _ hty _ hp
    simp only [Expr.typeOf] at hty
    split at hty
    · next hg =>
      cases hty
      simp only [Expr.eval]
      by_cases hh : cty.repr.Has v
      · rw [if_pos hh]
        have hf : Fits v := by
          simp only [emit, emitFold] at hp
          split at hp
          · assumption
          · cases hp
        rw [reg_fits hf]
        exact emitFold_gives h hp hg hh
      · rw [if_neg hh]; exact gives_undef
    · cases hty
  | un op a ih =>
    intro u vals p ty h hin hty hs hp
    simp only [Expr.typeOf] at hty
    cases ha : a.typeOf tys with
    | none => rw [ha] at hty; cases hty
    | some t =>
      rw [ha] at hty
      dsimp only at hty
      split at hty
      · cases hty
      · next hn =>
        cases hty
        simp only [emit, Option.bind_eq_some_iff] at hp
        obtain ⟨q, h₁, h₂⟩ := hp
        simp only [Expr.Sound] at hs
        have hq := ih h hin ha hs.1 h₁
        simp only [Expr.eval, ha]
        cases hv : a.eval tys env with
        | undef => exact gives_undef
        | trap =>
          rw [hv] at hq
          exact hq.trap_extends (emitUn_extends h₂)
        | ok x =>
          rw [hv] at hq
          obtain ⟨more, k₁, k₂, k₃⟩ := hq
          exact (emitUn_gives k₁ k₂ k₃ hn h₂ (hs.2 q ty x h₁ ha hv)).base
  | bin op a b iha ihb =>
    intro u vals p ty h hin hty hs hp
    simp only [Expr.typeOf] at hty
    cases ha : a.typeOf tys with
    | none => rw [ha] at hty; cases hty
    | some s =>
      cases hb : b.typeOf tys with
      | none => rw [ha, hb] at hty; cases hty
      | some t =>
        rw [ha, hb] at hty
        dsimp only at hty
        split at hty
        · next hst =>
          subst hst
          simp only [emit, Option.bind_eq_some_iff] at hp
          obtain ⟨q, h₁, k, h₂, h₃⟩ := hp
          simp only [Expr.Sound] at hs
          obtain ⟨hs₁, hs₂⟩ := hs
          obtain ⟨hs₂, hs₃⟩ := hs₂ q h₁
          have hq := iha h hin ha hs₁ h₁
          simp only [Expr.eval, ha]
          cases hv : a.eval tys env with
          | undef => exact gives_undef
          | trap =>
            rw [hv] at hq
            exact hq.trap_extends ((emit_extends b h₂).trans (emitBin_extends h₃))
          | ok x =>
            rw [hv] at hq
            obtain ⟨more, k₁, k₂, k₃⟩ := hq
            have hk := ihb k₁ (hin.extend (emit_extends a h₁) more) hb hs₂ h₂
            simp only [Out.bind]
            cases hw : b.eval tys env with
            | undef => exact gives_undef
            | trap =>
              rw [hw] at hk
              exact (hk.trap_extends (ty' := ty) (emitBin_extends h₃)).base
            | ok y =>
              rw [hw] at hk
              obtain ⟨more', k₄, k₅, k₆⟩ := hk
              exact (emitBin_gives k₄ (get_append k₂) k₅ (regTy_extends (emit_extends b h₂) k₃)
                k₆ hty h₃ (hs₃ k s x y h₂ ha hv hw)).base.base
        · cases hty
  | select t a b iht iha ihb =>
    intro u vals p ty h hin hty hs hp
    simp only [Expr.typeOf] at hty
    cases ht : t.typeOf tys with
    | none => rw [ht] at hty; cases hty
    | some rt =>
      cases ha : a.typeOf tys with
      | none => rw [ht, ha] at hty; cases hty
      | some s =>
        cases hb : b.typeOf tys with
        | none => rw [ht, ha, hb] at hty; cases hty
        | some s' =>
          rw [ht, ha, hb] at hty
          dsimp only at hty
          split at hty
          · next hst =>
            obtain ⟨-, hst⟩ := hst
            subst hst
            cases hty
            simp only [emit, Option.bind_eq_some_iff] at hp
            obtain ⟨q, h₁, k, h₂, m, h₃, h₄⟩ := hp
            simp only [Expr.Sound] at hs
            obtain ⟨hs₁, hs₂⟩ := hs
            obtain ⟨hs₂, hs₃⟩ := hs₂ q h₁
            obtain ⟨hs₃, hs₄⟩ := hs₃ k h₂
            have hq := iht h hin ht hs₁ h₁
            simp only [Expr.eval]
            cases hc : t.eval tys env with
            | undef => exact gives_undef
            | trap =>
              rw [hc] at hq
              exact hq.trap_extends (((emit_extends a h₂).trans (emit_extends b h₃)).trans
                (emitSelect_extends h₄))
            | ok c =>
              rw [hc] at hq
              obtain ⟨m₁, k₁, k₂, k₃⟩ := hq
              have hin₁ := hin.extend (emit_extends t h₁) m₁
              have hk := iha k₁ hin₁ ha hs₂ h₂
              simp only [Out.bind]
              cases hv : a.eval tys env with
              | undef => exact gives_undef
              | trap =>
                rw [hv] at hk
                exact (hk.trap_extends (ty' := ty)
                  ((emit_extends b h₃).trans (emitSelect_extends h₄))).base
              | ok x =>
                rw [hv] at hk
                obtain ⟨m₂, k₄, k₅, k₆⟩ := hk
                have hm := ihb k₄ (hin₁.extend (emit_extends a h₂) m₂) hb hs₃ h₃
                cases hw : b.eval tys env with
                | undef => exact gives_undef
                | trap =>
                  rw [hw] at hm
                  exact (hm.trap_extends (ty' := ty) (emitSelect_extends h₄)).base.base
                | ok y =>
                  rw [hw] at hm
                  obtain ⟨m₃, k₇, k₈, k₉⟩ := hm
                  exact (emitSelect_gives k₇ (get_append (get_append k₂)) (get_append k₅) k₈
                    (regTy_extends (emit_extends b h₃) k₆) k₉ h₄
                    (hs₄ m ty c x y h₃ ha hc hv hw)).base.base.base
          · cases hty
  | cast cty lo hi a ih =>
    intro u vals p ty h hin hty hs hp
    simp only [Expr.typeOf] at hty
    cases ha : a.typeOf tys with
    | none => rw [ha] at hty; cases hty
    | some t =>
      rw [ha] at hty
      dsimp only at hty
      split at hty
      · next hg =>
        cases hty
        simp only [emit, Option.bind_eq_some_iff] at hp
        obtain ⟨q, h₁, h₂⟩ := hp
        simp only [Expr.Sound] at hs
        have hq := ih h hin ha hs h₁
        simp only [Expr.eval]
        cases hv : a.eval tys env with
        | undef => exact gives_undef
        | trap =>
          rw [hv] at hq
          exact hq.trap_extends (emitCast_extends h₂)
        | ok x =>
          rw [hv] at hq
          obtain ⟨more, k₁, k₂, k₃⟩ := hq
          exact (emitCast_gives k₁ k₂ k₃ hg h₂).base
      · cases hty

/-! ### A block with its inputs -/

/-- The inputs have values in their ranges, and their types are good. -/
def GoodInputs (ins : List (Ty × Int × Int)) (env : Nat → Int) : Prop :=
  ∀ (i : Nat) ty lo hi, ins[i]? = some (ty, lo, hi) → GoodTy ty ∧ ty.repr.Has (env i) ∧
    lo ≤ env i ∧ env i ≤ hi ∧ Fits lo ∧ Fits hi

theorem inputNodes_get : ∀ (tys : List Ty) (k i : Nat),
    (inputNodes k tys)[i]? = (tys[i]?).map fun ty => ⟨.input (k + i), ty, []⟩
  | [], k, i => by simp [inputNodes]
  | ty :: tys, k, i => by
    cases i with
    | zero => simp [inputNodes]
    | succ i =>
      simp only [inputNodes, List.getElem?_cons_succ]
      rw [inputNodes_get tys (k + 1) i]
      congr 1
      funext ty
      have : k + 1 + i = k + (i + 1) := by omega
      rw [this]

theorem inputNodes_run : ∀ (tys : List Ty) (k : Nat) (vals : List Int),
    runNodes env (inputNodes k tys) vals =
      .ok (vals ++ (List.range' k tys.length).map env)
  | [], k, vals => by simp [inputNodes, runNodes]
  | ty :: tys, k, vals => by
    simp only [inputNodes, runNodes, runNode, Out.bind]
    rw [inputNodes_run tys (k + 1)]
    simp [List.range'_succ]

theorem inputUnit_inv {ins : List (Ty × Int × Int)} (h : GoodInputs ins env) :
    ∃ vals, Inv env (inputUnit ins) vals none ∧
      Inputs (ins.map (·.1)) env (inputUnit ins) vals := by
  have hget : ∀ (i : Nat) v, ((List.range' 0 (ins.map (·.1)).length).map env)[i]? = some v →
      v = env i ∧ i < ins.length := by
    intro i v hv
    simp only [List.getElem?_map, List.length_map, Option.map_eq_some_iff] at hv
    obtain ⟨j, hj, hv⟩ := hv
    obtain ⟨hlt, hj⟩ := List.getElem?_eq_some_iff.1 hj
    simp at hj hlt
    subst hj
    exact ⟨hv.symm, hlt⟩
  have hnode : ∀ (i : Nat) n, (inputUnit ins).nodes[i]? = some n →
      ∃ b, ins[i]? = some b ∧ n = ⟨.input i, b.1, []⟩ := by
    intro i n hn
    simp only [inputUnit] at hn
    rw [inputNodes_get] at hn
    simp only [List.getElem?_map, Option.map_map, Option.map_eq_some_iff, Function.comp] at hn
    obtain ⟨b, hb, hn⟩ := hn
    exact ⟨b, hb, by rw [← hn]; simp⟩
  refine ⟨_, ⟨?_, inputNodes_run _ 0 [], ?_, ?_, ?_⟩, ?_⟩
  · have : ∀ (tys : List Ty) k, (inputNodes k tys).length = tys.length := by
      intro tys
      induction tys with
      | nil => intro k; rfl
      | cons t ts ih => intro k; simp [inputNodes, ih]
    simp [inputUnit, this]
  · intro i n v hn hv
    obtain ⟨⟨ty, lo, hi⟩, hb, rfl⟩ := hnode i n hn
    obtain ⟨hv, -⟩ := hget i v hv
    obtain ⟨h₁, h₂, h₃, h₄, h₅, h₆⟩ := h i ty lo hi hb
    subst hv
    exact ⟨h₁, h₂, ⟨by have := h₅.1; omega, by have := h₆.2; omega⟩⟩
  · intro i n hn
    obtain ⟨b, hb, rfl⟩ := hnode i n hn
    trivial
  · intro i b v _ hb hv
    obtain ⟨hv, -⟩ := hget i v hv
    simp only [inputUnit, List.getElem?_map, Option.map_eq_some_iff] at hb
    obtain ⟨⟨ty, lo, hi⟩, hb, rfl⟩ := hb
    obtain ⟨h₁, h₂, h₃, h₄, h₅, h₆⟩ := h i ty lo hi hb
    subst hv
    exact ⟨⟨h₃, h₄⟩, h₅, h₆⟩
  · intro i ty hi
    simp only [List.getElem?_map, Option.map_eq_some_iff] at hi
    obtain ⟨b, hb, rfl⟩ := hi
    obtain ⟨hlt, -⟩ := List.getElem?_eq_some_iff.1 hb
    refine ⟨?_, ?_⟩
    · simp only [List.nil_append, List.getElem?_map]
      rw [List.getElem?_eq_getElem (by simpa using hlt)]
      simp
    · simp only [regTy, inputUnit]
      rw [inputNodes_get]
      simp [hb]

end Verif.Vcode
