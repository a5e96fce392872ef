import Verif.Vcode.EmitProps

/-
C63: the property theorems about emitted arithmetic.
-/

namespace Verif.Vcode

open Verif.Mir (Rep Ty Cmp Fits Out tBool truth reg checked)

variable {env : Nat → Int}

/-- What is emitted for an expression computes it: the same value, and an error exactly when there
is one, for all expressions, inputs and ranges of inputs.  Partial: the cases in which the program
is wrong are excluded by `Expr.Sound`, see `Verif/Vcode/EmitBugs.lean`. -/
theorem emit_correct_partial {ins : List (Ty × Int × Int)} (hin : GoodInputs ins env) {e : Expr}
    {ty : Ty} (hty : e.typeOf (ins.map (·.1)) = some ty)
    (hs : e.Sound (ins.map (·.1)) env (inputUnit ins)) {p : Unit × Nat}
    (hp : emit (inputUnit ins) e = some p) (hd : e.eval (ins.map (·.1)) env ≠ .undef) :
    runEmitted env p = e.eval (ins.map (·.1)) env := by
  obtain ⟨vals, hi, hv⟩ := inputUnit_inv hin
  have := emit_gives e hi hv hty hs hp
  cases he : e.eval (ins.map (·.1)) env with
  | undef => exact absurd he hd
  | trap =>
    rw [he] at this
    unfold runEmitted
    rw [show runNodes env p.1.nodes [] = .trap from this]
    rfl
  | ok z =>
    rw [he] at this
    obtain ⟨more, h₁, h₂, -⟩ := this
    unfold runEmitted
    rw [h₁.run]
    simp only [Out.bind]
    rw [h₂]

/-- The state of the block after an expression was emitted and run. -/
theorem emit_inv {ins : List (Ty × Int × Int)} (hin : GoodInputs ins env) {e : Expr}
    {ty : Ty} (hty : e.typeOf (ins.map (·.1)) = some ty)
    (hs : e.Sound (ins.map (·.1)) env (inputUnit ins)) {p : Unit × Nat}
    (hp : emit (inputUnit ins) e = some p) {z : Int}
    (he : e.eval (ins.map (·.1)) env = .ok z) {vals : List Int}
    (hr : runNodes env p.1.nodes [] = .ok vals) : Inv env p.1 vals none := by
  obtain ⟨vals', hi, hv⟩ := inputUnit_inv hin
  have := emit_gives e hi hv hty hs hp
  rw [he] at this
  obtain ⟨more, h₁, -, -⟩ := this
  have := h₁.run
  rw [hr] at this
  cases this
  exact h₁

/-- Every range that is attached to a register contains the value of the register. -/
theorem emit_ranges_partial {ins : List (Ty × Int × Int)} (hin : GoodInputs ins env) {e : Expr}
    {ty : Ty} (hty : e.typeOf (ins.map (·.1)) = some ty)
    (hs : e.Sound (ins.map (·.1)) env (inputUnit ins)) {p : Unit × Nat}
    (hp : emit (inputUnit ins) e = some p) {z : Int}
    (he : e.eval (ins.map (·.1)) env = .ok z) {vals : List Int}
    (hr : runNodes env p.1.nodes [] = .ok vals) {i : Nat} {lo hi v : Int}
    (hb : p.1.bounds[i]? = some (lo, hi)) (hv : vals[i]? = some v) : lo ≤ v ∧ v ≤ hi :=
  ((emit_inv hin hty hs hp he hr).bound i _ v (by simp) hb hv).1

/-! ### Checks that are left out -/

/-- A value in the range `a to b` or `a downto b`. -/
def Dir.Within (dir : Dir) (a b x : Int) : Prop :=
  match dir with
  | .to => a ≤ x ∧ x ≤ b
  | .downto => b ≤ x ∧ x ≤ a

theorem canElide_holds {u : Unit} {vals : List Int} (h : Inv env u vals none) {v l r : Nat}
    {x a b : Int} (hx : vals[v]? = some x) (ha : vals[l]? = some a) (hb : vals[r]? = some b)
    {dir : Dir} (he : canElide u v l r dir = true) :
    dir.Within a b x := by
  unfold canElide at he
  split at he
  · next a' b' lo hi h₁ h₂ h₃ =>
    have ea := h.const ha h₁
    have eb := h.const hb h₂
    obtain ⟨⟨g₁, g₂⟩, -⟩ := h.bound v _ x (by simp) h₃ hx
    dsimp only at g₁ g₂
    subst ea eb
    have heq : ∀ {k : Nat} {c : Int}, v = k → vals[k]? = some c → x = c := by
      intro k c hk hc
      rw [hk, hc] at hx
      cases hx
      rfl
    cases dir <;> simp only [Bool.or_eq_true, Bool.and_eq_true, decide_eq_true_eq, beq_iff_eq,
      Bool.not_eq_true', decide_eq_false_iff_not, Dir.Within] at he ⊢
    · rcases he with he | ⟨h₁, h₂ | h₂⟩
      · omega
      · have := heq h₂ ha; omega
      · have := heq h₂ hb; omega
    · rcases he with he | ⟨h₁, h₂ | h₂⟩
      · omega
      · have := heq h₂ ha; omega
      · have := heq h₂ hb; omega
  · cases he

theorem skipCheck_holds {u : Unit} {vals : List Int} (h : Inv env u vals none) {v : Nat}
    {x lo hi : Int} (hx : vals[v]? = some x) (he : skipCheck u v lo hi = true) :
    lo ≤ x ∧ x ≤ hi := by
  unfold skipCheck at he
  split at he
  · next l r h₃ =>
    obtain ⟨⟨g₁, g₂⟩, -⟩ := h.bound v _ x (by simp) h₃ hx
    dsimp only at g₁ g₂
    simp only [Bool.and_eq_true, decide_eq_true_eq] at he
    omega
  · cases he

theorem skipZeroCheck_holds {u : Unit} {vals : List Int} (h : Inv env u vals none) {v : Nat}
    {x : Int} (hx : vals[v]? = some x) (he : skipZeroCheck u v = true) : x ≠ 0 := by
  unfold skipZeroCheck at he
  split at he
  · next c hc =>
    have := h.const hx hc
    simp only [bne_iff_ne] at he
    omega
  · cases he

theorem skipExponentCheck_holds {u : Unit} {vals : List Int} (h : Inv env u vals none) {v : Nat}
    {x : Int} (hx : vals[v]? = some x) (he : skipExponentCheck u v = true) : 0 ≤ x := by
  unfold skipExponentCheck at he
  split at he
  · next c hc =>
    have := h.const hx hc
    simp only [decide_eq_true_eq] at he
    omega
  · cases he

/-- A check of the result of an expression that is left out would have succeeded: a range check
against constant bounds, a check of a divisor, a check of an exponent. -/
theorem emit_checks_partial {ins : List (Ty × Int × Int)} (hin : GoodInputs ins env) {e : Expr}
    {ty : Ty} (hty : e.typeOf (ins.map (·.1)) = some ty)
    (hs : e.Sound (ins.map (·.1)) env (inputUnit ins)) {p : Unit × Nat}
    (hp : emit (inputUnit ins) e = some p) {z : Int}
    (he : e.eval (ins.map (·.1)) env = .ok z) :
    (∀ lo hi, skipCheck p.1 p.2 lo hi = true → lo ≤ z ∧ z ≤ hi) ∧
    (skipZeroCheck p.1 p.2 = true → z ≠ 0) ∧
    (skipExponentCheck p.1 p.2 = true → 0 ≤ z) := by
  obtain ⟨vals, hi, hv⟩ := inputUnit_inv hin
  have := emit_gives e hi hv hty hs hp
  rw [he] at this
  obtain ⟨more, h₁, h₂, -⟩ := this
  exact ⟨fun lo hi h => skipCheck_holds h₁ h₂ h, skipZeroCheck_holds h₁ h₂,
    skipExponentCheck_holds h₁ h₂⟩

/-- The same for a range check whose bounds are the values of registers. -/
theorem canElide_partial {ins : List (Ty × Int × Int)} (hin : GoodInputs ins env) {e : Expr}
    {ty : Ty} (hty : e.typeOf (ins.map (·.1)) = some ty)
    (hs : e.Sound (ins.map (·.1)) env (inputUnit ins)) {p : Unit × Nat}
    (hp : emit (inputUnit ins) e = some p) {z : Int}
    (he : e.eval (ins.map (·.1)) env = .ok z) {vals : List Int}
    (hr : runNodes env p.1.nodes [] = .ok vals) {v l r : Nat}
    {x a b : Int} (hx : vals[v]? = some x) (ha : vals[l]? = some a) (hb : vals[r]? = some b)
    {dir : Dir} (hc : canElide p.1 v l r dir = true) :
    dir.Within a b x :=
  canElide_holds (emit_inv hin hty hs hp he hr) hx ha hb hc

/-! ### Expressions whose results are in their types -/

/-- The expression has a value in the range of its type. -/
def Expr.InRange (tys : List Ty) (env : Nat → Int) (e : Expr) : Prop :=
  ∃ ty z, e.typeOf tys = some ty ∧ e.eval tys env = .ok z ∧ InTy ty z ∧ (ty.repr = .u1 → z ≤ 1)

/-- Every operation has a result in the range of its type, and nothing is divided by a negative
number. -/
def Expr.Tame (tys : List Ty) (env : Nat → Int) : Expr → Prop
  | .input _ => True
  | .const _ _ => True
  | .un op a => a.Tame tys env ∧ (Expr.un op a).InRange tys env
  | .bin op a b => a.Tame tys env ∧ b.Tame tys env ∧ (Expr.bin op a b).InRange tys env ∧
      (op = .div → ∀ y, b.eval tys env = .ok y → 0 ≤ y)
  | .select t a b => t.Tame tys env ∧ a.Tame tys env ∧ b.Tame tys env ∧
      (Expr.select t a b).InRange tys env
  | .cast _ _ _ a => a.Tame tys env

theorem typeOf_good {tys : List Ty} (h : ∀ ty ∈ tys, GoodTy ty) (e : Expr) :
    ∀ {ty : Ty}, e.typeOf tys = some ty → GoodTy ty := by
  induction e with
  | input i =>
    intro ty hty
    exact h ty (List.mem_of_getElem? hty)
  | const cty v =>
    intro ty hty
    simp only [Expr.typeOf] at hty
    split at hty
    · next hg => cases hty; exact hg
    · cases hty
  | un op a ih =>
    intro ty hty
    simp only [Expr.typeOf] at hty
    split at hty
    · next t ha =>
      split at hty
      · cases hty
      · cases hty; exact ih ha
    · cases hty
  | bin op a b iha ihb =>
    intro ty hty
    simp only [Expr.typeOf] at hty
    split at hty
    · next s t ha hb =>
      split at hty
      · split at hty
        · split at hty
          · cases hty; exact good_bool
          · cases hty
        · cases hty; exact good_bool
        · cases hty; exact iha ha
      · cases hty
    · cases hty
  | select t a b iht iha ihb =>
    intro ty hty
    simp only [Expr.typeOf] at hty
    split at hty
    · next r s t _ ha _ =>
      split at hty
      · cases hty; exact iha ha
      · cases hty
    · cases hty
  | cast cty lo hi a ih =>
    intro ty hty
    simp only [Expr.typeOf] at hty
    split at hty
    · split at hty
      · next hg => cases hty; exact hg
      · cases hty
    · cases hty

theorem checked_val {r : Rep} {x z : Int} (h : checked r x = .ok z) : z = x := by
  rcases checked_cases r x with ⟨-, -, e⟩ | ⟨-, e⟩ | e <;> rw [e] at h <;> cases h
  rfl

theorem unchecked_val {r : Rep} {x z : Int} (h : unchecked r x = .ok z) : z = x := by
  rcases unchecked_cases r x with ⟨-, -, e⟩ | e <;> rw [e] at h <;> cases h
  rfl

/-- No operation of such an expression is one of the excluded cases. -/
theorem tame_sound {tys : List Ty} (h : ∀ ty ∈ tys, GoodTy ty) (e : Expr) :
    e.Tame tys env → ∀ u, e.Sound tys env u := by
  have calm : ∀ {ty : Ty} {z : Int}, GoodTy ty → InTy ty z → (ty.repr = .u1 → z ≤ 1) →
      Calm ty z := fun hg hz h1 => ⟨(inTy_has hg hz).1, (inTy_has hg hz).2, h1⟩
  induction e with
  | input i => intros; trivial
  | const cty v => intros; trivial
  | un op a ih =>
    intro ht u
    simp only [Expr.Tame] at ht
    simp only [Expr.Sound]
    refine ⟨ih ht.1 u, ?_⟩
    obtain ⟨rt, z, h₁, h₂, h₃, h₄⟩ := ht.2
    intro p ty x _ ha hx
    have hg := typeOf_good h a ha
    simp only [Expr.eval, ha, hx, Out.bind] at h₂
    simp only [Expr.typeOf, ha] at h₁
    split at h₁
    · cases h₁
    · cases h₁
      cases op with
      | neg =>
        simp only [UnOp.meaning] at h₂
        have := checked_val h₂
        subst this
        exact ⟨fun _ _ _ => (calm hg h₃ h₄).1, fun _ => .inl h₃⟩
      | abs =>
        simp only [UnOp.meaning] at h₂
        have := checked_val h₂
        subst this
        exact ⟨fun _ => (calm hg h₃ h₄).1, fun _ => h₃⟩
      | not => trivial
  | bin op a b iha ihb =>
    intro ht u
    simp only [Expr.Tame] at ht
    simp only [Expr.Sound]
    refine ⟨iha ht.1 u, fun p _ => ⟨ihb ht.2.1 p.1, ?_⟩⟩
    obtain ⟨-, -, ⟨rt, z, h₁, h₂, h₃, h₄⟩, hdiv⟩ := ht
    intro q ty x y _ ha hx hy
    have hg := typeOf_good h a ha
    simp only [Expr.eval, ha, hx, hy, Out.bind] at h₂
    have hrt : (∀ o, op ≠ .logic o) → (∀ c, op ≠ .cmp c) → rt = ty := by
      intro n₁ n₂
      simp only [Expr.typeOf, ha] at h₁
      cases hb : b.typeOf tys with
      | none => rw [hb] at h₁; cases h₁
      | some t =>
        rw [hb] at h₁
        dsimp only at h₁
        split at h₁
        · cases op with
          | logic o => exact absurd rfl (n₁ o)
          | cmp c => exact absurd rfl (n₂ c)
          | _ => cases h₁; rfl
        · cases h₁
    cases op with
    | logic o => trivial
    | cmp c => trivial
    | padd => trivial
    | pmul => trivial
    | add =>
      have := hrt (by simp) (by simp); subst this
      have := checked_val h₂; subst this
      exact ⟨fun _ => (calm hg h₃ h₄).1, fun _ => calm hg h₃ h₄⟩
    | mul =>
      have := hrt (by simp) (by simp); subst this
      have := checked_val h₂; subst this
      exact ⟨fun _ => (calm hg h₃ h₄).1, fun _ => calm hg h₃ h₄⟩
    | sub =>
      have := hrt (by simp) (by simp); subst this
      have := checked_val h₂; subst this
      exact ⟨⟨fun _ => (calm hg h₃ h₄).1, fun _ => calm hg h₃ h₄⟩, fun _ _ => h₃⟩
    | psub =>
      have := hrt (by simp) (by simp); subst this
      have := unchecked_val h₂; subst this
      exact fun _ _ => h₃
    | div =>
      have := hrt (by simp) (by simp); subst this
      simp only [BinOp.meaning] at h₂
      split at h₂
      · cases h₂
      · have := checked_val h₂; subst this
        refine ⟨fun _ => (calm hg h₃ h₄).1, fun _ _ => hdiv rfl y hy, fun _ => h₃⟩
    | rem =>
      have := hrt (by simp) (by simp); subst this
      simp only [BinOp.meaning] at h₂
      split at h₂
      · cases h₂
      · have := checked_val h₂; subst this
        exact fun _ _ => h₃
    | mod =>
      have := hrt (by simp) (by simp); subst this
      simp only [BinOp.meaning] at h₂
      split at h₂
      · cases h₂
      · have := checked_val h₂; subst this
        exact fun _ _ => h₃
    | exp =>
      have := hrt (by simp) (by simp); subst this
      simp only [BinOp.meaning] at h₂
      split at h₂
      · cases h₂
      · have := checked_val h₂; subst this
        exact fun _ _ _ => h₃
  | select t a b iht iha ihb =>
    intro ht u
    simp only [Expr.Tame] at ht
    simp only [Expr.Sound]
    refine ⟨iht ht.1 u, fun p _ => ⟨iha ht.2.1 p.1, fun q _ => ⟨ihb ht.2.2.1 q.1, ?_⟩⟩⟩
    obtain ⟨-, -, -, rt, z, h₁, h₂, h₃, h₄⟩ := ht
    intro s ty c x y _ ha hc hx hy _ _
    simp only [Expr.eval, hc, hx, hy, Out.bind] at h₂
    split at h₂
    · cases h₂
      simp only [Expr.typeOf, ha] at h₁
      split at h₁
      · next e₁ e₂ e₃ =>
        cases e₂
        split at h₁
        · cases h₁; exact h₃
        · cases h₁
      · cases h₁
    · cases h₂
  | cast cty lo hi a ih =>
    intro ht u
    exact ih ht u

/-- When every operation has a result in the range of its type, and nothing is divided by a negative
number, what is emitted computes the expression, all ranges contain their values, and checks that
are left out would have succeeded. -/
theorem emit_tame_correct {ins : List (Ty × Int × Int)} (hin : GoodInputs ins env) {e : Expr}
    {ty : Ty} (hty : e.typeOf (ins.map (·.1)) = some ty) (ht : e.Tame (ins.map (·.1)) env)
    {z : Int} (he : e.eval (ins.map (·.1)) env = .ok z) {p : Unit × Nat}
    (hp : emit (inputUnit ins) e = some p) :
    runEmitted env p = .ok z ∧
    (∀ (vals : List Int) (i : Nat) (lo hi v : Int), runNodes env p.1.nodes [] = .ok vals →
      p.1.bounds[i]? = some (lo, hi) → vals[i]? = some v → lo ≤ v ∧ v ≤ hi) ∧
    (∀ lo hi, skipCheck p.1 p.2 lo hi = true → lo ≤ z ∧ z ≤ hi) := by
  have hgood : ∀ ty ∈ ins.map (·.1), GoodTy ty := by
    intro ty hm
    obtain ⟨⟨ty', lo, hi⟩, hm', rfl⟩ := List.mem_map.1 hm
    obtain ⟨i, hi⟩ := List.getElem?_of_mem hm'
    exact (hin i _ _ _ hi).1
  have hs := tame_sound hgood e ht (inputUnit ins)
  refine ⟨?_, fun vals i lo hi v hr hb hv => emit_ranges_partial hin hty hs hp he hr hb hv,
    (emit_checks_partial hin hty hs hp he).1⟩
  rw [← he]
  exact emit_correct_partial hin hty hs hp (by rw [he]; simp)

/-! ### The emitter emits -/

/-- The compiler only fails (signed overflow, `INT64_MIN / -1`) on constants and ranges of 64 bits:
it never does for sums of representable values of fewer bits. -/
theorem emitAdd_total {u : Unit} {vals : List Int} (h : Inv env u vals none) {l r : Nat}
    {x y : Int} {ty : Ty} (hx : vals[l]? = some x) (hy : vals[r]? = some y)
    (ht : regTy u l = some ty) (hf : Fits (x + y)) (trap : Bool) : (emitAdd u trap l r).isSome := by
  have bound : ∀ {k : Nat} {z : Int}, vals[k]? = some z → ∃ b, regBounds u k = some b := by
    intro k z hk
    obtain ⟨hi, -⟩ := List.getElem?_eq_some_iff.1 hk
    refine ⟨_, List.getElem?_eq_getElem (h := ?_)⟩
    rw [h.len, ← run_length h.run]
    exact hi
  obtain ⟨bl, hbl⟩ := bound hx
  obtain ⟨br, hbr⟩ := bound hy
  unfold emitAdd
  rw [ht, hbl, hbr]
  dsimp only
  cases hl : regConst u l with
  | some a =>
    cases hr : regConst u r with
    | some b =>
      dsimp only
      unfold emitFold
      rw [← h.const hx hl, ← h.const hy hr, if_pos hf]
      rfl
    | none => dsimp only; split <;> rfl
  | none =>
    cases hr : regConst u r with
    | some b => dsimp only; split <;> rfl
    | none => rfl

/-! ### Examples -/

/-- `integer` and a subtype of it. -/
def tInteger : Ty := ⟨-2147483648, 2147483647, .i32⟩

/-- `(a + b) * 2 - a / 3` with `a` and `b` between 0 and 1000. -/
def exampleExpr : Expr :=
  .bin .sub (.bin .mul (.bin .add (.input 0) (.input 1)) (.const tInteger 2))
    (.bin .div (.input 0) (.const tInteger 3))

def exampleIns : List (Ty × Int × Int) := [(tInteger, 0, 1000), (tInteger, 0, 1000)]

/-- No overflow check is needed, and the result is known to be between -333 and 4000. -/
example : emit (inputUnit exampleIns) exampleExpr = some
    (⟨[⟨.input 0, tInteger, []⟩, ⟨.input 1, tInteger, []⟩, ⟨.op .add, tInteger, [0, 1]⟩,
       ⟨.op (.const 2), tInteger, []⟩, ⟨.op .mul, tInteger, [2, 3]⟩, ⟨.op (.const 3), tInteger, []⟩,
       ⟨.op .div, tInteger, [0, 5]⟩, ⟨.op .sub, tInteger, [4, 6]⟩],
      [(0, 1000), (0, 1000), (0, 2000), (2, 2), (0, 4000), (3, 3), (0, 333), (-333, 4000)]⟩, 7) := by
  decide

def exampleEnv : Nat → Int := fun k => if k = 0 then 7 else 9

example : GoodInputs exampleIns exampleEnv := by
  intro i ty lo hi h
  match i with
  | 0 => cases h; decide
  | 1 => cases h; decide
  | i + 2 => cases h

example : exampleExpr.typeOf (exampleIns.map (·.1)) = some tInteger ∧
    exampleExpr.eval (exampleIns.map (·.1)) exampleEnv = .ok 30 := by decide

example : exampleExpr.Tame (exampleIns.map (·.1)) exampleEnv := by
  refine ⟨⟨⟨trivial, trivial, ⟨tInteger, 16, by decide, by decide, by decide, by decide⟩, ?_⟩,
    trivial, ⟨tInteger, 32, by decide, by decide, by decide, by decide⟩, ?_⟩,
    ⟨trivial, trivial, ⟨tInteger, 2, by decide, by decide, by decide, by decide⟩, ?_⟩,
    ⟨tInteger, 30, by decide, by decide, by decide, by decide⟩, ?_⟩ <;> intro h
  · cases h
  · cases h
  · intro y hy; cases hy; decide
  · cases h

/-- A sum that does overflow: the check is kept, and there is an error. -/
def overflowExpr : Expr := .bin .add (.input 0) (.input 1)

def overflowIns : List (Ty × Int × Int) :=
  [(tInteger, 0, 2147483647), (tInteger, 0, 2147483647)]

def overflowEnv : Nat → Int := fun _ => 2147483647

example : overflowExpr.Sound (overflowIns.map (·.1)) overflowEnv (inputUnit overflowIns) := by
  simp only [overflowExpr, Expr.Sound, true_and]
  intro p hp
  have : p = (inputUnit overflowIns, 0) := by cases hp; rfl
  subst this
  intro q ty x y hq ht hx hy
  have : q = (inputUnit overflowIns, 1) := by cases hq; rfl
  subst this
  cases ht
  exact ⟨fun h => absurd rfl h.1, fun h => by rcases h with h | h | h <;> cases h⟩

example : overflowExpr.eval (overflowIns.map (·.1)) overflowEnv = .trap ∧
    (emit (inputUnit overflowIns) overflowExpr).map (runEmitted overflowEnv) = some .trap := by
  decide

/-- A range check that is left out, and one that is not. -/
example : (emit (inputUnit exampleIns) exampleExpr).map
    (fun p => (skipCheck p.1 p.2 (-500) 5000, skipCheck p.1 p.2 0 5000)) = some (true, false) := by
  decide

end Verif.Vcode
