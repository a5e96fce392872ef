import Verif.Vcode.EmitSpec

/-
The invariant of a block while operations are emitted, and the lemmas about adding operations.
-/

namespace Verif.Vcode

open Verif.Mir (Rep Ty Cmp Fits Out tBool truth reg checked)

variable {env : Nat → Int}

/-! ### Running operations -/

theorem valuesOf_append {vals : List Int} (more : List Int) : ∀ {rs : List Nat} {xs : List Int},
    valuesOf vals rs = some xs → valuesOf (vals ++ more) rs = some xs
  | [], xs, h => h
  | r :: rs, xs, h => by
    simp only [valuesOf] at h ⊢
    cases hv : vals[r]? with
    | none => rw [hv] at h; cases h
    | some x =>
      cases hvs : valuesOf vals rs with
      | none => rw [hv, hvs] at h; cases h
      | some ys =>
        rw [hv, hvs] at h
        obtain ⟨hi, -⟩ := List.getElem?_eq_some_iff.1 hv
        rw [List.getElem?_append_left hi, hv, valuesOf_append more hvs]
        exact h

theorem runNodes_append (ns ms : List Node) : ∀ vals : List Int,
    runNodes env (ns ++ ms) vals = (runNodes env ns vals).bind (runNodes env ms) := by
  induction ns with
  | nil => intro vals; rfl
  | cons n ns ih =>
    intro vals
    simp only [List.cons_append, runNodes]
    cases runNode env vals n with
    | ok v => exact ih _
    | trap => rfl
    | undef => rfl

theorem run_extends : ∀ {ns : List Node} {vals vs : List Int}, runNodes env ns vals = .ok vs →
    ∃ more, vs = vals ++ more ∧ more.length = ns.length
  | [], vals, vs, h => by cases h; exact ⟨[], by simp, rfl⟩
  | n :: ns, vals, vs, h => by
    simp only [runNodes] at h
    cases hr : runNode env vals n with
    | trap => rw [hr] at h; cases h
    | undef => rw [hr] at h; cases h
    | ok v =>
      rw [hr] at h
      obtain ⟨more, h₁, h₂⟩ := run_extends h
      exact ⟨v :: more, by simp [h₁], by simp [h₂]⟩

theorem run_length {ns : List Node} {vs : List Int} (h : runNodes env ns [] = .ok vs) :
    vs.length = ns.length := by
  obtain ⟨more, h₁, h₂⟩ := run_extends h
  simp [h₁, h₂]

/-- When the operations have run, the result of each is what it computes from its arguments. -/
theorem run_node {ns : List Node} {vs : List Int} (h : runNodes env ns [] = .ok vs) {i : Nat}
    {n : Node} (hn : ns[i]? = some n) {o : Mir.Op} (ho : n.op = .op o) :
    ∃ xs v, valuesOf vs n.args = some xs ∧ o.meaning n.ty xs = .ok v ∧ vs[i]? = some v := by
  obtain ⟨hi, hni⟩ := List.getElem?_eq_some_iff.1 hn
  have hsplit : ns = ns.take i ++ n :: ns.drop (i + 1) := by
    rw [← hni, List.getElem_cons_drop, List.take_append_drop]
  rw [hsplit, runNodes_append] at h
  cases hr : runNodes env (ns.take i) [] with
  | trap => rw [hr] at h; cases h
  | undef => rw [hr] at h; cases h
  | ok vals =>
    rw [hr] at h
    have hlen := run_length hr
    simp only [Out.bind, runNodes] at h
    cases hrn : runNode env vals n with
    | trap => rw [hrn] at h; cases h
    | undef => rw [hrn] at h; cases h
    | ok v =>
      rw [hrn] at h
      obtain ⟨more, h₁, -⟩ := run_extends h
      unfold runNode at hrn
      rw [ho] at hrn
      dsimp only at hrn
      cases hv : valuesOf vals n.args with
      | none => rw [hv] at hrn; cases hrn
      | some xs =>
        rw [hv] at hrn
        refine ⟨xs, v, ?_, hrn, ?_⟩
        · rw [h₁, List.append_assoc]
          exact valuesOf_append _ hv
        · rw [h₁, List.append_assoc, List.getElem?_append_right (by rw [hlen]; simp; omega)]
          have : i - vals.length = 0 := by rw [hlen]; simp; omega
          rw [this]; rfl

/-! ### The invariant -/

/-- Where the type of an operation comes from. -/
inductive TyFrom where
  | any
  | bool
  | arg (k : Nat)

def tyFrom : Op → TyFrom
  | .input _ | .op (.const _) | .op .cast => .any
  | .op (.cmp _) | .op .not => .bool
  | .op .select => .arg 1
  | .op _ => .arg 0

/-- The type of an operation is the one the emitter gives it. -/
def TyOk (nodes : List Node) (n : Node) : Prop :=
  match tyFrom n.op with
  | .any => True
  | .bool => n.ty = tBool
  | .arg k => ∃ (a : Nat) (m : Node), n.args[k]? = some a ∧ nodes[a]? = some m ∧ n.ty = m.ty

/-- The state of a block while it is being built, for one assignment of the inputs: its operations
run, values are in the representation of their type, and every range contains the value it is about,
except perhaps the range of one register, which is about to be set. -/
structure Inv (env : Nat → Int) (u : Unit) (vals : List Int) (but : Option Nat) : Prop where
  len : u.bounds.length = u.nodes.length
  run : runNodes env u.nodes [] = .ok vals
  node : ∀ (i : Nat) n v, u.nodes[i]? = some n → vals[i]? = some v →
    GoodTy n.ty ∧ n.ty.repr.Has v ∧ Fits v
  typed : ∀ (i : Nat) n, u.nodes[i]? = some n → TyOk u.nodes n
  bound : ∀ (i : Nat) b v, but ≠ some i → u.bounds[i]? = some b → vals[i]? = some v →
    (b.1 ≤ v ∧ v ≤ b.2) ∧ Fits b.1 ∧ Fits b.2

/-- Operations are only added at the end. -/
def Extends (u w : Unit) : Prop := ∃ ns, w.nodes = u.nodes ++ ns

theorem Extends.refl (u : Unit) : Extends u u := ⟨[], by simp⟩

theorem Extends.trans {a b c : Unit} (h : Extends a b) (h' : Extends b c) : Extends a c := by
  obtain ⟨ns, h₂⟩ := h
  obtain ⟨ms, h₄⟩ := h'
  exact ⟨ns ++ ms, by simp [h₄, h₂]⟩

theorem Extends.trap {a b : Unit} (h : Extends a b) (ht : runNodes env a.nodes [] = .trap) :
    runNodes env b.nodes [] = .trap := by
  obtain ⟨ns, h⟩ := h
  rw [h, runNodes_append, ht]; rfl

theorem get_append {α : Type} {l m : List α} {i : Nat} {a : α} (h : l[i]? = some a) :
    (l ++ m)[i]? = some a := by
  obtain ⟨hi, -⟩ := List.getElem?_eq_some_iff.1 h
  rw [List.getElem?_append_left hi]; exact h

theorem regTy_extends {u w : Unit} (h : Extends u w) {i : Nat} {t : Ty}
    (ht : regTy u i = some t) : regTy w i = some t := by
  obtain ⟨ns, h⟩ := h
  unfold regTy at ht ⊢
  cases hn : u.nodes[i]? with
  | none => rw [hn] at ht; cases ht
  | some n => rw [h, get_append hn]; rw [hn] at ht; exact ht

/-- Emitting gave a register with this type and the right value; or the block traps. -/
def Gives (env : Nat → Int) (vals : List Int) (ty : Ty) (p : Unit × Nat) (o : Out Int) : Prop :=
  match o with
  | .ok z => ∃ more, Inv env p.1 (vals ++ more) none ∧ (vals ++ more)[p.2]? = some z ∧
      regTy p.1 p.2 = some ty
  | .trap => runNodes env p.1.nodes [] = .trap
  | .undef => True

/-- The same, while the range of the register is still to be set. -/
def Nearly (env : Nat → Int) (vals : List Int) (ty : Ty) (p : Unit × Nat) (z : Int) : Prop :=
  ∃ more, Inv env p.1 (vals ++ more) (some p.2) ∧ (vals ++ more)[p.2]? = some z ∧
    regTy p.1 p.2 = some ty

theorem Inv.weaken {u : Unit} {vals : List Int} (h : Inv env u vals none) (b : Option Nat) :
    Inv env u vals b := by
  refine ⟨h.len, h.run, h.node, h.typed, ?_⟩
  intro i b v _ h₁ h₂
  exact h.bound i b v (by intro hh; cases hh) h₁ h₂

theorem Inv.const {u : Unit} {vals : List Int} (h : Inv env u vals none) {r : Nat} {x c : Int}
    (hx : vals[r]? = some x) (hc : regConst u r = some c) : x = c := by
  unfold regConst regBounds at hc
  cases hb : u.bounds[r]? with
  | none => rw [hb] at hc; cases hc
  | some b =>
    obtain ⟨lo, hi⟩ := b
    rw [hb] at hc
    dsimp only at hc
    split at hc
    · next he =>
      cases hc
      obtain ⟨⟨h₁, h₂⟩, -⟩ := h.bound r _ x (by intro hh; cases hh) hb hx
      dsimp only at h₁ h₂
      omega
    · cases hc

theorem setBounds_gives {vals : List Int} {ty : Ty} {p : Unit × Nat} {z lo hi : Int}
    (h : Nearly env vals ty p z) (h₁ : lo ≤ z) (h₂ : z ≤ hi) (f₁ : Fits lo) (f₂ : Fits hi) :
    Gives env vals ty (setBounds p lo hi) (.ok z) := by
  obtain ⟨more, hi', hz, ht⟩ := h
  refine ⟨more, ⟨?_, hi'.run, hi'.node, hi'.typed, ?_⟩, hz, ht⟩
  · simp only [setBounds, List.length_set]; exact hi'.len
  · intro i b v _ hb hv
    simp only [setBounds] at hb
    by_cases he : p.2 = i
    · subst he
      have hlt : p.2 < p.1.bounds.length := by
        rw [hi'.len, ← run_length hi'.run]
        exact (List.getElem?_eq_some_iff.1 hz).1
      rw [List.getElem?_set_self hlt] at hb
      cases hb
      rw [hz] at hv
      cases hv
      exact ⟨⟨h₁, h₂⟩, f₁, f₂⟩
    · rw [List.getElem?_set_ne he] at hb
      exact hi'.bound i b v (by intro hh; cases hh; exact he rfl) hb hv

theorem setBounds_extends {u : Unit} {p : Unit × Nat} (lo hi : Int) (h : Extends u p.1) :
    Extends u (setBounds p lo hi).1 := h

theorem addNode_extends (u : Unit) (op : Mir.Op) (ty : Ty) (args : List Nat) :
    Extends u (addNode u op ty args).1 := ⟨_, rfl⟩

theorem TyOk.append {nodes : List Node} {n : Node} (h : TyOk nodes n) (more : List Node) :
    TyOk (nodes ++ more) n := by
  unfold TyOk at h ⊢
  cases hf : tyFrom n.op with
  | any => trivial
  | bool => rw [hf] at h; exact h
  | arg k =>
    rw [hf] at h
    obtain ⟨a, m, h₁, h₂, h₃⟩ := h
    exact ⟨a, m, h₁, get_append h₂, h₃⟩

/-- What a new operation must satisfy apart from its value: its type is good and the emitter's. -/
theorem addNode_nearly {u : Unit} {vals : List Int} (h : Inv env u vals none) {op : Mir.Op}
    {ty : Ty} {args : List Nat} {xs : List Int} {z : Int} (hx : valuesOf vals args = some xs)
    (hm : op.meaning ty xs = .ok z) (hg : GoodTy ty) (hz : ty.repr.Has z) (hf : Fits z)
    (ht : TyOk u.nodes ⟨.op op, ty, args⟩) : Nearly env vals ty (addNode u op ty args) z := by
  have hlen := run_length h.run
  have hlen' := h.len
  refine ⟨[z], ⟨?_, ?_, ?_, ?_, ?_⟩, ?_, ?_⟩
  · simp [addNode, hlen']
  · simp only [addNode]
    rw [runNodes_append, h.run]
    simp only [Out.bind, runNodes, runNode, hx, hm]
  · intro i n v hn hv
    simp only [addNode] at hn
    by_cases hi : i < u.nodes.length
    · rw [List.getElem?_append_left hi] at hn
      rw [List.getElem?_append_left (by omega)] at hv
      exact h.node i n v hn hv
    · rw [List.getElem?_append_right (by omega)] at hn
      rw [List.getElem?_append_right (by omega)] at hv
      rw [hlen] at hv
      cases hk : i - u.nodes.length with
      | zero => rw [hk] at hn hv; cases hn; cases hv; exact ⟨hg, hz, hf⟩
      | succ k => rw [hk] at hn; cases hn
  · intro i n hn
    simp only [addNode] at hn ⊢
    by_cases hi : i < u.nodes.length
    · rw [List.getElem?_append_left hi] at hn
      exact (h.typed i n hn).append _
    · rw [List.getElem?_append_right (by omega)] at hn
      cases hk : i - u.nodes.length with
      | zero => rw [hk] at hn; cases hn; exact ht.append _
      | succ k => rw [hk] at hn; cases hn
  · intro i b v hne hb hv
    simp only [addNode] at hb hne
    have hi : i < u.nodes.length := by
      have : i < (vals ++ [z]).length := (List.getElem?_eq_some_iff.1 hv).1
      simp only [List.length_append, List.length_cons, List.length_nil] at this
      have : i ≠ u.nodes.length := by intro hh; exact hne (by rw [hh])
      omega
    rw [List.getElem?_append_left (by omega)] at hb
    rw [List.getElem?_append_left (by omega)] at hv
    exact h.bound i b v (by intro hh; cases hh) hb hv
  · simp only [addNode]
    rw [List.getElem?_append_right (by omega), hlen]; simp
  · simp [addNode, regTy]

/-- A new operation whose value is in the range of its type. -/
theorem addNode_gives {u : Unit} {vals : List Int} (h : Inv env u vals none) {op : Mir.Op}
    {ty : Ty} {args : List Nat} {xs : List Int} {z : Int} (hx : valuesOf vals args = some xs)
    (hm : op.meaning ty xs = .ok z) (hg : GoodTy ty) (hz : InTy ty z)
    (ht : TyOk u.nodes ⟨.op op, ty, args⟩) :
    Gives env vals ty (addNode u op ty args) (.ok z) := by
  have hh : ty.repr.Has z := ⟨by have := hg.1.1; have := hz.1; omega,
    by have := hg.1.2; have := hz.2; omega⟩
  have hf : Fits z := ⟨by have := hg.2.1.1; have := hz.1; omega,
    by have := hg.2.2.2; have := hz.2; omega⟩
  have hn := addNode_nearly h hx hm hg hh hf ht
  have := setBounds_gives hn hz.1 hz.2 hg.2.1 hg.2.2
  have he : setBounds (addNode u op ty args) ty.low ty.high = addNode u op ty args := by
    have := h.len
    simp only [setBounds, addNode, ← this]
    simp
  rw [he] at this
  exact this

/-- A new operation that traps. -/
theorem addNode_trap {u : Unit} {vals : List Int} (h : Inv env u vals none) {op : Mir.Op}
    {ty : Ty} {args : List Nat} {xs : List Int} (hx : valuesOf vals args = some xs)
    (hm : op.meaning ty xs = .trap) : Gives env vals ty (addNode u op ty args) .trap := by
  simp only [Gives, addNode]
  rw [runNodes_append, h.run]
  simp only [Out.bind, runNodes, runNode, hx, hm]

/-! ### Using an operation again -/

theorem lastIdx_some {p : Node → Bool} : ∀ {ns : List Node} {i j : Nat}, lastIdx p ns i = some j →
    ∃ n, ns[j - i]? = some n ∧ p n = true ∧ i ≤ j
  | [], i, j, h => by cases h
  | n :: ns, i, j, h => by
    simp only [lastIdx] at h
    split at h
    · next k hk =>
      cases h
      obtain ⟨m, h₁, h₂, h₃⟩ := lastIdx_some hk
      refine ⟨m, ?_, h₂, by omega⟩
      have : j - i = (j - (i + 1)) + 1 := by omega
      rw [this, List.getElem?_cons_succ]; exact h₁
    · split at h
      · next hp => cases h; exact ⟨n, by simp, hp, Nat.le_refl _⟩
      · cases h

/-- A register that is already there. -/
theorem here_gives {u : Unit} {vals : List Int} (h : Inv env u vals none) {i : Nat} {z : Int}
    {ty : Ty} (hz : vals[i]? = some z) (ht : regTy u i = some ty) :
    Gives env vals ty (u, i) (.ok z) :=
  ⟨[], by simpa using h, by simpa using hz, ht⟩

theorem here_nearly {u : Unit} {vals : List Int} (h : Inv env u vals none) {i : Nat} {z : Int}
    {ty : Ty} (hz : vals[i]? = some z) (ht : regTy u i = some ty) :
    Nearly env vals ty (u, i) z :=
  ⟨[], by simpa using h.weaken _, by simpa using hz, ht⟩

theorem regTy_good {u : Unit} {vals : List Int} (h : Inv env u vals none) {r : Nat} {x : Int}
    {ty : Ty} (hx : vals[r]? = some x) (ht : regTy u r = some ty) :
    GoodTy ty ∧ ty.repr.Has x ∧ Fits x := by
  unfold regTy at ht
  cases hn : u.nodes[r]? with
  | none => rw [hn] at ht; cases ht
  | some n =>
    rw [hn] at ht
    cases ht
    exact h.node r n x hn hx

theorem emitConst_gives {u : Unit} {vals : List Int} (h : Inv env u vals none) {ty : Ty} {v : Int}
    (hg : GoodTy ty) (hh : ty.repr.Has v) (hf : Fits v) :
    Gives env vals ty (emitConst u ty v) (.ok v) := by
  unfold emitConst
  split
  · next i hi =>
    obtain ⟨n, hn, hp, -⟩ := lastIdx_some hi
    simp only [Nat.sub_zero] at hn
    simp only [Bool.and_eq_true, beq_iff_eq] at hp
    obtain ⟨xs, w, h₁, h₂, h₃⟩ := run_node h.run hn hp.1
    have : w = v := by
      cases xs with
      | nil =>
        simp only [Mir.Op.meaning, reg] at h₂
        rw [if_pos hf] at h₂
        cases h₂; rfl
      | cons => cases h₂
    subst this
    exact here_gives h h₃ (by unfold regTy; rw [hn]; simp [hp.2])
  · refine setBounds_gives (addNode_nearly h (xs := []) rfl ?_ hg hh hf trivial)
      (Int.le_refl _) (Int.le_refl _) hf hf
    simp only [Mir.Op.meaning, reg, if_pos hf]

theorem emitConst_extends (u : Unit) (ty : Ty) (v : Int) : Extends u (emitConst u ty v).1 := by
  unfold emitConst
  split
  · exact .refl u
  · exact ⟨_, rfl⟩

theorem emitFold_gives {u : Unit} {vals : List Int} (h : Inv env u vals none) {ty : Ty} {v : Int}
    {p : Unit × Nat} (hp : emitFold u ty v = some p) (hg : GoodTy ty) (hh : ty.repr.Has v) :
    Gives env vals ty p (.ok v) := by
  unfold emitFold at hp
  split at hp
  · next hf => cases hp; exact emitConst_gives h hg hh hf
  · cases hp

theorem emitFold_extends {u : Unit} {ty : Ty} {v : Int} {p : Unit × Nat}
    (hp : emitFold u ty v = some p) : Extends u p.1 := by
  unfold emitFold at hp
  split at hp
  · cases hp; exact emitConst_extends u ty v
  · cases hp

theorem emitArith_extends (u : Unit) (op : Mir.Op) (ty : Ty) (l r : Nat) :
    Extends u (emitArith u op ty l r).1 := by
  unfold emitArith
  split
  · exact .refl u
  · exact ⟨_, rfl⟩

theorem valuesOf_two {vals : List Int} {l r : Nat} {x y : Int} (hx : vals[l]? = some x)
    (hy : vals[r]? = some y) : valuesOf vals [l, r] = some [x, y] := by
  simp only [valuesOf, hx, hy]

theorem valuesOf_one {vals : List Int} {l : Nat} {x : Int} (hx : vals[l]? = some x) :
    valuesOf vals [l] = some [x] := by
  simp only [valuesOf, hx]

/-- The type that `emitArith` is called with. -/
def ArithTy (u : Unit) (op : Mir.Op) (ty : Ty) (l : Nat) : Prop :=
  match tyFrom (.op op) with
  | .any => False
  | .bool => ty = tBool
  | .arg k => k = 0 ∧ regTy u l = some ty

theorem arithTy_ok {u : Unit} {op : Mir.Op} {ty : Ty} {l r : Nat} (h : ArithTy u op ty l) :
    TyOk u.nodes ⟨.op op, ty, [l, r]⟩ := by
  unfold ArithTy at h
  unfold TyOk
  dsimp only
  cases hf : tyFrom (.op op) with
  | any => trivial
  | bool => rw [hf] at h; exact h
  | arg k =>
    rw [hf] at h
    obtain ⟨hk, ht⟩ := h
    subst hk
    unfold regTy at ht
    cases hn : u.nodes[l]? with
    | none => rw [hn] at ht; cases ht
    | some n => rw [hn] at ht; cases ht; exact ⟨l, n, by simp, hn, rfl⟩

theorem reuse_ty {u : Unit} {op : Mir.Op} {ty : Ty} {l : Nat} (h : ArithTy u op ty l) {n : Node}
    (ho : n.op = .op op) {rest : List Nat} (ha : n.args = l :: rest) (ht : TyOk u.nodes n) :
    n.ty = ty := by
  unfold ArithTy at h
  unfold TyOk at ht
  rw [ho] at ht
  cases hf : tyFrom (.op op) with
  | any => rw [hf] at h; exact h.elim
  | bool => rw [hf] at h ht; rw [ht]; exact h.symm
  | arg k =>
    rw [hf] at h ht
    obtain ⟨hk, h⟩ := h
    subst hk
    obtain ⟨a, m, h₁, h₂, h₃⟩ := ht
    rw [ha] at h₁
    simp only [List.getElem?_cons_zero, Option.some.injEq] at h₁
    subst h₁
    unfold regTy at h
    rw [h₂] at h
    cases h
    exact h₃

/-- The register of an operation that is used again. -/
theorem reuse {u : Unit} {vals : List Int} (h : Inv env u vals none) {op : Mir.Op} {ty : Ty}
    {l r i : Nat} {x y : Int} (hx : vals[l]? = some x) (hy : vals[r]? = some y)
    (ht : ArithTy u op ty l)
    (hi : lastIdx (fun n => n.op == .op op && n.args == [l, r]) u.nodes 0 = some i) :
    ∃ z, op.meaning ty [x, y] = .ok z ∧ vals[i]? = some z ∧ regTy u i = some ty := by
  obtain ⟨n, hn, hp, -⟩ := lastIdx_some hi
  simp only [Nat.sub_zero] at hn
  simp only [Bool.and_eq_true, beq_iff_eq] at hp
  obtain ⟨xs, w, h₁, h₂, h₃⟩ := run_node h.run hn hp.1
  have hty : n.ty = ty := reuse_ty ht hp.1 hp.2 (h.typed i n hn)
  rw [hp.2, valuesOf_two hx hy] at h₁
  cases h₁
  rw [hty] at h₂
  exact ⟨w, h₂, h₃, by unfold regTy; rw [hn, ← hty]; rfl⟩

/-- `emit_arith` when the operation gives a value. -/
theorem emitArith_nearly {u : Unit} {vals : List Int} (h : Inv env u vals none) {op : Mir.Op}
    {ty : Ty} {l r : Nat} {x y z : Int} (hx : vals[l]? = some x) (hy : vals[r]? = some y)
    (ht : ArithTy u op ty l) (hm : op.meaning ty [x, y] = .ok z) (hg : GoodTy ty)
    (hz : ty.repr.Has z) (hf : Fits z) : Nearly env vals ty (emitArith u op ty l r) z := by
  unfold emitArith
  split
  · next i hi =>
    obtain ⟨w, h₁, h₂, h₃⟩ := reuse h hx hy ht hi
    rw [hm] at h₁
    cases h₁
    exact here_nearly h h₂ h₃
  · exact addNode_nearly h (valuesOf_two hx hy) hm hg hz hf (arithTy_ok ht)

/-- `emit_arith` when the operation gives a value in the range of the type. -/
theorem emitArith_gives {u : Unit} {vals : List Int} (h : Inv env u vals none) {op : Mir.Op}
    {ty : Ty} {l r : Nat} {x y z : Int} (hx : vals[l]? = some x) (hy : vals[r]? = some y)
    (ht : ArithTy u op ty l) (hm : op.meaning ty [x, y] = .ok z) (hg : GoodTy ty)
    (hz : InTy ty z) : Gives env vals ty (emitArith u op ty l r) (.ok z) := by
  unfold emitArith
  split
  · next i hi =>
    obtain ⟨w, h₁, h₂, h₃⟩ := reuse h hx hy ht hi
    rw [hm] at h₁
    cases h₁
    exact here_gives h h₂ h₃
  · exact addNode_gives h (valuesOf_two hx hy) hm hg hz (arithTy_ok ht)

/-- `emit_arith` when the operation traps. -/
theorem emitArith_trap {u : Unit} {vals : List Int} (h : Inv env u vals none) {op : Mir.Op}
    {ty : Ty} {l r : Nat} {x y : Int} (hx : vals[l]? = some x) (hy : vals[r]? = some y)
    (ht : ArithTy u op ty l) (hm : op.meaning ty [x, y] = .trap) :
    runNodes env (emitArith u op ty l r).1.nodes [] = .trap := by
  unfold emitArith
  split
  · next i hi =>
    obtain ⟨w, h₁, -, -⟩ := reuse h hx hy ht hi
    rw [hm] at h₁
    cases h₁
  · exact addNode_trap (ty := ty) h (valuesOf_two hx hy) hm

end Verif.Vcode
