import Verif.Jit.LlvmOps

/-!
# Every instruction in the code that LLVM makes
-/

namespace Verif.Code.Llvm

variable {W : Type} {x : LEnv W} {m : Mask} {i : Nat} {σ : Ref → Option Word} {w : W} {g g1 : Gen} {c : Code}
variable {ir : Ir} {regs : Nat → Word} {fl : Bool} {e : Eff W} {exp : Bool}

/-- What holds before an instruction: its operands, the old value and the flags have the values that the
interpreter reads. -/
structure Pre (x : LEnv W) (m : Mask) (σ : Ref → Option Word) (g : Gen) (ir : Ir) (regs : Nat → Word) (fl : Bool) : Prop where
  typed : Typed m g
  small1 : SmallVal ir.arg1
  small2 : SmallVal ir.arg2
  reg1 : HasReg x σ g regs ir.arg1.regOf
  reg2 : HasReg x σ g regs ir.arg2.regOf
  old : ir.op.readsResult = true → HasReg x σ g regs ir.result
  flags : ir.readsFlags = true → g.flags.eval x σ = some (ofBool fl)

theorem bind_split {α β} {o : Option α} {f : α → Option β} {b : β} (h : o.bind f = some b) : ∃ a, o = some a ∧ f a = some b := by
  cases o with
  | none => cases h
  | some a => exact ⟨a, rfl, h⟩

theorem Pre.arg1 (hp : Pre x m σ g ir regs fl) {e : Expr} (h : getValue g ir.arg1 = some e) :
    Valued x σ e (Code.eval x.env regs ir.arg1) := (getValue_ok h hp.typed hp.small1 hp.reg1).1

theorem Pre.arg2 (hp : Pre x m σ g ir regs fl) {e : Expr} (h : getValue g ir.arg2 = some e) :
    Valued x σ e (Code.eval x.env regs ir.arg2) := (getValue_ok h hp.typed hp.small2 hp.reg2).1

theorem give_some {v : Option Word} (h : give w v = some e) : ∃ r, v = some r ∧ e = ⟨some r, none, w, .next⟩ := by
  cases v with
  | none => cases h
  | some r => cases h; exact ⟨r, rfl, rfl⟩

theorem act_some {v : Option W} (h : act v = some e) : ∃ r, v = some r ∧ e = ⟨none, none, r, .next⟩ := by
  cases v with
  | none => cases h
  | some r => cases h; exact ⟨r, rfl, rfl⟩

theorem actGive_some {v : Option (Word × W)} (h : actGive v = some e) :
    ∃ r w', v = some (r, w') ∧ e = ⟨some r, none, w', .next⟩ := by
  cases v with
  | none => cases h
  | some r => cases h; exact ⟨r.1, r.2, rfl, rfl⟩

theorem giveFlags_some {v : Option (Word × Option Bool)} (h : giveFlags w v = some e) :
    ∃ r o, v = some (r, o) ∧ e = ⟨some r, o, w, .next⟩ := by
  cases v with
  | none => cases h
  | some r => cases h; exact ⟨r.1, r.2, rfl, rfl⟩

theorem setVal_ty {e : Expr} {result : Option Nat} (h : setVal m i g result e = some (c, g1)) : e.ty.isSome = true := by
  unfold setVal at h
  obtain ⟨r, -, h⟩ := bind_split h
  obtain ⟨t, ht, -⟩ := bind_split h
  rw [ht]; rfl

theorem setValFlag_ty {e f : Expr} {result : Option Nat} (h : setValFlag m i g result e f = some (c, g1)) : f.ty = some .i1 := by
  unfold setValFlag at h
  obtain ⟨r, -, h⟩ := bind_split h
  obtain ⟨t, ht, h⟩ := bind_split h
  by_cases hc : (t = .i64 ∨ (t = .ptr ∧ m r = true)) ∧ f.ty = some .i1
  · exact hc.2
  · rw [if_neg hc] at h; cases h

/-- A checked operation. -/
theorem genChecked_ok {k : Arith} {signed : Bool} (hp : Pre x m σ g ir regs fl)
    (h : genChecked m i ir g k signed = some (c, g1)) (n : Nat) (hn : ir.size.bits = some n) :
    Post x m i σ w ir.result g c g1
      ⟨some (checked k signed n (Code.eval x.env regs ir.arg1) (Code.eval x.env regs ir.arg2)).1,
        some (checked k signed n (Code.eval x.env regs ir.arg1) (Code.eval x.env regs ir.arg2)).2, w, .next⟩ exp := by
  unfold genChecked at h
  obtain ⟨t, ht, h⟩ := bind_split h
  obtain ⟨ht1, ht2, ht3, ht4, ht5⟩ := checkTy_some ht
  rw [ht2] at hn
  cases hn
  obtain ⟨a, ha, h⟩ := bind_split h
  obtain ⟨a0, ha0, ha⟩ := bind_split ha
  obtain ⟨b, hb, h⟩ := bind_split h
  obtain ⟨b0, hb0, hb⟩ := bind_split hb
  obtain ⟨r, hr, h⟩ := bind_split h
  obtain ⟨e, he, h⟩ := bind_split h
  have hft := setValFlag_ty h
  have hty : t.isInt = true ∧ a.ty = some t ∧ b.ty = some t := by
    by_cases hc : t.isInt = true ∧ a.ty = some t ∧ b.ty = some t
    · exact hc
    · simp only [Expr.ty, if_neg hc] at hft; cases hft
  have hnp : t ≠ .ptr := by rintro rfl; cases ht3
  rw [ht1] at ha hb
  have hav : a.eval x σ = some (low t.bits (Code.eval x.env regs ir.arg1)) := by
    rcases coerceInt_ok (hp.arg1 ha0) ha with h1 | h1
    · rw [hty.2.1] at h1; exact absurd (Option.some.inj h1.1) hnp
    · rw [← ht1] at h1; exact h1.2
  have hbv : b.eval x σ = some (low t.bits (Code.eval x.env regs ir.arg2)) := by
    rcases coerceInt_ok (hp.arg2 hb0) hb with h1 | h1
    · rw [hty.2.2] at h1; exact absurd (Option.some.inj h1.1) hnp
    · rw [← ht1] at h1; exact h1.2
  have hot : (Expr.ovf k signed t a b).ty = some t := by simp only [Expr.ty, if_pos hty]
  have hov : (Expr.ovf k signed t a b).eval x σ = some (withOverflow k signed t.bits (low t.bits (Code.eval x.env regs ir.arg1)) (low t.bits (Code.eval x.env regs ir.arg2))).1 := by
    simp only [Expr.eval, hav, hbv, Option.bind_some, Option.map_some]
  have hfv : (Expr.ovfFlag k signed t a b).eval x σ = some (ofBool (withOverflow k signed t.bits (low t.bits (Code.eval x.env regs ir.arg1)) (low t.bits (Code.eval x.env regs ir.arg2))).2) := by
    simp only [Expr.eval, hav, hbv, Option.bind_some, Option.map_some]
  have hww := withOverflow_eq k signed t.bits ht5 (Code.eval x.env regs ir.arg1) (Code.eval x.env regs ir.arg2)
  rw [← hww]
  refine post_valFlag h ?_ hfv _ (Or.inl rfl)
  cases signed
  · exact zextResult_ok hot hov he
  · exact sextResult_ok hot hov he

/-- A power. -/
theorem genExp_ok (hp : Pre x m σ g ir regs fl) (hop : exp = true)
    (h : genExp m i ir g = some (c, g1)) (r : Word) (o : Option Bool)
    (hs : ∀ r o, power ir.size ir.cc (Code.eval x.env regs ir.arg1) (Code.eval x.env regs ir.arg2) = some (r, some o) → o = false)
    (he : power ir.size ir.cc (Code.eval x.env regs ir.arg1) (Code.eval x.env regs ir.arg2) = some (r, o)) :
    Post x m i σ w ir.result g c g1 ⟨some r, o, w, .next⟩ exp := by
  unfold genExp at h
  obtain ⟨t, ht, h⟩ := bind_split h
  obtain ⟨a, ha, h⟩ := bind_split h
  obtain ⟨a0, ha0, ha⟩ := bind_split ha
  obtain ⟨b, hb, h⟩ := bind_split h
  obtain ⟨b0, hb0, hb⟩ := bind_split hb
  obtain ⟨q, hq, h⟩ := bind_split h
  obtain ⟨ex, hex, h⟩ := bind_split h
  have hft := setValFlag_ty h
  generalize hsg : (ir.cc != .c) = signed at *
  have hty : t.isInt = true ∧ a.ty = some t ∧ b.ty = some t := by
    by_cases hc : t.isInt = true ∧ a.ty = some t ∧ b.ty = some t
    · exact hc
    · simp only [Expr.ty, if_neg hc] at hft; cases hft
  have key : t = tyOf ir.size ∧ 1 < t.bits ∧ t.bits ≤ 64 ∧
      checkedExp signed t.bits (Code.eval x.env regs ir.arg1) (Code.eval x.env regs ir.arg2) = some (r, false) ∧
      (o = some false ∨ o = none) := by
    by_cases hcc : ir.cc = .o ∨ ir.cc = .c
    · rw [if_pos hcc] at ht
      obtain ⟨ht1, ht2, ht3, ht4, ht5⟩ := checkTy_some ht
      have hce : ∃ p, checkedExp signed t.bits (Code.eval x.env regs ir.arg1) (Code.eval x.env regs ir.arg2) = some p ∧
          r = p.1 ∧ o = some p.2 := by
        rcases hcc with hcc | hcc
        · rw [hcc] at hsg he
          simp only [power, ht2, Option.bind_some] at he
          have hsg : signed = true := by rw [← hsg]; rfl
          subst hsg
          cases hx : checkedExp true t.bits (Code.eval x.env regs ir.arg1) (Code.eval x.env regs ir.arg2) with
          | none => rw [hx] at he; cases he
          | some p => rw [hx] at he; cases he; exact ⟨p, rfl, rfl, rfl⟩
        · rw [hcc] at hsg he
          simp only [power, ht2, Option.bind_some] at he
          have hsg : signed = false := by rw [← hsg]; rfl
          subst hsg
          cases hx : checkedExp false t.bits (Code.eval x.env regs ir.arg1) (Code.eval x.env regs ir.arg2) with
          | none => rw [hx] at he; cases he
          | some p => rw [hx] at he; cases he; exact ⟨p, rfl, rfl, rfl⟩
      obtain ⟨⟨p1, p2⟩, hx, e1, e2⟩ := hce
      have e1 : r = p1 := e1
      have e2 : o = some p2 := e2
      have hno : p2 = false := hs r p2 (by rw [he, e2])
      subst hno
      exact ⟨ht1, ht4, ht5, by rw [hx, e1], Or.inl e2⟩
    · rw [if_neg hcc] at ht
      by_cases h64 : tyOf ir.size = .i64
      · rw [if_pos h64] at ht
        cases ht
        have hpw : power ir.size ir.cc (Code.eval x.env regs ir.arg1) (Code.eval x.env regs ir.arg2) =
            (checkedExp true 64 (Code.eval x.env regs ir.arg1) (Code.eval x.env regs ir.arg2)).bind fun (r, o) => if o then none else some (r, none) := by
          unfold power
          split
          · rename_i hc; exact absurd (Or.inl hc) hcc
          · rename_i hc; exact absurd (Or.inr hc) hcc
          · rfl
        rw [hpw] at he
        have hsg2 : signed = true := by
          rw [← hsg]
          simpa using fun h => hcc (Or.inr h)
        subst hsg2
        obtain ⟨⟨p1, p2⟩, hx, hp2⟩ := bind_split he
        cases p2 with
        | true => cases hp2
        | false =>
          cases hp2
          exact ⟨h64.symm, by decide, by decide, hx, Or.inr rfl⟩
      · rw [if_neg h64] at ht; cases ht
  obtain ⟨ht1, ht4, ht5, hc, ho⟩ := key
  have hnp : t ≠ .ptr := by rintro rfl; cases hty.1
  rw [ht1] at ha hb
  have hav : a.eval x σ = some (low t.bits (Code.eval x.env regs ir.arg1)) := by
    rcases coerceInt_ok (hp.arg1 ha0) ha with h1 | h1
    · rw [hty.2.1] at h1; exact absurd (Option.some.inj h1.1) hnp
    · rw [← ht1] at h1; exact h1.2
  have hbv : b.eval x σ = some (low t.bits (Code.eval x.env regs ir.arg2)) := by
    rcases coerceInt_ok (hp.arg2 hb0) hb with h1 | h1
    · rw [hty.2.2] at h1; exact absurd (Option.some.inj h1.1) hnp
    · rw [← ht1] at h1; exact h1.2
  obtain ⟨hv1, hv2⟩ := power_value signed t.bits ht5 ht4 _ _ r hc
  have hot : (Expr.exp signed t a b).ty = some t := by simp only [Expr.ty, if_pos hty]
  have hov : (Expr.exp signed t a b).eval x σ = some (expOverflow signed t.bits (low t.bits (Code.eval x.env regs ir.arg1)) (low t.bits (Code.eval x.env regs ir.arg2))).1 := by
    simp only [Expr.eval, hav, hbv, Option.bind_some, Option.map_some]
  have hfv : (Expr.expFlag signed t a b).eval x σ = some (ofBool false) := by
    simp only [Expr.eval, hav, hbv, Option.bind_some, Option.map_some, hv2]
  refine post_valFlag h ?_ hfv _ (ho.imp id fun h => ⟨h, hop⟩)
  rw [← hv1]
  cases signed
  · exact zextResult_ok hot hov hex
  · exact sextResult_ok hot hov hex

/-- An instruction with two operands and no check. -/
theorem genBin_ok {op : Bin} (hp : Pre x m σ g ir regs fl) (h : genBin m i ir g op = some (c, g1)) (v : Word)
    (hv : op.eval (Code.eval x.env regs ir.arg1) (Code.eval x.env regs ir.arg2) = some v) :
    Post x m i σ w ir.result g c g1 ⟨some v, none, w, .next⟩ exp := by
  unfold genBin at h
  obtain ⟨a, ha, h⟩ := bind_split h
  obtain ⟨b, hb, h⟩ := bind_split h
  refine post_val h ?_
  simp only [Expr.eval, (hp.arg1 ha).val, (hp.arg2 hb).val, Option.bind_some, hv]

theorem bits_unspec {s : Size} {t : Ty} (h : checkTy s = some t) : s.bits = some t.bits := (checkTy_some h).2.1

theorem genChecked_size {k : Arith} {signed : Bool} (h : genChecked m i ir g k signed = some (c, g1)) :
    ∃ n, ir.size.bits = some n := by
  unfold genChecked at h
  obtain ⟨t, ht, -⟩ := bind_split h
  exact ⟨_, bits_unspec ht⟩

theorem genSubMul_ok {k : Arith} {op : Bin} (hk : op = Arith.bin k) (hp : Pre x m σ g ir regs fl)
    (h : genSubMul m i ir g k op = some (c, g1)) (v : Word) (o : Option Bool)
    (hv : arith k ir.size ir.cc (Code.eval x.env regs ir.arg1) (Code.eval x.env regs ir.arg2) = some (v, o)) :
    Post x m i σ w ir.result g c g1 ⟨some v, o, w, .next⟩ exp := by
  subst hk
  unfold genSubMul at h
  unfold arith at hv
  split at h
  · rename_i hc
    simp only [hc] at hv
    obtain ⟨n, hn⟩ := genChecked_size h
    rw [hn] at hv
    cases hv
    exact genChecked_ok hp h n hn
  · rename_i hc
    simp only [hc] at hv
    obtain ⟨n, hn⟩ := genChecked_size h
    rw [hn] at hv
    cases hv
    exact genChecked_ok hp h n hn
  · rename_i h1 h2
    split at hv
    · rename_i hc; exact absurd hc h1
    · rename_i hc; exact absurd hc h2
    · cases hx : plain (k.eval (Code.eval x.env regs ir.arg1).toInt (Code.eval x.env regs ir.arg2).toInt) with
      | none => rw [hx] at hv; cases hv
      | some r =>
        rw [hx] at hv; cases hv
        exact genBin_ok hp h v (plain_arith k _ _ v hx)

theorem addExpr_ok {r : Nat} {a b ex : Expr} {u v : Word} (h : addExpr m r a b = some ex) (ha : a.eval x σ = some u)
    (hb : b.eval x σ = some v) : ex.eval x σ = some (u + v) := by
  unfold addExpr at h
  by_cases h1 : a.ty = some .ptr
  · rw [if_pos h1] at h
    unfold ptrResult at h
    split at h
    · cases hm : m r with
      | true =>
        rw [if_pos hm] at h; cases h; simp only [Expr.eval, ha, hb, Option.bind_some, Option.map_some]
      | false =>
        rw [if_neg (by rw [hm]; decide)] at h; cases h; simp only [Expr.eval, ha, hb, Option.bind_some, Option.map_some]
    · cases h
  · rw [if_neg h1] at h
    by_cases h2 : m r = true
    · rw [if_pos h2] at h
      unfold ptrResult at h
      split at h
      · cases h; simp only [Expr.eval, ha, hb, Option.bind_some, Option.map_some]
      · cases h
    · rw [if_neg h2] at h
      cases h
      simp only [Expr.eval, ha, hb, Option.bind_some, Bin.eval]

theorem genAdd_ok (hp : Pre x m σ g ir regs fl)
    (h : genAdd m i ir g = some (c, g1)) (v : Word) (o : Option Bool)
    (hv : arith .add ir.size ir.cc (Code.eval x.env regs ir.arg1) (Code.eval x.env regs ir.arg2) = some (v, o)) :
    Post x m i σ w ir.result g c g1 ⟨some v, o, w, .next⟩ exp := by
  unfold genAdd at h
  unfold arith at hv
  split at h
  · rename_i hc
    simp only [hc] at hv
    obtain ⟨n, hn⟩ := genChecked_size h
    rw [hn] at hv
    cases hv
    exact genChecked_ok hp h n hn
  · rename_i hc
    simp only [hc] at hv
    obtain ⟨n, hn⟩ := genChecked_size h
    rw [hn] at hv
    cases hv
    exact genChecked_ok hp h n hn
  · rename_i h1 h2
    split at hv
    · rename_i hc; exact absurd hc h1
    · rename_i hc; exact absurd hc h2
    · cases hx : plain (Arith.add.eval (Code.eval x.env regs ir.arg1).toInt (Code.eval x.env regs ir.arg2).toInt) with
      | none => rw [hx] at hv; cases hv
      | some r =>
        rw [hx] at hv; cases hv
        obtain ⟨a, ha, h⟩ := bind_split h
        obtain ⟨b, hb, h⟩ := bind_split h
        obtain ⟨q, hq, h⟩ := bind_split h
        obtain ⟨ex, hex, h⟩ := bind_split h
        refine post_val h ?_
        rw [addExpr_ok hex (hp.arg1 ha).val (hp.arg2 hb).val]
        exact plain_arith .add _ _ v hx

theorem icmpExpr_ok {cc : CC} {a b : Expr} {u v : Word} (ha : a.eval x σ = some u) (hb : b.eval x σ = some v) :
    (icmpExpr cc a b).eval x σ = some (ofBool (compare cc u v)) := by
  unfold icmpExpr
  split
  · simp only [Expr.eval, ha, hb, Option.bind_some, Option.map_some]
  · split <;> simp only [Expr.eval, ha, hb, Option.bind_some, Option.map_some]

theorem and_ofBool (a b : Bool) : ofBool a &&& ofBool b = ofBool (a && b) := by
  cases a <;> cases b <;> rfl

theorem genCmp_ok (hp : Pre x m σ g ir regs fl) (h : genCmp i ir g false = some (c, g1)) :
    Post x m i σ w ir.result g c g1
      ⟨none, some (compare ir.cc (Code.eval x.env regs ir.arg1) (Code.eval x.env regs ir.arg2)), w, .next⟩ exp := by
  unfold genCmp at h
  split at h
  · obtain ⟨a, ha, h⟩ := bind_split h
    obtain ⟨b, hb, h⟩ := bind_split h
    exact post_flag h (icmpExpr_ok (hp.arg1 ha).val (hp.arg2 hb).val)
  · cases h

theorem genCcmp_ok (hp : Pre x m σ g ir regs fl) (hr : ir.readsFlags = true) (h : genCmp i ir g true = some (c, g1)) :
    Post x m i σ w ir.result g c g1
      ⟨none, some (fl && compare ir.cc (Code.eval x.env regs ir.arg1) (Code.eval x.env regs ir.arg2)), w, .next⟩ exp := by
  unfold genCmp at h
  split at h
  · obtain ⟨a, ha, h⟩ := bind_split h
    obtain ⟨b, hb, h⟩ := bind_split h
    refine post_flag h ?_
    simp only [if_true, Expr.eval, hp.flags hr, icmpExpr_ok (hp.arg1 ha).val (hp.arg2 hb).val, Option.bind_some, Option.map_some, and_ofBool]
  · cases h

theorem fcmp_eval {a b : Expr} {cc : CC} {u v : Word} (ha : a.eval x σ = some u) (hb : b.eval x σ = some v)
    (hs : (isNaN u || isNaN v) = true → x.env.fcompare cc u v = true) :
    (Expr.fcmp cc a b).eval x σ = some (ofBool (x.env.fcompare cc u v)) := by
  simp only [Expr.eval, ha, hb, Option.bind_some, Option.map_some]
  cases hn : isNaN u || isNaN v with
  | true => rw [hs hn]; rfl
  | false => rw [Bool.false_or]

theorem genFcmp_ok (hp : Pre x m σ g ir regs fl) (h : genFcmp i ir g false = some (c, g1))
    (hs : (isNaN (Code.eval x.env regs ir.arg1) || isNaN (Code.eval x.env regs ir.arg2)) = true →
      x.env.fcompare ir.cc (Code.eval x.env regs ir.arg1) (Code.eval x.env regs ir.arg2) = true) :
    Post x m i σ w ir.result g c g1
      ⟨none, some (x.env.fcompare ir.cc (Code.eval x.env regs ir.arg1) (Code.eval x.env regs ir.arg2)), w, .next⟩ exp := by
  unfold genFcmp at h
  split at h
  · obtain ⟨a, ha, h⟩ := bind_split h
    obtain ⟨a0, ha0, ha⟩ := bind_split ha
    obtain ⟨b, hb, h⟩ := bind_split h
    obtain ⟨b0, hb0, hb⟩ := bind_split hb
    exact post_flag h (fcmp_eval (coerceReal_ok (hp.arg1 ha0) ha) (coerceReal_ok (hp.arg2 hb0) hb) hs)
  · cases h

theorem genFccmp_ok (hp : Pre x m σ g ir regs fl) (hr : ir.readsFlags = true) (h : genFcmp i ir g true = some (c, g1))
    (hs : (isNaN (Code.eval x.env regs ir.arg1) || isNaN (Code.eval x.env regs ir.arg2)) = true →
      x.env.fcompare ir.cc (Code.eval x.env regs ir.arg1) (Code.eval x.env regs ir.arg2) = true) :
    Post x m i σ w ir.result g c g1
      ⟨none, some (fl && x.env.fcompare ir.cc (Code.eval x.env regs ir.arg1) (Code.eval x.env regs ir.arg2)), w, .next⟩ exp := by
  unfold genFcmp at h
  split at h
  · obtain ⟨a, ha, h⟩ := bind_split h
    obtain ⟨a0, ha0, ha⟩ := bind_split ha
    obtain ⟨b, hb, h⟩ := bind_split h
    obtain ⟨b0, hb0, hb⟩ := bind_split hb
    refine post_flag h ?_
    have hf := fcmp_eval (coerceReal_ok (hp.arg1 ha0) ha) (coerceReal_ok (hp.arg2 hb0) hb) hs
    have hand : ∀ (p q : Expr) (u v : Bool), p.eval x σ = some (ofBool u) → q.eval x σ = some (ofBool v) →
        (Expr.and p q).eval x σ = some (ofBool (u && v)) := by
      intro p q u v h1 h2
      simp only [Expr.eval, h1, h2, Option.bind_some, Option.map_some, and_ofBool]
    exact hand _ _ _ _ (hp.flags hr) hf
  · cases h

theorem ext_f64 (signed : Bool) {t : Ty} (h : t = .f64 ∨ t = .i64 ∨ t = .ptr) (v : Word) : ext signed t.bits v = v := by
  rcases h with h | h | h <;> subst h <;> exact ext_64 signed v

theorem genReal_ok (hp : Pre x m σ g ir regs fl) (h : genReal m i ir g = some (c, g1)) (v : Word)
    (hv : x.env.farith ir.op (Code.eval x.env regs ir.arg1) (Code.eval x.env regs ir.arg2) = some v) :
    Post x m i σ w ir.result g c g1 ⟨some v, none, w, .next⟩ exp := by
  unfold genReal at h
  obtain ⟨a, ha, h⟩ := bind_split h
  obtain ⟨a0, ha0, ha⟩ := bind_split ha
  obtain ⟨b, hb, h⟩ := bind_split h
  obtain ⟨b0, hb0, hb⟩ := bind_split hb
  obtain ⟨r, hr, h⟩ := bind_split h
  obtain ⟨ex, hex, h⟩ := bind_split h
  refine post_val h ?_
  have hev : (Expr.real ir.op a b).eval x σ = some v := by
    simp only [Expr.eval, coerceReal_ok (hp.arg1 ha0) ha, coerceReal_ok (hp.arg2 hb0) hb, Option.bind_some, hv]
  cases ht : (Expr.real ir.op a b).ty with
  | none => simp only [sextResult, ht] at hex; cases hex
  | some t =>
    rw [sextResult_ok ht hev hex, ext_f64]
    left
    simp only [Expr.ty] at ht
    split at ht
    · cases ht; rfl
    · cases ht

theorem genReal1_ok (hp : Pre x m σ g ir regs fl) (hen : EnvOk x.env) (h : genReal1 m i ir g = some (c, g1)) (v : Word)
    (hop : ir.op = .fneg ∨ ir.op = .scvtf ∨ ir.op = .fcvtns)
    (hv : x.env.farith ir.op (Code.eval x.env regs ir.arg1) (Code.eval x.env regs ir.arg2) = some v) :
    Post x m i σ w ir.result g c g1 ⟨some v, none, w, .next⟩ exp := by
  unfold genReal1 at h
  obtain ⟨a, ha, h⟩ := bind_split h
  obtain ⟨a0, ha0, ha⟩ := bind_split ha
  obtain ⟨r, hr, h⟩ := bind_split h
  obtain ⟨ex, hex, h⟩ := bind_split h
  refine post_val h ?_
  rw [hen.unary _ _ _ hop] at hv
  have hav : a.eval x σ = some (Code.eval x.env regs ir.arg1) := by
    split at ha
    · cases ha; exact (hp.arg1 ha0).val
    · exact coerceReal_ok (hp.arg1 ha0) ha
  have hev : (Expr.real1 ir.op a).eval x σ = some v := by
    simp only [Expr.eval, hav, Option.bind_some, hv]
  cases ht : (Expr.real1 ir.op a).ty with
  | none => simp only [sextResult, ht] at hex; cases hex
  | some t =>
    rw [sextResult_ok ht hev hex, ext_f64]
    rcases hop with hop | hop | hop <;> rw [hop] at ht <;> simp only [Expr.ty] at ht <;> split at ht <;> cases ht
    · exact Or.inl rfl
    · exact Or.inl rfl
    · exact Or.inr (Or.inl rfl)

theorem countOf_ok (hp : Pre x m σ g ir regs fl) (hr : ir.op.readsResult = true) {n : Expr} (h : countOf g ir = some n) :
    ∃ r, ir.result = some r ∧ n.eval x σ = some (regs r) := by
  unfold countOf at h
  obtain ⟨n0, hn0, h⟩ := bind_split h
  obtain ⟨r, hr1, hn0⟩ := bind_split hn0
  obtain ⟨e2, h2, h3⟩ := hp.old hr r hr1
  rw [hn0] at h2
  cases h2
  split at h
  · cases h; exact ⟨r, hr1, h3⟩
  · cases h

theorem getInt_ok (hp : Pre x m σ g ir regs fl) {n : Expr} (h : getInt g ir.arg1 = some n) :
    n.eval x σ = some (Code.eval x.env regs ir.arg1) := by
  unfold getInt at h
  obtain ⟨n0, hn0, h⟩ := bind_split h
  split at h
  · cases h; exact (hp.arg1 hn0).val
  · cases h

theorem old_eq (hr : ir.op.readsResult = true) {old : Word} (ho : oldValue regs ir = some old) {r : Nat}
    (h : ir.result = some r) : old = regs r := by
  unfold oldValue at ho
  rw [if_pos hr, h] at ho
  exact (Option.some.inj ho).symm

/-- The code for an instruction has the effect that the interpreter gives it. -/
theorem genIr_ok (hen : EnvOk x.env) (hp : Pre x m σ g ir regs fl) (hg : genIr m i ir g = some (c, g1)) {old : Word}
    (ho : oldValue regs ir = some old)
    (hs : SafeOp x m ir (Code.eval x.env regs ir.arg1) (Code.eval x.env regs ir.arg2) old w)
    (he : effect x.env ir.op ir.size ir.cc (Code.eval x.env regs ir.arg1) (Code.eval x.env regs ir.arg2) old fl w = some e) :
    Post x m i σ w ir.result g c g1 e (ir.op == .exp) := by
  cases hop : ir.op with
  | recv =>
    simp only [genIr, hop] at hg
    simp only [hop, effect] at he
    obtain ⟨v, hv, rfl⟩ := give_some he
    split at hg
    · rename_i n hn
      rw [hn] at hv
      refine post_actVal hg (regTy_ok m _) ?_
      simp only [Act.run]
      rw [show x.env.recv w n = some v from hv]; rfl
    · cases hg
  | send =>
    simp only [genIr, hop, genSend] at hg
    simp only [hop, effect] at he
    simp only [SafeOp, hop] at hs
    obtain ⟨w', hw, rfl⟩ := act_some he
    split at hg
    · rename_i n hn
      obtain ⟨v, hv, hg⟩ := bind_split hg
      obtain ⟨hval, -, hsh⟩ := getValue_ok hv hp.typed hp.small2 hp.reg2
      rw [hn] at hw hs
      have hw : x.env.send w n (Code.eval x.env regs ir.arg2) = some w' := hw
      split at hg
      · cases hg
        exact post_act (go := true) (v := none) (by simp only [Act.run, hval.val, Option.bind_some, hw, ok, Option.map_some])
      · cases hg
        exact post_act (go := true) (v := none) (by simp only [Act.run, hval.val, Option.bind_some, hw, ok, Option.map_some])
      · cases hg
        exact post_act (go := true) (v := none) (by simp only [Act.run, hval.val, Option.bind_some, hw, ok, Option.map_some])
      · rename_i h32
        cases hg
        have h2 := hs (hsh.mp h32)
        rw [show Code.eval x.env regs (.int n) = n from rfl, hw] at h2
        exact post_act (go := true) (v := none) (by simp only [Act.run, hval.val, Option.bind_some, h2, ok, Option.map_some])
      · cases hg
    · cases hg
  | store =>
    simp only [genIr, hop, genStore] at hg
    simp only [hop, effect] at he
    simp only [SafeOp, hop] at hs
    obtain ⟨w', hw, rfl⟩ := act_some he
    obtain ⟨v, hv, hg⟩ := bind_split hg
    obtain ⟨v0, hv0, hv⟩ := bind_split hv
    obtain ⟨p, hpt, hg⟩ := bind_split hg
    obtain ⟨p0, hp0, hpt⟩ := bind_split hpt
    obtain ⟨hval, hptr, -⟩ := getValue_ok hv0 hp.typed hp.small1 hp.reg1
    have hpv := (coercePtr_ok (hp.arg2 hp0) hpt).1
    by_cases h1 : v.ty = some .ptr
    · rw [if_pos h1] at hg
      cases hg
      rcases coerceInt_ok hval hv with h2 | h2
      · have h64 : ir.size = .s64 := by
          by_cases h64 : ir.size = .s64
          · exact h64
          · have := hs h64
            rw [hptr h2.2.1] at this; cases this
        rw [h64] at hw
        exact post_act (go := true) (v := none) (by simp only [Act.run, h2.2.2, hpv, Option.bind_some, hw, ok, Option.map_some])
      · rw [h1] at h2; exact absurd (Option.some.inj h2.1).symm (tyOf_ne_ptr _)
    · rw [if_neg h1] at hg
      split at hg
      · cases hg
        rcases coerceInt_ok hval hv with h2 | h2
        · exact absurd h2.1 h1
        · have hst : x.env.store w ir.size (low (tyOf ir.size).bits (Code.eval x.env regs ir.arg1)) (Code.eval x.env regs ir.arg2) = some w' := by
            rw [← hw]
            cases hsz : ir.size with
            | unspec => exact congrArg (fun v => x.env.store w .unspec v _) (low_64 _)
            | _ => exact hen.store _ _ _ _ _ rfl
          exact post_act (go := true) (v := none) (by simp only [Act.run, h2.2, hpv, Option.bind_some, hst, ok, Option.map_some])
      · cases hg
  | load =>
    simp only [genIr, hop, genLoad] at hg
    simp only [hop, effect] at he
    simp only [SafeOp, hop] at hs
    obtain ⟨v, hv, rfl⟩ := give_some he
    obtain ⟨p, hpt, hg⟩ := bind_split hg
    obtain ⟨p0, hp0, hpt⟩ := bind_split hpt
    obtain ⟨r, hr, hg⟩ := bind_split hg
    have hpv := (coercePtr_ok (hp.arg1 hp0) hpt).1
    by_cases hm : m r = true
    · rw [if_pos hm, if_neg (by decide)] at hg
      have h64 : ir.size = .s64 := by
        by_cases h64 : ir.size = .s64
        · exact h64
        · have := hs h64 r hr
          rw [hm] at this; cases this
      rw [h64] at hv
      refine post_actVal hg (fun q hq => Or.inr ⟨rfl, ?_⟩) (by simp only [Act.run, hpv, Option.bind_some, hv, Option.map_some])
      rw [hr] at hq; cases hq; exact hm
    · rw [if_neg hm] at hg
      obtain ⟨t, ht, hg⟩ := bind_split hg
      have hv : x.env.load w ir.size (Op.load == Op.load) (Code.eval x.env regs ir.arg1) = some v := hv
      exact post_actVal hg (fun q hq => Or.inl rfl) (by simp only [Act.run, hpv, Option.bind_some, hv, Option.map_some])
  | uload =>
    simp only [genIr, hop, genLoad] at hg
    simp only [hop, effect] at he
    obtain ⟨v, hv, rfl⟩ := give_some he
    obtain ⟨p, hpt, hg⟩ := bind_split hg
    obtain ⟨p0, hp0, hpt⟩ := bind_split hpt
    obtain ⟨r, hr, hg⟩ := bind_split hg
    have hpv := (coercePtr_ok (hp.arg1 hp0) hpt).1
    by_cases hm : m r = true
    · rw [if_pos hm, if_pos trivial] at hg; cases hg
    · rw [if_neg hm] at hg
      obtain ⟨t, ht, hg⟩ := bind_split hg
      have hv : x.env.load w ir.size (Op.uload == Op.load) (Code.eval x.env regs ir.arg1) = some v := hv
      exact post_actVal hg (fun q hq => Or.inl rfl) (by simp only [Act.run, hpv, Option.bind_some, hv, Option.map_some])
  | add =>
    simp only [genIr, hop] at hg
    simp only [hop, effect] at he
    obtain ⟨v, o, hv, rfl⟩ := giveFlags_some he
    exact genAdd_ok hp hg v o hv
  | sub =>
    simp only [genIr, hop] at hg
    simp only [hop, effect] at he
    obtain ⟨v, o, hv, rfl⟩ := giveFlags_some he
    exact genSubMul_ok rfl hp hg v o hv
  | mul =>
    simp only [genIr, hop] at hg
    simp only [hop, effect] at he
    obtain ⟨v, o, hv, rfl⟩ := giveFlags_some he
    exact genSubMul_ok rfl hp hg v o hv
  | div =>
    simp only [genIr, hop] at hg
    simp only [hop, effect] at he
    obtain ⟨v, hv, rfl⟩ := give_some he
    exact genBin_ok hp hg v (sdiv_eq _ _ _ hv)
  | rem =>
    simp only [genIr, hop] at hg
    simp only [hop, effect] at he
    obtain ⟨v, hv, rfl⟩ := give_some he
    exact genBin_ok hp hg v (srem_eq _ _ _ hv)
  | shl =>
    simp only [genIr, hop] at hg
    simp only [hop, effect] at he
    obtain ⟨v, hv, rfl⟩ := give_some he
    exact genBin_ok hp hg v (shift_shl _ _ _ hv)
  | asr =>
    simp only [genIr, hop] at hg
    simp only [hop, effect] at he
    obtain ⟨v, hv, rfl⟩ := give_some he
    exact genBin_ok hp hg v (shift_asr _ _ _ hv)
  | and =>
    simp only [genIr, hop] at hg
    simp only [hop, effect] at he
    obtain ⟨v, hv, rfl⟩ := give_some he
    exact genBin_ok hp hg v hv
  | or =>
    simp only [genIr, hop] at hg
    simp only [hop, effect] at he
    obtain ⟨v, hv, rfl⟩ := give_some he
    exact genBin_ok hp hg v hv
  | xor =>
    simp only [genIr, hop] at hg
    simp only [hop, effect] at he
    obtain ⟨v, hv, rfl⟩ := give_some he
    exact genBin_ok hp hg v hv
  | fadd | fsub | fmul | fdiv | fexp =>
    simp only [genIr, hop] at hg
    simp only [effect, hop] at he
    obtain ⟨v, hv, rfl⟩ := give_some he
    exact genReal_ok hp hg v (by rw [hop]; exact hv)
  | fneg | fcvtns | scvtf =>
    simp only [genIr, hop] at hg
    simp only [effect, hop] at he
    obtain ⟨v, hv, rfl⟩ := give_some he
    exact genReal1_ok hp hen hg v (by rw [hop]; decide) (by rw [hop]; exact hv)
  | cmp =>
    simp only [genIr, hop] at hg
    simp only [hop, effect] at he
    cases he
    exact genCmp_ok hp hg
  | ccmp =>
    simp only [genIr, hop] at hg
    simp only [hop, effect] at he
    cases he
    exact genCcmp_ok hp (by simp only [Ir.readsFlags, hop]) hg
  | fcmp =>
    simp only [genIr, hop] at hg
    simp only [hop, effect] at he
    simp only [SafeOp, hop] at hs
    cases he
    exact genFcmp_ok hp hg hs
  | fccmp =>
    simp only [genIr, hop] at hg
    simp only [hop, effect] at he
    simp only [SafeOp, hop] at hs
    cases he
    exact genFccmp_ok hp (by simp only [Ir.readsFlags, hop]) hg hs
  | not =>
    simp only [genIr, hop] at hg
    simp only [hop, effect] at he
    obtain ⟨v, hv, rfl⟩ := give_some he
    obtain ⟨a, ha, hg⟩ := bind_split hg
    obtain ⟨a0, ha0, ha⟩ := bind_split ha
    obtain ⟨ex, hex, hg⟩ := bind_split hg
    refine post_val hg ?_
    cases ha
    have hev : (Expr.not (.icmp .ne a0 (.const .i64 0))).eval x σ =
        some (ofBool (Code.eval x.env regs ir.arg1 != 0) ^^^ 1) := by
      simp only [Expr.eval, (hp.arg1 ha0).val, Option.bind_some, Option.map_some, Ty.bits, low_64, compare]
    cases ht : (Expr.not (.icmp .ne a0 (.const .i64 0))).ty with
    | none => simp only [zextResult, ht] at hex; cases hex
    | some t =>
      rw [zextResult_ok ht hev hex, ← hv]
      have ht1 : t = .i1 := by
        simp only [Expr.ty] at ht
        split at ht
        · cases ht; rfl
        · cases ht
      subst ht1
      by_cases h0 : Code.eval x.env regs ir.arg1 = 0
      · rw [h0]; rfl
      · rw [if_neg h0]
        have : (Code.eval x.env regs ir.arg1 != 0) = true := by simpa using h0
        rw [this]; rfl
  | cset =>
    simp only [genIr, hop] at hg
    simp only [hop, effect] at he
    obtain ⟨v, hv, rfl⟩ := give_some he
    obtain ⟨ex, hex, hg⟩ := bind_split hg
    refine post_val hg ?_
    have hev := hp.flags (by simp only [Ir.readsFlags, hop])
    rw [zextResult_ok hp.typed.flags hev hex, ← hv]
    cases fl <;> rfl
  | csel =>
    simp only [genIr, hop] at hg
    simp only [hop, effect] at he
    obtain ⟨v, hv, rfl⟩ := give_some he
    obtain ⟨a, ha, hg⟩ := bind_split hg
    obtain ⟨b, hb, hg⟩ := bind_split hg
    obtain ⟨r, hr, hg⟩ := bind_split hg
    obtain ⟨ex, hex, hg⟩ := bind_split hg
    refine post_val hg ?_
    have hev := hp.flags (by simp only [Ir.readsFlags, hop])
    have hva := hp.arg1 ha
    have hvb := hp.arg2 hb
    have hval : (Expr.select g.flags a b).eval x σ = some v := by
      simp only [Expr.eval, hev, hva.val, hvb.val, Option.bind_some, Option.map_some]
      rw [← hv]
      cases fl <;> rfl
    cases ht : (Expr.select g.flags a b).ty with
    | none => simp only [sextResult, ht] at hex; cases hex
    | some t =>
      rw [sextResult_ok ht hval hex]
      simp only [Expr.ty] at ht
      split at ht
      · rename_i hc
        have hv : v = if fl then Code.eval x.env regs ir.arg1 else Code.eval x.env regs ir.arg2 := (Option.some.inj hv).symm
        cases fl with
        | true => rw [if_pos rfl] at hv; rw [hv, ext_valued true hva ht]
        | false => rw [if_neg (by decide)] at hv; rw [hv, ext_valued true hvb (by rw [← hc.2]; exact ht)]
      · cases ht
  | lea =>
    simp only [genIr, hop] at hg
    simp only [hop, effect] at he
    obtain ⟨v, hv, rfl⟩ := give_some he
    obtain ⟨a, ha, hg⟩ := bind_split hg
    obtain ⟨r, hr, hg⟩ := bind_split hg
    obtain ⟨ex, hex, hg⟩ := bind_split hg
    refine post_val hg ?_
    have hva := hp.arg1 ha
    rw [← hv]
    by_cases hpt : a.ty = some .ptr
    · rw [if_pos hpt] at hex
      have hex : sextResult m r a = some ex := by unfold sextResult; rw [hpt]; exact hex
      rw [sextResult_ok hpt hva.val hex, ext_valued true hva hpt]
    · rw [if_neg hpt] at hex
      cases ht : a.ty with
      | none => simp only [zextResult, ht] at hex; cases hex
      | some t => rw [zextResult_ok ht hva.val hex, ext_valued false hva ht]
  | mov =>
    simp only [genIr, hop] at hg
    simp only [hop, effect] at he
    obtain ⟨v, hv, rfl⟩ := give_some he
    obtain ⟨a, ha, hg⟩ := bind_split hg
    obtain ⟨r, hr, hg⟩ := bind_split hg
    obtain ⟨ex, hex, hg⟩ := bind_split hg
    refine post_val hg ?_
    have hva := hp.arg1 ha
    rw [← hv]
    cases ht : a.ty with
    | none => simp only [sextResult, ht] at hex; cases hex
    | some t => rw [sextResult_ok ht hva.val hex, ext_valued true hva ht]
  | neg =>
    simp only [genIr, hop] at hg
    simp only [hop, effect] at he
    obtain ⟨v, hv, rfl⟩ := give_some he
    obtain ⟨a, ha, hg⟩ := bind_split hg
    refine post_val hg ?_
    simp only [Expr.eval, (hp.arg1 ha).val, Option.map_some, plain_neg _ _ hv]
  | clamp =>
    simp only [genIr, hop] at hg
    simp only [hop, effect] at he
    obtain ⟨v, hv, rfl⟩ := give_some he
    obtain ⟨a, ha, hg⟩ := bind_split hg
    refine post_val hg ?_
    simp only [Expr.eval, (hp.arg1 ha).val, Option.bind_some, Option.map_some, Ty.bits, low_64, compare]
    rw [← hv]
    congr 1
    by_cases hlt : (Code.eval x.env regs ir.arg1).toInt < 0
    · rw [if_pos hlt]
      have : decide ((Code.eval x.env regs ir.arg1).toInt < (0 : Word).toInt) = true := decide_eq_true hlt
      rw [this]; rfl
    · rw [if_neg hlt]
      have : decide ((Code.eval x.env regs ir.arg1).toInt < (0 : Word).toInt) = false := decide_eq_false hlt
      rw [this]; rfl
  | call =>
    simp only [genIr, hop] at hg
    simp only [hop, effect] at he
    obtain ⟨w', hw, rfl⟩ := act_some he
    split at hg
    · rename_i q hq
      cases hg
      rw [hq] at hw
      have hw : x.env.call w q = some w' := hw
      exact post_act (go := true) (v := none) (by simp only [Act.run, hw, ok, Option.map_some])
    · cases hg
  | debug | nop =>
    simp only [genIr, hop] at hg
    simp only [hop, effect] at he
    cases hg
    cases he
    exact ⟨⟨true, σ, rfl, rfl, fun _ _ _ => rfl, (fun _ h => by cases h), (fun _ h => by cases h)⟩, fun _ => rfl,
      (fun _ h => by cases h), (fun h => by cases h), fun _ => Or.inl rfl⟩
  | trap =>
    simp only [hop, effect] at he
    cases he
  | exp =>
    simp only [genIr, hop] at hg
    simp only [hop, effect] at he
    simp only [SafeOp, hop] at hs
    obtain ⟨v, o, hv, rfl⟩ := giveFlags_some he
    exact genExp_ok hp rfl hg v o hs hv
  | copy =>
    simp only [genIr, hop] at hg
    simp only [hop, effect] at he
    obtain ⟨w', hw, rfl⟩ := act_some he
    have hrr : ir.op.readsResult = true := by rw [hop]; rfl
    obtain ⟨n, hn, hg⟩ := bind_split hg
    obtain ⟨r, hr, hnv⟩ := countOf_ok hp hrr hn
    obtain ⟨d, hd, hg⟩ := bind_split hg
    obtain ⟨d0, hd0, hd⟩ := bind_split hd
    obtain ⟨s, hs1, hg⟩ := bind_split hg
    obtain ⟨s0, hs0, hs1⟩ := bind_split hs1
    cases hg
    rw [old_eq hrr ho hr] at hw
    exact post_act (go := true) (v := none) (by simp only [Act.run, hnv, (coercePtr_ok (hp.arg1 hd0) hd).1, (coercePtr_ok (hp.arg2 hs0) hs1).1, Option.bind_some, hw, ok, Option.map_some])
  | move =>
    simp only [genIr, hop] at hg
    simp only [hop, effect] at he
    obtain ⟨w', hw, rfl⟩ := act_some he
    have hrr : ir.op.readsResult = true := by rw [hop]; rfl
    obtain ⟨n, hn, hg⟩ := bind_split hg
    obtain ⟨r, hr, hnv⟩ := countOf_ok hp hrr hn
    obtain ⟨d, hd, hg⟩ := bind_split hg
    obtain ⟨d0, hd0, hd⟩ := bind_split hd
    obtain ⟨s, hs1, hg⟩ := bind_split hg
    obtain ⟨s0, hs0, hs1⟩ := bind_split hs1
    cases hg
    rw [old_eq hrr ho hr] at hw
    exact post_act (go := true) (v := none) (by simp only [Act.run, hnv, (coercePtr_ok (hp.arg1 hd0) hd).1, (coercePtr_ok (hp.arg2 hs0) hs1).1, Option.bind_some, hw, ok, Option.map_some])
  | bzero =>
    simp only [genIr, hop] at hg
    simp only [hop, effect] at he
    obtain ⟨w', hw, rfl⟩ := act_some he
    have hrr : ir.op.readsResult = true := by rw [hop]; rfl
    obtain ⟨n, hn, hg⟩ := bind_split hg
    obtain ⟨r, hr, hnv⟩ := countOf_ok hp hrr hn
    obtain ⟨d, hd, hg⟩ := bind_split hg
    obtain ⟨d0, hd0, hd⟩ := bind_split hd
    cases hg
    rw [old_eq hrr ho hr] at hw
    exact post_act (go := true) (v := none) (by simp only [Act.run, hnv, (coercePtr_ok (hp.arg1 hd0) hd).1, Option.bind_some, hw, ok, Option.map_some])
  | memset =>
    simp only [genIr, hop] at hg
    simp only [hop, effect] at he
    simp only [SafeOp, hop] at hs
    obtain ⟨w', hw, rfl⟩ := act_some he
    have hrr : ir.op.readsResult = true := by rw [hop]; rfl
    obtain ⟨t, ht, hg⟩ := bind_split hg
    obtain ⟨ht1, ht2, ht3, ht4, ht5⟩ := checkTy_some ht
    obtain ⟨n, hn, hg⟩ := bind_split hg
    obtain ⟨r, hr, hnv⟩ := countOf_ok hp hrr hn
    obtain ⟨d, hd, hg⟩ := bind_split hg
    obtain ⟨d0, hd0, hd⟩ := bind_split hd
    obtain ⟨s, hs1, hg⟩ := bind_split hg
    obtain ⟨s0, hs0, hs1⟩ := bind_split hs1
    split at hg
    · rename_i hst
      cases hg
      have hsv : s.eval x σ = some (low t.bits (Code.eval x.env regs ir.arg2)) := by
        rw [ht1] at hs1
        rcases coerceInt_ok (hp.arg2 hs0) hs1 with h1 | h1
        · rw [hst] at h1
          rw [ht1] at h1
          exact absurd (Option.some.inj h1.1) (tyOf_ne_ptr _)
        · rw [← ht1] at h1; exact h1.2
      have hw2 := hs _ ht2
      rw [hw, old_eq hrr ho hr] at hw2
      exact post_act (go := true) (v := none) (by simp only [Act.run, hnv, (coercePtr_ok (hp.arg1 hd0) hd).1, hsv, Option.bind_some, hw2, ok, Option.map_some])
    · cases hg
  | sadd =>
    simp only [genIr, hop] at hg
    simp only [hop, effect] at he
    simp only [SafeOp, hop] at hs
    obtain ⟨w', hw, rfl⟩ := act_some he
    obtain ⟨t, ht, hg⟩ := bind_split hg
    obtain ⟨ht1, ht2, ht3, ht4, ht5⟩ := checkTy_some ht
    obtain ⟨d, hd, hg⟩ := bind_split hg
    obtain ⟨d0, hd0, hd⟩ := bind_split hd
    obtain ⟨s, hs1, hg⟩ := bind_split hg
    obtain ⟨s0, hs0, hs1⟩ := bind_split hs1
    split at hg
    · rename_i hst
      cases hg
      have hsv : s.eval x σ = some (low t.bits (Code.eval x.env regs ir.arg2)) := by
        rw [ht1] at hs1
        rcases coerceInt_ok (hp.arg2 hs0) hs1 with h1 | h1
        · rw [hst] at h1
          rw [ht1] at h1
          exact absurd (Option.some.inj h1.1) (tyOf_ne_ptr _)
        · rw [← ht1] at h1; exact h1.2
      have hw2 := hs _ ht2
      rw [hw] at hw2
      exact post_act (go := true) (v := none) (by simp only [Act.run, (coercePtr_ok (hp.arg1 hd0) hd).1, hsv, Option.bind_some, hw2, ok, Option.map_some])
    · cases hg
  | galloc =>
    simp only [genIr, hop] at hg
    simp only [hop, effect] at he
    obtain ⟨v, w', hv, rfl⟩ := actGive_some he
    obtain ⟨n, hn, hg⟩ := bind_split hg
    exact post_actVal hg (regTy_ok m _) (by simp only [Act.run, getInt_ok hp hn, Option.bind_some, hv, Option.map_some])
  | lalloc =>
    simp only [genIr, hop] at hg
    simp only [hop, effect] at he
    simp only [SafeOp, hop] at hs
    obtain ⟨v, w', hv, rfl⟩ := actGive_some he
    obtain ⟨n, hn, hg⟩ := bind_split hg
    rw [hv] at hs
    exact post_actVal hg (regTy_ok m _) (by simp only [Act.run, getInt_ok hp hn, Option.bind_some, hs, Option.map_some])
  | salloc =>
    simp only [genIr, hop] at hg
    simp only [hop, effect] at he
    obtain ⟨v, hv, rfl⟩ := give_some he
    split at hg
    · rename_i o n h1 h2
      rw [h1, h2] at hv
      have hv : x.env.salloc o n = some v := hv
      exact post_actVal hg (regTy_ok m _) (by simp only [Act.run, hv, Option.map_some])
    · cases hg
  | exit =>
    simp only [genIr, hop] at hg
    simp only [hop, effect] at he
    split at hg
    · rename_i q hq
      cases hg
      rw [hq] at he
      cases hx : x.env.exit w (Code.eval x.env regs (.exit q)) with
      | none => rw [hx] at he; cases he
      | some p =>
        rw [hx] at he
        cases he
        have hx : x.env.exit w (BitVec.ofNat 64 q) = some p := hx
        exact post_act (go := p.1) (v := none) (by simp only [Act.run, hx, Option.map_some])
    · cases hg
  | getpriv =>
    simp only [genIr, hop] at hg
    simp only [hop, effect] at he
    obtain ⟨v, hv, rfl⟩ := give_some he
    split at hg
    · rename_i q hq
      rw [hq] at hv
      have hv : x.env.getpriv w q = some v := hv
      exact post_actVal hg (regTy_ok m _) (by simp only [Act.run, hv, Option.map_some])
    · cases hg
  | putpriv =>
    simp only [genIr, hop] at hg
    simp only [hop, effect] at he
    obtain ⟨w', hw, rfl⟩ := act_some he
    split at hg
    · rename_i q hq
      obtain ⟨d, hd, hg⟩ := bind_split hg
      obtain ⟨d0, hd0, hd⟩ := bind_split hd
      cases hg
      rw [hq] at hw
      have hw : x.env.putpriv w q (Code.eval x.env regs ir.arg2) = some w' := hw
      exact post_act (go := true) (v := none) (by simp only [Act.run, (coercePtr_ok (hp.arg2 hd0) hd).1, Option.bind_some, hw, ok, Option.map_some])
    · cases hg
  | trim =>
    simp only [genIr, hop] at hg
    simp only [hop, effect] at he
    simp only [SafeOp, hop] at hs
    obtain ⟨w', hw, rfl⟩ := act_some he
    cases hg
    rw [hw] at hs
    exact post_act (go := true) (v := none) (by simp only [Act.run, hs, ok, Option.map_some])
  | jump => simp only [genIr, hop] at hg; cases hg
  | ret => simp only [genIr, hop] at hg; cases hg
  | case => simp only [genIr, hop] at hg; cases hg
  | reexec => simp only [genIr, hop] at hg; cases hg


end Verif.Code.Llvm
