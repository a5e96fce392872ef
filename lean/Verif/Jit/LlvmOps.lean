import Verif.Jit.LlvmArith

/-!
# One instruction in the code that LLVM makes

The code that `cgen_ir` emits for an instruction has the effect that the interpreter gives it.
-/

namespace Verif.Code.Llvm

section
variable {W : Type}

/-- What is assumed of memory and of real numbers: a store of `n` bits stores the low ones, and an operation
with one operand does not look at a second. -/
structure EnvOk (env : Env W) : Prop where
  store : ∀ w s a p n, s.bits = some n → env.store w s (low n a) p = env.store w s a p
  unary : ∀ op a b, (op = .fneg ∨ op = .scvtf ∨ op = .fcvtns) → env.farith op a b = env.farith op a 0

/-- A handle or the number of an exit that is not negative as a number of 32 bits. -/
def SmallVal : Val → Prop
  | .handle h => h.toNat < 2 ^ 31
  | .exit e => e < 2 ^ 31
  | _ => True

/-- A value that is an address by its kind or its register. -/
def mayPtr (m : Mask) : Val → Bool
  | .reg r | .addrReg r _ => m r
  | .cpool _ | .cover _ | .addrAbs _ | .locus _ => true
  | _ => false

/-- The constants that have 32 bits. -/
def isShort : Val → Bool
  | .handle _ | .exit _ => true
  | _ => false

/-- Where the code that LLVM makes does the same: comparisons that hold for numbers that compare with
nothing, powers that do not overflow, and the functions of its own. -/
def SafeOp (x : LEnv W) (m : Mask) (ir : Ir) (a b old : Word) (w : W) : Prop :=
  match ir.op with
  | .fcmp | .fccmp => (isNaN a || isNaN b) = true → x.env.fcompare ir.cc a b = true
  | .exp => ∀ r o, power ir.size ir.cc a b = some (r, some o) → o = false
  | .send => isShort ir.arg2 = true → x.send32 w a b = x.env.send w a b
  | .memset => ∀ n, ir.size.bits = some n → x.memset w ir.size old a (low n b) = x.env.memset w ir.size old a b
  | .sadd => ∀ n, ir.size.bits = some n → x.sadd w ir.size a (low n b) = x.env.sadd w ir.size a b
  | .lalloc => x.lalloc w a = x.env.lalloc w a
  | .trim => x.trim w = x.env.trim w
  | .store => ir.size ≠ .s64 → mayPtr m ir.arg1 = false
  | .load => ir.size ≠ .s64 → ∀ r, ir.result = some r → m r = false
  | _ => True

/-- The registers hold integers of 64 bits, or pointers if they are in the mask. -/
structure Typed (m : Mask) (g : Gen) : Prop where
  regs : ∀ r e, g.regs r = some e → e.ty = some .i64 ∨ (e.ty = some .ptr ∧ m r = true)
  flags : g.flags.ty = some .i1

/-- An expression has a value; if it is short then the value is small. -/
structure Valued (x : LEnv W) (σ : Ref → Option Word) (e : Expr) (w : Word) : Prop where
  val : e.eval x σ = some w
  ty : e.ty = some .i64 ∨ e.ty = some .ptr ∨ e.ty = some .f64 ∨ (e.ty = some .i32 ∧ w.toNat < 2 ^ 31)

/-- The register that an operand reads has its value. -/
def HasReg (x : LEnv W) (σ : Ref → Option Word) (g : Gen) (regs : Nat → Word) (r : Option Nat) : Prop :=
  ∀ q, r = some q → ∃ e, g.regs q = some e ∧ e.eval x σ = some (regs q)

theorem getValue_ok {x : LEnv W} {σ : Ref → Option Word} {g : Gen} {m : Mask} {regs : Nat → Word} {v : Val} {e : Expr}
    (h : getValue g v = some e) (ht : Typed m g) (hs : SmallVal v) (hr : HasReg x σ g regs v.regOf) :
    Valued x σ e (Code.eval x.env regs v) ∧ (e.ty = some .ptr → mayPtr m v = true) ∧
      (e.ty = some .i32 ↔ isShort v = true) := by
  cases v with
  | reg r =>
    obtain ⟨e2, h2, h3⟩ := hr r rfl
    have h : g.regs r = some e := h
    rw [h] at h2
    cases h2
    have htr := ht.regs r e h
    refine ⟨⟨h3, ?_⟩, ?_, ?_⟩
    · rcases htr with h1 | h1
      · exact Or.inl h1
      · exact Or.inr (Or.inl h1.1)
    · intro hp
      rcases htr with h1 | h1
      · rw [h1] at hp; cases hp
      · exact h1.2
    · constructor
      · intro hp
        rcases htr with h1 | h1
        · rw [h1] at hp; cases hp
        · rw [h1.1] at hp; cases hp
      · intro hp; cases hp
  | addrReg r d =>
    obtain ⟨e2, h2, h3⟩ := hr r rfl
    have htr := ht.regs r e2 h2
    simp only [getValue, h2, Option.bind_some] at h
    by_cases hd : d = 0
    · rw [if_pos hd] at h
      cases h
      subst hd
      refine ⟨⟨by rw [h3]; simp [Code.eval], ?_⟩, ?_, ?_⟩
      · rcases htr with h1 | h1
        · exact Or.inl h1
        · exact Or.inr (Or.inl h1.1)
      · intro hp
        rcases htr with h1 | h1
        · rw [h1] at hp; cases hp
        · exact h1.2
      · constructor
        · intro hp
          rcases htr with h1 | h1
          · rw [h1] at hp; cases hp
          · rw [h1.1] at hp; cases hp
        · intro hp; cases hp
    · rw [if_neg hd] at h
      by_cases hp : e2.ty = some .ptr
      · rw [if_pos hp] at h
        cases h
        have hty : (Expr.gep e2 (.const .i64 d)).ty = some .ptr := by
          simp only [Expr.ty, hp, true_and, if_true]
        refine ⟨⟨?_, Or.inr (Or.inl hty)⟩, ?_, ?_⟩
        · simp only [Expr.eval, h3, Option.bind_some, Option.map_some, Ty.bits, low_64, Code.eval]
        · intro _
          rcases htr with h1 | h1
          · rw [h1] at hp; cases hp
          · exact h1.2
        · rw [hty]; exact ⟨(fun h => by cases h), (fun h => by cases h)⟩
      · rw [if_neg hp] at h
        cases h
        have h1 : e2.ty = some .i64 := by
          rcases htr with h1 | h1
          · exact h1
          · exact absurd h1.1 hp
        have hty : (Expr.bin .add e2 (.const .i64 d)).ty = some .i64 := by
          simp only [Expr.ty, h1, true_and, if_true]
        refine ⟨⟨?_, Or.inl hty⟩, ?_, ?_⟩
        · simp only [Expr.eval, h3, Option.bind_some, Ty.bits, low_64, Code.eval, Bin.eval]
        · rw [hty]; intro h; cases h
        · rw [hty]; exact ⟨(fun h => by cases h), (fun h => by cases h)⟩
  | int i =>
    cases h
    exact ⟨⟨by simp only [Expr.eval, Ty.bits, low_64, Code.eval], Or.inl rfl⟩, (fun h => by cases h), (fun h => by cases h), (fun h => by cases h)⟩
  | dbl i =>
    cases h
    exact ⟨⟨by simp only [Expr.eval, Ty.bits, low_64, Code.eval], Or.inr (Or.inr (Or.inl rfl))⟩, (fun h => by cases h), (fun h => by cases h), (fun h => by cases h)⟩
  | cpool o =>
    cases h
    exact ⟨⟨rfl, Or.inr (Or.inl rfl)⟩, (fun _ => rfl), (fun h => by cases h), (fun h => by cases h)⟩
  | cover o =>
    cases h
    exact ⟨⟨rfl, Or.inr (Or.inl rfl)⟩, (fun _ => rfl), (fun h => by cases h), (fun h => by cases h)⟩
  | addrAbs o =>
    cases h
    exact ⟨⟨by simp only [Expr.eval, Ty.bits, low_64, Code.eval], Or.inr (Or.inl rfl)⟩, (fun _ => rfl), (fun h => by cases h), (fun h => by cases h)⟩
  | locus o =>
    cases h
    exact ⟨⟨by simp only [Expr.eval, Ty.bits, low_64, Code.eval], Or.inr (Or.inl rfl)⟩, (fun _ => rfl), (fun h => by cases h), (fun h => by cases h)⟩
  | handle q =>
    cases h
    have hs : q.toNat < 2 ^ 31 := hs
    exact ⟨⟨by simp only [Expr.eval, Ty.bits, Code.eval, low_small q hs], Or.inr (Or.inr (Or.inr ⟨rfl, hs⟩))⟩, (fun h => by cases h), (fun _ => rfl), (fun _ => rfl)⟩
  | exit q =>
    cases h
    have hs : q < 2 ^ 31 := hs
    have hs2 : (BitVec.ofNat 64 q).toNat < 2 ^ 31 := by
      rw [BitVec.toNat_ofNat, Nat.mod_eq_of_lt (by omega)]; exact hs
    exact ⟨⟨by simp only [Expr.eval, Ty.bits, Code.eval, low_small _ hs2], Or.inr (Or.inr (Or.inr ⟨rfl, hs2⟩))⟩, (fun h => by cases h), (fun _ => rfl), (fun _ => rfl)⟩
  | invalid => cases h
  | label _ => cases h
  | loc => cases h
  | vpos => cases h

theorem coercePtr_ok {x : LEnv W} {σ : Ref → Option Word} {e e' : Expr} {w : Word} (hv : Valued x σ e w)
    (h : coercePtr e = some e') : e'.eval x σ = some w ∧ e'.ty = some .ptr := by
  unfold coercePtr at h
  split at h
  · rename_i ht
    cases h
    exact ⟨hv.val, by simp only [Expr.ty, ht, if_true]⟩
  · rename_i ht
    cases h
    exact ⟨hv.val, ht⟩
  · cases h

theorem coerceReal_ok {x : LEnv W} {σ : Ref → Option Word} {e e' : Expr} {w : Word} (hv : Valued x σ e w)
    (h : coerceReal e = some e') : e'.eval x σ = some w := by
  cases h; exact hv.val

/-- Conversion to an integer keeps the low bits, but a pointer stays what it is. -/
theorem coerceInt_ok {x : LEnv W} {σ : Ref → Option Word} {e e' : Expr} {w : Word} {s : Size} (hv : Valued x σ e w)
    (h : coerceInt (tyOf s) e = some e') :
    (e'.ty = some .ptr ∧ e.ty = some .ptr ∧ e'.eval x σ = some w) ∨
      (e'.ty = some (tyOf s) ∧ e'.eval x σ = some (low (tyOf s).bits w)) := by
  have hev := hv.val
  rcases hv.ty with ht | ht | ht | ⟨ht, hw⟩
  · right
    simp only [coerceInt, ht] at h
    cases s <;> simp [Ty.isInt, Ty.bits, tyOf] at h <;> subst h <;>
      simp [Expr.eval, Expr.ty, ht, hev, Ty.bits, Ty.isInt, tyOf, low_64]
  · left
    simp only [coerceInt, ht] at h
    cases h
    exact ⟨ht, ht, hev⟩
  · right
    simp only [coerceInt, ht] at h
    cases s <;> simp [tyOf] at h <;> subst h <;> simp [Expr.eval, Expr.ty, ht, hev, Ty.bits, tyOf, low_64]
  · right
    simp only [coerceInt, ht] at h
    have e1 := low_small w hw
    have e2 := signExt_small w hw
    cases s <;> simp [Ty.isInt, Ty.bits, tyOf] at h <;> subst h <;>
      simp [Expr.eval, Expr.ty, ht, hev, Ty.bits, Ty.isInt, tyOf, low_64, e1, e2]

theorem tyOf_ne_ptr (s : Size) : tyOf s ≠ .ptr := by cases s <;> decide

theorem checkTy_some {s : Size} {t : Ty} (h : checkTy s = some t) : t = tyOf s ∧ s.bits = some t.bits ∧ t.isInt = true ∧ 1 < t.bits ∧ t.bits ≤ 64 := by
  cases s <;> cases h <;> refine ⟨rfl, rfl, rfl, ?_, ?_⟩ <;> decide

theorem sextResult_ok {x : LEnv W} {σ : Ref → Option Word} {m : Mask} {r : Nat} {e e' : Expr} {t : Ty} {w : Word}
    (ht : e.ty = some t) (hv : e.eval x σ = some w) (h : sextResult m r e = some e') :
    e'.eval x σ = some (ext true t.bits w) := by
  unfold sextResult at h
  rw [ht] at h
  cases t with
  | i1 => cases h
  | i64 => cases h; rw [hv]; exact congrArg some (ext_64 true w).symm
  | f64 => cases h; show e.eval x σ = _; rw [hv]; exact congrArg some (ext_64 true w).symm
  | ptr =>
    have h : ptrResult m r e = some e' := h
    unfold ptrResult at h
    rw [if_pos ht] at h
    have e1 : some w = some (ext true Ty.ptr.bits w) := congrArg some (ext_64 true w).symm
    by_cases hm : m r = true
    · rw [if_pos hm] at h; cases h; rw [hv]; exact e1
    · rw [if_neg hm] at h; cases h; show e.eval x σ = _; rw [hv]; exact e1
  | i8 => cases h; simp only [Expr.eval, hv, Option.map_some]; rfl
  | i16 => cases h; simp only [Expr.eval, hv, Option.map_some]; rfl
  | i32 => cases h; simp only [Expr.eval, hv, Option.map_some]; rfl

theorem zextResult_ok {x : LEnv W} {σ : Ref → Option Word} {e e' : Expr} {t : Ty} {w : Word}
    (ht : e.ty = some t) (hv : e.eval x σ = some w) (h : zextResult e = some e') :
    e'.eval x σ = some (ext false t.bits w) := by
  unfold zextResult at h
  rw [ht] at h
  cases t with
  | i64 => cases h; rw [hv]; exact congrArg some (ext_64 false w).symm
  | f64 => cases h
  | ptr => cases h
  | i1 => cases h; simp only [Expr.eval, hv, Option.map_some]; rfl
  | i8 => cases h; simp only [Expr.eval, hv, Option.map_some]; rfl
  | i16 => cases h; simp only [Expr.eval, hv, Option.map_some]; rfl
  | i32 => cases h; simp only [Expr.eval, hv, Option.map_some]; rfl

/-- A value of an operand is not changed by the extension of a result. -/
theorem ext_valued {x : LEnv W} {σ : Ref → Option Word} {e : Expr} {t : Ty} {w : Word} (signed : Bool) (hv : Valued x σ e w)
    (ht : e.ty = some t) : ext signed t.bits w = w := by
  rcases hv.ty with h | h | h | ⟨h, hw⟩ <;> rw [ht] at h <;> cases h
  · exact ext_64 signed w
  · exact ext_64 signed w
  · exact ext_64 signed w
  · cases signed
    · exact low_small w hw
    · exact signExt_small w hw

/-! ## what the code for an instruction does -/

/-- After the code the new values are those of the effect. -/
structure Post (x : LEnv W) (m : Mask) (i : Nat) (σ : Ref → Option Word) (w : W) (result : Option Nat) (g : Gen)
    (c : Code) (g1 : Gen) (e : Eff W) (exp : Bool) : Prop where
  run : ∃ go σ', c.run x i σ w = some (go, σ', e.world) ∧ e.ctl = (if go then Ctl.next else Ctl.stop false) ∧
    (∀ ρ, ρ ≠ .res i → ρ ≠ .flag i → σ' ρ = σ ρ) ∧
    (∀ v, e.result = some v → σ' (.res i) = some v) ∧
    (∀ v, e.flags = some v → σ' (.flag i) = some (ofBool v))
  none : e.result = none → g1.regs = g.regs
  some : ∀ v, e.result = some v → ∃ r t, result = some r ∧ (t = .i64 ∨ (t = .ptr ∧ m r = true)) ∧
    g1.regs = fun q => if q = r then some (.ref (.res i) t) else g.regs q
  flags : e.flags.isSome = true → g1.flags = .ref (.flag i) .i1
  noflags : e.flags = Option.none → g1.flags = g.flags ∨ (exp = true ∧ g1.flags = .ref (.flag i) .i1)

variable {x : LEnv W} {m : Mask} {i : Nat} {σ : Ref → Option Word} {w : W} {result : Option Nat} {g g1 : Gen} {c : Code}
variable {exp : Bool}

theorem post_val {e : Expr} {v : Word} (h : setVal m i g result e = some (c, g1)) (hv : e.eval x σ = some v) :
    Post x m i σ w result g c g1 ⟨some v, none, w, .next⟩ exp := by
  unfold setVal at h
  cases result with
  | none => cases h
  | some r =>
    simp only [Option.bind_some] at h
    cases ht : e.ty with
    | none => rw [ht] at h; cases h
    | some t =>
      rw [ht] at h
      simp only [Option.bind_some] at h
      by_cases hc : t = .i64 ∨ (t = .ptr ∧ m r = true)
      · rw [if_pos hc] at h
        cases h
        refine ⟨⟨true, setRef σ (.res i) v, ?_, rfl, ?_, ?_, ?_⟩, (fun h => by cases h), ?_, (fun h => by cases h), fun _ => Or.inl rfl⟩
        · simp only [Code.run, hv, Option.map_some]
        · intro ρ h1 h2; simp only [setRef, if_neg h1]
        · intro v' hv'; cases hv'; simp only [setRef, if_true]
        · intro v' hv'; cases hv'
        · intro v' hv'; exact ⟨r, t, rfl, hc, rfl⟩
      · rw [if_neg hc] at h; cases h

theorem post_valFlag {e fl : Expr} {v : Word} {b : Bool} {w : W} (h : setValFlag m i g result e fl = some (c, g1))
    (hv : e.eval x σ = some v) (hb : fl.eval x σ = some (ofBool b)) (o : Option Bool) (ho : o = some b ∨ (o = none ∧ exp = true)) :
    Post x m i σ w result g c g1 ⟨some v, o, w, .next⟩ exp := by
  unfold setValFlag at h
  cases result with
  | none => cases h
  | some r =>
    simp only [Option.bind_some] at h
    cases ht : e.ty with
    | none => rw [ht] at h; cases h
    | some t =>
      rw [ht] at h
      simp only [Option.bind_some] at h
      by_cases hc : (t = .i64 ∨ (t = .ptr ∧ m r = true)) ∧ fl.ty = some .i1
      · rw [if_pos hc] at h
        cases h
        refine ⟨⟨true, setRef (setRef σ (.res i) v) (.flag i) (ofBool b), ?_, rfl, ?_, ?_, ?_⟩, (fun h => by cases h), ?_, fun _ => rfl, ?_⟩
        · simp only [Code.run, hv, hb, Option.map_some, Option.bind_some]
        · intro ρ h1 h2; simp only [setRef, if_neg h1, if_neg h2]
        · intro v' hv'; cases hv'
          show (if (Ref.res i) = Ref.flag i then _ else _) = _
          rw [if_neg (fun h => by cases h)]
          simp only [setRef, if_true]
        · intro v' hv'
          have hv' : o = some v' := hv'
          rcases ho with ho | ho
          · rw [ho] at hv'; cases hv'; simp only [setRef, if_true]
          · rw [ho.1] at hv'; cases hv'
        · intro v' hv'; exact ⟨r, t, rfl, hc.1, rfl⟩
        · intro hn
          have hn : o = none := hn
          rcases ho with ho | ho
          · rw [ho] at hn; cases hn
          · exact Or.inr ⟨ho.2, rfl⟩
      · rw [if_neg hc] at h; cases h

theorem post_flag {fl : Expr} {b : Bool} (h : setFlag i g fl = some (c, g1)) (hb : fl.eval x σ = some (ofBool b)) :
    Post x m i σ w result g c g1 ⟨none, some b, w, .next⟩ exp := by
  unfold setFlag at h
  by_cases hc : fl.ty = some .i1
  · rw [if_pos hc] at h
    cases h
    refine ⟨⟨true, setRef σ (.flag i) (ofBool b), ?_, rfl, ?_, ?_, ?_⟩, fun _ => rfl, (fun _ h => by cases h), fun _ => rfl, (fun h => by cases h)⟩
    · simp only [Code.run, hb, Option.map_some]
    · intro ρ h1 h2; simp only [setRef, if_neg h2]
    · intro v' hv'; cases hv'
    · intro v' hv'; cases hv'; simp only [setRef, if_true]
  · rw [if_neg hc] at h; cases h

theorem post_act {a : Act} {go : Bool} {v : Option Word} {w' : W} (hv : a.run x σ w = some (go, v, w')) :
    Post x m i σ w result g (.act a) g ⟨none, none, w', if go then .next else .stop false⟩ exp := by
  refine ⟨⟨go, σ, ?_, rfl, fun _ _ _ => rfl, (fun _ h => by cases h), (fun _ h => by cases h)⟩, fun _ => rfl, (fun _ h => by cases h), (fun h => by cases h), fun _ => Or.inl rfl⟩
  simp only [Code.run, hv, Option.map_some]

theorem post_actVal {a : Act} {t : Ty} {v : Word} {w' : W} (h : setAct i g result t a = some (c, g1))
    (ht : ∀ r, result = some r → t = .i64 ∨ (t = .ptr ∧ m r = true)) (hv : a.run x σ w = some (true, some v, w')) :
    Post x m i σ w result g c g1 ⟨some v, none, w', .next⟩ exp := by
  unfold setAct at h
  cases result with
  | none => cases h
  | some r =>
    cases h
    refine ⟨⟨true, setRef σ (.res i) v, ?_, rfl, ?_, ?_, ?_⟩, (fun h => by cases h), ?_, (fun h => by cases h), fun _ => Or.inl rfl⟩
    · simp only [Code.run, hv, Option.map_some, Option.bind_some]
    · intro ρ h1 h2; simp only [setRef, if_neg h1]
    · intro v' hv'; cases hv'; simp only [setRef, if_true]
    · intro v' hv'; cases hv'
    · intro v' hv'; exact ⟨r, t, rfl, ht r rfl, rfl⟩

theorem regTy_ok (m : Mask) (result : Option Nat) (r : Nat) (h : result = some r) :
    regTy m result = .i64 ∨ (regTy m result = .ptr ∧ m r = true) := by
  subst h
  by_cases hm : m r = true
  · right; simp [regTy, hm]
  · left; simp [regTy, hm]

end

end Verif.Code.Llvm
