import Verif.Jit.LvnInv

/-!
# The table of local value numbering

Property C51: looking up an instruction in the table.
-/

namespace Verif.Code

variable {W : Type}

/-! ## tuples -/

def tupleOf (ir : Ir) (v1 v2 : Option Nat) : Tuple :=
  if ir.op.commutative && vnGreater v1 v2 then (ir.op.code + ir.size.code * 256 + ir.cc.code * 2048, v2, v1)
  else (ir.op.code + ir.size.code * 256 + ir.cc.code * 2048, v1, v2)

theorem tupleOf_inj {a b : Ir} {v1 v2 u1 u2 : Option Nat} (h : tupleOf a v1 v2 = tupleOf b u1 u2) :
    (a.op = b.op ∧ a.size = b.size ∧ a.cc = b.cc) ∧
      ((v1 = u1 ∧ v2 = u2) ∨ (a.op.commutative = true ∧ v1 = u2 ∧ v2 = u1)) := by
  unfold tupleOf at h
  split at h <;> split at h <;> (injection h with h1 h2; injection h2 with h2 h3)
  · exact ⟨code_inj h1, Or.inl ⟨h3, h2⟩⟩
  · rename_i c _
    rw [Bool.and_eq_true] at c
    exact ⟨code_inj h1, Or.inr ⟨c.1, h3, h2⟩⟩
  · rename_i c
    rw [Bool.and_eq_true] at c
    have := code_inj h1
    exact ⟨this, Or.inr ⟨by rw [this.1]; exact c.1, h2, h3⟩⟩
  · exact ⟨code_inj h1, Or.inl ⟨h2, h3⟩⟩

theorem Means.agree {st : Lvn} {val val' : Nat → Word} {vn : Option Nat} {x : Word} (h : Means val vn x)
    (ha : ∀ n, Valid st n → val' n = val n) (hv : ∀ n, vn = some n → Valid st n) : Means val' vn x :=
  ⟨h.1, fun n hn => by rw [ha n (hv n hn)]; exact h.2 n hn⟩

/-- What the tuple of an instruction must satisfy. -/
structure TupSpec (W : Type) (f : Func) (i : Nat) (st st' : Lvn) (ir : Ir) (t : Tuple) (v1 v2 : Option Nat) : Prop where
  grow : Grow st st'
  stat : Stat f i st'
  valid1 : ∀ n, v1 = some n → Valid st' n
  valid2 : ∀ n, v2 = some n → Valid st' n
  eq : t = tupleOf ir v1 v2
  keep : ∀ r, ¬ ir.readsArg r → st.regvn r = none → st'.regvn r = none
  dyn : ∀ (env : Env W) sent val regs flags w, Dyn env sent st val regs flags w →
    ∃ val', (∀ n, Valid st n → val' n = val n) ∧ Dyn env sent st' val' regs flags w ∧
      Means val' v1 (eval env regs ir.arg1) ∧ Means val' v2 (eval env regs ir.arg2)

theorem getTuple_spec {f : Func} {i : Nat} {st st' : Lvn} {ir : Ir} {t : Tuple} (S : Stat f i st)
    (hr : ∀ r, ir.readsArg r → r < f.nregs ∧ ReadSince f i r) (h : getTuple st ir = some (t, st')) :
    ∃ v1 v2, TupSpec W f i st st' ir t v1 v2 := by
  unfold getTuple at h
  rw [Option.bind_eq_some_iff] at h
  obtain ⟨⟨v1, st1⟩, h1, h⟩ := h
  rw [Option.map_eq_some_iff] at h
  obtain ⟨⟨v2, st2⟩, h2, h⟩ := h
  dsimp only at h2 h
  have n1 := valueNum_spec (W := W) S (fun r e => hr r (Or.inl (by rw [e]; rfl))) h1
  have n2 := valueNum_spec (W := W) n1.stat (fun r e => hr r (Or.inr (by rw [e]; rfl))) h2
  have e : t = tupleOf ir v1 v2 ∧ st' = st2 := by
    unfold tupleOf
    split at h <;> (injection h with ha hb; subst ha; subst hb; refine ⟨?_, rfl⟩)
    · rename_i c; rw [if_pos c]
    · rename_i c; rw [if_neg c]
  obtain ⟨e, rfl⟩ := e
  refine ⟨v1, v2, n1.grow.trans n2.grow, n2.stat, fun n hn => (n1.valid n hn).grow n2.grow, n2.valid, e, ?_, ?_⟩
  · intro r hr hn
    refine n2.keep r ?_ (n1.keep r ?_ hn)
    · intro c; exact hr (Or.inr (by rw [c]; rfl))
    · intro c; exact hr (Or.inl (by rw [c]; rfl))
  · intro env sent val regs flags w D
    obtain ⟨val1, a1, D1, m1⟩ := n1.dyn env sent val regs flags w D
    obtain ⟨val2, a2, D2, m2⟩ := n2.dyn env sent val1 regs flags w D1
    exact ⟨val2, fun n hn => by rw [a2 n (hn.grow n1.grow), a1 n hn], D2, m1.agree a2 n1.valid, m2⟩

/-- Equal tuples: equal results. -/
theorem tuple_pure {env : Env W} {regs : Nat → Word} {a b : Ir} {v1 v2 u1 u2 : Option Nat} {val : Nat → Word}
    (h : tupleOf a v1 v2 = tupleOf b u1 u2) (h1 : Means val v1 (eval env regs a.arg1))
    (h2 : Means val v2 (eval env regs a.arg2)) (h3 : Means val u1 (eval env regs b.arg1))
    (h4 : Means val u2 (eval env regs b.arg2)) : a.pure env regs = b.pure env regs := by
  obtain ⟨⟨e1, e2, e3⟩, h⟩ := tupleOf_inj h
  unfold Ir.pure
  rw [← e1, ← e2, ← e3]
  rcases h with ⟨rfl, rfl⟩ | ⟨hc, rfl, rfl⟩
  · rw [h1.eq h3, h2.eq h4]
  · rw [h1.eq h4, h2.eq h3]
    exact pureRes_comm _ hc _ _ _ _

/-! ## writing the result -/

theorem eval_regOf {env : Env W} {regs : Nat → Word} {v : Val} {d : Nat} {x : Word} (h : v.regOf ≠ some d) :
    eval env (setReg regs d x) v = eval env regs v := by
  cases v <;> simp only [eval, setReg]
  case reg r =>
    have : r ≠ d := fun c => h (by rw [c]; rfl)
    simp [this]
  case addrReg r o =>
    have : r ≠ d := fun c => h (by rw [c]; rfl)
    simp [this]

theorem pure_setReg {env : Env W} {regs : Nat → Word} {ir : Ir} {d : Nat} {x : Word} (h : ¬ ir.readsArg d) :
    ir.pure env (setReg regs d x) = ir.pure env regs := by
  unfold Ir.readsArg at h
  unfold Ir.pure
  rw [eval_regOf fun c => h (Or.inl c), eval_regOf fun c => h (Or.inr c)]

theorem setReg_ne {regs : Nat → Word} {d r : Nat} {x : Word} (h : r ≠ d) : setReg regs d x r = regs r := by
  unfold setReg; rw [if_neg h]

theorem setReg_eq {regs : Nat → Word} {d : Nat} {x : Word} : setReg regs d x d = x := by
  unfold setReg; rw [if_pos rfl]

theorem Stat.write {f : Func} {i : Nat} {st : Lvn} {res : Nat} {vn : Option Nat} (S : Stat f i st) (F : Free st res)
    (hr : res < f.nregs) (hd : DefinedSince f i res) (hv : ∀ v, vn = some v → Valid st v) :
    Stat f i (st.setVn res vn) := by
  constructor
  · exact S.nregs
  · exact S.next
  · exact S.clen
  · intro q v h
    rw [setVn_regvn] at h
    split at h
    · exact hv v h
    · exact S.valid q v h
  · intro v h
    rw [setVn_regvn, if_neg (by have := S.nregs; simp only [Lvn.setVn]; omega)] at h
    exact S.flag v h
  · intro r v hr h
    rw [setVn_regvn] at h
    split at h
    · rename_i e; subst e; exact Or.inr hd
    · exact S.seen r v hr h
  · intro k e evn h
    obtain ⟨hv, hg, eres, j, ir, h1, h2, h3, h4, h5, h6, h7⟩ := S.tab k e evn h
    refine ⟨hv, hg, eres, j, ir, h1, h2, h3, h4, h5, h6, ?_⟩
    intro h8
    rw [setVn_regvn, if_neg (by rintro rfl; exact (F.tab k e evn h).1 h1)] at h8
    exact h7 h8

theorem Dyn.write {env : Env W} {sent st val regs flags w f i} {res : Nat} {vn : Option Nat} {x : Word}
    (D : Dyn env sent st val regs flags w) (S : Stat f i st) (F : Free st res) (hr : res < f.nregs)
    (hv : ∀ v, vn = some v → val v = x) : Dyn env sent (st.setVn res vn) val (setReg regs res x) flags w := by
  have hn := S.nregs
  constructor
  · exact D.small
  · exact D.consts
  · intro r v hr h
    rw [setVn_regvn] at h
    split at h
    · rename_i e; subst e; rw [setReg_eq]; exact hv v h
    · rename_i e; rw [setReg_ne e]; exact D.reg r v hr h
  · intro v h
    rw [setVn_regvn, if_neg (by simp only [Lvn.setVn]; omega)] at h
    exact D.flag v h
  · intro n v hn h
    rw [setVn_regvn, if_neg (by simp only [Lvn.setVn]; omega)] at h
    exact D.slot n v hn h
  · intro k e evn eres hk he h
    have hne : eres ≠ res := by rintro rfl; exact (F.tab k e evn hk).1 he
    rw [setVn_regvn, if_neg hne] at h
    obtain ⟨fl, hfl⟩ := D.eqn k e evn eres hk he h
    refine ⟨fl, ?_⟩
    rw [pure_setReg ((F.tab k e evn hk).2 eres he h), setReg_ne hne]
    exact hfl

/-- The number stays unknown. -/
theorem setVn_none {st : Lvn} {res : Nat} (h : st.regvn res = none) : st.setVn res none = st := by
  unfold Lvn.setVn
  have : (fun q => if q = res then none else st.regvn q) = st.regvn := by
    funext q
    split
    · rename_i e; rw [e, h]
    · rfl
  rw [this]

/-- The instruction at position `i`, in its present form. -/
structure LvnAt (f : Func) (i : Nat) (ir0 ir : Ir) (res : Nat) : Prop where
  at_ : f.irs[i]? = some ir0
  defs : ir0.defines res
  result : ir.result = some res
  lt : res < f.nregs
  reads : ∀ r, ir.readsArg r → ir0.reads r ∧ r < f.nregs
  self : ¬ ir0.reads res
  gen : ir.op.generic = true

theorem noTarget_succ (f : Func) (i : Nat) : NoTarget f i (i + 1) := by
  intro k t h1 h2; omega

theorem LvnAt.readSince {f i ir0 ir res} (C : LvnAt f i ir0 ir res) (r : Nat) (h : ir.readsArg r) :
    r < f.nregs ∧ ReadSince f (i + 1) r :=
  ⟨(C.reads r h).2, i, ir0, Nat.lt_succ_self _, C.at_, (C.reads r h).1, noTarget_succ f i⟩

theorem LvnAt.definedSince {f i ir0 ir res} (C : LvnAt f i ir0 ir res) : DefinedSince f (i + 1) res :=
  ⟨i, ir0, Nat.lt_succ_self _, C.at_, C.defs, noTarget_succ f i⟩

theorem LvnAt.notArg {f i ir0 ir res} (C : LvnAt f i ir0 ir res) : ¬ ir.readsArg res :=
  fun h => C.self (C.reads res h).1

/-- A new entry of the table. -/
def Lvn.enter (st : Lvn) (ir : Ir) (res v slot : Nat) : Lvn :=
  { st.setVn res (some v) with tab := fun i => if i = slot then some (ir, v) else st.tab i }

theorem Stat.enter {f : Func} {i : Nat} {st : Lvn} {ir0 ir : Ir} {res v slot : Nat} (S : Stat f (i + 1) st)
    (F : Free st res) (C : LvnAt f i ir0 ir res) (hv : Valid st v) : Stat f (i + 1) (st.enter ir res v slot) := by
  have S1 := S.write F C.lt C.definedSince (vn := some v) (by intro u hu; injection hu with e; subst e; exact hv)
  refine ⟨S1.nregs, S1.next, S1.clen, S1.valid, S1.flag, S1.seen, ?_⟩
  intro k e evn h
  unfold Lvn.enter at h
  dsimp only at h
  split at h
  · injection h with h; injection h with h1 h2; subst h1; subst h2
    exact ⟨hv, C.gen, res, i, ir0, C.result, C.lt, Nat.lt_succ_self _, C.at_, C.defs, C.reads, fun _ => noTarget_succ f i⟩
  · exact S1.tab k e evn h

theorem Dyn.enter {env : Env W} {sent st val regs flags w f i} {ir0 ir : Ir} {res v slot : Nat} {x : Word}
    {fl : Option Bool} (D : Dyn env sent st val regs flags w) (S : Stat f (i + 1) st) (F : Free st res)
    (C : LvnAt f i ir0 ir res) (hv : val v = x) (hx : ir.pure env regs = some (x, fl)) :
    Dyn env sent (st.enter ir res v slot) val (setReg regs res x) flags w := by
  have D1 := D.write S F C.lt (vn := some v) (x := x) (by intro u hu; injection hu with e; subst e; exact hv)
  refine ⟨D1.small, D1.consts, D1.reg, D1.flag, D1.slot, ?_⟩
  intro k e evn eres hk he h
  unfold Lvn.enter at hk
  dsimp only at hk
  split at hk
  · injection hk with hk; injection hk with h1 h2; subst h1; subst h2
    rw [C.result] at he; injection he with he; subst he
    exact ⟨fl, by rw [pure_setReg C.notArg, setReg_eq]; exact hx⟩
  · exact D1.eqn k e evn eres hk he h

/-! ## looking up -/

/-- What becomes of an instruction: `ir` as it was, `ir'` afterwards; its result has the number `vn` if this is
known. -/
structure Numbered (W : Type) (f : Func) (i res : Nat) (vn : Option Nat) (st : Lvn) (ir : Ir) (st' : Lvn) (ir' : Ir) :
    Prop where
  stat : Stat f (i + 1) st'
  gen : ir'.op.generic = true
  result : ir'.result = some res
  dyn : ∀ (env : Env W) sent val regs flags w x fl, Dyn env sent st val regs flags w →
    ir.pure env regs = some (x, fl) → (∀ n, vn = some n → val n = x) →
    (∃ val', Dyn env sent st' val' (setReg regs res x) (fl.getD flags) w) ∧
      ∃ fl', ir'.pure env regs = some (x, fl') ∧
        (fl' = fl ∨ (fl' = none ∧ ir'.op ≠ .add ∧ ir'.op ≠ .sub ∧ ir'.op ≠ .mul ∧ ir'.op ≠ .exp))

theorem Dyn.anyFlags {env : Env W} {sent st val regs flags w} (D : Dyn env sent st val regs flags w)
    (h : st.regvn st.nregs = none) (b : Bool) : Dyn env sent st val regs b w :=
  ⟨D.small, D.consts, D.reg, fun v hv => (by rw [h] at hv; cases hv), D.slot, D.eqn⟩

theorem probe_spec {f : Func} {i : Nat} {ir0 ir : Ir} {res : Nat} {t : Tuple} {vn v1 v2 : Option Nat}
    (C : LvnAt f i ir0 ir res) (ht : t = tupleOf ir v1 v2) : ∀ (n idx : Nat) (stale : Option Nat) (st st' : Lvn) (ir' : Ir),
    Stat f (i + 1) st → Free st res → (∀ n, vn = some n → Valid st n) → (∀ n, v1 = some n → Valid st n) →
    (∀ n, v2 = some n → Valid st n) → probe ir res t vn n idx stale st = some (ir', st') →
    Stat f (i + 1) st' ∧ (ir' = ir ∨ (ir'.op = .mov ∧ ir'.result = some res)) ∧
    ∀ (env : Env W) sent val regs flags w x fl, Dyn env sent st val regs flags w → ir.pure env regs = some (x, fl) →
      (∀ n, vn = some n → val n = x) → Means val v1 (eval env regs ir.arg1) → Means val v2 (eval env regs ir.arg2) →
      (∃ val', Dyn env sent st' val' (setReg regs res x) flags w) ∧
        (ir' = ir ∨ ir'.pure env regs = some (x, none)) := by
  intro n
  induction n with
  | zero =>
    intro idx stale st st' ir' S F _ _ _ h
    unfold probe at h
    injection h with h; injection h with h1 h2; subst h1; subst h2
    refine ⟨S, Or.inl rfl, ?_⟩
    intro env sent val regs flags w x fl D _ _ _ _
    refine ⟨⟨val, ?_⟩, Or.inl rfl⟩
    have := D.write S F C.lt (vn := none) (x := x) (by simp)
    rwa [setVn_none F.none] at this
  | succ n ih =>
    intro idx stale st st' ir' S F hvn hv1 hv2 h
    unfold probe at h
    split at h
    · -- a new entry
      injection h with h; injection h with h1 h2; subst h1
      unfold insertEntry at h2
      refine ⟨?_, Or.inl rfl, ?_⟩
      · subst h2
        cases hvn' : vn with
        | none =>
          have g : Grow st { st with next := st.next + 1 } :=
            ⟨rfl, rfl, rfl, Nat.le_succ _, ⟨[], by simp⟩, S.clen, fun _ => Or.inl rfl⟩
          have S1 := S.grow g (by intro r v h1 h2; dsimp only at h2; rw [h1] at h2; cases h2)
          exact S1.enter (F.grow S g F.none) C (Or.inr (Or.inr ⟨S.next, Nat.lt_succ_self _⟩))
        | some v => exact S.enter F C (hvn v hvn')
      · intro env sent val regs flags w x fl D hx hval _ _
        refine ⟨?_, Or.inl rfl⟩
        subst h2
        cases hvn' : vn with
        | none =>
          have g : Grow st { st with next := st.next + 1 } :=
            ⟨rfl, rfl, rfl, Nat.le_succ _, ⟨[], by simp⟩, S.clen, fun _ => Or.inl rfl⟩
          have S1 := S.grow g (by intro r v h1 h2; dsimp only at h2; rw [h1] at h2; cases h2)
          have hval : ∀ n, Valid st n → updVal val st.next x n = val n := by
            intro n hn
            have := hn.lt S.next S.clen
            unfold updVal; rw [if_neg (by omega)]
          have D1 : Dyn env sent { st with next := st.next + 1 } (updVal val st.next x) regs flags w := by
            refine D.grow S g hval ?_ (by intro r v h1 h2; dsimp only at h2; rw [h1] at h2; cases h2)
            intro k c hk
            rw [hval _ (Or.inr (Or.inl ⟨by omega, ?_⟩))]
            · exact D.consts k c hk
            · have := (List.getElem?_eq_some_iff.1 hk).1; dsimp only at this; omega
          exact ⟨_, D1.enter S1 (F.grow S g F.none) C (by unfold updVal; rw [if_pos rfl]) hx⟩
        | some v => exact ⟨val, D.enter S F C (hval v hvn') hx⟩
    · rename_i e evn htab
      obtain ⟨hev, heg, eres, j, irj, he1, he2, he3, he4, he5, he6, he7⟩ := S.tab idx e evn htab
      rw [he1] at h
      dsimp only at h
      split at h
      · rename_i hlive
        have hnt := he7 hlive
        split at h
        · cases h
        · rename_i c st1 hc
          obtain ⟨u1, u2, T⟩ := getTuple_spec (W := W) S
            (fun r hr => ⟨(he6 r hr).2, j, irj, he3, he4, (he6 r hr).1, hnt⟩) hc
          have F1 : Free st1 res := F.grow S T.grow (T.keep res ((F.tab idx e evn htab).2 eres he1 hlive) F.none)
          have hne : eres ≠ res := by rintro rfl; exact (F.tab idx e evn htab).1 he1
          split at h
          · -- found
            rename_i hct
            injection h with h
            unfold useEntry at h
            injection h with h1 h2
            have hev1 := hev.grow T.grow
            have hlive1 := T.grow.keep hlive
            refine ⟨?_, ?_, ?_⟩
            · subst h2
              exact T.stat.write F1 C.lt C.definedSince (by intro v hv; injection hv with hv; subst hv; exact hev1)
            · subst h1; exact Or.inr ⟨rfl, C.result⟩
            · intro env sent val regs flags w x fl D hx hval m1 m2
              obtain ⟨val1, a1, D1, m3, m4⟩ := T.dyn env sent val regs flags w D
              have hp : e.pure env regs = ir.pure env regs := by
                refine tuple_pure (val := val1) ?_ m3 m4 (m1.agree a1 hv1) (m2.agree a1 hv2)
                rw [← ht, ← hct, T.eq]
              obtain ⟨fl', hfl'⟩ := D.eqn idx e evn eres htab he1 hlive
              rw [hp, hx] at hfl'
              injection hfl' with hfl'; injection hfl' with hxe _
              have hregs : val1 evn = regs eres := D1.reg eres evn (by rw [T.stat.nregs]; exact he2) hlive1
              refine ⟨⟨val1, ?_⟩, Or.inr ?_⟩
              · subst h2
                exact D1.write T.stat F1 C.lt (by intro v hv; injection hv with hv; subst hv; rw [hregs, hxe])
              · subst h1
                unfold Ir.pure asMov
                dsimp only [pureRes]
                cases hrc : st1.regConst eres with
                | none => simp [eval, hxe]
                | some c =>
                  unfold Lvn.regConst at hrc
                  rw [hlive1] at hrc
                  simp only [Option.bind_some] at hrc
                  unfold Lvn.getConst at hrc
                  simp only [eval, Option.some.injEq, Prod.mk.injEq, and_true]
                  rw [hxe, ← hregs]
                  split at hrc
                  · rename_i hs
                    injection hrc with hrc
                    rw [D1.small evn hs, hrc]
                  · split at hrc
                    · rename_i hs hs2
                      injection hrc with hrc
                      have hlt : evn - smallConst < st1.consts.length := by
                        unfold Valid firstVn smallConst maxConsts at *
                        omega
                      have := D1.consts (evn - smallConst) c (by
                        rw [List.getElem?_eq_getElem hlt]
                        rw [List.getD_eq_getElem?_getD, List.getElem?_eq_getElem hlt] at hrc
                        simpa using hrc)
                      rw [← this]
                      congr 1
                      omega
                    · cases hrc
          · -- another entry
            have := ih _ _ st1 st' ir' T.stat F1 (fun n hn => (hvn n hn).grow T.grow) (fun n hn => (hv1 n hn).grow T.grow)
              (fun n hn => (hv2 n hn).grow T.grow) h
            refine ⟨this.1, this.2.1, ?_⟩
            intro env sent val regs flags w x fl D hx hval m1 m2
            obtain ⟨val1, a1, D1, _, _⟩ := T.dyn env sent val regs flags w D
            exact this.2.2 env sent val1 regs flags w x fl D1 hx
              (fun n hn => by rw [a1 n (hvn n hn)]; exact hval n hn) (m1.agree a1 hv1) (m2.agree a1 hv2)
      · exact ih _ _ st st' ir' S F hvn hv1 hv2 h

/-- `jit_lvn_generic` -/
theorem lvnGeneric_spec {f : Func} {i : Nat} {ir0 ir ir' : Ir} {res : Nat} {vn : Option Nat} {st st' : Lvn}
    (C : LvnAt f i ir0 ir res) (S : Stat f (i + 1) st) (F : Free st res) (hvn : ∀ n, vn = some n → Valid st n)
    (hk : ir.cc ≠ .none → ir.op = .add ∨ ir.op = .sub ∨ ir.op = .mul ∨ ir.op = .exp → st.regvn st.nregs = none)
    (h : lvnGeneric st ir vn = some (ir', st')) :
    Numbered W f i res vn st ir st' ir' ∧ (ir'.op = ir.op ∨ ir'.op = .mov) := by
  unfold lvnGeneric at h
  rw [C.result] at h
  dsimp only at h
  rw [Option.bind_eq_some_iff] at h
  obtain ⟨⟨t, st1⟩, ht, h⟩ := h
  dsimp only at h
  obtain ⟨v1, v2, T⟩ := getTuple_spec (W := W) S C.readSince ht
  have F1 : Free st1 res := F.grow S T.grow (T.keep res C.notArg F.none)
  obtain ⟨hS, ho, hd⟩ := probe_spec (W := W) C T.eq 10 _ _ st1 st' ir' T.stat F1 (fun n hn => (hvn n hn).grow T.grow) T.valid1
    T.valid2 h
  refine ⟨⟨hS, ?_, ?_, ?_⟩, ?_⟩
  · rcases ho with e | ⟨e, _⟩
    · rw [e]; exact C.gen
    · rw [e]; rfl
  · rcases ho with e | ⟨_, e⟩
    · rw [e]; exact C.result
    · exact e
  · intro env sent val regs flags w x fl D hx hval
    have D' : Dyn env sent st val regs (fl.getD flags) w := by
      cases hfl : fl with
      | none => exact D
      | some b =>
        have := pureRes_flags hx (by rw [hfl]; simp)
        exact D.anyFlags (hk this.2 this.1) b
    obtain ⟨val1, a1, D1, m1, m2⟩ := T.dyn env sent val regs (fl.getD flags) w D'
    obtain ⟨hd1, hd2⟩ := hd env sent val1 regs (fl.getD flags) w x fl D1 hx
      (fun n hn => by rw [a1 n (hvn n hn)]; exact hval n hn) m1 m2
    refine ⟨hd1, ?_⟩
    rcases ho with e | ⟨e, _⟩
    · exact ⟨fl, by rw [e]; exact hx, Or.inl rfl⟩
    · rcases hd2 with e' | e'
      · exact ⟨fl, by rw [e']; exact hx, Or.inl rfl⟩
      · exact ⟨none, e', Or.inr ⟨rfl, by rw [e]; simp⟩⟩
  · rcases ho with e | ⟨e, _⟩
    · exact Or.inl (by rw [e])
    · exact Or.inr e

end Verif.Code
