import Verif.Expr.VhdlModel

/-
Property C90, VHDL: the parser accepts exactly the expressions of a grammar that
is more liberal than that of the standard, and gives those of the standard
their structure.
-/

namespace Verif.Expr.Vhdl

open Spec

/-! ## Soundness -/

/-- What the parser reads is of the category. -/
def Snd (c : Cat) (p : Parser) : Prop :=
  ∀ ts e rest, p ts = some (e, rest) → ∃ pre, ts = pre ++ rest ∧ D .nvc c e pre

theorem map_some {u : Un} {x : Option (Expr × List Tok)} {e : Expr} {rest : List Tok}
    (h : x.map (fun r => (Expr.un u r.1, r.2)) = some (e, rest)) :
    ∃ e', x = some (e', rest) ∧ e = .un u e' := by
  rw [Option.map_eq_some_iff] at h
  obtain ⟨⟨a, b⟩, h1, h2⟩ := h
  obtain ⟨rfl, rfl⟩ := Prod.mk.inj h2
  exact ⟨a, h1, rfl⟩

theorem prim_snd {ex : Parser} (h : Snd .exp ex) : Snd .prim (prim ex) := by
  intro ts e rest hp
  unfold prim at hp
  split at hp
  · obtain ⟨rfl, rfl⟩ := Prod.mk.inj (Option.some.inj hp)
    exact ⟨[_], rfl, .atom _⟩
  · next t =>
    split at hp
    · next e1 t1 h1 =>
      obtain ⟨rfl, rfl⟩ := Prod.mk.inj (Option.some.inj hp)
      obtain ⟨pre, rfl, d⟩ := h _ _ _ h1
      exact ⟨.lp :: (pre ++ [.rp]), by simp, .paren d⟩
    · cases hp
  · cases hp

theorem una_snd {ex : Parser} (h : Snd .exp ex) : Snd .una (una ex) := by
  intro ts e rest hp
  unfold una at hp
  split at hp
  · obtain ⟨e', h1, rfl⟩ := map_some hp
    obtain ⟨pre, rfl, d⟩ := prim_snd h _ _ _ h1
    exact ⟨_ :: pre, rfl, .unaU rfl d⟩
  · obtain ⟨e', h1, rfl⟩ := map_some hp
    obtain ⟨pre, rfl, d⟩ := prim_snd h _ _ _ h1
    exact ⟨_ :: pre, rfl, .unaU rfl d⟩
  · obtain ⟨e', h1, rfl⟩ := map_some hp
    obtain ⟨pre, rfl, d⟩ := prim_snd h _ _ _ h1
    exact ⟨_ :: pre, rfl, .unaU rfl d⟩
  · obtain ⟨pre, rfl, d⟩ := prim_snd h _ _ _ hp
    exact ⟨pre, rfl, .unaP d⟩

theorem fac_snd {ex : Parser} (h : Snd .exp ex) : Snd .fac (fac ex) := by
  intro ts e rest hp
  unfold fac at hp
  split at hp
  · next l t hu =>
    obtain ⟨pl, rfl, dl⟩ := una_snd h _ _ _ hu
    split at hp
    · next r t2 h2 =>
      obtain ⟨rfl, rfl⟩ := Prod.mk.inj (Option.some.inj hp)
      obtain ⟨pr, rfl, dr⟩ := prim_snd h _ _ _ h2
      exact ⟨pl ++ .op .pow :: pr, by simp, .pow dl dr⟩
    · cases hp
  · obtain ⟨pre, rfl, d⟩ := una_snd h _ _ _ hp
    exact ⟨pre, rfl, .fac d⟩

/-- A loop builds what the rules `step` and `fin` allow. -/
theorem loop_snd {c cs cout : Cat} {sub : Parser} {ops : Op → Option Bin} {last : Op → Bool}
    (hs : Snd cs sub)
    (step : ∀ o b l r tl tr, ops o = some b → last o = false → D .nvc c l tl → D .nvc cs r tr →
      D .nvc c (.bin b l r) (tl ++ .op o :: tr))
    (fin : ∀ o b l r tl tr, ops o = some b → last o = true → D .nvc c l tl → D .nvc cs r tr →
      D .nvc cout (.bin b l r) (tl ++ .op o :: tr))
    (up : ∀ e ts, D .nvc c e ts → D .nvc cout e ts) :
    ∀ (k : Nat) (e : Expr) (ts : List Tok) (e' : Expr) (rest tl : List Tok),
      loop k sub ops last e ts = some (e', rest) → D .nvc c e tl →
      ∃ mid, ts = mid ++ rest ∧ D .nvc cout e' (tl ++ mid) := by
  intro k
  induction k with
  | zero => intro e ts e' rest tl h; simp [loop] at h
  | succ k ih =>
    intro e ts e' rest tl h d
    unfold loop at h
    split at h
    · next h1 => cases h1
    · next n1 o t h1 =>
      obtain rfl := Nat.succ.inj h1
      split at h
      · next b hb =>
        split at h
        · next r t2 h2 =>
          obtain ⟨pr, rfl, dr⟩ := hs _ _ _ h2
          split at h
          · next hl =>
            obtain ⟨rfl, rfl⟩ := Prod.mk.inj (Option.some.inj h)
            exact ⟨.op o :: pr, by simp, fin o b _ _ _ _ hb hl d dr⟩
          · next hl =>
            obtain ⟨mid, rfl, d2⟩ := ih _ _ _ _ _ h
              (step o b _ _ _ _ hb (by simpa using hl) d dr)
            exact ⟨.op o :: (pr ++ mid), by simp, by simpa using d2⟩
        · cases h
      · obtain ⟨rfl, rfl⟩ := Prod.mk.inj (Option.some.inj h)
        exact ⟨[], rfl, by rw [List.append_nil]; exact up _ _ d⟩
    · obtain ⟨rfl, rfl⟩ := Prod.mk.inj (Option.some.inj h)
      exact ⟨[], rfl, by rw [List.append_nil]; exact up _ _ d⟩

theorem chain_snd {c cf cs cout : Cat} {first sub : Parser} {ops : Op → Option Bin}
    {last : Op → Bool} {n : Nat} (hf : Snd cf first) (hs : Snd cs sub)
    (start : ∀ e ts, D .nvc cf e ts → D .nvc c e ts)
    (step : ∀ o b l r tl tr, ops o = some b → last o = false → D .nvc c l tl → D .nvc cs r tr →
      D .nvc c (.bin b l r) (tl ++ .op o :: tr))
    (fin : ∀ o b l r tl tr, ops o = some b → last o = true → D .nvc c l tl → D .nvc cs r tr →
      D .nvc cout (.bin b l r) (tl ++ .op o :: tr))
    (up : ∀ e ts, D .nvc c e ts → D .nvc cout e ts) :
    Snd cout (chainOf n first sub ops last) := by
  intro ts e rest h
  unfold chainOf at h
  split at h
  · next e1 t1 h1 =>
    obtain ⟨pre, rfl, d⟩ := hf _ _ _ h1
    obtain ⟨mid, rfl, d2⟩ := loop_snd hs step fin up _ _ _ _ _ _ h (start _ _ d)
    exact ⟨pre ++ mid, by simp, d2⟩
  · cases h

theorem ter_snd {ex : Parser} {n : Nat} (h : Snd .exp ex) : Snd .ter (ter n ex) :=
  chain_snd (c := .ter) (fac_snd h) (fac_snd h) (fun _ _ d => .ter d)
    (fun o b l r tl tr hb _ dl dr => by
      cases o <;> simp only [mulOps, Option.some.injEq, reduceCtorEq] at hb
      subst hb; exact .mul _ dl dr)
    (fun _ _ _ _ _ _ _ hl => by cases hl) (fun _ _ d => d)

theorem signed_snd {ex : Parser} {n : Nat} (h : Snd .exp ex) : Snd .sim (signed n ex) := by
  intro ts e rest hp
  unfold signed at hp
  split at hp
  · obtain ⟨e', h1, rfl⟩ := map_some hp
    obtain ⟨pre, rfl, d⟩ := ter_snd h _ _ _ h1
    exact ⟨_ :: pre, rfl, .sign rfl d⟩
  · obtain ⟨e', h1, rfl⟩ := map_some hp
    obtain ⟨pre, rfl, d⟩ := ter_snd h _ _ _ h1
    exact ⟨_ :: pre, rfl, .sign rfl d⟩
  · obtain ⟨pre, rfl, d⟩ := ter_snd h _ _ _ hp
    exact ⟨pre, rfl, .sim d⟩

theorem sim_snd {ex : Parser} {n : Nat} (h : Snd .exp ex) : Snd .sim (sim n ex) :=
  chain_snd (c := .sim) (signed_snd h) (ter_snd h) (fun _ _ d => d)
    (fun o b l r tl tr hb _ dl dr => by
      cases o <;> simp only [addOps, Option.some.injEq, reduceCtorEq] at hb
      subst hb; exact .add _ dl dr)
    (fun _ _ _ _ _ _ _ hl => by cases hl) (fun _ _ d => d)

theorem shi_snd {ex : Parser} {n : Nat} (h : Snd .exp ex) : Snd .shi (shi n ex) :=
  chain_snd (c := .shi) (sim_snd h) (sim_snd h) (fun _ _ d => .shi d)
    (fun o b l r tl tr hb _ dl dr => by
      cases o <;> simp only [shiftOps, Option.some.injEq, reduceCtorEq] at hb
      subst hb; exact .shift _ dl dr)
    (fun _ _ _ _ _ _ _ hl => by cases hl) (fun _ _ d => d)

theorem rel_snd {ex : Parser} {n : Nat} (h : Snd .exp ex) : Snd .rel (rel n ex) :=
  chain_snd (c := .rel) (shi_snd h) (shi_snd h) (fun _ _ d => .rel d)
    (fun o b l r tl tr hb _ dl dr => by
      cases o <;> simp only [relOps, Option.some.injEq, reduceCtorEq] at hb
      subst hb; exact .relop _ dl dr)
    (fun _ _ _ _ _ _ _ hl => by cases hl) (fun _ _ d => d)

theorem last_assoc (o : Log) : logLast (.log o) = !assoc o := by cases o <;> rfl

theorem lg_snd {ex : Parser} {n : Nat} (h : Snd .exp ex) : Snd .exp (lg n ex) :=
  chain_snd (c := .chn none) (rel_snd h) (rel_snd h) (fun _ _ d => .chn d)
    (fun o b l r tl tr hb hl dl dr => by
      cases o <;> simp only [logOps, Option.some.injEq, reduceCtorEq] at hb
      subst hb
      rw [last_assoc] at hl
      exact .log (by simpa using hl) (.inr rfl) dl dr)
    (fun o b l r tl tr hb hl dl dr => by
      cases o <;> simp only [logOps, Option.some.injEq, reduceCtorEq] at hb
      subst hb
      rw [last_assoc] at hl
      exact .nand (by simpa using hl) dl dr)
    (fun _ _ d => .exp rfl d)

theorem expr_snd (n : Nat) : Snd .exp (pExpr n) := by
  induction n with
  | zero => intro ts e rest h; simp [pExpr] at h
  | succ n ih =>
    intro ts e rest h
    unfold pExpr at h
    split at h
    · next h1 => cases h1
    · next h1 =>
      obtain rfl := Nat.succ.inj h1
      obtain ⟨e', h1, rfl⟩ := map_some h
      obtain ⟨pre, rfl, d⟩ := prim_snd ih _ _ _ h1
      exact ⟨_ :: pre, rfl, .cconv d⟩
    · next h1 _ =>
      obtain rfl := Nat.succ.inj h1
      exact lg_snd ih _ _ _ h

/-! ## Completeness -/

/-- How tight an operator binds; zero for other tokens. -/
def rank : Tok → Nat
  | .op .pow => 6
  | .op (.mul _) => 5
  | .op (.add _) => 4
  | .op (.shift _) => 3
  | .op (.rel _) => 2
  | .op (.log _) => 1
  | _ => 0

/-- The rest does not go on with an operator of the rank or above. -/
def Stop (p : Nat) (rest : List Tok) : Prop := ∀ t r, rest = t :: r → rank t < p

theorem Stop.mono {p q : Nat} {rest : List Tok} (h : Stop p rest) (hpq : p ≤ q) : Stop q rest :=
  fun t r e => Nat.lt_of_lt_of_le (h t r e) hpq

/-- The parser reads the tokens as the expression, before any such rest. -/
def Full (par : Nat → Parser) (p : Nat) (e : Expr) (ts : List Tok) : Prop :=
  ∀ rest, Stop p rest → ∃ N, ∀ n, N ≤ n → par n (ts ++ rest) = some (e, rest)

/-- The first operand and some turns of the loop read the tokens. -/
def Ch (first sub : Nat → Parser) (ops : Op → Option Bin) (last : Op → Bool) (p : Nat)
    (e : Expr) (ts : List Tok) : Prop :=
  ∀ rest res, Stop (p + 1) rest →
    (∃ N, ∀ k n, N ≤ k → N ≤ n → loop k (sub n) ops last e rest = some res) →
    ∃ N, ∀ k n, N ≤ k → N ≤ n → chainOf k (first n) (sub n) ops last (ts ++ rest) = some res

theorem Ch.base {first sub : Nat → Parser} {ops : Op → Option Bin} {last : Op → Bool} {p : Nat}
    {e : Expr} {ts : List Tok} (h : Full first (p + 1) e ts) : Ch first sub ops last p e ts := by
  intro rest res hs hl
  obtain ⟨N, hN⟩ := h rest hs
  obtain ⟨K, hK⟩ := hl
  refine ⟨max N K, fun k n hk hn => ?_⟩
  unfold chainOf
  rw [hN n (by omega)]
  exact hK k n (by omega) (by omega)

theorem pred {n N : Nat} (h : N + 1 ≤ n) : ∃ m, n = m + 1 ∧ N ≤ m := ⟨n - 1, by omega, by omega⟩

theorem Ch.step {first sub : Nat → Parser} {ops : Op → Option Bin} {last : Op → Bool} {p : Nat}
    {l r : Expr} {tl tr : List Tok} {o : Op} {b : Bin} (hl : Ch first sub ops last p l tl)
    (hr : Full sub (p + 1) r tr) (ho : ops o = some b) (hp : rank (.op o) = p)
    (ha : last o = false) : Ch first sub ops last p (.bin b l r) (tl ++ .op o :: tr) := by
  intro rest res hs hloop
  rw [List.append_assoc]
  refine hl _ res (fun t r e => ?_) ?_
  · have := (List.cons.inj e).1
    subst this
    omega
  · obtain ⟨N, hN⟩ := hr rest hs
    obtain ⟨K, hK⟩ := hloop
    refine ⟨max N K + 1, fun k n hk hn => ?_⟩
    obtain ⟨m, rfl, hm⟩ := pred hk
    show loop (m + 1) (sub n) ops last l (.op o :: (tr ++ rest)) = _
    unfold loop
    simp only [ho, hN n (by omega), ha, Bool.false_eq_true, if_false]
    exact hK m n (by omega) (by omega)

theorem loop_stop {sub : Parser} {ops : Op → Option Bin} {last : Op → Bool} {p : Nat} {e : Expr}
    {rest : List Tok} (ho : ∀ o b, ops o = some b → rank (.op o) = p) (h : Stop p rest) (k : Nat) :
    loop (k + 1) sub ops last e rest = some (e, rest) := by
  cases rest with
  | nil => rfl
  | cons t ts =>
    cases t with
    | op o =>
      cases hb : ops o with
      | none => simp only [loop, hb]
      | some b =>
        have h1 := ho o b hb
        have h2 := h _ _ rfl
        omega
    | _ => rfl

theorem Ch.full {first sub : Nat → Parser} {ops : Op → Option Bin} {last : Op → Bool} {p : Nat}
    {e : Expr} {ts : List Tok} (ho : ∀ o b, ops o = some b → rank (.op o) = p)
    (h : Ch first sub ops last p e ts) :
    Full (fun n => chainOf n (first n) (sub n) ops last) p e ts := by
  intro rest hs
  obtain ⟨N, hN⟩ := h rest (e, rest) (hs.mono (Nat.le_succ _)) ⟨1, fun k n hk _ => by
    obtain ⟨m, rfl, _⟩ := pred hk
    exact loop_stop ho hs m⟩
  exact ⟨N, fun n hn => hN n n hn hn⟩

/-- The operator after which the loop ends. -/
theorem Ch.fin {first sub : Nat → Parser} {ops : Op → Option Bin} {last : Op → Bool} {p : Nat}
    {l r : Expr} {tl tr : List Tok} {o : Op} {b : Bin} (hl : Ch first sub ops last p l tl)
    (hr : Full sub (p + 1) r tr) (ho : ops o = some b) (hp : rank (.op o) = p)
    (ha : last o = true) :
    Full (fun n => chainOf n (first n) (sub n) ops last) p (.bin b l r) (tl ++ .op o :: tr) := by
  intro rest hs
  rw [List.append_assoc]
  obtain ⟨N, hN⟩ := hr rest (hs.mono (Nat.le_succ _))
  obtain ⟨K, hK⟩ := hl (.op o :: tr ++ rest) (.bin b l r, rest) (fun t r e => by
      have := (List.cons.inj e).1
      subst this
      omega) ⟨N + 1, fun k n hk hn => by
      obtain ⟨m, rfl, hm⟩ := pred hk
      show loop (m + 1) (sub n) ops last l (.op o :: (tr ++ rest)) = _
      unfold loop
      simp only [ho, hN n (by omega), ha, if_true]⟩
  exact ⟨K, fun n hn => hK n n hn hn⟩

/-- The parsers with their limits. -/
def par : Cat → Nat → Parser
  | .prim, n => prim (pExpr n)
  | .una, n => una (pExpr n)
  | .fac, n => fac (pExpr n)
  | .ter, n => ter n (pExpr n)
  | .sim, n => sim n (pExpr n)
  | .shi, n => shi n (pExpr n)
  | .rel, n => rel n (pExpr n)
  | .chn _, n => lg n (pExpr n)
  | .exp, n => pExpr n

/-- What is proved for each category. -/
def Cmp : Cat → Expr → List Tok → Prop
  | .prim, e, ts => Full (par .prim) 7 e ts ∧ (∀ rest o t, ts ++ rest ≠ .op o :: t)
  | .una, e, ts => Full (par .una) 7 e ts
  | .fac, e, ts => Full (par .fac) 6 e ts
  | .ter, e, ts => Ch (par .fac) (par .fac) mulOps (fun _ => false) 5 e ts
  | .sim, e, ts =>
    Ch (fun n => signed n (pExpr n)) (par .ter) addOps (fun _ => false) 4 e ts
  | .shi, e, ts => Ch (par .sim) (par .sim) shiftOps (fun _ => false) 3 e ts
  | .rel, e, ts => Ch (par .shi) (par .shi) relOps (fun _ => false) 2 e ts
  | .chn _, e, ts => Ch (par .rel) (par .rel) logOps logLast 1 e ts
  | .exp, e, ts => Full (par .exp) 1 e ts

theorem rank_lt (t : Tok) : rank t < 7 := by
  cases t with
  | op o => cases o <;> simp [rank]
  | _ => simp [rank]

theorem stop_all (rest : List Tok) : Stop 7 rest := fun t _ _ => rank_lt t

theorem Full.at {q : Nat → Parser} {p p' : Nat} {e : Expr} {ts : List Tok} (h : Full q p e ts)
    (hp : p' ≤ p) : Full q p' e ts := fun rest hs => h rest (hs.mono hp)

theorem mul_rank : ∀ o b, mulOps o = some b → rank (.op o) = 5 := by
  intro o b h; cases o <;> simp_all [mulOps, rank]

theorem add_rank : ∀ o b, addOps o = some b → rank (.op o) = 4 := by
  intro o b h; cases o <;> simp_all [addOps, rank]

theorem shift_rank : ∀ o b, shiftOps o = some b → rank (.op o) = 3 := by
  intro o b h; cases o <;> simp_all [shiftOps, rank]

theorem rel_rank : ∀ o b, relOps o = some b → rank (.op o) = 2 := by
  intro o b h; cases o <;> simp_all [relOps, rank]

theorem log_rank : ∀ o b, logOps o = some b → rank (.op o) = 1 := by
  intro o b h; cases o <;> simp_all [logOps, rank]

theorem ter_full {e : Expr} {ts : List Tok} (h : Cmp .ter e ts) : Full (par .ter) 5 e ts :=
  Ch.full mul_rank h

theorem sim_full {e : Expr} {ts : List Tok} (h : Cmp .sim e ts) : Full (par .sim) 4 e ts :=
  Ch.full add_rank h

theorem shi_full {e : Expr} {ts : List Tok} (h : Cmp .shi e ts) : Full (par .shi) 3 e ts :=
  Ch.full shift_rank h

theorem rel_full {e : Expr} {ts : List Tok} (h : Cmp .rel e ts) : Full (par .rel) 2 e ts :=
  Ch.full rel_rank h

/-- No term begins with a sign, and nothing but an expression with `??`. -/
def Head : Cat → Tok → Prop
  | .prim, t => ∀ o, t ≠ .op o
  | .una, t | .fac, t | .ter, t => t ≠ .op .cconv ∧ ∀ a, t ≠ .op (.add a)
  | .exp, _ => True
  | _, t => t ≠ .op .cconv

theorem heads {c : Cat} {e : Expr} {ts : List Tok} (h : D .nvc c e ts) :
    ∃ t r, ts = t :: r ∧ Head c t := by
  induction h with
  | atom n => exact ⟨_, _, rfl, fun _ h => by cases h⟩
  | paren => exact ⟨_, _, rfl, fun _ h => by cases h⟩
  | unaP _ ih => obtain ⟨t, r, rfl, h⟩ := ih; exact ⟨t, r, rfl, h _, fun _ => h _⟩
  | @unaU u o e ts hu _ ih =>
    refine ⟨_, _, rfl, ?_, ?_⟩
    · intro h; cases h; cases u <;> cases hu
    · intro a h; cases h; cases u <;> cases hu
  | fac _ ih => exact ih
  | pow _ _ ih _ => obtain ⟨t, r, rfl, h⟩ := ih; exact ⟨t, _, rfl, h⟩
  | ter _ ih => exact ih
  | mul o _ _ ih _ => obtain ⟨t, r, rfl, h⟩ := ih; exact ⟨t, _, rfl, h⟩
  | sim _ ih => obtain ⟨t, r, rfl, h⟩ := ih; exact ⟨t, _, rfl, h.1⟩
  | @sign u o e ts hu _ ih =>
    refine ⟨_, _, rfl, ?_⟩
    intro h; cases h; cases u <;> cases hu
  | add o _ _ ih _ => obtain ⟨t, r, rfl, h⟩ := ih; exact ⟨t, _, rfl, h⟩
  | shi _ ih => exact ih
  | shift o _ _ ih _ => obtain ⟨t, r, rfl, h⟩ := ih; exact ⟨t, _, rfl, h⟩
  | rel _ ih => exact ih
  | relop o _ _ ih _ => obtain ⟨t, r, rfl, h⟩ := ih; exact ⟨t, _, rfl, h⟩
  | chn _ ih => exact ih
  | log _ _ _ _ ih _ => obtain ⟨t, r, rfl, h⟩ := ih; exact ⟨t, _, rfl, h⟩
  | exp _ _ ih => obtain ⟨t, r, rfl, h⟩ := ih; exact ⟨t, _, rfl, trivial⟩
  | nand _ _ _ ih _ => obtain ⟨t, r, rfl, h⟩ := ih; exact ⟨t, _, rfl, trivial⟩
  | cconv => exact ⟨_, _, rfl, trivial⟩

theorem stop_other {p : Nat} {t : Tok} {r : List Tok} (h : rank t < p) : Stop p (t :: r) := by
  intro t' r' e
  cases e
  exact h

theorem una_prim {ex : Parser} {t : Tok} {r : List Tok} (h : Head .prim t) :
    una ex (t :: r) = prim ex (t :: r) := by
  cases t with
  | op o => exact absurd rfl (h o)
  | _ => rfl

theorem una_op {ex : Parser} {u : Un} {o : Op} {r : List Tok} (h : unOp u = some o) :
    una ex (.op o :: r) = (prim ex r).map (fun x => (.un u x.1, x.2)) := by
  cases u <;> cases h <;> rfl

theorem signed_ter {n : Nat} {ex : Parser} {t : Tok} {r : List Tok} (h : Head .ter t) :
    signed n ex (t :: r) = ter n ex (t :: r) := by
  cases t with
  | op o =>
    cases o with
    | add a => exact absurd rfl (h.2 a)
    | _ => rfl
  | _ => rfl

theorem signed_op {n : Nat} {ex : Parser} {u : Un} {o : Op} {r : List Tok} (h : signOp u = some o) :
    signed n ex (.op o :: r) = (ter n ex r).map (fun x => (.un u x.1, x.2)) := by
  cases u <;> cases h <;> rfl

theorem expr_lg {n : Nat} {t : Tok} {r : List Tok} (h : t ≠ .op .cconv) :
    pExpr (n + 1) (t :: r) = lg n (pExpr n) (t :: r) := by
  cases t with
  | op o =>
    cases o with
    | cconv => exact absurd rfl h
    | _ => rfl
  | _ => rfl

theorem fac_una {ex : Parser} {ts rest : List Tok} {e : Expr} (h : una ex ts = some (e, rest))
    (hs : Stop 6 rest) : fac ex ts = some (e, rest) := by
  unfold fac
  rw [h]
  split
  · next l t h1 =>
    obtain ⟨rfl, rfl⟩ := Prod.mk.inj (Option.some.inj h1)
    exact absurd (hs _ _ rfl) (by simp [rank])
  · rfl

/-- Every derivation is found. -/
theorem cmp {c : Cat} {e : Expr} {ts : List Tok} (h : D .nvc c e ts) : Cmp c e ts := by
  induction h with
  | atom n => exact ⟨fun rest _ => ⟨0, fun _ _ => rfl⟩, fun _ _ _ h => by cases h⟩
  | @paren e ts _ ih =>
    refine ⟨fun rest _ => ?_, fun _ _ _ h => by cases h⟩
    obtain ⟨N, hN⟩ := ih (.rp :: rest) (stop_other (by simp [rank]))
    refine ⟨N, fun n hn => ?_⟩
    show prim (pExpr n) (.lp :: (ts ++ [.rp]) ++ rest) = _
    have h1 := hN n hn
    simp only [par] at h1
    simp only [List.cons_append, List.append_assoc, List.nil_append, prim, h1]
  | @unaP e ts d ih =>
    intro rest hs
    obtain ⟨N, hN⟩ := ih.1 rest hs
    obtain ⟨t, r, rfl, h⟩ := heads d
    exact ⟨N, fun n hn => (una_prim h).trans (hN n hn)⟩
  | @unaU u o e ts hu d ih =>
    intro rest hs
    obtain ⟨N, hN⟩ := ih.1 rest hs
    refine ⟨N, fun n hn => ?_⟩
    have h1 := hN n hn
    simp only [par] at h1
    show una (pExpr n) (.op o :: (ts ++ rest)) = _
    rw [una_op hu, h1]
    rfl
  | fac _ ih =>
    intro rest hs
    obtain ⟨N, hN⟩ := ih rest (stop_all _)
    exact ⟨N, fun n hn => fac_una (hN n hn) hs⟩
  | @pow l r tl tr _ _ ihl ihr =>
    intro rest hs
    obtain ⟨N, hN⟩ := Full.at ihr.1 (Nat.le_refl _) rest (stop_all _)
    obtain ⟨K, hK⟩ := (show Full (par .una) 7 l tl from ihl) (.op .pow :: (tr ++ rest)) (stop_all _)
    refine ⟨max N K, fun n hn => ?_⟩
    have h1 := hN n (by omega)
    have h2 := hK n (by omega)
    simp only [par] at h1 h2
    show fac (pExpr n) _ = _
    rw [List.append_assoc, List.cons_append]
    unfold fac
    rw [h2]
    show (match prim (pExpr n) (tr ++ rest) with
      | some (r, ts) => some (Expr.bin .pow l r, ts)
      | none => none) = _
    have h3 : prim (pExpr n) (tr ++ rest) = some (r, rest) := h1
    rw [h3]
  | ter _ ih => exact Ch.base ih
  | mul o _ _ ihl ihr => exact Ch.step ihl ihr rfl rfl rfl
  | @sim e ts d ih =>
    apply Ch.base
    intro rest hs
    obtain ⟨N, hN⟩ := ter_full ih rest hs
    obtain ⟨t, r, rfl, h⟩ := heads d
    exact ⟨N, fun n hn => (signed_ter h).trans (hN n hn)⟩
  | @sign u o e ts hu d ih =>
    apply Ch.base
    intro rest hs
    obtain ⟨N, hN⟩ := ter_full ih rest hs
    refine ⟨N, fun n hn => ?_⟩
    have h1 := hN n hn
    simp only [par] at h1
    show signed n (pExpr n) (.op o :: (ts ++ rest)) = _
    rw [signed_op hu, h1]
    rfl
  | add o _ _ ihl ihr => exact Ch.step ihl (ter_full ihr) rfl rfl rfl
  | shi _ ih => exact Ch.base (sim_full ih)
  | shift o _ _ ihl ihr => exact Ch.step ihl (sim_full ihr) rfl rfl rfl
  | rel _ ih => exact Ch.base (shi_full ih)
  | relop o _ _ ihl ihr => exact Ch.step ihl (shi_full ihr) rfl rfl rfl
  | chn _ ih => exact Ch.base (rel_full ih)
  | @log k o l r tl tr ha _ _ _ ihl ihr =>
    exact Ch.step ihl (rel_full ihr) rfl rfl (by rw [last_assoc, ha]; rfl)
  | @exp k e ts _ d ih =>
    intro rest hs
    obtain ⟨N, hN⟩ := Ch.full log_rank ih rest hs
    obtain ⟨t, r, rfl, h⟩ := heads d
    refine ⟨N + 1, fun n hn => ?_⟩
    obtain ⟨m, rfl, hm⟩ := pred hn
    exact (expr_lg h).trans (hN m hm)
  | @nand o l r tl tr ha d _ ihl ihr =>
    intro rest hs
    obtain ⟨N, hN⟩ := Ch.fin (o := .log o) (b := .log o) ihl (rel_full ihr) rfl rfl
      (by rw [last_assoc, ha]; rfl) rest hs
    obtain ⟨t, r, rfl, h⟩ := heads d
    refine ⟨N + 1, fun n hn => ?_⟩
    obtain ⟨m, rfl, hm⟩ := pred hn
    exact (expr_lg h).trans (hN m hm)
  | @cconv e ts _ ih =>
    intro rest hs
    obtain ⟨N, hN⟩ := ih.1 rest (stop_all _)
    refine ⟨N + 1, fun n hn => ?_⟩
    obtain ⟨m, rfl, hm⟩ := pred hn
    have h1 := hN m hm
    simp only [par] at h1
    show pExpr (m + 1) (.op .cconv :: (ts ++ rest)) = _
    unfold pExpr
    simp only [h1, Option.map_some]

/-! ## The property -/

/-- **C90, VHDL**: the parser reads the whole of the tokens exactly if they are
an expression of its grammar, and with that structure. -/
theorem vhdl_parse_iff (ts : List Tok) (e : Expr) :
    (∃ n, pExpr n ts = some (e, [])) ↔ D .nvc .exp e ts := by
  constructor
  · rintro ⟨n, h⟩
    obtain ⟨pre, h1, d⟩ := expr_snd n _ _ _ h
    rw [List.append_nil] at h1
    rwa [h1]
  · intro d
    obtain ⟨N, hN⟩ := cmp d [] (fun _ _ h => by cases h)
    exact ⟨N, by have := hN N (Nat.le_refl _); rwa [List.append_nil] at this⟩

/-- Before other text the parser stops where the expression ends. -/
theorem vhdl_parse_prefix {ts : List Tok} {e : Expr} (d : D .nvc .exp e ts) (rest : List Tok)
    (h : ∀ t r, rest = t :: r → ∀ o, t ≠ .op o) :
    ∃ N, ∀ n, N ≤ n → pExpr n (ts ++ rest) = some (e, rest) :=
  cmp d rest (fun t r e => by
    have h1 := h t r e
    cases t with
    | op o => exact absurd rfl (h1 o)
    | _ => simp [rank])

/-- The structure is unique. -/
theorem vhdl_unambiguous {ts : List Tok} {e e' : Expr} (d : D .nvc .exp e ts)
    (d' : D .nvc .exp e' ts) : e = e' := by
  obtain ⟨N, hN⟩ := cmp d [] (fun _ _ h => by cases h)
  obtain ⟨K, hK⟩ := cmp d' [] (fun _ _ h => by cases h)
  have h1 := hN (max N K) (by omega)
  have h2 := hK (max N K) (by omega)
  rw [h1] at h2
  cases h2
  rfl

/-- The category in the grammar of the parser. -/
def wide : Cat → Cat
  | .chn _ => .chn none
  | c => c

theorem std_nvc {c : Cat} {e : Expr} {ts : List Tok} (h : D .std08 c e ts) :
    D .nvc (wide c) e ts := by
  induction h with
  | atom n => exact .atom n
  | paren _ ih => exact .paren ih
  | unaP _ ih => exact .unaP ih
  | unaU h _ ih => exact .unaU h ih
  | fac _ ih => exact .fac ih
  | pow _ _ ihl ihr => exact .pow (.unaP ihl) ihr
  | ter _ ih => exact .ter ih
  | mul o _ _ ihl ihr => exact .mul o ihl ihr
  | sim _ ih => exact .sim ih
  | sign h _ ih => exact .sign h ih
  | add o _ _ ihl ihr => exact .add o ihl ihr
  | shi _ ih => exact .shi ih
  | shift o _ _ ihl ihr => exact .shift o (.shi ihl) ihr
  | rel _ ih => exact .rel ih
  | relop o _ _ ihl ihr => exact .relop o (.rel ihl) ihr
  | chn _ ih => exact .chn ih
  | log h _ _ _ ihl ihr => exact .log h (.inr rfl) ihl ihr
  | exp _ _ ih => exact .exp rfl ih
  | nand h _ _ ihl ihr => exact .nand h (.chn ihl) ihr
  | cconv _ ih => exact .cconv ih

/-- **C90, VHDL**: every expression of the standard of 2008 is read with the
structure the standard gives it, and with no other. -/
theorem vhdl_standard {ts : List Tok} {e : Expr} (d : D .std08 .exp e ts) (e' : Expr) :
    (∃ n, pExpr n ts = some (e', [])) ↔ e' = e := by
  rw [vhdl_parse_iff]
  constructor
  · exact fun h => vhdl_unambiguous h (std_nvc d)
  · rintro rfl
    exact std_nvc d

/-- The grammar of the standard is not ambiguous. -/
theorem vhdl_standard_unambiguous {ts : List Tok} {e e' : Expr} (d : D .std08 .exp e ts)
    (d' : D .std08 .exp e' ts) : e = e' := vhdl_unambiguous (std_nvc d) (std_nvc d')

/-! ## Printing -/

def unTok : Un → Tok
  | .not => .op .not
  | .abs => .op .abs
  | .log o => .op (.log o)
  | .pos => .op (.add .plus)
  | .neg => .op (.add .minus)
  | .cconv => .op .cconv

def binTok : Bin → Tok
  | .log o => .op (.log o)
  | .rel o => .op (.rel o)
  | .shift o => .op (.shift o)
  | .add o => .op (.add o)
  | .mul o => .op (.mul o)
  | .pow => .op .pow

/-- An operand, in parentheses. -/
def operand : Expr → List Tok
  | .atom n => [.atom n]
  | .un u e => .lp :: ((unTok u :: operand e) ++ [.rp])
  | .bin b l r => .lp :: ((operand l ++ binTok b :: operand r) ++ [.rp])

/-- The text of an expression. -/
def text : Expr → List Tok
  | .atom n => [.atom n]
  | .un u e => unTok u :: operand e
  | .bin b l r => operand l ++ binTok b :: operand r

theorem D.fac {e : Expr} {ts : List Tok} (h : D .std08 .prim e ts) : D .std08 .fac e ts :=
  .fac (.unaP h)

theorem D.ter {e : Expr} {ts : List Tok} (h : D .std08 .prim e ts) : D .std08 .ter e ts :=
  .ter (D.fac h)

theorem D.sim {e : Expr} {ts : List Tok} (h : D .std08 .prim e ts) : D .std08 .sim e ts :=
  .sim (D.ter h)

theorem D.shi {e : Expr} {ts : List Tok} (h : D .std08 .prim e ts) : D .std08 .shi e ts :=
  .shi (D.sim h)

theorem D.rel {e : Expr} {ts : List Tok} (h : D .std08 .prim e ts) : D .std08 .rel e ts :=
  .rel (D.shi h)

theorem D.up {e : Expr} {ts : List Tok} (h : D .std08 .rel e ts) : D .std08 .exp e ts :=
  .exp (k := some .and) (by simp [chain]) (.chn h)

theorem text_un {u : Un} {e : Expr} {ts : List Tok} (h : D .std08 .prim e ts) :
    D .std08 .exp (.un u e) (unTok u :: ts) := by
  cases u with
  | not => exact D.up (.rel (.shi (.sim (.ter (.fac (.unaU rfl h))))))
  | abs => exact D.up (.rel (.shi (.sim (.ter (.fac (.unaU rfl h))))))
  | log o => exact D.up (.rel (.shi (.sim (.ter (.fac (.unaU rfl h))))))
  | pos => exact D.up (.rel (.shi (.sign rfl (D.ter h))))
  | neg => exact D.up (.rel (.shi (.sign rfl (D.ter h))))
  | cconv => exact .cconv h

theorem text_bin {b : Bin} {l r : Expr} {tl tr : List Tok} (hl : D .std08 .prim l tl)
    (hr : D .std08 .prim r tr) : D .std08 .exp (.bin b l r) (tl ++ binTok b :: tr) := by
  cases b with
  | log o =>
    cases ha : assoc o with
    | true =>
      exact .exp (k := some o) (by simp [chain]) (.log ha (.inl rfl) (.chn (D.rel hl)) (D.rel hr))
    | false => exact .nand ha (D.rel hl) (D.rel hr)
  | rel o => exact D.up (.relop o (D.shi hl) (D.shi hr))
  | shift o => exact D.up (.rel (.shift o (D.sim hl) (D.sim hr)))
  | add o => exact D.up (.rel (.shi (.add o (D.sim hl) (D.ter hr))))
  | mul o => exact D.up (.rel (.shi (.sim (.mul o (D.ter hl) (D.fac hr)))))
  | pow => exact D.up (.rel (.shi (.sim (.ter (.pow hl hr)))))

theorem operand_std : ∀ e : Expr, D .std08 .prim e (operand e)
  | .atom n => .atom n
  | .un _ e => .paren (text_un (operand_std e))
  | .bin _ l r => .paren (text_bin (operand_std l) (operand_std r))

theorem text_std : ∀ e : Expr, D .std08 .exp e (text e)
  | .atom n => D.up (D.rel (.atom n))
  | .un _ e => text_un (operand_std e)
  | .bin _ l r => text_bin (operand_std l) (operand_std r)

/-- Every expression can be written, and is read back. -/
theorem vhdl_print_parse (e e' : Expr) : (∃ n, pExpr n (text e) = some (e', [])) ↔ e' = e :=
  vhdl_standard (text_std e) e'

/-! ## What the parser takes beyond the standard, and what it does not take -/

/-- How loose the outermost operator is. -/
def erank : Expr → Nat
  | .atom _ => 9
  | .un .not _ | .un .abs _ | .un (.log _) _ => 8
  | .bin .pow _ _ => 7
  | .bin (.mul _) _ _ => 6
  | .un .pos _ | .un .neg _ | .bin (.add _) _ _ => 5
  | .bin (.shift _) _ _ => 4
  | .bin (.rel _) _ _ => 3
  | .bin (.log _) _ _ => 2
  | .un .cconv _ => 1

def crank : Cat → Nat
  | .prim => 9
  | .una => 8
  | .fac => 7
  | .ter => 6
  | .sim => 5
  | .shi => 4
  | .rel => 3
  | .chn _ => 2
  | .exp => 1

/-- What the standard asks of the operands if there are no parentheses. -/
def Top : Expr → Prop
  | .bin .pow l r => 9 ≤ erank l ∧ 9 ≤ erank r
  | .bin (.shift _) l _ => 5 ≤ erank l
  | .bin (.rel _) l _ => 4 ≤ erank l
  | .bin (.log o) l _ =>
    3 ≤ erank l ∨ (assoc o = true ∧ ∃ l1 l2, l = .bin (.log o) l1 l2)
  | _ => True

theorem flat {c : Cat} {e : Expr} {ts : List Tok} (h : D .std08 c e ts) (hlp : .lp ∉ ts)
    (hc : c ≠ .chn none) : crank c ≤ erank e ∧ Top e ∧
      (∀ k, c = .chn k → 3 ≤ erank e ∨ ∃ o l r, e = .bin (.log o) l r ∧ k = some o) := by
  induction h with
  | atom n => exact ⟨by simp [crank, erank], trivial, fun _ h => by cases h⟩
  | paren => exact absurd (List.mem_cons_self) hlp
  | unaP _ ih =>
    obtain ⟨h1, h2, _⟩ := ih hlp (by simp)
    exact ⟨by simp only [crank] at h1 ⊢; omega, h2, fun _ h => by cases h⟩
  | @unaU u o e ts hu _ ih =>
    refine ⟨?_, ?_, fun _ h => by cases h⟩ <;> cases u <;> simp_all [unOp, crank, erank, Top]
  | fac _ ih =>
    obtain ⟨h1, h2, _⟩ := ih hlp (by simp)
    exact ⟨by simp only [crank] at h1 ⊢; omega, h2, fun _ h => by cases h⟩
  | pow _ _ ihl ihr =>
    simp only [List.mem_append, List.mem_cons, not_or] at hlp
    obtain ⟨h1, _⟩ := ihl hlp.1 (by simp [powL])
    obtain ⟨h2, _⟩ := ihr hlp.2.2 (by simp [powR])
    exact ⟨by simp [crank, erank], ⟨h1, h2⟩, fun _ h => by cases h⟩
  | ter _ ih =>
    obtain ⟨h1, h2, _⟩ := ih hlp (by simp)
    exact ⟨by simp only [crank] at h1 ⊢; omega, h2, fun _ h => by cases h⟩
  | mul => exact ⟨by simp [crank, erank], trivial, fun _ h => by cases h⟩
  | sim _ ih =>
    obtain ⟨h1, h2, _⟩ := ih hlp (by simp)
    exact ⟨by simp only [crank] at h1 ⊢; omega, h2, fun _ h => by cases h⟩
  | @sign u o e ts hu _ ih =>
    refine ⟨?_, ?_, fun _ h => by cases h⟩ <;> cases u <;> simp_all [signOp, crank, erank, Top]
  | add => exact ⟨by simp [crank, erank], trivial, fun _ h => by cases h⟩
  | shi _ ih =>
    obtain ⟨h1, h2, _⟩ := ih hlp (by simp)
    exact ⟨by simp only [crank] at h1 ⊢; omega, h2, fun _ h => by cases h⟩
  | shift o _ _ ihl _ =>
    simp only [List.mem_append, List.mem_cons, not_or] at hlp
    obtain ⟨h1, _⟩ := ihl hlp.1 (by simp [shiftL])
    exact ⟨by simp [crank, erank], h1, fun _ h => by cases h⟩
  | rel _ ih =>
    obtain ⟨h1, h2, _⟩ := ih hlp (by simp)
    exact ⟨by simp only [crank] at h1 ⊢; omega, h2, fun _ h => by cases h⟩
  | relop o _ _ ihl _ =>
    simp only [List.mem_append, List.mem_cons, not_or] at hlp
    obtain ⟨h1, _⟩ := ihl hlp.1 (by simp [relL])
    exact ⟨by simp [crank, erank], h1, fun _ h => by cases h⟩
  | chn _ ih =>
    obtain ⟨h1, h2, _⟩ := ih hlp (by simp)
    exact ⟨by simp only [crank] at h1 ⊢; omega, h2, fun _ _ => .inl h1⟩
  | @log k o l r tl tr ha hk _ _ ihl _ =>
    simp only [List.mem_append, List.mem_cons, not_or] at hlp
    have hk : k = some o := by
      rcases hk with hk | hk
      · exact hk
      · exact absurd (by rw [hk]) hc
    obtain ⟨_, _, h3⟩ := ihl hlp.1 hc
    refine ⟨by simp [crank, erank], ?_, fun k' h => .inr ⟨o, l, r, rfl, by cases h; exact hk⟩⟩
    rcases h3 k rfl with h | ⟨o', l1, l2, rfl, h⟩
    · exact .inl h
    · rw [hk] at h
      cases h
      exact .inr ⟨ha, l1, l2, rfl⟩
  | @exp k e ts hk _ ih =>
    obtain ⟨h1, h2, _⟩ := ih hlp (by intro h; cases h; exact hk rfl)
    exact ⟨by simp only [crank] at h1 ⊢; omega, h2, fun _ h => by cases h⟩
  | nand ha _ _ ihl _ =>
    simp only [List.mem_append, List.mem_cons, not_or] at hlp
    obtain ⟨h1, _⟩ := ihl hlp.1 (by simp [nandL])
    exact ⟨by simp [crank, erank], .inl h1, fun _ h => by cases h⟩
  | cconv => exact ⟨by simp [crank, erank], trivial, fun _ h => by cases h⟩

/-- Without parentheses a structure that breaks the rules of the operands is
not one of the standard. -/
theorem not_std {n : Nat} {ts : List Tok} {e : Expr} (hp : pExpr n ts = some (e, []))
    (hlp : .lp ∉ ts) (ht : ¬ Top e) : ¬ ∃ e', D .std08 .exp e' ts := by
  rintro ⟨e', d⟩
  have h := (vhdl_standard d e).mp ⟨n, hp⟩
  subst h
  exact ht (flat d hlp (by simp)).2.1

/-- `a and b or c` is taken, as `(a and b) or c`; the standard forbids it. -/
theorem vhdl_mixed_counterexample :
    pExpr 4 [.atom 0, .op (.log .and), .atom 1, .op (.log .or), .atom 2] =
      some (.bin (.log .or) (.bin (.log .and) (.atom 0) (.atom 1)) (.atom 2), []) ∧
    ¬ ∃ e, D .std08 .exp e [.atom 0, .op (.log .and), .atom 1, .op (.log .or), .atom 2] := by
  have h : pExpr 4 [.atom 0, .op (.log .and), .atom 1, .op (.log .or), .atom 2] =
      some (.bin (.log .or) (.bin (.log .and) (.atom 0) (.atom 1)) (.atom 2), []) := rfl
  exact ⟨h, not_std h (by decide) (by simp [Top, erank])⟩

/-- `a and b nand c` is taken as well. -/
theorem vhdl_nand_counterexample :
    pExpr 4 [.atom 0, .op (.log .and), .atom 1, .op (.log .nand), .atom 2] =
      some (.bin (.log .nand) (.bin (.log .and) (.atom 0) (.atom 1)) (.atom 2), []) ∧
    ¬ ∃ e, D .std08 .exp e [.atom 0, .op (.log .and), .atom 1, .op (.log .nand), .atom 2] := by
  have h : pExpr 4 [.atom 0, .op (.log .and), .atom 1, .op (.log .nand), .atom 2] =
      some (.bin (.log .nand) (.bin (.log .and) (.atom 0) (.atom 1)) (.atom 2), []) := rfl
  exact ⟨h, not_std h (by decide) (by simp [Top, erank])⟩

/-- `a = b = c` is taken, as `(a = b) = c`. -/
theorem vhdl_relation_counterexample :
    pExpr 4 [.atom 0, .op (.rel .eq), .atom 1, .op (.rel .eq), .atom 2] =
      some (.bin (.rel .eq) (.bin (.rel .eq) (.atom 0) (.atom 1)) (.atom 2), []) ∧
    ¬ ∃ e, D .std08 .exp e [.atom 0, .op (.rel .eq), .atom 1, .op (.rel .eq), .atom 2] := by
  have h : pExpr 4 [.atom 0, .op (.rel .eq), .atom 1, .op (.rel .eq), .atom 2] =
      some (.bin (.rel .eq) (.bin (.rel .eq) (.atom 0) (.atom 1)) (.atom 2), []) := rfl
  exact ⟨h, not_std h (by decide) (by simp [Top, erank])⟩

/-- `a sll b sll c` is taken, as `(a sll b) sll c`. -/
theorem vhdl_shift_counterexample :
    pExpr 4 [.atom 0, .op (.shift .sll), .atom 1, .op (.shift .sll), .atom 2] =
      some (.bin (.shift .sll) (.bin (.shift .sll) (.atom 0) (.atom 1)) (.atom 2), []) ∧
    ¬ ∃ e, D .std08 .exp e [.atom 0, .op (.shift .sll), .atom 1, .op (.shift .sll), .atom 2] := by
  have h : pExpr 4 [.atom 0, .op (.shift .sll), .atom 1, .op (.shift .sll), .atom 2] =
      some (.bin (.shift .sll) (.bin (.shift .sll) (.atom 0) (.atom 1)) (.atom 2), []) := rfl
  exact ⟨h, not_std h (by decide) (by simp [Top, erank])⟩

/-- `abs a ** b` is taken in every version, though only 2019 has it. -/
theorem vhdl_abs_pow_counterexample :
    pExpr 4 [.op .abs, .atom 0, .op .pow, .atom 1] =
      some (.bin .pow (.un .abs (.atom 0)) (.atom 1), []) ∧
    ¬ ∃ e, D .std08 .exp e [.op .abs, .atom 0, .op .pow, .atom 1] := by
  have h : pExpr 4 [.op .abs, .atom 0, .op .pow, .atom 1] =
      some (.bin .pow (.un .abs (.atom 0)) (.atom 1), []) := rfl
  exact ⟨h, not_std h (by decide) (by simp [Top, erank])⟩

/-- `a ** abs b`, of 2019, is a syntax error. -/
theorem vhdl_pow_abs_counterexample :
    D .std19 .exp (.bin .pow (.atom 0) (.un .abs (.atom 1)))
      [.atom 0, .op .pow, .op .abs, .atom 1] ∧
    ∀ n e, pExpr n [.atom 0, .op .pow, .op .abs, .atom 1] ≠ some (e, []) := by
  constructor
  · exact .exp (k := some .and) (by simp [chain]) (.chn (.rel (.shi (.sim (.ter
      (.pow (tl := [.atom 0]) (.unaP (.atom 0)) (.unaU rfl (.atom 1))))))))
  · intro n e h
    cases n with
    | zero => simp [pExpr] at h
    | succ n => cases h

-- `- a + b * c ** d = e and f` of the standard.
example : D .std08 .exp (.bin (.log .and) (.bin (.rel .eq) (.bin (.add .plus)
      (.un .neg (.atom 0)) (.bin (.mul .times) (.atom 1) (.bin .pow (.atom 2) (.atom 3))))
      (.atom 4)) (.atom 5))
    [.op (.add .minus), .atom 0, .op (.add .plus), .atom 1, .op (.mul .times), .atom 2,
      .op .pow, .atom 3, .op (.rel .eq), .atom 4, .op (.log .and), .atom 5] :=
  .exp (k := some .and) (by simp [chain]) (.log (tl := [_, _, _, _, _, _, _, _, _, _]) rfl (.inl rfl)
    (.chn (.relop _ (tl := [_, _, _, _, _, _, _, _]) (.shi (.add _ (tl := [_, _])
      (.sign rfl (D.ter (.atom 0))) (.mul _ (tl := [_]) (D.ter (.atom 1))
        (.pow (tl := [_]) (.atom 2) (.atom 3))))) (D.shi (.atom 4)))) (D.rel (.atom 5)))

-- a sign belongs to the whole term
example : pExpr 5 [.op (.add .minus), .atom 0, .op (.mul .mod), .atom 1] =
    some (.un .neg (.bin (.mul .mod) (.atom 0) (.atom 1)), []) := rfl

-- and `a mod - b` is an error
example : ∀ n, pExpr n [.atom 0, .op (.mul .mod), .op (.add .minus), .atom 1] = none := by
  intro n
  cases n with
  | zero => rfl
  | succ n => cases n <;> rfl

end Verif.Expr.Vhdl
