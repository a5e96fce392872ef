import Verif.Expr.VlogModel

/-
Property C90, Verilog: the parser accepts exactly the expressions of the
grammar and gives them the structure of the grammar.
-/

namespace Verif.Expr.Vlog

open Spec

/-- The binary operators which the parser knows. -/
def known (b : Bin) : Prop := b ≠ .bxor

theorem binOf_some {o : Op} {b : Bin} (h : binOf o = some b) (ts : List Tok) :
    o = binText b ∧ peekBin (.op o :: ts) = some (prec b) ∧ known b := by
  cases o <;> simp only [binOf, Option.some.injEq, reduceCtorEq] at h <;> subst h <;>
    exact ⟨rfl, rfl, by unfold known; decide⟩

theorem binOf_text {b : Bin} (h : known b) (ts : List Tok) :
    binOf (binText b) = some b ∧ peekBin (.op (binText b) :: ts) = some (prec b) := by
  cases b <;> first | exact ⟨rfl, rfl⟩ | exact absurd rfl h

theorem unOf_some {o : Op} {u : Un} (h : unOf o = some u) : o = unText u := by
  cases o <;> simp only [unOf, Option.some.injEq, reduceCtorEq] at h <;> subst h <;> rfl

theorem unOf_text (u : Un) : unOf (unText u) = some u := by cases u <;> rfl

theorem prec_pos (b : Bin) : 2 ≤ prec b ∧ prec b ≤ 11 := by cases b <;> decide

theorem Spec.D.lower {ok : Bin → Prop} {q p : Nat} {e : Expr} {ts : List Tok} (h : D ok q e ts)
    (hp : p ≤ q) (h1 : 1 ≤ p) : D ok p e ts := by
  obtain ⟨k, rfl⟩ := Nat.exists_eq_add_of_le hp
  induction k with
  | zero => exact h
  | succ k ih =>
    exact ih (.lift (by omega) h) (by omega)

theorem eat_some {t : Tok} {ts r : List Tok} (h : eat t ts = some r) : ts = t :: r := by
  unfold eat at h
  split at h
  · split at h
    · next e => subst e; rw [Option.some.inj h]
    · cases h
  · cases h

/-! ## Soundness -/

structure Sound (n : Nat) : Prop where
  ex : ∀ ts e rest, pExpr n ts = some (e, rest) →
    ∃ pre, ts = pre ++ rest ∧ D known 1 e pre ∧ peekBin rest = none
  non : ∀ ts e rest, pNon n ts = some (e, rest) → ∃ pre, ts = pre ++ rest ∧ D known 12 e pre
  prim : ∀ ts e rest, pPrim n ts = some (e, rest) → ∃ pre, ts = pre ++ rest ∧ D known 13 e pre
  list : ∀ e ts es rest, pList n e ts = some (es, rest) →
    ∃ mid, ts = mid ++ rest ∧ ∀ te, D known 1 e te → Ds known es (te ++ mid)
  bin : ∀ lhs min ts e rest q tl, pBin n lhs min ts = some (e, rest) → D known q lhs tl →
    (∀ p, peekBin ts = some p → p ≤ q ∧ 2 ≤ q) → min ≤ q → 1 ≤ q → (min = 0 ∨ 2 ≤ min) →
    ∃ mid, ts = mid ++ rest ∧ D known (max min 1) e (tl ++ mid) ∧
      ∀ p, peekBin rest = some p → p < min
  inner : ∀ rhs p1 ts e rest q tl, pInner n rhs p1 ts = some (e, rest) → D known q rhs tl →
    (∀ p, peekBin ts = some p → p ≤ q ∧ 2 ≤ q) → p1 + 1 ≤ q → 2 ≤ p1 →
    ∃ mid, ts = mid ++ rest ∧ D known (p1 + 1) e (tl ++ mid) ∧
      ∀ p, peekBin rest = some p → p ≤ p1

theorem sound_ex {n : Nat} (ih : Sound n) (ts : List Tok) (e : Expr) (rest : List Tok)
    (h : pExpr (n + 1) ts = some (e, rest)) :
    ∃ pre, ts = pre ++ rest ∧ D known 1 e pre ∧ peekBin rest = none := by
  unfold pExpr at h
  split at h
  · next e1 t1 h1 =>
    obtain ⟨pre, rfl, d⟩ := ih.non _ _ _ h1
    have hle : ∀ p, peekBin t1 = some p → p ≤ 12 ∧ 2 ≤ 12 := by
      intro p hp
      refine ⟨?_, by decide⟩
      unfold peekBin at hp
      split at hp
      · split at hp <;> simp at hp <;> omega
      · simp at hp; omega
      · cases hp
    obtain ⟨mid, rfl, d2, hr⟩ := ih.bin _ _ _ _ _ 12 pre h d hle (Nat.zero_le _) (by decide) (.inl rfl)
    refine ⟨pre ++ mid, by rw [List.append_assoc], d2, ?_⟩
    cases hp : peekBin rest with
    | none => rfl
    | some p => exact absurd (hr p hp) (Nat.not_lt_zero _)
  · cases h

theorem sound_non {n : Nat} (ih : Sound n) (ts : List Tok) (e : Expr) (rest : List Tok)
    (h : pNon (n + 1) ts = some (e, rest)) : ∃ pre, ts = pre ++ rest ∧ D known 12 e pre := by
  unfold pNon at h
  split at h
  · cases h
  · next n' o t e1 =>
    obtain rfl := Nat.succ.inj e1
    split at h
    · next u hu =>
      split at h
      · next e2 t2 h2 =>
        obtain ⟨rfl, rfl⟩ := Prod.mk.inj (Option.some.inj h)
        obtain ⟨pre, rfl, d⟩ := ih.prim _ _ _ h2
        rw [unOf_some hu]
        exact ⟨.op (unText u) :: pre, rfl, .un u d⟩
      · cases h
    · cases h
  · next n' _ e1 _ =>
    obtain rfl := Nat.succ.inj e1
    obtain ⟨pre, rfl, d⟩ := ih.prim _ _ _ h
    exact ⟨pre, rfl, .lift (by decide) d⟩

theorem sound_list {n : Nat} (ih : Sound n) (e : Expr) (ts : List Tok) (es : Exprs)
    (rest : List Tok) (h : pList (n + 1) e ts = some (es, rest)) :
    ∃ mid, ts = mid ++ rest ∧ ∀ te, D known 1 e te → Ds known es (te ++ mid) := by
  unfold pList at h
  split at h
  · cases h
  · next n' t e1 =>
    obtain rfl := Nat.succ.inj e1
    split at h
    · next e2 t2 h2 =>
      split at h
      · next es2 t3 h3 =>
        obtain ⟨rfl, rfl⟩ := Prod.mk.inj (Option.some.inj h)
        obtain ⟨pre, rfl, d, _⟩ := ih.ex _ _ _ h2
        obtain ⟨mid, rfl, k⟩ := ih.list _ _ _ _ h3
        refine ⟨.comma :: (pre ++ mid), by simp, fun te dt => .cons dt (k pre d)⟩
      · cases h
    · cases h
  · obtain ⟨rfl, rfl⟩ := Prod.mk.inj (Option.some.inj h)
    exact ⟨[], rfl, fun te d => by rw [List.append_nil]; exact .one d⟩

theorem sound_prim {n : Nat} (ih : Sound n) (ts : List Tok) (e : Expr) (rest : List Tok)
    (h : pPrim (n + 1) ts = some (e, rest)) : ∃ pre, ts = pre ++ rest ∧ D known 13 e pre := by
  unfold pPrim at h
  split at h
  · cases h
  · obtain ⟨rfl, rfl⟩ := Prod.mk.inj (Option.some.inj h)
    exact ⟨[_], rfl, .atom _⟩
  · next n' t e1 =>
    obtain rfl := Nat.succ.inj e1
    split at h
    · next e2 t2 h2 =>
      split at h
      · next t3 h3 =>
        obtain ⟨rfl, rfl⟩ := Prod.mk.inj (Option.some.inj h)
        obtain ⟨pre, rfl, d, _⟩ := ih.ex _ _ _ h2
        rw [eat_some h3]
        exact ⟨.lp :: (pre ++ [.rp]), by simp, .paren d⟩
      · cases h
    · cases h
  · next n' t e1 =>
    obtain rfl := Nat.succ.inj e1
    split at h
    · next e2 t2 h2 =>
      obtain ⟨pn, rfl, dn, _⟩ := ih.ex _ _ _ h2
      split at h
      · next e3 t3 h3 =>
        obtain ⟨p3, rfl, d3, _⟩ := ih.ex _ _ _ h3
        split at h
        · next es t4 h4 =>
          obtain ⟨mid, rfl, k⟩ := ih.list _ _ _ _ h4
          split at h
          · next t5 h5 =>
            split at h
            · next t6 h6 =>
              obtain ⟨rfl, rfl⟩ := Prod.mk.inj (Option.some.inj h)
              rw [eat_some h5, eat_some h6]
              exact ⟨.lb :: (pn ++ .lb :: ((p3 ++ mid) ++ [.rb, .rb])), by simp,
                .repl dn (k p3 d3)⟩
            · cases h
          · cases h
        · cases h
      · cases h
    · next e2 t2 _ h2 =>
      obtain ⟨pn, rfl, dn, _⟩ := ih.ex _ _ _ h2
      split at h
      · next es t4 h4 =>
        obtain ⟨mid, rfl, k⟩ := ih.list _ _ _ _ h4
        split at h
        · next t5 h5 =>
          obtain ⟨rfl, rfl⟩ := Prod.mk.inj (Option.some.inj h)
          rw [eat_some h5]
          exact ⟨.lb :: ((pn ++ mid) ++ [.rb]), by simp, .concat (k pn dn)⟩
        · cases h
      · cases h
    · cases h
  · cases h

theorem sound_bin {n : Nat} (ih : Sound n) (lhs : Expr) (min : Nat) (ts : List Tok) (e : Expr)
    (rest : List Tok) (q : Nat) (tl : List Tok) (h : pBin (n + 1) lhs min ts = some (e, rest))
    (d : D known q lhs tl) (hq : ∀ p, peekBin ts = some p → p ≤ q ∧ 2 ≤ q) (hm : min ≤ q)
    (h1 : 1 ≤ q) (hz : min = 0 ∨ 2 ≤ min) :
    ∃ mid, ts = mid ++ rest ∧ D known (max min 1) e (tl ++ mid) ∧
      ∀ p, peekBin rest = some p → p < min := by
  unfold pBin at h
  split at h
  · next hp =>
    obtain ⟨rfl, rfl⟩ := Prod.mk.inj (Option.some.inj h)
    exact ⟨[], rfl, by rw [List.append_nil]; exact d.lower (by omega) (by omega),
      fun p hp' => by rw [hp] at hp'; cases hp'⟩
  · next prec1 hp =>
    obtain ⟨hq1, hq2⟩ := hq _ hp
    split at h
    · next hge =>
      split at h
      · next t =>
        have : prec1 = 1 := by simp [peekBin] at hp; omega
        subst this
        split at h
        · next a t2 h2 =>
          obtain ⟨pa, rfl, da, _⟩ := ih.ex _ _ _ h2
          split at h
          · next t3 h3 =>
            split at h
            · next b t4 h4 =>
              obtain ⟨pb, rfl, db, hn⟩ := ih.ex _ _ _ h4
              have hmin : min = 0 := by omega
              subst hmin
              have dc : D known 1 (.cond lhs a b) (tl ++ .question :: (pa ++ .colon :: pb)) :=
                .cond (d.lower hq2 (by decide)) da db
              obtain ⟨mid, rfl, d2, hr⟩ := ih.bin _ _ _ _ _ 1 _ h dc
                (fun p hp' => by rw [hn] at hp'; cases hp') (Nat.zero_le _) (by decide) (.inl rfl)
              rw [eat_some h3]
              refine ⟨.question :: (pa ++ .colon :: (pb ++ mid)), by simp, ?_, hr⟩
              simpa using d2
            · cases h
          · cases h
        · cases h
      · next o t =>
        split at h
        · next b hb =>
          obtain ⟨rfl, hpb, kb⟩ := binOf_some hb t
          rw [hp] at hpb
          obtain rfl := Option.some.inj hpb
          obtain ⟨hp2, hp11⟩ := prec_pos b
          split at h
          · next r t2 h2 =>
            obtain ⟨pr, rfl, dr⟩ := ih.non _ _ _ h2
            split at h
            · next r3 t3 h3 =>
              have hle : ∀ p, peekBin t2 = some p → p ≤ 12 ∧ 2 ≤ 12 := by
                intro p hp
                refine ⟨?_, by decide⟩
                unfold peekBin at hp
                split at hp
                · split at hp <;> simp at hp <;> omega
                · simp at hp; omega
                · cases hp
              obtain ⟨mi, rfl, d3, hr3⟩ := ih.inner _ _ _ _ _ 12 pr h3 dr hle (by omega) hp2
              have db := D.bin b kb (d.lower hq1 (by omega)) d3
              obtain ⟨mid, rfl, d4, hr⟩ := ih.bin _ _ _ _ _ _ _ h db
                (fun p hp' => ⟨hr3 p hp', hp2⟩) hge (by omega) hz
              refine ⟨.op (binText b) :: (pr ++ (mi ++ mid)), by simp, ?_, hr⟩
              simpa using d4
            · cases h
          · cases h
        · cases h
      · cases h
    · next hlt =>
      obtain ⟨rfl, rfl⟩ := Prod.mk.inj (Option.some.inj h)
      refine ⟨[], rfl, by rw [List.append_nil]; exact d.lower (by omega) (by omega),
        fun p hp' => ?_⟩
      rw [hp] at hp'
      obtain rfl := Option.some.inj hp'
      omega

theorem sound_inner {n : Nat} (ih : Sound n) (rhs : Expr) (p1 : Nat) (ts : List Tok) (e : Expr)
    (rest : List Tok) (q : Nat) (tl : List Tok) (h : pInner (n + 1) rhs p1 ts = some (e, rest))
    (d : D known q rhs tl) (hq : ∀ p, peekBin ts = some p → p ≤ q ∧ 2 ≤ q) (hm : p1 + 1 ≤ q)
    (h2 : 2 ≤ p1) :
    ∃ mid, ts = mid ++ rest ∧ D known (p1 + 1) e (tl ++ mid) ∧
      ∀ p, peekBin rest = some p → p ≤ p1 := by
  unfold pInner at h
  split at h
  · next hp =>
    obtain ⟨rfl, rfl⟩ := Prod.mk.inj (Option.some.inj h)
    exact ⟨[], rfl, by rw [List.append_nil]; exact d.lower hm (by omega),
      fun p hp' => by rw [hp] at hp'; cases hp'⟩
  · next prec2 hp =>
    split at h
    · next hgt =>
      split at h
      · next r t2 hb =>
        obtain ⟨mid, rfl, d2, hr⟩ := ih.bin _ _ _ _ _ q tl hb d hq hm (by omega) (.inr (by omega))
        have d2 : D known (p1 + 1) r (tl ++ mid) := d2.lower (by omega) (by omega)
        obtain ⟨mid2, rfl, d3, hr3⟩ := ih.inner _ _ _ _ _ (p1 + 1) _ h d2
          (fun p hp' => ⟨Nat.le_of_lt (hr p hp'), by omega⟩) (Nat.le_refl _) h2
        exact ⟨mid ++ mid2, by simp, by rw [← List.append_assoc]; exact d3, hr3⟩
      · cases h
    · next hle =>
      obtain ⟨rfl, rfl⟩ := Prod.mk.inj (Option.some.inj h)
      refine ⟨[], rfl, by rw [List.append_nil]; exact d.lower hm (by omega), fun p hp' => ?_⟩
      rw [hp] at hp'
      obtain rfl := Option.some.inj hp'
      omega

theorem sound_all (n : Nat) : Sound n := by
  induction n with
  | zero =>
    exact ⟨fun _ _ _ h => by simp [pExpr] at h, fun _ _ _ h => by simp [pNon] at h,
      fun _ _ _ h => by simp [pPrim] at h, fun _ _ _ _ h => by simp [pList] at h,
      fun _ _ _ _ _ _ _ h => by simp [pBin] at h, fun _ _ _ _ _ _ _ h => by simp [pInner] at h⟩
  | succ n ih =>
    exact ⟨sound_ex ih, sound_non ih, sound_prim ih, sound_list ih, sound_bin ih, sound_inner ih⟩

/-! ## Completeness -/

def EvE (ts : List Tok) (r : Expr × List Tok) : Prop := ∃ N, ∀ n, N ≤ n → pExpr n ts = some r
def EvN (ts : List Tok) (r : Expr × List Tok) : Prop := ∃ N, ∀ n, N ≤ n → pNon n ts = some r
def EvP (ts : List Tok) (r : Expr × List Tok) : Prop := ∃ N, ∀ n, N ≤ n → pPrim n ts = some r
def EvB (e : Expr) (min : Nat) (ts : List Tok) (r : Expr × List Tok) : Prop :=
  ∃ N, ∀ n, N ≤ n → pBin n e min ts = some r
def EvNB (min : Nat) (ts : List Tok) (r : Expr × List Tok) : Prop :=
  ∃ N, ∀ n, N ≤ n → ∃ x t, pNon n ts = some (x, t) ∧ ∀ k, N ≤ k → pBin k x min t = some r

/-- A rest at which an expression of the level ends. -/
def Stop (p : Nat) (rest : List Tok) : Prop := ∀ q, peekBin rest = some q → q ≤ p ∧ 2 ≤ p

structure Comp (p : Nat) (e : Expr) (ts : List Tok) : Prop where
  prim : p = 13 → ∀ rest, EvP (ts ++ rest) (e, rest)
  non : 12 ≤ p → ∀ rest, EvN (ts ++ rest) (e, rest)
  bin : ∀ rest min r, min ≤ p → Stop p rest → EvB e min rest r → EvNB min (ts ++ rest) r

theorem bin_stop {e : Expr} {min : Nat} {rest : List Tok}
    (h : ∀ q, peekBin rest = some q → q < min) : EvB e min rest (e, rest) := by
  refine ⟨1, fun n hn => ?_⟩
  obtain ⟨m, rfl⟩ : ∃ m, n = m + 1 := ⟨n - 1, by omega⟩
  unfold pBin
  cases hp : peekBin rest with
  | none => rfl
  | some q =>
    have := h q hp
    simp only
    rw [if_neg (by omega)]

theorem Comp.expr {p : Nat} {e : Expr} {ts : List Tok} (h : Comp p e ts) (rest : List Tok)
    (hr : peekBin rest = none) : EvE (ts ++ rest) (e, rest) := by
  obtain ⟨N, hN⟩ := h.bin rest 0 (e, rest) (Nat.zero_le _)
    (fun q hq => by rw [hr] at hq; cases hq)
    (bin_stop fun q hq => by rw [hr] at hq; cases hq)
  refine ⟨N + 1, fun n hn => ?_⟩
  obtain ⟨m, rfl⟩ : ∃ m, n = m + 1 := ⟨n - 1, by omega⟩
  obtain ⟨x, t, h1, h2⟩ := hN m (by omega)
  unfold pExpr
  simp only [h1]
  exact h2 m (by omega)

theorem nb_of_non {e : Expr} {ts rest : List Tok} {min : Nat} {r : Expr × List Tok}
    (h : EvN ts (e, rest)) (hb : EvB e min rest r) : EvNB min ts r := by
  obtain ⟨N, hN⟩ := h
  obtain ⟨K, hK⟩ := hb
  exact ⟨max N K, fun n hn => ⟨e, rest, hN n (by omega), fun k hk => hK k (by omega)⟩⟩

theorem non_of_prim {e : Expr} {ts rest : List Tok} (hne : ∀ o t, ts ≠ .op o :: t)
    (h : EvP ts (e, rest)) : EvN ts (e, rest) := by
  obtain ⟨N, hN⟩ := h
  refine ⟨N + 1, fun n hn => ?_⟩
  obtain ⟨m, rfl⟩ : ∃ m, n = m + 1 := ⟨n - 1, by omega⟩
  unfold pNon
  split
  · next e1 => cases e1
  · exact absurd rfl (hne _ _)
  · next n' _ e1 _ =>
    obtain rfl := Nat.succ.inj e1
    exact hN _ (by omega)

theorem comp_prim {e : Expr} {ts : List Tok} (hne : ∀ rest o t, ts ++ rest ≠ .op o :: t)
    (h : ∀ rest, EvP (ts ++ rest) (e, rest)) : Comp 13 e ts :=
  ⟨fun _ => h, fun _ rest => non_of_prim (hne rest) (h rest),
   fun rest _ _ _ _ hb => nb_of_non (non_of_prim (hne rest) (h rest)) hb⟩

/-- The loop inside of `p_binary_expression` reads one operand. -/
theorem inner_run {p : Nat} {e : Expr} {ts : List Tok} (h : Comp (p + 1) e ts)
    (rest : List Tok) (hr : ∀ q, peekBin rest = some q → q ≤ p) (hp : 1 ≤ p) :
    ∃ N, ∀ n, N ≤ n → ∃ x t, pNon n (ts ++ rest) = some (x, t) ∧
      ∀ k, N ≤ k → pInner k x p t = some (e, rest) := by
  obtain ⟨N, hN⟩ := h.bin rest (p + 1) (e, rest) (Nat.le_refl _)
    (fun q hq => ⟨Nat.le_succ_of_le (hr q hq), by omega⟩)
    (bin_stop fun q hq => Nat.lt_succ_of_le (hr q hq))
  refine ⟨N + 2, fun n hn => ?_⟩
  obtain ⟨x, t, h1, h2⟩ := hN n (by omega)
  refine ⟨x, t, h1, fun k hk => ?_⟩
  obtain ⟨m, rfl⟩ : ∃ m, k = m + 2 := ⟨k - 2, by omega⟩
  have hs : ∀ m, pInner (m + 1) e p rest = some (e, rest) := by
    intro m
    unfold pInner
    cases hq : peekBin rest with
    | none => rfl
    | some q =>
      have := hr q hq
      simp only
      rw [if_neg (by omega)]
  unfold pInner
  cases hq : peekBin t with
  | none =>
    have h3 := h2 (m + 1) (by omega)
    unfold pBin at h3
    rw [hq] at h3
    exact h3
  | some q =>
    simp only
    by_cases hgt : q > p
    · rw [if_pos hgt, if_pos hgt, h2 (m + 1) (by omega)]
      exact hs m
    · rw [if_neg hgt]
      have h3 := h2 (m + 1) (by omega)
      unfold pBin at h3
      rw [hq] at h3
      simp only at h3
      rw [if_neg (by omega)] at h3
      exact h3

theorem eat_same (t : Tok) (r : List Tok) : eat t (t :: r) = some r := by
  simp [eat]

def EvL (e : Expr) (ts : List Tok) (r : Exprs × List Tok) : Prop :=
  ∃ N, ∀ n, N ≤ n → pList n e ts = some r

/-- A list: its first expression and the rest. -/
def CompL (es : Exprs) (ts : List Tok) : Prop :=
  ∀ rest, (∀ t, rest ≠ .comma :: t) → peekBin rest = none →
    ∃ e mid, EvE (ts ++ rest) (e, mid) ∧ EvL e mid (es, rest) ∧ peekBin mid = none ∧
      ∀ t, mid = .lb :: t → rest = .lb :: t

theorem pred {n N : Nat} (h : N + 1 ≤ n) : ∃ m, n = m + 1 ∧ N ≤ m := ⟨n - 1, by omega, by omega⟩

/-- There is no level above that of primaries. -/
theorem D_le {ok : Bin → Prop} : ∀ {p : Nat} {e : Expr} {ts : List Tok}, D ok p e ts → p ≤ 13
  | _, _, _, .atom _ => by decide
  | _, _, _, .paren _ => by decide
  | _, _, _, .concat _ => by decide
  | _, _, _, .repl _ _ => by decide
  | _, _, _, .un _ _ => by decide
  | _, _, _, .bin b _ _ _ => by have := prec_pos b; omega
  | _, _, _, .cond _ _ _ => by decide
  | _, _, _, .lift _ d => by have := D_le d; omega

mutual
theorem comp : ∀ {p : Nat} {e : Expr} {ts : List Tok}, D known p e ts → Comp p e ts
  | _, _, _, .atom n => comp_prim (fun _ _ _ h => by cases h) (fun rest => ⟨1, fun k hk => by
      obtain ⟨m, rfl, _⟩ := pred hk
      rfl⟩)
  | _, _, _, .paren (e := e) (ts := ts) d => by
    have c := comp d
    refine comp_prim (fun _ _ _ h => by cases h) (fun rest => ?_)
    obtain ⟨N, hN⟩ := c.expr (.rp :: rest) rfl
    refine ⟨N + 1, fun k hk => ?_⟩
    obtain ⟨m, rfl, hm⟩ := pred hk
    show pPrim (m + 1) (.lp :: (ts ++ [.rp] ++ rest)) = _
    rw [List.append_assoc]
    unfold pPrim
    simp only [List.singleton_append, hN m hm, eat_same]
  | _, _, _, .concat (es := es) (ts := ts) d => by
    have c := compL d
    refine comp_prim (fun _ _ _ h => by cases h) (fun rest => ?_)
    obtain ⟨e, mid, ⟨N, hN⟩, ⟨K, hK⟩, _, hlb⟩ := c (.rb :: rest) (fun _ h => by cases h) rfl
    refine ⟨max N K + 1, fun k hk => ?_⟩
    obtain ⟨m, rfl, hm⟩ := pred hk
    show pPrim (m + 1) (.lb :: (ts ++ [.rb] ++ rest)) = _
    rw [List.append_assoc]
    unfold pPrim
    simp only [List.singleton_append, hN m (by omega)]
    split
    · next h1 =>
      obtain ⟨rfl, rfl⟩ := Prod.mk.inj (Option.some.inj h1)
      cases hlb _ rfl
    · next h1 =>
      obtain ⟨rfl, rfl⟩ := Prod.mk.inj (Option.some.inj h1)
      simp only [hK m (by omega), eat_same]
    · next h1 => cases h1
  | _, _, _, .repl (n := x) (tn := tn) (es := es) (ts := ts) dn d => by
    have cn := comp dn
    have c := compL d
    refine comp_prim (fun _ _ _ h => by cases h) (fun rest => ?_)
    obtain ⟨e, mid, ⟨N, hN⟩, ⟨K, hK⟩, _, _⟩ := c (.rb :: .rb :: rest) (fun _ h => by cases h) rfl
    obtain ⟨J, hJ⟩ := cn.expr (.lb :: (ts ++ .rb :: .rb :: rest)) rfl
    refine ⟨max J (max N K) + 1, fun k hk => ?_⟩
    obtain ⟨m, rfl, hm⟩ := pred hk
    have e1 : (Tok.lb :: (tn ++ .lb :: (ts ++ [.rb, .rb]))) ++ rest =
        .lb :: (tn ++ .lb :: (ts ++ .rb :: .rb :: rest)) := by simp
    rw [e1]
    unfold pPrim
    simp only [hJ m (by omega), hN m (by omega), hK m (by omega), eat_same]
  | _, _, _, .un u (e := e) (ts := ts) d => by
    have c := comp d
    have hn : ∀ rest, EvN (.op (unText u) :: ts ++ rest) (.un u e, rest) := by
      intro rest
      obtain ⟨N, hN⟩ := c.prim rfl rest
      refine ⟨N + 1, fun k hk => ?_⟩
      obtain ⟨m, rfl, hm⟩ := pred hk
      show pNon (m + 1) (.op (unText u) :: (ts ++ rest)) = _
      unfold pNon
      simp only [unOf_text, hN m hm]
    exact ⟨(fun h => by cases h), fun _ => hn, fun rest _ _ _ _ hb => nb_of_non (hn rest) hb⟩
  | _, _, _, .bin b (l := l) (r := r) (tl := tl) (tr := tr) kb dl dr => by
    have cl := comp dl
    have cr := comp dr
    obtain ⟨hp2, hp11⟩ := prec_pos b
    refine ⟨fun h => by omega, fun h => by omega, fun rest min res hm hs hb => ?_⟩
    rw [List.append_assoc]
    obtain ⟨b1, b2⟩ := binOf_text kb (tr ++ rest)
    refine cl.bin (.op (binText b) :: tr ++ rest) min res hm (fun q hq => ?_) ?_
    · rw [show (Tok.op (binText b) :: tr ++ rest) = .op (binText b) :: (tr ++ rest) from rfl,
        b2] at hq
      obtain rfl := Option.some.inj hq
      exact ⟨Nat.le_refl _, hp2⟩
    · obtain ⟨N, hN⟩ := inner_run cr rest (fun q hq => (hs q hq).1) (by omega)
      obtain ⟨K, hK⟩ := hb
      refine ⟨max N K + 1, fun k hk => ?_⟩
      obtain ⟨m, rfl, hm'⟩ := pred hk
      obtain ⟨x, t, h1, h2⟩ := hN m (by omega)
      show pBin (m + 1) l min (.op (binText b) :: (tr ++ rest)) = _
      unfold pBin
      simp only [b2]
      rw [if_pos hm]
      simp only [b1, h1, h2 m (by omega)]
      exact hK m (by omega)
  | _, _, _, .cond (c := c) (a := a) (b := b) (tc := tc) (ta := ta) (tb := tb) dc da db => by
    have cc := comp dc
    have ca := comp da
    have cb := comp db
    refine ⟨fun h => by omega, fun h => by omega, fun rest min res hm hs hb => ?_⟩
    have hrest : peekBin rest = none := by
      cases hq : peekBin rest with
      | none => rfl
      | some q => have := hs q hq; omega
    rw [List.append_assoc]
    refine cc.bin _ min res (by omega) (fun q hq => ?_) ?_
    · have hq : some 1 = some q := hq
      obtain rfl := Option.some.inj hq
      exact ⟨by decide, by decide⟩
    · obtain ⟨N, hN⟩ := ca.expr (.colon :: (tb ++ rest)) rfl
      obtain ⟨J, hJ⟩ := cb.expr rest hrest
      obtain ⟨K, hK⟩ := hb
      refine ⟨max J (max N K) + 1, fun k hk => ?_⟩
      obtain ⟨m, rfl, hm'⟩ := pred hk
      have e1 : (Tok.question :: (ta ++ .colon :: tb)) ++ rest =
          .question :: (ta ++ .colon :: (tb ++ rest)) := by simp
      rw [e1]
      unfold pBin
      simp only [peekBin]
      rw [if_pos hm]
      simp only [hN m (by omega), eat_same, hJ m (by omega)]
      exact hK m (by omega)
  | p, e, ts, .lift h1 d => by
    have c := comp d
    refine ⟨fun h => by
      have := D_le d
      omega, fun h => ?_, fun rest min r hm hs hb =>
        c.bin rest min r (by omega) (fun q hq => ⟨by have := (hs q hq).1; omega, by omega⟩) hb⟩
    exact c.non (by omega)
theorem compL : ∀ {es : Exprs} {ts : List Tok}, Ds known es ts → CompL es ts
  | _, _, .one (e := e) d => by
    have c := comp d
    intro rest hr hp
    refine ⟨e, rest, c.expr rest hp, ⟨1, fun k hk => ?_⟩, hp, fun t h => h⟩
    obtain ⟨m, rfl, _⟩ := pred hk
    unfold pList
    split
    · next h => cases h
    · exact absurd rfl (hr _)
    · rfl
  | _, _, .cons (e := e) (es := es) (te := te) (ts := ts) d ds => by
    have c := comp d
    have cs := compL ds
    intro rest hr hp
    rw [List.append_assoc]
    obtain ⟨e2, mid, ⟨N, hN⟩, ⟨K, hK⟩, _, _⟩ := cs rest hr hp
    refine ⟨e, .comma :: (ts ++ rest), c.expr _ rfl, ⟨max N K + 1, fun k hk => ?_⟩, rfl,
      fun t h => by cases h⟩
    obtain ⟨m, rfl, hm⟩ := pred hk
    unfold pList
    simp only [hN m (by omega), hK m (by omega)]
end

/-! ## Theorems -/

/-- The parser reads an expression and leaves a rest exactly if the tokens before
the rest are an expression of the grammar and the rest does not go on with an
operator; the structure is that of the grammar. -/
theorem vlog_parse_iff (ts : List Tok) (e : Expr) (rest : List Tok) :
    (∃ n, pExpr n ts = some (e, rest)) ↔
      ∃ pre, ts = pre ++ rest ∧ D known 1 e pre ∧ peekBin rest = none := by
  constructor
  · rintro ⟨n, h⟩
    exact (sound_all n).ex _ _ _ h
  · rintro ⟨pre, rfl, d, hr⟩
    obtain ⟨N, hN⟩ := (comp d).expr rest hr
    exact ⟨N, hN N (Nat.le_refl _)⟩

/-- The result does not depend on the limit, once there is one. -/
theorem vlog_parse_det {n m : Nat} {ts : List Tok} {r r' : Expr × List Tok}
    (h : pExpr n ts = some r) (h' : pExpr m ts = some r') : r = r' := by
  obtain ⟨e, rest⟩ := r
  obtain ⟨e', rest'⟩ := r'
  have key : ∀ {k : Nat} {a : Expr} {t : List Tok}, pExpr k ts = some (a, t) → EvE ts (a, t) := by
    intro k a t hk
    obtain ⟨pre, rfl, d, hr⟩ := (sound_all k).ex _ _ _ hk
    exact (comp d).expr t hr
  obtain ⟨N, hN⟩ := key h
  obtain ⟨K, hK⟩ := key h'
  have h1 := hN (max N K) (by omega)
  rw [hK (max N K) (by omega)] at h1
  exact (Option.some.inj h1).symm

/-- No text has two structures. -/
theorem vlog_unambiguous {e e' : Expr} {ts : List Tok} (d : D known 1 e ts)
    (d' : D known 1 e' ts) : e = e' := by
  obtain ⟨n, h⟩ := (vlog_parse_iff ts e []).mpr ⟨ts, by simp, d, rfl⟩
  obtain ⟨m, h'⟩ := (vlog_parse_iff ts e' []).mpr ⟨ts, by simp, d', rfl⟩
  exact congrArg Prod.fst (vlog_parse_det h h')

/-! ## Printing with few parentheses -/

/-- The level of an expression. -/
def level : Expr → Nat
  | .atom _ | .concat _ | .repl _ _ => 13
  | .un _ _ => 12
  | .bin b _ _ => prec b
  | .cond _ _ _ => 1

/-- Parentheses if the level of the expression is below that of the place. -/
def wrapIf (p q : Nat) (ts : List Tok) : List Tok :=
  if p ≤ q then ts else .lp :: (ts ++ [.rp])

mutual
def print (p : Nat) : Expr → List Tok
  | .atom n => [.atom n]
  | .un u e => wrapIf p 12 (.op (unText u) :: print 13 e)
  | .bin b l r => wrapIf p (prec b) (print (prec b) l ++ .op (binText b) :: print (prec b + 1) r)
  | .cond c a b => wrapIf p 1 (print 2 c ++ .question :: (print 1 a ++ .colon :: print 1 b))
  | .concat es => .lb :: (prints es ++ [.rb])
  | .repl n es => .lb :: (print 1 n ++ .lb :: (prints es ++ [.rb, .rb]))
def prints : Exprs → List Tok
  | .one e => print 1 e
  | .cons e t => print 1 e ++ .comma :: prints t
end

mutual
/-- The parser has all operators of the expression. -/
def knownE : Expr → Prop
  | .atom _ => True
  | .un _ e => knownE e
  | .bin b l r => known b ∧ knownE l ∧ knownE r
  | .cond c a b => knownE c ∧ knownE a ∧ knownE b
  | .concat es => knownEs es
  | .repl n es => knownE n ∧ knownEs es
def knownEs : Exprs → Prop
  | .one e => knownE e
  | .cons e t => knownE e ∧ knownEs t
end

theorem wrap_D {p q : Nat} {e : Expr} {ts : List Tok} (d : D known q e ts) (h1 : 1 ≤ p)
    (h2 : p ≤ 13) (h3 : 1 ≤ q) : D known p e (wrapIf p q ts) := by
  unfold wrapIf
  split
  · next h => exact d.lower h h1
  · exact (D.paren (d.lower h3 (by decide))).lower h2 h1

mutual
theorem print_D : ∀ (e : Expr) (p : Nat), 1 ≤ p → p ≤ 13 → knownE e → D known p e (print p e)
  | .atom n, p, h1, h2, _ => (D.atom n).lower h2 h1
  | .un u e, p, h1, h2, k =>
    wrap_D (.un u (print_D e 13 (by decide) (by decide) k)) h1 h2 (by decide)
  | .bin b l r, p, h1, h2, k => by
    have hb := prec_pos b
    exact wrap_D (.bin b k.1 (print_D l _ (by omega) (by omega) k.2.1)
      (print_D r _ (by omega) (by omega) k.2.2)) h1 h2 (by omega)
  | .cond c a b, p, h1, h2, k =>
    wrap_D (.cond (print_D c 2 (by decide) (by decide) k.1)
      (print_D a 1 (by decide) (by decide) k.2.1)
      (print_D b 1 (by decide) (by decide) k.2.2)) h1 h2 (by decide)
  | .concat es, p, h1, h2, k => (D.concat (prints_D es k)).lower h2 h1
  | .repl n es, p, h1, h2, k =>
    (D.repl (print_D n 1 (by decide) (by decide) k.1) (prints_D es k.2)).lower h2 h1
theorem prints_D : ∀ es : Exprs, knownEs es → Ds known es (prints es)
  | .one e, k => .one (print_D e 1 (by decide) (by decide) k)
  | .cons e t, k => .cons (print_D e 1 (by decide) (by decide) k.1) (prints_D t k.2)
end

/-- Every expression that is written with parentheses only where table 11-2
needs them is read back as it was. -/
theorem vlog_print_parse (e : Expr) (k : knownE e) (rest : List Tok)
    (hr : peekBin rest = none) : ∃ n, pExpr n (print 1 e ++ rest) = some (e, rest) :=
  (vlog_parse_iff _ _ _).mpr ⟨_, rfl, print_D e 1 (by decide) (by decide) k, hr⟩

/-! ## Examples -/

private def a : Tok := .atom 0
private def b : Tok := .atom 1
private def c : Tok := .atom 2

/-- `a + b * c == a ? b : c ? a : b` -/
example : pExpr 40 [a, .op .plus, b, .op .star, c, .op .eqeq, a, .question, b, .colon, c,
    .question, a, .colon, b] =
    some (.cond (.bin .logEq (.bin .plus (.atom 0) (.bin .times (.atom 1) (.atom 2))) (.atom 0))
      (.atom 1) (.cond (.atom 2) (.atom 0) (.atom 1)), []) := by rfl
/-- `a - b - c`, `{2{a, & b}}` -/
example : pExpr 20 [a, .op .minus, b, .op .minus, c] =
    some (.bin .minus (.bin .minus (.atom 0) (.atom 1)) (.atom 2), []) := by rfl
example : pExpr 20 [.lb, c, .lb, a, .comma, .op .amp, b, .rb, .rb, .rp] =
    some (.repl (.atom 2) (.cons (.atom 0) (.one (.un .rand (.atom 1)))), [.rp]) := by rfl
example : print 1 (.bin .times (.bin .plus (.atom 0) (.atom 1)) (.cond (.atom 0) (.atom 1)
    (.atom 2))) = [.lp, a, .op .plus, b, .rp, .op .star, .lp, a, .question, b, .colon, c, .rp] := by
  rfl

/-- The exclusive or of table 11-2 is not read: after `a` in `a ^ b` the parser
stops. -/
theorem vlog_xor_counterexample :
    D (fun _ => True) 1 (.bin .bxor (.atom 0) (.atom 1)) [.atom 0, .op .caret, .atom 1] ∧
      ¬ ∃ n e, pExpr n [.atom 0, .op .caret, .atom 1] = some (e, []) := by
  refine ⟨?_, ?_⟩
  · have h := D.bin (ok := fun _ => True) .bxor trivial
      ((D.atom 0).lower (p := 5) (by decide) (by decide))
      ((D.atom 1).lower (p := 6) (by decide) (by decide))
    exact h.lower (by decide) (by decide)
  · rintro ⟨n, e, h⟩
    have h2 : pExpr 5 [.atom 0, .op .caret, .atom 1] =
        some (.atom 0, [.op .caret, .atom 1]) := by rfl
    cases congrArg Prod.snd (vlog_parse_det h h2)

end Verif.Expr.Vlog
