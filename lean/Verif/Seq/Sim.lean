import Verif.Seq.Run

/-
The code made for a statement does what the statement means.
-/

namespace Verif.Seq

open Spec

variable {S : Type} {leave : S → S} {G : Nat → Blk S}

theorem find_same {ls : List Loop} {L : Loop} {l : Nat} (h : L.name = l) :
    findLoop (L :: ls) l = some L := by
  unfold findLoop
  simp [h]

theorem find_other {ls : List Loop} {L : Loop} {l l' : Nat} (h : L.name = l) (hn : l' ≠ l) :
    findLoop (L :: ls) l' = findLoop ls l' := by
  unfold findLoop
  rw [List.find?_cons_of_neg]
  simp [h]
  exact fun e => hn e.symm

theorem after_norm {l : Nat} {s : S} : after l (.norm s) = .again s := rfl
theorem after_ret {l : Nat} {v : Int} {s : S} : after l (.ret v s) = .stop (.ret v s) := rfl
theorem after_next {l : Nat} {s : S} : after l (.next l s) = .again s := by simp [after]
theorem after_exit {l : Nat} {s : S} : after l (.exit l s) = .stop (.norm s) := by simp [after]
theorem after_next' {l l' : Nat} {s : S} (h : l' ≠ l) :
    after l (.next l' s) = .stop (.next l' s) := by simp [after, h]
theorem after_exit' {l l' : Nat} {s : S} (h : l' ≠ l) :
    after l (.exit l' s) = .stop (.exit l' s) := by simp [after, h]

/-- While loops and loops without a condition. -/
theorem while_sim {T X l n : Nat} {bodyB b4 b : B S} {env : List Loc} {envv : List Int}
    {sus : Bool} {c : S → Bool} {body : S → Option (Out S)} {ls : List Loop} {L : Loop}
    (hname : L.name = l) (htest : L.test = some T) (hexit : L.exit = X) (g : Grow b bodyB)
    (hlt : EnvLt b env) (hvo : sus = true → VarsOnly env)
    (htop : ∀ m, AtB T m → readEnv m env = some envv → ∃ k m1, Steps leave G k m m1 ∧
      m1.s = m.s ∧ Keep b false m m1 ∧ (if c m.s then At bodyB m1 else AtB X m1))
    (hbody : ∀ m, At bodyB m → readEnv m env = some envv →
      Res leave G (L :: ls) bodyB b4 sus n m (fun m' => b4.fin = false ∧ At b4 m') (body m.s))
    (hback : ∀ m, b4.fin = false → At b4 m → mstep leave G m = .run (m.go T)) :
    ∀ k, k ≤ n → ∀ m, AtB T m → readEnv m env = some envv →
      Res leave G ls b b4 sus k m (AtB X) (whileLoop l c body k m.s) := by
  intro k
  induction k with
  | zero => intro _ m _ _; exact ⟨0, m, Nat.le_refl _, .refl _⟩
  | succ k ih =>
    intro hk m hm he
    obtain ⟨k0, m1, t1, s1, kp1, h1⟩ := htop m hm he
    have kp1' : Keep b sus m m1 := ⟨fun _ => kp1.regs rfl, kp1.vars⟩
    have he1 : readEnv m1 env = some envv := by
      rw [readEnv_keep kp1 env hlt (fun e => nomatch e)]; exact he
    unfold whileLoop
    cases hc : c m.s with
    | false =>
      rw [hc] at h1
      exact ⟨k0, m1, t1, h1, s1, kp1'⟩
    | true =>
      rw [hc] at h1
      have r := hbody m1 h1 he1
      rw [s1] at r
      simp only [if_true]
      have turn : ∀ j m2, Steps leave G j m1 m2 → 0 < j → AtB T m2 →
          Keep bodyB sus m1 m2 →
          Res leave G ls b b4 sus (k + 1) m (AtB X) (whileLoop l c body k m2.s) := by
        intro j m2 t2 hj a2 k2
        have kp2 : Keep b sus m m2 := kp1'.trans g k2 id id
        have he2 : readEnv m2 env = some envv := by
          rw [readEnv_keep kp2 env hlt hvo]; exact he
        exact Res.prefix (t1.trans t2) .refl kp2 id id (by omega) (ih (by omega) m2 a2 he2)
      cases hb : body m.s with
      | none =>
        rw [hb] at r
        obtain ⟨j, m2, hj, t2⟩ := r
        exact ⟨k0 + j, m2, by omega, t1.trans t2⟩
      | some o =>
        rw [hb] at r
        cases o with
        | norm s' =>
          obtain ⟨j, m2, t2, ⟨hf, a2⟩, e2, k2⟩ := r
          simp only [after_norm]
          subst e2
          exact turn (j + 1) (m2.go T) (t2.trans (.one (hback m2 hf a2))) (by omega) ⟨rfl, rfl⟩
            ⟨k2.regs, k2.vars⟩
        | next l' s' =>
          obtain ⟨L', t, hL, ht, j, m2, hj, t2, a2, e2, k2⟩ := r
          by_cases hl : l' = l
          · subst hl
            rw [find_same hname] at hL
            obtain rfl := Option.some.inj hL
            unfold target at ht
            rw [htest] at ht
            obtain rfl := Option.some.inj ht
            simp only [after_next]
            subst e2
            exact turn j m2 t2 hj a2 k2
          · simp only [after_next' hl]
            rw [find_other hname hl] at hL
            exact ⟨L', t, hL, ht, k0 + j, m2, by omega, t1.trans t2, a2, e2,
              kp1'.trans g k2 id id⟩
        | exit l' s' =>
          obtain ⟨L', hL, j, m2, hj, t2, a2, e2, k2⟩ := r
          by_cases hl : l' = l
          · subst hl
            rw [find_same hname] at hL
            obtain rfl := Option.some.inj hL
            simp only [after_exit]
            exact ⟨k0 + j, m2, t1.trans t2, hexit ▸ a2, e2, kp1'.trans g k2 id id⟩
          · simp only [after_exit' hl]
            rw [find_other hname hl] at hL
            exact ⟨L', hL, k0 + j, m2, by omega, t1.trans t2, a2, e2, kp1'.trans g k2 id id⟩
        | ret v s' =>
          simp only [after_ret]
          exact Returns.prefix t1 r

/-- The values of a range follow each other by the step and end with the right
bound. -/
def Chain (St R : Int) : Int → List Int → Prop
  | v, [] => v = R
  | v, w :: t => v ≠ R ∧ w = v + St ∧ Fits w ∧ Chain St R w t

theorem chain_up (R : Int) (hR : Fits R) : ∀ (k : Nat) (v : Int), Fits v → R - v = k →
    Chain 1 R v ((List.range k).map (fun i : Nat => v + 1 + i)) := by
  intro k
  induction k with
  | zero => intro v _ h; show v = R; omega
  | succ k ih =>
    intro v hv h
    rw [List.range_succ_eq_map, List.map_cons, List.map_map]
    have hf : Fits (v + 1) := by unfold Fits at *; omega
    refine ⟨by omega, by simp, by simpa using hf, ?_⟩
    have := ih (v + 1) hf (by omega)
    have e : ((fun i : Nat => v + 1 + (i : Int)) ∘ Nat.succ) = fun i : Nat => v + 1 + 1 + (i : Int) := by
      funext i
      simp only [Function.comp]
      omega
    rw [e]
    simpa using this

theorem chain_down (R : Int) (hR : Fits R) : ∀ (k : Nat) (v : Int), Fits v → v - R = k →
    Chain (-1) R v ((List.range k).map (fun i : Nat => v - 1 - i)) := by
  intro k
  induction k with
  | zero => intro v _ h; show v = R; omega
  | succ k ih =>
    intro v hv h
    rw [List.range_succ_eq_map, List.map_cons, List.map_map]
    have hf : Fits (v - 1) := by unfold Fits at *; omega
    refine ⟨by omega, by simp; omega, by simpa using hf, ?_⟩
    have := ih (v - 1) hf (by omega)
    have e : ((fun i : Nat => v - 1 - (i : Int)) ∘ Nat.succ) = fun i : Nat => v - 1 - 1 - (i : Int) := by
      funext i
      simp only [Function.comp]
      omega
    rw [e]
    simpa using this

theorem range_chain {l r : Int} {dn : Bool} (hl : Fits l) (hr : Fits r)
    (hn : ¬ (if dn then l < r else r < l)) :
    ∃ vs, rangeVals l r dn = l :: vs ∧ Chain (if dn then -1 else 1) r l vs := by
  unfold rangeVals
  cases dn with
  | true =>
    simp only [if_true] at *
    obtain ⟨k, hk⟩ : ∃ k : Nat, l - r = k := ⟨(l - r).toNat, by omega⟩
    have e : (l - r + 1).toNat = k + 1 := by omega
    rw [e, List.range_succ_eq_map, List.map_cons, List.map_map]
    refine ⟨_, by simp; rfl, ?_⟩
    have := chain_down r hr k l hl hk
    have e : ((fun i : Nat => l - (i : Int)) ∘ Nat.succ) = fun i : Nat => l - 1 - (i : Int) := by
      funext i
      simp only [Function.comp]
      omega
    simpa [e] using this
  | false =>
    simp only [Bool.false_eq_true, if_false] at *
    obtain ⟨k, hk⟩ : ∃ k : Nat, r - l = k := ⟨(r - l).toNat, by omega⟩
    have e : (r - l + 1).toNat = k + 1 := by omega
    rw [e, List.range_succ_eq_map, List.map_cons, List.map_map]
    refine ⟨_, by simp; rfl, ?_⟩
    have := chain_up r hr k l hl hk
    have e : ((fun i : Nat => l + (i : Int)) ∘ Nat.succ) = fun i : Nat => l + 1 + (i : Int) := by
      funext i
      simp only [Function.comp]
      omega
    simpa [e] using this

theorem range_null {l r : Int} {dn : Bool} (hn : (if dn then l < r else r < l)) :
    rangeVals l r dn = [] := by
  unfold rangeVals
  cases dn with
  | true =>
    simp only [if_true] at *
    have e : (l - r + 1).toNat = 0 := by omega
    rw [e]; rfl
  | false =>
    simp only [Bool.false_eq_true, if_false] at *
    have e : (r - l + 1).toNat = 0 := by omega
    rw [e]; rfl

/-- For loops: `Inv` holds at the start of a turn, `Inv'` in the body. -/
theorem for_sim {X l n : Nat} {c3 c4 b : B S} {sus : Bool} {body : Int → S → Option (Out S)}
    {ls : List Loop} {L : Loop} {St R : Int} {Inv Inv' : M S → Int → Prop}
    (hname : L.name = l) (htest : L.test = none) (hexit : L.exit = X) (g : Grow b c3)
    (henter : ∀ m v, Inv m v → ∃ k m1, Steps leave G k m m1 ∧ At c3 m1 ∧ m1.s = m.s ∧
      Keep b sus m m1 ∧ Inv' m1 v)
    (hbody : ∀ m v, At c3 m → Inv' m v →
      Res leave G (L :: ls) c3 c4 sus n m (fun m' => c4.fin = false ∧ At c4 m') (body v m.s))
    (hkeep : ∀ m m' v, Keep c3 sus m m' → Inv' m v → Inv' m' v)
    (htail : ∀ m v, (c4.fin = false ∧ At c4 m ∨ ∃ t, c4.lazyT L.id = some t ∧ AtB t m) →
      Inv' m v → ∃ k m', Steps leave G k m m' ∧ m'.s = m.s ∧ Keep b sus m m' ∧
        (if v = R then AtB X m' else Fits (v + St) → Inv m' (v + St))) :
    ∀ vs v m, Chain St R v vs → Inv m v →
      Res leave G ls b c4 sus n m (AtB X) (forLoop l body (v :: vs) m.s) := by
  intro vs
  induction vs with
  | nil =>
    intro v m hch hi
    obtain ⟨k1, m1, t1, a1, s1, kp1, i1⟩ := henter m v hi
    have r := hbody m1 v a1 i1
    rw [s1] at r
    unfold forLoop
    have stop : ∀ j m2, Steps leave G j m1 m2 → Keep c3 sus m1 m2 →
        (c4.fin = false ∧ At c4 m2 ∨ ∃ t, c4.lazyT L.id = some t ∧ AtB t m2) →
        Res leave G ls b c4 sus n m (AtB X) (forLoop l body [] m2.s) := by
      intro j m2 t2 k2 a2
      obtain ⟨k3, m3, t3, s3, kp3, h3⟩ := htail m2 v a2 (hkeep _ _ _ k2 i1)
      rw [if_pos (show v = R from hch)] at h3
      exact ⟨_, m3, (t1.trans t2).trans t3, h3, s3, (kp1.trans g k2 id id).trans .refl kp3 id id⟩
    cases hb : body v m.s with
    | none =>
      rw [hb] at r
      obtain ⟨j, m2, hj, t2⟩ := r
      exact ⟨k1 + j, m2, by omega, t1.trans t2⟩
    | some o =>
      rw [hb] at r
      cases o with
      | norm s' =>
        obtain ⟨j, m2, t2, h2, e2, k2⟩ := r
        simp only [after_norm]
        subst e2
        exact stop j m2 t2 k2 (.inl h2)
      | next l' s' =>
        obtain ⟨L', t, hL, ht, j, m2, hj, t2, a2, e2, k2⟩ := r
        by_cases hl : l' = l
        · subst hl
          rw [find_same hname] at hL
          obtain rfl := Option.some.inj hL
          unfold target at ht
          rw [htest] at ht
          simp only [after_next]
          subst e2
          exact stop j m2 t2 k2 (.inr ⟨t, ht, a2⟩)
        · simp only [after_next' hl]
          rw [find_other hname hl] at hL
          exact ⟨L', t, hL, ht, k1 + j, m2, by omega, t1.trans t2, a2, e2,
            kp1.trans g k2 id id⟩
      | exit l' s' =>
        obtain ⟨L', hL, j, m2, hj, t2, a2, e2, k2⟩ := r
        by_cases hl : l' = l
        · subst hl
          rw [find_same hname] at hL
          obtain rfl := Option.some.inj hL
          simp only [after_exit]
          exact ⟨k1 + j, m2, t1.trans t2, hexit ▸ a2, e2, kp1.trans g k2 id id⟩
        · simp only [after_exit' hl]
          rw [find_other hname hl] at hL
          exact ⟨L', hL, k1 + j, m2, by omega, t1.trans t2, a2, e2, kp1.trans g k2 id id⟩
      | ret v s' =>
        simp only [after_ret]
        exact Returns.prefix t1 r
  | cons w vs ih =>
    intro v m hch hi
    obtain ⟨hne, rfl, hfit, hch⟩ := hch
    obtain ⟨k1, m1, t1, a1, s1, kp1, i1⟩ := henter m v hi
    have r := hbody m1 v a1 i1
    rw [s1] at r
    unfold forLoop
    have turn : ∀ j m2, Steps leave G j m1 m2 → Keep c3 sus m1 m2 →
        (c4.fin = false ∧ At c4 m2 ∨ ∃ t, c4.lazyT L.id = some t ∧ AtB t m2) →
        Res leave G ls b c4 sus n m (AtB X) (forLoop l body ((v + St) :: vs) m2.s) := by
      intro j m2 t2 k2 a2
      obtain ⟨k3, m3, t3, s3, kp3, h3⟩ := htail m2 v a2 (hkeep _ _ _ k2 i1)
      rw [if_neg hne] at h3
      have := ih (v + St) m3 hch (h3 hfit)
      rw [s3] at this
      exact Res.prefix ((t1.trans t2).trans t3) .refl
        ((kp1.trans g k2 id id).trans .refl kp3 id id) id id (Nat.le_add_right _ _) this
    cases hb : body v m.s with
    | none =>
      rw [hb] at r
      obtain ⟨j, m2, hj, t2⟩ := r
      exact ⟨k1 + j, m2, by omega, t1.trans t2⟩
    | some o =>
      rw [hb] at r
      cases o with
      | norm s' =>
        obtain ⟨j, m2, t2, h2, e2, k2⟩ := r
        simp only [after_norm]
        subst e2
        exact turn j m2 t2 k2 (.inl h2)
      | next l' s' =>
        obtain ⟨L', t, hL, ht, j, m2, hj, t2, a2, e2, k2⟩ := r
        by_cases hl : l' = l
        · subst hl
          rw [find_same hname] at hL
          obtain rfl := Option.some.inj hL
          unfold target at ht
          rw [htest] at ht
          simp only [after_next]
          subst e2
          exact turn j m2 t2 k2 (.inr ⟨t, ht, a2⟩)
        · simp only [after_next' hl]
          rw [find_other hname hl] at hL
          exact ⟨L', t, hL, ht, k1 + j, m2, by omega, t1.trans t2, a2, e2,
            kp1.trans g k2 id id⟩
      | exit l' s' =>
        obtain ⟨L', hL, j, m2, hj, t2, a2, e2, k2⟩ := r
        by_cases hl : l' = l
        · subst hl
          rw [find_same hname] at hL
          obtain rfl := Option.some.inj hL
          simp only [after_exit]
          exact ⟨k1 + j, m2, t1.trans t2, hexit ▸ a2, e2, kp1.trans g k2 id id⟩
        · simp only [after_exit' hl]
          rw [find_other hname hl] at hL
          exact ⟨L', hL, k1 + j, m2, by omega, t1.trans t2, a2, e2, kp1.trans g k2 id id⟩
      | ret v s' =>
        simp only [after_ret]
        exact Returns.prefix t1 r

end Verif.Seq
