import Verif.Ident.StrModel

/-!
# C19, C20, C56, C57: characters of identifiers
-/

namespace Verif.Ident

/-! ## C20: wildcards -/

/-- `Matches m s p`: `s` is obtained from the pattern `p` by replacing every `*` by some string
of at least `m` characters. -/
inductive Matches (m : Nat) : List Nat → List Nat → Prop
  | nil : Matches m [] []
  | lit (a : Nat) (s p : List Nat) : a ≠ 42 → Matches m s p → Matches m (a :: s) (a :: p)
  | star (w s p : List Nat) : m ≤ w.length → Matches m s p → Matches m (w ++ s) (42 :: p)

theorem matches_one_nil (p : List Nat) : Matches 1 [] p ↔ p = [] := by
  constructor
  · intro h
    generalize e : ([] : List Nat) = s at h
    cases h with
    | nil => rfl
    | lit a s p _ _ => simp at e
    | star w s p hw h =>
      have := congrArg List.length e
      simp at this; omega
  · rintro rfl; exact .nil

theorem matches_nil_right (m : Nat) (s : List Nat) : Matches m s [] ↔ s = [] := by
  constructor
  · intro h; cases h; rfl
  · rintro rfl; exact .nil

theorem matches_lit_inv {m a b : Nat} {s p : List Nat} (h : Matches m (a :: s) (b :: p))
    (hb : b ≠ 42) : a = b ∧ Matches m s p := by
  generalize e1 : a :: s = r at h
  generalize e2 : b :: p = q at h
  cases h with
  | nil => simp at e1
  | lit c s' p' _ h =>
    simp only [List.cons.injEq] at e1 e2
    obtain ⟨rfl, rfl⟩ := e1
    obtain ⟨rfl, rfl⟩ := e2
    exact ⟨rfl, h⟩
  | star w s' p' _ h =>
    simp only [List.cons.injEq] at e2
    exact absurd e2.1 hb

/-- **C20, what the code implements:** `*` stands for one or more characters. -/
theorem glob_partial (s p : List Nat) : glob s p = true ↔ Matches 1 s p := by
  unfold glob
  induction s generalizing p with
  | nil => rw [matches_one_nil]; simp [globWalk]
  | cons a s ih =>
    cases p with
    | nil => rw [matches_nil_right]; simp [globWalk]
    | cons b p =>
      unfold globWalk
      by_cases hb : b = 42
      · subst hb
        rw [if_pos rfl, Bool.or_eq_true, ih, ih]
        constructor
        · rintro (h | h)
          · generalize e : 42 :: p = q at h
            cases h with
            | nil => simp at e
            | lit c s p hc _ => simp at e; omega
            | star w s p' hw h =>
              simp only [List.cons.injEq, true_and] at e
              subst e
              exact Matches.star (a :: w) s p (by simp) h
          · exact Matches.star [a] s p (by simp) h
        · intro h
          generalize e : 42 :: p = q at h
          generalize e2 : a :: s = r at h
          cases h with
          | nil => simp at e
          | lit c s p hc _ => simp at e; omega
          | star w s' p' hw h =>
            simp only [List.cons.injEq, true_and] at e
            subst e
            cases w with
            | nil => simp at hw
            | cons x w =>
              simp only [List.cons_append, List.cons.injEq] at e2
              obtain ⟨rfl, rfl⟩ := e2
              cases w with
              | nil => exact .inr h
              | cons y w => exact .inl (Matches.star (y :: w) s' p (by simp) h)
      · rw [if_neg hb]
        by_cases ha : a = b
        · subst ha
          rw [if_pos rfl, ih]
          constructor
          · exact fun h => .lit a s p hb h
          · intro h
            exact (matches_lit_inv h hb).2
        · rw [if_neg ha]
          constructor
          · intro h; simp at h
          · intro h
            exact absurd (matches_lit_inv h hb).1 ha

/-- Every match is also one in the documented sense. -/
theorem glob_sound (s p : List Nat) (h : glob s p = true) : Matches 0 s p := by
  have := (glob_partial s p).1 h
  clear h
  induction this with
  | nil => exact .nil
  | lit a s p ha _ ih => exact .lit a s p ha ih
  | star w s p hw _ ih => exact .star w s p (by omega) ih

/-- **C20 does not hold:** according to the manual (nvc.1 1176-1177) `*` matches zero or more
characters, so ":a*" should match ":a". -/
theorem glob_counterexample : Matches 0 [58, 97] [58, 97, 42] ∧ glob [58, 97] [58, 97, 42] = false := by
  refine ⟨?_, by decide⟩
  exact .lit 58 _ _ (by omega) (.lit 97 _ _ (by omega) (.star [] [] [] (by simp) .nil))

example : glob [58, 97, 58, 98] [58, 42, 98] = true := by decide

/-! ## C19: edit distance -/

/-- One edit: insertion, deletion or substitution of a character. -/
inductive Edit : List Nat → List Nat → Prop
  | ins (u : List Nat) (x : Nat) (v : List Nat) : Edit (u ++ v) (u ++ x :: v)
  | del (u : List Nat) (x : Nat) (v : List Nat) : Edit (u ++ x :: v) (u ++ v)
  | sub (u : List Nat) (x y : Nat) (v : List Nat) : Edit (u ++ x :: v) (u ++ y :: v)

/-- `n` edits in sequence. -/
inductive Edits : Nat → List Nat → List Nat → Prop
  | refl (a : List Nat) : Edits 0 a a
  | step {n : Nat} {a b c : List Nat} : Edits n a b → Edit b c → Edits (n + 1) a c

/-- The usual recursion, from the front. -/
def lev : List Nat → List Nat → Nat
  | [], t => t.length
  | a :: s, [] => (a :: s).length
  | a :: s, b :: t =>
    min (lev s (b :: t) + 1) (min (lev (a :: s) t + 1) (lev s t + if a = b then 0 else 1))
termination_by s t => s.length + t.length

theorem lev_nil_left (t : List Nat) : lev [] t = t.length := by unfold lev; rfl
theorem lev_nil_right (s : List Nat) : lev s [] = s.length := by
  cases s <;> simp [lev]
theorem lev_cons (a b : Nat) (s t : List Nat) : lev (a :: s) (b :: t) =
    min (lev s (b :: t) + 1) (min (lev (a :: s) t + 1) (lev s t + if a = b then 0 else 1)) := by
  rw [lev]

theorem lev_del_head (a : Nat) (s t : List Nat) : lev (a :: s) t ≤ lev s t + 1 := by
  cases t with
  | nil => simp [lev_nil_right]
  | cons b t => rw [lev_cons]; omega

theorem lev_ins_head (b : Nat) (s t : List Nat) : lev s (b :: t) ≤ lev s t + 1 := by
  cases s with
  | nil => simp [lev_nil_left]
  | cons a s => rw [lev_cons]; omega

theorem lev_sub_head (a b : Nat) (s t : List Nat) : lev (a :: s) (b :: t) ≤ lev s t + 1 := by
  rw [lev_cons]; split <;> omega

theorem lev_drop_head (x : Nat) (v : List Nat) : ∀ a, lev a v ≤ lev a (x :: v) + 1 := by
  intro a
  induction a with
  | nil => simp [lev_nil_left]; omega
  | cons y a ih =>
    rw [lev_cons]
    have h1 := lev_del_head y a v
    omega

theorem lev_change_head (x y : Nat) (v : List Nat) : ∀ a, lev a (y :: v) ≤ lev a (x :: v) + 1 := by
  intro a
  induction a with
  | nil => simp [lev_nil_left]
  | cons z a ih =>
    have h1 := lev_del_head z a (y :: v)
    have h2 := lev_sub_head z y a v
    have h3 := lev_ins_head y (z :: a) v
    have h4 : lev (z :: a) (y :: v) ≤ lev a (y :: v) + 1 := h1
    rw [lev_cons z x a v]
    omega

theorem lev_cons_mono (t t' : List Nat) (w : Nat) (h : ∀ a, lev a t ≤ lev a t' + 1) :
    ∀ a, lev a (w :: t) ≤ lev a (w :: t') + 1 := by
  intro a
  induction a with
  | nil =>
    have := h []
    simp only [lev_nil_left, List.length_cons] at this ⊢
    omega
  | cons z a ih =>
    have h1 := h a
    have h2 := h (z :: a)
    rw [lev_cons z w a t, lev_cons z w a t']
    omega

theorem lev_app_mono (t t' : List Nat) (h : ∀ a, lev a t ≤ lev a t' + 1) (u : List Nat) :
    ∀ a, lev a (u ++ t) ≤ lev a (u ++ t') + 1 := by
  induction u with
  | nil => exact h
  | cons w u ih => exact lev_cons_mono _ _ w ih

theorem lev_edit (b c : List Nat) (h : Edit b c) (a : List Nat) : lev a c ≤ lev a b + 1 := by
  cases h with
  | ins u x v => exact lev_app_mono (x :: v) v (fun a => lev_ins_head x a v) u a
  | del u x v => exact lev_app_mono v (x :: v) (lev_drop_head x v) u a
  | sub u x y v => exact lev_app_mono (y :: v) (x :: v) (lev_change_head x y v) u a

theorem lev_self (a : List Nat) : lev a a = 0 := by
  induction a with
  | nil => simp [lev_nil_left]
  | cons x a ih => rw [lev_cons, ih]; simp

theorem lev_lower (n : Nat) (a b : List Nat) (h : Edits n a b) : lev a b ≤ n := by
  induction h with
  | refl => rw [lev_self]; omega
  | @step n a b c h1 h2 ih => have := lev_edit b c h2 a; omega

theorem Edits.trans {m n : Nat} {a b c : List Nat} (h1 : Edits m a b) (h2 : Edits n b c) :
    Edits (m + n) a c := by
  induction h2 with
  | refl => exact h1
  | step _ h ih => exact .step (ih h1) h

theorem Edit.cons {a b : List Nat} (x : Nat) (h : Edit a b) : Edit (x :: a) (x :: b) := by
  cases h with
  | ins u y v => exact .ins (x :: u) y v
  | del u y v => exact .del (x :: u) y v
  | sub u y z v => exact .sub (x :: u) y z v

theorem Edits.cons {n : Nat} {a b : List Nat} (x : Nat) (h : Edits n a b) :
    Edits n (x :: a) (x :: b) := by
  induction h with
  | refl => exact .refl _
  | step _ h ih => exact .step ih (h.cons x)

theorem Edits.one {a b : List Nat} (h : Edit a b) : Edits 1 a b := .step (.refl _) h

theorem lev_upper (a b : List Nat) : Edits (lev a b) a b := by
  induction a, b using lev.induct with
  | case1 t =>
    rw [lev_nil_left]
    induction t with
    | nil => exact .refl _
    | cons x t ih => exact .step ih (.ins [] x t)
  | case2 a s =>
    rw [lev_nil_right]
    induction s generalizing a with
    | nil => exact .one (.del [] a [])
    | cons x s ih =>
      have := (Edits.one (.del [] a (x :: s))).trans (ih x)
      simp only [List.length_cons] at this ⊢
      rwa [Nat.add_comm] at this
  | case3 a s b t ih1 ih2 ih3 =>
    rw [lev_cons]
    have h1 : Edits (lev s (b :: t) + 1) (a :: s) (b :: t) := by
      rw [Nat.add_comm]
      exact (Edits.one (.del [] a s)).trans ih1
    have h2 : Edits (lev (a :: s) t + 1) (a :: s) (b :: t) := .step ih2 (.ins [] b t)
    have h3 : Edits (lev s t + if a = b then 0 else 1) (a :: s) (b :: t) := by
      by_cases c : a = b
      · subst c; rw [if_pos rfl]; exact ih3.cons a
      · rw [if_neg c, Nat.add_comm]
        exact (Edits.one (.sub [] a b s)).trans (ih3.cons b)
    rcases Nat.le_total (lev s (b :: t) + 1)
      (min (lev (a :: s) t + 1) (lev s t + if a = b then 0 else 1)) with c | c
    · rw [Nat.min_eq_left c]; exact h1
    · rw [Nat.min_eq_right c]
      rcases Nat.le_total (lev (a :: s) t + 1) (lev s t + if a = b then 0 else 1) with c | c
      · rw [Nat.min_eq_left c]; exact h2
      · rw [Nat.min_eq_right c]; exact h3

/-! The program computes rows for prefixes, that is the recursion from the back. -/

/-- Distance of prefixes. -/
def dist (s t : List Nat) : Nat := lev s.reverse t.reverse

theorem dist_snoc (s t : List Nat) (a b : Nat) : dist (s ++ [a]) (t ++ [b]) =
    min (dist s (t ++ [b]) + 1) (min (dist (s ++ [a]) t + 1) (dist s t + if a = b then 0 else 1)) := by
  unfold dist
  simp only [List.reverse_append, List.reverse_cons, List.reverse_nil, List.nil_append,
    List.cons_append]
  rw [lev_cons]

theorem dist_nil_left (t : List Nat) : dist [] t = t.length := by simp [dist, lev_nil_left]
theorem dist_nil_right (t : List Nat) : dist t [] = t.length := by simp [dist, lev_nil_right]

/-- The row of distances of `s` to `u`, `u` extended by one character of `t`, and so on. -/
def row (s u : List Nat) : List Nat → List Nat
  | [] => [dist s u]
  | b :: t => dist s u :: row s (u ++ [b]) t

theorem distInner_row (s : List Nat) (c : Nat) (t : List Nat) : ∀ u,
    distInner c t (row s u t) (dist (s ++ [c]) u) = (row (s ++ [c]) u t).tail := by
  induction t with
  | nil => intro u; simp [distInner, row]
  | cons b t ih =>
    intro u
    have ih' := ih (u ++ [b])
    have hx : min (dist s (u ++ [b]) + 1) (min (dist (s ++ [c]) u + 1)
        (if c = b then dist s u else dist s u + 1)) = dist (s ++ [c]) (u ++ [b]) := by
      rw [dist_snoc]; split <;> rfl
    have hrow : ∃ r, row s (u ++ [b]) t = dist s (u ++ [b]) :: r := by
      cases t <;> exact ⟨_, rfl⟩
    obtain ⟨r, hr⟩ := hrow
    have hrow2 : row (s ++ [c]) (u ++ [b]) t =
        dist (s ++ [c]) (u ++ [b]) :: (row (s ++ [c]) (u ++ [b]) t).tail := by
      cases t <;> rfl
    simp only [row, List.tail_cons]
    rw [hr]
    simp only [distInner]
    rw [hx]
    rw [hr] at ih'
    rw [ih', ← hrow2]

theorem distOuter_row (t s2 : List Nat) : ∀ (s1 : List Nat),
    distOuter t s1.length s2 (row s1 [] t) = row (s1 ++ s2) [] t := by
  induction s2 with
  | nil => intro s1; simp [distOuter]
  | cons c s2 ih =>
    intro s1
    unfold distOuter
    have h1 : (s1.length + 1) = dist (s1 ++ [c]) [] := by simp [dist_nil_right]
    have h2 : (s1.length + 1) :: distInner c t (row s1 [] t) (s1.length + 1) =
        row (s1 ++ [c]) [] t := by
      rw [h1, distInner_row]
      cases t <;> rfl
    rw [h2]
    have := ih (s1 ++ [c])
    simp only [List.length_append, List.length_singleton, List.append_assoc,
      List.singleton_append] at this
    exact this

theorem row_range (t : List Nat) : ∀ u, row [] u t =
    (List.range (t.length + 1)).map (· + u.length) := by
  induction t with
  | nil => intro u; simp [row, dist_nil_left]
  | cons b t ih =>
    intro u
    simp only [row, ih, dist_nil_left, List.length_cons]
    rw [List.range_succ_eq_map (n := t.length + 1)]
    simp only [List.map_cons, List.map_map, Nat.zero_add, List.length_append, List.length_singleton]
    congr 1
    apply List.map_congr_left
    intro x _
    simp only [Function.comp]
    simp
    omega

theorem row_last (s t : List Nat) : ∀ u, (row s u t).getD t.length 0 = dist s (u ++ t) := by
  induction t with
  | nil => intro u; simp [row]
  | cons b t ih =>
    intro u
    have := ih (u ++ [b])
    simp only [row, List.length_cons, List.getD_cons_succ, this, List.append_assoc,
      List.singleton_append]

theorem distance_eq_dist (a b : List Nat) : distance a b = dist a b := by
  unfold distance
  have h0 : List.range (b.length + 1) = row [] [] b := by
    rw [row_range]; simp
  rw [h0]
  have := distOuter_row b a []
  simp only [List.length_nil, List.nil_append] at this
  rw [this, row_last]; rfl

theorem Edit.reverse {a b : List Nat} (h : Edit a b) : Edit a.reverse b.reverse := by
  cases h with
  | ins u x v =>
    simp only [List.reverse_append, List.reverse_cons, List.append_assoc, List.singleton_append]
    exact .ins v.reverse x u.reverse
  | del u x v =>
    simp only [List.reverse_append, List.reverse_cons, List.append_assoc, List.singleton_append]
    exact .del v.reverse x u.reverse
  | sub u x y v =>
    simp only [List.reverse_append, List.reverse_cons, List.append_assoc, List.singleton_append]
    exact .sub v.reverse x y u.reverse

theorem Edits.reverse {n : Nat} {a b : List Nat} (h : Edits n a b) :
    Edits n a.reverse b.reverse := by
  induction h with
  | refl => exact .refl _
  | step _ h ih => exact .step ih h.reverse

/-- **C19.**  `ident_distance` is the least number of insertions, deletions and substitutions
that turn one identifier into the other. -/
theorem distance_is_least (a b : List Nat) :
    Edits (distance a b) a b ∧ ∀ n, Edits n a b → distance a b ≤ n := by
  rw [distance_eq_dist]
  constructor
  · have := (lev_upper a.reverse b.reverse).reverse
    simp only [List.reverse_reverse] at this
    exact this
  · intro n h
    exact lev_lower n _ _ h.reverse

example : distance [107, 105, 116, 116, 101, 110] [115, 105, 116, 116, 105, 110, 103] = 3 := by
  decide +kernel

/-! ## C56: splitting and joining -/

theorem scanFwd_spec (c : Nat) (i : List Nat) :
    i.take (scanFwd c i) = i.takeWhile (· ≠ c) ∧ scanFwd c i = (i.takeWhile (· ≠ c)).length := by
  induction i with
  | nil => simp [scanFwd]
  | cons b i ih =>
    unfold scanFwd
    by_cases h : b = c
    · simp [h]
    · simp only [if_neg h, List.take_succ_cons]
      rw [List.takeWhile_cons]
      simp only [ne_eq, h, not_false_eq_true, decide_true, if_true, List.length_cons]
      exact ⟨by rw [ih.1], by rw [ih.2]⟩

/-- A string in which `c` occurs, split at its first occurrence. -/
theorem scanFwd_split (c : Nat) (i : List Nat) (h : c ∈ i) :
    ∃ u v, i = u ++ c :: v ∧ c ∉ u ∧ scanFwd c i = u.length := by
  induction i with
  | nil => simp at h
  | cons b i ih =>
    unfold scanFwd
    by_cases hb : b = c
    · subst hb; exact ⟨[], i, by simp⟩
    · have : c ∈ i := by
        rcases List.mem_cons.1 h with h | h
        · exact absurd h.symm hb
        · exact h
      obtain ⟨u, v, h1, h2, h3⟩ := ih this
      refine ⟨b :: u, v, by simp [h1], ?_, by simp [hb, h3]⟩
      simp only [List.mem_cons, not_or]
      exact ⟨fun e => hb e.symm, h2⟩

theorem scanFwd_absent (c : Nat) (i : List Nat) (h : c ∉ i) : scanFwd c i = i.length := by
  induction i with
  | nil => rfl
  | cons b i ih =>
    simp only [List.mem_cons, not_or] at h
    unfold scanFwd
    rw [if_neg (fun e => h.1 e.symm), ih h.2]; rfl

theorem scanBack_at (c : Nat) (i : List Nat) (p : Nat) (hp : (i ++ [0]).getD p 0 = c) : ∀ n, p ≤ n →
    (∀ q, p < q → q ≤ n → (i ++ [0]).getD q 0 ≠ c) → scanBack c i n = some p := by
  intro n
  induction n with
  | zero =>
    intro h1 h2
    have : p = 0 := by omega
    subst this
    unfold scanBack
    rw [if_pos hp]
  | succ n ih =>
    intro h1 h2
    unfold scanBack
    by_cases c1 : p = n + 1
    · subst c1; rw [if_pos hp]
    · rw [if_neg (h2 (n + 1) (by omega) (by omega))]
      exact ih (by omega) fun q a b => h2 q a (by omega)

theorem scanBack_none (c : Nat) (i : List Nat) : ∀ n,
    (∀ q, q ≤ n → (i ++ [0]).getD q 0 ≠ c) → scanBack c i n = none := by
  intro n
  induction n with
  | zero => intro h; unfold scanBack; rw [if_neg (h 0 (by omega))]
  | succ n ih =>
    intro h; unfold scanBack; rw [if_neg (h (n + 1) (by omega))]
    exact ih fun q hq => h q (by omega)

theorem getD_mem (l : List Nat) (q : Nat) (h : q < l.length) : l.getD q 0 ∈ l := by
  rw [List.getD_eq_getElem?_getD, List.getElem?_eq_getElem h]
  exact List.getElem_mem h

/-- **C56.**  Splitting at the first occurrence of a separator. -/
theorem until_from_spec (u v : List Nat) (c : Nat) (h : c ∉ u) :
    until' (u ++ c :: v) c = u ∧ from' (u ++ c :: v) c = some v := by
  obtain ⟨u', v', h1, h2, h3⟩ := scanFwd_split c (u ++ c :: v) (by simp)
  have hu : scanFwd c (u ++ c :: v) = u.length := by
    rw [(scanFwd_spec c _).2]
    rw [List.takeWhile_append_of_pos (by
      intro x hx; simp only [ne_eq, decide_eq_true_eq]; rintro rfl; exact h hx)]
    simp
  unfold until' from'
  simp only [hu]
  have : ¬ u.length = (u ++ c :: v).length := by simp
  rw [if_neg this, if_neg this]
  simp

/-- **C56.**  A string without the separator. -/
theorem until_from_absent (i : List Nat) (c : Nat) (h : c ∉ i) (h0 : c ≠ 0) :
    until' i c = i ∧ from' i c = none ∧ runtil i c = i ∧ rfrom i c = i := by
  have hb : scanBack c i i.length = none := by
    apply scanBack_none
    intro q hq e
    have := getD_mem (i ++ [0]) q (by simp; omega)
    rw [e] at this
    simp only [List.mem_append, List.mem_singleton] at this
    rcases this with m | m
    · exact h m
    · exact h0 m
  unfold until' from' runtil rfrom
  rw [scanFwd_absent c i h, hb]
  simp

/-- **C56.**  Splitting at the last occurrence of a separator. -/
theorem runtil_rfrom_spec (u v : List Nat) (c : Nat) (h : c ∉ v) (h0 : c ≠ 0) :
    runtil (u ++ c :: v) c = u ∧ rfrom (u ++ c :: v) c = v := by
  have hb : scanBack c (u ++ c :: v) (u ++ c :: v).length = some u.length := by
    apply scanBack_at
    · simp [List.getD_eq_getElem?_getD, List.getElem?_append]
    · simp
    · intro q hq hq2 e
      simp only [List.length_append, List.length_cons] at hq2
      have e2 : (u ++ c :: v ++ [0]).getD q 0 = (v ++ [0]).getD (q - u.length - 1) 0 := by
        obtain ⟨d, rfl⟩ : ∃ d, q = u.length + (d + 1) := ⟨q - u.length - 1, by omega⟩
        have : u.length + (d + 1) - u.length - 1 = d := by omega
        rw [this]
        simp only [List.getD_eq_getElem?_getD, List.append_assoc, List.cons_append]
        rw [List.getElem?_append_right (by omega)]
        have : u.length + (d + 1) - u.length = d + 1 := by omega
        rw [this, List.getElem?_cons_succ]
      rw [e2] at e
      have := getD_mem (v ++ [0]) (q - u.length - 1) (by simp; omega)
      rw [e] at this
      simp only [List.mem_append, List.mem_singleton] at this
      rcases this with m | m
      · exact h m
      · exact h0 m
  unfold runtil rfrom
  rw [hb]
  simp

/-- **C56.**  Joining the two parts again gives the identifier back. -/
theorem prefix_split (i : List Nat) (c : Nat) (h : c ∈ i) (h0 : c ≠ 0) :
    prefix' (some (until' i c)) (from' i c) c = some i ∧
      prefix' (some (runtil i c)) (some (rfrom i c)) c = some i := by
  constructor
  · obtain ⟨u, v, rfl, h2, _⟩ := scanFwd_split c i h
    obtain ⟨e1, e2⟩ := until_from_spec u v c h2
    rw [e1, e2]
    simp [prefix', h0]
  · obtain ⟨u, v, h1, h2, _⟩ := scanFwd_split c i.reverse (by simpa using h)
    have hi : i = v.reverse ++ c :: u.reverse := by
      have := congrArg List.reverse h1
      simpa using this
    subst hi
    obtain ⟨e1, e2⟩ := runtil_rfrom_spec v.reverse u.reverse c (by simpa using h2) h0
    rw [e1, e2]
    simp [prefix', h0]

example : 46 ∈ [97, 46, 98, 46, 99] ∧ until' [97, 46, 98, 46, 99] 46 = [97] ∧
    rfrom [97, 46, 98, 46, 99] 46 = [99] := by decide

/-- The components that repeated calls of `ident_walk_selected` give. -/
def components : Nat → Option (List Nat) → List (List Nat)
  | 0, _ => []
  | n + 1, it =>
    match walkSelected it with
    | (none, _) => []
    | (some c, it) => c :: components n it

/-- State of quoting after reading a string. -/
def escAfter (e : Esc) (s : List Nat) : Esc := s.foldl escNext e

/-- No dot of `s` is outside quotes. -/
def NoBareDot (e : Esc) : List Nat → Prop
  | [] => True
  | b :: bs => (b = 46 → e ≠ .none) ∧ NoBareDot (escNext e b) bs

theorem scanSel_spec (i : List Nat) : ∀ e, ∃ u v, i = u ++ v ∧ scanSel e i = u.length ∧
    NoBareDot e u ∧ (v = [] ∨ ∃ w, v = 46 :: w ∧ escAfter e u = .none) := by
  induction i with
  | nil => intro e; exact ⟨[], [], rfl, rfl, trivial, .inl rfl⟩
  | cons b i ih =>
    intro e
    unfold scanSel
    by_cases c : b = 46 ∧ e = .none
    · rw [if_pos c]
      exact ⟨[], b :: i, rfl, rfl, trivial, .inr ⟨i, by rw [c.1], c.2⟩⟩
    · rw [if_neg c]
      obtain ⟨u, v, h1, h2, h3, h4⟩ := ih (escNext e b)
      refine ⟨b :: u, v, by simp [h1], by simp [h2], ⟨fun hb he => c ⟨hb, he⟩, h3⟩, ?_⟩
      rcases h4 with h4 | ⟨w, h4, h5⟩
      · exact .inl h4
      · exact .inr ⟨w, h4, h5⟩

/-- Joining with dots. -/
def joinDots : List (List Nat) → List Nat
  | [] => []
  | [c] => c
  | c :: cs => c ++ 46 :: joinDots cs

/-- **C56.**  `ident_walk_selected` splits a selected name into components without a dot
outside quotes, and joining the components with dots gives the name back.  As many calls
as the name has characters, and one more, are enough. -/
theorem walkSelected_components (i : List Nat) : ∀ (n : Nat), i.length < n →
    joinDots (components n (some i)) = i ∧ components n (some i) ≠ [] ∧
      ∀ c ∈ components n (some i), NoBareDot .none c := by
  suffices h : ∀ (n : Nat) (i : List Nat), i.length < n →
      joinDots (components n (some i)) = i ∧ components n (some i) ≠ [] ∧
      ∀ c ∈ components n (some i), NoBareDot .none c from fun n => h n i
  intro n
  induction n with
  | zero => intro i h; omega
  | succ n ih =>
    intro i hn
    obtain ⟨u, v, h1, h2, h3, h4⟩ := scanSel_spec i .none
    unfold components walkSelected
    simp only [h2]
    rcases h4 with rfl | ⟨w, rfl, h5⟩
    · simp only [List.append_nil] at h1
      subst h1
      simp only [if_true]
      have : components n none = [] := by cases n <;> simp [components, walkSelected]
      rw [this]
      refine ⟨rfl, by simp, ?_⟩
      intro c hc
      simp only [List.mem_singleton] at hc
      subst hc; exact h3
    · have hne : ¬ u.length = i.length := by rw [h1]; simp
      rw [if_neg hne]
      subst h1
      have e1 : (u ++ 46 :: w).take u.length = u := by simp
      have e2 : (u ++ 46 :: w).drop (u.length + 1) = w := by simp
      simp only [e1, e2]
      have hw : w.length < n := by simp at hn; omega
      obtain ⟨g1, g2, g3⟩ := ih w hw
      refine ⟨?_, by simp, ?_⟩
      · cases hc : components n (some w) with
        | nil => exact absurd hc g2
        | cons x xs =>
          rw [hc] at g1
          simp only [joinDots]
          rw [g1]
      · intro c hc
        rcases List.mem_cons.1 hc with rfl | hc
        · exact h3
        · exact g3 c hc

/-- A component of a selected name, independently of the scan: plain characters, literals in
quotes (39) and extended identifiers in backslashes (92), inside of which the other two
special characters have no meaning. -/
inductive Comp : List Nat → Prop where
  | nil : Comp []
  | plain (b : Nat) (s : List Nat) : b ≠ 46 → b ≠ 39 → b ≠ 92 → Comp s → Comp (b :: s)
  | lit (q s : List Nat) : 39 ∉ q → Comp s → Comp (39 :: (q ++ 39 :: s))
  | ext (q s : List Nat) : 92 ∉ q → Comp s → Comp (92 :: (q ++ 92 :: s))

theorem scanSel_quote (q s : List Nat) (hq : 39 ∉ q) :
    scanSel .quote (q ++ 39 :: s) = q.length + 1 + scanSel .none s := by
  induction q with
  | nil => simp [scanSel, escNext]; omega
  | cons b q ih =>
    have hb : b ≠ 39 := fun h => hq (by simp [h])
    have := ih (fun h => hq (List.mem_cons_of_mem _ h))
    simp [scanSel, escNext, hb, this]; omega

theorem scanSel_backslash (q s : List Nat) (hq : 92 ∉ q) :
    scanSel .backslash (q ++ 92 :: s) = q.length + 1 + scanSel .none s := by
  induction q with
  | nil => simp [scanSel, escNext]; omega
  | cons b q ih =>
    have hb : b ≠ 92 := fun h => hq (by simp [h])
    have := ih (fun h => hq (List.mem_cons_of_mem _ h))
    simp [scanSel, escNext, hb, this]; omega

theorem scanSel_comp (c r : List Nat) (h : Comp c) :
    scanSel .none (c ++ r) = c.length + scanSel .none r := by
  induction h with
  | nil => simp
  | plain b s h1 h2 h3 _ ih => simp [scanSel, escNext, h1, h2, h3, ih]; omega
  | lit q s hq _ ih =>
    have := scanSel_quote q (s ++ r) hq
    simp [scanSel, escNext, this, ih]; omega
  | ext q s hq _ ih =>
    have := scanSel_backslash q (s ++ r) hq
    simp [scanSel, escNext, this, ih]; omega

/-- **C56.**  A name made by joining components with dots is split into exactly these
components, where dots, quotes and backslashes inside literals and extended identifiers
count as ordinary characters. -/
theorem walkSelected_exact (cs : List (List Nat)) (hne : cs ≠ []) (hc : ∀ c ∈ cs, Comp c) :
    ∀ n, cs.length < n → components n (some (joinDots cs)) = cs := by
  induction cs with
  | nil => exact absurd rfl hne
  | cons c cs ih =>
    intro n hn
    cases n with
    | zero => omega
    | succ n =>
      have hcc := hc c (by simp)
      unfold components walkSelected
      cases cs with
      | nil =>
        have h := scanSel_comp c [] hcc
        simp only [List.append_nil, scanSel, Nat.add_zero] at h
        have : components n none = [] := by cases n <;> simp [components, walkSelected]
        simp [joinDots, h, this]
      | cons d ds =>
        have h := scanSel_comp c (46 :: joinDots (d :: ds)) hcc
        have h0 : scanSel .none (46 :: joinDots (d :: ds)) = 0 := by simp [scanSel]
        rw [h0, Nat.add_zero] at h
        have e : joinDots (c :: d :: ds) = c ++ 46 :: joinDots (d :: ds) := rfl
        have hr := ih (by simp) (fun x hx => hc x (by simp [hx])) n (by simpa using hn)
        simp only [e, h]
        rw [if_neg (by simp)]
        simp [hr]

/-- The components `p`, `'.'`, `\'.\` (with a quote and a dot in an extended identifier). -/
example : ∀ c ∈ [[112], [39, 46, 39], [92, 39, 46, 92]], Comp c := by
  intro c hc
  simp only [List.mem_cons, List.not_mem_nil, or_false] at hc
  rcases hc with rfl | rfl | rfl
  · exact .plain 112 [] (by decide) (by decide) (by decide) .nil
  · exact .lit [46] [] (by decide) .nil
  · exact .ext [39, 46] [] (by decide) .nil

/-- `w.'.'.\.\` has three components. -/
example : components 20 (some [119, 46, 39, 46, 39, 46, 92, 46, 92]) =
    [[119], [39, 46, 39], [92, 46, 92]] := by decide

/-! ## C57: case -/

theorem toupper_sse (x : Nat) (hx : x < 128) :
    sseUpper (BitVec.ofNat 8 x) = BitVec.ofNat 8 (toupper x) := by
  have : ∀ x : Fin 128, sseUpper (BitVec.ofNat 8 x) = BitVec.ofNat 8 (toupper x) := by
    decide +kernel
  exact this ⟨x, hx⟩

theorem sse_toupper (x y : Nat) (hx : x < 256) (hy : y < 256)
    (h : sseUpper (BitVec.ofNat 8 x) = sseUpper (BitVec.ofNat 8 y)) : toupper x = toupper y := by
  have key : ∀ x : Fin 256, toupper (sseUpper (BitVec.ofNat 8 x)).toNat = toupper x := by
    decide +kernel
  have h1 := key ⟨x, hx⟩
  have h2 := key ⟨y, hy⟩
  simp only at h1 h2
  rw [← h1, ← h2, h]

theorem toupper_lt (x : Nat) (h : x < 256) : toupper x < 256 := by
  unfold toupper; split
  · omega
  · split <;> omega

theorem casecmpBlocks_spec (a b : List Nat) (len : Nat) : ∀ pos, pos % 16 = 0 →
    (casecmpBlocks a b pos len = true ↔ ∀ k, pos ≤ k → k < (len + 15) / 16 * 16 →
      sseUpper (BitVec.ofNat 8 (a.getD k 0)) = sseUpper (BitVec.ofNat 8 (b.getD k 0))) := by
  intro pos hp
  induction hd : len - pos using Nat.strongRecOn generalizing pos with
  | ind d ih =>
    unfold casecmpBlocks
    by_cases c : pos < len
    · rw [dif_pos c, Bool.and_eq_true, ih (len - (pos + 16)) (by omega) (pos + 16) (by omega) rfl]
      simp only [List.all_eq_true, List.mem_range, decide_eq_true_eq]
      constructor
      · rintro ⟨h1, h2⟩ k hk1 hk2
        by_cases ck : k < pos + 16
        · have := h1 (k - pos) (by omega)
          have e : pos + (k - pos) = k := by omega
          rw [e] at this; exact this
        · exact h2 k (by omega) hk2
      · intro h
        refine ⟨fun k hk => h (pos + k) (by omega) (by omega), fun k hk1 hk2 => h k (by omega) hk2⟩
    · rw [dif_neg c]
      simp only [true_iff]
      intro k h1 h2
      omega

theorem padded_getD (a : List Nat) (k : Nat) : (padded a).getD k 0 = a.getD k 0 := by
  unfold padded
  simp only [List.getD_eq_getElem?_getD, List.getElem?_append, List.getElem?_replicate]
  by_cases c : k < a.length
  · rw [if_pos c]
  · rw [if_neg c, List.getElem?_eq_none (by omega)]
    split <;> rfl

/-- All blocks read by the vector loop lie within the allocated bytes. -/
theorem padded_room (a : List Nat) : (a.length + 15) / 16 * 16 ≤ (padded a).length := by
  simp only [padded, List.length_append, List.length_replicate]; omega

theorem casecmpSse_spec (a b : List Nat) : casecmpSse a b = true ↔ a.length = b.length ∧
    ∀ k, k < a.length →
      sseUpper (BitVec.ofNat 8 (a.getD k 0)) = sseUpper (BitVec.ofNat 8 (b.getD k 0)) := by
  unfold casecmpSse
  by_cases c : a = b
  · subst c; simp
  · rw [if_neg c]
    by_cases c2 : a.length = b.length
    · simp only [c2, ne_eq, not_true_eq_false, if_false, true_and]
      rw [casecmpBlocks_spec _ _ _ 0 rfl]
      simp only [padded_getD]
      constructor
      · intro h k hk; exact h k (by omega) (by omega)
      · intro h k _ hk
        by_cases ck : k < b.length
        · exact h k ck
        · have e1 : a.getD k 0 = 0 := by
            rw [List.getD_eq_getElem?_getD, List.getElem?_eq_none (by omega)]; rfl
          have e2 : b.getD k 0 = 0 := by
            rw [List.getD_eq_getElem?_getD, List.getElem?_eq_none (by omega)]; rfl
          rw [e1, e2]
    · simp [c2]

/-- **C57, restricted to ASCII.**  The vector code compares letters without regard to case. -/
theorem casecmp_ascii_partial (a b : List Nat) (ha : ∀ x ∈ a, x < 128) (hb : ∀ x ∈ b, x < 128) :
    casecmpSse a b = true ↔ a.map toupper = b.map toupper := by
  rw [casecmpSse_spec]
  have hg : ∀ (l : List Nat), (∀ x ∈ l, x < 128) → ∀ k, l.getD k 0 < 128 := by
    intro l hl k
    by_cases c : k < l.length
    · exact hl _ (getD_mem l k c)
    · rw [List.getD_eq_getElem?_getD, List.getElem?_eq_none (by omega)]; simp
  constructor
  · rintro ⟨h1, h2⟩
    apply List.ext_getElem (by simp [h1])
    intro k hk1 hk2
    simp only [List.length_map] at hk1 hk2
    have := h2 k hk1
    rw [toupper_sse _ (hg a ha k), toupper_sse _ (hg b hb k)] at this
    have e := congrArg BitVec.toNat this
    simp only [BitVec.toNat_ofNat] at e
    rw [Nat.mod_eq_of_lt (toupper_lt _ (by have := hg a ha k; omega)),
      Nat.mod_eq_of_lt (toupper_lt _ (by have := hg b hb k; omega))] at e
    simp only [List.getElem_map]
    rw [List.getD_eq_getElem?_getD, List.getD_eq_getElem?_getD, List.getElem?_eq_getElem hk1,
      List.getElem?_eq_getElem hk2] at e
    exact e
  · intro h
    have hl : a.length = b.length := by have := congrArg List.length h; simpa using this
    refine ⟨hl, fun k hk => ?_⟩
    rw [toupper_sse _ (hg a ha k), toupper_sse _ (hg b hb k)]
    congr 1
    have h1 : (a.map toupper)[k]'(by simpa using hk) = (b.map toupper)[k]'(by simpa [← hl] using hk) := by
      simp only [h]
    simp only [List.getElem_map] at h1
    rw [List.getD_eq_getElem?_getD, List.getD_eq_getElem?_getD, List.getElem?_eq_getElem hk,
      List.getElem?_eq_getElem (by omega)]
    exact h1

/-- **C57 does not hold** for all of ISO 8859-1 on x86-64: "é" and "É" differ. -/
theorem casecmp_counterexample :
    casecmpSse [0xe9] [0xc9] = false ∧ casecmpPlain [0xe9] [0xc9] = true := by decide +kernel

/-- **C57.**  Identifiers that compare equal have the same hash, so that tables keyed by it
find them, on every architecture. -/
theorem casehash_consistent (a b : List Nat) (ha : ∀ x ∈ a, x < 256) (hb : ∀ x ∈ b, x < 256)
    (h : casecmpSse a b = true ∨ casecmpPlain a b = true) : casehash a = casehash b := by
  have key : a.map toupper = b.map toupper → casehash a = casehash b := by
    intro e
    have : ∀ (l : List Nat) (h : BitVec 32), l.foldl (fun (h : BitVec 32) b => ((h <<< 5) + h) +
        (BitVec.ofNat 8 (toupper b)).signExtend 32) h =
        (l.map toupper).foldl (fun (h : BitVec 32) b => ((h <<< 5) + h) +
          (BitVec.ofNat 8 b).signExtend 32) h := by
      intro l h; rw [List.foldl_map]
    unfold casehash
    rw [this, this, e]
  apply key
  rcases h with h | h
  · rw [casecmpSse_spec] at h
    obtain ⟨h1, h2⟩ := h
    apply List.ext_getElem (by simp [h1])
    intro k hk1 hk2
    simp only [List.length_map] at hk1 hk2
    have h3 := sse_toupper _ _ (ha _ (getD_mem a k hk1)) (hb _ (getD_mem b k hk2)) (h2 k hk1)
    simp only [List.getElem_map]
    rw [List.getD_eq_getElem?_getD, List.getD_eq_getElem?_getD, List.getElem?_eq_getElem hk1,
      List.getElem?_eq_getElem hk2] at h3
    exact h3
  · unfold casecmpPlain at h
    by_cases c : a = b
    · rw [c]
    · rw [if_neg c] at h
      by_cases c2 : a.length = b.length
      · simp only [c2, ne_eq, not_true_eq_false, if_false, List.all_eq_true, decide_eq_true_eq] at h
        apply List.ext_getElem (by simp [c2])
        intro k hk1 hk2
        simp only [List.length_map] at hk1 hk2
        simp only [List.getElem_map]
        have := h (a[k], b[k]) (by
          have : (a.zip b)[k]'(by simp; omega) = (a[k], b[k]) := by simp
          rw [← this]; exact List.getElem_mem _)
        exact this
      · simp [c2] at h

/-- The characters of `toupper` and `tolower` are inverse to each other on letters. -/
theorem toupper_tolower (x : Nat) (h : x < 256) :
    toupper (tolower x) = toupper x ∧ tolower (toupper x) = tolower x := by
  have key : ∀ x : Fin 256, toupper (tolower x) = toupper x ∧ tolower (toupper x) = tolower x := by
    decide +kernel
  exact key ⟨x, h⟩

end Verif.Ident
