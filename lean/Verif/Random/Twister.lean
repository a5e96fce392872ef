import Verif.Random.Model

/-
Property C98: the random numbers are those of MT19937.
-/

namespace Verif.Random

open Spec

theorem mix_eq (u l : Word) : mix u l = joined u l := by
  apply BitVec.eq_of_getLsbD_eq
  intro i hi
  have h1 : ∀ i < 32, (0x80000000#32).getLsbD i = decide (i = 31) := by decide
  have h2 : ∀ i < 32, (0x7FFFFFFF#32).getLsbD i = decide (i < 31) := by decide
  unfold mix joined
  rw [BitVec.getLsbD_or, BitVec.getLsbD_and, BitVec.getLsbD_and, h1 i hi, h2 i hi]
  show _ = (u.extractLsb' 31 1 ++ l.extractLsb' 0 31 : BitVec (1 + 31)).getLsbD i
  rw [BitVec.getLsbD_append]
  by_cases h : i < 31
  · have : i ≠ 31 := by omega
    simp [h, this]
  · have : i = 31 := by omega
    subst this
    simp

theorem mag_eq (m y : Word) : m ^^^ (y >>> 1) ^^^ mag01 y = m ^^^ timesA y := by
  have h : (y &&& 1#32 = 0#32) ↔ y.getLsbD 0 = false := by
    constructor
    · intro h
      have := congrArg (fun b => BitVec.getLsbD b 0) h
      simpa using this
    · intro h
      apply BitVec.eq_of_getLsbD_eq
      intro i hi
      have h1 : ∀ i < 32, (1#32).getLsbD i = decide (i = 0) := by decide
      have h0 : ∀ i < 32, (0#32).getLsbD i = false := by decide
      rw [BitVec.getLsbD_and, h1 i hi, h0 i hi]
      by_cases e : i = 0
      · subst e; rw [h]; rfl
      · simp [e]
  unfold mag01 timesA
  cases hb : y.getLsbD 0 with
  | false => rw [if_pos (h.mpr hb)]; simp
  | true =>
    rw [if_neg (fun e => by rw [h.mp e] at hb; cases hb), if_pos rfl, BitVec.xor_assoc]

theorem temper_eq (y : Word) : temperWord y = temper y := rfl

/-- The array holds the words from `b` on. -/
def Holds (x : Nat → Word) (b : Nat) (mt : Mem) : Prop := ∀ i : Nat, i < 624 → mt i = x (b + i)

theorem initLoop_eq (seed : Word) (x : Nat → Word) (h : Words seed x) (mt : Mem) (n : Nat)
    (hn : n ≤ 623) (i : Nat) (hi : i ≤ n) : initLoop n (set mt 0 seed) i = x i := by
  induction n generalizing i with
  | zero =>
    have : i = 0 := by omega
    subst this
    simp [initLoop, set, h.first]
  | succ n ih =>
    have ih2 := ih (by omega)
    unfold initLoop at ih2 ⊢
    rw [List.range_succ, List.foldl_append, List.foldl_cons, List.foldl_nil]
    by_cases e : i = n + 1
    · subst e
      rw [set, if_pos rfl, ih2 n (Nat.le_refl n), h.init n (by omega)]
    · rw [set, if_neg e]
      exact ih2 i (by omega)

attribute [local irreducible] initLoop

theorem init_holds (seed : Word) (x : Nat → Word) (h : Words seed x) (mt : Mem) :
    Holds x 0 (init mt seed).mt := by
  intro i hi
  rw [Nat.zero_add, init]
  exact initLoop_eq seed x h mt 623 (Nat.le_refl _) i (by omega)

/-- The words of the array while it is changed: `k` of them are new. -/
def Partly (x : Nat → Word) (b k : Nat) (mt : Mem) : Prop :=
  (∀ i : Nat, i < k → mt i = x (b + 624 + i)) ∧ ∀ i : Nat, k ≤ i → i < 624 → mt i = x (b + i)

theorem partly_step (x : Nat → Word) (seed : Word) (h : Words seed x) (b k : Nat) (hk : k < 624)
    (mt : Mem) (hp : Partly x b k mt) (src nxt : Nat)
    (hs : mt src = x (b + k + 397)) (hn : mt nxt = x (b + k + 1)) :
    Partly x b (k + 1) (set mt k (word (mt src) (mt k) (mt nxt))) := by
  have hr := h.recur (b + k)
  have hc := hp.2 k (Nat.le_refl k) hk
  constructor
  · intro i hi
    by_cases e : i = k
    · subst e
      rw [set, if_pos rfl, word, mag_eq, mix_eq, hs, hn, hc, ← hr,
        show b + i + 624 = b + 624 + i by omega]
    · rw [set, if_neg e]
      exact hp.1 i (by omega)
  · intro i hi hi2
    rw [set, if_neg (by omega)]
    exact hp.2 i (by omega) hi2

theorem loop1_partly (seed : Word) (x : Nat → Word) (h : Words seed x) (b : Nat) (mt : Mem)
    (p0 : Partly x b 0 mt) (n : Nat) (hn : n ≤ 227) : Partly x b n (loop1 n mt) := by
  induction n with
  | zero => exact p0
  | succ n ih =>
    have hp := ih (by omega)
    have e : loop1 (n + 1) mt = set (loop1 n mt) n
        (word (loop1 n mt (n + 397)) (loop1 n mt n) (loop1 n mt (n + 1))) := by
      unfold loop1
      rw [List.range_succ, List.foldl_append, List.foldl_cons, List.foldl_nil]
    rw [e]
    refine partly_step x seed h b n (by omega) _ hp (n + 397) (n + 1) ?_ ?_
    · rw [hp.2 (n + 397) (by omega) (by omega), ← Nat.add_assoc]
    · rw [hp.2 (n + 1) (by omega) (by omega), ← Nat.add_assoc]

theorem loop2_partly (seed : Word) (x : Nat → Word) (h : Words seed x) (b : Nat) (mt : Mem)
    (p0 : Partly x b 227 mt) (n : Nat) (hn : n ≤ 396) : Partly x b (227 + n) (loop2 n mt) := by
  induction n with
  | zero => exact p0
  | succ n ih =>
    have hp := ih (by omega)
    have e : loop2 (n + 1) mt = set (loop2 n mt) (227 + n)
        (word (loop2 n mt (227 + n - 227)) (loop2 n mt (227 + n)) (loop2 n mt (227 + n + 1))) := by
      unfold loop2
      rw [List.range_succ, List.foldl_append, List.foldl_cons, List.foldl_nil]
    rw [e]
    refine partly_step x seed h b (227 + n) (by omega) _ hp (227 + n - 227) (227 + n + 1) ?_ ?_
    · rw [hp.1 (227 + n - 227) (by omega),
        show b + 624 + (227 + n - 227) = b + (227 + n) + 397 by omega]
    · rw [hp.2 (227 + n + 1) (by omega) (by omega), ← Nat.add_assoc]

attribute [local irreducible] loop1 loop2

/-- The twist makes the next 624 words. -/
theorem twist_holds (seed : Word) (x : Nat → Word) (h : Words seed x) (b : Nat) (mt : Mem)
    (hm : Holds x b mt) : Holds x (b + 624) (twist mt) := by
  have p0 : Partly x b 0 mt := ⟨fun i hi => by omega, fun i _ hi => hm i hi⟩
  have q1 := loop1_partly seed x h b mt p0 227 (Nat.le_refl _)
  have q2 := loop2_partly seed x h b _ q1 396 (Nat.le_refl _)
  have q3 := partly_step x seed h b 623 (by omega) _ q2 396 0
    (by rw [q2.1 396 (by omega), show b + 624 + 396 = b + 623 + 397 by omega])
    (by rw [q2.1 0 (by omega), show b + 624 + 0 = b + 623 + 1 by omega])
  intro i hi
  exact q3.1 i hi

/-- The state after `n` numbers. -/
def After (x : Nat → Word) (n : Nat) (s : State) : Prop :=
  ∃ b : Nat, s.mti ≤ 624 ∧ Holds x b s.mt ∧ b + s.mti = 624 + n

theorem next_after (seed : Word) (x : Nat → Word) (h : Words seed x) (n : Nat) (s : State)
    (ha : After x n s) :
    ∃ s2 : State, next s = some (temper (x (624 + n)), s2) ∧ After x (n + 1) s2 := by
  obtain ⟨b, h1, h2, h3⟩ := ha
  unfold next
  by_cases e : s.mti = 624
  · rw [if_pos e]
    have ht := twist_holds seed x h b s.mt h2
    have h0 := ht 0 (by omega)
    rw [show b + 624 + 0 = 624 + n by omega] at h0
    refine ⟨⟨twist s.mt, 1⟩, ?_, b + 624, ?_, ht, ?_⟩
    · rw [← h0]; rfl
    · show 1 ≤ 624
      omega
    · show b + 624 + 1 = 624 + (n + 1)
      omega
  · rw [if_neg e, if_pos (by omega)]
    have h0 := h2 s.mti (by omega)
    rw [h3] at h0
    refine ⟨⟨s.mt, s.mti + 1⟩, ?_, b, ?_, h2, ?_⟩
    · rw [← h0]; rfl
    · show s.mti + 1 ≤ 624
      omega
    · show b + (s.mti + 1) = 624 + (n + 1)
      omega

/-- The numbers are the tempered words of MT19937 with the seed, from the
first one made by the recurrence on, and no assertion fails. -/
theorem random_is_mt19937 (seed : Word) (x : Nat → Word) (h : Words seed x) (n : Nat) :
    calls seed n start = some ((List.range n).map fun k => temper (x (624 + k))) := by
  have gen : ∀ (m k : Nat) (s : State), After x k s →
      calls seed m s = some ((List.range m).map fun j => temper (x (624 + (k + j)))) := by
    intro m
    induction m with
    | zero => intro k s _; rfl
    | succ m ih =>
      intro k s ha
      obtain ⟨s2, e, h2⟩ := next_after seed x h k s ha
      have hle : ¬ s.mti > 624 := by
        obtain ⟨_, h3, _⟩ := ha
        omega
      rw [calls, getRandom, if_neg hle, e]
      show Option.map _ (calls seed m s2) = _
      rw [ih (k + 1) s2 h2, List.range_succ_eq_map, List.map_cons, List.map_map]
      show some (_ :: _) = some (_ :: _)
      congr 2
      apply List.map_congr_left
      intro j _
      show temper (x (624 + (k + 1 + j))) = temper (x (624 + (k + (j + 1))))
      congr 2
      omega
  cases n with
  | zero => rfl
  | succ m =>
    have ha : After x 0 (init start.mt seed) :=
      ⟨0, Nat.le_refl _, init_holds seed x h _, rfl⟩
    have := gen (m + 1) 0 (init start.mt seed) ha
    have e : calls seed (m + 1) start = calls seed (m + 1) (init start.mt seed) := by
      rw [calls, calls]
      have e1 : getRandom seed start = next (init start.mt seed) := by
        rw [getRandom, if_pos (show start.mti > 624 by decide)]
      have hm : (init start.mt seed).mti = 624 := rfl
      have e2 : getRandom seed (init start.mt seed) = next (init start.mt seed) := by
        rw [getRandom, if_neg (by rw [hm]; decide)]
      rw [e1, e2]
    rw [e, this]
    simp

/-! ## There is such a sequence -/

/-- The words, by recursion. -/
def words (seed : Word) (k : Nat) : Word :=
  if _h0 : k = 0 then seed
  else if _h : k < 624 then
    1812433253#32 * (words seed (k - 1) ^^^ (words seed (k - 1) >>> 30)) + BitVec.ofNat 32 k
  else words seed (k - 227) ^^^ timesA (joined (words seed (k - 624)) (words seed (k - 623)))
termination_by k

theorem words_rec (seed : Word) (k : Nat) (h : ¬ k < 624) :
    words seed k = words seed (k - 227) ^^^
      timesA (joined (words seed (k - 624)) (words seed (k - 623))) := by
  rw [words, dif_neg (by omega), dif_neg h]

theorem words_exist (seed : Word) : Words seed (words seed) := by
  refine ⟨by rw [words, dif_pos rfl], ?_, ?_⟩
  · intro i hi
    rw [words, dif_neg (by omega), dif_pos hi, Nat.add_sub_cancel]
  · intro k
    have gen (m : Nat) (hm : m = k + 624) : words seed m = words seed (k + 397) ^^^
        timesA (joined (words seed k) (words seed (k + 1))) := by
      have e1 : m - 227 = k + 397 := by omega
      have e2 : m - 624 = k := by omega
      have e3 : m - 623 = k + 1 :=
        Nat.sub_eq_of_eq_add (hm.trans (by rw [Nat.add_assoc]))
      rw [words_rec seed m (by omega), e1, e2, e3]
    exact gen _ rfl

theorem words_unique (seed : Word) (x y : Nat → Word) (hx : Words seed x) (hy : Words seed y)
    (k : Nat) : x k = y k := by
  induction k using Nat.strongRecOn with
  | _ k ih =>
    by_cases h0 : k = 0
    · rw [h0, hx.first, hy.first]
    · by_cases h1 : k < 624
      · obtain ⟨j, rfl⟩ : ∃ j : Nat, k = j + 1 := ⟨k - 1, by omega⟩
        rw [hx.init j h1, hy.init j h1, ih j (by omega)]
      · obtain ⟨j, rfl⟩ : ∃ j : Nat, k = j + 624 := ⟨k - 624, by omega⟩
        rw [hx.recur j, hy.recur j, ih (j + 397) (by omega), ih j (by omega),
          ih (j + 1) (by omega)]

/-! ## Tempering loses nothing -/

theorem xor_shr_inj (s : Nat) (hs : 0 < s) (x y : Word)
    (h : x ^^^ (x >>> s) = y ^^^ (y >>> s)) : x = y := by
  have key : ∀ d i : Nat, i + d ≥ 32 → x.getLsbD i = y.getLsbD i := by
    intro d
    induction d using Nat.strongRecOn with
    | _ d ih =>
      intro i hd
      by_cases hi : 32 ≤ i
      · rw [BitVec.getLsbD_of_ge _ _ hi, BitVec.getLsbD_of_ge _ _ hi]
      · have e := congrArg (fun b => BitVec.getLsbD b i) h
        simp only [BitVec.getLsbD_xor, BitVec.getLsbD_ushiftRight] at e
        by_cases hd2 : d = 0
        · omega
        · have hn := ih (d - 1) (by omega) (s + i) (by omega)
          rw [hn] at e
          exact Bool.xor_right_inj.mp (by rw [Bool.xor_comm, e, Bool.xor_comm])
  exact BitVec.eq_of_getLsbD_eq fun i _ => key 32 i (by omega)

theorem xor_shl_inj (s : Nat) (hs : 0 < s) (m x y : Word)
    (h : x ^^^ ((x <<< s) &&& m) = y ^^^ ((y <<< s) &&& m)) : x = y := by
  have key : ∀ i : Nat, x.getLsbD i = y.getLsbD i := by
    intro i
    induction i using Nat.strongRecOn with
    | _ i ih =>
      by_cases hi : 32 ≤ i
      · rw [BitVec.getLsbD_of_ge _ _ hi, BitVec.getLsbD_of_ge _ _ hi]
      · have e := congrArg (fun b => BitVec.getLsbD b i) h
        simp only [BitVec.getLsbD_xor, BitVec.getLsbD_and, BitVec.getLsbD_shiftLeft] at e
        have hn : ((decide (i < 32) && !decide (i < s)) && x.getLsbD (i - s)) =
            ((decide (i < 32) && !decide (i < s)) && y.getLsbD (i - s)) := by
          by_cases hl : i < s
          · simp [hl]
          · rw [ih (i - s) (by omega)]
        rw [hn] at e
        exact Bool.xor_right_inj.mp (by rw [Bool.xor_comm, e, Bool.xor_comm])
  exact BitVec.eq_of_getLsbD_eq fun i _ => key i

/-- Different words give different numbers. -/
theorem temper_inj (x y : Word) (h : temperWord x = temperWord y) : x = y :=
  xor_shr_inj 11 (by decide) x y
    (xor_shl_inj 7 (by decide) _ _ _
      (xor_shl_inj 15 (by decide) _ _ _
        (xor_shr_inj 18 (by decide) _ _ h)))

example : calls 5489#32 3 start =
    some ((List.range 3).map fun k => temper (words 5489#32 (624 + k))) :=
  random_is_mt19937 5489#32 (words 5489#32) (words_exist 5489#32) 3

end Verif.Random
