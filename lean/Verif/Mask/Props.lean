import Verif.Mask.Refine

/-!
# C11: bit masks behave as finite sets

The specification works on several sets `Nat → Bool` over the universe `{0, …, n-1}`,
held in numbered registers.  A program is a list of operations on the registers; every
operation yields an observation.
-/

namespace Verif.Mask

/-- The operations of the bit mask interface; `r`, `q` name masks. -/
inductive Op where
  | set (r b : Nat)
  | clear (r b : Nat)
  | setRange (r start count : Nat)
  | clearRange (r start count : Nat)
  | setAll (r : Nat)
  | clearAll (r : Nat)
  | testAndSet (r b : Nat)
  | subtract (r q : Nat)
  | union (r q : Nat)
  | intersect (r q : Nat)
  | copy (r q : Nat)
  | test (r b : Nat)
  | testRange (r start count : Nat)
  | popcount (r : Nat)
  | scanBackwards (r b : Nat)
  | countClear (r b : Nat)
  | eq (r q : Nat)
  | iter (r next : Nat)

/-- What an operation returns. -/
inductive Obs where
  | unit
  | bool (b : Bool)
  | nat (n : Nat)
  | int (i : Int)
  | next (o : Option Nat)
  deriving DecidableEq

/-- Register update. -/
def upd {α : Type} (f : Nat → α) (r : Nat) (a : α) : Nat → α := fun i => if i = r then a else f i

/-! ## Specification -/

/-- The caller's obligation: elements and ranges lie within the universe. -/
def Op.valid (n : Nat) : Op → Prop
  | .set _ b | .clear _ b | .testAndSet _ b | .test _ b | .scanBackwards _ b | .countClear _ b => b < n
  | .setRange _ s c | .clearRange _ s c | .testRange _ s c => s + c ≤ n
  | _ => True

/-- The effect and observation of each operation on sets. -/
def specStep (n : Nat) (st : Nat → Nat → Bool) : Op → (Nat → Nat → Bool) × Obs
  | .set r b => (upd st r (fun i => if i = b then true else st r i), .unit)
  | .clear r b => (upd st r (fun i => if i = b then false else st r i), .unit)
  | .setRange r s c => (upd st r (fun i => if s ≤ i ∧ i < s + c then true else st r i), .unit)
  | .clearRange r s c => (upd st r (fun i => if s ≤ i ∧ i < s + c then false else st r i), .unit)
  | .setAll r => (upd st r (fun i => decide (i < n)), .unit)
  | .clearAll r => (upd st r (fun _ => false), .unit)
  | .testAndSet r b => (upd st r (fun i => if i = b then true else st r i), .bool (st r b))
  | .subtract r q => (upd st r (fun i => st r i && !st q i), .unit)
  | .union r q => (upd st r (fun i => st r i || st q i), .unit)
  | .intersect r q => (upd st r (fun i => st r i && st q i), .unit)
  | .copy r q => (upd st r (st q), .unit)
  | .test r b => (st, .bool (st r b))
  | .testRange r s c => (st, .bool ((List.range n).any fun i => decide (s ≤ i ∧ i < s + c) && st r i))
  | .popcount r => (st, .nat ((List.range n).countP (st r)))
  | .scanBackwards r b =>
    -- the greatest element not above b, or -1
    (st, .int (((List.range (b + 1)).reverse.find? (st r)).elim (-1) Int.ofNat))
  | .countClear r b =>
    -- how many consecutive non-elements there are from b on
    (st, .nat (((List.range n).drop b).takeWhile fun i => !st r i).length)
  | .eq r q => (st, .bool ((List.range n).all fun i => st r i == st q i))
  | .iter r k =>
    -- the least element from k on
    (st, .next ((List.range n).find? fun i => decide (k ≤ i) && st r i))

/-- Observations of a program on sets. -/
def specRun (n : Nat) (st : Nat → Nat → Bool) : List Op → List Obs
  | [] => []
  | op :: ops => (specStep n st op).2 :: specRun n (specStep n st op).1 ops

/-! ## The model's execution of a program -/

/-- One operation on the masks of the implementation; `none` is undefined behaviour or a
failed assertion. -/
def step (ms : Nat → Mask) : Op → Option ((Nat → Mask) × Obs)
  | .set r b => (set (ms r) b).map fun m => (upd ms r m, .unit)
  | .clear r b => (clear (ms r) b).map fun m => (upd ms r m, .unit)
  | .setRange r s c => (setRange (ms r) s c).map fun m => (upd ms r m, .unit)
  | .clearRange r s c => (clearRange (ms r) s c).map fun m => (upd ms r m, .unit)
  | .setAll r => (setAll (ms r)).map fun m => (upd ms r m, .unit)
  | .clearAll r => (clearAll (ms r)).map fun m => (upd ms r m, .unit)
  | .testAndSet r b => (testAndSet (ms r) b).map fun p => (upd ms r p.2, .bool p.1)
  | .subtract r q => (subtract (ms r) (ms q)).map fun m => (upd ms r m, .unit)
  | .union r q => (union (ms r) (ms q)).map fun m => (upd ms r m, .unit)
  | .intersect r q => (intersect (ms r) (ms q)).map fun m => (upd ms r m, .unit)
  | .copy r q => (copy (ms r) (ms q)).map fun m => (upd ms r m, .unit)
  | .test r b => (test (ms r) b).map fun v => (ms, .bool v)
  | .testRange r s c => (testRange (ms r) s c).map fun v => (ms, .bool v)
  | .popcount r => some (ms, .nat (popcount (ms r)))
  | .scanBackwards r b => (scanBackwards (ms r) b).map fun v => (ms, .int v)
  | .countClear r b => (countClear (ms r) b).map fun v => (ms, .nat v)
  | .eq r q => (eq (ms r) (ms q)).map fun v => (ms, .bool v)
  | .iter r k => (iter (ms r) k).map fun v => (ms, .next v)

/-- A whole program. -/
def run (ms : Nat → Mask) : List Op → Option (List Obs)
  | [] => some []
  | op :: ops => do
    let (ms', o) ← step ms op
    let os ← run ms' ops
    some (o :: os)

theorem rep_upd {ms : Nat → Mask} {st : Nat → Nat → Bool} {n : Nat}
    (h : ∀ r, Rep (ms r) n (st r)) (r : Nat) {m : Mask} {s : Nat → Bool} (hm : Rep m n s) :
    ∀ q, Rep (upd ms r m q) n (upd st r s q) := by
  intro q
  unfold upd
  by_cases c : q = r
  · simp only [c, if_true]; exact hm
  · simp only [c, if_false]; exact h q

theorem step_refines {ms : Nat → Mask} {st : Nat → Nat → Bool} {n : Nat}
    (h : ∀ r, Rep (ms r) n (st r)) (op : Op) (hv : op.valid n) :
    ∃ ms', step ms op = some (ms', (specStep n st op).2) ∧
      ∀ r, Rep (ms' r) n ((specStep n st op).1 r) := by
  cases op with
  | set r b =>
    obtain ⟨m, e, hm⟩ := set_rep (h r) b hv
    exact ⟨upd ms r m, by simp only [step, e]; rfl, rep_upd h r hm⟩
  | clear r b =>
    obtain ⟨m, e, hm⟩ := clear_rep (h r) b hv
    exact ⟨upd ms r m, by simp only [step, e]; rfl, rep_upd h r hm⟩
  | setRange r s c =>
    obtain ⟨m, e, hm⟩ := setRange_rep (h r) s c hv
    exact ⟨upd ms r m, by simp only [step, e]; rfl, rep_upd h r hm⟩
  | clearRange r s c =>
    obtain ⟨m, e, hm⟩ := clearRange_rep (h r) s c hv
    exact ⟨upd ms r m, by simp only [step, e]; rfl, rep_upd h r hm⟩
  | setAll r =>
    obtain ⟨m, e, hm⟩ := setRange_rep (h r) 0 n (by omega)
    refine ⟨upd ms r m, by simp only [step, setAll, (h r).size, e]; rfl, rep_upd h r ?_⟩
    have : (fun i => if 0 ≤ i ∧ i < 0 + n then true else st r i) = fun i => decide (i < n) := by
      funext i
      by_cases c : i < n
      · simp [c]
      · simp [c, (h r).out i (by omega)]
    rw [this] at hm; exact hm
  | clearAll r =>
    obtain ⟨m, e, hm⟩ := clearRange_rep (h r) 0 n (by omega)
    refine ⟨upd ms r m, by simp only [step, clearAll, (h r).size, e]; rfl, rep_upd h r ?_⟩
    have : (fun i => if 0 ≤ i ∧ i < 0 + n then false else st r i) = fun _ => false := by
      funext i
      by_cases c : i < n
      · simp [c]
      · simp [(h r).out i (by omega)]
    rw [this] at hm; exact hm
  | testAndSet r b =>
    have ht := test_rep (h r) b hv
    cases hb : st r b with
    | true =>
      refine ⟨upd ms r (ms r), ?_, ?_⟩
      · simp only [step, testAndSet, ht, hb, specStep, Option.bind_eq_bind, Option.bind_some,
          if_true, Option.map_some]
      · apply rep_upd h r
        have : (fun i => if i = b then true else st r i) = st r := by
          funext i
          by_cases c : i = b
          · subst c; simp [hb]
          · simp [c]
        rw [this]; exact h r
    | false =>
      obtain ⟨m, e, hm⟩ := set_rep (h r) b hv
      refine ⟨upd ms r m, ?_, rep_upd h r hm⟩
      simp only [step, testAndSet, ht, hb, specStep, Option.bind_eq_bind, Option.bind_some,
        Bool.false_eq_true, if_false, e, Option.map_some]
  | subtract r q =>
    obtain ⟨m, e, hm⟩ := combine_rep (h r) (h q) (fun a b => a &&& ~~~b) (fun a b => a && !b)
      (by intro a b i hi; simp [hi]) rfl
    exact ⟨upd ms r m, by simp only [step, subtract, e]; rfl, rep_upd h r hm⟩
  | union r q =>
    obtain ⟨m, e, hm⟩ := combine_rep (h r) (h q) (fun a b => a ||| b) (fun a b => a || b)
      (by intro a b i hi; simp) rfl
    exact ⟨upd ms r m, by simp only [step, union, e]; rfl, rep_upd h r hm⟩
  | intersect r q =>
    obtain ⟨m, e, hm⟩ := combine_rep (h r) (h q) (fun a b => a &&& b) (fun a b => a && b)
      (by intro a b i hi; simp) rfl
    exact ⟨upd ms r m, by simp only [step, intersect, e]; rfl, rep_upd h r hm⟩
  | copy r q =>
    obtain ⟨m, e, hm⟩ := combine_rep (h r) (h q) (fun _ b => b) (fun _ b => b)
      (by intro a b i hi; rfl) rfl
    exact ⟨upd ms r m, by simp only [step, copy, e]; rfl, rep_upd h r hm⟩
  | test r b => exact ⟨ms, by simp only [step, test_rep (h r) b hv]; rfl, h⟩
  | testRange r s c =>
    refine ⟨ms, ?_, h⟩
    simp only [step, testRange_rep (h r) s c hv, specStep, Option.map_some]
    have : anyIn (st r) s c = (List.range n).any fun i => decide (s ≤ i ∧ i < s + c) && st r i := by
      rw [Bool.eq_iff_iff, anyIn_iff, List.any_eq_true]
      constructor
      · rintro ⟨j, h1, h2, h3⟩
        refine ⟨j, List.mem_range.mpr ?_, by simp [h1, h2, h3]⟩
        have : s + c ≤ n := hv
        omega
      · rintro ⟨j, _, h2⟩
        rw [Bool.and_eq_true, decide_eq_true_eq] at h2
        exact ⟨j, h2.1.1, h2.1.2, h2.2⟩
    rw [this]
  | popcount r => exact ⟨ms, by simp only [step, popcount_rep (h r)]; rfl, h⟩
  | scanBackwards r b =>
    refine ⟨ms, ?_, h⟩
    simp only [step, scan_rep (h r) b hv, specStep, Option.map_some]
    unfold scanMax
    cases (List.range (b + 1)).reverse.find? (st r) <;> rfl
  | countClear r b => exact ⟨ms, by simp only [step, countClear_rep (h r) b hv]; rfl, h⟩
  | eq r q => exact ⟨ms, by simp only [step, eq_rep (h r) (h q)]; rfl, h⟩
  | iter r k => exact ⟨ms, by simp only [step, iter_rep (h r) k]; rfl, h⟩

/-- **C11.**  For every size and every program whose elements and ranges lie within the
size, no operation reads or writes outside the allocated words, and every observation is
the one made on finite sets. -/
theorem mask_refines_set (n : Nat) (ops : List Op) (hv : ∀ op ∈ ops, op.valid n) :
    run (fun _ => init n) ops = some (specRun n (fun _ _ => false) ops) := by
  have main : ∀ (ops : List Op) (ms : Nat → Mask) (st : Nat → Nat → Bool),
      (∀ r, Rep (ms r) n (st r)) → (∀ op ∈ ops, op.valid n) →
      run ms ops = some (specRun n st ops) := by
    intro ops
    induction ops with
    | nil => intros; rfl
    | cons op ops ih =>
      intro ms st h hv
      obtain ⟨ms', e, h'⟩ := step_refines h op (hv op (by simp))
      have := ih ms' _ h' (fun o ho => hv o (by simp [ho]))
      simp only [run, e, this, Option.bind_eq_bind, Option.bind_some, specRun]
  exact main ops _ _ (fun _ => init_rep n) hv

/-- A non-trivial program of valid operations on masks of 130 bits. -/
example : ∀ op ∈ [Op.setRange 0 60 70, .clear 0 64, .scanBackwards 0 64, .countClear 1 3, .union 1 0,
    .popcount 1, .iter 1 64], op.valid 130 := by
  simp [Op.valid]

example : run (fun _ => init 130) [Op.setRange 0 60 70, .clear 0 64, .scanBackwards 0 64,
    .countClear 1 3, .union 1 0, .popcount 1, .iter 1 64] =
    some [.unit, .unit, .int 63, .nat 127, .unit, .nat 69, .next (some 65)] := by
  decide +kernel

end Verif.Mask
