import Verif.FourState.Arith

/-
Property C91, third part: conversions, nets and the choice of the functions.
-/

namespace Verif.FourState

/-! ## Integers -/

theorem toLogic_loop (w : Nat) (i : Int) (hi : 0 ≤ i) :
    (∃ (n : Nat) (k : Int), Spec.num (toLogicLoop w i .zero) = some n ∧ i = n + 2 ^ w * k) ∧
    (∃ (n : Nat) (k : Int), Spec.num (toLogicLoop w i .one) = some n ∧ -(i + 1) = n + 2 ^ w * k) ∧
    ∀ b, (toLogicLoop w i b).length = w := by
  induction w generalizing i with
  | zero =>
    refine ⟨⟨0, i, rfl, by simp⟩, ⟨0, -(i + 1), rfl, by simp⟩, fun _ => rfl⟩
  | succ w ih =>
    have hd : i.tdiv 2 = i / 2 := Int.tdiv_eq_ediv_of_nonneg hi
    obtain ⟨⟨n, k, hn, hk⟩, ⟨m, j, hm, hj⟩, hlen⟩ := ih (i.tdiv 2) (by rw [hd]; omega)
    rw [hd] at hk hj
    have hp : ∀ x : Int, (2 : Int) ^ (w + 1) * x = 2 * (2 ^ w * x) := by
      intro x
      rw [Int.pow_succ, Int.mul_comm (2 ^ w) 2, Int.mul_assoc]
    refine ⟨?_, ?_, fun b => by simp [toLogicLoop, hlen]⟩
    · simp only [toLogicLoop]
      by_cases h : i % 2 = 0
      · refine ⟨2 * n, k, ?_, ?_⟩
        · rw [if_pos h, num_cons, hn]
          simp [Spec.known]
        · rw [hp]
          push_cast
          omega
      · refine ⟨2 * n + 1, k, ?_, ?_⟩
        · rw [if_neg h, num_cons, hn]
          simp [Spec.known, not2]
          omega
        · rw [hp]
          push_cast
          omega
    · simp only [toLogicLoop]
      by_cases h : i % 2 = 0
      · refine ⟨2 * m + 1, j, ?_, ?_⟩
        · rw [if_pos h, num_cons, hm]
          simp [Spec.known]
          omega
        · rw [hp]
          push_cast
          omega
      · refine ⟨2 * m, j, ?_, ?_⟩
        · rw [if_neg h, num_cons, hm]
          simp [Spec.known, not2]
        · rw [hp]
          push_cast
          omega

/-- **C91**: an integer is converted to its two's complement of any width. -/
theorem to_logic_correct (v : Int) (w : Nat) : (toLogic v w).length = w ∧
    ∃ n : Nat, Spec.num (toLogic v w) = some n ∧ (n : Int) = v % 2 ^ w := by
  have key : ∀ n : Nat, Spec.num (toLogic v w) = some n → (toLogic v w).length = w →
      ∀ k : Int, v = n + 2 ^ w * k → (n : Int) = v % 2 ^ w := by
    intro n hn hlen k hk
    have hlt := num_lt hn
    rw [hlen] at hlt
    have hlt' : (n : Int) < 2 ^ w := by exact_mod_cast hlt
    rw [hk, Int.add_mul_emod_self_left, Int.emod_eq_of_lt (by omega) hlt']
  unfold toLogic at *
  by_cases h : v < 0
  · simp only [h, if_true] at key ⊢
    obtain ⟨_, ⟨n, k, hn, hk⟩, hlen⟩ := toLogic_loop w (-(v + 1)) (by omega)
    exact ⟨hlen _, n, hn, key n hn (hlen _) k (by omega)⟩
  · simp only [h, if_false] at key ⊢
    obtain ⟨⟨n, k, hn, hk⟩, _, hlen⟩ := toLogic_loop w v (by omega)
    exact ⟨hlen _, n, hn, key n hn (hlen _) k hk⟩

/-- The number with unknown bits taken as zero. -/
def low (l : List L) : List L := l.map (fun a => if a = .one then .one else .zero)

theorem to_int_cons (a : L) (l : List L) : toInteger (a :: l) = toIntStep (toInteger l) a := by
  simp [toInteger]

/-- **C91**: a vector is converted to its number, with unknown bits taken as zero,
exactly if that is less than 2^63; otherwise there is an overflow. -/
theorem to_integer_correct (l : List L) : ∃ n, Spec.num (low l) = some n ∧
    toInteger l = if n < 2 ^ 63 then some n else none := by
  induction l with
  | nil => exact ⟨0, rfl, rfl⟩
  | cons a l ih =>
    obtain ⟨n, hn, hi⟩ := ih
    rw [to_int_cons, hi]
    have hlow : low (a :: l) = (if a = .one then L.one else .zero) :: low l := rfl
    rw [hlow]
    by_cases ha : a = .one
    · subst ha
      refine ⟨2 * n + 1, by rw [num_cons, hn]; simp [Spec.known]; omega, ?_⟩
      unfold toIntStep
      by_cases h : n < 2 ^ 63
      · simp only [h, if_true]
        by_cases h2 : n * 2 ≥ 2 ^ 63
        · rw [if_pos h2, if_neg (by omega)]
        · rw [if_neg h2]
          by_cases h3 : n * 2 + 1 ≥ 2 ^ 63
          · rw [if_pos h3, if_neg (by omega)]
          · rw [if_neg h3, if_pos (by omega), Nat.mul_comm]
      · simp only [h, if_false]
        rw [if_neg (by omega)]
    · refine ⟨2 * n, by rw [num_cons, hn]; simp [Spec.known, ha], ?_⟩
      unfold toIntStep
      by_cases h : n < 2 ^ 63
      · simp only [h, if_true, ha, if_false]
        by_cases h2 : n * 2 ≥ 2 ^ 63
        · rw [if_pos h2, if_neg (by omega)]
        · rw [if_neg h2, if_pos (by omega), Nat.mul_comm]
      · simp only [h, if_false]
        rw [if_neg (by omega)]

/-- Known vectors. -/
theorem to_integer_known {l : List L} {n : Nat} (h : Spec.num l = some n) :
    toInteger l = if n < 2 ^ 63 then some n else none := by
  obtain ⟨m, hm, hi⟩ := to_integer_correct l
  have : low l = l := by
    have hu : ¬ unkIn l := fun hu => by
      have := (num_none l).mpr hu
      rw [h] at this
      cases this
    unfold low
    conv => rhs; rw [← List.map_id l]
    apply List.map_congr_left
    intro a ha
    cases a with
    | X => exact absurd ⟨_, ha, rfl⟩ hu
    | Z => exact absurd ⟨_, ha, rfl⟩ hu
    | _ => rfl
  rw [this, h] at hm
  cases hm
  exact hi

/-- An integer and back. -/
theorem to_integer_to_logic (v : Int) (w : Nat) (h : 0 ≤ v) (hw : v < 2 ^ w) (h63 : v < 2 ^ 63) :
    toInteger (toLogic v w) = some v.toNat := by
  obtain ⟨_, n, hn, he⟩ := to_logic_correct v w
  rw [Int.emod_eq_of_lt h hw] at he
  rw [to_integer_known hn, if_pos (by omega)]
  congr 1
  omega

/-- `to_string` gives the digits from right to left. -/
theorem to_string_correct_iff (l : List L) :
    toStr l = l.reverse.map chr ↔ l = l.reverse := by
  unfold toStr
  constructor
  · intro h
    have hinj : ∀ a b : L, chr a = chr b → a = b := by
      intro a b; cases a <;> cases b <;> decide
    exact List.map_inj_right (fun a b => hinj a b) |>.mp h
  · intro h
    rw [← h]

theorem to_string_counterexample :
    toStr [.one, .zero] = ['1', '0'] ∧ [L.one, .zero].reverse.map chr = ['0', '1'] := by decide

/-! ## Nets -/

/-- **C91**: the coding of net values is one to one. -/
theorem decode_encode (n : Net) (h0 : n.s0 < 8) (h1 : n.s1 < 8) :
    decode (encode n) = n ∧ encode n < 256 := by
  obtain ⟨v, s0, s1⟩ := n
  simp only [decode, encode] at *
  have hp : pos v < 4 := by cases v <;> decide
  have e1 : (pos v + s0 * 4 + s1 * 32) % 4 = pos v := by omega
  have e2 : (pos v + s0 * 4 + s1 * 32) / 4 % 8 = s0 := by omega
  have e3 : (pos v + s0 * 4 + s1 * 32) / 32 % 8 = s1 := by omega
  rw [e1, e2, e3]
  exact ⟨by cases v <;> rfl, by omega⟩

theorem encode_decode (c : Nat) (h : c < 256) : encode (decode c) = c := by
  have hv : pos (val (c % 4)) = c % 4 := by
    have : c % 4 < 4 := by omega
    generalize c % 4 = d at *
    match d, this with
    | 0, _ => rfl
    | 1, _ => rfl
    | 2, _ => rfl
    | 3, _ => rfl
  simp only [encode, decode, hv]
  omega

/-- The drivers for which the resolution is right: strong 0 and 1, and z without
strength. -/
inductive Plain : Net → Prop where
  | zero : Plain ⟨.zero, 6, 6⟩
  | one : Plain ⟨.one, 6, 6⟩
  | z : Plain ⟨.Z, 0, 0⟩

/-- **C91**: wires driven by strong zeros and ones and by z without strength have
the value of table 6-2, whatever the order of the drivers. -/
theorem resolve_correct_partial (ds : List Net) (h : ∀ d ∈ ds, Plain d) :
    (resolve ds).v = (ds.map (·.v)).foldl Spec.wire .Z := by
  have key : ∀ (ds : List Net) (d : Net), (∀ e ∈ ds, Plain e) → (Plain d ∨ d = ⟨.X, 6, 6⟩) →
      (ds.foldl resolve1 d).v = (ds.map (·.v)).foldl Spec.wire d.v := by
    intro ds
    induction ds with
    | nil => intro d _ _; rfl
    | cons e ds ih =>
      intro d hds hd
      rw [List.forall_mem_cons] at hds
      simp only [List.foldl_cons, List.map_cons]
      have h1 : (Plain (resolve1 d e) ∨ resolve1 d e = ⟨.X, 6, 6⟩) ∧
          (resolve1 d e).v = Spec.wire d.v e.v := by
        rcases hd with (_ | _ | _) | rfl <;> cases hds.1 <;>
          exact ⟨by first | exact .inl .zero | exact .inl .one | exact .inl .z | exact .inr rfl,
            by decide⟩
      rw [ih _ hds.2 h1.1, h1.2]
  cases ds with
  | nil => rfl
  | cons d ds =>
    rw [List.forall_mem_cons] at h
    simp only [resolve, List.map_cons, List.foldl_cons]
    rw [key ds d h.2 (.inl h.1)]
    congr 1

/-- A continuous assignment of z, which is strong, hides a later driver. -/
theorem resolve_z_counterexample : (resolve [strong .Z, strong .one]).v = .Z ∧
    (resolve [strong .one, strong .Z]).v = .one ∧ Spec.wire .Z .one = .one := by decide

/-- A driver with x is ignored unless it is the first. -/
theorem resolve_x_counterexample : (resolve [strong .one, strong .X]).v = .one ∧
    (resolve [strong .X, strong .one]).v = .X ∧ Spec.wire .one .X = .X := by decide

/-- Two weak drivers that disagree make a strong x, which a stronger driver does not
overcome, if it is not the first. -/
theorem resolve_weak_counterexample :
    (resolve [⟨.zero, 3, 3⟩, ⟨.one, 3, 3⟩, strong .one]).v = .X ∧
    (resolve [strong .one, ⟨.zero, 3, 3⟩, ⟨.one, 3, 3⟩]).v = .one := by decide

/-! ## VHDL -/

/-- **C91**: values survive the way to VHDL and back. -/
theorem verilog_vhdl (a : L) : toVerilog (toVhdl a) = a := by cases a <;> rfl

theorem vhdl_verilog_iff (u : U) : toVhdl (toVerilog u) = u ↔
    u = .U ∨ u = .zero ∨ u = .one ∨ u = .Z := by cases u <;> decide

/-- **C91**: what a value of VHDL becomes: weak values count as strong ones, and
all but high impedance of the rest is unknown. -/
theorem to_verilog_iff (u : U) :
    (toVerilog u = .one ↔ u = .one ∨ u = .H) ∧ (toVerilog u = .zero ↔ u = .zero ∨ u = .Lo) ∧
    (toVerilog u = .Z ↔ u = .Z) ∧ (toVerilogNet u).v = toVerilog u := by
  cases u <;> decide

/-- Nets keep weak values; all other metalogical values become 'U'. -/
theorem vhdl_net_iff (u : U) : netToVhdl (toVerilogNet u) = u ↔
    ¬ (u = .X ∨ u = .W ∨ u = .dc) := by cases u <;> decide

/-! ## Operators of expressions -/

/-- The operators for which there is a function. -/
theorem binary_some_iff (op : Expr.Vlog.Bin) (l r : List L) : (binary op l r).isSome = true ↔
    op ∈ [.band, .land, .bor, .lor, .caseEq, .logEq, .caseNeq, .plus, .lt, .gt, .le, .ge] := by
  cases op <;> simp [binary]

/-- The values of the operators which have a function. -/
def Spec.result (op : Expr.Vlog.Bin) (l r : List L) : Option V :=
  match op with
  | .band => some (.vec (Spec.bitwise Spec.and1 l r))
  | .bor => some (.vec (Spec.bitwise Spec.or1 l r))
  | .land => some (.bit (Spec.and1 (Spec.truth l) (Spec.truth r)))
  | .lor => some (.bit (Spec.or1 (Spec.truth l) (Spec.truth r)))
  | .caseEq => some (.bool (Spec.caseEq l r))
  | .caseNeq => some (.bool (!Spec.caseEq l r))
  | .logEq => some (.bit (Spec.eq l r))
  | .plus => some (.vec (Spec.arith (max l.length r.length) (fun a b => a + b) l r))
  | .lt => some (.bit (Spec.rel (fun a b => decide (a < b)) l r))
  | .gt => some (.bit (Spec.rel (fun a b => decide (a > b)) l r))
  | .le => some (.bit (Spec.rel (fun a b => decide (a ≤ b)) l r))
  | .ge => some (.bit (Spec.rel (fun a b => decide (a ≥ b)) l r))
  | _ => none

/-- **C91**: with known operands of the same length every operator that has a
function, except `&&`, has the right value. -/
theorem binary_correct_partial (op : Expr.Vlog.Bin) (l r : List L) (hl : ¬ unkIn l)
    (hr : ¬ unkIn r) (hlen : l.length = r.length) (h : op ≠ .land) :
    binary op l r = Spec.result op l r := by
  have hd1 : l.drop r.length = [] := by simp [hlen]
  have hd2 : r.drop l.length = [] := by simp [hlen]
  have hx : NoExcess l r := by simp [NoExcess, hd1, hd2]
  have hz : ∀ p ∈ l.zip r, Spec.known p.1 ≠ none ∧ Spec.known p.2 ≠ none := by
    intro p hp
    have := List.of_mem_zip (a := p.1) (b := p.2) hp
    exact ⟨fun e => hl ⟨_, this.1, e⟩, fun e => hr ⟨_, this.2, e⟩⟩
  cases op <;> first
    | rfl
    | exact absurd rfl h
    | (simp only [binary, Spec.result]; congr 2)
  · exact add_correct_partial l r hl hr
  · exact (lt_correct_iff l r).mpr ⟨hl, hr, hx⟩
  · exact (gt_correct_iff l r).mpr ⟨hl, hr, hx⟩
  · exact (le_correct_iff l r).mpr ⟨hl, hr, hx⟩
  · exact (ge_correct_iff l r).mpr ⟨hl, hr, hx⟩
  · exact case_eq_correct l r
  · exact case_ne_correct l r
  · exact (eq_correct_iff l r).mpr (fun h => h.1.elim hl hr)
  · rw [and_array_correct_iff]
    intro p hp
    rw [and_correct_iff]
    simp [hz p hp]
  · rw [or_array_correct_iff, hd1, hd2]
    refine ⟨fun p hp => ?_, by simp, by simp⟩
    rw [or_correct_iff]
    simp [hz p hp]
  · exact (log_or_correct_iff l r).mpr (fun h => h.2.elim hl hr)

/-- There is no function for `!=` and binary `-`, though the code to call them is
made. -/
theorem binary_missing_counterexample (l r : List L) :
    binary .logNeq l r = none ∧ binary .minus l r = none := ⟨rfl, rfl⟩

-- vectors with known bits of different lengths, where the relations are right
example : ¬ unkIn [.one, .zero] ∧ ¬ unkIn [.one, .one, .zero] ∧
    NoExcess [.one, .zero] [.one, .one, .zero] := by decide

example : lt [.one, .zero] [.one, .one, .zero] = .one := by decide

-- 5 + 6 and - 5 with four bits
example : add [.one, .zero, .one, .zero] [.zero, .one, .one] = [.one, .one, .zero, .one] := by decide
example : neg [.one, .zero, .one, .zero] = [.one, .one, .zero, .one] := by decide
example : toLogic (-3) 4 = [.one, .zero, .one, .one] := by decide

-- drivers of a wire
example : ∀ d ∈ [strong .one, ⟨.Z, 0, 0⟩, strong .zero], Plain d := by
  intro d hd
  simp only [List.mem_cons, List.not_mem_nil, or_false] at hd
  rcases hd with rfl | rfl | rfl
  · exact .one
  · exact .z
  · exact .zero

example : (resolve [strong .one, ⟨.Z, 0, 0⟩, strong .zero]).v = .X := by decide

end Verif.FourState
