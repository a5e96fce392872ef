import Verif.Sim.NexusLemmas

/-!
# Properties of splitting signals

Specification: a signal of `w` elements is at all times covered by nexuses without gap or overlap;
asking for the elements `offset … offset + count - 1` never fails, the nexuses from the returned one
on cover exactly these elements, and the only new boundaries are the two that were asked for.
Whatever was scheduled on a driver keeps its bytes.
-/

namespace Verif.Sim.Nexus

/-! ## Specification -/

/-- The number of elements before nexus `i` -/
def before (l : List Nexus) (i : Nat) : Nat := ((l.take i).map Nexus.width).sum

/-- The nexuses cover elements `0 … w - 1` in order, and know where their bytes are. -/
def Covers (w : Nat) (s : Sig) : Prop :=
  before s.chain s.chain.length = w ∧
    ∀ (i : Nat) (n : Nexus), s.chain[i]? = some n → 0 < n.width ∧ n.offset = before s.chain i * s.sz

/-- Nexus `i` starts with element `x`. -/
def Boundary (s : Sig) (x : Nat) : Prop := ∃ i < s.chain.length, before s.chain i = x

/-- The bytes of the `k`th stored value of every nexus, in order, are `bs`. -/
def Stored (s : Sig) (k : Nat) (bs : List UInt8) : Prop :=
  ∃ parts : List (List UInt8), parts.length = s.chain.length ∧ parts.flatten = bs ∧
    ∀ (i : Nat) (n : Nexus) (p : List UInt8), s.chain[i]? = some n → parts[i]? = some p →
      ∃ v, n.vals[k]? = some v ∧ contents (n.width * s.sz) v = some p

/-- All states of a signal with `w` elements of `sz` bytes that at first holds `vals`. -/
inductive Reach (w sz : Nat) (vals : List Value) : Sig → Prop
  | new : 0 < w → 0 < sz → (∀ v ∈ vals, (contents (w * sz) v).isSome) →
      Reach w sz vals (newSignal w sz vals)
  | split {s s' : Sig} {junk1 junk2 : Nat → List UInt8} {offset count i : Nat} :
      Reach w sz vals s → 0 < count → offset + count ≤ w →
      splitNexus junk1 junk2 s offset count = some (s', i) → Reach w sz vals s'

/-! ## Between specification and invariant -/

theorem before_eq (l : List Nexus) (i : Nat) : before l i = len (l.take i) := rfl

theorem tiles_get {sz st : Nat} {l : List Nexus} (h : Tiles sz st l) (i : Nat) (n : Nexus)
    (hn : l[i]? = some n) : 0 < n.width ∧ n.offset = (st + before l i) * sz := by
  induction l generalizing st i with
  | nil => simp at hn
  | cons m l ih =>
    obtain ⟨h1, h2, _, h4⟩ := h
    cases i with
    | zero =>
      simp at hn
      subst hn
      exact ⟨h2, by simpa [before] using h1⟩
    | succ i =>
      obtain ⟨a, b⟩ := ih h4 i (by simpa using hn)
      refine ⟨a, ?_⟩
      rw [b, before_eq, before_eq, List.take_succ_cons, len_cons, Nat.add_assoc]

theorem starts_iff (st : Nat) (l : List Nexus) (x : Nat) :
    x ∈ starts st l ↔ ∃ i < l.length, st + before l i = x := by
  induction l generalizing st with
  | nil => simp [starts]
  | cons n l ih =>
    simp only [starts, List.mem_cons, ih]
    constructor
    · rintro (rfl | ⟨i, hi, rfl⟩)
      · exact ⟨0, by simp, by simp [before]⟩
      · exact ⟨i + 1, by simpa using hi, by
          rw [before_eq, before_eq, List.take_succ_cons, len_cons]; omega⟩
    · rintro ⟨i, hi, rfl⟩
      cases i with
      | zero => left; simp [before]
      | succ i =>
        right
        refine ⟨i, by simpa using hi, ?_⟩
        rw [before_eq, before_eq, List.take_succ_cons, len_cons]; omega

theorem boundary_iff (s : Sig) (x : Nat) : Boundary s x ↔ x ∈ starts 0 s.chain := by
  rw [starts_iff]; simp [Boundary]

theorem Inv.covers {w : Nat} {s : Sig} (h : Inv w s) : Covers w s := by
  refine ⟨by rw [before_eq, List.take_length]; exact h.total, fun i n hn => ?_⟩
  simpa using tiles_get h.tiles i n hn

theorem stored_iff (s : Sig) (k : Nat) (bs : List UInt8) :
    Stored s k bs ↔ image s.sz k s.chain = some bs := by
  unfold Stored
  generalize s.chain = l
  induction l generalizing bs with
  | nil =>
    constructor
    · rintro ⟨parts, h1, rfl, _⟩
      have := List.eq_nil_of_length_eq_zero h1
      simp [this, image]
    · intro h
      simp [image] at h
      exact ⟨[], rfl, by simpa using h, by simp⟩
  | cons n l ih =>
    constructor
    · rintro ⟨parts, h1, rfl, h3⟩
      cases parts with
      | nil => simp at h1
      | cons p parts =>
        obtain ⟨v, hv, hc⟩ := h3 0 n p rfl rfl
        have := (ih parts.flatten).1 ⟨parts, by simpa using h1, rfl, fun i m q hm hq =>
          h3 (i + 1) m q (by simpa using hm) (by simpa using hq)⟩
        simp [image, hv, hc, this]
    · intro h
      simp only [image] at h
      cases hv : n.vals[k]?.bind (contents (n.width * s.sz)) with
      | none => simp [hv] at h
      | some a =>
        cases hl : image s.sz k l with
        | none => simp [hv, hl] at h
        | some b =>
          simp only [hv, hl, Option.some.injEq] at h
          obtain ⟨parts, h1, h2, h3⟩ := (ih b).2 hl
          obtain ⟨v, hv1, hv2⟩ := Option.bind_eq_some_iff.1 hv
          refine ⟨a :: parts, by simp [h1], by simp [h2, h], ?_⟩
          intro i m p hm hp
          cases i with
          | zero =>
            simp at hm hp
            subst hm hp
            exact ⟨v, hv1, hv2⟩
          | succ i => exact h3 i m p (by simpa using hm) (by simpa using hp)

/-! ## One split -/

theorem splitSlow_ok {w : Nat} {s : Sig} (h : Inv w s) (junk1 junk2 : Nat → List UInt8)
    {offset count : Nat} (h0 : 0 < count) (hle : offset + count ≤ w) :
    ∃ s' A M B ix, splitSlow junk1 junk2 s offset count = some (s', A.length) ∧
      s' = { s with chain := A ++ M ++ B, index := ix } ∧ Inv w s' ∧ len A = offset ∧ len M = count ∧
      (∀ y, y ∈ starts 0 s'.chain ↔
        y ∈ starts 0 s.chain ∨ y = offset ∨ (y = offset + count ∧ y < w)) ∧
      (∀ k bs, image s.sz k s.chain = some bs → image s.sz k s'.chain = some bs) := by
  obtain ⟨ix0, x, r0, hlook, hx, hsum, hinv0, _⟩ := lookupIndex_ok h (show offset < w by omega)
  obtain ⟨a, b, hab, hpos, hxa⟩ := position_ok h.sz h.tiles hx
  simp only [Nat.zero_add] at hxa
  have htot := h.total
  rw [hab, len_append] at htot
  obtain ⟨c, n, d, r, hb, hskip, hr0, hrn⟩ := skip_ok (show r0 < len b by omega)
  have hdrop : s.chain.drop a.length = b := by simp [hab]
  -- the state after the split at the offset
  have hchain : s.chain = (a ++ c) ++ n :: d := by rw [hab, hb, List.append_assoc]
  have hoff : offset = len (a ++ c) + r := by rw [len_append]; omega
  obtain ⟨s1, A, R, ix1, hat, hs1, hinv1, hA, hst1, him1⟩ : ∃ s1 A R ix1,
      atOffset junk1 { s with index := ix0 } (a.length + c.length) r = some (s1, A.length) ∧
      s1 = { s with chain := A ++ R, index := ix1 } ∧ Inv w s1 ∧ len A = offset ∧
      (∀ y, y ∈ starts 0 s1.chain ↔ y ∈ starts 0 s.chain ∨ y = offset) ∧
      (∀ k bs, image s.sz k s.chain = some bs → image s.sz k s1.chain = some bs) := by
    unfold atOffset
    by_cases hr : r > 0
    · obtain ⟨old, new, ix, e, _, w1, w2, hi, hst, him⟩ :=
        cloneNexus_ok hinv0 junk1 (a := a ++ c) (b := d) (n := n) hchain hr hrn
      refine ⟨_, a ++ c ++ [old], new :: d, ix, ?_, rfl, ?_, ?_, ?_, ?_⟩
      · simp only [hr, if_true]
        rw [List.length_append] at e
        rw [e]
        simp [Nat.add_assoc]
      · simpa using hi
      · simp [w1]; rw [hoff, len_append]; omega
      · intro y
        have := hst y
        simp only [List.append_assoc, List.cons_append, List.nil_append] at this ⊢
        rw [this, hoff]
      · intro k bs hk
        have := him k bs hk
        simpa using this
    · have hr : r = 0 := by omega
      subst hr
      refine ⟨_, a ++ c, n :: d, ix0, ?_, ?_, hinv0, by omega, ?_, fun k bs hk => hk⟩
      · simp
      · simp [← hchain]
      · intro y
        simp only
        constructor
        · exact Or.inl
        · rintro (hy | rfl)
          · exact hy
          · rw [hchain, starts_append, hoff]
            simp [starts]
  subst hs1
  have htiles := hinv1.tiles
  simp only at htiles
  obtain ⟨_, hRt⟩ := tiles_append.1 htiles
  have htot1 := hinv1.total
  simp only [len_append] at htot1
  obtain ⟨M, B, q, hR, htake, hcount, hq⟩ := takeWhole_ok hRt (show count ≤ len R by omega)
  have hunf : splitSlow junk1 junk2 s offset count =
      (atCount junk2 { s with chain := A ++ R, index := ix1 } (A.length + M.length) q).map
        (·, A.length) := by
    unfold splitSlow
    simp only [hlook, hpos, hdrop, hskip, hat]
    simp only [List.drop_left, htake]
  rw [hunf]
  unfold atCount
  by_cases hq0 : q > 0
  · obtain ⟨n', B', rfl, hqn⟩ := hq hq0
    have hc' : ({ s with chain := A ++ R, index := ix1 } : Sig).chain = (A ++ M) ++ n' :: B' := by
      simp [hR]
    obtain ⟨old, new, ix, e, _, w1, w2, hi, hst, him⟩ :=
      cloneNexus_ok hinv1 junk2 hc' hq0 hqn
    refine ⟨_, A, M ++ [old], new :: B', ix, ?_, rfl, ?_, hA, ?_, ?_, ?_⟩
    · simp only [hq0, if_true]
      rw [List.length_append] at e
      rw [e]
      simp
    · simpa using hi
    · simp [w1]; omega
    · intro y
      have h1 := hst y
      have h2 := hst1 y
      simp only [List.append_assoc, List.cons_append, List.nil_append] at h1 h2 ⊢
      rw [h1, h2, len_append, hA]
      have : offset + count < w := by
        rw [hR, len_append, len_cons] at htot1
        omega
      rw [show offset + len M + q = offset + count by omega]
      grind
    · intro k bs hk
      have := him k bs (him1 k bs hk)
      simpa using this
  · have hq0 : q = 0 := by omega
    subst hq0
    refine ⟨_, A, M, B, ix1, by simp, by simp [hR], hinv1, hA, by omega, ?_, him1⟩
    intro y
    rw [hst1 y]
    constructor
    · rintro (h | h)
      · exact Or.inl h
      · exact Or.inr (Or.inl h)
    · rintro (h | h | ⟨rfl, hlt⟩)
      · exact Or.inl h
      · exact Or.inr h
      · rw [← hst1]
        simp only [hR]
        cases B with
        | nil => simp [hR] at htot1; omega
        | cons m B =>
          rw [← List.append_assoc, starts_append]
          simp [starts, hA]
          omega

theorem before_append (A M B : List Nexus) : before (A ++ M ++ B) A.length = len A := by
  rw [before_eq]; simp

/-- Everything about one call. -/
theorem splitNexus_ok {w : Nat} {s : Sig} (h : Inv w s) (junk1 junk2 : Nat → List UInt8)
    {offset count : Nat} (h0 : 0 < count) (hle : offset + count ≤ w) :
    ∃ s' A M B ix, splitNexus junk1 junk2 s offset count = some (s', A.length) ∧
      s' = { s with chain := A ++ M ++ B, index := ix } ∧ Inv w s' ∧ len A = offset ∧ len M = count ∧
      (∀ y, y ∈ starts 0 s'.chain ↔
        y ∈ starts 0 s.chain ∨ y = offset ∨ (y = offset + count ∧ y < w)) ∧
      (∀ k bs, image s.sz k s.chain = some bs → image s.sz k s'.chain = some bs) := by
  unfold splitNexus
  have hz := h.zero
  have htot := h.total
  cases hc : s.chain with
  | nil => exact absurd hc h.ne
  | cons n0 l =>
    rw [hc] at hz htot
    simp only
    split
    · rename_i hcnd
      obtain ⟨rfl, rfl⟩ := hcnd
      refine ⟨s, [], [n0], l, s.index, rfl, by simp [← hc], h, rfl, by simp, ?_, fun k bs hk => by
        rw [hc]; exact hk⟩
      intro y
      rw [hc]
      constructor
      · exact Or.inl
      · rintro (hy | rfl | ⟨rfl, hlt⟩)
        · exact hy
        · exact hz
        · cases l with
          | nil => simp at htot; omega
          | cons m l => simp [starts]
    · split
      · rename_i hcnd
        obtain ⟨rfl, rfl⟩ := hcnd
        rw [h.width] at *
        refine ⟨s, [], n0 :: l, [], s.index, rfl, by simp [← hc], h, rfl, htot, ?_, fun k bs hk => by
          rw [hc]; exact hk⟩
        intro y
        rw [hc]
        constructor
        · exact Or.inl
        · rintro (hy | rfl | ⟨rfl, hlt⟩)
          · exact hy
          · exact hz
          · omega
      · have := splitSlow_ok h junk1 junk2 h0 hle
        rw [hc] at this
        exact this

theorem reach_inv {w sz : Nat} {vals : List Value} {s : Sig} (h : Reach w sz vals s) :
    Inv w s ∧ s.sz = sz ∧
      ∀ k bs, (vals[k]?.bind (contents (w * sz))) = some bs → image s.sz k s.chain = some bs := by
  induction h with
  | new hw hsz hv =>
    refine ⟨⟨hsz, rfl, hw, by simp [newSignal], ?_, by simp [newSignal]⟩, rfl, ?_⟩
    · exact ⟨by simp, hw, hv, trivial⟩
    · intro k bs hk
      simp [newSignal, image, hk]
  | split _ h0 hle e ih =>
    obtain ⟨hi, hsz, him⟩ := ih
    obtain ⟨s'', A, M, B, ix, e', hs, hi', _, _, _, him'⟩ := splitNexus_ok hi _ _ h0 hle
    rw [e] at e'
    cases e'
    refine ⟨hi', by rw [hs]; exact hsz, fun k bs hk => ?_⟩
    have : image _ k _ = some bs := him' k bs (him k bs hk)
    rw [hs] at this ⊢
    exact this

/-! ## The theorems -/

/-- At all times the nexuses of a signal cover it without gap or overlap. -/
theorem always_covered {w sz : Nat} {vals : List Value} {s : Sig} (h : Reach w sz vals s) :
    Covers w s :=
  (reach_inv h).1.covers

/-- A request for any nonempty range succeeds: no assertion fails and the index is never read or
written outside its bounds. The nexuses from the returned one on cover exactly the range. -/
theorem split_exact {w sz : Nat} {vals : List Value} {s : Sig} (h : Reach w sz vals s)
    (junk1 junk2 : Nat → List UInt8) (offset count : Nat) (h0 : 0 < count) (hle : offset + count ≤ w) :
    ∃ s' i m, splitNexus junk1 junk2 s offset count = some (s', i) ∧ i + m ≤ s'.chain.length ∧
      before s'.chain i = offset ∧ before s'.chain (i + m) = offset + count := by
  obtain ⟨s', A, M, B, ix, e, hs, _, hA, hM, _⟩ := splitNexus_ok (reach_inv h).1 junk1 junk2 h0 hle
  refine ⟨s', A.length, M.length, e, by rw [hs]; simp, ?_, ?_⟩
  · rw [hs, before_eq]; simp [hA]
  · rw [hs, before_eq]
    simp only [← List.length_append, List.take_left, len_append]
    omega

/-- The only boundaries that appear are the two ends of the range, and none disappears. -/
theorem split_boundaries {w sz : Nat} {vals : List Value} {s s' : Sig} (h : Reach w sz vals s)
    {junk1 junk2 : Nat → List UInt8} {offset count i : Nat} (h0 : 0 < count) (hle : offset + count ≤ w)
    (e : splitNexus junk1 junk2 s offset count = some (s', i)) (x : Nat) :
    Boundary s' x ↔ Boundary s x ∨ x = offset ∨ (x = offset + count ∧ x < w) := by
  obtain ⟨s'', A, M, B, ix, e', hs, _, _, _, hst, _⟩ := splitNexus_ok (reach_inv h).1 junk1 junk2 h0 hle
  rw [e] at e'
  cases e'
  rw [boundary_iff, boundary_iff]
  exact hst x

/-- Splitting keeps every stored value: whatever the drivers held at first is still there, byte for
byte, spread over the nexuses. -/
theorem values_kept {w sz : Nat} {vals : List Value} {s : Sig} (h : Reach w sz vals s) (k : Nat)
    (v : Value) (bs : List UInt8) (hv : vals[k]? = some v) (hb : contents (w * sz) v = some bs) :
    Stored s k bs := by
  rw [stored_iff]
  exact (reach_inv h).2.2 k bs (by simp [hv, hb])

/-- `split_value` gives exactly the two parts of a value, for any sizes. -/
theorem split_value_parts (sz width offset : Nat) (junk : List UInt8) (v : Value) (bs : List UInt8)
    (h : contents ((offset + width) * sz) v = some bs) :
    ∃ vn vo lo hi, splitValue sz width junk v offset = some (vn, vo) ∧
      contents (offset * sz) vo = some lo ∧ contents (width * sz) vn = some hi ∧ lo ++ hi = bs := by
  obtain ⟨vn, vo, e, h1, h2⟩ := splitValue_ok junk h
  exact ⟨vn, vo, _, _, e, h2, h1, List.take_append_drop ..⟩

/-! ## The index makes no difference -/

theorem clone_noindex {w : Nat} {s : Sig} {ix0 : Option Index} (h : Inv w s)
    (h' : Inv w { s with index := ix0 }) (junk : Nat → List UInt8) {a b : List Nexus} {n : Nexus}
    (hc : s.chain = a ++ n :: b) {r : Nat} (h0 : 0 < r) (hr : r < n.width) :
    ∃ s1 s2, cloneNexus junk s a.length r = some s1 ∧
      cloneNexus junk { s with index := ix0 } a.length r = some s2 ∧
      s1.chain = s2.chain ∧ s1.sz = s2.sz ∧ s1.bytes = s2.bytes ∧ Inv w s1 ∧ Inv w s2 := by
  obtain ⟨o, n1, ix, e, es, _, _, hi, _⟩ := cloneNexus_ok h junk hc h0 hr
  obtain ⟨o', n1', ix', e', es', _, _, hi', _⟩ := cloneNexus_ok h' junk hc h0 hr
  rw [show s.sz = ({ s with index := ix0 } : Sig).sz from rfl] at es
  rw [es] at es'
  cases es'
  exact ⟨_, _, e, e', rfl, rfl, rfl, hi, hi'⟩

theorem splitSlow_noindex {w : Nat} {s : Sig} (h : Inv w s) (junk1 junk2 : Nat → List UInt8)
    {offset count : Nat} (h0 : 0 < count) (hle : offset + count ≤ w) :
    ∃ s1 s2 i, splitSlow junk1 junk2 s offset count = some (s1, i) ∧
      splitSlow junk1 junk2 { s with index := none } offset count = some (s2, i) ∧
      s1.chain = s2.chain := by
  have hn : Inv w { s with index := none } :=
    ⟨h.sz, h.bytes, h.pos, h.total, h.tiles, by simp⟩
  obtain ⟨ix0, x, r0, hlook, hx, hsum, hinv0, _⟩ := lookupIndex_ok h (show offset < w by omega)
  obtain ⟨a, b, hab, hpos, hxa⟩ := position_ok h.sz h.tiles hx
  simp only [Nat.zero_add] at hxa
  have htot := h.total
  rw [hab, len_append] at htot
  obtain ⟨c, n, d, r, hb, hskip, hr0, hrn⟩ := skip_ok (show r0 < len b by omega)
  have hdrop : s.chain.drop a.length = b := by simp [hab]
  have hchain : s.chain = (a ++ c) ++ n :: d := by rw [hab, hb, List.append_assoc]
  have hskip0 : skip offset s.chain = some (a.length + c.length, r) := by
    rw [hsum, hxa, hab, skip_append, hskip]; rfl
  obtain ⟨n0, l0, hc0⟩ : ∃ n l, s.chain = n :: l := by
    cases e : s.chain with
    | nil => exact absurd e h.ne
    | cons n l => exact ⟨n, l, rfl⟩
  have hlook0 : lookupIndex { s with index := none } offset =
      some ({ s with index := none }, n0.offset, offset) := by
    simp [lookupIndex, hc0]
  have hpos0 : position n0.offset s.chain = some 0 := by simp [hc0, position]
  -- after the first step
  obtain ⟨s1, s2, i, hat1, hat2, hch, hi1, hi2⟩ : ∃ s1 s2 i,
      atOffset junk1 { s with index := ix0 } (a.length + c.length) r = some (s1, i) ∧
      atOffset junk1 { s with index := none } (a.length + c.length) r = some (s2, i) ∧
      (s2.chain = s1.chain ∧ s2.sz = s1.sz ∧ s2.bytes = s1.bytes) ∧ Inv w s1 ∧ Inv w s2 := by
    unfold atOffset
    by_cases hr : r > 0
    · obtain ⟨s1, s2, e1, e2, c1, c2, c3, i1, i2⟩ := clone_noindex (ix0 := none) hinv0 hn junk1
        (a := a ++ c) hchain hr hrn
      rw [List.length_append] at e1 e2
      refine ⟨s1, s2, a.length + c.length + 1, ?_, ?_, ⟨c1.symm, c2.symm, c3.symm⟩, i1, i2⟩
      · simp [hr, e1]
      · simp only [hr, if_true]
        rw [show ({ s with index := none } : Sig) =
          { ({ s with index := ix0 } : Sig) with index := none } from rfl, e2]
        rfl
    · simp only [hr, if_false]
      exact ⟨_, _, _, rfl, rfl, ⟨rfl, rfl, rfl⟩, hinv0, hn⟩
  have hs2 : s2 = { s1 with index := s2.index } := by
    cases s1; cases s2; simp_all
  -- the second step
  obtain ⟨sA, A, M, B, ix, eA, -, -, hA, -⟩ := splitSlow_ok h junk1 junk2 h0 hle
  have u1 : splitSlow junk1 junk2 s offset count =
      match takeWhole count (s1.chain.drop i) with
      | none => none
      | some (m, q) => (atCount junk2 s1 (i + m) q).map (·, i) := by
    unfold splitSlow
    simp only [hlook, hpos, hdrop, hskip, hat1]
    cases takeWhole count (s1.chain.drop i) <;> rfl
  have u2 : splitSlow junk1 junk2 { s with index := none } offset count =
      match takeWhole count (s1.chain.drop i) with
      | none => none
      | some (m, q) => (atCount junk2 s2 (i + m) q).map (·, i) := by
    unfold splitSlow
    simp only [hlook0, hpos0, List.drop_zero, hskip0, Nat.zero_add, hat2, hch.1]
    cases takeWhole count (s1.chain.drop i) <;> rfl
  rw [u1] at eA ⊢
  rw [u2]
  obtain ⟨t1, ht1⟩ : ∃ l, s1.chain.take i = l := ⟨_, rfl⟩
  have hsplit : s1.chain = s1.chain.take i ++ s1.chain.drop i := (List.take_append_drop ..).symm
  have htt := hi1.tiles
  rw [hsplit] at htt
  obtain ⟨_, hRt⟩ := tiles_append.1 htt
  cases htk : takeWhole count (s1.chain.drop i) with
  | none => rw [htk] at eA; simp at eA
  | some mq =>
    obtain ⟨m, q⟩ := mq
    rw [htk] at eA
    simp only at eA ⊢
    unfold atCount at eA ⊢
    by_cases hq : q > 0
    · simp only [hq, if_true] at eA ⊢
      cases hcl : cloneNexus junk2 s1 (i + m) q with
      | none => simp [hcl] at eA
      | some s1' =>
        have hget : ∃ n', s1.chain[i + m]? = some n' ∧ q < n'.width := by
          unfold cloneNexus at hcl
          cases hg : s1.chain[i + m]? with
          | none => simp [hg] at hcl
          | some n' =>
            refine ⟨n', rfl, ?_⟩
            simp only [hg] at hcl
            by_cases hlt : q < n'.width
            · exact hlt
            · simp [hlt] at hcl
        obtain ⟨n', hg, hlt⟩ := hget
        obtain ⟨hlt2, hgn⟩ := List.getElem?_eq_some_iff.1 hg
        have hdec : s1.chain = s1.chain.take (i + m) ++ n' :: s1.chain.drop (i + m + 1) := by
          rw [← hgn, ← List.drop_eq_getElem_cons, List.take_append_drop]
        have hlen : (s1.chain.take (i + m)).length = i + m := by
          rw [List.length_take]; omega
        have := clone_noindex (ix0 := s2.index) hi1 (by rw [← hs2]; exact hi2) junk2 hdec hq hlt
        rw [hlen, ← hs2] at this
        obtain ⟨x1, x2, e1, e2, c1, _⟩ := this
        rw [e1] at hcl
        cases hcl
        refine ⟨s1', x2, i, by simp, by rw [e2]; rfl, c1⟩
    · simp only [hq, if_false] at eA ⊢
      exact ⟨s1, s2, i, rfl, rfl, hch.1.symm⟩

/-- Dropping the index at any time changes neither the nexuses nor the one returned. -/
theorem index_irrelevant {w sz : Nat} {vals : List Value} {s : Sig} (h : Reach w sz vals s)
    (junk1 junk2 : Nat → List UInt8) (offset count : Nat) (h0 : 0 < count) (hle : offset + count ≤ w) :
    ∃ s1 s2 i, splitNexus junk1 junk2 s offset count = some (s1, i) ∧
      splitNexus junk1 junk2 { s with index := none } offset count = some (s2, i) ∧
      s1.chain = s2.chain := by
  have hi := (reach_inv h).1
  unfold splitNexus
  cases hc : s.chain with
  | nil => exact absurd hc hi.ne
  | cons n0 l =>
    simp only
    split
    · exact ⟨_, _, _, rfl, rfl, hc⟩
    · split
      · exact ⟨_, _, _, rfl, rfl, hc⟩
      · have := splitSlow_noindex hi junk1 junk2 h0 hle
        simpa [hc] using this

/-- Looking up element `offset` by the index and then walking on from the nexus found, as
`split_nexus_slow` does, ends at the nexus that contains the element, in any state; the index, if it is
not dropped, and the nexuses stay as they are. -/
theorem lookup_covers {w sz : Nat} {vals : List Value} {s : Sig} (h : Reach w sz vals s) (offset : Nat)
    (ho : offset < w) :
    ∃ s' noff rem i k r n, lookupIndex s offset = some (s', noff, rem) ∧ s'.chain = s.chain ∧
      (s'.index = s.index ∨ s'.index = none) ∧
      position noff s.chain = some i ∧ skip rem (s.chain.drop i) = some (k, r) ∧
      s.chain[i + k]? = some n ∧ r < n.width ∧ before s.chain (i + k) + r = offset := by
  have hinv := (reach_inv h).1
  obtain ⟨ix0, x, r0, hlook, hx, hsum, _, hix⟩ := lookupIndex_ok hinv ho
  obtain ⟨a, b, hab, hpos, hxa⟩ := position_ok hinv.sz hinv.tiles hx
  simp only [Nat.zero_add] at hxa
  have htot := hinv.total
  rw [hab, len_append] at htot
  obtain ⟨c, n, d, r, hb, hskip, hr0, hrn⟩ := skip_ok (show r0 < len b by omega)
  refine ⟨_, _, _, _, _, _, n, hlook, rfl, hix, hpos, by simpa [hab] using hskip, ?_, hrn, ?_⟩
  · simp [hab, hb]
  · rw [before_eq, hab, hb, ← List.append_assoc, ← List.length_append, List.take_left, len_append]
    omega

/-- Element `j` of nexus `i` is where it was before any split, `sz` times its number from the start. -/
theorem element_address {w sz : Nat} {vals : List Value} {s : Sig} (h : Reach w sz vals s) (i j : Nat)
    (n : Nexus) (hn : s.chain[i]? = some n) (hj : j < n.width) :
    n.offset + j * sz = (before s.chain i + j) * sz ∧ before s.chain i + j < w := by
  obtain ⟨hinv, hsz, _⟩ := reach_inv h
  have h1 := (hinv.covers.2 i n hn).2
  rw [hsz] at h1
  refine ⟨by rw [h1, Nat.add_mul], ?_⟩
  obtain ⟨hlt, hg⟩ := List.getElem?_eq_some_iff.1 hn
  have ht := hinv.total
  rw [← List.take_append_drop i s.chain, List.drop_eq_getElem_cons hlt, len_append, len_cons, hg] at ht
  rw [before_eq]
  omega

/-! ## Examples -/

/-- Ten requests for one element each of a signal of 24 two-byte elements, then one for a range; the
index exists from the eighth nexus on. -/
def demo : Option Sig :=
  ([0, 2, 4, 6, 8, 10, 12].foldlM (fun s o => (splitNexus (fun _ => []) (fun _ => []) s o 2).map (·.1))
    (newSignal 24 2 [.ext ((List.range 48).map UInt8.ofNat)]))

example : (demo.bind (·.index)).isSome ∧ (demo.map (·.chain.length)) = some 8 := by decide +kernel

example : (demo.bind (fun s => splitNexus (fun _ => []) (fun _ => []) s 5 6)).map
    (fun (s, i) => (s.chain.map (·.width), i)) = some ([2, 2, 1, 1, 2, 2, 1, 1, 2, 10], 3) := by
  decide +kernel

example : Reach 3 2 [.inl [1, 2, 3, 4, 5, 6, 0, 0]] (newSignal 3 2 [.inl [1, 2, 3, 4, 5, 6, 0, 0]]) :=
  .new (by decide) (by decide) (by decide)

end Verif.Sim.Nexus
