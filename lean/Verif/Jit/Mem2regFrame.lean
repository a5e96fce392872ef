import Verif.Jit.Mem2regProps

/-!
# Promotion of stack variables: the frame, and the whole pass

Property C62: the variables that are left in the frame do not overlap, and the function does the same.
-/

namespace Verif.Code

variable {W : Type}

/-! ## the first loop -/

/-- The instruction is in the first block. -/
def First (f : Func) (j : Nat) : Prop := ∀ (k : Nat) ir, k < j → f.irs[k]? = some ir → isTerminator f k ir = false

theorem promoteIr_op {reg : Nat} {ir : Ir} (h : ir.op ≠ .load) (h' : ir.op ≠ .store) : promoteIr reg ir = ir := by
  unfold promoteIr
  rw [if_neg (fun e => h' e.1), if_neg (fun e => h e.1)]

theorem promoted_not_term {f : Func} {i reg k : Nat} {a ir ir' : Ir} (ha : f.irs[i]? = some a) (hop : a.op = .salloc)
    (hk : f.irs[k]? = some ir) (hk' : (promoted f i reg).irs[k]? = some ir') (h : isTerminator f k ir = false) :
    isTerminator (promoted f i reg) k ir' = false := by
  by_cases hn : ir'.op = .nop ∨ ir'.op = .mov
  · unfold isTerminator
    rcases hn with e | e <;> rw [e]
  · rw [not_or] at hn
    obtain ⟨e, hki⟩ := promoted_same hk' hn.1 hn.2
    rw [hk] at e
    injection e with e
    subst e
    unfold isTerminator at h ⊢
    split
    · rename_i hc
      rw [hc] at h
      dsimp only at h
      cases hnx : f.irs[k + 1]? with
      | none =>
        rw [promoted_at, hnx]
        simp
      | some nx =>
        rw [hnx] at h
        have hcase : nx.op = .case := by simpa using h
        have hne : i ≠ k + 1 := by
          intro c
          rw [c, hnx] at ha
          injection ha with ha
          rw [← ha, hcase] at hop
          cases hop
        rw [promoted_at, hnx, if_neg hne, Option.map_some, promoteIr_op (by rw [hcase]; simp) (by rw [hcase]; simp)]
        simp [hcase]
    · rename_i hc; rw [hc] at h; simp at h
    · rename_i hc; rw [hc] at h; simp at h
    · rename_i hc; rw [hc] at h; simp at h
    · rfl

theorem First.promoted {f : Func} {i reg j : Nat} {a : Ir} (ha : f.irs[i]? = some a) (hop : a.op = .salloc)
    (h : First f j) : First (promoted f i reg) j := by
  intro k ir' hk hir'
  cases hir : f.irs[k]? with
  | none =>
    rw [promoted_at, hir] at hir'
    simp at hir'
  | some ir => exact promoted_not_term ha hop hir hir' (h k ir hk hir)

theorem First.succ {f : Func} {i : Nat} {ir : Ir} (h : First f i) (hi : f.irs[i]? = some ir)
    (ht : isTerminator f i ir = false) : First f (i + 1) := by
  intro k ir' hk hir'
  rcases Nat.lt_or_ge k i with c | c
  · exact h k ir' c hir'
  · have : k = i := by omega
    subst this
    rw [hi] at hir'
    injection hir' with hir'
    subst hir'
    exact ht

theorem salloc_not_term {f : Func} {i : Nat} {ir : Ir} (h : ir.op = .salloc) : isTerminator f i ir = false := by
  unfold isTerminator; rw [h]

theorem promoteLoop_spec (place : Nat → Word) : ∀ (n : Nat) (f : Func) (i k : Nat) (g : Func) (k' : Nat),
    promoteLoop n f i k = some (g, k') → First f i →
    ∃ cs, Promotes f cs g ∧ (∀ c ∈ cs, c.addr = place c.alloc) ∧ k' = k + cs.length
  | 0, f, i, k, g, k', h, _ => by
    simp only [promoteLoop, Option.some.injEq, Prod.mk.injEq] at h
    obtain ⟨rfl, rfl⟩ := h
    exact ⟨[], .nil, fun c hc => (by cases hc), rfl⟩
  | n + 1, f, i, k, g, k', h, F => by
    unfold promoteLoop at h
    cases hi : f.irs[i]? with
    | none =>
      rw [hi] at h
      simp only [Option.some.injEq, Prod.mk.injEq] at h
      obtain ⟨rfl, rfl⟩ := h
      exact ⟨[], .nil, fun c hc => (by cases hc), rfl⟩
    | some ir =>
      rw [hi] at h
      dsimp only at h
      split at h
      · rename_i hop
        have F' := F.succ hi (salloc_not_term hop)
        unfold tryPromote at h
        cases ha : ir.arg2 with
        | int sz =>
          cases hr : ir.result with
          | none => rw [ha, hr] at h; cases h
          | some reg =>
            rw [ha, hr] at h
            dsimp only at h
            cases hs : allocSize sz with
            | none =>
              rw [hs] at h
              exact promoteLoop_spec place n f (i + 1) k g k' h F'
            | some size =>
              rw [hs] at h
              dsimp only at h
              cases hall : allAllow f i reg size with
              | false =>
                rw [hall] at h
                exact promoteLoop_spec place n f (i + 1) k g k' h F'
              | true =>
                rw [hall] at h
                obtain ⟨cs, h1, h2, h3⟩ := promoteLoop_spec place n _ (i + 1) (k + 1) g k' h (F'.promoted hi hop)
                refine ⟨⟨i, reg, place i, size⟩ :: cs, .cons ?_ h1, ?_, ?_⟩
                · exact ⟨⟨ir, sz, hi, hop, hr, ha, hs⟩, hall, F⟩
                · intro c hc
                  cases hc with
                  | head => rfl
                  | tail _ hc => exact h2 c hc
                · rw [h3, List.length_cons]; omega
        | _ => rw [ha] at h; cases h
      · split at h
        · simp only [Option.some.injEq, Prod.mk.injEq] at h
          obtain ⟨rfl, rfl⟩ := h
          exact ⟨[], .nil, fun c hc => (by cases hc), rfl⟩
        · rename_i ht
          exact promoteLoop_spec place n f (i + 1) k g k' h (F.succ hi (by simpa using ht))

/-! ## the frame -/

/-- The variables in the frame of a function, of so many bytes: each is aligned and within the frame, and no
two overlap. -/
structure Frame (f : Func) (sz : Nat) : Prop where
  var : ∀ (j : Nat) ir, f.irs[j]? = some ir → ir.op = .salloc → First f j → ∃ off n : Word,
    ir.arg1 = .int off ∧ ir.arg2 = .int n ∧ ir.result ≠ none ∧ n.toNat < 2 ^ 63 ∧ off.toNat % 8 = 0 ∧
      off.toNat + alignUp8 n.toNat ≤ sz
  apart : ∀ (j k : Nat) irj irk (offj nj offk : Word), j < k → f.irs[j]? = some irj → f.irs[k]? = some irk →
    irj.op = .salloc → irk.op = .salloc → First f k → irj.arg1 = .int offj → irj.arg2 = .int nj → irk.arg1 = .int offk →
    offj.toNat + alignUp8 nj.toNat ≤ offk.toNat
  small : sz < 2 ^ 63

theorem le_alignUp8 (n : Nat) : n ≤ alignUp8 n := by unfold alignUp8; omega

theorem alignUp8_mod (n : Nat) : alignUp8 n % 8 = 0 := by unfold alignUp8; omega

/-- The part of the code from an index on. -/
structure FrameFrom (f : Func) (irs : List Ir) (i low sz : Nat) : Prop where
  var : ∀ (j : Nat) ir, irs[j]? = some ir → ir.op = .salloc →
    (∀ (k : Nat) ir, k < j → irs[k]? = some ir → isTerminator f (i + k) ir = false) → ∃ off n : Word,
    ir.arg1 = .int off ∧ ir.arg2 = .int n ∧ n.toNat < 2 ^ 63 ∧ low ≤ off.toNat ∧ off.toNat + alignUp8 n.toNat ≤ sz
  apart : ∀ (j k : Nat) irj irk (offj nj offk : Word), j < k → irs[j]? = some irj → irs[k]? = some irk →
    irj.op = .salloc → irk.op = .salloc →
    (∀ (l : Nat) ir, l < k → irs[l]? = some ir → isTerminator f (i + l) ir = false) →
    irj.arg1 = .int offj → irj.arg2 = .int nj → irk.arg1 = .int offk → offj.toNat + alignUp8 nj.toNat ≤ offk.toNat

/-- The result of the second loop. -/
structure LaidOut (f : Func) (irs irs' : List Ir) (i low sz : Nat) : Prop where
  le : low ≤ sz
  /-- only offsets change -/
  same : ∀ (j : Nat) ir, irs[j]? = some ir → ∃ ir', irs'[j]? = some ir' ∧
    (ir' = ir ∨ ir.op = .salloc ∧ ∃ off, ir' = { ir with arg1 := .int off })
  length : irs'.length = irs.length
  var : ∀ (j : Nat) ir', irs'[j]? = some ir' → ir'.op = .salloc →
    (∀ (k : Nat) ir, k < j → irs[k]? = some ir → isTerminator f (i + k) ir = false) → ∃ off n : Word,
    ir'.arg1 = .int off ∧ ir'.arg2 = .int n ∧ n.toNat < 2 ^ 63 ∧ off.toNat % 8 = 0 ∧ low ≤ off.toNat ∧
      off.toNat + alignUp8 n.toNat ≤ sz
  apart : ∀ (j k : Nat) irj irk (offj nj offk : Word), j < k → irs'[j]? = some irj → irs'[k]? = some irk →
    irj.op = .salloc → irk.op = .salloc →
    (∀ (l : Nat) ir, l < k → irs[l]? = some ir → isTerminator f (i + l) ir = false) →
    irj.arg1 = .int offj → irj.arg2 = .int nj → irk.arg1 = .int offk → offj.toNat + alignUp8 nj.toNat ≤ offk.toNat

theorem toInt_of_small {w : Word} (h : w.toNat < 2 ^ 63) : w.toInt = w.toNat := by
  rw [BitVec.toInt_eq_toNat_cond]
  split <;> omega

theorem layoutLoop_ok (f : Func) (sz : Nat) (hsz : sz < 2 ^ 63) : ∀ (irs : List Ir) (i low new : Nat), new ≤ low → low ≤ sz →
    new % 8 = 0 → FrameFrom f irs i low sz →
    ∃ irs' sz', layoutLoop f irs i new = some (irs', sz') ∧ sz' ≤ sz ∧ LaidOut f irs irs' i new sz'
  | [], i, low, new, hn, hl, _, _ => by
    refine ⟨[], new, rfl, by omega, Nat.le_refl _, ?_, rfl, ?_, ?_⟩
    · intro j ir h; simp at h
    · intro j ir h; simp at h
    · intro j k irj irk _ _ _ _ h; simp at h
  | ir :: rest, i, low, new, hn, hl, hm, F => by
    unfold layoutLoop
    by_cases hop : ir.op = .salloc
    · rw [if_pos hop]
      obtain ⟨off, n, h1, h2, h3, h4, h5⟩ := F.var 0 ir rfl hop (fun k _ hk => by omega)
      rw [h1, h2]
      dsimp only
      have ho : off.toInt = off.toNat := toInt_of_small (by have := le_alignUp8 n.toNat; omega)
      have hni : n.toInt = n.toNat := toInt_of_small h3
      rw [if_pos ⟨by rw [ho]; omega, by rw [hni]; omega⟩]
      have F' : FrameFrom f rest (i + 1) (off.toNat + alignUp8 n.toNat) sz := by
        refine ⟨?_, ?_⟩
        · intro j irj hj hopj hf
          have hf' : ∀ (k : Nat) x, k < j + 1 → (ir :: rest)[k]? = some x → isTerminator f (i + k) x = false := by
            intro k x hk hx
            cases k with
            | zero => injection hx with hx; subst hx; exact salloc_not_term hop
            | succ k =>
              have := hf k x (by omega) hx
              rwa [show i + 1 + k = i + (k + 1) by omega] at this
          obtain ⟨offj, nj, a1, a2, a3, a4, a5⟩ := F.var (j + 1) irj hj hopj hf'
          exact ⟨offj, nj, a1, a2, a3,
            F.apart 0 (j + 1) ir irj off n offj (by omega) rfl hj hop hopj hf' h1 h2 a1, a5⟩
        · intro j k irj irk offj nj offk hjk hj hk hoj hok hf
          refine F.apart (j + 1) (k + 1) irj irk offj nj offk (by omega) hj hk hoj hok ?_
          intro l x hl hx
          cases l with
          | zero => injection hx with hx; subst hx; exact salloc_not_term hop
          | succ l =>
            have := hf l x (by omega) hx
            rwa [show i + 1 + l = i + (l + 1) by omega] at this
      have hmod := alignUp8_mod n.toNat
      obtain ⟨irs', sz', e1, e2, L⟩ := layoutLoop_ok f sz hsz rest (i + 1) (off.toNat + alignUp8 n.toNat)
        (new + alignUp8 n.toNat) (by omega) h5 (by omega) F'
      rw [e1]
      have hnew : (BitVec.ofNat 64 new : Word).toNat = new := by
        rw [BitVec.toNat_ofNat]; omega
      have hle := L.le
      refine ⟨_, sz', rfl, e2, by omega, ?_, ?_, ?_, ?_⟩
      · intro j irj hj
        cases j with
        | zero =>
          injection hj with hj; subst hj
          exact ⟨_, rfl, Or.inr ⟨hop, BitVec.ofNat 64 new, by rw [h2]⟩⟩
        | succ j => exact L.same j irj hj
      · simp [L.length]
      · intro j irj hj hoj hf
        cases j with
        | zero =>
          injection hj with hj; subst hj
          refine ⟨_, n, rfl, rfl, h3, ?_, ?_, ?_⟩ <;> rw [hnew] <;> omega
        | succ j =>
          obtain ⟨offj, nj, a1, a2, a3, a4, a5, a6⟩ := L.var j irj hj hoj (fun k x hk hx => by
            have := hf (k + 1) x (by omega) hx
            rwa [show i + (k + 1) = i + 1 + k by omega] at this)
          exact ⟨offj, nj, a1, a2, a3, a4, by omega, a6⟩
      · intro j k irj irk offj nj offk hjk hj hk hoj hok hf b1 b2 b3
        have hf' : ∀ (l : Nat) x, l < k - 1 → rest[l]? = some x → isTerminator f (i + 1 + l) x = false := by
          intro l x hl hx
          have := hf (l + 1) x (by omega) hx
          rwa [show i + (l + 1) = i + 1 + l by omega] at this
        cases k with
        | zero => omega
        | succ k =>
          cases j with
          | zero =>
            injection hj with hj; subst hj
            injection b1 with b1; subst b1
            injection b2 with b2; subst b2
            obtain ⟨offk', nk, a1, a2, a3, a4, a5, a6⟩ := L.var k irk hk hok hf'
            rw [b3] at a1; injection a1 with a1; subst a1
            rw [hnew]
            exact a5
          | succ j => exact L.apart j k irj irk offj nj offk (by omega) hj hk hoj hok hf' b1 b2 b3
    · rw [if_neg hop]
      by_cases ht : isTerminator f i ir = true
      · rw [if_pos ht]
        refine ⟨_, new, rfl, by omega, Nat.le_refl _, ?_, rfl, ?_, ?_⟩
        · intro j irj hj; exact ⟨irj, hj, Or.inl rfl⟩
        · intro j irj hj hoj hf
          cases j with
          | zero => injection hj with hj; subst hj; exact absurd hoj hop
          | succ j =>
            have := hf 0 ir (by omega) rfl
            rw [Nat.add_zero, ht] at this; cases this
        · intro j k irj irk offj nj offk hjk hj hk hoj hok hf
          have := hf 0 ir (by omega) rfl
          rw [Nat.add_zero, ht] at this; cases this
      · rw [if_neg ht]
        have ht : isTerminator f i ir = false := by simpa using ht
        have ext : ∀ j, (∀ (k : Nat) x, k < j → rest[k]? = some x → isTerminator f (i + 1 + k) x = false) →
            ∀ (k : Nat) x, k < j + 1 → (ir :: rest)[k]? = some x → isTerminator f (i + k) x = false := by
          intro j hf k x hk hx
          cases k with
          | zero => injection hx with hx; subst hx; exact ht
          | succ k =>
            have := hf k x (by omega) hx
            rwa [show i + 1 + k = i + (k + 1) by omega] at this
        have F' : FrameFrom f rest (i + 1) low sz := by
          refine ⟨?_, ?_⟩
          · intro j irj hj hopj hf
            exact F.var (j + 1) irj hj hopj (ext j hf)
          · intro j k irj irk offj nj offk hjk hj hk hoj hok hf
            exact F.apart (j + 1) (k + 1) irj irk offj nj offk (by omega) hj hk hoj hok (ext k hf)
        obtain ⟨irs', sz', e1, e2, L⟩ := layoutLoop_ok f sz hsz rest (i + 1) low new hn hl hm F'
        rw [e1]
        refine ⟨_, sz', rfl, e2, L.le, ?_, by simp [L.length], ?_, ?_⟩
        · intro j irj hj
          cases j with
          | zero => injection hj with hj; subst hj; exact ⟨_, rfl, Or.inl rfl⟩
          | succ j => exact L.same j irj hj
        · intro j irj hj hoj hf
          cases j with
          | zero => injection hj with hj; subst hj; exact absurd hoj hop
          | succ j => exact L.var j irj hj hoj (fun k x hk hx => by
              have := hf (k + 1) x (by omega) hx
              rwa [show i + (k + 1) = i + 1 + k by omega] at this)
        · intro j k irj irk offj nj offk hjk hj hk hoj hok hf b1 b2 b3
          cases k with
          | zero => omega
          | succ k =>
            cases j with
            | zero => injection hj with hj; subst hj; exact absurd hoj hop
            | succ j =>
              refine L.apart j k irj irk offj nj offk (by omega) hj hk hoj hok (fun l x hl hx => ?_) b1 b2 b3
              have := hf (l + 1) x (by omega) hx
              rwa [show i + (l + 1) = i + 1 + l by omega] at this

/-- Only offsets change. -/
theorem layoutLoop_same (f : Func) : ∀ (irs : List Ir) (i new : Nat) (irs' : List Ir) (sz : Nat),
    layoutLoop f irs i new = some (irs', sz) → irs'.length = irs.length ∧ ∀ (j : Nat) ir, irs[j]? = some ir →
      ∃ ir', irs'[j]? = some ir' ∧ (ir' = ir ∨ ir.op = .salloc ∧ ∃ off, ir' = { ir with arg1 := .int off })
  | [], i, new, irs', sz, h => by
    simp only [layoutLoop, Option.some.injEq, Prod.mk.injEq] at h
    obtain ⟨rfl, rfl⟩ := h
    exact ⟨rfl, fun j ir h => by simp at h⟩
  | x :: rest, i, new, irs', sz, h => by
    unfold layoutLoop at h
    split at h
    · rename_i hop
      split at h
      · split at h
        · rw [Option.map_eq_some_iff] at h
          obtain ⟨⟨irs1, sz1⟩, h1, h2⟩ := h
          dsimp only at h2
          injection h2 with h2 h3
          subst h2
          obtain ⟨a1, a2⟩ := layoutLoop_same f rest _ _ irs1 sz1 h1
          refine ⟨by simp [a1], fun j ir hj => ?_⟩
          cases j with
          | zero => injection hj with hj; subst hj; exact ⟨_, rfl, Or.inr ⟨hop, _, rfl⟩⟩
          | succ j => exact a2 j ir hj
        · cases h
      · cases h
    · split at h
      · injection h with h
        injection h with h2 h3
        subst h2
        exact ⟨rfl, fun j ir hj => ⟨ir, hj, Or.inl rfl⟩⟩
      · rw [Option.map_eq_some_iff] at h
        obtain ⟨⟨irs1, sz1⟩, h1, h2⟩ := h
        dsimp only at h2
        injection h2 with h2 h3
        subst h2
        obtain ⟨a1, a2⟩ := layoutLoop_same f rest _ _ irs1 sz1 h1
        refine ⟨by simp [a1], fun j ir hj => ?_⟩
        cases j with
        | zero => injection hj with hj; subst hj; exact ⟨_, rfl, Or.inl rfl⟩
        | succ j => exact a2 j ir hj

theorem isTerminator_ops {f g : Func} {k : Nat} {ir ir' : Ir} (ho : ir'.op = ir.op)
    (hn : (g.irs[k + 1]?).map (·.op) = (f.irs[k + 1]?).map (·.op)) : isTerminator g k ir' = isTerminator f k ir := by
  unfold isTerminator
  rw [ho]
  split
  · cases h1 : f.irs[k + 1]? <;> cases h2 : g.irs[k + 1]? <;> rw [h1, h2] at hn <;> simp_all
  · rfl
  · rfl
  · rfl
  · rfl

theorem frame_promotes {f g : Func} {cs : List Cell} (P : Promotes f cs g) {sz : Nat} (F : Frame f sz) : Frame g sz := by
  induction P with
  | nil => exact F
  | @cons f g c cs C P ih =>
    apply ih
    obtain ⟨a, n, ha, hop, _⟩ := C.alloc
    -- an allocation that is left was in the first block before
    have first : ∀ j, First (promoted f c.alloc c.reg) j → (∃ x, f.irs[j]? = some x ∧ x.op = .salloc) → First f j := by
      intro j h ⟨x, hx, hxo⟩ k ir hk hir
      cases ht : isTerminator f k ir with
      | false => rfl
      | true =>
        exfalso
        have hlk : ir.op ≠ .load ∧ ir.op ≠ .store ∧ ir.op ≠ .salloc := by
          unfold isTerminator at ht
          refine ⟨?_, ?_, ?_⟩ <;> intro e <;> rw [e] at ht <;> cases ht
        have hne : c.alloc ≠ k := by
          intro e
          rw [e, hir] at ha
          injection ha with ha
          rw [← ha] at hop
          exact hlk.2.2 hop
        have hir' : (promoted f c.alloc c.reg).irs[k]? = some ir := by
          rw [promoted_at, if_neg hne, hir, Option.map_some, promoteIr_op hlk.1 hlk.2.1]
        have := h k ir hk hir'
        unfold isTerminator at ht this
        split at ht
        · rename_i hc
          rw [hc] at this
          dsimp only at this
          cases hnx : f.irs[k + 1]? with
          | none => rw [hnx] at ht; cases ht
          | some nx =>
            rw [hnx] at ht
            have hcase : nx.op ≠ .case := by simpa using ht
            rw [promoted_at, hnx] at this
            split at this
            · rename_i heq
              split at heq
              · injection heq with heq
                rw [← heq] at this
                simp [Ir.toNop] at this
              · injection heq with heq
                rw [← heq] at this
                unfold promoteIr at this
                split at this
                · simp at this
                · split at this
                  · simp at this
                  · simp at this; exact hcase this
            · rename_i heq
              split at heq <;> cases heq
        · rename_i hc; rw [hc] at this; cases this
        · rename_i hc; rw [hc] at this; cases this
        · rename_i hc; rw [hc] at this; cases this
        · cases ht
    refine ⟨?_, ?_, F.small⟩
    · intro j ir hir ho hf
      have h1 := (promoted_same hir (by rw [ho]; simp) (by rw [ho]; simp)).1
      exact F.var j ir h1 ho (first j hf ⟨ir, h1, ho⟩)
    · intro j k irj irk offj nj offk hjk hj hk hoj hok hf
      have h1 := (promoted_same hj (by rw [hoj]; simp) (by rw [hoj]; simp)).1
      have h2 := (promoted_same hk (by rw [hok]; simp) (by rw [hok]; simp)).1
      exact F.apart j k irj irk offj nj offk hjk h1 h2 hoj hok (first k hf ⟨irk, h2, hok⟩)

theorem promoteLoop_some : ∀ (n : Nat) (f : Func) (i k sz : Nat), Frame f sz → First f i →
    ∃ r, promoteLoop n f i k = some r
  | 0, f, i, k, _, _, _ => ⟨_, rfl⟩
  | n + 1, f, i, k, sz, F, hf => by
    unfold promoteLoop
    cases hi : f.irs[i]? with
    | none => exact ⟨_, rfl⟩
    | some ir =>
      dsimp only
      split
      · rename_i hop
        obtain ⟨off, m, h1, h2, h3, _⟩ := F.var i ir hi hop hf
        have hf' := hf.succ hi (salloc_not_term hop)
        cases hr : ir.result with
        | none => exact absurd hr h3
        | some reg =>
          unfold tryPromote
          rw [h2, hr]
          dsimp only
          cases hs : allocSize m with
          | none => exact promoteLoop_some n f (i + 1) k sz F hf'
          | some size =>
            dsimp only
            cases hall : allAllow f i reg size with
            | false => exact promoteLoop_some n f (i + 1) k sz F hf'
            | true =>
              have C : Checked f ⟨i, reg, 0, size⟩ := ⟨⟨ir, m, hi, hop, hr, h2, hs⟩, hall, hf⟩
              exact promoteLoop_some n _ (i + 1) (k + 1) sz (frame_promotes (.cons C .nil) F) (hf'.promoted hi hop)
      · split
        · exact ⟨_, rfl⟩
        · rename_i ht
          exact promoteLoop_some n f (i + 1) k sz F (hf.succ hi (by simpa using ht))

/-- C62: no assertion fails, and the variables that are left are in a frame that is not larger and do not
overlap. -/
theorem mem2reg_frame {f : Func} {framesz : Nat} (F : Frame f framesz) :
    ∃ g sz, mem2reg f framesz = some (g, sz) ∧ sz ≤ framesz ∧ Frame g sz := by
  unfold mem2reg
  by_cases h0 : framesz = 0
  · rw [if_pos h0]
    exact ⟨f, framesz, rfl, Nat.le_refl _, F⟩
  rw [if_neg h0]
  have hf0 : First f 0 := fun k _ hk => by omega
  obtain ⟨⟨f1, k⟩, h1⟩ := promoteLoop_some f.irs.length f 0 0 framesz F hf0
  rw [h1]
  dsimp only
  obtain ⟨cs, P, _⟩ := promoteLoop_spec (fun _ => 0) _ _ _ _ _ _ h1 hf0
  have F1 := frame_promotes P F
  by_cases hk : k = 0
  · rw [if_pos hk]
    exact ⟨f1, framesz, rfl, Nat.le_refl _, F1⟩
  rw [if_neg hk]
  have FF : FrameFrom f1 f1.irs 0 0 framesz := by
    refine ⟨?_, ?_⟩
    · intro j ir hj ho hf
      obtain ⟨off, n, a1, a2, _, a4, _, a6⟩ := F1.var j ir hj ho
        (fun k x hk hx => by have := hf k x hk hx; rwa [Nat.zero_add] at this)
      exact ⟨off, n, a1, a2, a4, Nat.zero_le _, a6⟩
    · intro j k irj irk offj nj offk hjk hj hk hoj hok hf
      exact F1.apart j k irj irk offj nj offk hjk hj hk hoj hok
        (fun l x hl hx => by have := hf l x hl hx; rwa [Nat.zero_add] at this)
  obtain ⟨irs', sz', e1, e2, L⟩ := layoutLoop_ok f1 framesz F.small f1.irs 0 0 0 (Nat.le_refl _) (Nat.zero_le _) rfl FF
  rw [e1]
  dsimp only
  rw [if_pos e2]
  refine ⟨_, sz', rfl, e2, ?_⟩
  -- the operations are the same
  have ops : ∀ j : Nat, (irs'[j]?).map (·.op) = (f1.irs[j]?).map (·.op) := by
    intro j
    cases hj : f1.irs[j]? with
    | none =>
      have : f1.irs.length ≤ j := by simpa using hj
      rw [List.getElem?_eq_none (by rw [L.length]; exact this)]
    | some ir =>
      obtain ⟨ir', a, b⟩ := L.same j ir hj
      rw [a]
      rcases b with b | ⟨_, off, b⟩ <;> rw [b] <;> rfl
  have back : ∀ (j : Nat) ir', irs'[j]? = some ir' → ∃ ir, f1.irs[j]? = some ir ∧ ir.op = ir'.op ∧
      ir.result = ir'.result := by
    intro j ir' hj
    cases h : f1.irs[j]? with
    | none =>
      have : f1.irs.length ≤ j := by simpa using h
      rw [List.getElem?_eq_none (by rw [L.length]; exact this)] at hj; cases hj
    | some ir =>
      obtain ⟨ir2, a, b⟩ := L.same j ir h
      rw [hj] at a
      injection a with a
      subst a
      refine ⟨ir, rfl, ?_⟩
      rcases b with b | ⟨_, off, b⟩ <;> rw [b] <;> exact ⟨rfl, rfl⟩
  have first : ∀ j, First { f1 with irs := irs' } j →
      ∀ (k : Nat) ir, k < j → f1.irs[k]? = some ir → isTerminator f1 (0 + k) ir = false := by
    intro j h k ir hk hir
    obtain ⟨ir', a, b⟩ := L.same k ir hir
    have := h k ir' hk a
    rw [Nat.zero_add, ← this]
    refine (isTerminator_ops (f := f1) (g := { f1 with irs := irs' }) ?_ (ops (k + 1))).symm
    rcases b with b | ⟨_, off, b⟩ <;> rw [b]
  refine ⟨?_, ?_, by have := F.small; omega⟩
  · intro j ir' hj ho hf
    obtain ⟨off, n, a1, a2, a3, a4, a5, a6⟩ := L.var j ir' hj ho (first j hf)
    obtain ⟨ir, b1, b2, b3⟩ := back j ir' hj
    have hf1 : First f1 j := fun k x hk hx => by
      have := first j hf k x hk hx; rwa [Nat.zero_add] at this
    obtain ⟨_, _, _, _, c3, _⟩ := F1.var j ir b1 (by rw [b2]; exact ho) hf1
    exact ⟨off, n, a1, a2, by rw [← b3]; exact c3, a3, a4, a6⟩
  · intro j k irj irk offj nj offk hjk hj hk hoj hok hf
    exact L.apart j k irj irk offj nj offk hjk hj hk hoj hok (first k hf)

/-! ## the meaning -/

/-- The environment with other places for variables. -/
def Env.places (env : Env W) (sal : Word → Word → Option Word) : Env W := { env with salloc := sal }

theorem effect_salloc (env : Env W) (sal : Word → Word → Option Word) (op : Op) (h : op ≠ .salloc) (size : Size) (cc : CC)
    (a b old : Word) (fl : Bool) (w : W) :
    effect (env.places sal) op size cc a b old fl w = effect env op size cc a b old fl w := by
  cases op <;> first | rfl | exact absurd rfl h

theorem eval_salloc (env : Env W) (sal : Word → Word → Option Word) (regs : Nat → Word) (v : Val) :
    eval (env.places sal) regs v = eval env regs v := by cases v <;> rfl

/-- Every variable that is left in the frame is where it was. -/
def SamePlaces (env : Env W) (sal : Word → Word → Option Word) (f g : Func) : Prop :=
  ∀ (j : Nat) ir ir', f.irs[j]? = some ir → g.irs[j]? = some ir' → ir'.op = .salloc → ∀ regs,
    sal (eval env regs ir'.arg1) (eval env regs ir'.arg2) = env.salloc (eval env regs ir.arg1) (eval env regs ir.arg2)

/-- Functions that differ only in the places of variables. -/
theorem places_run {env : Env W} {sal : Word → Word → Option Word} {f g : Func} (hl : g.irs.length = f.irs.length)
    (hs : ∀ (j : Nat) ir, f.irs[j]? = some ir → ∃ ir', g.irs[j]? = some ir' ∧
      (ir' = ir ∨ ir.op = .salloc ∧ ∃ off, ir' = { ir with arg1 := .int off }))
    (hp : SamePlaces env sal f g) : ∀ (n : Nat) (s : State W), run (env.places sal) g n s = run env f n s := by
  have hstep : ∀ s : State W, step (env.places sal) g s = step env f s := by
    intro s
    unfold step
    cases hir : f.irs[s.pc]? with
    | none =>
      have : f.irs.length ≤ s.pc := by simpa using hir
      rw [List.getElem?_eq_none (by rw [hl]; exact this)]; rfl
    | some ir =>
      obtain ⟨ir', a, b⟩ := hs s.pc ir hir
      rw [a, Option.bind_some, Option.bind_some]
      by_cases ho : ir.op = .salloc
      · have e1 : ir'.op = .salloc := by rcases b with b | ⟨_, off, b⟩ <;> rw [b] <;> exact ho
        have e2 : ir'.result = ir.result := by rcases b with b | ⟨_, off, b⟩ <;> rw [b]
        rw [exec_salloc e1, exec_salloc ho, eval_salloc, eval_salloc, e2]
        show (sal _ _).bind _ = _
        rw [hp s.pc ir ir' hir a e1 s.regs]
      · have e1 : ir' = ir := by
          rcases b with b | ⟨c, _⟩
          · exact b
          · exact absurd c ho
        rw [e1]
        unfold execIr
        simp only [eval_salloc, effect_salloc _ _ _ ho]
  intro n
  induction n with
  | zero => intro s; rfl
  | succ n ih =>
    intro s
    show (match step (env.places sal) g s with | some (.next s') => run (env.places sal) g n s' | r => r) =
      (match step env f s with | some (.next s') => run env f n s' | r => r)
    rw [hstep]
    cases step env f s with
    | none => rfl
    | some x => cases x with
      | next s1 => exact ih s1
      | halt b s1 => rfl

/-- What is left of an allocation. -/
theorem Promotes.left {f g : Func} {cs : List Cell} (P : Promotes f cs g) {j : Nat} {ir : Ir}
    (h : g.irs[j]? = some ir) (ho : ir.op = .salloc) : f.irs[j]? = some ir := by
  induction P with
  | nil => exact h
  | @cons f g c cs C P ih =>
    exact (promoted_same (ih h) (by rw [ho]; simp) (by rw [ho]; simp)).1

theorem Promotes.cell {f g : Func} {cs : List Cell} (P : Promotes f cs g) :
    ∀ c ∈ cs, ∃ ir n, f.irs[c.alloc]? = some ir ∧ ir.op = .salloc ∧ ir.result = some c.reg ∧ ir.arg2 = .int n ∧
      allocSize n = some c.size := by
  induction P with
  | nil => intro c hc; cases hc
  | @cons f g c cs C P ih =>
    intro c' hc'
    cases hc' with
    | head => exact C.alloc
    | tail _ hc' =>
      obtain ⟨ir, n, h1, h2, h3⟩ := ih c' hc'
      exact ⟨ir, n, (promoted_same h1 (by rw [h2]; simp) (by rw [h2]; simp)).1, h2, h3⟩

/-- C62: the function does the same with the promoted variables in registers.

Partial: the addresses of variables must not be stored elsewhere (`CellOk.kept`), numbers stored in them must fit
(`CellGood`); neither is checked by the code.  That no other load or store uses the address of a variable, as
no other instruction has the address, is an assumption about the execution (`CellGood`). -/
theorem mem2reg_correct_partial {env : Env W} {f g : Func} {framesz sz : Nat} (h : mem2reg f framesz = some (g, sz))
    (place : Nat → Word) (sal : Word → Word → Option Word) :
    ∃ cs : List Cell,
      (∀ c ∈ cs, c.addr = place c.alloc ∧ ∃ ir n, f.irs[c.alloc]? = some ir ∧ ir.op = .salloc ∧
        ir.result = some c.reg ∧ ir.arg2 = .int n ∧ allocSize n = some c.size) ∧
      (SamePlaces env sal f g → (∀ c ∈ cs, CellOk env f c) →
        ∀ (n : Nat) (regs : Nat → Word) (fl : Bool) (w : W) (r : Res (Cells W cs)),
        (∀ c ∈ cs, ∀ k t, k < n → run (cellsEnv env cs) f k ⟨regs, fl, 0, Cells.init w cs⟩ = some (.next t) →
          CellGood env f c t.regs t.pc) →
        run (cellsEnv env cs) f n ⟨regs, fl, 0, Cells.init w cs⟩ = some r →
        ∃ r', run (env.places sal) g n ⟨regs, fl, 0, w⟩ = some r' ∧ SameButCells cs r r') := by
  have refl : ∀ (j : Nat) ir, f.irs[j]? = some ir → ∃ ir', f.irs[j]? = some ir' ∧
      (ir' = ir ∨ ir.op = .salloc ∧ ∃ off, ir' = { ir with arg1 := .int off }) :=
    fun j ir hj => ⟨ir, hj, Or.inl rfl⟩
  unfold mem2reg at h
  by_cases h0 : framesz = 0
  · rw [if_pos h0] at h
    injection h with h
    injection h with h h'
    subst h
    refine ⟨[], fun c hc => (by cases hc), fun hp _ n regs fl w r _ hr => ⟨r, ?_, ?_⟩⟩
    · rw [places_run rfl refl hp]
      exact hr
    · cases r with
      | next s => exact ⟨rfl, rfl, rfl, fun _ _ => rfl⟩
      | halt b s => exact ⟨rfl, rfl, rfl, fun _ _ => rfl⟩
  rw [if_neg h0] at h
  cases hl : promoteLoop f.irs.length f 0 0 with
  | none => rw [hl] at h; cases h
  | some x =>
    obtain ⟨f1, k⟩ := x
    rw [hl] at h
    dsimp only at h
    obtain ⟨cs, P, hpl, _⟩ := promoteLoop_spec place _ _ _ _ _ _ hl (fun k _ hk => by omega)
    refine ⟨cs, fun c hc => ⟨hpl c hc, P.cell c hc⟩, ?_⟩
    intro hp K n regs fl w r G hr
    obtain ⟨r', h1, h2⟩ := promotes_run P K n regs fl w r G hr
    refine ⟨r', ?_, h2⟩
    have key : g.irs.length = f1.irs.length ∧ ∀ (j : Nat) ir, f1.irs[j]? = some ir → ∃ ir', g.irs[j]? = some ir' ∧
        (ir' = ir ∨ ir.op = .salloc ∧ ∃ off, ir' = { ir with arg1 := .int off }) := by
      split at h
      · injection h with h
        injection h with h h'
        subst h
        exact ⟨rfl, fun j ir hj => ⟨ir, hj, Or.inl rfl⟩⟩
      · split at h
        · cases h
        · rename_i irs newsize hlay
          split at h
          · injection h with h
            injection h with h h'
            subst h
            exact layoutLoop_same f1 _ _ _ _ _ hlay
          · cases h
    rw [places_run key.1 key.2 ?_]
    · exact h1
    · intro j ir ir' hj hj' ho regs
      obtain ⟨ir2, a, b⟩ := key.2 j ir hj
      rw [hj'] at a
      injection a with a
      subst a
      have hop : ir.op = .salloc := by
        rcases b with b | ⟨b, _⟩
        · rw [← b]; exact ho
        · exact b
      exact hp j ir ir' (P.left hj hop) hj' ho regs

end Verif.Code
