import Verif.Hash.ChashSpec
import Verif.Hash.ChashSteps

/-!
# The concurrent hash table: values
-/

namespace Verif.Hash.Chash

open Verif.Thread

variable {c : Cfg} {s : St} {tr : List Label}

theorem lastWrite_snoc (tr l k) : lastWrite (tr ++ [l]) k = match l with
    | .write _ k' v => if k' = k then some v else lastWrite tr k
    | _ => lastWrite tr k := by
  cases l <;> simp [lastWrite, List.foldl_append]

theorem Open.snoc {x o l} (h : Open tr x o) (hl : l.of x = false) : Open (tr ++ [l]) x o := by
  obtain ⟨p, q, rfl, h⟩ := h
  refine ⟨p, q ++ [l], by simp, ?_⟩
  intro l' hl'
  rcases List.mem_append.1 hl' with h' | h'
  · exact h _ h'
  · simp at h'; subst h'; exact hl

theorem Written.snoc {x k v l} (h : Written tr x k v) (hl : l.of x = false) :
    Written (tr ++ [l]) x k v := by
  obtain ⟨p, q, w, rfl, h1, h2⟩ := h
  refine ⟨p, q, w ++ [l], by simp, h1, ?_⟩
  intro l' hl'
  rcases List.mem_append.1 hl' with h' | h'
  · exact h2 _ h'
  · simp at h'; subst h'; exact hl

theorem Open.written {x k v} (h : Open tr x (.put k v)) :
    Written (tr ++ [.write x k v]) x k v := by
  obtain ⟨p, q, rfl, h⟩ := h
  exact ⟨p, q, [], by simp [callOf], h, by simp⟩

theorem Written.mem {x k v} (h : Written tr x k v) : Label.write x k v ∈ tr := by
  obtain ⟨p, q, w, rfl, _, _⟩ := h
  simp

theorem Seen.snoc {x k o l} (h : Seen tr x k o) (hl : l.of x = false) :
    Seen (tr ++ [l]) x k o := by
  obtain ⟨p, q, w, rfl, h1, h2⟩ := h
  refine ⟨p, q, w ++ [l], by simp, ?_, h2⟩
  intro l' hl'
  rw [← List.append_assoc] at hl'
  rcases List.mem_append.1 hl' with h' | h'
  · exact h1 _ h'
  · simp at h'; subst h'; exact hl

theorem Open.seen {x k} (h : Open tr x (.get k)) : Seen tr x k (lastWrite tr k) := by
  obtain ⟨p, q, rfl, h⟩ := h
  exact ⟨p, q, [], by simp [callOf], by simpa using h, rfl⟩

theorem Clean.of_snoc {l} (h : Clean (tr ++ [l])) : Clean tr :=
  fun x k hm => h x k (List.mem_append_left _ hm)

/-- What is known about a thread. -/
def PcT (c : Cfg) (tr : List Label) (m : Nat → Nat → Slot) (x : Nat) : Pc → Prop
  | .idle => True
  | .load o => Open tr x o
  | .check k v _ => Open tr x (.put k v)
  | .probe o _ _ => Open tr x o
  | .claim k v _ _ => Open tr x (.put k v)
  | .own k v _ _ => Open tr x (.put k v)
  | .write k v _ _ _ => Open tr x (.put k v)
  | .publish k v t d _ => Written tr x k v ∧ (m t (c.pos t k d)).val = v ∧
      (Clean tr → lastWrite tr k = some v)
  | .count => ∃ k v, Written tr x k v
  | .retp => ∃ k v, Written tr x k v
  | .readv k t d => Open tr x (.get k) ∧ (Clean tr →
      (m t (c.pos t k d)).tag ≠ .moved ∨ Seen tr x k (some (m t (c.pos t k d)).val))
  | .retg r => ∃ k, Open tr x (.get k) ∧ ((∃ y, .write y k r ∈ tr) ∨ r = 0 ∧ Seen tr x k none) ∧
      (Clean tr → ∃ o, Seen tr x k o ∧ o.getD 0 = r)
  | .grow k v _ => Open tr x (.put k v)
  | .wait o => Open tr x o
  | .wait2 o _ => Open tr x o
  | .scan k v _ _ => Open tr x (.put k v)
  | .find k v t i _ _ => Open tr x (.put k v) ∧ (Clean tr → (m t i).tag = .inuse)
  | .copy k v t i _ _ => Open tr x (.put k v) ∧ (Clean tr → (m t i).tag = .inuse)
  | .move k v t i e => Open tr x (.put k v) ∧ (e ≠ none → Clean tr → (m t i).tag = .inuse)
  | .swap k v _ => Open tr x (.put k v)

structure TInv (c : Cfg) (tr : List Label) (s : St) : Prop where
  pct : ∀ x, PcT c tr s.mem x (s.pc x)
  /-- a key with a value is in the table, or about to be -/
  has : ∀ k, lastWrite tr k ≠ none → (∃ p, (s.mem s.tab p).key = some k) ∨
    ∃ x v d, s.pc x = .publish k v s.tab d true
  /-- values were stored for their key -/
  wrt : ∀ t p k, (s.mem t p).key = some k → ∃ y, .write y k (s.mem t p).val ∈ tr
  cur : Clean tr → ∀ p k, (s.mem s.tab p).key = some k →
    lastWrite tr k = some (s.mem s.tab p).val
  nxt : Clean tr → ∀ p k, (s.mem (s.tab + 1) p).key = some k →
    lastWrite tr k = some (s.mem (s.tab + 1) p).val

theorem PcT.other {m : Nat → Nat → Slot} {q : Pc} {y l} (hs : PcS c s q)
    (h : PcT c tr s.mem y q) (hl : l.of y = false)
    (hlw : ∀ k v t d f, q = .publish k v t d f → Clean tr →
      lastWrite (tr ++ [l]) k = lastWrite tr k)
    (ho : ∀ t p, owner c q = some (t, p) → m t p = s.mem t p)
    (hi : Clean (tr ++ [l]) → isCop q = true → ∀ i, (s.mem s.tab i).tag = .inuse →
      (m s.tab i).tag = .inuse)
    (hr : ∀ k t d, q = .readv k t d → Clean (tr ++ [l]) →
      (s.mem t (c.pos t k d)).tag ≠ .moved →
      (m t (c.pos t k d)).tag ≠ .moved ∨ Seen (tr ++ [l]) y k (some (m t (c.pos t k d)).val))
    (hv : ∀ t p, (s.mem t p).tag = .moved → (m t p).val = (s.mem t p).val) :
    PcT c (tr ++ [l]) m y q := by
  cases q with
  | idle => trivial
  | load o => exact h.snoc hl
  | check k v t => exact h.snoc hl
  | probe o t d => exact h.snoc hl
  | claim k v t d => exact h.snoc hl
  | own k v t d => exact h.snoc hl
  | write k v t d f => exact h.snoc hl
  | publish k v t d f =>
    obtain ⟨h1, h2, h3⟩ := h
    refine ⟨h1.snoc hl, by rw [ho _ _ rfl]; exact h2, fun hc => ?_⟩
    rw [hlw _ _ _ _ _ rfl hc.of_snoc]
    exact h3 hc.of_snoc
  | count => obtain ⟨k, v, h⟩ := h; exact ⟨k, v, h.snoc hl⟩
  | retp => obtain ⟨k, v, h⟩ := h; exact ⟨k, v, h.snoc hl⟩
  | readv k t d =>
    refine ⟨h.1.snoc hl, fun hc => ?_⟩
    by_cases hm : (s.mem t (c.pos t k d)).tag = .moved
    · right
      rw [hv _ _ hm]
      exact ((h.2 hc.of_snoc).resolve_left (by simp [hm])).snoc hl
    · exact hr _ _ _ rfl hc hm
  | retg r =>
    obtain ⟨k, h1, h2, h3⟩ := h
    refine ⟨k, h1.snoc hl, ?_, fun hc => ?_⟩
    · rcases h2 with ⟨z, hz⟩ | ⟨e, hz⟩
      · exact Or.inl ⟨z, List.mem_append_left _ hz⟩
      · exact Or.inr ⟨e, hz.snoc hl⟩
    · obtain ⟨o, h4, h5⟩ := h3 hc.of_snoc
      exact ⟨o, h4.snoc hl, h5⟩
  | grow k v t => exact h.snoc hl
  | wait o => exact h.snoc hl
  | wait2 o f => exact h.snoc hl
  | scan k v t i => exact h.snoc hl
  | find k v t i kk d =>
    have := hs.1.1
    subst this
    exact ⟨h.1.snoc hl, fun hc => hi hc rfl _ (h.2 hc.of_snoc)⟩
  | copy k v t i kk d =>
    have := hs.1.1
    subst this
    exact ⟨h.1.snoc hl, fun hc => hi hc rfl _ (h.2 hc.of_snoc)⟩
  | move k v t i e =>
    have := hs.1.1
    subst this
    exact ⟨h.1.snoc hl, fun he hc => hi hc rfl _ (h.2 he hc.of_snoc)⟩
  | swap k v t => exact h.snoc hl

/-- An event of thread `x` that stores nothing. -/
def Plain (x : Nat) (l : Label) : Prop :=
  (∀ y, y ≠ x → l.of y = false) ∧ ∀ y k v, l ≠ .write y k v

theorem Plain.last {x l} (h : Plain x l) (tr k) : lastWrite (tr ++ [l]) k = lastWrite tr k := by
  rw [lastWrite_snoc]
  cases l <;> first | rfl | exact absurd rfl (h.2 _ _ _)

theorem plain_tau (x) : Plain x (.tau x) := ⟨fun _ _ => rfl, by simp⟩

/-- Steps that leave the memory as it is. -/
theorem TInv.goto {s1 : St} (hI : Inv c s) (h : TInv c tr s) (x : Nat) (q : Pc) (l : Label)
    (hl : Plain x l) (hq : PcT c (tr ++ [l]) s.mem x q)
    (hx : ∀ k v t d, s.pc x ≠ .publish k v t d true)
    (ht : s1.tab = s.tab) (hm : s1.mem = s.mem) (hp : s1.pc = s.pc) :
    TInv c (tr ++ [l]) (s1.goto x q) where
  pct := by
    intro y
    by_cases hyx : y = x
    · subst hyx
      simp only [goto_pc, upd_same, goto_mem, hm]
      exact hq
    · simp only [goto_pc, ne_eq, hyx, not_false_eq_true, upd_ne, goto_mem, hm, hp]
      exact (h.pct y).other (hI.pcs y) (hl.1 y hyx) (fun _ _ _ _ _ _ _ => hl.last _ _)
        (fun _ _ _ => rfl) (fun _ _ _ h => h) (fun _ _ _ _ _ h => Or.inl h) (fun _ _ _ => rfl)
  has := by
    intro k hk
    rw [hl.last] at hk
    simp only [goto_mem, goto_tab, goto_pc, hm, ht, hp]
    refine (h.has k hk).imp_right ?_
    rintro ⟨y, v, d, hy⟩
    have : y ≠ x := by rintro rfl; exact hx _ _ _ _ hy
    exact ⟨y, v, d, by simp [this, hy]⟩
  wrt := by
    intro t p k hk
    simp only [goto_mem, hm] at hk ⊢
    exact (h.wrt t p k hk).imp fun y hy => List.mem_append_left _ hy
  cur := by
    intro hc p k hk
    simp only [goto_mem, goto_tab, hm, ht] at hk ⊢
    rw [hl.last]
    exact h.cur hc.of_snoc p k hk
  nxt := by
    intro hc p k hk
    simp only [goto_mem, goto_tab, hm, ht] at hk ⊢
    rw [hl.last]
    exact h.nxt hc.of_snoc p k hk

/-- A search that ends at a free slot: the key has no value. -/
theorem TInv.absent (hI : Inv c s) (h : TInv c tr s) (h0 : 0 < c.size0) {k t d} (ht : t ≤ s.tab)
    (hp : Path c s.mem t k d) (hf : (s.mem t (c.pos t k d)).tag = .free) :
    lastWrite tr k = none := by
  have := hI.current (pos_lt h0 t k d) ht (by rw [hf]; simp)
  subst this
  have hn := hI.wff _ _ hf
  cases hk : lastWrite tr k with
  | none => rfl
  | some v =>
    exfalso
    rcases h.has k (by rw [hk]; simp) with ⟨p, hp'⟩ | ⟨x, v', d', hx⟩
    · obtain ⟨d', rfl, hd'⟩ := hI.path _ _ _ hp'
      have := hp.eq hd' (by rw [hn]; simp) (by rw [hp']; simp +contextual)
      subst this
      rw [hn] at hp'; simp at hp'
    · have hh := hI.pcs x
      rw [hx] at hh
      obtain ⟨_, hd', hb, hkey⟩ := hh
      have := hp.eq hd' (by rw [hn]; simp) (by rw [hkey]; simp)
      subst this
      rw [hf] at hb; simp at hb

theorem TInv.probe (hI : Inv c s) (h : TInv c tr s) (h0 : 0 < c.size0) {x o t d}
    (hx : s.pc x = .probe o t d) :
    PcT c (tr ++ [.tau x]) s.mem x (probeStep c s o t d) := by
  have ho := h.pct x
  have hp := hI.pcs x
  rw [hx] at ho hp
  have ho' : Open (tr ++ [.tau x]) x o := Open.snoc ho rfl
  obtain ⟨ht, hp⟩ := hp
  unfold probeStep
  dsimp only
  generalize hg : (s.mem t (c.pos t o.key d)).tag = g
  cases g with
  | busy => cases o <;> exact ho'
  | moved => cases o <;> exact ho'
  | free =>
    cases o with
    | put k v => exact ho'
    | get k =>
      have hn : lastWrite (tr ++ [.tau x]) k = none := by
        rw [(plain_tau x).last]; exact h.absent hI h0 ht hp hg
      have hsn : Seen (tr ++ [.tau x]) x k none := hn ▸ ho'.seen
      exact ⟨k, ho', Or.inr ⟨rfl, hsn⟩, fun _ => ⟨none, hsn, rfl⟩⟩
  | inuse =>
    cases o with
    | put k v =>
      by_cases hne : (s.mem t (c.pos t (Op.put k v).key d)).key = some k
      · simp only [if_pos hne]; exact ho'
      · simp only [if_neg hne]; exact ho'
    | get k =>
      by_cases hne : (s.mem t (c.pos t (Op.get k).key d)).key = some k
      · simp only [if_pos hne]
        refine ⟨ho', fun _ => Or.inl ?_⟩
        simp only [Op.key] at hg
        rw [hg]; simp
      · simp only [if_neg hne]; exact ho'

theorem TInv.readv (hI : Inv c s) (h : TInv c tr s) (h0 : 0 < c.size0) {x k t d}
    (hx : s.pc x = .readv k t d) :
    PcT c (tr ++ [.tau x]) s.mem x (.retg (s.mem t (c.pos t k d)).val) := by
  have ho := h.pct x
  have hp := hI.pcs x
  rw [hx] at ho hp
  obtain ⟨ho, hs⟩ := ho
  obtain ⟨ht, hk⟩ := hp
  refine ⟨k, ho.snoc rfl, Or.inl ?_, fun hc => ?_⟩
  · exact (h.wrt _ _ _ hk).imp fun y hy => List.mem_append_left _ hy
  · have hc' := hc.of_snoc
    refine ⟨some _, ?_, rfl⟩
    rcases hs hc' with hm | hm
    · have := hI.current (pos_lt h0 t k d) ht hm
      subst this
      have := ho.seen
      rw [h.cur hc' _ _ hk] at this
      exact this.snoc rfl
    · exact hm.snoc rfl

/-- The key of a thread that holds a slot is nowhere else in the table. -/
theorem Holds.only {k d f p} (hI : Inv c s) (h : Holds c s k s.tab d f)
    (hp : (s.mem s.tab p).key = some k) : f = false ∧ p = c.pos s.tab k d := by
  obtain ⟨_, h1, _, h2⟩ := h
  obtain ⟨d', rfl, hd'⟩ := hI.path _ _ _ hp
  have := h1.eq hd' (by rw [h2]; cases f <;> simp) (by rw [hp]; simp +contextual)
  subst this
  cases f with
  | false => exact ⟨rfl, rfl⟩
  | true => rw [h2] at hp; simp at hp

/-- Two threads hold slots for different keys. -/
theorem Inv.holder (hI : Inv c s) {x y k d d' f f'} (hx : owner c (s.pc x) =
    some (s.tab, c.pos s.tab k d)) (hy : owner c (s.pc y) = some (s.tab, c.pos s.tab k d'))
    (h : Holds c s k s.tab d f) (h' : Holds c s k s.tab d' f') : x = y := by
  have := h.2.1.eq h'.2.1 (by rw [h.2.2.2]; cases f <;> simp) (by rw [h'.2.2.2]; cases f' <;> simp)
  subst this
  exact hI.own1 _ _ _ hx hy

/-- Marking a slot busy (hash.c 657, 674). -/
theorem TInv.mark (hI : Inv c s) (h : TInv c tr s) {x q p} {l : Label} (hl : Plain x l)
    (hq : PcT c (tr ++ [l]) s.mem x q) (hq' : ∃ k v t d f, q = .write k v t d f)
    (hx : ∀ k v t d, s.pc x ≠ .publish k v t d true)
    (hm : (s.mem s.tab p).tag ≠ .moved) (hb : (s.mem s.tab p).tag ≠ .busy)
    (hr : Clean (tr ++ [l]) → (s.mem s.tab p).tag = .inuse → s.resizing = s.tab) :
    TInv c (tr ++ [l]) ((s.set s.tab p { s.mem s.tab p with tag := .busy }).goto x q) := by
  have hkv : ∀ t' p', ((s.set s.tab p { s.mem s.tab p with tag := .busy }).mem t' p').key =
      (s.mem t' p').key ∧ ((s.set s.tab p { s.mem s.tab p with tag := .busy }).mem t' p').val =
      (s.mem t' p').val := by
    intro t' p'
    rw [set_mem]
    split
    · rename_i e; obtain ⟨rfl, rfl⟩ := e; exact ⟨rfl, rfl⟩
    · exact ⟨rfl, rfl⟩
  constructor
  · intro y
    by_cases hyx : y = x
    · subst hyx
      obtain ⟨k, v, t, d, f, rfl⟩ := hq'
      simp only [goto_pc, upd_same]
      exact hq
    · simp only [goto_pc, set_pc, ne_eq, hyx, not_false_eq_true, upd_ne]
      refine (h.pct y).other (hI.pcs y) (hl.1 y hyx) (fun _ _ _ _ _ _ _ => hl.last _ _) ?_ ?_ ?_ ?_
      · intro t' p' ho
        have := ((hI.pcs y).busy ho).2
        simp only [goto_mem]
        rw [set_mem, if_neg]
        rintro ⟨rfl, rfl⟩
        exact hb this
      · intro hc hcy i hi
        simp only [goto_mem]
        rw [set_mem, if_neg]
        · exact hi
        · rintro ⟨_, rfl⟩
          obtain ⟨_, _, _, e, _⟩ := (hI.pcs y).upto hcy
          have := hr hc hi
          omega
      · intro k t d _ _ hnm
        left
        simp only [goto_mem]
        rw [set_mem]
        split
        · simp
        · exact hnm
      · intro t' p' _
        exact (hkv t' p').2
  · intro k hk
    rw [hl.last] at hk
    rcases h.has k hk with ⟨p', hp'⟩ | ⟨y, v, d, hy⟩
    · left; exact ⟨p', by simp only [goto_mem, goto_tab, set_tab]; rw [(hkv _ _).1]; exact hp'⟩
    · right
      have : y ≠ x := by rintro rfl; exact hx _ _ _ _ hy
      exact ⟨y, v, d, by simp [this, hy]⟩
  · intro t' p' k hk
    simp only [goto_mem] at hk ⊢
    rw [(hkv _ _).1] at hk
    rw [(hkv _ _).2]
    exact (h.wrt _ _ k hk).imp fun y hy => List.mem_append_left _ hy
  · intro hc p' k hk
    simp only [goto_mem, goto_tab, set_tab] at hk ⊢
    rw [(hkv _ _).1] at hk
    rw [(hkv _ _).2, hl.last]
    exact h.cur hc.of_snoc _ _ hk
  · intro hc p' k hk
    simp only [goto_mem, goto_tab, set_tab] at hk ⊢
    rw [(hkv _ _).1] at hk
    rw [(hkv _ _).2, hl.last]
    exact h.nxt hc.of_snoc _ _ hk

theorem TInv.write (hI : Inv c s) (h : TInv c tr s) {x k v t d f}
    (hx : s.pc x = .write k v t d f) :
    TInv c (tr ++ [.write x k v]) ((s.set t (c.pos t k d)
      { s.mem t (c.pos t k d) with val := v }).goto x (.publish k v t d f)) := by
  have hh := hI.pcs x
  rw [hx] at hh
  have hh' : Holds c s k t d f := hh
  have ht := hh'.1
  subst ht
  have ho := h.pct x
  rw [hx] at ho
  have hox : owner c (s.pc x) = some (s.tab, c.pos s.tab k d) := by rw [hx]; rfl
  have hkt : ∀ t' p', ((s.set s.tab (c.pos s.tab k d)
      { s.mem s.tab (c.pos s.tab k d) with val := v }).mem t' p').key = (s.mem t' p').key ∧
      ((s.set s.tab (c.pos s.tab k d)
      { s.mem s.tab (c.pos s.tab k d) with val := v }).mem t' p').tag = (s.mem t' p').tag := by
    intro t' p'
    rw [set_mem]
    split
    · rename_i e; obtain ⟨rfl, rfl⟩ := e; exact ⟨rfl, rfl⟩
    · exact ⟨rfl, rfl⟩
  have hoth : ∀ k', k' ≠ k → lastWrite (tr ++ [.write x k v]) k' = lastWrite tr k' := by
    intro k' hk'
    rw [lastWrite_snoc]; simp [Ne.symm hk']
  have hnow : lastWrite (tr ++ [.write x k v]) k = some v := by
    rw [lastWrite_snoc]; simp
  have hof : ∀ y, y ≠ x → (Label.write x k v).of y = false := by
    intro y hy; simp [Label.of, Ne.symm hy]
  constructor
  · intro y
    by_cases hyx : y = x
    · subst hyx
      simp only [goto_pc, upd_same]
      exact ⟨Open.written ho, by simp [set_mem], fun _ => hnow⟩
    · simp only [goto_pc, set_pc, ne_eq, hyx, not_false_eq_true, upd_ne]
      refine (h.pct y).other (hI.pcs y) (hof y hyx) ?_ ?_ ?_ ?_ ?_
      · intro k' v' t' d' f' hy _
        apply hoth
        rintro rfl
        have hy' := hI.pcs y
        rw [hy] at hy'
        have hy'' : Holds c s k' t' d' f' := hy'
        have := hy''.1
        subst this
        exact hyx (hI.holder (by rw [hy]; rfl) hox hy'' hh')
      · intro t' p' ho
        simp only [goto_mem]
        rw [set_mem, if_neg]
        rintro ⟨rfl, rfl⟩
        exact hyx (hI.own1 _ _ _ ho hox)
      · intro _ _ i hi
        simp only [goto_mem]
        rw [(hkt _ _).2]; exact hi
      · intro k' t' d' _ _ hm
        left
        simp only [goto_mem]
        rw [(hkt _ _).2]; exact hm
      · intro t' p' hm
        simp only [goto_mem]
        rw [set_mem, if_neg]
        rintro ⟨rfl, rfl⟩
        rw [hh'.2.2.1] at hm; simp at hm
  · intro k' hk'
    by_cases hkk : k' = k
    · subst hkk
      cases f with
      | true => right; exact ⟨x, v, d, by simp⟩
      | false =>
        left
        refine ⟨c.pos s.tab k' d, ?_⟩
        simp only [goto_mem, goto_tab, set_tab]
        rw [(hkt _ _).1, hh'.2.2.2]; rfl
    · rw [hoth _ hkk] at hk'
      rcases h.has k' hk' with ⟨p', hp'⟩ | ⟨y, v', d', hy⟩
      · left; exact ⟨p', by simp only [goto_mem, goto_tab, set_tab]; rw [(hkt _ _).1]; exact hp'⟩
      · right
        have : y ≠ x := by rintro rfl; rw [hx] at hy; simp at hy
        exact ⟨y, v', d', by simp [this, hy]⟩
  · intro t' p' k' hk'
    simp only [goto_mem] at hk' ⊢
    rw [(hkt _ _).1] at hk'
    rw [set_mem]
    split
    · rename_i e; obtain ⟨rfl, rfl⟩ := e
      have hkey := hh'.2.2.2
      rw [hk'] at hkey
      cases f <;> simp at hkey
      subst hkey
      exact ⟨x, by simp⟩
    · exact (h.wrt _ _ _ hk').imp fun y hy => List.mem_append_left _ hy
  · intro hc p' k' hk'
    simp only [goto_mem, goto_tab, set_tab] at hk' ⊢
    rw [(hkt _ _).1] at hk'
    by_cases hkk : k' = k
    · subst hkk
      obtain ⟨_, rfl⟩ := hh'.only hI hk'
      rw [hnow]; simp [set_mem]
    · rw [hoth _ hkk, h.cur hc.of_snoc _ _ hk']
      rw [set_mem, if_neg]
      rintro ⟨_, rfl⟩
      have hkey := hh'.2.2.2
      rw [hk'] at hkey
      cases f <;> simp at hkey
      exact hkk hkey
  · intro hc p' k' hk'
    simp only [goto_mem, goto_tab, set_tab] at hk' ⊢
    rw [(hkt _ _).1] at hk'
    have hne : k' ≠ k := by
      rintro rfl
      rcases hI.src _ _ hk' with ⟨p2, e1, e2⟩ | ⟨y, k0, v0, i, hy⟩
      · obtain ⟨_, rfl⟩ := hh'.only hI e2
        rw [hh'.2.2.1] at e1; simp at e1
      · have h1 := hI.pcs y
        have h2 := h.pct y
        rw [hy] at h1 h2
        have hki := (h1.2.2 _ rfl).1
        obtain ⟨_, e⟩ := hh'.only hI hki
        have := h2.2 (by simp) hc.of_snoc
        rw [e, hh'.2.2.1] at this; simp at this
    rw [hoth _ hne, h.nxt hc.of_snoc _ _ hk', set_mem, if_neg]
    simp

theorem TInv.publish (hI : Inv c s) (h : TInv c tr s) {x k v t d f}
    (hx : s.pc x = .publish k v t d f) :
    TInv c (tr ++ [.tau x]) ((s.set t (c.pos t k d)
      { s.mem t (c.pos t k d) with tag := .inuse, key := some k }).goto x
      (if f then .count else .retp)) := by
  have hh := hI.pcs x
  rw [hx] at hh
  have hh' : Holds c s k t d f := hh
  have ht := hh'.1
  subst ht
  have ho := h.pct x
  rw [hx] at ho
  obtain ⟨ho1, ho2, ho3⟩ := ho
  have hox : owner c (s.pc x) = some (s.tab, c.pos s.tab k d) := by rw [hx]; rfl
  have hval : ∀ t' p', ((s.set s.tab (c.pos s.tab k d)
      { s.mem s.tab (c.pos s.tab k d) with tag := .inuse, key := some k }).mem t' p').val =
      (s.mem t' p').val := by
    intro t' p'
    rw [set_mem]
    split
    · rename_i e; obtain ⟨rfl, rfl⟩ := e; rfl
    · rfl
  have hkey : ∀ t' p' k', ((s.set s.tab (c.pos s.tab k d)
      { s.mem s.tab (c.pos s.tab k d) with tag := .inuse, key := some k }).mem t' p').key = some k' →
      (s.mem t' p').key = some k' ∨ t' = s.tab ∧ p' = c.pos s.tab k d ∧ k' = k := by
    intro t' p' k' e
    rw [set_mem] at e
    split at e
    · rename_i e'; simp at e; right; exact ⟨e'.1, e'.2, e.symm⟩
    · exact Or.inl e
  have hl := plain_tau x
  constructor
  · intro y
    by_cases hyx : y = x
    · subst hyx
      simp only [goto_pc, upd_same]
      cases f <;> exact ⟨k, v, ho1.snoc rfl⟩
    · simp only [goto_pc, set_pc, ne_eq, hyx, not_false_eq_true, upd_ne]
      refine (h.pct y).other (hI.pcs y) rfl (fun _ _ _ _ _ _ _ => hl.last _ _) ?_ ?_ ?_ ?_
      · intro t' p' ho
        simp only [goto_mem]
        rw [set_mem, if_neg]
        rintro ⟨rfl, rfl⟩
        exact hyx (hI.own1 _ _ _ ho hox)
      · intro _ _ i hi
        simp only [goto_mem]
        rw [set_mem]
        split
        · rfl
        · exact hi
      · intro k' t' d' _ _ hm
        left
        simp only [goto_mem]
        rw [set_mem]
        split
        · simp
        · exact hm
      · intro t' p' _
        exact hval _ _
  · intro k' hk'
    rw [hl.last] at hk'
    simp only [goto_mem, goto_tab, set_tab]
    by_cases hkk : k' = k
    · subst hkk
      left
      exact ⟨c.pos s.tab k' d, by simp [set_mem]⟩
    · rcases h.has k' hk' with ⟨p', hp'⟩ | ⟨y, v', d', hy⟩
      · left
        refine ⟨p', ?_⟩
        rw [set_mem, if_neg]
        · exact hp'
        · rintro ⟨_, rfl⟩
          have e := hh'.2.2.2
          rw [hp'] at e
          cases f <;> simp at e
          exact hkk e
      · right
        have : y ≠ x := by rintro rfl; rw [hx] at hy; simp at hy; exact hkk hy.1.symm
        exact ⟨y, v', d', by simp [this, hy]⟩
  · intro t' p' k' hk'
    simp only [goto_mem] at hk' ⊢
    rw [hval]
    rcases hkey _ _ _ hk' with e | ⟨rfl, rfl, rfl⟩
    · exact (h.wrt _ _ _ e).imp fun y hy => List.mem_append_left _ hy
    · rw [ho2]; exact ⟨x, List.mem_append_left _ ho1.mem⟩
  · intro hc p' k' hk'
    simp only [goto_mem, goto_tab, set_tab] at hk' ⊢
    rw [hval, hl.last]
    rcases hkey _ _ _ hk' with e | ⟨_, rfl, rfl⟩
    · exact h.cur hc.of_snoc _ _ e
    · rw [ho2]; exact ho3 hc.of_snoc
  · intro hc p' k' hk'
    simp only [goto_mem, goto_tab, set_tab] at hk' ⊢
    rw [hval, hl.last]
    rcases hkey _ _ _ hk' with e | ⟨e, _, _⟩
    · exact h.nxt hc.of_snoc _ _ e
    · omega

theorem TInv.copy (hI : Inv c s) (h : TInv c tr s) {x k v t i kk d}
    (hx : s.pc x = .copy k v t i kk d) :
    TInv c (tr ++ [.tau x]) ((s.set (t + 1) (c.pos (t + 1) kk d)
      { tag := .inuse, key := some kk, val := (s.mem t i).val }).goto x
      (.move k v t i (some kk))) := by
  have hp := hI.pcs x
  have ho := h.pct x
  rw [hx] at hp ho
  obtain ⟨hu, e1, e2, e3, e4, e5⟩ := hp
  have ht := hu.1
  subst ht
  have hxc : isCop (s.pc x) = true := by rw [hx]; rfl
  have hl := plain_tau x
  have hother : ∀ t' p', t' ≠ s.tab + 1 → (s.set (s.tab + 1) (c.pos (s.tab + 1) kk d)
      { tag := .inuse, key := some kk, val := (s.mem s.tab i).val }).mem t' p' = s.mem t' p' := by
    intro t' p' ht; rw [set_mem]; simp [ht]
  constructor
  · intro y
    by_cases hyx : y = x
    · subst hyx
      simp only [goto_pc, upd_same]
      refine ⟨ho.1.snoc rfl, fun _ hc => ?_⟩
      simp only [goto_mem]
      rw [hother _ _ (by omega)]
      exact ho.2 hc.of_snoc
    · simp only [goto_pc, set_pc, ne_eq, hyx, not_false_eq_true, upd_ne]
      refine (h.pct y).other (hI.pcs y) rfl (fun _ _ _ _ _ _ _ => hl.last _ _) ?_ ?_ ?_ ?_
      · intro t' p' ho
        have := ((hI.pcs y).busy ho).1
        exact hother _ _ (by omega)
      · intro _ _ j hj
        simp only [goto_mem]
        rw [hother _ _ (by omega)]; exact hj
      · intro k' t' d' hy _ hm
        left
        have hy' := hI.pcs y
        rw [hy] at hy'
        have := hy'.1
        simp only [goto_mem]
        rw [hother _ _ (by omega)]; exact hm
      · intro t' p' hm
        simp only [goto_mem]
        rw [set_mem]
        split
        · rename_i e; obtain ⟨rfl, rfl⟩ := e
          rw [e5] at hm; simp at hm
        · rfl
  · intro k' hk'
    rw [hl.last] at hk'
    rcases h.has k' hk' with ⟨p', hp'⟩ | ⟨y, v', d', hy⟩
    · left
      refine ⟨p', ?_⟩
      simp only [goto_mem, goto_tab, set_tab]
      rw [hother _ _ (by omega)]; exact hp'
    · right
      have : y ≠ x := by rintro rfl; rw [hx] at hy; simp at hy
      exact ⟨y, v', d', by simp [this, hy]⟩
  · intro t' p' k' hk'
    simp only [goto_mem] at hk' ⊢
    rw [set_mem] at hk' ⊢
    split
    · rename_i e
      rw [if_pos e] at hk'
      simp at hk'; subst hk'
      exact (h.wrt _ _ _ e2).imp fun y hy => List.mem_append_left _ hy
    · rename_i e
      rw [if_neg e] at hk'
      exact (h.wrt _ _ _ hk').imp fun y hy => List.mem_append_left _ hy
  · intro hc p' k' hk'
    simp only [goto_mem, goto_tab, set_tab] at hk' ⊢
    rw [hother _ _ (by omega)] at hk' ⊢
    rw [hl.last]
    exact h.cur hc.of_snoc _ _ hk'
  · intro hc p' k' hk'
    simp only [goto_mem, goto_tab, set_tab] at hk' ⊢
    rw [set_mem] at hk' ⊢
    rw [hl.last]
    split
    · rename_i e
      rw [if_pos e] at hk'
      simp at hk'; subst hk'
      exact h.cur hc.of_snoc _ _ e2
    · rename_i e
      rw [if_neg e] at hk'
      exact h.nxt hc.of_snoc _ _ hk'

theorem TInv.move (hI : Inv c s) (h : TInv c tr s) {x k v t i e}
    (hx : s.pc x = .move k v t i e) (he : (s.mem t i).expects e = true) :
    TInv c (tr ++ [.tau x]) ((s.set t i { s.mem t i with tag := .moved }).goto x
      (.scan k v t (i + 1))) := by
  have hp := hI.pcs x
  have ho := h.pct x
  rw [hx] at hp ho
  obtain ⟨hu, e1, e2⟩ := hp
  have ht := hu.1
  subst ht
  have hxc : isCop (s.pc x) = true := by rw [hx]; rfl
  have hl := plain_tau x
  have htag : (s.mem s.tab i).tag ≠ .busy := by
    cases e with
    | none => rw [(expects_none he).1]; simp
    | some k => rw [(expects_some he).1]; simp
  have hkv : ∀ t' p', ((s.set s.tab i { s.mem s.tab i with tag := .moved }).mem t' p').key =
      (s.mem t' p').key ∧ ((s.set s.tab i { s.mem s.tab i with tag := .moved }).mem t' p').val =
      (s.mem t' p').val := by
    intro t' p'
    rw [set_mem]
    split
    · rename_i e; obtain ⟨rfl, rfl⟩ := e; exact ⟨rfl, rfl⟩
    · exact ⟨rfl, rfl⟩
  constructor
  · intro y
    by_cases hyx : y = x
    · subst hyx
      simp only [goto_pc, upd_same]
      exact ho.1.snoc rfl
    · simp only [goto_pc, set_pc, ne_eq, hyx, not_false_eq_true, upd_ne]
      refine (h.pct y).other (hI.pcs y) rfl (fun _ _ _ _ _ _ _ => hl.last _ _) ?_ ?_ ?_ ?_
      · intro t' p' ho
        have := ((hI.pcs y).busy ho).2
        simp only [goto_mem]
        rw [set_mem, if_neg]
        rintro ⟨rfl, rfl⟩
        exact htag this
      · intro _ hy
        exact absurd (hI.cop1 y x hy hxc) hyx
      · intro k' t' d' hy hc hm
        have hy1 := hI.pcs y
        have hy2 := h.pct y
        rw [hy] at hy1 hy2
        by_cases hpos : t' = s.tab ∧ c.pos t' k' d' = i
        · right
          obtain ⟨rfl, hpos⟩ := hpos
          simp only [goto_mem]
          rw [(hkv _ _).2]
          have := hy2.1.seen
          rw [h.cur hc.of_snoc _ _ hy1.2] at this
          exact this.snoc rfl
        · left
          simp only [goto_mem]
          rw [set_mem, if_neg hpos]; exact hm
      · intro t' p' _
        exact (hkv _ _).2
  · intro k' hk'
    rw [hl.last] at hk'
    rcases h.has k' hk' with ⟨p', hp'⟩ | ⟨y, v', d', hy⟩
    · left
      refine ⟨p', ?_⟩
      simp only [goto_mem, goto_tab, set_tab]
      rw [(hkv _ _).1]; exact hp'
    · right
      have : y ≠ x := by rintro rfl; rw [hx] at hy; simp at hy
      exact ⟨y, v', d', by simp [this, hy]⟩
  · intro t' p' k' hk'
    simp only [goto_mem] at hk' ⊢
    rw [(hkv _ _).1] at hk'
    rw [(hkv _ _).2]
    exact (h.wrt _ _ _ hk').imp fun y hy => List.mem_append_left _ hy
  · intro hc p' k' hk'
    simp only [goto_mem, goto_tab, set_tab] at hk' ⊢
    rw [(hkv _ _).1] at hk'
    rw [(hkv _ _).2, hl.last]
    exact h.cur hc.of_snoc _ _ hk'
  · intro hc p' k' hk'
    simp only [goto_mem, goto_tab, set_tab] at hk' ⊢
    rw [(hkv _ _).1] at hk'
    rw [(hkv _ _).2, hl.last]
    exact h.nxt hc.of_snoc _ _ hk'

theorem TInv.swap (hI : Inv c s) (h : TInv c tr s) (h0 : 0 < c.size0) {x k v t}
    (hx : s.pc x = .swap k v t) :
    TInv c (tr ++ [.tau x]) ({ s with tab := t + 1 }.goto x (.load (.put k v))) := by
  have hp := hI.pcs x
  have ho := h.pct x
  rw [hx] at hp ho
  obtain ⟨rfl, hr, _, hmv, _⟩ := hp
  have hl := plain_tau x
  constructor
  · intro y
    by_cases hyx : y = x
    · subst hyx
      simp only [goto_pc, upd_same]
      exact Open.snoc ho rfl
    · simp only [goto_pc, ne_eq, hyx, not_false_eq_true, upd_ne]
      exact (h.pct y).other (hI.pcs y) (hl.1 y hyx) (fun _ _ _ _ _ _ _ => hl.last _ _)
        (fun _ _ _ => rfl) (fun _ _ _ h => h) (fun _ _ _ _ _ h => Or.inl h) (fun _ _ _ => rfl)
  · intro k' hk'
    rw [hl.last] at hk'
    rcases h.has k' hk' with ⟨p', hp'⟩ | ⟨y, v', d', hy⟩
    · left
      obtain ⟨d', e, _⟩ := hI.path _ _ _ hp'
      exact hI.mvd p' k' (hmv _ (e ▸ pos_lt h0 _ _ _)) hp'
    · exfalso
      have := hI.pcs y
      rw [hy] at this
      obtain ⟨_, _, hb, _⟩ := this
      rw [hmv _ (pos_lt h0 _ _ _)] at hb; simp at hb
  · intro t' p' k' hk'
    exact (h.wrt _ _ _ hk').imp fun y hy => List.mem_append_left _ hy
  · intro hc p' k' hk'
    rw [hl.last]
    exact h.nxt hc.of_snoc _ _ hk'
  · intro hc p' k' hk'
    have : (s.mem (s.tab + 1 + 1) p').key = some k' := hk'
    rw [hI.new _ _ (by omega)] at this; simp at this

theorem TInv.kill (h : TInv c tr s) (hI : Inv c s) {x} : TInv c (tr ++ [.abort x]) s.kill := by
  have hl : Plain x (.abort x) := ⟨fun _ _ => rfl, by simp⟩
  constructor
  · intro y
    exact (h.pct y).other (hI.pcs y) rfl (fun _ _ _ _ _ _ _ => hl.last _ _)
        (fun _ _ _ => rfl) (fun _ _ _ h => h) (fun _ _ _ _ _ h => Or.inl h) (fun _ _ _ => rfl)
  · intro k hk
    rw [hl.last] at hk
    exact h.has k hk
  · intro t p k hk
    exact (h.wrt _ _ _ hk).imp fun y hy => List.mem_append_left _ hy
  · intro hc p k hk
    rw [hl.last]
    exact h.cur hc.of_snoc _ _ hk
  · intro hc p k hk
    rw [hl.last]
    exact h.nxt hc.of_snoc _ _ hk

theorem TInv.go (hI : Inv c s) (h : TInv c tr s) (h0 : 0 < c.size0) {x l s'}
    (hs : go c s x = some (l, s')) : TInv c (tr ++ [l]) s' := by
  unfold Chash.go at hs
  have hp := hI.pcs x
  have ho := h.pct x
  have ht := plain_tau x
  split at hs
  next => simp at hs
  next k v hx =>
    simp at hs; obtain ⟨rfl, rfl⟩ := hs
    rw [hx] at ho
    exact h.goto hI x _ _ ht (Open.snoc ho rfl) (by simp [hx]) rfl rfl rfl
  next k hx =>
    simp at hs; obtain ⟨rfl, rfl⟩ := hs
    rw [hx] at ho
    exact h.goto hI x _ _ ht (Open.snoc ho rfl) (by simp [hx]) rfl rfl rfl
  next k v t hx =>
    rw [hx] at ho
    split at hs
    · simp at hs; obtain ⟨rfl, rfl⟩ := hs
      exact h.goto hI x _ _ ht (Open.snoc ho rfl) (by simp [hx]) rfl rfl rfl
    · simp at hs; obtain ⟨rfl, rfl⟩ := hs
      exact h.goto hI x _ _ ht (Open.snoc ho rfl) (by simp [hx]) rfl rfl rfl
  next o t d hx =>
    simp at hs; obtain ⟨rfl, rfl⟩ := hs
    exact h.goto hI x _ _ ht (h.probe hI h0 hx) (by simp [hx]) rfl rfl rfl
  next k v t d hx =>
    dsimp only at hs
    rw [hx] at ho hp
    split at hs
    · rename_i he
      simp at hs; obtain ⟨rfl, rfl⟩ := hs
      obtain ⟨e1, e2⟩ := expects_none he
      have := hI.current (pos_lt h0 t k d) hp.1 (by rw [e1]; simp)
      subst this
      exact h.mark hI ht (Open.snoc ho rfl) ⟨_, _, _, _, _, rfl⟩ (by simp [hx]) (by simp [e1])
        (by simp [e1]) (by simp [e1])
    · simp at hs; obtain ⟨rfl, rfl⟩ := hs
      exact h.goto hI x _ _ ht (Open.snoc ho rfl) (by simp [hx]) rfl rfl rfl
  next k v t d hx =>
    dsimp only at hs
    rw [hx] at ho hp
    split at hs
    · rename_i he
      simp at hs; obtain ⟨rfl, rfl⟩ := hs
      obtain ⟨e1, e2⟩ := expects_some he
      have := hI.current (pos_lt h0 t k d) hp.1 (by rw [e1]; simp)
      subst this
      have hof : ∀ y, (if s.tab = s.resizing then Label.tau x else Label.race x k).of y = false := by
        intro y; split <;> rfl
      refine h.mark hI ⟨fun y _ => hof y, ?_⟩ (Open.snoc ho (hof x)) ⟨_, _, _, _, _, rfl⟩
        (by simp [hx]) (by simp [e1]) (by simp [e1]) ?_
      · intro y k' v'; split <;> simp
      · intro hc _
        by_cases hr : s.tab = s.resizing
        · exact hr.symm
        · exact absurd (by simp [hr]) (hc x k)
    · simp at hs; obtain ⟨rfl, rfl⟩ := hs
      exact h.goto hI x _ _ ht (Open.snoc ho rfl) (by simp [hx]) rfl rfl rfl
  next k v t d f hx =>
    simp at hs; obtain ⟨rfl, rfl⟩ := hs; exact h.write hI hx
  next k v t d f hx =>
    simp at hs; obtain ⟨rfl, rfl⟩ := hs; exact h.publish hI hx
  next hx =>
    rw [hx] at ho
    simp at hs; obtain ⟨rfl, rfl⟩ := hs
    obtain ⟨k, v, ho⟩ := ho
    exact h.goto hI x _ _ ht ⟨k, v, ho.snoc rfl⟩ (by simp [hx]) rfl rfl rfl
  next hx =>
    simp at hs; obtain ⟨rfl, rfl⟩ := hs
    exact h.goto hI x _ _ ⟨fun y hy => by simp [Label.of, Ne.symm hy], by simp⟩ trivial
      (by simp [hx]) rfl rfl rfl
  next k t d hx =>
    simp at hs; obtain ⟨rfl, rfl⟩ := hs
    exact h.goto hI x _ _ ht (h.readv hI h0 hx) (by simp [hx]) rfl rfl rfl
  next r hx =>
    simp at hs; obtain ⟨rfl, rfl⟩ := hs
    exact h.goto hI x _ _ ⟨fun y hy => by simp [Label.of, Ne.symm hy], by simp⟩ trivial
      (by simp [hx]) rfl rfl rfl
  next k v t hx =>
    rw [hx] at ho
    split at hs
    · simp at hs; obtain ⟨rfl, rfl⟩ := hs
      exact h.goto hI x _ _ ht (Open.snoc ho rfl) (by simp [hx]) rfl rfl rfl
    · simp at hs; obtain ⟨rfl, rfl⟩ := hs
      exact h.goto hI x _ _ ht (Open.snoc ho rfl) (by simp [hx]) rfl rfl rfl
  next o hx =>
    rw [hx] at ho
    simp at hs; obtain ⟨rfl, rfl⟩ := hs
    exact h.goto hI x _ _ ht (Open.snoc ho rfl) (by simp [hx]) rfl rfl rfl
  next o f hx =>
    rw [hx] at ho
    split at hs
    · simp at hs; obtain ⟨rfl, rfl⟩ := hs
      exact h.goto hI x _ _ ht (Open.snoc ho rfl) (by simp [hx]) rfl rfl rfl
    · simp at hs; obtain ⟨rfl, rfl⟩ := hs
      exact h.goto hI x _ _ ht (Open.snoc ho rfl) (by simp [hx]) rfl rfl rfl
  next k v t i hx =>
    rw [hx] at ho
    have ho' : Open (tr ++ [.tau x]) x (.put k v) := Open.snoc ho rfl
    unfold scanStep at hs
    by_cases hi : i < c.size t
    · simp only [if_pos hi] at hs
      cases hg : (s.mem t i).tag with
      | busy =>
        simp [hg] at hs; obtain ⟨rfl, rfl⟩ := hs
        exact h.goto hI x _ _ ht ho' (by simp [hx]) rfl rfl rfl
      | free =>
        simp [hg] at hs; obtain ⟨rfl, rfl⟩ := hs
        exact h.goto hI x _ _ ht ⟨ho', by simp⟩ (by simp [hx]) rfl rfl rfl
      | moved =>
        simp [hg] at hs; obtain ⟨rfl, rfl⟩ := hs
        exact h.kill hI
      | inuse =>
        cases hk : (s.mem t i).key with
        | none =>
          simp [hg, hk] at hs; obtain ⟨rfl, rfl⟩ := hs
          exact h.kill hI
        | some kk =>
          simp [hg, hk] at hs; obtain ⟨rfl, rfl⟩ := hs
          exact h.goto hI x _ _ ht ⟨ho', fun _ => hg⟩ (by simp [hx]) rfl rfl rfl
    · simp [hi] at hs; obtain ⟨rfl, rfl⟩ := hs
      exact h.goto hI x _ _ ht ho' (by simp [hx]) rfl rfl rfl
  next k v t i kk d hx =>
    rw [hx] at ho
    dsimp only at hs
    split at hs
    · simp at hs; obtain ⟨rfl, rfl⟩ := hs
      exact h.goto hI x _ _ ht ⟨ho.1.snoc rfl, fun hc => ho.2 hc.of_snoc⟩ (by simp [hx]) rfl rfl rfl
    · split at hs
      · simp at hs; obtain ⟨rfl, rfl⟩ := hs
        exact h.kill hI
      · simp at hs; obtain ⟨rfl, rfl⟩ := hs
        exact h.goto hI x _ _ ht ⟨ho.1.snoc rfl, fun hc => ho.2 hc.of_snoc⟩ (by simp [hx]) rfl rfl
          rfl
  next k v t i kk d hx =>
    simp at hs; obtain ⟨rfl, rfl⟩ := hs; exact h.copy hI hx
  next k v t i e hx =>
    split at hs
    · simp at hs; obtain ⟨rfl, rfl⟩ := hs; exact h.move hI hx (by assumption)
    · split at hs
      · simp at hs; obtain ⟨rfl, rfl⟩ := hs
        rw [hx] at ho
        exact h.goto hI x _ _ ht (ho.1.snoc rfl) (by simp [hx]) rfl rfl rfl
      · simp at hs; obtain ⟨rfl, rfl⟩ := hs; exact h.kill hI
  next k v t hx =>
    split at hs
    · simp at hs; obtain ⟨rfl, rfl⟩ := hs; exact h.swap hI h0 hx
    · simp at hs; obtain ⟨rfl, rfl⟩ := hs; exact h.kill hI

theorem TInv.step (hI : Inv c s) (h : TInv c tr s) (h0 : 0 < c.size0) {a l s'}
    (hs : step c s a = some (l, s')) : TInv c (tr ++ [l]) s' := by
  unfold Chash.step at hs
  split at hs
  · simp at hs
  · split at hs
    · rename_i x o
      split at hs
      · rename_i hx
        simp at hs; obtain ⟨rfl, rfl⟩ := hs
        have key : TInv c (tr ++ [callOf x o]) (s.goto x (.load o)) := by
          refine h.goto hI x _ _ ⟨?_, ?_⟩ ⟨tr, [], rfl, by simp⟩ (by simp [hx]) rfl rfl rfl
          · intro y hy; cases o <;> simp [callOf, Label.of, Ne.symm hy]
          · intro y k v; cases o <;> simp [callOf]
        cases o <;> exact key
      · simp at hs
    · exact h.go hI h0 hs

theorem TInv.init : TInv c [] {} where
  pct := fun _ => trivial
  has := by intro k h; exact absurd rfl h
  wrt := by intro t p k h; simp at h
  cur := by intro _ p k h; simp at h
  nxt := by intro _ p k h; simp at h

theorem Run.tinv {tr s} (h0 : 0 < c.size0) (h : Run c tr s) : TInv c tr s := by
  induction h with
  | new => exact TInv.init
  | step tr s a l s' hr hs ih => exact ih.step (hr.inv h0) h0 hs

end Verif.Hash.Chash
