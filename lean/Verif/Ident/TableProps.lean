import Verif.Ident.TableLemmas

/-!
# C17, C18: interning
-/

namespace Verif.Ident

/-! ## Comparisons -/

theorem partsMatch_iff (ps : List (List Nat)) : ∀ (bs : List Nat),
    bs.length = (ps.map List.length).sum → (partsMatch ps bs = true ↔ bs = ps.flatten) := by
  induction ps with
  | nil =>
    intro bs h
    simp only [List.map_nil, List.sum_nil, List.length_eq_zero_iff] at h
    subst h; simp [partsMatch]
  | cons p ps ih =>
    intro bs h
    simp only [List.map_cons, List.sum_cons] at h
    unfold partsMatch
    simp only [Bool.and_eq_true, beq_iff_eq, List.flatten_cons]
    rw [ih (bs.drop p.length) (by rw [List.length_drop]; omega)]
    constructor
    · intro ⟨h1, h2⟩
      rw [← h2, ← h1]
      have : (bs.take p.length).length = p.length := by rw [List.length_take]; omega
      rw [this, List.take_append_drop]
    · intro e
      subst e
      simp

theorem sameParts_iff (ps : List (List Nat)) (o : Obj) :
    sameParts ps o = true ↔ o.bytes = ps.flatten := by
  unfold sameParts
  simp only [Bool.and_eq_true, decide_eq_true_eq]
  constructor
  · intro ⟨h1, h2⟩; exact (partsMatch_iff ps _ h1).1 h2
  · intro e
    have : o.bytes.length = (ps.map List.length).sum := by rw [e, List.length_flatten]
    exact ⟨this, (partsMatch_iff ps _ this).2 e⟩

theorem hashUpdate_append (a b : List Nat) (ha : ∀ x ∈ a, x ≠ 0) : ∀ h,
    hashUpdate h (a ++ b) = hashUpdate (hashUpdate h a) b := by
  induction a with
  | nil => intro h; rfl
  | cons x a ih =>
    intro h
    have : x ≠ 0 := ha x (by simp)
    simp only [List.cons_append, hashUpdate, if_neg this]
    exact ih (fun y hy => ha y (by simp [hy])) _

theorem hash_parts (ps : List (List Nat)) (h0 : ∀ x ∈ ps.flatten, x ≠ 0) : ∀ h,
    ps.foldl hashUpdate h = hashUpdate h ps.flatten := by
  induction ps with
  | nil => intro h; rfl
  | cons p ps ih =>
    intro h
    rw [List.foldl_cons, List.flatten_cons, hashUpdate_append _ _ (fun x hx => h0 x (by simp [hx]))]
    exact ih (fun x hx => h0 x (by rw [List.flatten_cons]; simp only [List.mem_append]; exact .inr hx)) _

/-! ## One pass over the table -/

/-- The hash of a string. -/
def hashOf (str : List Nat) : BitVec 32 := mixBits32 (hashUpdate hashInit str)

theorem probe_spec (t : Tab) (h : TInv t) (str : List Nat) (same : Obj → Bool)
    (hsame : ∀ o ∈ t.objs, same o = true ↔ o.bytes = str) (k : Nat) (hk : t.slots.length = 2 ^ k) :
    ∀ (n i : Nat),
      (∀ j, j < i → ∃ id o, t.slots[pos (hashOf str).toNat (2 ^ k) j]? = some (some id) ∧
        t.objs[id]? = some o ∧ o.bytes ≠ str) →
      match probe t same n (pos (hashOf str).toNat (2 ^ k) i) (i + 1) with
      | .found id => ∃ o, t.objs[id]? = some o ∧ o.bytes = str
      | .free slot => ∃ j, j < i + n ∧ slot = pos (hashOf str).toNat (2 ^ k) j ∧
          t.slots[slot]? = some none ∧
          (∀ i', i' < j → ∃ id o, t.slots[pos (hashOf str).toNat (2 ^ k) i']? = some (some id) ∧
            t.objs[id]? = some o ∧ o.bytes ≠ str)
      | .limit => ∀ j, j < i + n → ∃ id o,
          t.slots[pos (hashOf str).toNat (2 ^ k) j]? = some (some id) ∧
            t.objs[id]? = some o ∧ o.bytes ≠ str
      | .bad => False := by
  intro n
  induction n with
  | zero => intro i hi; unfold probe; simpa using hi
  | succ n ih =>
    intro i hi
    unfold probe
    have hp : pos (hashOf str).toNat (2 ^ k) i < t.slots.length := by
      rw [hk]; exact pos_lt _ _ _ (Nat.two_pow_pos k)
    rcases e : t.slots[pos (hashOf str).toNat (2 ^ k) i]? with _ | _ | id
    · rw [List.getElem?_eq_none_iff] at e; omega
    · exact ⟨i, by omega, rfl, e, hi⟩
    · have hm : some id ∈ t.slots := List.mem_iff_getElem?.2 ⟨_, e⟩
      obtain ⟨o, ho⟩ := h.obj hm
      have hom : o ∈ t.objs := List.mem_iff_getElem?.2 ⟨_, ho⟩
      simp only [ho]
      by_cases c : same o = true
      · rw [if_pos c]
        exact ⟨o, ho, (hsame o hom).1 c⟩
      · rw [if_neg c, hk, nextSlot_pos]
        have := ih (i + 1) (by
          intro j hj
          by_cases cj : j = i
          · subst cj
            exact ⟨id, o, e, ho, fun e' => c ((hsame o hom).2 e')⟩
          · exact hi j (by omega))
        have e2 : i + 1 + n = i + (n + 1) := by omega
        rw [e2] at this
        exact this

/-- Nothing behind a free slot: a string whose probe sequence reaches a free slot without
finding it is not in the table. -/
theorem absent_of_free (t : Tab) (h : TInv t) (str : List Nat) (k : Nat)
    (hk : t.slots.length = 2 ^ k) (j : Nat)
    (hf : t.slots[pos (hashOf str).toNat (2 ^ k) j]? = some none)
    (hb : ∀ i', i' < j → ∃ id o, t.slots[pos (hashOf str).toNat (2 ^ k) i']? = some (some id) ∧
            t.objs[id]? = some o ∧ o.bytes ≠ str) :
    ∀ o ∈ t.objs, o.bytes ≠ str := by
  intro o ho he
  obtain ⟨id, hid⟩ := List.mem_iff_getElem?.1 ho
  obtain ⟨p, hp⟩ := h.slot (List.getElem?_eq_some_iff.1 hid).1
  obtain ⟨o', h1, j', h2, h3, h4⟩ := h.chain p id hp
  rw [hid] at h1
  cases h1
  have hh : o.hash = hashOf str := by rw [h.hashes o ho, he]; rfl
  rw [hh, hk] at h2
  by_cases c1 : j' < j
  · obtain ⟨id2, o2, g1, g2, g3⟩ := hb j' c1
    rw [← h2, hp] at g1
    simp only [Option.some.injEq] at g1
    subst g1
    rw [hid] at g2; cases g2
    exact g3 he
  · by_cases c2 : j' = j
    · subst c2; rw [← h2, hp] at hf; simp at hf
    · obtain ⟨v, hv⟩ := h4 j (by omega)
      rw [hh, hk, hf] at hv
      simp at hv

theorem chain_mono (objs more : List Obj) (s : List (Option Nat)) (h : Chain objs s) :
    Chain (objs ++ more) s := by
  intro p id hp
  obtain ⟨o, h1, h2⟩ := h p id hp
  refine ⟨o, ?_, h2⟩
  rw [List.getElem?_append_left (List.getElem?_eq_some_iff.1 h1).1]; exact h1

theorem insert_inv (t : Tab) (h : TInv t) (str : List Nat) (k : Nat)
    (hk : t.slots.length = 2 ^ k) (j : Nat) (hj : j < 2 ^ k)
    (hf : t.slots[pos (hashOf str).toNat (2 ^ k) j]? = some none)
    (hb : ∀ i', i' < j → ∃ id o, t.slots[pos (hashOf str).toNat (2 ^ k) i']? = some (some id) ∧
            t.objs[id]? = some o ∧ o.bytes ≠ str) :
    TInv { objs := t.objs ++ [⟨hashOf str, str⟩],
           slots := t.slots.set (pos (hashOf str).toNat (2 ^ k) j) (some t.objs.length) } := by
  have habs := absent_of_free t h str k hk j hf hb
  obtain ⟨k', hk', hk5⟩ := h.pow
  obtain ⟨hp1, hp2⟩ := List.getElem?_eq_some_iff.1 hf
  refine ⟨⟨k', by simp [hk'], hk5⟩, ?_, ?_, ?_, ?_⟩
  · exact chain_set _ t.slots t.objs.length ⟨hashOf str, str⟩ k hk (chain_mono _ _ _ h.chain)
      (by simp) j hj (fun i hi => by obtain ⟨id, o, g, _⟩ := hb i hi; exact ⟨id, g⟩)
  · intro id
    have h1 := h.once id
    simp only [List.length_append, List.length_singleton]
    rw [List.count, List.countP_set hp1, hp2]
    rw [List.count] at h1
    rw [h1]
    by_cases c : id = t.objs.length
    · subst c; simp
    · have hc2 : (some t.objs.length == some id) = false := by simp [Ne.symm c]
      rw [hc2]
      simp only [Bool.false_eq_true, if_false, Nat.add_zero]
      by_cases c3 : id < t.objs.length
      · simp [c3, show id < t.objs.length + 1 by omega]
      · simp [c3, show ¬ id < t.objs.length + 1 by omega]
  · intro o ho
    simp only [List.mem_append, List.mem_singleton] at ho
    rcases ho with ho | rfl
    · exact h.hashes o ho
    · rfl
  · intro i j' a b ha hb' hab
    simp only [List.getElem?_append] at ha hb'
    by_cases c1 : i < t.objs.length
    · rw [if_pos c1] at ha
      by_cases c2 : j' < t.objs.length
      · rw [if_pos c2] at hb'
        exact h.distinct i j' a b ha hb' hab
      · rw [if_neg c2] at hb'
        have hz : j' - t.objs.length = 0 := by
          apply Classical.byContradiction
          intro hn
          rw [List.getElem?_eq_none (by simp; omega)] at hb'
          simp at hb'
        rw [hz] at hb'
        simp only [List.getElem?_cons_zero, Option.some.injEq] at hb'
        subst hb'
        exact absurd hab (habs a (List.mem_iff_getElem?.2 ⟨_, ha⟩))
    · rw [if_neg c1] at ha
      have hz : i - t.objs.length = 0 := by
        apply Classical.byContradiction
        intro hn
        rw [List.getElem?_eq_none (by simp; omega)] at ha
        simp at ha
      rw [hz] at ha
      simp only [List.getElem?_cons_zero, Option.some.injEq] at ha
      subst ha
      by_cases c2 : j' < t.objs.length
      · rw [if_pos c2] at hb'
        exact absurd hab.symm (habs b (List.mem_iff_getElem?.2 ⟨_, hb'⟩))
      · rw [if_neg c2] at hb'
        have hz : j' - t.objs.length = 0 := by
          apply Classical.byContradiction
          intro hn
          rw [List.getElem?_eq_none (by simp; omega)] at hb'
          simp at hb'
        omega

/-! ## Interning -/

theorem intern_spec (str : List Nat) (same : Obj → Bool) : ∀ (fuel : Nat) (t : Tab), TInv t →
    (∀ o ∈ t.objs, same o = true ↔ o.bytes = str) →
    match internLoop (hashOf str) same str fuel t with
    | .ok id true t' => TInv t' ∧ t'.objs = t.objs ∧ ∃ o, t.objs[id]? = some o ∧ o.bytes = str
    | .ok id false t' => TInv t' ∧ id = t.objs.length ∧ t'.objs = t.objs ++ [⟨hashOf str, str⟩] ∧
        (∀ o ∈ t.objs, o.bytes ≠ str)
    | .bad => False
    | .fatal => maxLen ≤ str.length
    | .growing => True := by
  intro fuel
  induction fuel with
  | zero => intro t _ _; unfold internLoop; trivial
  | succ fuel ih =>
    intro t h hsame
    obtain ⟨k, hk, hk5⟩ := h.pow
    have hps := probe_spec t h str same hsame k hk reprobeLimit 0 (by intro j hj; omega)
    unfold internLoop
    rw [hk, slotOf_pos]
    simp only [Nat.zero_add] at hps
    have h32 : 2 ^ 5 ≤ 2 ^ k := Nat.pow_le_pow_right (by omega) hk5
    rcases e : probe t same reprobeLimit (pos (hashOf str).toNat (2 ^ k) 0) 1 with id | slot | _ | _
    · rw [e] at hps
      exact ⟨h, rfl, hps⟩
    · rw [e] at hps
      obtain ⟨j, h1, h2, h3, h4⟩ := hps
      simp only
      by_cases c : maxLen ≤ str.length
      · rw [if_pos c]; exact c
      · rw [if_neg c]
        subst h2
        have hj : j < 2 ^ k := by simp only [reprobeLimit] at h1; omega
        exact ⟨insert_inv t h str k hk j hj h3 h4, rfl, rfl, absent_of_free t h str k hk j h3 h4⟩
    · simp only
      obtain ⟨t', g1, g2, g3, _⟩ := grow_inv t h
      rw [g1]
      have := ih t' g2 (by rw [g3]; exact hsame)
      rw [g3] at this
      exact this
    · rw [e] at hps; exact hps

/-- The string that a call interns. -/
def Op.str : Op → List Nat
  | .bytes s => s
  | .vec _ ps => ps.flatten

/-- Is the call a `uniq` one? -/
def Op.uniq : Op → Bool
  | .bytes _ => false
  | .vec u _ => u

theorem step_spec (fuel : Nat) (t : Tab) (op : Op) (h : TInv t) (h0 : ∀ b ∈ op.str, b ≠ 0) :
    match step fuel t op with
    | .ok id true t' => TInv t' ∧ t'.objs = t.objs ∧ ∃ o, t.objs[id]? = some o ∧ o.bytes = op.str
    | .ok id false t' => TInv t' ∧ id = t.objs.length ∧
        t'.objs = t.objs ++ [⟨hashOf op.str, op.str⟩] ∧ (∀ o ∈ t.objs, o.bytes ≠ op.str)
    | .bad => False
    | .fatal => maxLen ≤ op.str.length
    | .growing => True := by
  cases op with
  | bytes str =>
    refine intern_spec str (sameBytes (hashOf str) str) fuel t h ?_
    intro o ho
    unfold sameBytes
    simp only [Bool.and_eq_true, decide_eq_true_eq]
    constructor
    · intro ⟨_, e⟩; exact e
    · intro e
      refine ⟨⟨by rw [e], ?_⟩, e⟩
      rw [h.hashes o ho, e]; rfl
  | vec u ps =>
    have hh : mixBits32 (ps.foldl hashUpdate hashInit) = hashOf ps.flatten := by
      rw [hash_parts ps h0]; rfl
    show match fromVec fuel t ps with
      | .ok id true t' => _ | .ok id false t' => _ | .bad => _ | .fatal => _ | .growing => _
    unfold fromVec
    rw [hh]
    exact intern_spec ps.flatten (sameParts ps) fuel t h fun o _ => sameParts_iff ps o

/-- What is known after a history of calls that all returned. -/
theorem run_spec (fuel : Nat) : ∀ (ops : List Op) (t t' : Tab) (rs : List (Option Nat)),
    TInv t → (∀ op ∈ ops, ∀ b ∈ op.str, b ≠ 0) → run fuel t ops = some (rs, t') →
    TInv t' ∧ rs.length = ops.length ∧ (∃ more, t'.objs = t.objs ++ more) ∧
    (∀ (i : Nat) (op : Op) (id : Nat), ops[i]? = some op → rs[i]? = some (some id) →
      ∃ o, t'.objs[id]? = some o ∧ o.bytes = op.str) ∧
    (∀ (i : Nat) (op : Op), ops[i]? = some op →
      (rs[i]? = some none ↔ op.uniq = true ∧ ((∃ o ∈ t.objs, o.bytes = op.str) ∨
        ∃ (j : Nat) (op' : Op), j < i ∧ ops[j]? = some op' ∧ op'.str = op.str))) := by
  intro ops
  induction ops with
  | nil =>
    intro t t' rs h _ e
    simp only [run, Option.some.injEq, Prod.mk.injEq] at e
    obtain ⟨rfl, rfl⟩ := e
    exact ⟨h, rfl, ⟨[], by simp⟩, by simp, by simp⟩
  | cons op ops ih =>
    intro t t' rs h h0 e
    have hs := step_spec fuel t op h (h0 op (by simp))
    unfold run at e
    have h0' : ∀ op ∈ ops, ∀ b ∈ op.str, b ≠ 0 := fun o ho => h0 o (by simp [ho])
    rcases es : step fuel t op with ⟨id, ex, t1⟩ | _ | _ | _
    · rw [es] at e hs
      simp only at e
      rcases er : run fuel t1 ops with _ | ⟨rs1, t2⟩
      · rw [er] at e; simp at e
      · rw [er] at e
        simp only [Option.map_some, Option.some.injEq, Prod.mk.injEq] at e
        obtain ⟨rfl, rfl⟩ := e
        -- facts common to both cases
        have common : TInv t1 ∧ (∃ more, t1.objs = t.objs ++ more) ∧
            (∃ o, t1.objs[id]? = some o ∧ o.bytes = op.str) ∧
            (ex = true ↔ ∃ o ∈ t.objs, o.bytes = op.str) ∧
            (∀ s : List Nat, (∃ o ∈ t1.objs, o.bytes = s) ↔
              (∃ o ∈ t.objs, o.bytes = s) ∨ op.str = s) := by
          cases ex with
          | true =>
            obtain ⟨g1, g2, o, g3, g4⟩ := hs
            have hom : o ∈ t.objs := List.mem_iff_getElem?.2 ⟨_, g3⟩
            refine ⟨g1, ⟨[], by simp [g2]⟩, ⟨o, by rw [g2]; exact g3, g4⟩,
              ⟨fun _ => ⟨o, hom, g4⟩, fun _ => rfl⟩, fun s => ?_⟩
            rw [g2]
            constructor
            · exact Or.inl
            · rintro (g | rfl)
              · exact g
              · exact ⟨o, hom, g4⟩
          | false =>
            obtain ⟨g1, g2, g3, g4⟩ := hs
            refine ⟨g1, ⟨_, g3⟩, ⟨⟨hashOf op.str, op.str⟩, by rw [g3, g2]; simp, rfl⟩, ?_, fun s => ?_⟩
            · constructor
              · intro f; simp at f
              · rintro ⟨o, ho, he⟩; exact absurd he (g4 o ho)
            · rw [g3]
              simp only [List.mem_append, List.mem_singleton]
              constructor
              · rintro ⟨o, ho | rfl, he⟩
                · exact .inl ⟨o, ho, he⟩
                · exact .inr he
              · rintro (⟨o, ho, he⟩ | rfl)
                · exact ⟨o, .inl ho, he⟩
                · exact ⟨_, .inr rfl, rfl⟩
        obtain ⟨c1, ⟨m1, c2⟩, ⟨o1, c3, c3'⟩, c4, c5⟩ := common
        obtain ⟨i1, i2, ⟨m2, i3⟩, i4, i5⟩ := ih t1 t2 rs1 c1 h0' er
        refine ⟨i1, by simp [i2], ⟨m1 ++ m2, by rw [i3, c2, List.append_assoc]⟩, ?_, ?_⟩
        · intro i op' id' ho hr
          cases i with
          | zero =>
            simp only [List.getElem?_cons_zero, Option.some.injEq] at ho hr
            subst ho
            have : id' = id := by
              unfold result at hr
              split at hr
              · split at hr
                · simp at hr
                · simpa using hr.symm
              · simpa using hr.symm
            subst this
            refine ⟨o1, ?_, c3'⟩
            rw [i3, List.getElem?_append_left (List.getElem?_eq_some_iff.1 c3).1]; exact c3
          | succ i =>
            simp only [List.getElem?_cons_succ] at ho hr
            exact i4 i op' id' ho hr
        · intro i op' ho
          cases i with
          | zero =>
            simp only [List.getElem?_cons_zero, Option.some.injEq] at ho
            subst ho
            simp only [List.getElem?_cons_zero, Option.some.injEq]
            have hres : result op id ex = none ↔ op.uniq = true ∧ ex = true := by
              cases op with
              | bytes s => simp [result, Op.uniq]
              | vec u ps => cases u <;> cases ex <;> simp [result, Op.uniq]
            rw [hres, c4]
            constructor
            · rintro ⟨a, b⟩; exact ⟨a, .inl b⟩
            · rintro ⟨a, b | ⟨j, _, hj, _⟩⟩
              · exact ⟨a, b⟩
              · omega
          | succ i =>
            simp only [List.getElem?_cons_succ] at ho ⊢
            rw [i5 i op' ho, c5]
            constructor
            · rintro ⟨a, (b | b) | ⟨j, q, hj, hq, he⟩⟩
              · exact ⟨a, .inl b⟩
              · exact ⟨a, .inr ⟨0, op, by omega, rfl, b⟩⟩
              · exact ⟨a, .inr ⟨j + 1, q, by omega, by simpa using hq, he⟩⟩
            · rintro ⟨a, b | ⟨j, q, hj, hq, he⟩⟩
              · exact ⟨a, .inl (.inl b)⟩
              · cases j with
                | zero =>
                  simp only [List.getElem?_cons_zero, Option.some.injEq] at hq
                  subst hq
                  exact ⟨a, .inl (.inr he)⟩
                | succ j =>
                  exact ⟨a, .inr ⟨j, q, by omega, by simpa using hq, he⟩⟩
    all_goals (rw [es] at e; simp at e)

/-- **C17.**  In every history of interning calls, through either interning function and
with any number of table growths in between: two calls give the same identifier iff their
strings are equal, every identifier still has the characters it was made from, and a call
that insists on a new identifier gives none iff the string was interned before. -/
theorem intern_canonical (fuel : Nat) (ops : List Op) (rs : List (Option Nat)) (t : Tab)
    (h0 : ∀ op ∈ ops, ∀ b ∈ op.str, b ≠ 0) (hrun : run fuel Tab.init ops = some (rs, t)) :
    (∀ (i j : Nat) (x y : Op) (a b : Nat), ops[i]? = some x → ops[j]? = some y →
      rs[i]? = some (some a) → rs[j]? = some (some b) → (a = b ↔ x.str = y.str)) ∧
    (∀ (i : Nat) (x : Op) (a : Nat), ops[i]? = some x → rs[i]? = some (some a) →
      (t.objs[a]?).map Obj.bytes = some x.str) ∧
    (∀ (i : Nat) (x : Op), ops[i]? = some x →
      (rs[i]? = some none ↔ x.uniq = true ∧
        ∃ (j : Nat) (y : Op), j < i ∧ ops[j]? = some y ∧ y.str = x.str)) := by
  obtain ⟨h1, _, _, h4, h5⟩ := run_spec fuel ops Tab.init t rs init_inv h0 hrun
  refine ⟨?_, ?_, ?_⟩
  · intro i j x y a b hx hy ha hb
    obtain ⟨o1, p1, q1⟩ := h4 i x a hx ha
    obtain ⟨o2, p2, q2⟩ := h4 j y b hy hb
    constructor
    · rintro rfl
      rw [p1] at p2
      cases p2
      rw [← q1, q2]
    · intro e
      exact h1.distinct a b o1 o2 p1 p2 (by rw [q1, q2, e])
  · intro i x a hx ha
    obtain ⟨o1, p1, q1⟩ := h4 i x a hx ha
    rw [p1, ← q1]; rfl
  · intro i x hx
    rw [h5 i x hx]
    simp [Tab.init]

/-- A concrete history. -/
example : (run 1 Tab.init [.bytes [97], .vec false [[97], [46], [98]], .vec true [[97]],
    .bytes [97, 46, 98], .vec true [[97], [49]]]).map Prod.fst =
    some [some 0, some 1, none, some 1, some 2] := by decide +kernel

/-! ## C18 -/

/-- No injection into fewer places. -/
theorem pigeon (n : Nat) (f : Nat → Nat) (hf : ∀ i, i < n + 1 → f i < n) :
    ∃ i j, i < j ∧ j < n + 1 ∧ f i = f j := by
  apply Classical.byContradiction
  intro hn
  have := occ_ge (n + 1) (List.replicate n (some 0)) f
    (fun i j h1 h2 e => hn ⟨i, j, h1, h2, e⟩)
    (fun i hi => ⟨0, by rw [List.getElem?_replicate, if_pos (hf i hi)]⟩)
  have h2 := occ_le (List.replicate n (some 0))
  simp only [List.length_replicate] at h2
  omega

/-- With twenty identifiers that have the hash of `str`, one pass over the table does not
find room for `str`. -/
theorem crowded_limit (t : Tab) (h : TInv t) (str : List Nat) (k : Nat)
    (hk : t.slots.length = 2 ^ k) (ids : Nat → Nat)
    (hinj : ∀ i j, i < j → j < 20 → ids i ≠ ids j)
    (hids : ∀ i, i < 20 → ∃ o, t.objs[ids i]? = some o ∧ o.hash = hashOf str)
    (habs : ∀ o ∈ t.objs, o.bytes ≠ str) :
    probe t (sameBytes (hashOf str) str) reprobeLimit (slotOf (hashOf str) t.slots.length) 1 =
      .limit := by
  have hsame : ∀ o ∈ t.objs, sameBytes (hashOf str) str o = true ↔ o.bytes = str := by
    intro o ho
    constructor
    · unfold sameBytes
      simp only [Bool.and_eq_true, decide_eq_true_eq]
      exact fun e => e.2
    · intro e; exact absurd e (habs o ho)
  have hps := probe_spec t h str _ hsame k hk reprobeLimit 0 (by intro j hj; omega)
  rw [hk, slotOf_pos]
  simp only [Nat.zero_add] at hps
  rcases e : probe t (sameBytes (hashOf str) str) reprobeLimit (pos (hashOf str).toNat (2 ^ k) 0) 1
    with id | slot | _ | _
  · rw [e] at hps
    obtain ⟨o, h1, h2⟩ := hps
    exact absurd h2 (habs o (List.mem_iff_getElem?.2 ⟨_, h1⟩))
  · rw [e] at hps
    obtain ⟨j, h1, h2, h3, _⟩ := hps
    exfalso
    subst h2
    simp only [reprobeLimit] at h1
    -- every one of the twenty identifiers sits before the free slot
    have hpl : ∀ i, i < 20 → ∃ j', j' < j ∧
        t.slots[pos (hashOf str).toNat (2 ^ k) j']? = some (some (ids i)) := by
      intro i hi
      obtain ⟨o, g1, g2⟩ := hids i hi
      obtain ⟨p, hp⟩ := h.slot (List.getElem?_eq_some_iff.1 g1).1
      obtain ⟨o', k1, j', k2, k3, k4⟩ := h.chain p (ids i) hp
      rw [g1] at k1; cases k1
      rw [g2, hk] at k2
      refine ⟨j', ?_, by rw [← k2]; exact hp⟩
      apply Classical.byContradiction
      intro hn
      by_cases c : j' = j
      · subst c; rw [← k2, hp] at h3; simp at h3
      · obtain ⟨v, hv⟩ := k4 j (by omega)
        rw [g2, hk, h3] at hv; simp at hv
    have hex : ∃ f : Nat → Nat, ∀ i, i < 20 → f i < j ∧
        t.slots[pos (hashOf str).toNat (2 ^ k) (f i)]? = some (some (ids i)) := by
      refine ⟨fun i => if hi : i < 20 then Classical.choose (hpl i hi) else 0, ?_⟩
      intro i hi
      simp only [dif_pos hi]
      exact Classical.choose_spec (hpl i hi)
    obtain ⟨f, hf⟩ := hex
    obtain ⟨a, b, q1, q2, q3⟩ := pigeon 19 f (fun i hi => by have := (hf i hi).1; omega)
    have e1 := (hf a (by omega)).2
    have e2 := (hf b q2).2
    rw [q3, e2] at e1
    simp only [Option.some.injEq] at e1
    exact hinj a b q1 q2 e1.symm
  · rfl
  · rw [e] at hps; exact absurd hps id

/-- **C18 does not hold.**  In every reachable table with twenty identifiers of one hash
value, interning another string with this hash value never returns: however often the
table has been doubled, the next pass doubles it again. -/
theorem growth_diverges (t : Tab) (h : TInv t) (str : List Nat) (ids : Nat → Nat)
    (hinj : ∀ i j, i < j → j < 20 → ids i ≠ ids j)
    (hids : ∀ i, i < 20 → ∃ o, t.objs[ids i]? = some o ∧ o.hash = hashOf str)
    (habs : ∀ o ∈ t.objs, o.bytes ≠ str) :
    ∀ fuel, (match fromBytes fuel t str with | .growing => True | _ => False) := by
  intro fuel
  show (match internLoop (hashOf str) (sameBytes (hashOf str) str) str fuel t with
    | .growing => True | _ => False)
  induction fuel generalizing t with
  | zero => unfold internLoop; trivial
  | succ fuel ih =>
    obtain ⟨k, hk, _⟩ := h.pow
    unfold internLoop
    rw [crowded_limit t h str k hk ids hinj hids habs]
    simp only
    obtain ⟨t', g1, g2, g3, _⟩ := grow_inv t h
    rw [g1]
    exact ih t' g2 (by rw [g3]; exact hids) (by rw [g3]; exact habs)

/-- The string made of `n` groups, each "AQ" or "B0" (which have the same hash), chosen by
the bits of `k`. -/
def collide : Nat → Nat → List Nat
  | 0, _ => []
  | n + 1, k => (if k % 2 = 0 then [65, 81] else [66, 48]) ++ collide n (k / 2)

/-- Twenty-one ordinary identifiers, after which the program hangs: interning the first
twenty works, the next call never returns. -/
theorem interning_counterexample :
    ∃ t rs, run 1 Tab.init ((List.range 20).map fun k => .bytes (collide 5 k)) = some (rs, t) ∧
      ∀ fuel, (match fromBytes fuel t (collide 5 20) with | .growing => True | _ => False) := by
  have hrun : ((run 1 Tab.init ((List.range 20).map fun k => .bytes (collide 5 k))).map
      fun r => r.2.objs) = some ((List.range 20).map fun k => ⟨hashOf (collide 5 20), collide 5 k⟩) := by
    decide +kernel
  rcases e : run 1 Tab.init ((List.range 20).map fun k => .bytes (collide 5 k)) with _ | ⟨rs, t⟩
  · rw [e] at hrun; simp at hrun
  · rw [e] at hrun
    simp only [Option.map_some, Option.some.injEq] at hrun
    refine ⟨t, rs, rfl, ?_⟩
    have hinv := (run_spec 1 _ Tab.init t rs init_inv (by decide +kernel) e).1
    refine growth_diverges t hinv _ id (fun i j h1 _ => by simp; omega) ?_ ?_
    · intro i hi
      rw [hrun]
      refine ⟨⟨hashOf (collide 5 20), collide 5 i⟩, ?_, rfl⟩
      simp [List.getElem?_range hi]
    · rw [hrun]
      decide +kernel

/-- An identifier is in one slot only. -/
theorem TInv.one_slot {t : Tab} (h : TInv t) (p q id : Nat) (hp : t.slots[p]? = some (some id))
    (hq : t.slots[q]? = some (some id)) : p = q := by
  apply Classical.byContradiction
  intro hne
  obtain ⟨h1, h2⟩ := List.getElem?_eq_some_iff.1 hp
  have hc : (t.slots.set p none).count (some id) + 1 ≤ t.slots.count (some id) := by
    have hpos : 0 < t.slots.count (some id) := List.count_pos_iff.2 (List.mem_iff_getElem?.2 ⟨p, hp⟩)
    rw [List.count] at hpos ⊢
    rw [List.countP_set h1, h2]
    simp
    omega
  have hq' : (t.slots.set p none)[q]? = some (some id) := by
    rw [List.getElem?_set_ne hne]; exact hq
  have := List.count_pos_iff.2 (List.mem_iff_getElem?.2 ⟨q, hq'⟩)
  have h3 := h.once id
  split at h3 <;> omega

theorem intern_few (t : Tab) (h : TInv t) (hn : t.objs.length < 20) (str : List Nat)
    (same : Obj → Bool) (hsame : ∀ o ∈ t.objs, same o = true ↔ o.bytes = str)
    (hlen : str.length < maxLen) :
    ∃ id ex t', internLoop (hashOf str) same str 1 t = .ok id ex t' := by
  obtain ⟨k, hk, hk5⟩ := h.pow
  have h32 : 2 ^ 5 ≤ 2 ^ k := Nat.pow_le_pow_right (by omega) hk5
  have hps := probe_spec t h str same hsame k hk reprobeLimit 0 (by intro j hj; omega)
  unfold internLoop
  rw [hk, slotOf_pos]
  simp only [Nat.zero_add] at hps
  rcases e : probe t same reprobeLimit (pos (hashOf str).toNat (2 ^ k) 0) 1 with id | slot | _ | _
  · exact ⟨id, true, t, rfl⟩
  · simp only
    rw [if_neg (by omega)]
    exact ⟨_, _, _, rfl⟩
  · exfalso
    rw [e] at hps
    simp only [reprobeLimit] at hps
    have hex : ∃ f : Nat → Nat, ∀ i, i < 20 →
        t.slots[pos (hashOf str).toNat (2 ^ k) i]? = some (some (f i)) := by
      refine ⟨fun i => if hi : i < 20 then Classical.choose (hps i hi) else 0, ?_⟩
      intro i hi
      simp only [dif_pos hi]
      obtain ⟨o, ho, _⟩ := Classical.choose_spec (hps i hi)
      exact ho
    obtain ⟨f, hf⟩ := hex
    obtain ⟨a, b, q1, q2, q3⟩ := pigeon 19 f (fun i hi => by
      obtain ⟨o, ho⟩ := h.obj (List.mem_iff_getElem?.2 ⟨_, hf i hi⟩)
      have := (List.getElem?_eq_some_iff.1 ho).1
      omega)
    have e1 := hf a (by omega)
    have e2 := hf b q2
    rw [q3] at e1
    exact pos_inj (hashOf str).toNat k a b q1 (by omega) (h.one_slot _ _ _ e1 e2)
  · rw [e] at hps; exact absurd hps id

/-- **C18, what does hold.**  Interning returns at once, without growing the table, as long
as there are fewer than twenty identifiers.  (Missing: a condition on larger sets.  By
`growth_diverges` it would have to limit the number of equal hash values.) -/
theorem interning_terminates_partial (t : Tab) (h : TInv t) (hn : t.objs.length < 20)
    (op : Op) (h0 : ∀ b ∈ op.str, b ≠ 0) (hlen : op.str.length < maxLen) :
    ∃ id ex t', step 1 t op = .ok id ex t' := by
  cases op with
  | bytes str =>
    refine intern_few t h hn str (sameBytes (hashOf str) str) ?_ hlen
    intro o ho
    unfold sameBytes
    simp only [Bool.and_eq_true, decide_eq_true_eq]
    constructor
    · intro ⟨_, e⟩; exact e
    · intro e
      refine ⟨⟨by rw [e], ?_⟩, e⟩
      rw [h.hashes o ho, e]; rfl
  | vec u ps =>
    have hh : mixBits32 (ps.foldl hashUpdate hashInit) = hashOf ps.flatten := by
      rw [hash_parts ps h0]; rfl
    show ∃ id ex t', fromVec 1 t ps = .ok id ex t'
    unfold fromVec
    rw [hh]
    exact intern_few t h hn ps.flatten (sameParts ps) (fun o _ => sameParts_iff ps o) hlen

example : TInv Tab.init ∧ Tab.init.objs.length < 20 := ⟨init_inv, by decide⟩

end Verif.Ident
