import Verif.Hash.Rehash2
import Verif.Util.Props

/-!
# C12–C15: the hash tables are finite maps

Specification: the contents of a table are a function `K → Option V` updated by the
operations in the obvious way (`Op.apply`).  The hash function is arbitrary.
-/

namespace Verif.Hash

variable {K V : Type} [DecidableEq K]

/-- Operations on a table. -/
inductive Op (K V : Type) where
  | put (k : K) (v : Option V)
  | del (k : K)
  | get (k : K)

/-- Effect of an operation on a finite map; putting the null pointer removes the key. -/
def Op.apply (m : K → Option V) : Op K V → K → Option V
  | .put k v => fun k' => if k' = k then v else m k'
  | .del k => fun k' => if k' = k then none else m k'
  | .get _ => m

/-- What a lookup has to return. -/
def Op.result (m : K → Option V) : Op K V → Option (Option V)
  | .get k => some (m k)
  | _ => none

/-- The map after a sequence of operations, and the results of the lookups. -/
def specRun : (K → Option V) → List (Op K V) → (K → Option V) × List (Option (Option V))
  | m, [] => (m, [])
  | m, op :: ops =>
    let r := specRun (op.apply m) ops
    (r.1, op.result m :: r.2)

/-- Run operations on a table `σ` with a given step function. -/
def run {σ ω : Type} (step : σ → ω → M (σ × Option (Option V))) : σ → List ω →
    M (σ × List (Option (Option V)))
  | s, [] => .ok (s, [])
  | s, op :: ops => do
    let r ← step s op
    let r' ← run step r.1 ops
    .ok (r'.1, r.2 :: r'.2)

/-- A step function that simulates the specification runs like it. -/
theorem run_sim {σ : Type} (step : σ → Op K V → M (σ × Option (Option V)))
    (ok : Op K V → Prop)
    (R : σ → (K → Option V) → Prop)
    (hstep : ∀ s m op, ok op → R s m → ∃ s', step s op = .ok (s', op.result m) ∧ R s' (op.apply m))
    (ops : List (Op K V)) (hok : ∀ op ∈ ops, ok op) (s : σ) (m : K → Option V) (h : R s m) :
    ∃ s', run step s ops = .ok (s', (specRun m ops).2) ∧ R s' (specRun m ops).1 := by
  induction ops generalizing s m with
  | nil => exact ⟨s, rfl, h⟩
  | cons op ops ih =>
    obtain ⟨s1, h1, h2⟩ := hstep s m op (hok op (by simp)) h
    obtain ⟨s2, h3, h4⟩ := ih (fun o ho => hok o (by simp [ho])) s1 _ h2
    refine ⟨s2, ?_, h4⟩
    unfold run
    rw [h1, except_bind_ok, h3, except_bind_ok]
    rfl

/-! ## hash_t -/

/-- One `hash_t` operation. -/
def hashStep (hf : K → Nat) (t : Tab K V) : Op K V → M (Tab K V × Option (Option V))
  | .put k v => do let r ← hashPut hf t k v; .ok (r.1, none)
  | .del k => do let t' ← delete hf t k; .ok (t', none)
  | .get k => do let v ← get hf t k; .ok (t, some v)

/-- One `shash_t` operation. -/
def shashStep (hf : K → Nat) (t : Tab K V) : Op K V → M (Tab K V × Option (Option V))
  | .put k v => do let t' ← shashPut hf t k v; .ok (t', none)
  | .del k => do let t' ← delete hf t k; .ok (t', none)
  | .get k => do let v ← get hf t k; .ok (t, some v)

/-- Representation of a map with enough room: the invariant of reachable tables. -/
def Room (hf : K → Nat) (t : Tab K V) (m : K → Option V) : Prop :=
  ∃ m', Rep hf t m' ∧ (∀ k, (m' k).join = m k) ∧ 4 ≤ t.size ∧ t.members ≤ t.size / 2 + 1

theorem Room.get_ok {hf : K → Nat} {t : Tab K V} {m} (h : Room hf t m) (k : K) :
    get hf t k = .ok (m k) := by
  obtain ⟨m', h1, h2, h3, h4⟩ := h
  rw [get_rep h1 k (Or.inl (by omega)), h2]

theorem Room.delete_ok {hf : K → Nat} {t : Tab K V} {m} (h : Room hf t m) (k : K) :
    ∃ t', delete hf t k = .ok t' ∧ Room hf t' (fun k' => if k' = k then none else m k') := by
  obtain ⟨m', h1, h2, h3, h4⟩ := h
  obtain ⟨t', g1, g2, g3, g4⟩ := delete_rep h1 k (by omega)
  refine ⟨t', g1, _, g2, ?_, by omega, by omega⟩
  intro k'
  by_cases c : k' = k
  · simp only [if_pos c]
    cases m' k <;> rfl
  · simp only [if_neg c]; exact h2 k'

theorem hashStep_sim (hf : K → Nat) (t : Tab K V) (m : K → Option V) (op : Op K V)
    (h : Room hf t m) :
    ∃ t', hashStep hf t op = .ok (t', op.result m) ∧ Room hf t' (op.apply m) := by
  cases op with
  | put k v =>
    obtain ⟨m', h1, h2, h3, h4⟩ := h
    obtain ⟨t', b, m2, g1, g2, g3, g4, g5⟩ := hashPut_rep h1 k v
    refine ⟨t', by simp only [hashStep, g1, except_bind_ok]; rfl, m2, g2, ?_, by omega, g5⟩
    intro k'
    rw [g3]
    unfold fupd Op.apply
    simp only [h2]
  | del k =>
    obtain ⟨t', g1, g2⟩ := h.delete_ok k
    exact ⟨t', by simp only [hashStep, g1, except_bind_ok]; rfl, g2⟩
  | get k =>
    exact ⟨t, by simp only [hashStep, h.get_ok, except_bind_ok]; rfl, h⟩

theorem shashStep_sim (hf : K → Nat) (t : Tab K V) (m : K → Option V) (op : Op K V)
    (h : Room hf t m) :
    ∃ t', shashStep hf t op = .ok (t', op.result m) ∧ Room hf t' (op.apply m) := by
  cases op with
  | put k v =>
    obtain ⟨m', h1, h2, h3, h4⟩ := h
    obtain ⟨t', g1, g2, g4, g5⟩ := shashPut_rep h1 k v
    refine ⟨t', by simp only [shashStep, g1, except_bind_ok]; rfl, _, g2, ?_, by omega, g5⟩
    intro k'
    unfold fupd Op.apply
    by_cases c : k' = k
    · simp [c]
    · simp [c, h2]
  | del k =>
    obtain ⟨t', g1, g2⟩ := h.delete_ok k
    exact ⟨t', by simp only [shashStep, g1, except_bind_ok]; rfl, g2⟩
  | get k =>
    exact ⟨t, by simp only [shashStep, h.get_ok, except_bind_ok]; rfl, h⟩

theorem new_size {n : BitVec 32} (h1 : 3 ≤ n.toNat) (h2 : n.toNat ≤ 2 ^ 30) :
    (∃ e, (Util.nextPowerOf2 n).toNat = 2 ^ e) ∧ 4 ≤ (Util.nextPowerOf2 n).toNat := by
  obtain ⟨e, he, hle, _⟩ := Util.next_power_of_2_spec n (by omega) h2
  refine ⟨⟨e, he⟩, ?_⟩
  rw [he]
  match e, hle with
  | 0, hle => omega
  | 1, hle => omega
  | e + 2, _ => rw [Nat.pow_add]; have := Nat.two_pow_pos e; omega

theorem new_room (hf : K → Nat) {n : BitVec 32} (h1 : 3 ≤ n.toNat) (h2 : n.toNat ≤ 2 ^ 30) :
    Room hf (new n : Tab K V) (fun _ => none) := by
  obtain ⟨hp, h4⟩ := new_size h1 h2
  exact ⟨_, empty_rep hf _ hp, fun _ => rfl, h4, by simp [new, empty]⟩

theorem iterate_eq (t : Tab K V) :
    (iterate t).map (fun p => (p.1, some p.2)) = (t.keys.zip t.vals).filterMap livePair := by
  unfold iterate
  rw [List.map_filterMap]
  congr 1
  funext ⟨a, b⟩
  cases a <;> cases b <;> rfl

/-- Iteration enumerates exactly the map, without repetition. -/
theorem Room.iterate_spec {hf : K → Nat} {t : Tab K V} {m} (h : Room hf t m) :
    ((iterate t).map Prod.fst).Nodup ∧ ∀ k v, (k, v) ∈ iterate t ↔ m k = some v := by
  obtain ⟨m', h1, h2, h3, h4⟩ := h
  refine ⟨?_, ?_⟩
  · have := h1.nodupLive
    rw [← iterate_eq, List.map_map] at this
    exact this
  · intro k v
    have e : (k, v) ∈ iterate t ↔ (k, some v) ∈ (iterate t).map (fun p => (p.1, some p.2)) := by
      rw [List.mem_map]
      constructor
      · intro hm; exact ⟨_, hm, rfl⟩
      · rintro ⟨⟨a, b⟩, hm, he⟩
        simp only [Prod.mk.injEq, Option.some.injEq] at he
        rw [← he.1, ← he.2]; exact hm
    rw [e, iterate_eq, mem_livePair, ← h1.rep, ← h2 k]
    cases m' k with
    | none => simp
    | some x => cases x <;> simp

/-- **C12.**  A pointer hash table created with a requested size of at least 3 behaves as a
finite map under every sequence of operations, whatever the hash function: every operation
terminates, each lookup returns what the map holds, and the final iteration visits every
live pair exactly once. -/
theorem hash_refines_map (hf : K → Nat) (n : BitVec 32) (h1 : 3 ≤ n.toNat) (h2 : n.toNat ≤ 2 ^ 30)
    (ops : List (Op K V)) :
    ∃ t, run (hashStep hf) (new n) ops = .ok (t, (specRun (fun _ => none) ops).2) ∧
      ((iterate t).map Prod.fst).Nodup ∧
      ∀ k v, (k, v) ∈ iterate t ↔ (specRun (fun _ => none) ops).1 k = some v := by
  obtain ⟨t, g1, g2⟩ := run_sim (hashStep hf) (fun _ => True) (Room hf)
    (fun s m op _ h => hashStep_sim hf s m op h) ops (fun _ _ => trivial) (new n) _
    (new_room hf h1 h2)
  exact ⟨t, g1, g2.iterate_spec⟩

example : 3 ≤ (100#32).toNat ∧ (100#32).toNat ≤ 2 ^ 30 := by decide

/-- A concrete history with a collision, an overwrite, a deletion and a growth. -/
example : ((run (hashStep (fun _ : Nat => 3)) (new 4#32)
    [.put 1 (some 10), .put 2 (some 20), .del 1, .put 3 (some 30), .put 4 (some 40), .get 1,
      .get 2, .get 4]).map Prod.snd).toOption =
    some [none, none, none, none, none, some none, some (some 20), some (some 40)] := by
  decide +kernel

/-- **C14.**  String tables behave as finite maps on string contents. -/
theorem shash_refines_map (hf : K → Nat) (n : BitVec 32) (h1 : 3 ≤ n.toNat)
    (h2 : n.toNat ≤ 2 ^ 30) (ops : List (Op K V)) :
    ∃ t, run (shashStep hf) (new n) ops = .ok (t, (specRun (fun _ => none) ops).2) ∧
      ((iterate t).map Prod.fst).Nodup ∧
      ∀ k v, (k, v) ∈ iterate t ↔ (specRun (fun _ => none) ops).1 k = some v := by
  obtain ⟨t, g1, g2⟩ := run_sim (shashStep hf) (fun _ => True) (Room hf)
    (fun s m op _ h => shashStep_sim hf s m op h) ops (fun _ _ => trivial) (new n) _
    (new_room hf h1 h2)
  exact ⟨t, g1, g2.iterate_spec⟩

example : ((run (shashStep (fun s : String => s.length)) (new 4#32)
    [.put "a" (some 1), .put "b" (some 2), .del "a", .put "c" (some 3), .put "d" (some 4),
      .put "a" (some 5), .get "a", .get "b", .get "e"]).map Prod.snd).toOption =
    some [none, none, none, none, none, none, some (some 5), some (some 2), some none] := by
  decide +kernel

/-! ## ihash_t -/

/-- One `ihash_t` operation (there is no deletion; recursion depth 1 is enough). -/
def ihashStep (hf : K → Nat) (t : ITab K V) : Op K V → M (ITab K V × Option (Option V))
  | .put k v => do let t' ← ihashPut hf 1 t k v; .ok (t', none)
  | .del _ => .error .ub
  | .get k => do let r ← ihashGet hf t k; .ok (r.2, some r.1)

/-- Invariant: the cache agrees with the map whenever it may be consulted. -/
def IRoom (hf : K → Nat) (t : ITab K V) (m : K → Option V) : Prop :=
  Room hf t.tab m ∧ (t.tab.members > 0 → ∃ c, t.cachekey = some c ∧ t.cacheval = m c)

theorem ihashStep_sim (hf : K → Nat) (t : ITab K V) (m : K → Option V) (op : Op K V)
    (hop : ∀ k, op ≠ .del k) (h : IRoom hf t m) :
    ∃ t', ihashStep hf t op = .ok (t', op.result m) ∧ IRoom hf t' (op.apply m) := by
  cases op with
  | put k v =>
    obtain ⟨⟨m', h1, h2, h3, h4⟩, hc⟩ := h
    obtain ⟨t', g1, g2, g4, g5, g6⟩ := ihashPut_rep h1 0 k v
    refine ⟨_, by simp only [ihashStep, g1, except_bind_ok]; rfl, ⟨_, g2, ?_, by simp only; omega, g5⟩,
      ?_⟩
    · intro k'
      unfold fupd Op.apply
      by_cases c : k' = k
      · simp [c]
      · simp [c, h2]
    · intro _
      exact ⟨k, rfl, by simp [Op.apply]⟩
  | del k => exact absurd rfl (hop k)
  | get k =>
    obtain ⟨hr, hc⟩ := h
    have hg := hr.get_ok k
    by_cases c : t.tab.members > 0
    · obtain ⟨ck, e1, e2⟩ := hc c
      by_cases e : k = ck
      · refine ⟨t, ?_, hr, hc⟩
        unfold ihashStep ihashGet
        simp only [if_pos c, e1, if_pos e, e2]
        rw [e]; rfl
      · refine ⟨{ t with cachekey := some k, cacheval := m k }, ?_, hr, fun _ => ⟨k, rfl, rfl⟩⟩
        unfold ihashStep ihashGet
        simp only [if_pos c, e1, if_neg e, hg, except_bind_ok]
        rfl
    · refine ⟨{ t with cachekey := some k, cacheval := m k }, ?_, hr, fun h => absurd h c⟩
      unfold ihashStep ihashGet
      simp only [if_neg c, hg, except_bind_ok]
      rfl

/-- **C15.**  Integer-keyed tables behave as finite maps under every interleaving of puts
and gets; in particular the cache of the last lookup is never stale and never read
before it is set. -/
theorem ihash_refines_map (hf : K → Nat) (n : BitVec 32) (h1 : 3 ≤ n.toNat)
    (h2 : n.toNat ≤ 2 ^ 30) (ops : List (Op K V)) (hops : ∀ op ∈ ops, ∀ k, op ≠ .del k) :
    ∃ t, run (ihashStep hf) (inew n) ops = .ok (t, (specRun (fun _ => none) ops).2) ∧
      ((iterate t.tab).map Prod.fst).Nodup ∧
      ∀ k v, (k, v) ∈ iterate t.tab ↔ (specRun (fun _ => none) ops).1 k = some v := by
  obtain ⟨t, g1, g2⟩ := run_sim (ihashStep hf) (fun op => ∀ k, op ≠ .del k) (IRoom hf)
    (fun s m op ho h => ihashStep_sim hf s m op ho h) ops hops (inew n) (fun _ => none)
    ⟨new_room hf h1 h2, fun h => by simp [inew, new, empty] at h⟩
  exact ⟨t, g1, g2.1.iterate_spec⟩

example : ((run (ihashStep (fun k : Nat => k * 7)) (inew 4#32)
    [.get 0, .put 0 (some 1), .get 0, .put 4 (some 2), .get 0, .get 4, .put 4 (some 3), .get 4,
      .put 8 (some 4), .put 12 (some 5), .get 0]).map Prod.snd).toOption =
    some [some none, none, some (some 1), none, some (some 1), some (some 2), none, some (some 3),
      none, none, some (some 1)] := by
  decide +kernel

/-! ## hset_t -/

/-- Set operations. -/
inductive SOp (K : Type) where
  | insert (k : K)
  | contains (k : K)

/-- One `hset_t` operation. -/
def hsetStep (hf : K → Nat) (t : Tab K Unit) : SOp K → M (Tab K Unit × Option Bool)
  | .insert k => do let t' ← hsetInsert hf 1 t k; .ok (t', none)
  | .contains k => do let b ← hsetContains hf t k; .ok (t, some b)

def hsetRun (hf : K → Nat) : Tab K Unit → List (SOp K) → M (List (Option Bool))
  | _, [] => .ok []
  | t, op :: ops => do
    let r ← hsetStep hf t op
    let r' ← hsetRun hf r.1 ops
    .ok (r.2 :: r')

/-- What a set answers: a membership query is true if the key was inserted before. -/
def hsetSpec : List K → List (SOp K) → List (Option Bool)
  | _, [] => []
  | s, .insert k :: ops => none :: hsetSpec (k :: s) ops
  | s, .contains k :: ops => some (decide (k ∈ s)) :: hsetSpec s ops

/-- **C15b.**  A pointer set answers every membership query correctly. -/
theorem hset_refines_set (hf : K → Nat) (n : BitVec 32) (h1 : 3 ≤ n.toNat)
    (h2 : n.toNat ≤ 2 ^ 30) (ops : List (SOp K)) :
    hsetRun hf (new n) ops = .ok (hsetSpec [] ops) := by
  have gen : ∀ (ops : List (SOp K)) (t : Tab K Unit) (s : List K),
      Rep hf t (setMap fun k => decide (k ∈ s)) → 4 ≤ t.size → t.members ≤ t.size / 2 + 1 →
      hsetRun hf t ops = .ok (hsetSpec s ops) := by
    intro ops
    induction ops with
    | nil => intros; rfl
    | cons op ops ih =>
      intro t s h h4 hm
      cases op with
      | insert k =>
        obtain ⟨t', g1, g2, g3, g4⟩ := hsetInsert_rep h 0 k
        rw [Nat.zero_add] at g1
        have e : fupd (fun k => decide (k ∈ s)) k true = fun k' => decide (k' ∈ k :: s) := by
          funext k'
          unfold fupd
          by_cases c : k' = k <;> simp [c]
        rw [e] at g2
        unfold hsetRun hsetStep
        simp only [g1, except_bind_ok]
        rw [ih t' (k :: s) g2 (by omega) g4]
        rfl
      | contains k =>
        have g := hsetContains_rep h k (Or.inl (by omega))
        unfold hsetRun hsetStep
        simp only [g, except_bind_ok]
        rw [ih t s h h4 hm]
        rfl
  obtain ⟨hp, h4⟩ := new_size h1 h2
  exact gen ops (new n) [] (by
    have := empty_rep (V := Unit) hf _ hp
    have e : (setMap fun k => decide (k ∈ ([] : List K))) = fun _ => none := by
      funext k; simp [setMap]
    rw [e]; exact this) h4 (by simp [new, empty])

example : (hsetRun (fun _ : Nat => 0) (new 3#32)
    [.insert 1, .insert 2, .insert 3, .insert 4, .contains 4, .contains 5, .contains 1]).toOption =
    some [none, none, none, none, some true, some false, some true] := by decide +kernel

/-! ## C13: termination of lookups -/

/-- A lookup of an absent key in a completely full table never returns. -/
theorem find_full {hf : K → Nat} {t : Tab K V} {m} (h : Rep hf t m) (hfull : t.members = t.size)
    {k : K} (hk : m k = none) : find hf t k = .error .diverge := by
  have hab := h.absent hk
  have hocc : ∀ i : Nat, i < t.size → ∃ k', t.keys[i]? = some (some k') := by
    intro i hi
    have hl : i < t.keys.length := by rw [h.chain.len]; exact hi
    have hall : ∀ a ∈ t.keys, a.isSome = true := by
      have : t.keys.countP Option.isSome = t.keys.length := by
        rw [h.chain.len, ← hfull, h.mem]; rfl
      exact List.countP_eq_length.1 this
    obtain ⟨k', hk'⟩ := Option.isSome_iff_exists.1 (hall _ (List.getElem_mem hl))
    exact ⟨k', by rw [List.getElem?_eq_getElem hl, hk']⟩
  have hpos := h.chain.pos
  have gen : ∀ f slot, slot < t.size → probe t.keys t.size k f slot = .error .diverge := by
    intro f
    induction f with
    | zero => intros; rfl
    | succ f ih =>
      intro slot hs
      obtain ⟨k', hk'⟩ := hocc slot hs
      unfold probe
      rw [hk']
      simp only
      have : k' ≠ k := by rintro rfl; exact hab slot hk'
      rw [if_neg this]
      apply ih
      rw [mask_eq h.chain.pow]
      exact Nat.mod_lt _ hpos
  apply gen
  unfold slotOf
  rw [mask_eq h.chain.pow]
  exact Nat.mod_lt _ hpos

/-- **C13 (partial).**  If the requested size is at least 3, then after any sequence of
operations every lookup terminates, in each of the four kinds of table.  (Missing: the
requested sizes 0, 1 and 2, for which the claim is false, see below.) -/
theorem lookup_terminates_partial (hf : K → Nat) (n : BitVec 32) (h1 : 3 ≤ n.toNat)
    (h2 : n.toNat ≤ 2 ^ 30) (ops : List (Op K V)) (k : K) :
    (∃ t outs, run (hashStep hf) (new n) ops = .ok (t, outs) ∧ ∃ v, get hf t k = .ok v) ∧
    (∃ t outs, run (shashStep hf) (new n) ops = .ok (t, outs) ∧ ∃ v, get hf t k = .ok v) ∧
    ((∀ op ∈ ops, ∀ k, op ≠ .del k) →
      ∃ t outs, run (ihashStep hf) (inew n) ops = .ok (t, outs) ∧ ∃ r, ihashGet hf t k = .ok r) := by
  refine ⟨?_, ?_, ?_⟩
  · obtain ⟨t, g1, g2⟩ := run_sim (hashStep hf) (fun _ => True) (Room hf)
      (fun s m op _ h => hashStep_sim hf s m op h) ops (fun _ _ => trivial) (new n) _
      (new_room hf h1 h2)
    exact ⟨t, _, g1, _, g2.get_ok k⟩
  · obtain ⟨t, g1, g2⟩ := run_sim (shashStep hf) (fun _ => True) (Room hf)
      (fun s m op _ h => shashStep_sim hf s m op h) ops (fun _ _ => trivial) (new n) _
      (new_room hf h1 h2)
    exact ⟨t, _, g1, _, g2.get_ok k⟩
  · intro hops
    obtain ⟨t, g1, g2⟩ := run_sim (ihashStep hf) (fun op => ∀ k, op ≠ .del k) (IRoom hf)
      (fun s m op ho h => ihashStep_sim hf s m op ho h) ops hops (inew n) (fun _ => none)
      ⟨new_room hf h1 h2, fun h => by simp [inew, new, empty] at h⟩
    obtain ⟨t', e, _⟩ := ihashStep_sim hf t _ (.get k) (by intro k'; simp) g2
    refine ⟨t, _, g1, ?_⟩
    simp only [ihashStep] at e
    cases hh : ihashGet hf t k with
    | ok r => exact ⟨r, rfl⟩
    | error x =>
      rw [hh] at e
      cases e

/-- **C13 is false for requested size 1**: after one put, looking up any other key loops for
ever, whatever the hash function. -/
theorem lookup_size1_counterexample (hf : K → Nat) (a k : K) (v : V) (h : a ≠ k) :
    ∃ t, hashPut hf (new 1#32) a (some v) = .ok (t, false) ∧ get hf t k = .error .diverge := by
  have e : (Util.nextPowerOf2 1#32).toNat = 1 := by decide
  have hr := empty_rep (V := V) hf 1 ⟨0, rfl⟩
  obtain ⟨t, g1, g2, g3, g4⟩ := insert_rep hr a (some v) (by simp [empty])
  refine ⟨t, ?_, ?_⟩
  · unfold hashPut new
    rw [e]
    simp only [empty, Nat.not_lt_zero, gt_iff_lt, if_false]
    exact g1
  · unfold get
    rw [find_full g2 (by rw [g4, g3]; rfl) (by simp [fupd, h.symm])]

/-- **C13 is false for requested size 2**: after two puts of different keys, looking up any
third key loops for ever, whatever the hash function.  `lower_ports` (src/lower.c) creates
such a set for a component with one port. -/
theorem lookup_size2_counterexample (hf : K → Nat) (a b k : K) (hab : a ≠ b) (ha : a ≠ k)
    (hb : b ≠ k) :
    ∃ t t', hsetInsert hf 1 (new 2#32) a = .ok t ∧ hsetInsert hf 1 t b = .ok t' ∧
      hsetContains hf t' k = .error .diverge := by
  have e : (Util.nextPowerOf2 2#32).toNat = 2 := by decide
  have hr : Rep hf (empty 2 : Tab K Unit) (setMap fun _ => false) :=
    empty_rep (V := Unit) hf 2 ⟨1, rfl⟩
  have e2 : ∀ s : K → Bool, ∀ k, fupd (setMap s) k (some (some ())) = setMap (fupd s k true) := by
    intro s k; funext k'
    unfold fupd setMap
    by_cases c : k' = k <;> simp [c]
  have ins : ∀ (t : Tab K Unit) (s : K → Bool) (x : K), Rep hf t (setMap s) → s x = false →
      t.members ≤ t.size / 2 → t.members < t.size →
      ∃ t', hsetInsert hf 1 t x = .ok t' ∧ Rep hf t' (setMap (fupd s x true)) ∧
        t'.size = t.size ∧ t'.members = t.members + 1 := by
    intro t s x h hx hle hlt
    obtain ⟨i, h1, h2, h3⟩ := find_absent h.chain
      (free_of_occ (by rw [← h.mem, h.chain.len]; exact hlt))
      (h.absent (k := x) (by simp [setMap, hx]))
    obtain ⟨t', g1, g2, g3, g4⟩ := insert_rep h x (some ()) hlt
    rw [e2] at g2
    refine ⟨t', ?_, g2, g3, by rw [g4]; simp [setMap, hx]⟩
    unfold hsetInsert
    rw [if_neg (by omega), except_bind_ok]
    unfold insert at g1
    simp only [h1] at g1 ⊢
    simp only [Except.ok.injEq, Prod.mk.injEq] at g1 ⊢
    exact g1.1
  obtain ⟨t1, a1, a2, a3, a4⟩ := ins (empty 2) _ a hr rfl (by simp [empty]) (by simp [empty])
  simp only [empty] at a3 a4
  obtain ⟨t2, b1, b2, b3, b4⟩ := ins t1 _ b a2 (by simp [fupd, hab.symm]) (by omega) (by omega)
  refine ⟨t1, t2, ?_, b1, ?_⟩
  · unfold new; rw [e]; exact a1
  · unfold hsetContains
    rw [find_full b2 (by omega) (by simp [setMap, fupd, ha.symm, hb.symm])]

example : (1 : Nat) ≠ 2 ∧ (1 : Nat) ≠ 3 ∧ (2 : Nat) ≠ 3 := by decide

end Verif.Hash
