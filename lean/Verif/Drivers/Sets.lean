import Verif.Drivers.Names

/-
Property C96, second part: the drivers that are found.
-/

namespace Verif.Drivers

open Spec

/-! ## What is visited -/

/-- The modes that the code takes as sources. -/
def CodeSource (m : Mode) : Prop := m ≠ .in ∧ m ≠ .buffer ∧ m ≠ .linkage

theorem occurs_mono {ok : Mode → Prop} {ss tt : List Stmt} {w : Nat} {e : Event} {t : Bool}
    (h : Occurs ok ss w e t) (hs : ∀ s ∈ ss, s ∈ tt) : Occurs ok tt w e t := by
  cases h with
  | process _ _ evs _ h1 h2 => exact .process _ _ evs _ (hs _ h1) h2
  | inst _ _ map m tg h1 h2 h3 => exact .inst _ _ map m tg (hs _ h1) h2 h3
  | port _ _ map body m tg h1 h2 h3 => exact .port _ _ map body m tg (hs _ h1) h2 h3
  | block _ id map body _ _ _ h1 h2 => exact .block _ id map body _ _ _ (hs _ h1) h2
  | gen _ body _ _ t h1 h2 => exact .gen _ body _ _ t (hs _ h1) h2

theorem portEvent_iff (m : Mode) (t : Target) (e : Event) :
    portEvent (m, t) = some e ↔ (CodeSource m ∧ e = mapEvent m t) := by
  cases m <;> simp [portEvent, CodeSource, mapEvent, eq_comm]

theorem mem_portMap (id : Nat) (map : List (Mode × Target)) (tent : Bool)
    (x : Nat × Event × Bool) :
    x ∈ portMap id map tent ↔
      ∃ (m : Mode) (t : Target), (m, t) ∈ map ∧ CodeSource m ∧ x = (id, mapEvent m t, tent) := by
  unfold portMap
  simp only [List.mem_map, List.mem_filterMap]
  constructor
  · rintro ⟨e, ⟨⟨m, t⟩, h1, h2⟩, rfl⟩
    obtain ⟨h3, rfl⟩ := (portEvent_iff m t e).mp h2
    exact ⟨m, t, h1, h3, rfl⟩
  · rintro ⟨m, t, h1, h2, rfl⟩
    exact ⟨_, ⟨(m, t), h1, (portEvent_iff m t _).mpr ⟨h2, rfl⟩⟩, rfl⟩

mutual
theorem visitStmt_sound (tent : Bool) (s : Stmt) (x : Nat × Event × Bool)
    (h : x ∈ visitStmt tent s) :
    ∃ t : Bool, Occurs CodeSource [s] x.1 x.2.1 t ∧ x.2.2 = (tent || t) := by
  cases s with
  | process id evs =>
    rw [visitStmt, List.mem_map] at h
    obtain ⟨e, he, rfl⟩ := h
    exact ⟨false, .process _ _ evs _ List.mem_cons_self he, by simp⟩
  | inst id map =>
    rw [visitStmt, mem_portMap] at h
    obtain ⟨m, t, h1, h2, rfl⟩ := h
    exact ⟨false, .inst _ _ map m t List.mem_cons_self h1 h2, by simp⟩
  | block id map body =>
    rw [visitStmt, List.mem_append, mem_portMap] at h
    cases h with
    | inl h =>
      obtain ⟨m, t, h1, h2, rfl⟩ := h
      exact ⟨false, .port _ _ map body m t List.mem_cons_self h1 h2, by simp⟩
    | inr h =>
      obtain ⟨t, h1, h2⟩ := visitBlock_sound tent body x h
      exact ⟨t, .block _ id map body _ _ _ List.mem_cons_self h1, h2⟩
  | gen body =>
    rw [visitStmt] at h
    obtain ⟨t, h1, h2⟩ := visitBlock_sound true body x h
    exact ⟨true, .gen _ body _ _ t List.mem_cons_self h1, by simpa using h2⟩

theorem visitBlock_sound (tent : Bool) (ss : List Stmt) (x : Nat × Event × Bool)
    (h : x ∈ visitBlock tent ss) :
    ∃ t : Bool, Occurs CodeSource ss x.1 x.2.1 t ∧ x.2.2 = (tent || t) := by
  cases ss with
  | nil => rw [visitBlock] at h; cases h
  | cons s ss =>
    rw [visitBlock, List.mem_append] at h
    cases h with
    | inl h =>
      obtain ⟨t, h1, h2⟩ := visitStmt_sound tent s x h
      exact ⟨t, occurs_mono h1 (fun y hy => by
        rw [List.mem_singleton.mp hy]; exact List.mem_cons_self), h2⟩
    | inr h =>
      obtain ⟨t, h1, h2⟩ := visitBlock_sound tent ss x h
      exact ⟨t, occurs_mono h1 (fun y hy => List.mem_cons_of_mem _ hy), h2⟩
end

theorem mem_visitBlock (tent : Bool) (ss : List Stmt) (s : Stmt) (hs : s ∈ ss)
    (x : Nat × Event × Bool) (h : x ∈ visitStmt tent s) : x ∈ visitBlock tent ss := by
  induction ss with
  | nil => cases hs
  | cons y ss ih =>
    rw [visitBlock, List.mem_append]
    cases hs with
    | head => exact Or.inl h
    | tail _ hs => exact Or.inr (ih hs)

theorem visitBlock_complete {ss : List Stmt} {w : Nat} {e : Event} {t : Bool}
    (h : Occurs CodeSource ss w e t) : ∀ tent : Bool, (w, e, (tent || t)) ∈ visitBlock tent ss := by
  induction h with
  | process ss w evs e h1 h2 =>
    intro tent
    refine mem_visitBlock tent ss _ h1 _ ?_
    rw [visitStmt, List.mem_map]
    exact ⟨e, h2, by simp⟩
  | inst ss w map m t h1 h2 h3 =>
    intro tent
    refine mem_visitBlock tent ss _ h1 _ ?_
    rw [visitStmt, mem_portMap]
    exact ⟨m, t, h2, h3, by simp⟩
  | port ss w map body m t h1 h2 h3 =>
    intro tent
    refine mem_visitBlock tent ss _ h1 _ ?_
    rw [visitStmt, List.mem_append, mem_portMap]
    exact Or.inl ⟨m, t, h2, h3, by simp⟩
  | block ss id map body w e t h1 _ ih =>
    intro tent
    refine mem_visitBlock tent ss _ h1 _ ?_
    rw [visitStmt, List.mem_append]
    exact Or.inr (ih tent)
  | gen ss body w e t h1 _ ih =>
    intro tent
    refine mem_visitBlock tent ss _ h1 _ ?_
    rw [visitStmt]
    have := ih true
    simpa using this

/-- Exactly what the statements drive is visited, with `CodeSource` for the
modes, and it is tentative exactly in generate statements. -/
theorem visit_iff (ss : List Stmt) (w : Nat) (e : Event) (t : Bool) :
    (w, e, t) ∈ visitBlock false ss ↔ Occurs CodeSource ss w e t := by
  constructor
  · intro h
    obtain ⟨t2, h1, h2⟩ := visitBlock_sound false ss _ h
    have : t = t2 := by simpa using h2
    rw [this]; exact h1
  · intro h
    have := visitBlock_complete h false
    simpa using this

/-- A port of mode buffer is a source, but is not visited. -/
theorem visit_buffer_counterexample (n : Name) :
    Occurs Source [.inst 7 [(.buffer, .name n)]] 7 ⟨.name n, none⟩ false ∧
    visitBlock false [.inst 7 [(.buffer, .name n)]] = [] :=
  ⟨.inst _ _ [(.buffer, .name n)] .buffer (.name n) List.mem_cons_self List.mem_cons_self trivial,
    rfl⟩

/-! ## One name -/

/-- Every record is in the chain of its process and of its declaration. -/
structure Inv (s : Set) : Prop where
  proc : ∀ (w : Nat), ∀ e ∈ s.proc w, e.wher = w ∧ rootRef e.pre = e.decl ∧ lsp e.pre = e.pre
  both : ∀ (w : Nat), ∀ e ∈ s.proc w, ∀ d : Nat, e.decl = some d → e ∈ s.decl d
  decl : ∀ (d : Nat), ∀ e ∈ s.decl d, e.decl = some d ∧ rootRef e.pre = some d ∧ lsp e.pre = e.pre

theorem inv_empty : Inv empty :=
  ⟨fun _ _ h => (by cases h), fun _ _ h => (by cases h), fun _ _ h => (by cases h)⟩

theorem lsp_idem (n : Name) : lsp (lsp n) = lsp n := by
  induction n with
  | ref d => rfl
  | ext d => rfl
  | other d => rfl
  | index n is ih =>
    have key : lsp (.index n is) = .index n is ∨ lsp (.index n is) = lsp n := by
      rw [lsp]
      split
      · exact Or.inr rfl
      · split
        · exact Or.inl rfl
        · exact Or.inr rfl
    cases key with
    | inl h => rw [h, h]
    | inr h => rw [h, ih]
  | slice n dir l r ih =>
    have key : lsp (.slice n dir l r) = .slice n dir l r ∨ lsp (.slice n dir l r) = lsp n := by
      rw [lsp]
      split
      · exact Or.inr rfl
      · split
        · exact Or.inr rfl
        · split
          · exact Or.inr rfl
          · exact Or.inl rfl
    cases key with
    | inl h => rw [h, h]
    | inr h => rw [h, ih]
  | field n f ih =>
    have key : lsp (.field n f) = .field n f ∨ lsp (.field n f) = lsp n := by
      rw [lsp]
      split
      · exact Or.inr rfl
      · exact Or.inl rfl
    cases key with
    | inl h => rw [h, h]
    | inr h => rw [h, ih]

/-- The cases of `drivesName`. -/
theorem drivesName_cases (isParam : Nat → Bool) (s : Set) (w : Nat) (n : Name)
    (view : Option Nat) (tent : Bool) :
    (∃ d : Nat, rootRef n = some d ∧ isParam d = true ∧ drivesName isParam s w n view tent = s) ∨
    (∃ d : Nat, rootRef n = some d ∧ isParam d = false ∧ already (s.proc w) w d (lsp n) = true ∧
      drivesName isParam s w n view tent = s) ∨
    (∃ d : Nat, rootRef n = some d ∧ isParam d = false ∧
      drivesName isParam s w n view tent =
        ⟨update s.proc w (s.proc w ++ [⟨some d, lsp n, w, view, tent⟩]),
         update s.decl d (s.decl d ++ [⟨some d, lsp n, w, view, tent⟩])⟩) ∨
    (rootRef n = none ∧ isExt (lsp n) = true ∧
      drivesName isParam s w n view tent =
        ⟨update s.proc w [⟨none, lsp n, w, view, tent⟩], s.decl⟩) ∨
    (rootRef n = none ∧ isExt (lsp n) = false ∧ drivesName isParam s w n view tent = s) := by
  unfold drivesName
  simp only
  rw [rootRef_lsp]
  cases hr : rootRef n with
  | some d =>
    simp only
    by_cases h1 : isParam d = true
    · rw [if_pos h1]
      exact Or.inl ⟨d, rfl, h1, rfl⟩
    · rw [if_neg h1]
      have h1' : isParam d = false := by simpa using h1
      by_cases h2 : already (s.proc w) w d (lsp n) = true
      · rw [if_pos h2]
        exact Or.inr (Or.inl ⟨d, rfl, h1', h2, rfl⟩)
      · rw [if_neg h2]
        exact Or.inr (Or.inr (Or.inl ⟨d, rfl, h1', rfl⟩))
  | none =>
    simp only
    by_cases h : isExt (lsp n) = true
    · rw [if_pos h]
      exact Or.inr (Or.inr (Or.inr (Or.inl ⟨trivial, h, rfl⟩)))
    · rw [if_neg h]
      exact Or.inr (Or.inr (Or.inr (Or.inr ⟨trivial, by simpa using h, rfl⟩)))

theorem mem_update (f : Nat → List Driver) (k j : Nat) (l : List Driver) (e : Driver) :
    e ∈ update f k l j ↔ (j = k ∧ e ∈ l) ∨ (j ≠ k ∧ e ∈ f j) := by
  unfold update
  by_cases h : j = k <;> simp [h]

theorem inv_drivesName (isParam : Nat → Bool) (s : Set) (w : Nat) (n : Name)
    (view : Option Nat) (tent : Bool) (hi : Inv s) : Inv (drivesName isParam s w n view tent) := by
  rcases drivesName_cases isParam s w n view tent with
    ⟨d, _, _, e⟩ | ⟨d, _, _, _, e⟩ | ⟨d, hr, _, e⟩ | ⟨hr, _, e⟩ | ⟨_, _, e⟩
  · rw [e]; exact hi
  · rw [e]; exact hi
  · rw [e]
    refine ⟨?_, ?_, ?_⟩
    · intro w2 x hx
      rw [mem_update] at hx
      rcases hx with ⟨rfl, hx⟩ | ⟨_, hx⟩
      · rw [List.mem_append, List.mem_singleton] at hx
        rcases hx with hx | rfl
        · exact hi.proc _ x hx
        · exact ⟨rfl, by show rootRef (lsp n) = some d; rw [rootRef_lsp, hr], lsp_idem n⟩
      · exact hi.proc _ x hx
    · intro w2 x hx d2 hd
      rw [mem_update] at hx ⊢
      have old : x ∈ s.proc w2 → (d2 = d ∧ x ∈ s.decl d ++ [⟨some d, lsp n, w, view, tent⟩]) ∨
          (d2 ≠ d ∧ x ∈ s.decl d2) := by
        intro h
        have := hi.both w2 x h d2 hd
        by_cases h2 : d2 = d
        · exact Or.inl ⟨h2, List.mem_append_left _ (h2 ▸ this)⟩
        · exact Or.inr ⟨h2, this⟩
      rcases hx with ⟨rfl, hx⟩ | ⟨_, hx⟩
      · rw [List.mem_append, List.mem_singleton] at hx
        rcases hx with hx | rfl
        · exact old hx
        · have : d = d2 := Option.some.inj hd
          exact Or.inl ⟨this.symm, List.mem_append_right _ List.mem_cons_self⟩
      · exact old hx
    · intro d2 x hx
      rw [mem_update] at hx
      rcases hx with ⟨rfl, hx⟩ | ⟨_, hx⟩
      · rw [List.mem_append, List.mem_singleton] at hx
        rcases hx with hx | rfl
        · exact hi.decl _ x hx
        · exact ⟨rfl, by show rootRef (lsp n) = some d2; rw [rootRef_lsp, hr], lsp_idem n⟩
      · exact hi.decl _ x hx
  · rw [e]
    refine ⟨?_, ?_, fun d2 x hx => hi.decl d2 x hx⟩
    · intro w2 x hx
      rw [mem_update] at hx
      rcases hx with ⟨rfl, hx⟩ | ⟨_, hx⟩
      · rw [List.mem_singleton] at hx
        subst hx
        exact ⟨rfl, by show rootRef (lsp n) = none; rw [rootRef_lsp, hr], lsp_idem n⟩
      · exact hi.proc _ x hx
    · intro w2 x hx d2 hd
      rw [mem_update] at hx
      rcases hx with ⟨rfl, hx⟩ | ⟨_, hx⟩
      · rw [List.mem_singleton] at hx
        subst hx
        cases hd
      · exact hi.both w2 x hx d2 hd
  · rw [e]; exact hi

/-- The chain of a declaration only grows. -/
theorem decl_grows (isParam : Nat → Bool) (s : Set) (w : Nat) (n : Name)
    (view : Option Nat) (tent : Bool) (d : Nat) (x : Driver) (h : x ∈ s.decl d) :
    x ∈ (drivesName isParam s w n view tent).decl d := by
  rcases drivesName_cases isParam s w n view tent with
    ⟨_, _, _, e⟩ | ⟨_, _, _, _, e⟩ | ⟨d2, hr, _, e⟩ | ⟨hr, _, e⟩ | ⟨_, _, e⟩ <;> rw [e]
  · exact h
  · exact h
  · rw [mem_update]
    by_cases h2 : d = d2
    · exact Or.inl ⟨h2, List.mem_append_left _ (h2 ▸ h)⟩
    · exact Or.inr ⟨h2, h⟩
  · exact h
  · exact h

/-- The chain of a process only grows but for external names in it. -/
theorem proc_grows (isParam : Nat → Bool) (s : Set) (w : Nat) (n : Name)
    (view : Option Nat) (tent : Bool) (w2 : Nat) (x : Driver) (h : x ∈ s.proc w2)
    (hx : w2 = w → isExt (lsp n) = false) :
    x ∈ (drivesName isParam s w n view tent).proc w2 := by
  rcases drivesName_cases isParam s w n view tent with
    ⟨_, _, _, e⟩ | ⟨_, _, _, _, e⟩ | ⟨d2, hr, _, e⟩ | ⟨hr, he, e⟩ | ⟨_, _, e⟩ <;> rw [e]
  · exact h
  · exact h
  · rw [mem_update]
    by_cases h2 : w2 = w
    · exact Or.inl ⟨h2, List.mem_append_left _ (h2 ▸ h)⟩
    · exact Or.inr ⟨h2, h⟩
  · rw [mem_update]
    refine Or.inr ⟨fun h2 => ?_, h⟩
    rw [hx h2] at he
    cases he
  · exact h

/-- A record in the chain of a process covers a name. -/
def CoveredBy (w d : Nat) (n : Name) (x : Driver) : Prop :=
  x.wher = w ∧ x.decl = some d ∧
    ∀ (ρ : Static) (σ : Nat → Int) (p : List Step), Covers ρ σ n p → Covers ρ σ x.pre p

theorem drivesName_covers (isParam : Nat → Bool) (s : Set) (w : Nat) (n : Name)
    (view : Option Nat) (tent : Bool) (d : Nat) (hr : rootRef n = some d)
    (hp : isParam d = false) :
    ∃ x ∈ (drivesName isParam s w n view tent).proc w, CoveredBy w d n x := by
  rcases drivesName_cases isParam s w n view tent with
    ⟨d2, h1, h2, e⟩ | ⟨d2, h1, _, h2, e⟩ | ⟨d2, h1, _, e⟩ | ⟨h1, _, e⟩ | ⟨h1, _, e⟩ <;>
    rw [hr] at h1
  · rw [← Option.some.inj h1, hp] at h2; cases h2
  · obtain rfl := Option.some.inj h1
    rw [e]
    unfold already at h2
    obtain ⟨x, hx, hc⟩ := List.any_eq_true.mp h2
    simp only [Bool.and_eq_true, decide_eq_true_eq, Bool.or_eq_true] at hc
    refine ⟨x, hx, hc.1.1, hc.1.2, ?_⟩
    intro ρ σ p hcov
    cases hc.2 with
    | inl h =>
      cases hpre : x.pre with
      | ref k => exact trivial
      | _ => rw [hpre] at h; cases h
    | inr h =>
      rw [← sameTree_eq h]
      exact lsp_covers ρ σ n p hcov
  · obtain rfl := Option.some.inj h1
    rw [e]
    refine ⟨⟨some d, lsp n, w, view, tent⟩, ?_, rfl, rfl, fun ρ σ p => lsp_covers ρ σ n p⟩
    rw [mem_update]
    exact Or.inl ⟨rfl, List.mem_append_right _ List.mem_cons_self⟩
  · cases h1
  · cases h1

/-! ## All names -/

/-- One call for a name, with the view of the event unless it is part of an
aggregate. -/
structure Call where
  wher : Nat
  name : Name
  view : Option Nat
  tent : Bool

def callsOf (x : Nat × Event × Bool) : List Call :=
  match x.2.1.target with
  | .name n => [⟨x.1, n, x.2.1.view, x.2.2⟩]
  | .aggr ns => ns.map fun n => ⟨x.1, n, none, x.2.2⟩

def step (isParam : Nat → Bool) (s : Set) (c : Call) : Set :=
  drivesName isParam s c.wher c.name c.view c.tent

theorem drivesSignal_eq (isParam : Nat → Bool) (s : Set) (x : Nat × Event × Bool) :
    drivesSignal isParam s x.1 x.2.1 x.2.2 = (callsOf x).foldl (step isParam) s := by
  unfold drivesSignal callsOf
  cases x.2.1.target with
  | name n => rfl
  | aggr ns =>
    simp only
    rw [List.foldl_map]
    rfl

theorem findDrivers_eq (isParam : Nat → Bool) (ss : List Stmt) :
    findDrivers isParam ss =
      ((visitBlock false ss).flatMap callsOf).foldl (step isParam) empty := by
  unfold findDrivers
  generalize empty = s
  generalize visitBlock false ss = l
  induction l generalizing s with
  | nil => rfl
  | cons x l ih =>
    rw [List.foldl_cons, List.flatMap_cons, List.foldl_append, drivesSignal_eq, ih]

theorem inv_fold (isParam : Nat → Bool) (l : List Call) (s : Set) (h : Inv s) :
    Inv (l.foldl (step isParam) s) := by
  induction l generalizing s with
  | nil => exact h
  | cons c l ih => exact ih _ (inv_drivesName _ _ _ _ _ _ h)

theorem fold_decl_grows (isParam : Nat → Bool) (l : List Call) (s : Set) (d : Nat) (x : Driver)
    (h : x ∈ s.decl d) : x ∈ (l.foldl (step isParam) s).decl d := by
  induction l generalizing s with
  | nil => exact h
  | cons c l ih => exact ih _ (decl_grows _ _ _ _ _ _ _ _ h)

theorem fold_proc_grows (isParam : Nat → Bool) (l : List Call) (s : Set) (w : Nat) (x : Driver)
    (h : x ∈ s.proc w) (hx : ∀ c ∈ l, c.wher = w → isExt (lsp c.name) = false) :
    x ∈ (l.foldl (step isParam) s).proc w := by
  induction l generalizing s with
  | nil => exact h
  | cons c l ih =>
    exact ih _ (proc_grows _ _ _ _ _ _ _ _ h (fun e => hx c List.mem_cons_self e.symm))
      (fun c2 h2 => hx c2 (List.mem_cons_of_mem _ h2))

theorem fold_covers (isParam : Nat → Bool) (l : List Call) (s : Set) (hi : Inv s)
    (c : Call) (hc : c ∈ l) (d : Nat) (hr : rootRef c.name = some d) (hp : isParam d = false) :
    (∃ x ∈ (l.foldl (step isParam) s).decl d, CoveredBy c.wher d c.name x) ∧
    ((∀ c2 ∈ l, c2.wher = c.wher → isExt (lsp c2.name) = false) →
      ∃ x ∈ (l.foldl (step isParam) s).proc c.wher, CoveredBy c.wher d c.name x) := by
  induction l generalizing s with
  | nil => cases hc
  | cons c0 l ih =>
    have hi2 : Inv (step isParam s c0) := inv_drivesName _ _ _ _ _ _ hi
    rw [List.foldl_cons]
    cases hc with
    | head =>
      obtain ⟨x, hx, hcov⟩ := drivesName_covers isParam s c.wher c.name c.view c.tent d hr hp
      refine ⟨⟨x, fold_decl_grows _ _ _ _ _ (hi2.both _ x hx d hcov.2.1), hcov⟩, ?_⟩
      intro hx2
      exact ⟨x, fold_proc_grows _ _ _ _ _ hx (fun c2 h2 => hx2 c2 (List.mem_cons_of_mem _ h2)), hcov⟩
    | tail _ hc =>
      obtain ⟨h1, h2⟩ := ih _ hi2 hc
      exact ⟨h1, fun hx => h2 (fun c2 h3 => hx c2 (List.mem_cons_of_mem _ h3))⟩

theorem mem_callsOf (w : Nat) (e : Event) (t : Bool) (n : Name) (h : n ∈ names e.target) :
    ∃ c ∈ callsOf (w, e, t), c.wher = w ∧ c.name = n ∧ c.tent = t ∧
      (c.view = e.view ∨ c.view = none) := by
  unfold callsOf
  cases he : e.target with
  | name m =>
    rw [he, names, List.mem_singleton] at h
    subst h
    exact ⟨_, List.mem_cons_self, rfl, rfl, rfl, Or.inl rfl⟩
  | aggr ns =>
    rw [he, names] at h
    exact ⟨⟨w, n, none, t⟩, List.mem_map.mpr ⟨n, h, rfl⟩, rfl, rfl, rfl, Or.inr rfl⟩

theorem callsOf_mem {x : Nat × Event × Bool} {c : Call} (h : c ∈ callsOf x) :
    c.wher = x.1 ∧ c.name ∈ names x.2.1.target ∧ c.tent = x.2.2 := by
  unfold callsOf at h
  cases he : x.2.1.target with
  | name m =>
    rw [he] at h
    obtain rfl := List.mem_singleton.mp h
    exact ⟨rfl, by simp [names], rfl⟩
  | aggr ns =>
    rw [he] at h
    obtain ⟨n, hn, rfl⟩ := List.mem_map.mp h
    exact ⟨rfl, by simpa [names] using hn, rfl⟩

/-- Every part that is assigned is covered by a driver of the signal, in the
chain of the declaration. -/
theorem decl_chain_covers (isParam : Nat → Bool) (ss : List Stmt) (w : Nat) (e : Event) (t : Bool)
    (h : Occurs CodeSource ss w e t) (n : Name) (hn : n ∈ names e.target)
    (d : Nat) (hd : root n = .ref d) (hp : isParam d = false) :
    ∃ x ∈ (findDrivers isParam ss).decl d, CoveredBy w d n x := by
  rw [findDrivers_eq]
  obtain ⟨c, hc, h1, h2, _⟩ := mem_callsOf w e t n hn
  have hm : c ∈ (visitBlock false ss).flatMap callsOf :=
    List.mem_flatMap.mpr ⟨_, (visit_iff ss w e t).mpr h, hc⟩
  have := (fold_covers isParam _ empty inv_empty c hm d
    (by rw [h2]; exact (rootRef_root n d).mpr hd) hp).1
  rw [h1, h2] at this
  exact this

/-- It is in the chain of the process too if the process does not assign to
external names. -/
theorem proc_chain_covers_partial (isParam : Nat → Bool) (ss : List Stmt) (w : Nat) (e : Event)
    (t : Bool) (h : Occurs CodeSource ss w e t) (n : Name) (hn : n ∈ names e.target)
    (d : Nat) (hd : root n = .ref d) (hp : isParam d = false)
    (hx : ∀ (e2 : Event) (t2 : Bool), Occurs CodeSource ss w e2 t2 →
      ∀ m ∈ names e2.target, ∀ k : Nat, root m ≠ .ext k) :
    ∃ x ∈ (findDrivers isParam ss).proc w, CoveredBy w d n x := by
  rw [findDrivers_eq]
  obtain ⟨c, hc, h1, h2, _⟩ := mem_callsOf w e t n hn
  have hm : c ∈ (visitBlock false ss).flatMap callsOf :=
    List.mem_flatMap.mpr ⟨_, (visit_iff ss w e t).mpr h, hc⟩
  have := (fold_covers isParam _ empty inv_empty c hm d
    (by rw [h2]; exact (rootRef_root n d).mpr hd) hp).2 ?_
  · rw [h1, h2] at this
    exact this
  · intro c2 hc2 hw
    obtain ⟨⟨w3, e3, t3⟩, hx3, hc3⟩ := List.mem_flatMap.mp hc2
    obtain ⟨q1, q2, _⟩ := callsOf_mem hc3
    have q1' : w3 = w := by rw [← h1, ← hw, q1]
    subst q1'
    have occ := (visit_iff ss w3 e3 t3).mp hx3
    have hroot : ∀ m : Name, root (lsp m) = root m := by
      intro m
      have : ∀ {a b : Name}, IsPrefix a b → root a = root b := by
        intro a b hab
        induction hab with
        | refl => rfl
        | index is _ ih => exact ih
        | slice dir l r _ ih => exact ih
        | field f _ ih => exact ih
      exact this (lsp_prefix m)
    cases hl : lsp c2.name with
    | ext k =>
      have := hx e3 t3 occ c2.name q2 k
      rw [← hroot, hl] at this
      exact absurd rfl this
    | _ => rfl

/-- An external name takes the place of the drivers found before it: the
process has no driver for the signal. -/
theorem proc_chain_ext_counterexample :
    (findDrivers (fun _ => false)
      [.process 1 [⟨.name (.ref 5), none⟩, ⟨.name (.ext 6), none⟩]]).proc 1
      = [⟨none, .ext 6, 1, none, false⟩] := rfl

/-- A part of an external name gets no driver. -/
theorem proc_chain_ext_part_counterexample :
    (findDrivers (fun _ => false)
      [.process 1 [⟨.name (.index (.ext 6) [.lit 0]), none⟩]]).proc 1 = [] := rfl

/-- A procedure that drives the signal through a view hides that the process
assigns to a field too, which may not be driven in the view. -/
theorem proc_chain_view_counterexample :
    (findDrivers (fun _ => false)
      [.process 1 [⟨.name (.ref 5), some 9⟩, ⟨.name (.field (.ref 5) 0), none⟩]]).proc 1
      = [⟨some 5, .ref 5, 1, some 9, false⟩] := rfl

/-- Drivers are only for what is assigned, at the longest static prefix. -/
theorem drivers_only (isParam : Nat → Bool) (ss : List Stmt) (w : Nat) (x : Driver)
    (h : x ∈ (findDrivers isParam ss).proc w) :
    ∃ (e : Event) (n : Name), Occurs CodeSource ss w e x.tentative ∧ n ∈ names e.target ∧
      x.pre = lsp n ∧ x.wher = w := by
  rw [findDrivers_eq] at h
  have key : ∀ (l : List Call) (s : Set),
      x ∈ (l.foldl (step isParam) s).proc w → x ∈ s.proc w ∨
        ∃ c ∈ l, c.wher = w ∧ x.pre = lsp c.name ∧ x.tentative = c.tent ∧ x.wher = w := by
    intro l
    induction l with
    | nil => intro s h; exact Or.inl h
    | cons c l ih =>
      intro s h
      rcases ih _ h with h | ⟨c2, h2, h3⟩
      · have one : x ∈ s.proc w ∨ (c.wher = w ∧ x.pre = lsp c.name ∧ x.tentative = c.tent ∧ x.wher = w) := by
          unfold step at h
          rcases drivesName_cases isParam s c.wher c.name c.view c.tent with
            ⟨_, _, _, e⟩ | ⟨_, _, _, _, e⟩ | ⟨d2, hr, _, e⟩ | ⟨hr, he, e⟩ | ⟨_, _, e⟩ <;> rw [e] at h
          · exact Or.inl h
          · exact Or.inl h
          · rw [mem_update] at h
            rcases h with ⟨h1, h2⟩ | ⟨_, h2⟩
            · rw [List.mem_append, List.mem_singleton] at h2
              rcases h2 with h2 | rfl
              · exact Or.inl (h1 ▸ h2)
              · exact Or.inr ⟨h1.symm, rfl, rfl, h1.symm⟩
            · exact Or.inl h2
          · rw [mem_update] at h
            rcases h with ⟨h1, h2⟩ | ⟨_, h2⟩
            · obtain rfl := List.mem_singleton.mp h2
              exact Or.inr ⟨h1.symm, rfl, rfl, h1.symm⟩
            · exact Or.inl h2
          · exact Or.inl h
        rcases one with h | h
        · exact Or.inl h
        · exact Or.inr ⟨c, List.mem_cons_self, h⟩
      · exact Or.inr ⟨c2, List.mem_cons_of_mem _ h2, h3⟩
  rcases key _ _ h with h | ⟨c, hc, h1, h2, h3, h4⟩
  · cases h
  · obtain ⟨⟨w2, e, t⟩, hx, hc2⟩ := List.mem_flatMap.mp hc
    obtain ⟨q1, q2, q3⟩ := callsOf_mem hc2
    refine ⟨e, c.name, ?_, q2, h2, h4⟩
    have q1' : w2 = w := by rw [← h1, q1]
    subst q1'
    rw [h3, q3]
    exact (visit_iff ss w2 e t).mp hx

/-- No driver depends on a value that can change. -/
theorem drivers_static (isParam : Nat → Bool) (ss : List Stmt) (w : Nat) (x : Driver)
    (h : x ∈ (findDrivers isParam ss).proc w) : StaticName x.pre := by
  obtain ⟨_, n, _, _, e, _⟩ := drivers_only isParam ss w x h
  rw [e]
  exact lsp_static n

/-- The chain of a declaration has the drivers of it. -/
theorem decl_chain_root (isParam : Nat → Bool) (ss : List Stmt) (d : Nat) (x : Driver)
    (h : x ∈ (findDrivers isParam ss).decl d) : root x.pre = .ref d := by
  rw [findDrivers_eq] at h
  exact (rootRef_root _ _).mp ((inv_fold isParam _ empty inv_empty).decl d x h).2.1

example : (findDrivers (fun _ => false)
    [.process 1 [⟨.name (.index (.ref 5) [.dyn 0]), none⟩], .gen [.process 2 [⟨.aggr [.ref 5, .ref 6], none⟩]]]).decl 5
    = [⟨some 5, .ref 5, 1, none, false⟩, ⟨some 5, .ref 5, 2, none, true⟩] := rfl

end Verif.Drivers
