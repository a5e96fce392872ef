import Verif.Printer.Model

/-
Theorems on the table of printers, property C99.
-/

namespace Verif.Printer

/-- All functions in the table are allocated and of the kind of their type. -/
def Good (T : Types) (p : Printer) : Prop :=
  ∀ e ∈ p.map, ∃ f : Fn, p.fns[e.2]? = some f ∧ f.kind = T.kind (T.base e.1)

theorem lookup_mem (m : List (Nat × Nat)) (t f : Nat) (h : lookup m t = some f) : (t, f) ∈ m := by
  unfold lookup at h
  cases hf : m.find? fun e => e.1 == t with
  | none => rw [hf] at h; cases h
  | some e =>
    rw [hf] at h
    have h1 := List.mem_of_find?_eq_some hf
    have h2 := List.find?_some hf
    simp at h h2
    obtain ⟨a, b⟩ := e
    simp at h h2
    rw [← h2, ← h]; exact h1

theorem good_share (T : Types) (p : Printer) (t f : Nat) (hb : T.base (T.base t) = T.base t)
    (hg : Good T p) (h : lookup p.map (T.base t) = some f) :
    Good T { p with map := (t, f) :: p.map } := by
  intro e he
  rcases List.mem_cons.mp he with e1 | e1
  · obtain ⟨g, h1, h2⟩ := hg _ (lookup_mem _ _ _ h)
    subst e1
    exact ⟨g, h1, by rw [h2]; exact congrArg T.kind hb⟩
  · exact hg e e1

theorem good_add (T : Types) (p : Printer) (t : Nat) (g : Fn) (hg : Good T p)
    (h : g.kind = T.kind (T.base t)) :
    Good T ⟨(t, p.fns.length) :: p.map, p.fns ++ [g]⟩ := by
  intro e he
  rcases List.mem_cons.mp he with e1 | e1
  · subst e1
    exact ⟨g, by simp, h⟩
  · obtain ⟨f, h1, h2⟩ := hg e e1
    have hl := (List.getElem?_eq_some_iff.mp h1).1
    exact ⟨f, by show (p.fns ++ [g])[e.2]? = some f
                 rw [List.getElem?_append_left hl]; exact h1, h2⟩

theorem scalar_good (T : Types) (hb : ∀ t : Nat, T.base (T.base t) = T.base t) (p : Printer)
    (t : Nat) (hg : Good T p) : Good T (scalarFor T p t).2 := by
  unfold scalarFor
  split
  · exact hg
  · split
    · rename_i f h; exact good_share T p t f (hb t) hg h
    · split
      · rename_i hk
        split
        · exact hg
        · exact good_add T p t _ hg hk.symm
      · exact hg
      · exact hg
      · exact hg
      · exact good_add T p t _ hg rfl

theorem array_good (T : Types) (hb : ∀ t : Nat, T.base (T.base t) = T.base t) (p : Printer)
    (t e : Nat) (k : Kind) (hg : Good T p) (hk : k = T.kind (T.base t)) :
    Good T (arrayFor T p t k e).2 := by
  have hs := scalar_good T hb p e hg
  unfold arrayFor
  split
  · rename_i q hq; rw [hq] at hs; exact hs
  · rename_i q hq; rw [hq] at hs; exact good_add T q t _ hs hk
  · rename_i f q hq; rw [hq] at hs; exact good_add T q t _ hs hk

theorem printer_good (T : Types) (hb : ∀ t : Nat, T.base (T.base t) = T.base t) (p : Printer)
    (t : Nat) (hg : Good T p) : Good T (printerFor T p t).2 := by
  unfold printerFor
  split
  · exact hg
  · split
    · rename_i f h; exact good_share T p t f (hb t) hg h
    · split
      · rename_i e hk; exact array_good T hb p t e _ hg hk.symm
      · rename_i e hk; exact array_good T hb p t e _ hg hk.symm
      · exact scalar_good T hb p t hg

/-- The answer is in the table, if there is one. -/
theorem scalar_answer (T : Types) (p : Printer) (t f : Nat)
    (h : (scalarFor T p t).1 = .fn f) : (t, f) ∈ (scalarFor T p t).2.map := by
  unfold scalarFor at h ⊢
  cases hl : lookup p.map t with
  | some g => simp only [hl] at h ⊢; cases h; exact lookup_mem _ _ _ hl
  | none =>
    cases hl2 : lookup p.map (T.base t) with
    | some g => simp only [hl, hl2] at h ⊢; cases h; exact List.mem_cons_self
    | none =>
      cases hk : T.kind (T.base t) with
      | enum =>
        simp only [hl, hl2, hk] at h ⊢
        by_cases ht : t ≠ T.base t
        · rw [if_pos ht] at h; cases h
        · rw [if_neg ht] at h ⊢; cases h; exact List.mem_cons_self
      | string e => simp only [hl, hl2, hk] at h; cases h
      | enumVec e => simp only [hl, hl2, hk] at h; cases h
      | other => simp only [hl, hl2, hk] at h; cases h
      | _ => simp only [hl, hl2, hk] at h ⊢; cases h; exact List.mem_cons_self

theorem array_answer (T : Types) (p : Printer) (t f : Nat) (k : Kind) (e : Nat)
    (h : (arrayFor T p t k e).1 = .fn f) : (t, f) ∈ (arrayFor T p t k e).2.map := by
  unfold arrayFor at h ⊢
  cases hs : scalarFor T p e with
  | mk r q =>
    cases r with
    | fatal => rw [hs] at h; cases h
    | null => rw [hs] at h; cases h; exact List.mem_cons_self
    | fn g => rw [hs] at h; cases h; exact List.mem_cons_self

theorem printer_answer (T : Types) (p : Printer) (t f : Nat)
    (h : (printerFor T p t).1 = .fn f) : (t, f) ∈ (printerFor T p t).2.map := by
  unfold printerFor at h ⊢
  cases hl : lookup p.map t with
  | some g => simp only [hl] at h ⊢; cases h; exact lookup_mem _ _ _ hl
  | none =>
    cases hl2 : lookup p.map (T.base t) with
    | some g => simp only [hl, hl2] at h ⊢; cases h; exact List.mem_cons_self
    | none =>
      cases hk : T.kind (T.base t) with
      | string e => simp only [hl, hl2, hk] at h ⊢; exact array_answer T p t f _ e h
      | enumVec e => simp only [hl, hl2, hk] at h ⊢; exact array_answer T p t f _ e h
      | _ => simp only [hl, hl2, hk] at h ⊢; exact scalar_answer T p t f h

/-- Whatever was asked before, the function for a type is that of the kind of
its base type. -/
theorem printer_kind (T : Types) (hb : ∀ t : Nat, T.base (T.base t) = T.base t) (p : Printer)
    (t f : Nat) (hg : Good T p) (h : (printerFor T p t).1 = .fn f) :
    ∃ g : Fn, (printerFor T p t).2.fns[f]? = some g ∧ g.kind = T.kind (T.base t) :=
  printer_good T hb p t hg (t, f) (printer_answer T p t f h)

theorem requests_good (T : Types) (hb : ∀ t : Nat, T.base (T.base t) = T.base t) (ts : List Nat)
    (p q : Printer) (hg : Good T p) (h : requests T p ts = some q) : Good T q := by
  induction ts generalizing p with
  | nil => cases h; exact hg
  | cons t ts ih =>
    unfold requests at h
    have := printer_good T hb p t hg
    split at h
    · cases h
    · rename_i r q' _ hq
      rw [hq] at this
      exact ih q' this h

theorem new_good (T : Types) : Good T new := fun e he => by cases he

/-- For all sequences of requests from the start. -/
theorem requests_kind (T : Types) (hb : ∀ t : Nat, T.base (T.base t) = T.base t) (ts : List Nat)
    (q : Printer) (h : requests T new ts = some q) (t f : Nat)
    (hf : (printerFor T q t).1 = .fn f) :
    ∃ g : Fn, (printerFor T q t).2.fns[f]? = some g ∧ g.kind = T.kind (T.base t) :=
  printer_kind T hb q t f (requests_good T hb ts new q (new_good T) h) hf

/-- A type asked for again gets the same function. -/
theorem printer_again (T : Types) (p : Printer) (t f : Nat) (h : lookup p.map t = some f) :
    printerFor T p t = (.fn f, p) := by
  unfold printerFor; simp only [h]

/-! ## Fatal errors -/

/-- Asking for a scalar type is fatal exactly for a subtype of an enumeration,
other than BIT and STD_ULOGIC, when neither it nor its base is in the table. -/
theorem scalar_fatal_iff (T : Types) (p : Printer) (t : Nat) :
    (scalarFor T p t).1 = .fatal ↔ lookup p.map t = none ∧ lookup p.map (T.base t) = none ∧
      T.kind (T.base t) = .enum ∧ t ≠ T.base t := by
  unfold scalarFor
  cases hl : lookup p.map t with
  | some g => simp
  | none =>
    cases hl2 : lookup p.map (T.base t) with
    | some g => simp
    | none =>
      cases hk : T.kind (T.base t) with
      | enum =>
        by_cases ht : t = T.base t
        · simp [← ht]
        · simp [ht]
      | _ => simp

/-- For all types: also an array of such a subtype is fatal. -/
theorem printer_fatal_iff (T : Types) (p : Printer) (t : Nat) :
    (printerFor T p t).1 = .fatal ↔ lookup p.map t = none ∧ lookup p.map (T.base t) = none ∧
      ∃ e : Nat, ((e = t ∧ T.kind (T.base t) = .enum) ∨ T.kind (T.base t) = .string e ∨
        T.kind (T.base t) = .enumVec e) ∧ (scalarFor T p e).1 = .fatal := by
  have arr : ∀ (k : Kind) (e : Nat),
      (arrayFor T p t k e).1 = .fatal ↔ (scalarFor T p e).1 = .fatal := by
    intro k e
    unfold arrayFor
    cases hs : scalarFor T p e with
    | mk r q => cases r <;> simp
  have hs := scalar_fatal_iff T p t
  unfold printerFor
  cases hl : lookup p.map t with
  | some g => simp
  | none =>
    cases hl2 : lookup p.map (T.base t) with
    | some g => simp
    | none =>
      rw [hl, hl2] at hs
      cases hk : T.kind (T.base t) with
      | string e => simp [arr]
      | enumVec e => simp [arr]
      | enum => simp
      | _ => rw [hk] at hs; simp at hs; simp [hs]

/-- There is no printer exactly for types of other kinds (reals, records,
other arrays). -/
theorem printer_null_iff (T : Types) (p : Printer) (t : Nat) :
    (printerFor T p t).1 = .null ↔ lookup p.map t = none ∧ lookup p.map (T.base t) = none ∧
      T.kind (T.base t) = .other := by
  have arr : ∀ (k : Kind) (e : Nat), (arrayFor T p t k e).1 ≠ .null := by
    intro k e
    unfold arrayFor
    cases hs : scalarFor T p e with
    | mk r q => cases r <;> simp
  unfold printerFor
  cases hl : lookup p.map t with
  | some g => simp
  | none =>
    cases hl2 : lookup p.map (T.base t) with
    | some g => simp
    | none =>
      cases hk : T.kind (T.base t) with
      | string e => simp [arr]
      | enumVec e => simp [arr]
      | enum =>
        simp only [scalarFor, hl, hl2, hk]
        by_cases ht : t ≠ T.base t
        · rw [if_pos ht]; simp
        · rw [if_neg ht]; simp
      | _ => simp [scalarFor, hl, hl2, hk]

/-! ## Elements -/

/-- The function of an array has that of its element. -/
def GoodElem (T : Types) (p : Printer) : Prop :=
  ∀ g ∈ p.fns, ∀ e : Nat, g.kind = .string e ∨ g.kind = .enumVec e →
    ∃ (f : Nat) (h : Fn), g.elem = some f ∧ p.fns[f]? = some h ∧ h.kind = T.kind (T.base e)

theorem elem_add (T : Types) (p : Printer) (m : List (Nat × Nat)) (g : Fn) (hg : GoodElem T p)
    (h : ∀ e : Nat, g.kind = .string e ∨ g.kind = .enumVec e →
      ∃ (f : Nat) (h : Fn), g.elem = some f ∧ p.fns[f]? = some h ∧ h.kind = T.kind (T.base e)) :
    GoodElem T ⟨m, p.fns ++ [g]⟩ := by
  intro x hx e he
  have lift : ∀ (f : Nat) (h : Fn), p.fns[f]? = some h → (p.fns ++ [g])[f]? = some h := by
    intro f h hf
    rw [List.getElem?_append_left (List.getElem?_eq_some_iff.mp hf).1]; exact hf
  rcases List.mem_append.mp hx with m1 | m1
  · obtain ⟨f, k, h1, h2, h3⟩ := hg x m1 e he
    exact ⟨f, k, h1, lift f k h2, h3⟩
  · rw [List.mem_singleton.mp m1] at he ⊢
    obtain ⟨f, k, h1, h2, h3⟩ := h e he
    exact ⟨f, k, h1, lift f k h2, h3⟩

theorem scalar_elem (T : Types) (p : Printer) (t : Nat) (hg : GoodElem T p) :
    GoodElem T (scalarFor T p t).2 := by
  unfold scalarFor
  cases hl : lookup p.map t with
  | some g => exact hg
  | none =>
    cases hl2 : lookup p.map (T.base t) with
    | some g => exact hg
    | none =>
      cases hk : T.kind (T.base t) with
      | enum =>
        simp only
        split
        · exact hg
        · exact elem_add T p _ _ hg fun e he => by rcases he with h | h <;> cases h
      | string e => exact hg
      | enumVec e => exact hg
      | other => exact hg
      | _ => exact elem_add T p _ _ hg fun e he => by rcases he with h | h <;> cases h

/-- An enumeration always has a printer, or the request is fatal. -/
theorem scalar_not_null (T : Types) (p : Printer) (t : Nat)
    (h : T.kind (T.base t) = .enum ∨ T.kind (T.base t) = .logic ∨ T.kind (T.base t) = .bit) :
    (scalarFor T p t).1 ≠ .null := by
  unfold scalarFor
  cases hl : lookup p.map t with
  | some g => simp
  | none =>
    cases hl2 : lookup p.map (T.base t) with
    | some g => simp
    | none =>
      rcases h with h | h | h <;> rw [h] <;> simp only
      · split <;> simp
      · simp
      · simp

theorem array_elem (T : Types) (hb : ∀ t : Nat, T.base (T.base t) = T.base t) (p : Printer)
    (t e : Nat) (k : Kind) (hg : Good T p) (hge : GoodElem T p)
    (hk : k = .string e ∨ k = .enumVec e)
    (he : T.kind (T.base e) = .enum ∨ T.kind (T.base e) = .logic ∨ T.kind (T.base e) = .bit) :
    GoodElem T (arrayFor T p t k e).2 := by
  have hn := scalar_not_null T p e he
  have hs := scalar_elem T p e hge
  have hs2 := scalar_good T hb p e hg
  have ha := scalar_answer T p e
  unfold arrayFor
  cases hq : scalarFor T p e with
  | mk r q =>
    rw [hq] at hn hs hs2 ha
    cases r with
    | fatal => exact hs
    | null => exact absurd rfl hn
    | fn f =>
      refine elem_add T q _ _ hs fun e' he' => ?_
      have ee : e' = e := by
        rcases hk with h | h <;> subst h <;> rcases he' with h' | h' <;> cases h' <;> rfl
      subst ee
      obtain ⟨h, h1, h2⟩ := hs2 _ (ha f rfl)
      exact ⟨f, h, rfl, h1, h2⟩

/-- After any requests the function of an array has the function of its
element, if the elements are enumerations. -/
theorem requests_elem (T : Types) (hb : ∀ t : Nat, T.base (T.base t) = T.base t)
    (he : ∀ t e : Nat, T.kind t = .string e ∨ T.kind t = .enumVec e →
      T.kind (T.base e) = .enum ∨ T.kind (T.base e) = .logic ∨ T.kind (T.base e) = .bit)
    (ts : List Nat) (p q : Printer) (hg : Good T p) (hge : GoodElem T p)
    (h : requests T p ts = some q) : GoodElem T q := by
  have step : ∀ (p : Printer) (t : Nat), Good T p → GoodElem T p →
      GoodElem T (printerFor T p t).2 := by
    intro p t hg hge
    unfold printerFor
    cases hl : lookup p.map t with
    | some g => exact hge
    | none =>
      cases hl2 : lookup p.map (T.base t) with
      | some g => exact hge
      | none =>
        cases hk : T.kind (T.base t) with
        | string e => exact array_elem T hb p t e _ hg hge (Or.inl rfl) (he _ e (Or.inl hk))
        | enumVec e => exact array_elem T hb p t e _ hg hge (Or.inr rfl) (he _ e (Or.inr hk))
        | _ => exact scalar_elem T p t hge
  induction ts generalizing p with
  | nil => cases h; exact hge
  | cons t ts ih =>
    unfold requests at h
    have h1 := printer_good T hb p t hg
    have h2 := step p t hg hge
    split at h
    · cases h
    · rename_i r q' _ hq
      rw [hq] at h1 h2
      exact ih q' h1 h2 h

example (T : Types) : GoodElem T new := fun g hg => by cases hg

/-- `subtype flag is boolean` in a fresh shell: the shell ends when a signal of
this type is examined, but not after one of type BOOLEAN. -/
theorem enum_subtype_counterexample :
    let T : Types := ⟨fun _ => 0, fun _ => .enum⟩
    requests T new [1] = none ∧ (requests T new [0, 1]).isSome = true := by decide +kernel

/-! ## Freeing -/

/-- A subtype that comes after its base shares the function of the base, which
`printer_free` then frees twice. -/
theorem share_double_free (T : Types) (p : Printer) (t f : Nat) (h : lookup p.map t = none)
    (h2 : lookup p.map (T.base t) = some f) :
    ¬ (freed (printerFor T p t).2).Nodup := by
  have e : printerFor T p t = (.fn f, { p with map := (t, f) :: p.map }) := by
    unfold printerFor; simp only [h, h2]
  rw [e]
  intro hn
  have hm := lookup_mem _ _ _ h2
  simp only [freed, List.map_cons, List.nodup_cons] at hn
  exact hn.1 (List.mem_map.mpr ⟨_, hm, rfl⟩)

/-- STD_ULOGIC and then STD_LOGIC. -/
theorem double_free_counterexample :
    let T : Types := ⟨fun _ => 0, fun _ => .logic⟩
    (requests T new [0, 1]).map freed = some [0, 0] := by decide +kernel

def Once (p : Printer) : Prop := (freed p).Nodup ∧ ∀ f ∈ freed p, f < p.fns.length

theorem once_add (p : Printer) (t : Nat) (g : Fn) (h : Once p) :
    Once ⟨(t, p.fns.length) :: p.map, p.fns ++ [g]⟩ := by
  constructor
  · simp only [freed, List.map_cons, List.nodup_cons]
    exact ⟨fun hm => Nat.lt_irrefl _ (h.2 _ hm), h.1⟩
  · intro f hf
    simp only [freed, List.map_cons, List.mem_cons] at hf
    simp only [List.length_append, List.length_singleton]
    rcases hf with e | e
    · omega
    · have := h.2 f e; omega

theorem scalar_once (T : Types) (p : Printer) (t : Nat) (ht : T.base t = t) (h : Once p) :
    Once (scalarFor T p t).2 := by
  unfold scalarFor
  rw [ht]
  cases hl : lookup p.map t with
  | some g => exact h
  | none =>
    simp only
    split
    · split
      · exact h
      · exact once_add p t _ h
    · exact h
    · exact h
    · exact h
    · exact once_add p t _ h

theorem array_once (T : Types) (p : Printer) (t : Nat) (k : Kind) (e : Nat) (hbe : T.base e = e)
    (h : Once p) : Once (arrayFor T p t k e).2 := by
  have hs := scalar_once T p e hbe h
  unfold arrayFor
  split
  · rename_i q hq; rw [hq] at hs; exact hs
  · rename_i q hq; rw [hq] at hs; exact once_add q t _ hs
  · rename_i f q hq; rw [hq] at hs; exact once_add q t _ hs

/-- If only base types are asked for, and arrays of them, every function is
freed once. -/
theorem printer_once (T : Types) (p : Printer) (t : Nat) (ht : T.base t = t)
    (he : ∀ e : Nat, T.kind t = .string e ∨ T.kind t = .enumVec e → T.base e = e)
    (h : Once p) : Once (printerFor T p t).2 := by
  unfold printerFor
  rw [ht]
  cases hl : lookup p.map t with
  | some g => exact h
  | none =>
    cases hk : T.kind t with
    | string e => exact array_once T p t _ e (he e (Or.inl hk)) h
    | enumVec e => exact array_once T p t _ e (he e (Or.inr hk)) h
    | _ => exact scalar_once T p t ht h

theorem free_once_partial (T : Types) (ts : List Nat) (p q : Printer) (hp : Once p)
    (ht : ∀ t ∈ ts, T.base t = t)
    (he : ∀ t ∈ ts, ∀ e : Nat, T.kind t = .string e ∨ T.kind t = .enumVec e → T.base e = e)
    (h : requests T p ts = some q) : (freed q).Nodup := by
  induction ts generalizing p with
  | nil => cases h; exact hp.1
  | cons t ts ih =>
    unfold requests at h
    have := printer_once T p t (ht t List.mem_cons_self) (he t List.mem_cons_self) hp
    split at h
    · cases h
    · rename_i r q' _ hq
      rw [hq] at this
      exact ih q' this (fun x hx => ht x (List.mem_cons_of_mem _ hx))
        (fun x hx => he x (List.mem_cons_of_mem _ hx)) h

example : Once new := ⟨List.nodup_nil, fun f hf => by cases hf⟩

example :
    let T : Types := ⟨id, fun t => if t = 0 then .enum else if t = 1 then .enumVec 0 else .int⟩
    (requests T new [1, 2, 0, 1]).map freed = some [2, 1, 0] := by decide +kernel

end Verif.Printer
