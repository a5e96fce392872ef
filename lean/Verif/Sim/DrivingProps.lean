import Verif.Sim.DrivingModel

/-!
# Properties of driving values

Specification after IEEE 1076-2008 14.7.3.2: which rule gives the driving value, and that a resolved
signal takes for each element the result of the resolution function on the values of that element in
all connected sources, although one or two sources are looked up in tables.
-/

namespace Verif.Sim.Driving

/-! ## Specification -/

/-- A source of the kind that counts for resolution and is connected -/
def Active (s : Source) : Prop := (s.kind = .driver ∨ s.kind = .port) ∧ s.disconnected = false

instance (s : Source) : Decidable (Active s) := by unfold Active; infer_instance

/-- The values of the connected drivers and ports, in order -/
def inputs (n : Net) : List (List Nat) := (n.sources.filter (fun s => decide (Active s))).map Source.val

/-- No force, deposit or implicit source is in effect. -/
def Plain (n : Net) : Prop := ∀ s ∈ n.sources, isPseudo s.kind = true → s.disconnected = true

/-- Element `j` of each value -/
def col (vs : List (List Nat)) (j : Nat) : List Nat := vs.map (fun v => v.getD j 0)

/-- What the rest of the simulator guarantees: ports are never disconnected, values have one entry for
each element. -/
structure Good (n : Net) : Prop where
  ports : ∀ s ∈ n.sources, s.kind = .port → s.disconnected = false
  widths : ∀ s ∈ n.sources, s.val.length = n.width

/-! ## Lemmas -/

/-- From the first active source on -/
def dropTo : List Source → Option (List Source)
  | [] => none
  | s :: l => if Active s then some (s :: l) else dropTo l

theorem scan_plain (n : Net) (l : List Source) (k : Nat) (l0 : Option (List Source))
    (done : List Source) (h : ∀ s ∈ l, isPseudo s.kind = true → s.disconnected = true) :
    scan n k l0 done l =
      (finish n (k + (l.filter (fun s => decide (Active s))).length)
        (if l0.isNone then dropTo l else l0), done ++ l) := by
  induction l generalizing k l0 done with
  | nil => cases l0 <;> simp [scan, dropTo]
  | cons s l ih =>
    have ih' := fun k l0 done => ih k l0 done (fun t ht => h t (List.mem_cons_of_mem _ ht))
    have hs := h s List.mem_cons_self
    unfold scan
    by_cases hd : s.disconnected = true
    · have hna : ¬ Active s := by simp [Active, hd]
      rw [if_pos hd, ih']
      simp [hna, dropTo]
    · rw [if_neg hd]
      have hd' : s.disconnected = false := by simpa using hd
      cases hk : s.kind with
      | forcing => simp [hk, isPseudo, hd'] at hs
      | deposit => simp [hk, isPseudo, hd'] at hs
      | implicit => simp [hk, isPseudo, hd'] at hs
      | driver =>
        have ha : Active s := ⟨Or.inl hk, hd'⟩
        simp only
        rw [ih']
        cases l0 <;> simp [ha, dropTo, Nat.add_assoc, Nat.add_comm 1]
      | port =>
        have ha : Active s := ⟨Or.inr hk, hd'⟩
        simp only
        rw [ih']
        cases l0 <;> simp [ha, dropTo, Nat.add_assoc, Nat.add_comm 1]

theorem sourceValue_active {s : Source} (h : Active s) : sourceValue s = some s.val := by
  obtain ⟨h | h, hd⟩ := h <;> simp [sourceValue, h, hd]

theorem sourceValue_inactive {s : Source} (hp : s.kind = .port → s.disconnected = false)
    (h : ¬ Active s) : sourceValue s = none := by
  unfold Active at h
  unfold sourceValue
  cases hk : s.kind <;> simp_all

theorem filterMap_active (l : List Source)
    (hp : ∀ s ∈ l, s.kind = .port → s.disconnected = false) :
    l.filterMap sourceValue = (l.filter (fun s => decide (Active s))).map Source.val := by
  induction l with
  | nil => rfl
  | cons s l ih =>
    have ih := ih (fun t ht => hp t (List.mem_cons_of_mem _ ht))
    by_cases ha : Active s
    · simp [List.filterMap_cons, sourceValue_active ha, ha, ih]
    · simp [List.filterMap_cons, sourceValue_inactive (hp s List.mem_cons_self) ha, ha, ih]

theorem dropTo_spec (l : List Source) :
    (dropTo l = none ∧ l.filter (fun s => decide (Active s)) = []) ∨
    ∃ pre s t, l = pre ++ s :: t ∧ dropTo l = some (s :: t) ∧ Active s ∧
      l.filter (fun s => decide (Active s)) = s :: t.filter (fun s => decide (Active s)) := by
  induction l with
  | nil => exact Or.inl ⟨rfl, rfl⟩
  | cons a l ih =>
    by_cases ha : Active a
    · exact Or.inr ⟨[], a, l, rfl, by simp [dropTo, ha], ha, by simp [ha]⟩
    · rcases ih with ⟨h1, h2⟩ | ⟨pre, s, t, rfl, h1, h2, h3⟩
      · exact Or.inl ⟨by simp [dropTo, ha, h1], by simp [ha, h2]⟩
      · exact Or.inr ⟨a :: pre, s, t, rfl, by simp [dropTo, ha, h1], h2, by
          rw [List.filter_cons_of_neg (by simp [ha]), h3]⟩

theorem nextValue_eq (l : List Source) : nextValue l = (l.filterMap sourceValue).head? := by
  induction l with
  | nil => rfl
  | cons s l ih =>
    unfold nextValue
    cases h : sourceValue s with
    | none => simp [List.filterMap_cons, h, ih]
    | some v => simp [List.filterMap_cons, h]

theorem mapM_some {α β : Type} (f : α → Option β) (g : α → β) (l : List α)
    (h : ∀ x ∈ l, f x = some (g x)) : l.mapM f = some (l.map g) := by
  induction l with
  | nil => rfl
  | cons x l ih =>
    rw [List.mapM_cons, h x List.mem_cons_self, ih (fun y hy => h y (List.mem_cons_of_mem _ hy))]
    rfl

theorem column_eq (l : List Source) (j : Nat)
    (h : ∀ v ∈ l.filterMap sourceValue, j < v.length) :
    column l j = some (col (l.filterMap sourceValue) j) := by
  unfold column col
  apply mapM_some
  intro v hv
  have := h v hv
  simp [this]

theorem callEach_ok (fn : List Nat → Option Nat) (l : List Source) (out : Nat → Nat) (j n : Nat)
    (hw : ∀ v ∈ l.filterMap sourceValue, j + n ≤ v.length)
    (h : ∀ i, j ≤ i → i < j + n → fn (col (l.filterMap sourceValue) i) = some (out i)) :
    callEach fn l j n = .value ((List.range n).map (fun i => out (j + i))) := by
  induction n generalizing j with
  | zero => rfl
  | succ n ih =>
    have hc := column_eq l j (fun v hv => by have := hw v hv; omega)
    unfold callEach
    rw [hc]
    simp only
    rw [ih (j + 1) (fun v hv => by have := hw v hv; omega) (fun i h1 h2 => h i (by omega) (by omega)),
      h j (by omega) (by omega)]
    simp only [List.range_succ_eq_map, List.map_cons, List.map_map]
    congr 1
    simp only [Nat.add_zero, List.cons.injEq, true_and]
    apply List.map_congr_left
    intro a _
    simp only [Function.comp]
    congr 1; omega

theorem callEach_stop (fn : List Nat → Option Nat) (l : List Source) (j n : Nat)
    (hw : ∀ v ∈ l.filterMap sourceValue, j + n ≤ v.length)
    (h : ∃ i, j ≤ i ∧ i < j + n ∧ fn (col (l.filterMap sourceValue) i) = none) :
    callEach fn l j n = .stop := by
  induction n generalizing j with
  | zero => obtain ⟨i, h1, h2, _⟩ := h; omega
  | succ n ih =>
    have hc := column_eq l j (fun v hv => by have := hw v hv; omega)
    unfold callEach
    rw [hc]
    simp only
    by_cases hl : ∃ i, j + 1 ≤ i ∧ i < j + 1 + n ∧ fn (col (l.filterMap sourceValue) i) = none
    · rw [ih (j + 1) (fun v hv => by have := hw v hv; omega) hl]
    · have : ∀ i, j + 1 ≤ i → i < j + 1 + n →
          fn (col (l.filterMap sourceValue) i) =
            some ((fn (col (l.filterMap sourceValue) i)).getD 0) := by
        intro i h1 h2
        cases hf : fn (col (l.filterMap sourceValue) i) with
        | none => exact absurd ⟨i, h1, h2, hf⟩ hl
        | some x => rfl
      rw [callEach_ok fn l _ (j + 1) n (fun v hv => by have := hw v hv; omega) this]
      obtain ⟨i, h1, h2, hf⟩ := h
      have : i = j := by
        by_cases e : i = j
        · exact e
        · exact absurd ⟨i, by omega, by omega, hf⟩ hl
      rw [this] at hf
      rw [hf]

theorem buildMemo_memo {fn : List Nat → Option Nat} {nlits : Nat} (h : (buildMemo fn nlits).memo = true) :
    0 < nlits ∧ nlits ≤ 16 ∧
    (buildMemo fn nlits).tab1 = (List.range nlits).map (fun i => (fn [i]).getD 0) ∧
    (buildMemo fn nlits).tab2 =
      (List.range nlits).map (fun i => (List.range nlits).map (fun j => (fn [i, j]).getD 0)) ∧
    (∀ i < nlits, (fn [i]).isSome) ∧ (∀ i < nlits, ∀ j < nlits, (fn [i, j]).isSome) := by
  unfold buildMemo at h ⊢
  split at h
  · simp at h
  · rename_i hn
    rw [if_neg hn]
    simp only [Bool.and_eq_true, List.all_eq_true, List.mem_range] at h
    exact ⟨by omega, by omega, rfl, rfl, h.2, h.1⟩

theorem buildMemo_ident {fn : List Nat → Option Nat} {nlits : Nat}
    (h : (buildMemo fn nlits).ident = true) :
    (buildMemo fn nlits).memo = true ∧ ∀ i < nlits, (fn [i]).getD 0 = i := by
  unfold buildMemo at h ⊢
  split at h
  · simp at h
  · rename_i hn
    rw [if_neg hn]
    simp only [Bool.and_eq_true, List.all_eq_true, List.mem_range, beq_iff_eq] at h ⊢
    exact h

@[simp] theorem buildMemo_fn (fn : List Nat → Option Nat) (nlits : Nat) : (buildMemo fn nlits).fn = fn := by
  unfold buildMemo; split <;> rfl

theorem some_getD {o : Option Nat} (h : o.isSome = true) : o = some (o.getD 0) := by
  cases o <;> simp at *

/-- The table of one value is right. -/
theorem look1_ok {fn : List Nat → Option Nat} {nlits : Nat} (h : (buildMemo fn nlits).memo = true)
    {v : List Nat} (hl : ∀ x ∈ v, x < nlits) {j : Nat} (hj : j < v.length) :
    ∃ x, look1 (buildMemo fn nlits) v j = some x ∧ fn (col [v] j) = some x := by
  obtain ⟨_, _, h1, _, h3, _⟩ := buildMemo_memo h
  have hx : v[j] < nlits := hl _ (List.getElem_mem hj)
  refine ⟨(fn [v[j]]).getD 0, ?_, ?_⟩
  · simp [look1, h1, hj, hx]
  · have := some_getD (h3 _ hx)
    simpa [col, hj] using this

/-- The table of two values is right. -/
theorem look2_ok {fn : List Nat → Option Nat} {nlits : Nat} (h : (buildMemo fn nlits).memo = true)
    {v w : List Nat} (hv : ∀ x ∈ v, x < nlits) (hw : ∀ x ∈ w, x < nlits) {j : Nat} (hj : j < v.length)
    (hj' : j < w.length) :
    ∃ x, look2 (buildMemo fn nlits) v w j = some x ∧ fn (col [v, w] j) = some x := by
  obtain ⟨_, _, _, h2, _, h4⟩ := buildMemo_memo h
  have hx : v[j] < nlits := hv _ (List.getElem_mem hj)
  have hy : w[j] < nlits := hw _ (List.getElem_mem hj')
  refine ⟨(fn [v[j], w[j]]).getD 0, ?_, ?_⟩
  · simp [look2, h2, hj, hj', hx, hy]
  · have := some_getD (h4 _ hx _ hy)
    simpa [col, hj, hj'] using this

/-- Values of the literals -/
def Lits (nlits : Nat) (vs : List (List Nat)) : Prop := ∀ v ∈ vs, ∀ x ∈ v, x < nlits

/-- The result of resolving, as the specification wants it -/
def Resolved (fn : List Nat → Option Nat) (width : Nat) (vs : List (List Nat)) (o : Out) : Prop :=
  (∀ out : Nat → Nat, (∀ j < width, fn (col vs j) = some (out j)) →
    o = .value ((List.range width).map out)) ∧
  ((∃ j < width, fn (col vs j) = none) → o = .stop)

theorem resolved_of_each {fn : List Nat → Option Nat} {width : Nat} {l : List Source}
    (hw : ∀ v ∈ l.filterMap sourceValue, v.length = width) :
    Resolved fn width (l.filterMap sourceValue) (callEach fn l 0 width) := by
  constructor
  · intro out h
    rw [callEach_ok fn l out 0 width (fun v hv => by rw [hw v hv]; omega)
      (fun i _ h2 => h i (by omega))]
    simp
  · rintro ⟨j, hj, h⟩
    exact callEach_stop fn l 0 width (fun v hv => by rw [hw v hv]; omega)
      ⟨j, by omega, by omega, h⟩

theorem resolved_of_table {fn : List Nat → Option Nat} {width : Nat} {vs : List (List Nat)}
    {f : Nat → Option Nat}
    (h : ∀ j < width, ∃ x, f j = some x ∧ fn (col vs j) = some x) :
    Resolved fn width vs (outOf ((List.range width).mapM f)) := by
  constructor
  · intro out ho
    rw [mapM_some f out]
    · rfl
    · intro j hj
      have hj := List.mem_range.1 hj
      obtain ⟨x, h1, h2⟩ := h j hj
      rw [ho j hj] at h2
      cases h2
      exact h1
  · rintro ⟨j, hj, hn⟩
    obtain ⟨x, _, h2⟩ := h j hj
    rw [hn] at h2
    cases h2

theorem callResolution_ok {n : Net} {fn : List Nat → Option Nat} {nlits : Nat} {l : List Source}
    (hhead : ∀ s ∈ l.head?, Active s)
    (hw : ∀ v ∈ l.filterMap sourceValue, v.length = n.width)
    (hlit : Lits nlits (l.filterMap sourceValue)) :
    Resolved fn n.width (l.filterMap sourceValue)
      (callResolution n (buildMemo fn nlits) (l.filterMap sourceValue).length l) := by
  unfold callResolution
  split
  · rename_i h
    obtain ⟨hid, hlen⟩ := h
    obtain ⟨hm, hi⟩ := buildMemo_ident hid
    obtain ⟨_, _, _, _, h3, _⟩ := buildMemo_memo hm
    cases l with
    | nil => simp at hlen
    | cons s t =>
      have ha := hhead s (by simp)
      have hv := sourceValue_active ha
      obtain ⟨v, hvs⟩ := List.length_eq_one_iff.1 hlen
      have hvv : v = s.val := by
        simp [List.filterMap_cons, hv] at hvs
        exact hvs.1.symm
      subst hvv
      rw [hvs] at hw hlit ⊢
      simp only [List.head?_cons, Option.bind_some, hv, outOf]
      have hwv := hw s.val (by simp)
      have hfn : ∀ j, (hj : j < n.width) → fn (col [s.val] j) = some (s.val[j]'(by omega)) := by
        intro j hj
        have hx : s.val[j]'(by omega) < nlits := hlit s.val (by simp) _ (List.getElem_mem _)
        have := some_getD (h3 _ hx)
        rw [hi _ hx] at this
        simpa [col, show j < s.val.length by omega] using this
      constructor
      · intro out ho
        congr 1
        apply List.ext_getElem
        · simp [hwv]
        · intro j h1 h2
          have := ho j (by omega)
          rw [hfn j (by omega)] at this
          simpa using this
      · rintro ⟨j, hj, hn⟩
        rw [hfn j hj] at hn
        cases hn
  · split
    · rename_i h
      obtain ⟨hm, hlen⟩ := h
      cases l with
      | nil => simp at hlen
      | cons s t =>
        have ha := hhead s (by simp)
        have hv := sourceValue_active ha
        obtain ⟨v, hvs⟩ := List.length_eq_one_iff.1 hlen
        have hvv : v = s.val := by
          simp [List.filterMap_cons, hv] at hvs
          exact hvs.1.symm
        subst hvv
        rw [hvs] at hw hlit ⊢
        simp only [List.head?_cons, Option.bind_some, hv]
        have hwv := hw s.val (by simp)
        exact resolved_of_table (fun j hj => look1_ok hm (hlit s.val (by simp)) (by omega))
    · split
      · rename_i h
        obtain ⟨hm, hlen⟩ := h
        cases l with
        | nil => simp at hlen
        | cons s t =>
          have ha := hhead s (by simp)
          have hv := sourceValue_active ha
          simp only [List.filterMap_cons, hv, List.length_cons] at hlen
          obtain ⟨w, hws⟩ := List.length_eq_one_iff.1 (show (t.filterMap sourceValue).length = 1 by omega)
          have hvs : (s :: t).filterMap sourceValue = [s.val, w] := by
            simp [List.filterMap_cons, hv, hws]
          rw [hvs] at hw hlit ⊢
          simp only [List.head?_cons, Option.bind_some, hv, List.tail_cons, nextValue_eq, hws]
          have hwv := hw s.val (by simp)
          have hww := hw w (by simp)
          exact resolved_of_table (fun j hj => look2_ok hm (hlit s.val (by simp))
            (hlit w (by simp)) (by omega) (by omega))
      · rw [buildMemo_fn]
        exact resolved_of_each hw

theorem drive_plain {n : Net} (h : Plain n) (hne : n.sources ≠ []) :
    drive n = (finish n (inputs n).length (dropTo n.sources), n.sources) := by
  unfold drive
  rw [if_neg hne, scan_plain n n.sources 0 none [] h]
  simp [inputs]

/-! ## The theorems -/

/-- A signal without sources has its default value. -/
theorem drive_no_sources (n : Net) (h : n.sources = []) : (drive n).1 = .value n.initial := by
  simp [drive, h]

/-- A resolved signal: each element is the result of the resolution function on that element of all
connected sources, in order, also if the tables are used; if the function fails the simulation
stops. -/
theorem drive_resolved (n : Net) (fn : List Nat → Option Nat) (nlits : Nat) (hg : Good n) (hp : Plain n)
    (hr : n.res = some (buildMemo fn nlits)) (hlit : Lits nlits (inputs n)) (hne : inputs n ≠ []) :
    Resolved fn n.width (inputs n) (drive n).1 := by
  have hs : n.sources ≠ [] := by
    intro e; simp [inputs, e] at hne
  rw [drive_plain hp hs]
  rcases dropTo_spec n.sources with ⟨_, h2⟩ | ⟨pre, s, t, h1, h2, h3, h4⟩
  · simp [inputs, h2] at hne
  · have hfm : (s :: t).filterMap sourceValue = inputs n := by
      rw [filterMap_active _ (fun x hx => hg.ports x (by rw [h1]; exact List.mem_append_right _ hx))]
      unfold inputs
      rw [h4, List.filter_cons_of_pos (by simpa using h3)]
    have hwid : ∀ v ∈ inputs n, v.length = n.width := by
      intro v hv
      obtain ⟨x, hx, rfl⟩ := List.mem_map.1 hv
      exact hg.widths x (List.mem_filter.1 hx).1
    rw [h2]
    simp only [finish, hr]
    have := callResolution_ok (n := n) (fn := fn) (nlits := nlits) (l := s :: t)
      (by simpa using h3) (by rw [hfm]; exact hwid) (by rw [hfm]; exact hlit)
    rw [hfm] at this
    exact this

/-- If all drivers of a resolved signal are disconnected the function is called with no values (the
first source is a driver or port). -/
theorem drive_resolved_none (n : Net) (fn : List Nat → Option Nat) (nlits : Nat) (hp : Plain n)
    (hr : n.res = some (buildMemo fn nlits)) (hn : inputs n = []) (hreg : n.register = false)
    (s : Source) (rest : List Source) (hs : n.sources = s :: rest) (hk : isPseudo s.kind = false) :
    Resolved fn n.width [] (drive n).1 := by
  rw [drive_plain hp (by rw [hs]; simp)]
  rcases dropTo_spec n.sources with ⟨h1, _⟩ | ⟨pre, s', t, _, _, _, h4⟩
  · rw [h1]
    simp only [finish, hreg, hr, hs, hk, hn]
    simp only [Bool.false_eq_true, if_false, List.head?_cons, Option.map_some, Option.some.injEq,
      List.length_nil, hk]
    have := callResolution_ok (n := n) (fn := fn) (nlits := nlits) (l := []) (by simp) (by simp)
      (by simp [Lits])
    exact this
  · simp [inputs, h4] at hn

/-- An unresolved signal has the value of its connected source. -/
theorem drive_unresolved (n : Net) (hp : Plain n) (hr : n.res = none) (v : List Nat)
    (rest : List (List Nat)) (hi : inputs n = v :: rest) : (drive n).1 = .value v := by
  have hs : n.sources ≠ [] := by
    intro e; simp [inputs, e] at hi
  rw [drive_plain hp hs]
  rcases dropTo_spec n.sources with ⟨_, h2⟩ | ⟨pre, s, t, _, h2, _, h4⟩
  · simp [inputs, h2] at hi
  · rw [h2]
    simp only [finish, hr]
    simp only [inputs, h4, List.map_cons, List.cons.injEq] at hi
    rw [hi.1]

/-- A register all of whose sources are disconnected keeps its value. -/
theorem drive_register (n : Net) (hp : Plain n) (hreg : n.register = true) (hn : inputs n = [])
    (hs : n.sources ≠ []) : (drive n).1 = .value n.effective := by
  rw [drive_plain hp hs]
  rcases dropTo_spec n.sources with ⟨h1, _⟩ | ⟨pre, s, t, _, _, _, h4⟩
  · rw [h1]
    cases hr : n.res <;> simp [finish, hreg, hr]
  · simp [inputs, h4] at hn

/-- The first source in effect of the kinds that take precedence is in effect: a forced signal has the
forced value, whatever its drivers do.  Partial: only if no deposit is pending in front of it. -/
theorem drive_forced_partial (n : Net) (pre rest : List Source) (f : Source)
    (hs : n.sources = pre ++ f :: rest) (hf : f.kind = .forcing) (hc : f.disconnected = false)
    (hpre : ∀ s ∈ pre, isPseudo s.kind = true → s.disconnected = true) :
    drive n = (.value f.val, n.sources) := by
  have key : ∀ (pre : List Source) (k : Nat) (l0 : Option (List Source)) (done : List Source),
      (∀ s ∈ pre, isPseudo s.kind = true → s.disconnected = true) →
      scan n k l0 done (pre ++ f :: rest) = (.value f.val, done ++ (pre ++ f :: rest)) := by
    intro pre
    induction pre with
    | nil => intro k l0 done _; simp [scan, hc, hf]
    | cons s pre ih =>
      intro k l0 done h
      have ih := fun k l0 done => ih k l0 done (fun t ht => h t (List.mem_cons_of_mem _ ht))
      have hs := h s List.mem_cons_self
      simp only [List.cons_append, scan]
      by_cases hd : s.disconnected = true
      · rw [if_pos hd, ih]; simp
      · rw [if_neg hd]
        cases hk : s.kind <;> simp [hk, isPseudo, hd] at hs <;> simp only <;> rw [ih] <;> simp
  unfold drive
  rw [if_neg (by rw [hs]; simp)]
  rw [hs, key pre 0 none [] hpre]
  simp

/-- A deposit takes effect once: its value is the driving value, and then it is over. -/
theorem drive_deposit (n : Net) (pre rest : List Source) (d : Source)
    (hs : n.sources = pre ++ d :: rest) (hd : d.kind = .deposit) (hc : d.disconnected = false)
    (hpre : ∀ s ∈ pre, isPseudo s.kind = true → s.disconnected = true) :
    drive n = (.value d.val, pre ++ { d with disconnected := true } :: rest) := by
  have key : ∀ (pre : List Source) (k : Nat) (l0 : Option (List Source)) (done : List Source),
      (∀ s ∈ pre, isPseudo s.kind = true → s.disconnected = true) →
      scan n k l0 done (pre ++ d :: rest) =
        (.value d.val, done ++ (pre ++ { d with disconnected := true } :: rest)) := by
    intro pre
    induction pre with
    | nil => intro k l0 done _; simp [scan, hc, hd]
    | cons s pre ih =>
      intro k l0 done h
      have ih := fun k l0 done => ih k l0 done (fun t ht => h t (List.mem_cons_of_mem _ ht))
      have hs := h s List.mem_cons_self
      simp only [List.cons_append, scan]
      by_cases hd : s.disconnected = true
      · rw [if_pos hd, ih]; simp
      · rw [if_neg hd]
        cases hk : s.kind <;> simp [hk, isPseudo, hd] at hs <;> simp only <;> rw [ih] <;> simp
  unfold drive
  rw [if_neg (by rw [hs]; simp)]
  rw [hs, key pre 0 none [] hpre]
  simp

/-- A forced signal that gets a deposit has the value of the deposit: the deposit source was made
before the forcing source.  IEEE 1076-2008 14.7.3.2 says the forced value stays. -/
theorem deposit_over_force_counterexample :
    ∃ n : Net, Good n ∧ n.sources ≠ [] ∧
      -- a deposit takes effect, then the signal is forced, then there is another deposit
      let n1 := deposit [1] n
      let n2 := force [2] { n1 with sources := (drive n1).2 }
      (drive n2).1 = .value [2] ∧ (drive (deposit [3] n2)).1 = .value [3] :=
  ⟨{ width := 1, register := false, res := none, initial := [0], effective := [0],
     sources := [{ kind := .driver, disconnected := false, val := [0] }] },
   ⟨by simp, by simp⟩, by simp, by decide +kernel, by decide +kernel⟩

/-! ## Forcing and releasing -/

theorem onPseudo_fresh (k : Kind) (f : Source → Source) (l : List Source) (h : ∀ s ∈ l, s.kind ≠ k) :
    onPseudo k f l = l ++ [f { kind := k, disconnected := false, val := [] }] := by
  induction l with
  | nil => rfl
  | cons s l ih =>
    simp only [onPseudo, if_neg (h s List.mem_cons_self), List.cons_append,
      ih (fun t ht => h t (List.mem_cons_of_mem _ ht))]

/-- Forcing a signal that has no deposit pending sets its driving value at once, also if it was forced
before. -/
theorem force_sets (n : Net) (v : List Nat)
    (hp : ∀ s ∈ n.sources, isPseudo s.kind = true → s.kind = .forcing ∨ s.disconnected = true) :
    (drive (force v n)).1 = .value v := by
  have key : ∀ l : List Source,
      (∀ s ∈ l, isPseudo s.kind = true → s.kind = .forcing ∨ s.disconnected = true) →
      ∃ pre rest g, onPseudo .forcing (fun s => { s with val := v, disconnected := false }) l =
        pre ++ g :: rest ∧ g.kind = .forcing ∧ g.disconnected = false ∧ g.val = v ∧
        ∀ s ∈ pre, isPseudo s.kind = true → s.disconnected = true := by
    intro l
    induction l with
    | nil => intro _; exact ⟨[], [], _, rfl, rfl, rfl, rfl, by simp⟩
    | cons s l ih =>
      intro h
      unfold onPseudo
      by_cases hk : s.kind = .forcing
      · rw [if_pos hk]
        exact ⟨[], l, _, rfl, hk, rfl, rfl, by simp⟩
      · rw [if_neg hk]
        obtain ⟨pre, rest, g, e, h1, h2, h3, h4⟩ := ih (fun t ht => h t (List.mem_cons_of_mem _ ht))
        refine ⟨s :: pre, rest, g, by rw [e]; rfl, h1, h2, h3, ?_⟩
        intro t ht hps
        rcases List.mem_cons.1 ht with rfl | ht
        · exact (h t List.mem_cons_self hps).resolve_left hk
        · exact h4 t ht hps
  obtain ⟨pre, rest, g, e, h1, h2, h3, h4⟩ := key n.sources hp
  rw [drive_forced_partial (force v n) pre rest g e h1 h2 h4, h3]

/-- After a release the connected drivers determine the value again. -/
theorem release_restores (n : Net) (v : List Nat) (hp : Plain n)
    (hf : ∀ s ∈ n.sources, s.kind ≠ .forcing) (hi : inputs n ≠ []) :
    (drive (release (force v n))).1 = (drive n).1 := by
  have e1 : (release (force v n)).sources =
      n.sources ++ [{ kind := .forcing, disconnected := true, val := v }] := by
    unfold release force
    simp only
    rw [onPseudo_fresh _ _ _ hf]
    generalize n.sources = l at hf
    induction l with
    | nil => rfl
    | cons s l ih =>
      simp only [List.cons_append, onPseudo, if_neg (hf s List.mem_cons_self)]
      rw [ih (fun t ht => hf t (List.mem_cons_of_mem _ ht))]
  have hp' : Plain (release (force v n)) := by
    intro s hs hk
    rw [e1] at hs
    rcases List.mem_append.1 hs with hs | hs
    · exact hp s hs hk
    · simp at hs; rw [hs]
  have hne : n.sources ≠ [] := by intro e; simp [inputs, e] at hi
  have hinp : inputs (release (force v n)) = inputs n := by
    unfold inputs
    rw [e1]
    simp [List.filter_append, Active]
  rw [drive_plain hp' (by rw [e1]; simp), drive_plain hp hne, hinp]
  simp only
  rcases dropTo_spec n.sources with ⟨_, h2⟩ | ⟨pre, s, t, h1, h2, h3, h4⟩
  · simp [inputs, h2] at hi
  · have hd : dropTo (release (force v n)).sources =
        some (s :: (t ++ [{ kind := .forcing, disconnected := true, val := v }])) := by
      rw [e1]
      have : ∀ (l m : List Source) (x : List Source), dropTo l = some x →
          dropTo (l ++ m) = some (x ++ m) := by
        intro l m
        induction l with
        | nil => intro x h; simp [dropTo] at h
        | cons a l ih =>
          intro x h
          unfold dropTo at h
          simp only [List.cons_append, dropTo]
          split at h
          · rename_i ha; rw [if_pos ha]; cases h; rfl
          · rename_i ha; rw [if_neg ha]; exact ih x h
      rw [this _ _ _ h2]
      rfl
    rw [hd, h2]
    cases hr : n.res with
    | none => simp [finish, release, force, hr]
    | some r =>
      have hr' : (release (force v n)).res = some r := hr
      simp only [finish, hr', hr]
      have hw : (release (force v n)).width = n.width := rfl
      have hfm : ∀ l : List Source,
          (l ++ [(⟨.forcing, true, v⟩ : Source)]).filterMap sourceValue =
            l.filterMap sourceValue := by
        intro l; simp [List.filterMap_append, sourceValue]
      have hcol : ∀ (l : List Source) (j : Nat),
          column (l ++ [{ kind := .forcing, disconnected := true, val := v }]) j = column l j := by
        intro l j; simp only [column, hfm]
      have heach : ∀ (l : List Source) (k j : Nat),
          callEach r.fn (l ++ [{ kind := .forcing, disconnected := true, val := v }]) j k =
            callEach r.fn l j k := by
        intro l k
        induction k with
        | zero => intro j; rfl
        | succ k ih => intro j; simp only [callEach, hcol, ih]
      unfold callResolution
      simp only [hw, List.head?_cons, List.tail_cons, nextValue_eq, hfm]
      rw [← List.cons_append, heach]

/-! ## Splitting -/

theorem drive_implicit (n : Net) (pre rest : List Source) (p : Source)
    (hs : n.sources = pre ++ p :: rest) (hd : p.kind = .implicit) (hc : p.disconnected = false)
    (hpre : ∀ s ∈ pre, isPseudo s.kind = true → s.disconnected = true) :
    (drive n).1 = .implicit := by
  have key : ∀ (pre : List Source) (k : Nat) (l0 : Option (List Source)) (done : List Source),
      (∀ s ∈ pre, isPseudo s.kind = true → s.disconnected = true) →
      (scan n k l0 done (pre ++ p :: rest)).1 = .implicit := by
    intro pre
    induction pre with
    | nil => intro k l0 done _; simp [scan, hc, hd]
    | cons s pre ih =>
      intro k l0 done h
      have ih := fun k l0 done => ih k l0 done (fun t ht => h t (List.mem_cons_of_mem _ ht))
      have hs := h s List.mem_cons_self
      simp only [List.cons_append, scan]
      by_cases hd : s.disconnected = true
      · rw [if_pos hd, ih]
      · rw [if_neg hd]
        cases hk : s.kind <;> simp [hk, isPseudo, hd] at hs <;> simp only <;> rw [ih]
  unfold drive
  rw [if_neg (by rw [hs]; simp)]
  rw [hs, key pre 0 none [] hpre]

theorem resolved_half {fn : List Nat → Option Nat} {w wm : Nat} {vs : List (List Nat)} {o om : Out}
    (g : List Nat → List Nat) (lo : Nat)
    (hget : ∀ v : List Nat, v.length = w → ∀ j < wm, (g v).getD j 0 = v.getD (lo + j) 0)
    (hlen : ∀ v : List Nat, v.length = w → (g v).length = wm)
    (hlow : lo + wm ≤ w)
    (hw : ∀ v ∈ vs, v.length = w)
    (h1 : Resolved fn w vs o) (h2 : Resolved fn wm (vs.map g) om) {v : List Nat}
    (hv : o = .value v) : om = .value (g v) := by
  subst hv
  have hall : ∀ j < w, ∃ x, fn (col vs j) = some x := by
    intro j hj
    cases hf : fn (col vs j) with
    | some x => exact ⟨x, rfl⟩
    | none => have := h1.2 ⟨j, hj, hf⟩; simp at this
  have hv := h1.1 (fun j => (fn (col vs j)).getD 0) (fun j hj => by
    obtain ⟨x, hx⟩ := hall j hj
    rw [hx]; rfl)
  have hv : v = (List.range w).map (fun j => (fn (col vs j)).getD 0) := by simpa using hv
  have hvl : v.length = w := by rw [hv]; simp
  rw [h2.1 (fun j => (g v).getD j 0)]
  · congr 1
    apply List.ext_getElem
    · simp [hlen v hvl]
    · intro j h1 h2
      simp [h2]
  · intro j hj
    have hcol : col (vs.map g) j = col vs (lo + j) := by
      unfold col
      rw [List.map_map]
      apply List.map_congr_left
      intro u hu
      exact hget u (hw u hu) j hj
    obtain ⟨x, hx⟩ := hall (lo + j) (by omega)
    rw [hcol, hx, hget v hvl j hj, hv]
    simp [show lo + j < w by omega, hx]

theorem inputs_map (n m : Net) (g : List Nat → List Nat)
    (h : m.sources = n.sources.map (fun s => { s with val := g s.val })) :
    inputs m = (inputs n).map g := by
  unfold inputs
  rw [h]
  generalize n.sources = l
  induction l with
  | nil => rfl
  | cons s l ih =>
    have : Active { s with val := g s.val } ↔ Active s := Iff.rfl
    by_cases ha : Active s
    · simp only [List.map_cons, List.filter_cons, this, ha, decide_true, if_true, ih]
    · simp only [List.map_cons, List.filter_cons, this, ha, decide_false, Bool.false_eq_true, if_false, ih]

theorem value_congr (g : List Nat → List Nat) {v w : List Nat} (h : Out.value v = .value w) :
    Out.value (g v) = .value (g w) := by
  cases h; rfl

/-- One half of a split, with the given part of every value -/
theorem half_drive {n m : Net} {fn : List Nat → Option Nat} {nlits : Nat} (g : List Nat → List Nat)
    (lo : Nat) (hg : Good n) (hgm : Good m)
    (hlit : Lits nlits (inputs n))
    (hres : n.res = none ∨ n.res = some (buildMemo fn nlits)) (hmres : m.res = n.res)
    (hreg : m.register = n.register)
    (hs : m.sources = n.sources.map (fun s => { s with val := g s.val }))
    (hini : m.initial = g n.initial) (heff : m.effective = g n.effective)
    (hget : ∀ v : List Nat, v.length = n.width → ∀ j < m.width, (g v).getD j 0 = v.getD (lo + j) 0)
    (hlen : ∀ v : List Nat, v.length = n.width → (g v).length = m.width)
    (hlow : lo + m.width ≤ n.width)
    (hmem : ∀ v : List Nat, ∀ x ∈ g v, x ∈ v)
    (hin : n.initial.length = n.width) (hen : n.effective.length = n.width)
    (v : List Nat) (hv : (drive n).1 = .value v) : (drive m).1 = .value (g v) := by
  have hinp := inputs_map n m g hs
  by_cases hnil : n.sources = []
  · have : m.sources = [] := by rw [hs, hnil]; rfl
    rw [drive_no_sources n hnil] at hv
    rw [drive_no_sources m this, hini]
    exact value_congr g hv
  · have hmnil : m.sources ≠ [] := by rw [hs]; simpa using hnil
    by_cases hp : Plain n
    · have hpm : Plain m := by
        intro s hsm hk
        rw [hs] at hsm
        obtain ⟨x, hx, rfl⟩ := List.mem_map.1 hsm
        exact hp x hx hk
      cases hi : inputs n with
      | nil =>
        have hmi : inputs m = [] := by rw [hinp, hi]; rfl
        by_cases hr : n.register = true
        · rw [drive_register n hp hr hi hnil] at hv
          rw [drive_register m hpm (by rw [hreg]; exact hr) hmi hmnil, heff]
          exact value_congr g hv
        · have hr : n.register = false := by simpa using hr
          have hmr : m.register = false := by rw [hreg]; exact hr
          have hdn : dropTo n.sources = none := by
            rcases dropTo_spec n.sources with ⟨h1, _⟩ | ⟨_, _, _, _, _, _, h4⟩
            · exact h1
            · simp [inputs, h4] at hi
          have hdm : dropTo m.sources = none := by
            rcases dropTo_spec m.sources with ⟨h1, _⟩ | ⟨_, _, _, _, _, _, h4⟩
            · exact h1
            · simp [inputs, h4] at hmi
          have hhead : m.sources.head?.map (fun s => isPseudo s.kind) =
              n.sources.head?.map (fun s => isPseudo s.kind) := by
            rw [hs]; cases n.sources <;> rfl
          by_cases hps : n.res = none ∨ n.sources.head?.map (fun s => isPseudo s.kind) = some true
          · rw [drive_plain hp hnil, hdn] at hv
            rw [drive_plain hpm hmnil, hdm]
            rcases hps with h | h
            · simp only [finish, hr, h, hmr, hmres, Bool.false_eq_true, if_false] at hv ⊢
              rw [hini]; exact value_congr g hv
            · cases hrn : n.res with
              | none =>
                simp only [finish, hr, hrn, hmr, hmres, Bool.false_eq_true, if_false] at hv ⊢
                rw [hini]; exact value_congr g hv
              | some r =>
                simp only [finish, hr, hrn, hmr, hmres, Bool.false_eq_true, if_false, hhead, h, if_true]
                  at hv ⊢
                rw [hini]; exact value_congr g hv
          · obtain ⟨hrn, hps⟩ := not_or.1 hps
            have hrn := hres.resolve_left hrn
            cases hsn : n.sources with
            | nil => exact absurd hsn hnil
            | cons s rest =>
              have hsp : isPseudo s.kind = false := by
                rw [hsn] at hps
                simpa using hps
              have h1 := drive_resolved_none n fn nlits hp hrn hi hr s rest hsn hsp
              have h2 := drive_resolved_none m fn nlits hpm (by rw [hmres]; exact hrn) hmi hmr
                { s with val := g s.val } (rest.map (fun s => { s with val := g s.val }))
                (by rw [hs, hsn]; rfl) hsp
              exact resolved_half g lo hget hlen hlow (vs := []) (by simp) h1 h2 hv
      | cons w ws =>
        rcases hres with hr | hr
        · rw [drive_unresolved n hp hr w ws hi] at hv
          rw [drive_unresolved m hpm (by rw [hmres]; exact hr) (g w) (ws.map g) (by rw [hinp, hi]; rfl)]
          exact value_congr g hv
        · have h1 := drive_resolved n fn nlits hg hp hr hlit (by rw [hi]; simp)
          have hlm : Lits nlits (inputs m) := by
            rw [hinp]
            intro y hy x hx
            obtain ⟨z, hz, rfl⟩ := List.mem_map.1 hy
            exact hlit z hz x (hmem z x hx)
          have h2 := drive_resolved m fn nlits hgm hpm (by rw [hmres]; exact hr) hlm
            (by rw [hinp, hi]; simp)
          rw [hinp] at h2
          have hw : ∀ y ∈ inputs n, y.length = n.width := by
            intro y hy
            obtain ⟨x, hx, rfl⟩ := List.mem_map.1 hy
            exact hg.widths x (List.mem_filter.1 hx).1
          exact resolved_half g lo hget hlen hlow hw h1 h2 hv
    · -- some pseudo source is in effect; take the first
      obtain ⟨pre, p, rest, hsp, hk, hc, hpre⟩ : ∃ pre p rest, n.sources = pre ++ p :: rest ∧
          isPseudo p.kind = true ∧ p.disconnected = false ∧
          ∀ s ∈ pre, isPseudo s.kind = true → s.disconnected = true := by
        unfold Plain at hp
        generalize n.sources = l at hp
        induction l with
        | nil => simp at hp
        | cons s l ih =>
          by_cases hk : isPseudo s.kind = true ∧ s.disconnected = false
          · exact ⟨[], s, l, rfl, hk.1, hk.2, by simp⟩
          · have hs' : isPseudo s.kind = true → s.disconnected = true := by
              intro h
              cases hd : s.disconnected with
              | true => rfl
              | false => exact absurd ⟨h, hd⟩ hk
            obtain ⟨pre, p, rest, e, h1, h2, h3⟩ := ih (by
              intro h
              apply hp
              intro t ht
              rcases List.mem_cons.1 ht with rfl | ht
              · exact hs'
              · exact h t ht)
            refine ⟨s :: pre, p, rest, by rw [e]; rfl, h1, h2, ?_⟩
            intro t ht
            rcases List.mem_cons.1 ht with rfl | ht
            · exact hs'
            · exact h3 t ht
      have hms : m.sources = pre.map (fun s => { s with val := g s.val }) ++
          { p with val := g p.val } :: rest.map (fun s => { s with val := g s.val }) := by
        rw [hs, hsp]; simp
      have hmpre : ∀ s ∈ pre.map (fun s : Source => { s with val := g s.val }),
          isPseudo s.kind = true → s.disconnected = true := by
        intro s hs' hk'
        obtain ⟨x, hx, rfl⟩ := List.mem_map.1 hs'
        exact hpre x hx hk'
      cases hkind : p.kind with
      | driver => simp [hkind, isPseudo] at hk
      | port => simp [hkind, isPseudo] at hk
      | forcing =>
        rw [drive_forced_partial n pre rest p hsp hkind hc hpre] at hv
        rw [drive_forced_partial m _ _ { p with val := g p.val } hms hkind hc hmpre]
        exact value_congr g hv
      | deposit =>
        rw [drive_deposit n pre rest p hsp hkind hc hpre] at hv
        rw [drive_deposit m _ _ { p with val := g p.val } hms hkind hc hmpre]
        exact value_congr g hv
      | implicit =>
        rw [drive_implicit n pre rest p hsp hkind hc hpre] at hv
        simp at hv

/-- Splitting a nexus does not change any driving value: each part has its elements of the value of
the whole.  Partial: only if none of the sources is disconnected. -/
theorem split_drive_partial (n : Net) (fn : List Nat → Option Nat) (nlits k : Nat) (hg : Good n)
    (hres : n.res = none ∨ n.res = some (buildMemo fn nlits)) (hlit : Lits nlits (inputs n))
    (hin : n.initial.length = n.width) (hen : n.effective.length = n.width) (hk : k ≤ n.width)
    (hconn : ∀ s ∈ n.sources, s.disconnected = false) (v : List Nat) (hv : (drive n).1 = .value v) :
    (drive (lower k n)).1 = .value (v.take k) ∧ (drive (upper k n)).1 = .value (v.drop k) := by
  have hup : (upper k n).sources = n.sources.map (fun s => { s with val := s.val.drop k }) := by
    unfold upper cloneSources
    simp only
    apply List.map_congr_left
    intro s hs
    rw [hconn s hs]
  constructor
  · refine half_drive (m := lower k n) (List.take k) 0 hg ?_ hlit hres rfl rfl rfl rfl rfl ?_ ?_ ?_ ?_
      hin hen v hv
    · constructor
      · intro s hs
        obtain ⟨x, hx, rfl⟩ := List.mem_map.1 hs
        exact hg.ports x hx
      · intro s hs
        obtain ⟨x, hx, rfl⟩ := List.mem_map.1 hs
        have := hg.widths x hx
        simp [lower]; omega
    · intro v _ j hj
      have hj : j < k := hj
      simp [List.getElem?_take, hj]
    · intro v hv
      simp [lower]; omega
    · simp [lower]; omega
    · intro v x hx
      exact List.mem_of_mem_take hx
  · refine half_drive (m := upper k n) (List.drop k) k hg ?_ hlit hres rfl rfl hup rfl rfl ?_ ?_ ?_ ?_
      hin hen v hv
    · constructor
      · intro s hs
        rw [hup] at hs
        obtain ⟨x, hx, rfl⟩ := List.mem_map.1 hs
        exact hg.ports x hx
      · intro s hs
        rw [hup] at hs
        obtain ⟨x, hx, rfl⟩ := List.mem_map.1 hs
        have := hg.widths x hx
        simp [upper]; omega
    · intro v _ j _
      simp [List.getElem?_drop]
    · intro v hv
      simp [upper]; omega
    · simp [upper]; omega
    · intro v x hx
      exact List.mem_of_mem_drop hx

/-- When a source is disconnected, splitting changes the driving value: the new nexus has all sources
connected.  Here a force that was released comes back in the upper part of the signal. -/
theorem split_reconnects_counterexample :
    ∃ n : Net, Good n ∧ Plain n ∧ (drive n).1 = .value [0, 0] ∧
      (drive (lower 1 n)).1 = .value [0] ∧ (drive (upper 1 n)).1 = .value [1] :=
  ⟨{ width := 2, register := false, res := none, initial := [0, 0], effective := [0, 0],
     sources := [{ kind := .driver, disconnected := false, val := [0, 0] },
                 { kind := .forcing, disconnected := true, val := [1, 1] }] },
   ⟨by simp, by simp⟩, by simp [Plain, isPseudo], by decide +kernel, by decide +kernel,
   by decide +kernel⟩

/-! ## Examples -/

/-- A signal of two elements with two drivers and the resolution "the larger value". -/
def demo : Net :=
  { width := 2, register := false
    res := some (buildMemo (fun l => some (l.foldl max 0)) 3)
    initial := [0, 0], effective := [0, 0]
    sources := [{ kind := .driver, disconnected := false, val := [1, 2] },
                { kind := .driver, disconnected := true, val := [2, 2] },
                { kind := .driver, disconnected := false, val := [2, 0] },
                { kind := .forcing, disconnected := true, val := [0, 0] }] }

example : (drive demo).1 = .value [2, 2] ∧ (drive (force [1, 1] demo)).1 = .value [1, 1] := by
  decide +kernel

example : Good demo ∧ Plain demo ∧ Lits 3 (inputs demo) ∧ inputs demo ≠ [] := by
  refine ⟨⟨?_, ?_⟩, ?_, ?_, ?_⟩
  · simp [demo]
  · simp [demo]
  · simp [Plain, demo, isPseudo]
  · have : inputs demo = [[1, 2], [2, 0]] := by decide +kernel
    rw [this]; simp [Lits]
  · have : inputs demo = [[1, 2], [2, 0]] := by decide +kernel
    rw [this]; simp

end Verif.Sim.Driving
