import Verif.Obj.MarkModel

/-
The mark bits tell whether an object has been visited.
-/

namespace Verif.Obj

/-! ### Specification -/

/-- The calls that count: the last ones, as far as they are of the same
    generation. -/
def current (g : Nat) (past : List (Nat × Nat)) : List (Nat × Nat) :=
  past.takeWhile fun c => c.2 == g

/-- What a call must answer after those of `past`, the latest first. -/
def answer (past : List (Nat × Nat)) (bit g : Nat) : Prop := (bit, g) ∈ current g past

/-! ### The invariant -/

structure Inv (a : Arena) (past : List (Nat × Nat)) : Prop where
  some_past : a.allocated = true ↔ past ≠ []
  gen : ∀ c rest, past = c :: rest → c.2 = a.generation
  order : past ≠ [] → a.low ≤ a.high
  span : ∀ bit, (bit, a.generation) ∈ current a.generation past → a.low ≤ bit / 64 ∧ bit / 64 ≤ a.high
  bits : past ≠ [] → ∀ bit, a.low ≤ bit / 64 → bit / 64 ≤ a.high →
    (a.words (bit / 64) (bit % 64) = true ↔ (bit, a.generation) ∈ current a.generation past)

theorem current_cons_same (g bit : Nat) (past : List (Nat × Nat)) :
    current g ((bit, g) :: past) = (bit, g) :: current g past := by
  unfold current; rw [List.takeWhile_cons_of_pos (by simp)]

theorem current_other {g : Nat} {past : List (Nat × Nat)} (h : ∀ c rest, past = c :: rest → c.2 ≠ g) :
    current g past = [] := by
  unfold current
  cases past with
  | nil => rfl
  | cons c rest => rw [List.takeWhile_cons_of_neg (by simpa using h c rest rfl)]

theorem split_bit {a b : Nat} : (a / 64 = b / 64 ∧ a % 64 = b % 64) ↔ a = b := by omega

/-- What the state must look like before the bit is read. -/
theorem mark_ready (garbage : Nat → Nat → Bool) (a : Arena) (past : List (Nat × Nat)) (h : Inv a past)
    (bit g : Nat) : ∃ b : Arena, b.allocated = true ∧ b.generation = g ∧ b.low ≤ bit / 64 ∧ bit / 64 ≤ b.high ∧
      (∀ x, (x, g) ∈ current g past → b.low ≤ x / 64 ∧ x / 64 ≤ b.high) ∧
      (∀ x, b.low ≤ x / 64 → x / 64 ≤ b.high → (b.words (x / 64) (x % 64) = true ↔ (x, g) ∈ current g past)) ∧
      markedP garbage a bit g = (b.words (bit / 64) (bit % 64),
        { b with words := fun w i => if w = bit / 64 ∧ i = bit % 64 then true else b.words w i }) := by
  -- a fresh word
  have fresh : ∀ ws : Nat → Nat → Bool, current g past = [] →
      ∀ x, bit / 64 ≤ x / 64 → x / 64 ≤ bit / 64 →
        (zeroBits ws (bit / 64) 1 (x / 64) (x % 64) = true ↔ (x, g) ∈ current g past) := by
    intro ws hc x h1 h2
    rw [hc]
    unfold zeroBits
    rw [if_pos (by omega)]
    simp
  unfold markedP
  by_cases ha : a.allocated = false
  · have hp : past = [] := Classical.byContradiction fun hne => by
      rw [h.some_past.mpr hne] at ha; cases ha
    have hc : current g past = [] := by rw [hp]; rfl
    refine ⟨⟨true, zeroBits garbage (bit / 64) 1, bit / 64, bit / 64, g⟩, rfl, rfl, Nat.le_refl _, Nat.le_refl _,
      fun x hx => by rw [hc] at hx; simp at hx, fresh _ hc, ?_⟩
    simp only [ha, if_true, Nat.lt_irrefl, if_false]
  · have ha' : a.allocated = true := by simpa using ha
    have hp : past ≠ [] := h.some_past.mp ha'
    by_cases hg : a.generation = g
    · subst hg
      have hspan := h.span
      have hbits := h.bits hp
      have hord := h.order hp
      by_cases h1 : bit / 64 < a.low
      · refine ⟨{ a with words := zeroBits a.words (bit / 64) (a.low - bit / 64), low := bit / 64 }, ha', rfl,
          Nat.le_refl _, by simp only; omega, fun x hx => ?_, fun x hx1 hx2 => ?_, ?_⟩
        · have := hspan x hx; simp only; omega
        · simp only at hx1 hx2 ⊢
          unfold zeroBits
          split
          · next hz =>
            constructor
            · intro h; cases h
            · intro hx
              have := hspan x hx; omega
          · exact hbits x (by omega) hx2
        · simp [ha', h1]
      · by_cases h2 : bit / 64 > a.high
        · refine ⟨{ a with words := zeroBits a.words (a.high + 1) (bit / 64 - a.high), high := bit / 64 }, ha', rfl,
            by simp only; omega, Nat.le_refl _, fun x hx => ?_, fun x hx1 hx2 => ?_, ?_⟩
          · have := hspan x hx; simp only; omega
          · simp only at hx1 hx2 ⊢
            unfold zeroBits
            split
            · next hz =>
              constructor
              · intro h; cases h
              · intro hx
                have := hspan x hx; omega
            · exact hbits x hx1 (by omega)
          · simp [ha', h1, h2]
        · refine ⟨a, ha', rfl, by omega, by omega, hspan, hbits, ?_⟩
          simp [ha', h1, h2]
    · have hc : current g past = [] := current_other fun c rest e hcg => hg (by rw [← h.gen c rest e, hcg])
      refine ⟨{ a with words := zeroBits a.words (bit / 64) 1, low := bit / 64, high := bit / 64, generation := g },
        ha', rfl, Nat.le_refl _, Nat.le_refl _, fun x hx => by rw [hc] at hx; simp at hx, fresh _ hc, ?_⟩
      simp [ha', hg]

/-- One call: the answer is right and the invariant is kept. -/
theorem mark_step (garbage : Nat → Nat → Bool) (a : Arena) (past : List (Nat × Nat)) (h : Inv a past) (bit g : Nat) :
    ((markedP garbage a bit g).1 = true ↔ answer past bit g) ∧
      Inv (markedP garbage a bit g).2 ((bit, g) :: past) := by
  obtain ⟨b, h1, h2, h3, h4, h5, h6, h7⟩ := mark_ready garbage a past h bit g
  rw [h7]
  refine ⟨h6 bit h3 h4, ⟨⟨fun _ => by simp, fun _ => h1⟩, ?_, fun _ => by simp only; omega, ?_, ?_⟩⟩
  · intro c rest e
    simp only [List.cons.injEq] at e
    rw [← e.1]; exact h2.symm
  · intro x hx
    simp only at hx ⊢
    rw [h2, current_cons_same, List.mem_cons] at hx
    rcases hx with e | hx
    · simp only [Prod.mk.injEq] at e
      rw [e.1]; exact ⟨h3, h4⟩
    · exact h5 x hx
  · intro _ x hx1 hx2
    simp only at hx1 hx2 ⊢
    rw [h2, current_cons_same, List.mem_cons]
    by_cases e : x = bit
    · subst e; simp
    · have : ¬ (x / 64 = bit / 64 ∧ x % 64 = bit % 64) := fun hh => e (split_bit.mp hh)
      rw [if_neg this, h6 x hx1 hx2]
      simp [e]

theorem inv_new : Inv Arena.new [] :=
  ⟨by simp [Arena.new], by simp, by simp, by simp [current], by simp⟩

/-! ### The property -/

/-- What a list of calls must answer, after those of `past`. -/
inductive Answers : List (Nat × Nat) → List (Nat × Nat) → List Bool → Prop
  | nil {past} : Answers past [] []
  | cons {past bit g rest b bs} : (b = true ↔ answer past bit g) → Answers ((bit, g) :: past) rest bs →
      Answers past ((bit, g) :: rest) (b :: bs)

/-- Whatever memory contained, a call says that the object is marked if and only
    if there was a call for it with the same generation and none with another in
    between. -/
theorem marks (garbage : Nat → Nat → Bool) (cs : List (Nat × Nat)) :
    Answers [] cs (calls garbage Arena.new cs).1 := by
  have gen : ∀ (cs past : List (Nat × Nat)) (a : Arena), Inv a past → Answers past cs (calls garbage a cs).1 := by
    intro cs
    induction cs with
    | nil => intro past a _; exact .nil
    | cons c cs ih =>
      intro past a h
      obtain ⟨bit, g⟩ := c
      have := mark_step garbage a past h bit g
      exact .cons this.1 (ih _ _ this.2)
  exact gen cs [] _ inv_new

example : (calls (fun _ _ => true) Arena.new [(5, 1), (700, 1), (5, 1), (130, 1), (5, 2), (700, 2), (700, 2)]).1 =
    [false, false, true, false, false, false, true] := by decide

/-- The words that are used are within the memory that is allocated. -/
theorem word_in_bounds (nbits bit : Nat) (h : bit < nbits) : 8 * (bit / 64) + 8 ≤ markSize nbits := by
  unfold markSize; omega

example : markSize 65 = 16 := by decide

/-- One traversal after another, each given by its number and the objects it asks
    for, in the order of the numbers; some numbers may be left out. -/
def traversals (ts : List (Nat × List Nat)) : List (Nat × Nat) :=
  ts.flatMap fun t => t.2.map fun bit => (bit, generationOf t.1)

/-- The answers for one traversal: marked if it asked before. -/
inductive Visits : List Nat → List Nat → List Bool → Prop
  | nil {seen} : Visits seen [] []
  | cons {seen bit rest b bs} : (b = true ↔ bit ∈ seen) → Visits (bit :: seen) rest bs →
      Visits seen (bit :: rest) (b :: bs)

/-- Every traversal that asks for something in this arena is less than 65536
    traversals after the previous one that did. -/
def Close : List (Nat × List Nat) → Prop
  | [] => True
  | [_] => True
  | t :: u :: rest => t.1 < u.1 ∧ u.1 < t.1 + 65536 ∧ Close (u :: rest)

theorem generation_differs {m n : Nat} (h1 : m < n) (h2 : n < m + 65536) : generationOf m ≠ generationOf n := by
  unfold generationOf; omega

/-- What is asked in one traversal. -/
theorem visits_one (g : Nat) (bits : List Nat) : ∀ (past : List (Nat × Nat)) (seen : List Nat) (bs : List Bool),
    (∀ bit, (bit, g) ∈ current g past ↔ bit ∈ seen) →
    Answers past (bits.map fun bit => (bit, g)) bs → Visits seen bits bs := by
  induction bits with
  | nil => intro past seen bs _ h; cases h; exact .nil
  | cons bit bits ih =>
    intro past seen bs hs h
    cases h with
    | cons hb hrest =>
      refine .cons (hb.trans (hs bit)) (ih _ _ _ (fun x => ?_) hrest)
      rw [current_cons_same]
      simp [hs x]

theorem answers_append {past cs ds : List (Nat × Nat)} {bs : List Bool} (h : Answers past (cs ++ ds) bs) :
    ∃ b1 b2, bs = b1 ++ b2 ∧ b1.length = cs.length ∧ Answers past cs b1 ∧ Answers (cs.reverse ++ past) ds b2 := by
  induction cs generalizing past bs with
  | nil => exact ⟨[], bs, rfl, rfl, .nil, h⟩
  | cons c cs ih =>
    obtain ⟨bit, g⟩ := c
    cases h with
    | cons hb hrest =>
      obtain ⟨b1, b2, rfl, hl, h1, h2⟩ := ih hrest
      exact ⟨_ :: b1, b2, rfl, by simp [hl], .cons hb h1, by simpa using h2⟩

/-- The answers for all traversals, one after the other. -/
inductive AllVisits : List (Nat × List Nat) → List Bool → Prop
  | nil : AllVisits [] []
  | cons {t ts b1 b2} : Visits [] t.2 b1 → AllVisits ts b2 → AllVisits (t :: ts) (b1 ++ b2)

/-- In every traversal an object is marked if and only if this traversal has
    asked for it before, if none is 65536 or more after the previous one
    in this arena. -/
theorem traversals_partial (garbage : Nat → Nat → Bool) (ts : List (Nat × List Nat)) (hne : ∀ t ∈ ts, t.2 ≠ [])
    (hc : Close ts) : AllVisits ts (calls garbage Arena.new (traversals ts)).1 := by
  have gen : ∀ (ts : List (Nat × List Nat)) (past : List (Nat × Nat)) (bs : List Bool), (∀ t ∈ ts, t.2 ≠ []) →
      Close ts → (∀ t rest c p, ts = t :: rest → past = c :: p → c.2 ≠ generationOf t.1) →
      Answers past (traversals ts) bs → AllVisits ts bs := by
    intro ts
    induction ts with
    | nil => intro past bs _ _ _ h; cases h; exact .nil
    | cons t ts ih =>
      intro past bs hne hc hp h
      have e : traversals (t :: ts) = (t.2.map fun bit => (bit, generationOf t.1)) ++ traversals ts := by
        simp [traversals]
      rw [e] at h
      obtain ⟨b1, b2, rfl, hl, h1, h2⟩ := answers_append h
      refine .cons (visits_one _ _ past [] b1 (fun bit => ?_) h1) (ih _ _ (fun u hu => hne u (by simp [hu])) ?_ ?_ h2)
      · rw [current_other fun c rest e => hp t ts c rest rfl e]; simp
      · cases ts with
        | nil => trivial
        | cons u ts => exact hc.2.2
      · intro u rest c p hu hc'
        have hcu := hc
        rw [hu] at hcu
        have hne' := hne t (by simp)
        have hlast : c.2 = generationOf t.1 := by
          obtain ⟨l, x, hx⟩ : ∃ l x, t.2 = l ++ [x] := ⟨_, _, (List.dropLast_concat_getLast hne').symm⟩
          rw [hx] at hc'
          simp only [List.map_append, List.map_cons, List.map_nil, List.reverse_append, List.reverse_cons,
            List.reverse_nil, List.nil_append, List.cons_append, List.cons.injEq] at hc'
          rw [← hc'.1]
        rw [hlast]
        exact generation_differs hcu.1 hcu.2.1
  exact gen ts [] _ hne hc (by intro _ _ c p _ h; cases h) (marks garbage _)

example : Close [(0, [5, 700, 5]), (1, [700]), (65000, [5, 5])] := by
  refine ⟨by decide, by decide, by decide, by decide, trivial⟩

/-- The generation has 16 bits: a traversal that is 65536 after the last one in
    an arena takes the objects of that for its own. -/
theorem generation_counterexample (garbage : Nat → Nat → Bool) (n bit : Nat) :
    (calls garbage Arena.new (traversals [(n, [bit]), (n + 65536, [bit])])).1 = [false, true] := by
  have h := marks garbage (traversals [(n, [bit]), (n + 65536, [bit])])
  have e : traversals [(n, [bit]), (n + 65536, [bit])] = [(bit, generationOf n), (bit, generationOf n)] := by
    have : generationOf (n + 65536) = generationOf n := by unfold generationOf; omega
    simp [traversals, this]
  rw [e] at h ⊢
  generalize (calls garbage Arena.new [(bit, generationOf n), (bit, generationOf n)]).1 = bs at *
  cases h with
  | @cons _ _ _ _ b1 bs hb1 h =>
    cases h with
    | @cons _ _ _ _ b2 bs hb2 h =>
      cases h
      have n1 : b1 = false := by
        cases b1
        · rfl
        · have := hb1.mp rfl; simp [answer, current] at this
      have n2 : b2 = true := hb2.mpr (by simp [answer, current])
      rw [n1, n2]

/-- A traversal that runs within another one makes it forget what it has
    visited. -/
theorem nested_counterexample (garbage : Nat → Nat → Bool) :
    (calls garbage Arena.new [(5, 1), (5, 2), (5, 1)]).1 = [false, false, false] := by
  have h := marks garbage [(5, 1), (5, 2), (5, 1)]
  generalize (calls garbage Arena.new [(5, 1), (5, 2), (5, 1)]).1 = bs at *
  cases h with
  | @cons _ _ _ _ b1 bs hb1 h =>
    cases h with
    | @cons _ _ _ _ b2 bs hb2 h =>
      cases h with
      | @cons _ _ _ _ b3 bs hb3 h =>
        cases h
        have n1 : b1 = false := by
          cases b1
          · rfl
          · have := hb1.mp rfl; simp [answer, current] at this
        have n2 : b2 = false := by
          cases b2
          · rfl
          · have := hb2.mp rfl; simp [answer, current] at this
        have n3 : b3 = false := by
          cases b3
          · rfl
          · have := hb3.mp rfl; simp [answer, current] at this
        rw [n1, n2, n3]

end Verif.Obj
