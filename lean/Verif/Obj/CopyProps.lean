import Verif.Obj.CopyModel

/-
C77: which objects `object_copy` copies.
-/

namespace Verif.Obj.Copy

/-! ### Specification -/

section spec
variable {α : Type} (g : Graph α)

/-- A reference from an object that takes part to one that does. -/
def Edge (x y : α) : Prop := g.incl x = true ∧ g.incl y = true ∧ y ∈ g.refs x

/-- One or more references in a row. -/
inductive Path : α → α → Prop
  | one {x y : α} : Edge g x y → Path x y
  | more {x y z : α} : Edge g x y → Path y z → Path x z

/-- The object takes part, and it is wanted or leads to one that is. -/
inductive Needs : α → Prop
  | self {x : α} : g.incl x = true → g.want x = true → Needs x
  | ref {x y : α} : Edge g x y → Needs y → Needs x

/-- The objects that take part and to which the roots lead. -/
inductive Reached (roots : List α) : α → Prop
  | root {x : α} : x ∈ roots → g.incl x = true → Reached roots x
  | ref {x y : α} : Reached roots x → Edge g x y → Reached roots y

end spec

/-- Arenas to which another one leads by dependencies. -/
inductive Depends (deps : Nat → List Nat) : Nat → Nat → Prop
  | refl (a : Nat) : Depends deps a a
  | step {a b c : Nat} : b ∈ deps a → Depends deps b c → Depends deps a c

/-! ### Arenas -/

theorem Depends.trans {deps : Nat → List Nat} {a b c : Nat} (h : Depends deps a b) (k : Depends deps b c) :
    Depends deps a c := by
  induction h with
  | refl => exact k
  | step m _ ih => exact .step m (ih k)

/-- What is stored is right. -/
structure FlagsOk (deps : Nat → List Nat) (roots : List Nat) (fl : Flags) : Prop where
  value : ∀ a b, Flags.get fl a = some b → (b = true ↔ ∃ r ∈ roots, Depends deps a r)
  closed : ∀ a b, Flags.get fl a = some b → ∀ d ∈ deps a, ∃ c, Flags.get fl d = some c

def Grows (fl fl' : Flags) : Prop := ∀ a b, Flags.get fl a = some b → Flags.get fl' a = some b

theorem Grows.refl (fl : Flags) : Grows fl fl := fun _ _ h => h
theorem Grows.trans {a b c : Flags} (h : Grows a b) (k : Grows b c) : Grows a c :=
  fun x y e => k x y (h x y e)

/-- Everything new is below the given arenas. -/
def NewBelow (deps : Nat → List Nat) (from_ : List Nat) (fl fl' : Flags) : Prop :=
  ∀ a b, Flags.get fl' a = some b → Flags.get fl a = none → ∃ s ∈ from_, Depends deps s a

theorem Flags.get_cons (a : Nat) (b : Bool) (fl : Flags) (x : Nat) :
    Flags.get ((a, b) :: fl) x = if a = x then some b else Flags.get fl x := by
  unfold Flags.get
  by_cases h : a = x
  · simp [h]
  · simp [h]

theorem closure_post (deps : Nat → List Nat) (roots : List Nat) (rank : Nat → Nat)
    (hr : ∀ a, ∀ d ∈ deps a, rank d < rank a) (n : Nat) :
    (∀ fl a, FlagsOk deps roots fl → rank a < n →
      ∃ fl' b, closure deps roots n fl a = some (fl', b) ∧ FlagsOk deps roots fl' ∧ Grows fl fl' ∧
        Flags.get fl' a = some b ∧ NewBelow deps [a] fl fl' ∧
        (∀ c, rank a < rank c → Flags.get fl' c = Flags.get fl c)) := by
  induction n with
  | zero => intro fl a _ h; omega
  | succ n ih =>
    intro fl a hok hlt
    rw [closure]
    cases hg : Flags.get fl a with
    | some b =>
      exact ⟨fl, b, rfl, hok, .refl _, hg, fun x y h1 h2 => by rw [h1] at h2; simp at h2, fun _ _ => rfl⟩
    | none =>
      dsimp only
      have list : ∀ (ds : List Nat) (acc : Flags × Bool), (∀ d ∈ ds, d ∈ deps a) → FlagsOk deps roots acc.1 →
          ∃ r, closureList (closure deps roots n) acc ds = some r ∧ FlagsOk deps roots r.1 ∧ Grows acc.1 r.1 ∧
            (r.2 = true ↔ acc.2 = true ∨ ∃ d ∈ ds, ∃ q ∈ roots, Depends deps d q) ∧
            (∀ d ∈ ds, ∃ c, Flags.get r.1 d = some c) ∧ NewBelow deps ds acc.1 r.1 ∧
            (∀ c, rank a ≤ rank c → Flags.get r.1 c = Flags.get acc.1 c) := by
        intro ds
        induction ds with
        | nil =>
          intro acc _ h
          exact ⟨acc, rfl, h, .refl _, by simp, by simp, fun x y h1 h2 => by rw [h1] at h2; simp at h2,
            fun _ _ => rfl⟩
        | cons d ds ihl =>
          intro acc hd h
          have hda := hd d List.mem_cons_self
          have hrd := hr a d hda
          obtain ⟨fl1, b1, e1, ok1, gr1, v1, nb1, same1⟩ := ih acc.1 d h (by omega)
          obtain ⟨r, e2, ok2, gr2, v2, all2, nb2, same2⟩ :=
            ihl (fl1, acc.2 || b1) (fun x hx => hd x (List.mem_cons_of_mem _ hx)) ok1
          refine ⟨r, by rw [closureList, e1]; exact e2, ok2, gr1.trans gr2, ?_, ?_, ?_, ?_⟩
          · rw [v2]
            simp only [Bool.or_eq_true, ok1.value d b1 v1]
            constructor
            · rintro ((h | h) | ⟨x, hx, h⟩)
              · exact .inl h
              · exact .inr ⟨d, List.mem_cons_self, h⟩
              · exact .inr ⟨x, List.mem_cons_of_mem _ hx, h⟩
            · rintro (h | ⟨x, hx, h⟩)
              · exact .inl (.inl h)
              · rcases List.mem_cons.mp hx with rfl | hx
                · exact .inl (.inr h)
                · exact .inr ⟨x, hx, h⟩
          · intro x hx
            rcases List.mem_cons.mp hx with rfl | hx
            · exact ⟨b1, gr2 _ _ v1⟩
            · exact all2 x hx
          · intro x y h1 h2
            cases h3 : Flags.get fl1 x with
            | none =>
              obtain ⟨s, hs, hd⟩ := nb2 x y h1 h3
              exact ⟨s, List.mem_cons_of_mem _ hs, hd⟩
            | some z =>
              obtain ⟨s, hs, hd⟩ := nb1 x z h3 h2
              rw [List.mem_singleton.mp hs] at hd
              exact ⟨d, List.mem_cons_self, hd⟩
          · intro c hc
            rw [same2 c hc, same1 c (by omega)]
      obtain ⟨r, e, ok, gr, v, all, nb, same⟩ := list (deps a) (fl, roots.contains a) (fun _ h => h) hok
      rw [e]
      have hra : Flags.get r.1 a = none := by rw [same a (Nat.le_refl _)]; exact hg
      have main : r.2 = true ↔ ∃ q ∈ roots, Depends deps a q := by
        rw [v]
        simp only [List.contains_iff_mem]
        constructor
        · rintro (h | ⟨d, hd, q, hq, h⟩)
          · exact ⟨a, h, .refl a⟩
          · exact ⟨q, hq, .step hd h⟩
        · rintro ⟨q, hq, h⟩
          cases h with
          | refl => exact .inl hq
          | step m h => exact .inr ⟨_, m, q, hq, h⟩
      refine ⟨_, _, rfl, ⟨?_, ?_⟩, ?_, ?_, ?_, ?_⟩
      · intro x y h
        rw [Flags.get_cons] at h
        split at h
        · rename_i e; subst e; cases h; exact main
        · exact ok.value x y h
      · intro x y h d hd
        rw [Flags.get_cons] at h
        have sub : ∀ z c, Flags.get r.1 z = some c → ∃ c, Flags.get ((a, r.2) :: r.1) z = some c := by
          intro z c h
          rw [Flags.get_cons]
          split
          · exact ⟨_, rfl⟩
          · exact ⟨_, h⟩
        split at h
        · rename_i e; subst e
          obtain ⟨c, hc⟩ := all d hd
          exact sub d c hc
        · obtain ⟨c, hc⟩ := ok.closed x y h d hd
          exact sub d c hc
      · intro x y h
        rw [Flags.get_cons]
        split
        · rename_i e; subst e; rw [hg] at h; simp at h
        · exact gr x y h
      · rw [Flags.get_cons, if_pos rfl]
      · intro x y h1 h2
        rw [Flags.get_cons] at h1
        split at h1
        · rename_i e; subst e; exact ⟨a, by simp, .refl _⟩
        · obtain ⟨s, hs, hd⟩ := nb x y h1 h2
          exact ⟨a, by simp, .step hs hd⟩
      · intro c hc
        rw [Flags.get_cons, if_neg (by intro e; subst e; omega)]
        exact same c (by omega)

theorem closures_post (deps : Nat → List Nat) (roots : List Nat) (rank : Nat → Nat)
    (hr : ∀ a, ∀ d ∈ deps a, rank d < rank a) (n : Nat) (as : List Nat) :
    ∀ fl, FlagsOk deps roots fl → (∀ a ∈ as, rank a < n) →
      ∃ fl', closures deps roots n fl as = some fl' ∧ FlagsOk deps roots fl' ∧ Grows fl fl' ∧
        (∀ a ∈ as, ∃ b, Flags.get fl' a = some b) ∧ NewBelow deps as fl fl' := by
  induction as with
  | nil =>
    intro fl h _
    exact ⟨fl, rfl, h, .refl _, by simp, fun x y h1 h2 => by rw [h1] at h2; simp at h2⟩
  | cons a as ih =>
    intro fl h hn
    obtain ⟨fl1, b1, e1, ok1, gr1, v1, nb1, _⟩ := closure_post deps roots rank hr n fl a h (hn a List.mem_cons_self)
    obtain ⟨fl2, e2, ok2, gr2, all2, nb2⟩ := ih fl1 ok1 fun x hx => hn x (List.mem_cons_of_mem _ hx)
    refine ⟨fl2, by rw [closures, e1]; exact e2, ok2, gr1.trans gr2, ?_, ?_⟩
    · intro x hx
      rcases List.mem_cons.mp hx with rfl | hx
      · exact ⟨b1, gr2 _ _ v1⟩
      · exact all2 x hx
    · intro x y h1 h2
      cases h3 : Flags.get fl1 x with
      | none =>
        obtain ⟨s, hs, hd⟩ := nb2 x y h1 h3
        exact ⟨s, List.mem_cons_of_mem _ hs, hd⟩
      | some z =>
        obtain ⟨s, hs, hd⟩ := nb1 x z h3 h2
        rw [List.mem_singleton.mp hs] at hd
        exact ⟨a, List.mem_cons_self, hd⟩

/-- **C77.**  If no arena depends on itself, an arena takes part in the copy if and only if the
    arena of a root depends on it and it depends on the arena of a root. -/
theorem arenas (deps : Nat → List Nat) (roots : List Nat) (rank : Nat → Nat)
    (hr : ∀ a, ∀ d ∈ deps a, rank d < rank a) (n : Nat) (hn : ∀ a ∈ roots, rank a < n) :
    ∃ fl, closures deps roots n [] roots = some fl ∧
      ∀ a, (Flags.get fl a).getD false = true ↔
        (∃ r ∈ roots, Depends deps r a) ∧ (∃ r ∈ roots, Depends deps a r) := by
  obtain ⟨fl, e, ok, _, all, nb⟩ := closures_post deps roots rank hr n roots [] 
    ⟨fun a b h => by simp [Flags.get] at h, fun a b h => by simp [Flags.get] at h⟩ hn
  refine ⟨fl, e, fun a => ?_⟩
  constructor
  · intro h
    cases hg : Flags.get fl a with
    | none => rw [hg] at h; simp at h
    | some b =>
      rw [hg] at h
      simp at h
      subst h
      exact ⟨nb a true hg rfl, (ok.value a true hg).mp rfl⟩
  · rintro ⟨⟨r, hr1, hd⟩, h2⟩
    have : ∃ b, Flags.get fl a = some b := by
      obtain ⟨b, hb⟩ := all r hr1
      clear h2 hr1
      induction hd generalizing b with
      | refl => exact ⟨b, hb⟩
      | step m _ ih =>
        obtain ⟨c, hc⟩ := ok.closed _ _ hb _ m
        exact ih c hc
    obtain ⟨b, hb⟩ := this
    rw [hb, (ok.value a b hb).mpr h2]
    rfl

/-! ### Objects -/

variable {α : Type} [DecidableEq α]

theorem Path.snoc {g : Graph α} {x y z : α} (h : Path g x y) (e : Edge g y z) : Path g x z := by
  induction h with
  | one e1 => exact .more e1 (.one e)
  | more e1 _ ih => exact .more e1 (ih e)

/-- Every object that leads to itself is wanted. -/
def CyclesWanted (g : Graph α) : Prop := ∀ x, Path g x x → g.want x = true

/-- What is true while the objects of `P` are being visited. -/
structure Inv (g : Graph α) (roots : List α) (P : List α) (st : St α) : Prop where
  sub : ∀ x ∈ st.map, x ∈ st.seen
  nodup : st.map.Nodup
  stack : ∀ x ∈ P, x ∈ st.seen
  reached : ∀ x ∈ st.seen, Reached g roots x
  wanted : ∀ x ∈ st.seen, g.want x = true → x ∈ st.map
  sound : ∀ x ∈ st.map, Needs g x
  onStack : ∀ x ∈ P, g.want x = false → x ∉ st.map
  closed : ∀ x ∈ st.seen, x ∉ P → ∀ y, Edge g x y → y ∈ st.seen
  exact_ : CyclesWanted g → ∀ x ∈ st.seen, x ∉ P → Needs g x → x ∈ st.map

theorem Reached.incl {g : Graph α} {roots : List α} {x : α} (h : Reached g roots x) : g.incl x = true := by
  cases h with
  | root _ h => exact h
  | ref _ e => exact e.2.1

theorem Needs.incl {g : Graph α} {x : α} (h : Needs g x) : g.incl x = true := by
  cases h with
  | self h _ => exact h
  | ref e _ => exact e.1

/-- What one visit does. -/
structure Post (g : Graph α) (roots P : List α) (st st' : St α) (x : α) (b : Bool) : Prop where
  inv : Inv g roots P st'
  seen : ∀ y ∈ st.seen, y ∈ st'.seen
  map : ∀ y ∈ st.map, y ∈ st'.map
  self : g.incl x = true → x ∈ st'.seen
  result : b = true ↔ g.incl x = true ∧ x ∈ st'.map

theorem visitAll_post (g : Graph α) (roots P : List α) (x : α) (hx : Reached g roots x)
    (visit : St α → α → Option (St α × Bool)) (ok : St α → Prop)
    (okStep : ∀ st st' : St α, ok st → (∀ y ∈ st.seen, y ∈ st'.seen) → ok st')
    (hv : ∀ st y, ok st → y ∈ g.refs x → Inv g roots (x :: P) st →
      ∃ st' b, visit st y = some (st', b) ∧ Post g roots (x :: P) st st' y b)
    (ys : List α) : ∀ (acc : St α × Bool), ok acc.1 → (∀ y ∈ ys, y ∈ g.refs x) → Inv g roots (x :: P) acc.1 →
      ∃ r, visitAll visit acc ys = some r ∧ Inv g roots (x :: P) r.1 ∧
        (∀ y ∈ acc.1.seen, y ∈ r.1.seen) ∧ (∀ y ∈ acc.1.map, y ∈ r.1.map) ∧
        (∀ y ∈ ys, g.incl y = true → y ∈ r.1.seen) ∧
        (r.2 = true → acc.2 = true ∨ ∃ y ∈ ys, g.incl y = true ∧ y ∈ r.1.map) ∧
        (acc.2 = true → r.2 = true) ∧
        (CyclesWanted g → ∀ y ∈ ys, g.incl y = true → (∀ p ∈ x :: P, y = p → g.want p = true) → Needs g y →
          r.2 = true) := by
  induction ys with
  | nil =>
    intro acc _ _ hi
    exact ⟨acc, rfl, hi, fun _ h => h, fun _ h => h, by simp, fun h => .inl h, fun h => h, by simp⟩
  | cons y ys ih =>
    intro acc hok hys hi
    obtain ⟨st1, b1, e1, p1⟩ := hv acc.1 y hok (hys y List.mem_cons_self) hi
    obtain ⟨r, e2, i2, s2, m2, a2, r2, t2, c2⟩ := ih (st1, acc.2 || b1) (okStep _ _ hok p1.seen)
      (fun z hz => hys z (List.mem_cons_of_mem _ hz)) p1.inv
    refine ⟨r, by rw [visitAll, e1]; exact e2, i2, fun z hz => s2 z (p1.seen z hz),
      fun z hz => m2 z (p1.map z hz), ?_, ?_, ?_, ?_⟩
    · intro z hz hzi
      rcases List.mem_cons.mp hz with rfl | hz
      · exact s2 _ (p1.self hzi)
      · exact a2 z hz hzi
    · intro h
      rcases r2 h with h | ⟨z, hz, h⟩
      · simp only [Bool.or_eq_true] at h
        rcases h with h | h
        · exact .inl h
        · obtain ⟨h1, h2⟩ := p1.result.mp h
          exact .inr ⟨y, List.mem_cons_self, h1, m2 y h2⟩
      · exact .inr ⟨z, List.mem_cons_of_mem _ hz, h⟩
    · intro h; exact t2 (by simp [h])
    · intro hc z hz hzi hzp hzn
      rcases List.mem_cons.mp hz with rfl | hz
      · refine t2 ?_
        have : b1 = true := by
          refine p1.result.mpr ⟨hzi, ?_⟩
          by_cases hp : z ∈ x :: P
          · exact p1.inv.wanted z (p1.self hzi) (hzp z hp rfl)
          · exact p1.inv.exact_ hc z (p1.self hzi) hp hzn
        simp [this]
      · exact c2 hc z hz hzi hzp hzn

/-- Objects that are not yet marked. -/
def unseen (U : List α) (st : St α) : Nat := U.countP fun x => !st.seen.contains x

theorem unseen_mono (U : List α) {st st' : St α} (h : ∀ y ∈ st.seen, y ∈ st'.seen) :
    unseen U st' ≤ unseen U st := by
  refine List.countP_mono_left fun x _ hx => ?_
  cases hc : st.seen.contains x with
  | false => rfl
  | true =>
    rw [List.contains_iff_mem.mpr (h x (List.contains_iff_mem.mp hc))] at hx
    exact absurd hx (by simp)

theorem unseen_enter (g : Graph α) (U : List α) (st : St α) (x : α) (hx : x ∈ U) (hn : x ∉ st.seen) :
    unseen U (enter g st x) < unseen U st := by
  unfold unseen
  induction U with
  | nil => simp at hx
  | cons u us ih =>
    simp only [List.countP_cons]
    have mono : us.countP (fun y => !(enter g st x).seen.contains y) ≤ us.countP (fun y => !st.seen.contains y) :=
      unseen_mono us (st := st) (st' := enter g st x) fun y hy => List.mem_cons_of_mem _ hy
    by_cases e : u = x
    · subst e
      have h1 : (enter g st u).seen.contains u = true := by simp [enter]
      have h2 : st.seen.contains u = false := by simpa using hn
      rw [h1, h2]
      simp only [Bool.not_true, Bool.not_false, Bool.false_eq_true, if_false, if_true]
      omega
    · have hx' : x ∈ us := by
        rcases List.mem_cons.mp hx with h | h
        · exact absurd h.symm e
        · exact h
      have := ih hx'
      have h3 : (enter g st x).seen.contains u = st.seen.contains u := by
        simp [enter, List.contains_cons, e]
      rw [h3]
      omega

theorem mark_post (g : Graph α) (roots U : List α) (hU : ∀ x, Reached g roots x → x ∈ U) (n : Nat) :
    ∀ (P : List α) (st : St α) (x : α), Inv g roots P st → (g.incl x = true → Reached g roots x) →
      (∀ p ∈ P, g.incl x = true → Path g p x) → unseen U st < n →
      ∃ st' b, mark g n st x = some (st', b) ∧ Post g roots P st st' x b := by
  induction n with
  | zero => intro P st x _ _ _ h; omega
  | succ n ih =>
    intro P st x hi hx hP hlt
    rw [mark]
    cases hinc : g.incl x with
    | false =>
      simp only [Bool.not_false, if_true]
      exact ⟨st, false, rfl, hi, fun _ h => h, fun _ h => h, fun h => by simp [hinc] at h, by simp [hinc]⟩
    | true =>
      simp only [Bool.not_true, Bool.false_eq_true, if_false]
      by_cases hs : x ∈ st.seen
      · rw [if_pos (List.contains_iff_mem.mpr hs)]
        exact ⟨st, _, rfl, hi, fun _ h => h, fun _ h => h, fun _ => hs, by simp [hinc]⟩
      · rw [if_neg (by simpa using hs)]
        have hrx := hx hinc
        have hxm : x ∉ st.map := fun h => hs (hi.sub x h)
        have hxP : x ∉ P := fun h => hs (hi.stack x h)
        have hent : Inv g roots (x :: P) (enter g st x) := by
          have memMap : ∀ y, y ∈ (enter g st x).map ↔ y ∈ st.map ∨ (y = x ∧ g.want x = true) := by
            intro y
            unfold enter
            by_cases w : g.want x = true
            · simp [w]
            · simp [w]
          refine ⟨?_, ?_, ?_, ?_, ?_, ?_, ?_, ?_, ?_⟩
          · intro y hy
            rcases (memMap y).mp hy with h | h
            · exact List.mem_cons_of_mem _ (hi.sub y h)
            · rw [h.1]; exact List.mem_cons_self
          · unfold enter
            by_cases w : g.want x = true
            · simp only [w, if_true]
              exact List.nodup_append.mpr ⟨hi.nodup, by simp, by
                intro a ha b hb e
                rw [List.mem_singleton.mp hb] at e
                subst e; exact hxm ha⟩
            · simpa [w] using hi.nodup
          · intro y hy
            rcases List.mem_cons.mp hy with rfl | hy
            · exact List.mem_cons_self
            · exact List.mem_cons_of_mem _ (hi.stack y hy)
          · intro y hy
            rcases List.mem_cons.mp hy with rfl | hy
            · exact hrx
            · exact hi.reached y hy
          · intro y hy hw
            refine (memMap y).mpr ?_
            rcases List.mem_cons.mp hy with rfl | hy
            · exact .inr ⟨rfl, hw⟩
            · exact .inl (hi.wanted y hy hw)
          · intro y hy
            rcases (memMap y).mp hy with h | ⟨rfl, h⟩
            · exact hi.sound y h
            · exact .self hinc h
          · intro y hy hw hm
            rcases (memMap y).mp hm with h | ⟨rfl, h⟩
            · rcases List.mem_cons.mp hy with rfl | hy
              · exact hxm h
              · exact hi.onStack y hy hw h
            · rw [hw] at h; exact absurd h (by simp)
          · intro y hy hyP z hz
            rcases List.mem_cons.mp hy with rfl | hy
            · exact absurd List.mem_cons_self hyP
            · exact List.mem_cons_of_mem _ (hi.closed y hy (fun h => hyP (List.mem_cons_of_mem _ h)) z hz)
          · intro hc y hy hyP hn
            refine (memMap y).mpr ?_
            rcases List.mem_cons.mp hy with rfl | hy
            · exact absurd List.mem_cons_self hyP
            · exact .inl (hi.exact_ hc y hy (fun h => hyP (List.mem_cons_of_mem _ h)) hn)
        obtain ⟨r, e, ri, rs, rm, ra, rr, rt, rc⟩ := visitAll_post g roots P x hrx (mark g n)
          (fun st => unseen U st < n) (fun a b h1 h2 => Nat.lt_of_le_of_lt (unseen_mono U h2) h1)
          (fun st1 y hok hy hi1 => ih (x :: P) st1 y hi1 (fun hyi => .ref hrx ⟨hinc, hyi, hy⟩)
            (fun p hp hyi => by
              rcases List.mem_cons.mp hp with rfl | hp
              · exact .one ⟨hinc, hyi, hy⟩
              · exact (hP p hp hinc).snoc ⟨hinc, hyi, hy⟩) hok)
          (g.refs x) (enter g st x, g.want x)
          (by have := unseen_enter g U st x (hU x hrx) hs; dsimp only; omega) (fun _ h => h) hent
        rw [e]
        simp only [Option.map_some]
        have hxr : x ∈ r.1.seen := rs x List.mem_cons_self
        -- if the object leads to a wanted one then that was found
        have found : CyclesWanted g → Needs g x → r.2 = true := by
          intro hc hn
          cases hn with
          | self _ hw => exact rt hw
          | ref ed hy =>
            rename_i y
            refine rc hc y ed.2.2 ed.2.1 ?_ hy
            intro p hp hyp
            subst hyp
            rcases List.mem_cons.mp hp with rfl | hp
            · exact hc _ (.one ed)
            · exact hc _ ((hP y hp hinc).snoc ed)
        have back : r.2 = true → Needs g x := by
          intro h
          rcases rr h with hw | ⟨y, hy, hyi, hym⟩
          · exact .self hinc hw
          · exact .ref ⟨hinc, hyi, hy⟩ (ri.sound y hym)
        refine ⟨(leave g x r).1, (leave g x r).2, rfl, ?_⟩
        have memMap : ∀ y, y ∈ (leave g x r).1.map ↔ y ∈ r.1.map ∨ (y = x ∧ r.2 = true) := by
          intro y
          unfold leave
          by_cases hr2 : r.2 = true
          · by_cases w : g.want x = true
            · simp only [hr2, w, Bool.not_true, Bool.and_false, Bool.false_eq_true, if_false, and_true]
              constructor
              · exact .inl
              · rintro (h | rfl)
                · exact h
                · exact ri.wanted _ hxr w
            · simp [hr2, w]
          · simp [hr2]
        have seenEq : (leave g x r).1.seen = r.1.seen := by
          unfold leave; split <;> rfl
        refine ⟨⟨?_, ?_, ?_, ?_, ?_, ?_, ?_, ?_, ?_⟩, ?_, ?_, ?_, ?_⟩
        · intro y hy
          rw [seenEq]
          rcases (memMap y).mp hy with h | h
          · exact ri.sub y h
          · rw [h.1]; exact hxr
        · unfold leave
          split
          · rename_i h
            simp only [Bool.and_eq_true, Bool.not_eq_true'] at h
            refine List.nodup_append.mpr ⟨ri.nodup, by simp, ?_⟩
            intro a ha b hb e
            rw [List.mem_singleton.mp hb] at e
            subst e
            exact ri.onStack a List.mem_cons_self h.2 ha
          · exact ri.nodup
        · intro y hy; rw [seenEq]; exact ri.stack y (List.mem_cons_of_mem _ hy)
        · intro y hy; rw [seenEq] at hy; exact ri.reached y hy
        · intro y hy hw; rw [seenEq] at hy; exact (memMap y).mpr (.inl (ri.wanted y hy hw))
        · intro y hy
          rcases (memMap y).mp hy with h | ⟨rfl, h⟩
          · exact ri.sound y h
          · exact back h
        · intro y hy hw hm
          rcases (memMap y).mp hm with h | ⟨rfl, _⟩
          · exact ri.onStack y (List.mem_cons_of_mem _ hy) hw h
          · exact hxP hy
        · intro y hy hyP z hz
          rw [seenEq] at hy ⊢
          by_cases e : y = x
          · subst e; exact ra z hz.2.2 hz.2.1
          · exact ri.closed y hy (by simp [e, hyP]) z hz
        · intro hc y hy hyP hn
          rw [seenEq] at hy
          refine (memMap y).mpr ?_
          by_cases e : y = x
          · subst e; exact .inr ⟨rfl, found hc hn⟩
          · exact .inl (ri.exact_ hc y hy (by simp [e, hyP]) hn)
        · intro y hy; rw [seenEq]; exact rs y (List.mem_cons_of_mem _ hy)
        · intro y hy
          refine (memMap y).mpr (.inl (rm y ?_))
          unfold enter
          by_cases w : g.want x = true
          · simp [w, hy]
          · simp [w, hy]
        · intro _; rw [seenEq]; exact hxr
        · have h2 : (leave g x r).2 = r.2 := by
            unfold leave
            split
            · rename_i h; simp only [Bool.and_eq_true] at h; exact h.1.symm
            · rfl
          rw [h2, memMap]
          constructor
          · intro h; exact ⟨hinc, .inr ⟨rfl, h⟩⟩
          · rintro ⟨_, h | h⟩
            · cases w : g.want x with
              | true => exact rt w
              | false => exact absurd h (ri.onStack x List.mem_cons_self w)
            · exact h.2

theorem markRoots_post (g : Graph α) (roots U : List α) (hU : ∀ x, Reached g roots x → x ∈ U) (n : Nat)
    (hn : U.length < n) (xs : List α) : ∀ st, Inv g roots [] st → (∀ x ∈ xs, x ∈ roots) →
      ∃ st', markRoots g n st xs = some st' ∧ Inv g roots [] st' ∧ (∀ y ∈ st.seen, y ∈ st'.seen) ∧
        (∀ x ∈ xs, g.incl x = true → x ∈ st'.seen) := by
  induction xs with
  | nil => intro st h _; exact ⟨st, rfl, h, fun _ h => h, by simp⟩
  | cons x xs ih =>
    intro st h hx
    have hlt : unseen U st < n := Nat.lt_of_le_of_lt List.countP_le_length hn
    obtain ⟨st1, b, e, p⟩ := mark_post g roots U hU n [] st x h
      (fun hi => .root (hx x List.mem_cons_self) hi) (by simp) hlt
    obtain ⟨st2, e2, i2, s2, a2⟩ := ih st1 p.inv fun y hy => hx y (List.mem_cons_of_mem _ hy)
    refine ⟨st2, by rw [markRoots, e]; exact e2, i2, fun y hy => s2 y (p.seen y hy), ?_⟩
    intro y hy hyi
    rcases List.mem_cons.mp hy with rfl | hy
    · exact s2 _ (p.self hyi)
    · exact a2 y hy hyi

/-- **C77.**  For a finite number of objects the search ends.  Everything that is copied was reached
    from the roots and leads to a wanted object, nothing is copied twice, and every wanted object
    that is reached is copied.  If all objects on cycles are wanted, then exactly the objects
    are copied that are reached and lead to a wanted one. -/
theorem copied_partial (g : Graph α) (roots U : List α) (hU : ∀ x, Reached g roots x → x ∈ U) (n : Nat)
    (hn : U.length < n) :
    ∃ st, markRoots g n ⟨[], []⟩ roots = some st ∧ st.map.Nodup ∧
      (∀ x ∈ st.map, Reached g roots x ∧ Needs g x) ∧
      (∀ x, Reached g roots x → g.want x = true → x ∈ st.map) ∧
      ((∀ x, Path g x x → g.want x = true) → ∀ x, x ∈ st.map ↔ Reached g roots x ∧ Needs g x) := by
  obtain ⟨st, e, i, _, a⟩ := markRoots_post g roots U hU n hn roots ⟨[], []⟩
    ⟨by simp, by simp, by simp, by simp, by simp, by simp, by simp, by simp, by simp⟩ (fun _ h => h)
  have all : ∀ x, Reached g roots x → x ∈ st.seen := by
    intro x h
    induction h with
    | root h hi => exact a _ h hi
    | ref _ ed ih => exact i.closed _ ih (by simp) _ ed
  refine ⟨st, e, i.nodup, fun x hx => ⟨i.reached x (i.sub x hx), i.sound x hx⟩,
    fun x hx hw => i.wanted x (all x hx) hw, fun hc x => ⟨fun hx => ⟨i.reached x (i.sub x hx), i.sound x hx⟩, ?_⟩⟩
  rintro ⟨h1, h2⟩
  exact i.exact_ hc x (all x h1) (by simp) h2

end Verif.Obj.Copy
