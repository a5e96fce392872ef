import Verif.Cov.CountModel

/-!
# The counters count what the documentation says (C86)
-/

namespace Verif.Cov

/-! ## One change of a signal -/

/-- What a change of one element makes of a counter. -/
def bump (c : Check) (old new : Nat) (b : Bool) (v : Int) : Int :=
  if new ≠ old ∧ c old new = some b then satAdd v 1 else v

def byteAt (l : List Nat) (j : Nat) : Nat := l[j]?.getD 0

/-- The counters of the elements from `lo` up to `hi` are updated, and no others change. -/
def Upd (c : Check) (old new : List Nat) (tag lo hi : Nat) (m m' : Mem) : Prop :=
  (∀ k, lo ≤ k → k < hi →
    m' (tag + 2 * k) = bump c (byteAt old k) (byteAt new k) true (m (tag + 2 * k)) ∧
    m' (tag + 2 * k + 1) = bump c (byteAt old k) (byteAt new k) false (m (tag + 2 * k + 1))) ∧
  ∀ x, x < tag + 2 * lo ∨ tag + 2 * hi ≤ x → m' x = m x

theorem Upd.refl (c : Check) (old new : List Nat) (tag lo : Nat) (m : Mem) : Upd c old new tag lo lo m m :=
  ⟨fun k h1 h2 => absurd h1 (by omega), fun x _ => rfl⟩

theorem Upd.trans {c : Check} {old new : List Nat} {tag lo mid hi : Nat} {m m' m'' : Mem} (hl : lo ≤ mid)
    (hh : mid ≤ hi) (h1 : Upd c old new tag lo mid m m') (h2 : Upd c old new tag mid hi m' m'') :
    Upd c old new tag lo hi m m'' := by
  refine ⟨fun k a b => ?_, fun x hx => ?_⟩
  · by_cases hk : k < mid
    · rw [h2.2 _ (by omega), h2.2 _ (by omega)]
      exact h1.1 k a hk
    · have := h2.1 k (by omega) b
      rw [h1.2 _ (by omega), h1.2 _ (by omega)] at this
      exact this
  · rw [h2.2 x (by omega), h1.2 x (by omega)]

theorem upd_one (c : Check) (old new : List Nat) (tag j : Nat) (m : Mem) :
    Upd c old new tag j (j + 1) m (if byteAt new j ≠ byteAt old j then
      apply c (byteAt old j) (byteAt new j) (tag + 2 * j) (tag + 2 * j + 1) m else m) := by
  by_cases hd : byteAt new j ≠ byteAt old j
  · rw [if_pos hd]
    refine ⟨fun k h1 h2 => ?_, fun x hx => ?_⟩
    · obtain rfl : k = j := by omega
      unfold apply bump
      cases hc : c (byteAt old k) (byteAt new k) with
      | none => simp
      | some b => cases b <;> simp [inc, hd]
    · unfold apply
      cases hc : c (byteAt old j) (byteAt new j) with
      | none => rfl
      | some b =>
        cases b
        · simp only [inc]; rw [if_neg (by omega)]
        · simp only [inc]; rw [if_neg (by omega)]
  · rw [if_neg hd]
    refine ⟨fun k h1 h2 => ?_, fun x _ => rfl⟩
    obtain rfl : k = j := by omega
    simp [bump, hd]

theorem walk_upd (c : Check) (old new : List Nat) (tag : Nat) : ∀ (n j : Nat) (m : Mem),
    Upd c old new tag j (j + n) m (walk c old new tag j n m) := by
  intro n
  induction n with
  | zero => intro j m; exact Upd.refl ..
  | succ n ih =>
    intro j m
    simp only [walk]
    refine Upd.trans (mid := j + 1) (by omega) (by omega) (upd_one c old new tag j m) ?_
    rw [show j + (n + 1) = j + 1 + n by omega]
    exact ih (j + 1) _

theorem upd_same {c : Check} {old new : List Nat} {tag lo hi : Nat} (h : ∀ k, lo ≤ k → k < hi → byteAt new k = byteAt old k)
    (m : Mem) : Upd c old new tag lo hi m m :=
  ⟨fun k a b => by simp [bump, h k a b], fun _ _ => rfl⟩

theorem batch_upd (c : Check) (old new : List Nat) (tag size i : Nat) (hs : 0 < size) (hi : i ≤ (size - 1) / 8) (m : Mem) :
    Upd c old new tag (8 * i) (min (8 * i + 8) size) m (batch c old new tag size i m) := by
  simp only [batch]
  by_cases h : i < (size - 1) / 8 + 1 - 1
  · rw [if_pos h, show min (8 * i + 8) size = 8 * i + 8 by omega]
    by_cases hw : (new.drop (8 * i)).take 8 ≠ (old.drop (8 * i)).take 8
    · rw [if_pos hw]; exact walk_upd ..
    · rw [if_neg hw]
      have hw : (new.drop (8 * i)).take 8 = (old.drop (8 * i)).take 8 := Decidable.not_not.mp hw
      refine upd_same (fun k h1 h2 => ?_) m
      have e := congrArg (fun l => l[k - 8 * i]?) hw
      simp only [List.getElem?_take, List.getElem?_drop] at e
      rw [if_pos (by omega), if_pos (by omega), show 8 * i + (k - 8 * i) = k by omega] at e
      simp only [byteAt, e]
  · rw [if_neg h, show min (8 * i + 8) size = 8 * i + ((size - 1) % 8 + 1) by omega]
    exact walk_upd ..

theorem batches_upd (c : Check) (old new : List Nat) (tag size : Nat) (hs : 0 < size) : ∀ (n i : Nat) (m : Mem),
    i + n = (size - 1) / 8 + 1 → Upd c old new tag (min (8 * i) size) size m (batchesFrom c old new tag size i n m) := by
  intro n
  induction n with
  | zero =>
    intro i m h
    rw [show min (8 * i) size = size by omega]
    exact Upd.refl ..
  | succ n ih =>
    intro i m h
    simp only [batchesFrom]
    rw [show min (8 * i) size = 8 * i by omega]
    refine Upd.trans (mid := min (8 * i + 8) size) (by omega) (by omega) (batch_upd c old new tag size i hs (by omega) m) ?_
    rw [show 8 * i + 8 = 8 * (i + 1) by omega]
    exact ih (i + 1) _ (by omega)

/-- Comparing 8 bytes at a time does not lose a change. -/
theorem toggleCb_upd (c : Check) (tag : Nat) (old new : List Nat) (hn : new ≠ []) (m : Mem) :
    Upd c old new tag 0 new.length m (toggleCb c tag old new m) := by
  have hs : 0 < new.length := List.length_pos_iff.mpr hn
  have := batches_upd c old new tag new.length hs ((new.length - 1) / 8 + 1) 0 m (by omega)
  simpa [toggleCb] using this

/-! ## The options -/

theorem check_spec (u z : Bool) (a b : Std) :
    (pick u z a.pos b.pos = some true ↔ Rises u z a b) ∧ (pick u z a.pos b.pos = some false ↔ Falls u z a b) := by
  revert u z a b
  have h : ∀ u ∈ [true, false], ∀ z ∈ [true, false],
      ∀ a ∈ [Std.U, .X, .l0, .l1, .Z, .W, .L, .H, .D], ∀ b ∈ [Std.U, .X, .l0, .l1, .Z, .W, .L, .H, .D],
      (pick u z a.pos b.pos = some true ↔ Rises u z a b) ∧ (pick u z a.pos b.pos = some false ↔ Falls u z a b) := by
    decide +kernel
  intro u z a b
  exact h u (by cases u <;> simp) z (by cases z <;> simp) a (by cases a <;> simp) b (by cases b <;> simp)

theorem pos_inj {a b : Std} (h : a.pos = b.pos) : a = b := by
  cases a <;> cases b <;> first | rfl | (simp [Std.pos] at h)

theorem bump_spec (u z b : Bool) (x y : Std) (v : Int) :
    bump (pick u z) x.pos y.pos b v =
      if (if b then decide (Rises u z x y) else decide (Falls u z x y)) then satAdd v 1 else v := by
  unfold bump
  have hself : x = y → pick u z x.pos y.pos = none := by
    rintro rfl
    cases hc : pick u z x.pos x.pos with
    | none => rfl
    | some b =>
      cases b
      · have := (check_spec u z x x).2.mp hc
        cases x <;> simp [Falls] at this
      · have := (check_spec u z x x).1.mp hc
        cases x <;> simp [Rises] at this
  have e : (y.pos ≠ x.pos ∧ pick u z x.pos y.pos = some b) ↔ pick u z x.pos y.pos = some b := by
    constructor
    · exact fun h => h.2
    · intro h
      refine ⟨fun hp => ?_, h⟩
      rw [hself (pos_inj hp.symm)] at h
      exact absurd h (by simp)
  simp only [e]
  cases b
  · simp only [(check_spec u z x y).2, Bool.false_eq_true, if_false, decide_eq_true_eq]
  · simp only [(check_spec u z x y).1, if_true, decide_eq_true_eq]

/-! ## A whole simulation -/

/-- The values of one element in a history of the signal. -/
def element (h : List (List Std)) (j : Nat) : List Std := h.map fun v => v[j]?.getD .U

theorem satAdd_one {v : Int} {n : Nat} (h : v = (min limit n : Nat)) : satAdd v 1 = (min limit (n + 1) : Nat) := by
  subst h
  unfold satAdd limit
  by_cases hc : -2147483648 ≤ ((min 2147483647 n : Nat) : Int) + 1 ∧ ((min 2147483647 n : Nat) : Int) + 1 ≤ 2147483647
  · rw [if_pos hc]; omega
  · rw [if_neg hc]; omega

theorem byteAt_map {v : List Std} {j : Nat} (h : j < v.length) :
    byteAt (v.map Std.pos) j = (v[j]?.getD .U).pos := by
  simp [byteAt, List.getElem?_eq_getElem h]

theorem toggleRun_spec (u z : Bool) (tag size : Nat) (hs : 0 < size) : ∀ (h : List (List Std)) (m : Mem) (n : Nat → Bool → Nat),
    (∀ v ∈ h, v.length = size) →
    (∀ j, j < size → m (tag + 2 * j) = (min limit (n j true) : Nat) ∧ m (tag + 2 * j + 1) = (min limit (n j false) : Nat)) →
    (∀ j, j < size →
      toggleRun (pick u z) tag (h.map fun v => v.map Std.pos) m (tag + 2 * j) =
        (min limit (n j true + changes (fun a b => decide (Rises u z a b)) (element h j)) : Nat) ∧
      toggleRun (pick u z) tag (h.map fun v => v.map Std.pos) m (tag + 2 * j + 1) =
        (min limit (n j false + changes (fun a b => decide (Falls u z a b)) (element h j)) : Nat)) ∧
    ∀ x, x < tag ∨ tag + 2 * size ≤ x → toggleRun (pick u z) tag (h.map fun v => v.map Std.pos) m x = m x := by
  intro h
  induction h with
  | nil => intro m n _ hm; exact ⟨fun j hj => by simpa [toggleRun, element, changes] using hm j hj, fun x _ => rfl⟩
  | cons old h ih =>
    intro m n hl hm
    cases h with
    | nil => exact ⟨fun j hj => by simpa [toggleRun, element, changes] using hm j hj, fun x _ => rfl⟩
    | cons new h =>
      have lo : old.length = size := hl old List.mem_cons_self
      have ln : new.length = size := hl new (by simp)
      have hne : new.map Std.pos ≠ [] := by
        intro e
        have := congrArg List.length e
        simp only [List.length_map, List.length_nil] at this
        omega
      have up := toggleCb_upd (pick u z) tag (old.map Std.pos) (new.map Std.pos) hne m
      rw [List.length_map, ln] at up
      simp only [List.map_cons, toggleRun]
      generalize hm' : toggleCb (pick u z) tag (old.map Std.pos) (new.map Std.pos) m = m' at up
      have key : ∀ j, j < size →
          m' (tag + 2 * j) = (min limit (n j true + (if decide (Rises u z (old[j]?.getD .U) (new[j]?.getD .U)) then 1 else 0)) : Nat) ∧
          m' (tag + 2 * j + 1) = (min limit (n j false + (if decide (Falls u z (old[j]?.getD .U) (new[j]?.getD .U)) then 1 else 0)) : Nat) := by
        intro j hj
        obtain ⟨a, b⟩ := up.1 j (by omega) hj
        rw [byteAt_map (by omega), byteAt_map (by omega), bump_spec] at a b
        obtain ⟨m1, m2⟩ := hm j hj
        refine ⟨?_, ?_⟩
        · rw [a]
          simp only [if_true]
          by_cases hr : decide (Rises u z (old[j]?.getD .U) (new[j]?.getD .U)) = true
          · rw [if_pos hr, if_pos hr, satAdd_one m1]
          · rw [if_neg hr, if_neg hr, m1, Nat.add_zero]
        · rw [b]
          simp only [Bool.false_eq_true, if_false]
          by_cases hr : decide (Falls u z (old[j]?.getD .U) (new[j]?.getD .U)) = true
          · rw [if_pos hr, if_pos hr, satAdd_one m2]
          · rw [if_neg hr, if_neg hr, m2, Nat.add_zero]
      obtain ⟨r1, r2⟩ := ih m'
        (fun j b => n j b + (if (if b then decide (Rises u z (old[j]?.getD .U) (new[j]?.getD .U))
          else decide (Falls u z (old[j]?.getD .U) (new[j]?.getD .U))) then 1 else 0))
        (fun v hv => hl v (List.mem_cons_of_mem _ hv)) (fun j hj => by simpa using key j hj)
      refine ⟨fun j hj => ?_, fun x hx => ?_⟩
      · have := r1 j hj
        simp only [List.map_cons] at this
        rw [this.1, this.2]
        simp only [element, List.map_cons, changes, Nat.add_assoc, if_true, Bool.false_eq_true, if_false, and_self]
      · have := r2 x hx
        simp only [List.map_cons] at this
        rw [this, up.2 x (by omega)]

/-- After a simulation the counters of each element of a signal hold the number of its changes, up to the limit. -/
theorem toggle_counts (u z : Bool) (tag size : Nat) (hs : 0 < size) (h : List (List Std)) (m : Mem)
    (hl : ∀ v ∈ h, v.length = size) (hm : ∀ x, tag ≤ x → x < tag + 2 * size → m x = 0) :
    (∀ j, j < size →
      toggleRun (pick u z) tag (h.map fun v => v.map Std.pos) m (tag + 2 * j) =
        (min limit (changes (fun a b => decide (Rises u z a b)) (element h j)) : Nat) ∧
      toggleRun (pick u z) tag (h.map fun v => v.map Std.pos) m (tag + 2 * j + 1) =
        (min limit (changes (fun a b => decide (Falls u z a b)) (element h j)) : Nat)) ∧
    ∀ x, x < tag ∨ tag + 2 * size ≤ x → toggleRun (pick u z) tag (h.map fun v => v.map Std.pos) m x = m x := by
  have := toggleRun_spec u z tag size hs h m (fun _ _ => 0) hl
    (fun j hj => by rw [hm _ (by omega) (by omega), hm _ (by omega) (by omega)]; simp)
  simpa using this

/-- Nine elements, so that there are two batches. -/
example : toggleRun (pick false false) 3
    [[2, 2, 2, 2, 2, 2, 2, 2, 3], [2, 2, 2, 2, 2, 2, 2, 2, 2], [2, 3, 2, 2, 2, 2, 2, 2, 3], [2, 2, 2, 2, 2, 2, 2, 2, 2]]
    (fun _ => 0) (3 + 2 * 8 + 1) = 2 := by decide

/-- The counters of a port that is driven by a constant are all marked. -/
theorem mark_spec (tag : Nat) : ∀ (n i : Nat) (m : Mem),
    (∀ x, tag + 2 * i ≤ x → x < tag + 2 * (i + n) → markFrom tag i n m x = unreachMark) ∧
    ∀ x, x < tag + 2 * i ∨ tag + 2 * (i + n) ≤ x → markFrom tag i n m x = m x := by
  intro n
  induction n with
  | zero => intro i m; exact ⟨fun x h1 h2 => absurd h1 (by omega), fun x _ => rfl⟩
  | succ n ih =>
    intro i m
    simp only [markFrom]
    obtain ⟨a, b⟩ := ih (i + 1) (fun x => if x = tag + 2 * i ∨ x = tag + 2 * i + 1 then unreachMark else m x)
    refine ⟨fun x h1 h2 => ?_, fun x hx => ?_⟩
    · by_cases hx : tag + 2 * (i + 1) ≤ x
      · exact a x hx (by omega)
      · rw [b x (by omega), if_pos (by omega)]
    · rw [b x (by omega), if_neg (by omega)]

/-! ## The items of a signal -/

/-- The `n`-th index of a range. -/
def Dim.index (d : Dim) (n : Nat) : Int := if d.downto then d.left - n else d.left + n

/-- The indices of all elements, the last one varying fastest. -/
def paths : List Dim → List (List Int)
  | [] => [[]]
  | d :: ds => (List.range d.length).flatMap fun n => (paths ds).map fun q => d.index n :: q

def pair (p : List Int) : List Bit := [(p, true), (p, false)]

def emission (p : List Int) (ds : List Dim) : List Bit := (paths ds).flatMap fun q => pair (p ++ q)

/-- When the documentation says that bins are made: no array is empty or as large as the given limit, and there
is more than one dimension only with the option for memories. -/
def good (limit : Nat) (mems : Bool) (ds : List Dim) : Prop :=
  (∀ d ∈ ds, 0 < d.length ∧ (limit ≠ 0 → d.length < limit)) ∧ (mems = true ∨ ds.length ≤ 1)

instance (limit mems ds) : Decidable (good limit mems ds) := by unfold good; infer_instance

/-- The same from one dimension on. -/
def goodFrom (limit : Nat) (mems : Bool) : Nat → List Dim → Bool
  | _, [] => true
  | depth, d :: ds =>
    decide (0 < d.length) && !skipArray limit mems depth d.length && goodFrom limit mems (depth + 1) ds

theorem goodFrom_iff {limit : Nat} {mems : Bool} : ∀ (ds : List Dim) (depth : Nat),
    goodFrom limit mems depth ds = true ↔
      (∀ d ∈ ds, 0 < d.length ∧ (limit ≠ 0 → d.length < limit)) ∧ (mems = true ∨ ds = [] ∨ (depth = 0 ∧ ds.length ≤ 1)) := by
  intro ds
  induction ds with
  | nil => intro depth; simp [goodFrom]
  | cons d ds ih =>
    intro depth
    have hsk : skipArray limit mems depth d.length = false ↔ ((limit ≠ 0 → d.length < limit) ∧ (mems = true ∨ depth = 0)) := by
      unfold skipArray
      cases mems <;> simp <;> omega
    simp only [goodFrom, Bool.and_eq_true, decide_eq_true_eq, Bool.not_eq_true', hsk, ih, List.mem_cons, forall_eq_or_imp,
      List.length_cons]
    constructor
    · rintro ⟨⟨h1, h2, h3⟩, h4, h5⟩
      refine ⟨⟨⟨h1, h2⟩, h4⟩, ?_⟩
      rcases h5 with h5 | h5 | h5
      · exact Or.inl h5
      · subst h5
        rcases h3 with h3 | h3
        · exact Or.inl h3
        · exact Or.inr (Or.inr ⟨h3, by simp⟩)
      · omega
    · rintro ⟨⟨⟨h1, h2⟩, h4⟩, h5⟩
      rcases h5 with h5 | h5 | h5
      · exact ⟨⟨h1, h2, Or.inl h5⟩, h4, Or.inl h5⟩
      · exact absurd h5 (by simp)
      · refine ⟨⟨h1, h2, Or.inr h5.1⟩, h4, Or.inr (Or.inl ?_)⟩
        exact List.length_eq_zero_iff.mp (by omega)

theorem goodFrom_zero {limit : Nat} {mems : Bool} (ds : List Dim) : goodFrom limit mems 0 ds = true ↔ good limit mems ds := by
  rw [goodFrom_iff, good]
  constructor
  · rintro ⟨h, h1 | h1 | h1⟩
    · exact ⟨h, Or.inl h1⟩
    · exact ⟨h, Or.inr (by simp [h1])⟩
    · exact ⟨h, Or.inr h1.2⟩
  · rintro ⟨h, h1 | h1⟩
    · exact ⟨h, Or.inl h1⟩
    · exact ⟨h, Or.inr (Or.inr ⟨rfl, h1⟩)⟩

/-- What adding the items does. -/
def result (limit : Nat) (mems : Bool) (depth : Nat) (acc : List Bit) (p : List Int) : Option (List Dim) → List Bit × Option Nat
  | some ds => if goodFrom limit mems depth ds = true then (acc ++ emission p ds, some acc.length) else (acc, none)
  | none => (acc, none)

theorem addLoop_none {f : List Bit → Int → List Bit × Option Nat} {inc : Int} (hf : ∀ acc i, f acc i = (acc, none)) :
    ∀ (n : Nat) (i : Int) (acc : List Bit), addLoop f inc i n acc = (acc, none) := by
  intro n
  induction n with
  | zero => intro i acc; rfl
  | succ n ih => intro i acc; simp only [addLoop, hf, ih]

theorem addLoop_some {f : List Bit → Int → List Bit × Option Nat} {inc : Int} {e : Int → List Bit}
    (hf : ∀ acc i, f acc i = (acc ++ e i, some acc.length)) : ∀ (n : Nat) (i : Int) (acc : List Bit),
      (addLoop f inc i n acc).1 = acc ++ (List.range n).flatMap (fun (k : Nat) => e (i + inc * k)) ∧
      (0 < n → (addLoop f inc i n acc).2 = some acc.length) := by
  intro n
  induction n with
  | zero => intro i acc; simp [addLoop]
  | succ n ih =>
    intro i acc
    simp only [addLoop, hf]
    refine ⟨?_, fun _ => trivial⟩
    rw [(ih (i + inc) _).1, List.range_succ_eq_map, List.flatMap_cons, List.append_assoc, List.flatMap_map]
    have e1 : ∀ k : Nat, i + inc + inc * (k : Int) = i + inc * ((k + 1 : Nat) : Int) := by
      intro k
      rw [Int.natCast_add, Int.mul_add]
      simp only [Int.natCast_one, Int.mul_one]
      omega
    simp only [e1, Int.natCast_zero, Int.mul_zero, Int.add_zero, Nat.succ_eq_add_one]

theorem emission_cons (p : List Int) (d : Dim) (ds : List Dim) :
    emission p (d :: ds) = (List.range d.length).flatMap fun n => emission (p ++ [d.index n]) ds := by
  simp only [emission, paths, List.flatMap_assoc, List.flatMap_map]
  simp

theorem addDims_spec {limit : Nat} {mems : Bool} {elem : Nat → List Bit → List Int → List Bit × Option Nat}
    {es : Option (List Dim)} (he : ∀ depth acc p, elem depth acc p = result limit mems depth acc p es) :
    ∀ (ds : List (Option Dim)) (depth : Nat) (acc : List Bit) (p : List Int),
      addDims limit mems elem ds depth acc p =
        result limit mems depth acc p ((known ds).bind fun l => es.map fun l' => l ++ l') := by
  intro ds
  induction ds with
  | nil => intro depth acc p; simp [addDims, known, he]
  | cons d ds ih =>
    intro depth acc p
    cases d with
    | none => simp [addDims, known, result]
    | some d =>
      have hlen : ((d.high - d.low + 1).toNat) = d.length := by
        unfold Dim.high Dim.low Dim.length
        cases d.downto <;> simp
      simp only [addDims, known]
      cases hk : (known ds).bind fun l => es.map fun l' => l ++ l' with
      | none =>
        have e : (Option.map (fun l => d :: l) (known ds)).bind (fun l => es.map fun l' => l ++ l') = none := by
          cases h1 : known ds with
          | none => rfl
          | some l =>
            rw [h1] at hk
            simp only [Option.bind_some, Option.map_eq_none_iff] at hk
            simp [hk]
        rw [e]
        simp only [result]
        have hf : ∀ acc i, addDims limit mems elem ds (depth + 1) acc (p ++ [i]) = (acc, none) := by
          intro acc i; rw [ih, hk]; rfl
        by_cases h1 : d.high < d.low
        · rw [if_pos h1]
        · rw [if_neg h1]
          by_cases h2 : skipArray limit mems depth (d.high - d.low + 1) = true
          · rw [if_pos h2]
          · rw [if_neg h2]
            by_cases h3 : d.downto = true
            · rw [if_pos h3]; exact addLoop_none hf ..
            · rw [if_neg h3]; exact addLoop_none hf ..
      | some l =>
        have e : (Option.map (fun l => d :: l) (known ds)).bind (fun l => es.map fun l' => l ++ l') = some (d :: l) := by
          cases h1 : known ds with
          | none => rw [h1] at hk; exact absurd hk (by simp)
          | some l1 =>
            rw [h1] at hk
            cases h2 : es with
            | none => rw [h2] at hk; exact absurd hk (by simp)
            | some l2 =>
              rw [h2] at hk
              simp only [Option.bind_some, Option.map_some, Option.some.injEq] at hk ⊢
              rw [← hk]; rfl
        rw [e]
        simp only [result, goodFrom]
        by_cases h1 : d.high < d.low
        · rw [if_pos h1]
          have : d.length = 0 := by omega
          simp [this]
        · rw [if_neg h1]
          have hsz : d.high - d.low + 1 = (d.length : Int) := by omega
          have hpos : 0 < d.length := by omega
          rw [hlen, hsz]
          by_cases h2 : skipArray limit mems depth d.length = true
          · rw [if_pos h2]; simp [h2]
          · rw [if_neg h2]
            have hgoal : ∀ (inc start : Int), (∀ k : Nat, start + inc * k = d.index k) →
                addLoop (fun acc i => addDims limit mems elem ds (depth + 1) acc (p ++ [i])) inc start d.length acc =
                  if (decide (0 < d.length) && !skipArray limit mems depth d.length && goodFrom limit mems (depth + 1) l) = true
                  then (acc ++ emission p (d :: l), some acc.length) else (acc, none) := by
              intro inc start hidx
              by_cases h3 : goodFrom limit mems (depth + 1) l = true
              · rw [if_pos (by simp [hpos, h2, h3])]
                have := addLoop_some (inc := inc) (f := fun acc i => addDims limit mems elem ds (depth + 1) acc (p ++ [i]))
                  (e := fun i => emission (p ++ [i]) l)
                  (fun acc i => by rw [ih, hk]; simp only [result]; rw [if_pos h3]) d.length start acc
                refine Prod.ext ?_ (this.2 hpos)
                rw [this.1, emission_cons]
                simp only [hidx]
              · rw [if_neg (by simp [h3])]
                exact addLoop_none (fun acc i => by rw [ih, hk]; simp only [result]; rw [if_neg h3]) ..
            by_cases h3 : d.downto = true
            · rw [if_pos h3]
              refine hgoal _ _ fun k => ?_
              simp only [Dim.index, Dim.high, h3, if_true]
              omega
            · rw [if_neg h3]
              refine hgoal _ _ fun k => ?_
              simp only [Dim.index, Dim.low, h3]
              simp

theorem addTy_spec (limit : Nat) (mems : Bool) (t : Ty) : ∀ (depth : Nat) (acc : List Bit) (p : List Int),
    addTy limit mems t depth acc p = result limit mems depth acc p t.dims := by
  induction t with
  | bit => intro depth acc p; simp [addTy, Ty.dims, result, goodFrom, addBit, emission, paths, pair]
  | array ds elem ih => intro depth acc p; simp only [addTy, Ty.dims]; exact addDims_spec ih ds depth acc p
  | other => intro depth acc p; rfl

theorem paths_elem {ds : List Dim} {p : List Int} {k : Nat} (h : Elem ds p k) : (paths ds)[k]? = some p ∧ k < volume ds := by
  have hlen : ∀ ds, (paths ds).length = volume ds := by
    intro ds
    induction ds with
    | nil => rfl
    | cons d ds ih =>
      simp only [paths, volume, List.length_flatMap, List.length_map, ih, List.map_const', List.length_range]
      exact List.sum_replicate_nat
  have key : ∀ (n : Nat) (q : Nat → List (List Int)) (v : Nat), (∀ i, (q i).length = v) → ∀ i k, i < n → k < v →
      ((List.range n).flatMap q)[i * v + k]? = (q i)[k]? := by
    intro n q v hq
    induction n with
    | zero => intro i k h; omega
    | succ n ih =>
      intro i k hi hk
      rw [List.range_succ, List.flatMap_append]
      have hl : ((List.range n).flatMap q).length = n * v := by
        simp only [List.length_flatMap, hq, List.map_const', List.length_range]
        exact List.sum_replicate_nat
      by_cases h : i < n
      · rw [List.getElem?_append_left (by rw [hl]; have := Nat.mul_le_mul_right v (show i + 1 ≤ n by omega); rw [Nat.add_mul] at this; omega)]
        exact ih i k h hk
      · obtain rfl : i = n := by omega
        rw [List.getElem?_append_right (by rw [hl]; omega), hl]
        simp
  induction h with
  | nil => exact ⟨rfl, by simp [volume]⟩
  | cons d ds i p n k h1 h2 h3 ih =>
    obtain ⟨a, b⟩ := ih
    refine ⟨?_, ?_⟩
    · simp only [paths]
      rw [key d.length (fun n => (paths ds).map fun q => d.index n :: q) (volume ds) (fun i => by simp [hlen]) n k h2 b]
      rw [List.getElem?_map, a]
      have : d.index n = i := by
        simp only [Dim.offset] at h1
        simp only [Dim.index]
        cases hd : d.downto <;> simp [hd] at h1 ⊢ <;> omega
      simp [this]
    · simp only [volume]
      have := Nat.mul_le_mul_right (volume ds) (show n + 1 ≤ d.length by omega)
      rw [Nat.add_mul] at this
      omega

theorem elem_total : ∀ (ds : List Dim) (k : Nat), k < volume ds → ∃ p, Elem ds p k := by
  intro ds
  induction ds with
  | nil => intro k h; simp only [volume] at h; exact ⟨[], (show k = 0 by omega) ▸ .nil⟩
  | cons d ds ih =>
    intro k h
    simp only [volume] at h
    have hv : 0 < volume ds := by
      rcases Nat.eq_zero_or_pos (volume ds) with h0 | h0
      · rw [h0] at h; omega
      · exact h0
    obtain ⟨p, hp⟩ := ih (k % volume ds) (Nat.mod_lt _ hv)
    have hq : k / volume ds < d.length := (Nat.div_lt_iff_lt_mul hv).mpr h
    have := Elem.cons d ds (d.index (k / volume ds)) p (k / volume ds) (k % volume ds)
      (by simp only [Dim.offset, Dim.index]; cases d.downto <;> simp <;> omega) hq hp
    rw [Nat.mul_comm, Nat.div_add_mod] at this
    exact ⟨_, this⟩

theorem pairs_get : ∀ (l : List (List Int)) (k : Nat) (p : List Int), l[k]? = some p →
    (l.flatMap pair)[2 * k]? = some (p, true) ∧ (l.flatMap pair)[2 * k + 1]? = some (p, false) := by
  intro l
  induction l with
  | nil => intro k p h; simp at h
  | cons x l ih =>
    intro k p h
    cases k with
    | zero => simp only [List.getElem?_cons_zero] at h; cases h; simp [pair]
    | succ k =>
      simp only [List.getElem?_cons_succ] at h
      have := ih k p h
      simp only [List.flatMap_cons, pair, List.cons_append, List.nil_append]
      rw [show 2 * (k + 1) = 2 * k + 1 + 1 by omega]
      simpa using this

/-- The items that are made for a signal: none, or two for each element, in the order of the elements. -/
theorem toggle_items (limit : Nat) (mems : Bool) (t : Ty) :
    (∀ ds, t.dims = some ds → good limit mems ds →
      ∃ l, addTy limit mems t 0 [] [] = (l, some 0) ∧ l.length = 2 * volume ds ∧
        ∀ p k, Elem ds p k → l[2 * k]? = some (p, true) ∧ l[2 * k + 1]? = some (p, false)) ∧
    ((∀ ds, t.dims = some ds → ¬ good limit mems ds) → addTy limit mems t 0 [] [] = ([], none)) := by
  refine ⟨fun ds hd hg => ?_, fun h => ?_⟩
  · refine ⟨emission [] ds, ?_, ?_, fun p k hp => ?_⟩
    · rw [addTy_spec, hd]
      simp only [result]
      rw [if_pos ((goodFrom_zero ds).mpr hg)]
      simp
    · have hlen : ∀ ds, (paths ds).length = volume ds := by
        intro ds
        induction ds with
        | nil => rfl
        | cons d ds ih =>
          simp only [paths, volume, List.length_flatMap, List.length_map, ih, List.map_const', List.length_range]
          exact List.sum_replicate_nat
      simp only [emission, List.length_flatMap, pair, List.length_cons, List.length_nil, List.map_const', hlen]
      rw [List.sum_replicate_nat]; omega
    · have := pairs_get (paths ds) k p (paths_elem hp).1
      simpa [emission] using this
  · rw [addTy_spec]
    cases hd : t.dims with
    | none => rfl
    | some ds =>
      simp only [result]
      rw [if_neg fun hg => h ds hd ((goodFrom_zero ds).mp hg)]

/-- `array (1 to 2) of std_logic_vector(1 downto 0)`. -/
def nested : Ty := .array [some ⟨1, 2, false⟩] (.array [some ⟨1, 0, true⟩] .bit)

example : (addTy 0 true nested 0 [] []).1 = [[1, 1], [1, 0], [2, 1], [2, 0]].flatMap pair := by decide
example : good 0 true [⟨1, 2, false⟩, ⟨1, 0, true⟩] ∧ nested.dims = some [⟨1, 2, false⟩, ⟨1, 0, true⟩] :=
  ⟨by decide, rfl⟩
example : addTy 0 false nested 0 [] [] = ([], none) := by decide
example : addTy 2 true nested 0 [] [] = ([], none) := by decide

/-- The bins of a signal: each item, whose tag is the first tag and its position, counts the changes of the element
in its path. -/
theorem toggle_bins {limit : Nat} {mems u z : Bool} {t : Ty} {ds : List Dim} (hd : t.dims = some ds)
    (hg : good limit mems ds) (tag : Nat) (h : List (List Std)) (hl : ∀ v ∈ h, v.length = volume ds) (m : Mem)
    (hm : ∀ x, tag ≤ x → m x = 0) :
    ∃ l, addTy limit mems t 0 [] [] = (l, some 0) ∧ ∀ i b, l[i]? = some b → ∃ k, Elem ds b.1 k ∧
      toggleRun (pick u z) tag (h.map fun v => v.map Std.pos) m (tag + i) =
        (min Verif.Cov.limit (changes (fun x y => if b.2 then decide (Rises u z x y) else decide (Falls u z x y)) (element h k)) : Nat) := by
  obtain ⟨l, h1, h2, h3⟩ := (toggle_items limit mems t).1 ds hd hg
  refine ⟨l, h1, fun i b hi => ?_⟩
  have hlt : i < 2 * volume ds := by
    rw [← h2]
    exact (List.getElem?_eq_some_iff.mp hi).1
  obtain ⟨p, hp⟩ := elem_total ds (i / 2) (by omega)
  have hs : 0 < volume ds := by omega
  obtain ⟨c, _⟩ := toggle_counts u z tag (volume ds) hs h m hl (fun x hx _ => hm x hx)
  obtain ⟨c1, c2⟩ := c (i / 2) (by omega)
  obtain ⟨e1, e2⟩ := h3 p (i / 2) hp
  refine ⟨i / 2, ?_⟩
  rcases Nat.mod_two_eq_zero_or_one i with hmod | hmod
  · have hi2 : 2 * (i / 2) = i := by omega
    rw [hi2, hi] at e1
    rw [hi2] at c1
    cases e1
    exact ⟨hp, by simpa using c1⟩
  · have hi2 : 2 * (i / 2) + 1 = i := by omega
    rw [hi2, hi] at e2
    rw [Nat.add_assoc, hi2] at c2
    cases e2
    exact ⟨hp, by simpa using c2⟩

/-! ## States -/

theorem stateTag_eq {tag low value : Int} (h1 : 0 ≤ tag) (h2 : 0 ≤ low) (h3 : low ≤ value)
    (h4 : tag + (value - low) < 2147483648) : stateTag tag low value = tag + (value - low) := by
  unfold stateTag
  simp only [Int.bmod_def]
  omega

theorem stateRun_spec {tag low high : Int} (h1 : 0 ≤ tag) (h2 : 0 ≤ low) (h4 : tag + (high - low) < 2147483648) :
    ∀ (l : List Int) (m : Mem) (n : Int → Nat), (∀ v ∈ l, low ≤ v ∧ v ≤ high) →
      (∀ v, low ≤ v → v ≤ high → m (tag + (v - low)).toNat = (min limit (n v) : Nat)) →
      (∀ v, low ≤ v → v ≤ high → stateRun tag low l m (tag + (v - low)).toNat = (min limit (n v + l.count v) : Nat)) ∧
      ∀ x : Nat, (x : Int) < tag ∨ tag + (high - low) < x → stateRun tag low l m x = m x := by
  intro l
  induction l with
  | nil => intro m n _ hm; exact ⟨fun v a b => by simpa [stateRun] using hm v a b, fun x _ => rfl⟩
  | cons w l ih =>
    intro m n hl hm
    obtain ⟨w1, w2⟩ := hl w List.mem_cons_self
    simp only [stateRun, stateCb]
    rw [stateTag_eq h1 h2 w1 (by omega)]
    obtain ⟨a, b⟩ := ih (inc m (tag + (w - low)).toNat) (fun v => n v + if v = w then 1 else 0)
      (fun v hv => hl v (List.mem_cons_of_mem _ hv)) (fun v v1 v2 => by
        simp only [inc]
        by_cases hv : v = w
        · subst hv; rw [if_pos rfl, if_pos rfl]; exact satAdd_one (hm v v1 v2)
        · rw [if_neg (by omega), if_neg hv, Nat.add_zero]; exact hm v v1 v2)
    refine ⟨fun v v1 v2 => ?_, fun x hx => ?_⟩
    · rw [a v v1 v2]
      rw [List.count_cons]
      by_cases hv : v = w
      · subst hv; simp; omega
      · simp [hv, Ne.symm hv]
    · rw [b x hx]
      simp only [inc]
      rw [if_neg (by omega)]

/-- Each bin of a state counts how often the signal gets its value, and the bin of the first state counts one more:
this is the initial state if the signal starts in it. -/
theorem state_counts {tag low high : Int} (h1 : 0 ≤ tag) (h2 : 0 ≤ low) (h4 : tag + (high - low) < 2147483648)
    (l : List Int) (hl : ∀ v ∈ l, low ≤ v ∧ v ≤ high) (m : Mem) (hm : ∀ x, m x = 0) (v : Int) (v1 : low ≤ v) (v2 : v ≤ high) :
    stateRun tag low l (stateSetup tag.toNat m) (tag + (v - low)).toNat = (min limit ((low :: l).count v) : Nat) := by
  obtain ⟨a, _⟩ := stateRun_spec h1 h2 h4 l (stateSetup tag.toNat m) (fun v => if v = low then 1 else 0) hl
    (fun v v1 v2 => by
      simp only [stateSetup]
      by_cases hv : v = low
      · subst hv; rw [if_pos (by omega), if_pos rfl]; rfl
      · rw [if_neg (by omega), if_neg hv, hm]; rfl)
  rw [a v v1 v2, List.count_cons]
  by_cases hv : v = low
  · subst hv; simp; omega
  · simp [hv, Ne.symm hv]

/-- States 2 to 4 of a type, from tag 1, so that the difference is negative. -/
example : stateRun 1 2 [3, 4, 3] (stateSetup 1 fun _ => 0) 2 = 2 := by decide

/-- A signal that is declared with another initial value, here the state 1 of 0 to 2, and never is in state 0: its
bin for state 0 is covered, and the one for state 1 is not. -/
theorem initial_state_counterexample : ∃ (initial : Int) (l : List Int), 0 ∉ initial :: l ∧
    stateRun 0 0 l (stateSetup 0 fun _ => 0) 0 = 1 ∧ initial ≠ 0 ∧
    stateRun 0 0 l (stateSetup 0 fun _ => 0) initial.toNat = 0 := ⟨1, [2], by decide, by decide, by decide, by decide⟩

/-! ## Expressions -/

/-- The bins of an operator are the combinations of operands that the documentation names, each once. -/
theorem expr_bins (op : Op) : (opBins op).Nodup ∧ ∀ a b, (a, b) ∈ opBins op ↔ sensitive op.eval a b := by
  refine ⟨by cases op <;> decide, fun a b => ?_⟩
  cases op <;> cases a <;> cases b <;> simp [opBins, sensitive, Op.eval]

/-- If both operands are evaluated, exactly the bin of their values is incremented. -/
theorem expr_hits {op : Op} {free lhs rhs : Bool}
    (h : free = true ∨ op.eval lhs true ≠ op.eval lhs false) (i : Nat) (b : Bool × Bool) (hb : (opBins op)[i]? = some b) :
    (exprHits op free lhs rhs)[i]? = some (decide (b = (lhs, rhs))) := by
  have e : exprHits op free lhs rhs = logicalHits op lhs rhs := by
    cases op <;> cases free <;> cases lhs <;> simp [exprHits, Op.eval] at h ⊢
  rw [e]
  simp only [logicalHits, List.getElem?_map, hb, Option.map_some]
  obtain ⟨x, y⟩ := b
  cases x <;> cases y <;> cases lhs <;> cases rhs <;> rfl

/-- For operators on `std_ulogic`, exactly the bin of the values of both operands is incremented if they are 0 or 1. -/
theorem std_hits (op : Op) (lhs rhs : Std) (i : Nat) (b : Bool × Bool) (hb : (opBins op)[i]? = some b) :
    (stdHits op lhs.pos rhs.pos)[i]? =
      some (decide (lhs = (if b.1 then .l1 else .l0) ∧ rhs = (if b.2 then .l1 else .l0))) := by
  simp only [stdHits, List.getElem?_map, hb, Option.map_some]
  obtain ⟨x, y⟩ := b
  cases x <;> cases y <;> cases lhs <;> cases rhs <;> rfl

/-- If the left operand decides, and the right one is not evaluated, no bin is incremented. -/
theorem expr_short {op : Op} {lhs : Bool} (h : op.eval lhs true = op.eval lhs false) (rhs : Bool) :
    ∀ x ∈ exprHits op false lhs rhs, x = false := by
  cases op <;> cases lhs <;> simp [exprHits, Op.eval, opBins] at h ⊢

/-- A bin that is marked as unreachable is never incremented, and every bin that can never be is marked. -/
theorem expr_unreachable (op : Op) (free : Bool) (i : Nat) (b : Bool × Bool) (hb : (opBins op)[i]? = some b) :
    (unreachable op free)[i]? = some true ↔ ∀ lhs rhs, (exprHits op free lhs rhs)[i]? = some false := by
  have hi : i < 4 := by
    have := (List.getElem?_eq_some_iff.mp hb).1
    cases op <;> simp [opBins] at this <;> omega
  have : i = 0 ∨ i = 1 ∨ i = 2 ∨ i = 3 := by omega
  clear hi
  rcases this with rfl | rfl | rfl | rfl <;> cases op <;> cases free <;> first | decide | (simp [opBins] at hb)

example : exprHits .and false true true = [false, false, true] := by decide

end Verif.Cov
