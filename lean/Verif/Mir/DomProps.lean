import Verif.Mir.DomModel

/-
C31: dominators are exact, for all control flow graphs.
-/

namespace Verif.Dom

/-! ### Lists of edges -/

/-- The list so far is stored in one of the two places. -/
structure EdgesOk (l : Edges) (es : List Nat) : Prop where
  count : l.count = es.length
  small : l.count ≤ 4 → l.max = 0 ∧ l.inside = es
  large : 4 < l.count → l.count ≤ l.max ∧ 16 ≤ l.max ∧ l.external = es

theorem addEdge_ok {l : Edges} {es : List Nat} (h : EdgesOk l es) (e : Nat) :
    ∃ l', addEdge l e = some l' ∧ EdgesOk l' (es ++ [e]) := by
  obtain ⟨h₁, h₂, h₃⟩ := h
  unfold addEdge
  by_cases a : l.count < 4
  · rw [if_pos a]
    obtain ⟨h₂, h₄⟩ := h₂ (by omega)
    refine ⟨_, rfl, by simp [h₁], fun _ => ⟨h₂, by simp [h₄]⟩, fun h => ?_⟩
    dsimp only at h; omega
  · rw [if_neg a]
    by_cases b : l.count = 4
    · rw [if_pos b]
      obtain ⟨h₂, h₄⟩ := h₂ (by omega)
      refine ⟨_, rfl, by simp; omega, fun h => ?_, fun _ => ⟨by dsimp only; omega, by simp, by simp [h₄]⟩⟩
      dsimp only at h; omega
    · rw [if_neg b]
      obtain ⟨h₃, h₄, h₅⟩ := h₃ (by omega)
      by_cases c : l.count = l.max
      · rw [if_pos c]
        refine ⟨_, rfl, by simp [h₁], fun h => ?_, fun _ => ⟨by dsimp only; omega, by dsimp only; omega, by simp [h₅]⟩⟩
        dsimp only at h; omega
      · rw [if_neg c, if_pos (by omega)]
        refine ⟨_, rfl, by simp [h₁], fun h => ?_, fun _ => ⟨by dsimp only; omega, h₄, by simp [h₅]⟩⟩
        dsimp only at h; omega

/-- Add edges one after another. -/
def addEdges : Edges → List Nat → Option Edges
  | l, [] => some l
  | l, e :: es =>
    match addEdge l e with
    | none => none
    | some l => addEdges l es

theorem addEdges_ok : ∀ (es : List Nat) {l : Edges} {ds : List Nat}, EdgesOk l ds →
    ∃ l', addEdges l es = some l' ∧ EdgesOk l' (ds ++ es)
  | [], l, ds, h => ⟨l, rfl, by simpa using h⟩
  | e :: es, l, ds, h => by
    obtain ⟨l', h₁, h₂⟩ := addEdge_ok h e
    obtain ⟨l'', h₃, h₄⟩ := addEdges_ok es h₂
    refine ⟨l'', ?_, by simpa using h₄⟩
    simp only [addEdges, h₁, h₃]

/-- The edges that were added can be read, in order, however many there are. -/
theorem addEdge_get (es : List Nat) : ∃ l, addEdges .empty es = some l ∧ l.count = es.length ∧
    ∀ nth, getEdge l nth = es[nth]? := by
  obtain ⟨l, h₁, h₂⟩ := addEdges_ok es (l := .empty) (ds := [])
    ⟨rfl, fun _ => ⟨rfl, rfl⟩, fun h => absurd h (by decide)⟩
  rw [List.nil_append] at h₂
  refine ⟨l, h₁, h₂.count, fun nth => ?_⟩
  have := h₂.count
  unfold getEdge
  by_cases a : nth < l.count
  · rw [if_pos a]
    by_cases b : l.count ≤ 4
    · obtain ⟨h₃, h₄⟩ := h₂.small b
      rw [if_pos (by omega), h₄]
    · obtain ⟨h₃, h₄, h₅⟩ := h₂.large (by omega)
      rw [if_neg (by omega), h₅]
  · rw [if_neg a, List.getElem?_eq_none (by omega)]

/-! ### The graph -/

/-- The graph has these entries and edges. -/
def Sem (cfg : List Block) (E : Nat → Prop) (R : Nat → Nat → Prop) : Prop :=
  ∀ (i : Nat) b, cfg[i]? = some b →
    (b.entry = true ↔ E i) ∧ (∀ p, p ∈ b.preds ↔ R p i) ∧ ∀ q, q ∈ b.succs ↔ R i q

theorem Sem.congr {cfg : List Block} {E E' : Nat → Prop} {R R' : Nat → Nat → Prop}
    (h : Sem cfg E R) (hE : ∀ i, E i ↔ E' i) (hR : ∀ i j, R i j ↔ R' i j) : Sem cfg E' R' := by
  intro i b hb
  obtain ⟨h₁, h₂, h₃⟩ := h i b hb
  exact ⟨h₁.trans (hE i), fun p => (h₂ p).trans (hR p i), fun q => (h₃ q).trans (hR i q)⟩

theorem cfgAddEdge_sem {cfg cfg' : List Block} {E : Nat → Prop} {R : Nat → Nat → Prop}
    (h : Sem cfg E R) {s d : Nat} (hc : cfgAddEdge cfg s d = some cfg') :
    cfg'.length = cfg.length ∧ Sem cfg' E fun i j => R i j ∨ (i = s ∧ j = d) := by
  unfold cfgAddEdge at hc
  cases hs : cfg[s]? with
  | none => rw [hs] at hc; cases hc
  | some b =>
    rw [hs] at hc
    dsimp only at hc
    cases hd : (cfg.set s { b with succs := b.succs ++ [d] })[d]? with
    | none => rw [hd] at hc; cases hc
    | some b' =>
      rw [hd] at hc
      cases hc
      refine ⟨by simp, ?_⟩
      obtain ⟨hsl, -⟩ := List.getElem?_eq_some_iff.1 hs
      -- the graph after the first half
      have half : ∀ (i : Nat) c, (cfg.set s { b with succs := b.succs ++ [d] })[i]? = some c →
          (c.entry = true ↔ E i) ∧ (∀ p, p ∈ c.preds ↔ R p i) ∧
          ∀ q, q ∈ c.succs ↔ R i q ∨ (i = s ∧ q = d) := by
        intro i c hc
        rw [List.getElem?_set] at hc
        split at hc
        · next e =>
          subst e
          cases hc
          obtain ⟨h₁, h₂, h₃⟩ := h s b hs
          refine ⟨h₁, h₂, fun q => ?_⟩
          simp [h₃ q]
        · next e =>
          obtain ⟨h₁, h₂, h₃⟩ := h i c hc
          refine ⟨h₁, h₂, fun q => ?_⟩
          rw [h₃ q]
          exact ⟨.inl, fun h => h.elim id fun h => absurd h.1.symm e⟩
      intro i c hc
      rw [List.getElem?_set] at hc
      obtain ⟨hdl, -⟩ := List.getElem?_eq_some_iff.1 hd
      split at hc
      · next e =>
        subst e
        cases hc
        obtain ⟨h₁, h₂, h₃⟩ := half d b' hd
        refine ⟨h₁, fun p => ?_, h₃⟩
        simp [h₂ p]
      · next e =>
        obtain ⟨h₁, h₂, h₃⟩ := half i c hc
        refine ⟨h₁, fun p => ?_, h₃⟩
        rw [h₂ p]
        exact ⟨.inl, fun h => h.elim id fun h => absurd h.2.symm e⟩

theorem cfgArgs_sem {E : Nat → Prop} (s : Nat) : ∀ (args : List Arg) {cfg cfg' : List Block}
    {R : Nat → Nat → Prop}, Sem cfg E R → cfgArgs s args cfg = some cfg' →
    cfg'.length = cfg.length ∧ Sem cfg' E fun i j => R i j ∨ (i = s ∧ .block j ∈ args)
  | [], cfg, cfg', R, h, hc => by
    cases hc
    exact ⟨rfl, h.congr (fun _ => .rfl) fun i j => by simp⟩
  | .other :: as, cfg, cfg', R, h, hc => by
    obtain ⟨h₁, h₂⟩ := cfgArgs_sem s as h hc
    exact ⟨h₁, h₂.congr (fun _ => .rfl) fun i j => by simp⟩
  | .block d :: as, cfg, cfg', R, h, hc => by
    unfold cfgArgs at hc
    cases ha : cfgAddEdge cfg s d with
    | none => rw [ha] at hc; cases hc
    | some c =>
      rw [ha] at hc
      obtain ⟨h₁, h₂⟩ := cfgAddEdge_sem h ha
      obtain ⟨h₃, h₄⟩ := cfgArgs_sem s as h₂ hc
      refine ⟨h₃.trans h₁, h₄.congr (fun _ => .rfl) fun i j => ?_⟩
      simp only [List.mem_cons, Arg.block.injEq]
      constructor
      · rintro ((h | h) | h)
        · exact .inl h
        · exact .inr ⟨h.1, .inl h.2⟩
        · exact .inr ⟨h.1, .inr h.2⟩
      · rintro (h | ⟨h, h' | h'⟩)
        · exact .inl (.inl h)
        · exact .inl (.inr ⟨h, h'⟩)
        · exact .inr ⟨h, h'⟩

theorem cfgTerm_sem {E : Nat → Prop} {R : Nat → Nat → Prop} {s : Nat} {t : Term}
    {cfg cfg' : List Block} (h : Sem cfg E R) (hc : cfgTerm s t cfg = some cfg') :
    cfg'.length = cfg.length ∧
    Sem cfg' (fun j => E j ∨ t = .wait j)
      fun i j => R i j ∨ (i = s ∧ ∃ args, t = .other args ∧ .block j ∈ args) := by
  unfold cfgTerm at hc
  cases t with
  | wait r =>
    dsimp only at hc
    cases hr : cfg[r]? with
    | none => rw [hr] at hc; cases hc
    | some b =>
      rw [hr] at hc
      cases hc
      obtain ⟨hl, -⟩ := List.getElem?_eq_some_iff.1 hr
      refine ⟨by simp, ?_⟩
      intro i c hc
      rw [List.getElem?_set] at hc
      split at hc
      · next e =>
        subst e
        cases hc
        obtain ⟨h₁, h₂, h₃⟩ := h r b hr
        exact ⟨by simp, by simpa using h₂, by simpa using h₃⟩
      · next e =>
        obtain ⟨h₁, h₂, h₃⟩ := h i c hc
        exact ⟨by simp [h₁, e], by simpa using h₂, by simpa using h₃⟩
  | ret => cases hc; exact ⟨rfl, h.congr (by simp) (by simp)⟩
  | other args =>
    dsimp only at hc
    split at hc
    · obtain ⟨h₁, h₂⟩ := cfgArgs_sem s args h hc
      exact ⟨h₁, h₂.congr (by simp) (by simp)⟩
    · cases hc

theorem edge_append {pre : List Term} {t : Term} {i j : Nat} : Edge (pre ++ [t]) i j ↔
    Edge pre i j ∨ (i = pre.length ∧ ∃ args, t = .other args ∧ .block j ∈ args) := by
  unfold Edge
  constructor
  · rintro ⟨args, h₁, h₂⟩
    by_cases hi : i < pre.length
    · rw [List.getElem?_append_left hi] at h₁
      exact .inl ⟨args, h₁, h₂⟩
    · obtain ⟨hl, -⟩ := List.getElem?_eq_some_iff.1 h₁
      simp at hl
      have : i = pre.length := by omega
      subst this
      simp at h₁
      exact .inr ⟨rfl, args, h₁, h₂⟩
  · rintro (⟨args, h₁, h₂⟩ | ⟨rfl, args, h₁, h₂⟩)
    · obtain ⟨hl, -⟩ := List.getElem?_eq_some_iff.1 h₁
      exact ⟨args, by rw [List.getElem?_append_left hl]; exact h₁, h₂⟩
    · exact ⟨args, by simp [h₁], h₂⟩

theorem entry_append {pre : List Term} {t : Term} {j : Nat} : Entry (pre ++ [t]) j ↔
    Entry pre j ∨ t = .wait j := by
  unfold Entry
  constructor
  · rintro (h | ⟨i, h⟩)
    · exact .inl (.inl h)
    · by_cases hi : i < pre.length
      · rw [List.getElem?_append_left hi] at h
        exact .inl (.inr ⟨i, h⟩)
      · obtain ⟨hl, -⟩ := List.getElem?_eq_some_iff.1 h
        simp at hl
        have : i = pre.length := by omega
        subst this
        simp at h
        exact .inr h
  · rintro ((h | ⟨i, h⟩) | h)
    · exact .inl h
    · obtain ⟨hl, -⟩ := List.getElem?_eq_some_iff.1 h
      exact .inr ⟨i, by rw [List.getElem?_append_left hl]; exact h⟩
    · exact .inr ⟨pre.length, by simp [h]⟩

theorem cfgTerms_sem : ∀ (ts pre : List Term) {cfg cfg' : List Block}, Sem cfg (Entry pre) (Edge pre) →
    cfgTerms pre.length ts cfg = some cfg' →
    cfg'.length = cfg.length ∧ Sem cfg' (Entry (pre ++ ts)) (Edge (pre ++ ts))
  | [], pre, cfg, cfg', h, hc => by cases hc; simpa using h
  | t :: ts, pre, cfg, cfg', h, hc => by
    unfold cfgTerms at hc
    cases ha : cfgTerm pre.length t cfg with
    | none => rw [ha] at hc; cases hc
    | some c =>
      rw [ha] at hc
      obtain ⟨h₁, h₂⟩ := cfgTerm_sem h ha
      have h₂ : Sem c (Entry (pre ++ [t])) (Edge (pre ++ [t])) :=
        h₂.congr (fun _ => entry_append.symm) fun _ _ => edge_append.symm
      obtain ⟨h₃, h₄⟩ := cfgTerms_sem ts (pre ++ [t]) h₂ (by simpa using hc)
      exact ⟨h₃.trans h₁, by simpa using h₄⟩

/-- The graph is the one of the blocks. -/
theorem getCfg_sem {ts : List Term} {cfg : List Block} (h : getCfg ts = some cfg) :
    cfg.length = ts.length ∧ Sem cfg (Entry ts) (Edge ts) := by
  unfold getCfg at h
  split at h
  · cases h
  · next b bs hb =>
    have hlen : (b :: bs).length = ts.length := by rw [← hb]; simp
    have hall : ∀ c ∈ b :: bs, c = ⟨false, [], []⟩ := by
      intro c hc
      rw [← hb] at hc
      exact List.eq_of_mem_replicate hc
    have h0 : Sem ({ b with entry := true } :: bs) (Entry []) (Edge []) := by
      intro i c hc
      cases i with
      | zero =>
        simp at hc
        have := hall b (by simp)
        subst this hc
        simp [Entry, Edge]
      | succ i =>
        simp at hc
        have := hall c (by simp [List.mem_of_getElem? hc])
        subst this
        simp [Entry, Edge]
    obtain ⟨h₁, h₂⟩ := cfgTerms_sem ts [] h0 h
    exact ⟨by rw [h₁, ← hlen]; simp, by simpa using h₂⟩

theorem cfgArgs_some (s : Nat) : ∀ (args : List Arg) (cfg : List Block), s < cfg.length →
    (∀ j, .block j ∈ args → j < cfg.length) →
    ∃ cfg', cfgArgs s args cfg = some cfg' ∧ cfg'.length = cfg.length
  | [], cfg, _, _ => ⟨cfg, rfl, rfl⟩
  | .other :: as, cfg, hs, h => cfgArgs_some s as cfg hs fun j hj => h j (by simp [hj])
  | .block d :: as, cfg, hs, h => by
    have hd := h d (by simp)
    have : ∃ c, cfgAddEdge cfg s d = some c ∧ c.length = cfg.length := by
      unfold cfgAddEdge
      rw [List.getElem?_eq_getElem hs]
      dsimp only
      rw [List.getElem?_eq_getElem (by simpa using hd)]
      exact ⟨_, rfl, by simp⟩
    obtain ⟨c, h₁, h₂⟩ := this
    obtain ⟨c', h₃, h₄⟩ := cfgArgs_some s as c (by omega) fun j hj => by
      rw [h₂]; exact h j (by simp [hj])
    refine ⟨c', ?_, h₄.trans h₂⟩
    simp only [cfgArgs, h₁, h₃]

theorem cfgTerms_some : ∀ (ts : List Term) (s : Nat) (cfg : List Block),
    s + ts.length ≤ cfg.length →
    (∀ t ∈ ts, (∀ r, t = .wait r → r < cfg.length) ∧
      ∀ args, t = .other args → args.length ≤ 4 ∧ ∀ j, .block j ∈ args → j < cfg.length) →
    ∃ cfg', cfgTerms s ts cfg = some cfg'
  | [], s, cfg, _, _ => ⟨cfg, rfl⟩
  | t :: ts, s, cfg, hs, h => by
    simp at hs
    have : ∃ c, cfgTerm s t cfg = some c ∧ c.length = cfg.length := by
      obtain ⟨h₁, h₂⟩ := h t (by simp)
      cases t with
      | wait r =>
        unfold cfgTerm
        dsimp only
        rw [List.getElem?_eq_getElem (h₁ r rfl)]
        exact ⟨_, rfl, by simp⟩
      | ret => exact ⟨cfg, rfl, rfl⟩
      | other args =>
        obtain ⟨h₃, h₄⟩ := h₂ args rfl
        unfold cfgTerm
        dsimp only
        rw [if_pos h₃]
        exact cfgArgs_some s args cfg (by omega) h₄
    obtain ⟨c, h₁, h₂⟩ := this
    obtain ⟨c', h₃⟩ := cfgTerms_some ts (s + 1) c (by omega) fun t ht => by
      rw [h₂]; exact h t (by simp [ht])
    exact ⟨c', by simp only [cfgTerms, h₁, h₃]⟩

/-- The graph is built when no operation has more than four arguments. -/
theorem getCfg_some {ts : List Term} (h : WellFormed ts)
    (h4 : ∀ args, .other args ∈ ts → args.length ≤ 4) : ∃ cfg, getCfg ts = some cfg := by
  obtain ⟨h₀, h₁, h₂⟩ := h
  unfold getCfg
  split
  · next hb =>
    have := congrArg List.length hb
    rw [List.length_replicate, List.length_nil] at this; omega
  · next b bs hb =>
    have hlen : bs.length + 1 = ts.length := by
      have := congrArg List.length hb
      simp at this; omega
    refine cfgTerms_some ts 0 _ (by simp; omega) fun t ht => ?_
    obtain ⟨i, hi⟩ := List.getElem?_of_mem ht
    refine ⟨fun r e => ?_, fun args e => ⟨h4 args (e ▸ ht), fun j hj => ?_⟩⟩
    · have := h₂ i r (e ▸ hi)
      simp; omega
    · have := h₁ i j ⟨args, e ▸ hi, hj⟩
      simp; omega

/-! ### Masks -/

/-- Whether the bit `j` of the mask of block `i` is set. -/
def bit (dom : List (List Bool)) (i j : Nat) : Bool := (dom.getD i []).getD j false

/-- There is one mask per block, with one bit per block. -/
def Shape (n : Nat) (dom : List (List Bool)) : Prop :=
  dom.length = n ∧ ∀ i, i < n → (dom.getD i []).length = n

theorem foldl_and {n : Nat} {dom : List (List Bool)} (hs : Shape n dom) : ∀ (ps : List Nat)
    (acc : List Bool), acc.length = n → (∀ p ∈ ps, p < n) →
    (ps.foldl (fun acc p => List.zipWith (· && ·) acc (dom.getD p [])) acc).length = n ∧
    ∀ j, (ps.foldl (fun acc p => List.zipWith (· && ·) acc (dom.getD p [])) acc).getD j false =
      (acc.getD j false && ps.all fun p => bit dom p j)
  | [], acc, ha, _ => ⟨ha, fun j => by simp⟩
  | p :: ps, acc, ha, hp => by
    have hpl := hs.2 p (hp p (by simp))
    obtain ⟨h₁, h₂⟩ := foldl_and hs ps (List.zipWith (· && ·) acc (dom.getD p []))
      (by rw [List.length_zipWith, ha, hpl]; omega) fun q hq => hp q (by simp [hq])
    refine ⟨h₁, fun j => ?_⟩
    rw [List.foldl_cons, h₂ j, List.all_cons]
    have : (List.zipWith (· && ·) acc (dom.getD p [])).getD j false =
        (acc.getD j false && bit dom p j) := by
      unfold bit
      simp only [List.getD_eq_getElem?_getD, List.getElem?_zipWith]
      by_cases hj : j < n
      · rw [List.getElem?_eq_getElem (l := acc) (by omega),
          List.getElem?_eq_getElem (l := dom[p]?.getD []) (by
            rw [List.getD_eq_getElem?_getD] at hpl; omega)]
        rfl
      · rw [List.getElem?_eq_none (l := acc) (by omega)]
        rfl
    rw [this, Bool.and_assoc]

/-- All predecessors exist. -/
def Closed (cfg : List Block) : Prop :=
  ∀ (i : Nat) b, cfg[i]? = some b → ∀ p ∈ b.preds, p < cfg.length

theorem newRow_spec {cfg : List Block} {dom : List (List Bool)} (hs : Shape cfg.length dom)
    (hc : Closed cfg) {i : Nat} {b : Block} (hb : cfg[i]? = some b) :
    (newRow cfg dom i b).length = cfg.length ∧ ∀ j, j < cfg.length →
      (newRow cfg dom i b).getD j false = (decide (j = i) || b.preds.all fun p => bit dom p j) := by
  obtain ⟨h₁, h₂⟩ := foldl_and hs b.preds (List.replicate cfg.length true) (by simp) (hc i b hb)
  unfold newRow
  refine ⟨by rw [List.length_set]; exact h₁, fun j hj => ?_⟩
  have h₂ := h₂ j
  rw [List.getD_eq_getElem?_getD] at h₂ ⊢
  rw [List.getElem?_set]
  by_cases e : i = j
  · subst e
    rw [if_pos rfl, if_pos (by rw [h₁]; exact hj)]
    simp
  · rw [if_neg e, h₂]
    have : decide (j = i) = false := by simp; omega
    rw [this]
    simp [List.getD_eq_getElem?_getD, List.getElem?_replicate, hj]

theorem bit_set {dom : List (List Bool)} {i : Nat} (hi : i < dom.length) (row : List Bool)
    (k j : Nat) : bit (dom.set i row) k j = if k = i then row.getD j false else bit dom k j := by
  unfold bit
  simp only [List.getD_eq_getElem?_getD, List.getElem?_set]
  by_cases e : i = k
  · subst e
    rw [if_pos rfl, if_pos rfl, if_pos hi]
    rfl
  · rw [if_neg e, if_neg (fun h => e h.symm)]

theorem shape_set {n : Nat} {dom : List (List Bool)} (h : Shape n dom) {row : List Bool}
    (hr : row.length = n) (i : Nat) : Shape n (dom.set i row) := by
  refine ⟨by simpa using h.1, fun k hk => ?_⟩
  have := h.2 k hk
  simp only [List.getD_eq_getElem?_getD, List.getElem?_set] at this ⊢
  split
  · next e =>
    subst e
    rw [if_pos (by rw [h.1]; exact hk)]
    exact hr
  · exact this

/-- A property that every update keeps holds after the loop over the blocks. -/
theorem sweep_inv {cfg : List Block} {P : List (List Bool) → Prop}
    (hP : ∀ dom (i : Nat) b, cfg[i]? = some b → b.entry = false → P dom →
      P (dom.set i (newRow cfg dom i b))) :
    ∀ (bs : List Block) (i : Nat) (s : List (List Bool) × Bool), bs = cfg.drop i → P s.1 →
      P (sweep cfg i bs s).1
  | [], i, s, _, h => h
  | b :: bs, i, (dom, c), hd, h => by
    have hb : cfg[i]? = some b := by
      have := congrArg (·[0]?) hd
      simpa using this.symm
    have hd' : bs = cfg.drop (i + 1) := by
      have := congrArg List.tail hd
      simpa using this
    unfold sweep
    split
    · exact sweep_inv hP bs (i + 1) _ hd' h
    · next he =>
      exact sweep_inv hP bs (i + 1) _ hd' (hP dom i b hb (by simpa using he) h)

theorem iterate_inv {cfg : List Block} {P : List (List Bool) → Prop}
    (hP : ∀ dom (i : Nat) b, cfg[i]? = some b → b.entry = false → P dom →
      P (dom.set i (newRow cfg dom i b))) :
    ∀ (fuel : Nat) (dom dom' : List (List Bool)), P dom → iterate cfg fuel dom = some dom' → P dom'
  | 0, dom, dom', _, h => by cases h
  | fuel + 1, dom, dom', hp, h => by
    unfold iterate at h
    have := sweep_inv hP cfg 0 (dom, false) (by simp) hp
    split at h
    next d c e =>
    rw [e] at this
    split at h
    · exact iterate_inv hP fuel _ _ this h
    · cases h; exact this

/-- Nothing changed: every mask is the one computed from the others. -/
theorem sweep_false {cfg : List Block} : ∀ (bs : List Block) (i : Nat) (dom : List (List Bool))
    (c : Bool), bs = cfg.drop i → dom.length = cfg.length →
    (sweep cfg i bs (dom, c)).2 = false → c = false ∧ (sweep cfg i bs (dom, c)).1 = dom ∧
      ∀ (k : Nat) b, i ≤ k → cfg[k]? = some b → b.entry = false →
        newRow cfg dom k b = dom.getD k []
  | [], i, dom, c, hd, _, h => by
    refine ⟨h, rfl, fun k b hk hb => ?_⟩
    have := congrArg List.length hd
    simp at this
    obtain ⟨hl, -⟩ := List.getElem?_eq_some_iff.1 hb
    omega
  | b :: bs, i, dom, c, hd, hl, h => by
    have hb : cfg[i]? = some b := by
      have := congrArg (·[0]?) hd
      simpa using this.symm
    have hd' : bs = cfg.drop (i + 1) := by
      have := congrArg List.tail hd
      simpa using this
    have hi : i < dom.length := by
      obtain ⟨hl', -⟩ := List.getElem?_eq_some_iff.1 hb
      omega
    unfold sweep at h ⊢
    by_cases he : b.entry = true
    · rw [if_pos he] at h ⊢
      obtain ⟨h₁, h₂, h₃⟩ := sweep_false bs (i + 1) dom c hd' hl h
      refine ⟨h₁, h₂, fun k b' hk hb' he' => ?_⟩
      by_cases e : k = i
      · subst e
        rw [hb] at hb'
        cases hb'
        rw [he] at he'; cases he'
      · exact h₃ k b' (by omega) hb' he'
    · rw [if_neg he] at h ⊢
      dsimp only at h ⊢
      obtain ⟨h₁, h₂, h₃⟩ := sweep_false bs (i + 1) _ _ hd' (by simpa using hl) h
      rw [Bool.or_eq_false_iff] at h₁
      have heq : newRow cfg dom i b = dom.getD i [] := by simpa using h₁.2
      have hset : dom.set i (newRow cfg dom i b) = dom := by
        rw [heq, List.getD_eq_getElem?_getD, List.getElem?_eq_getElem hi]
        simp
      rw [hset] at h₂ h₃ ⊢
      refine ⟨h₁.1, h₂, fun k b' hk hb' he' => ?_⟩
      by_cases e : k = i
      · subst e
        rw [hb] at hb'
        cases hb'
        exact heq
      · exact h₃ k b' (by omega) hb' he'

/-! ### The loop ends -/

/-- The number of bits that are set. -/
def total (dom : List (List Bool)) : Nat := (dom.map (·.count true)).sum

/-- What is computed for a block is part of what it has. -/
def Down (cfg : List Block) (dom : List (List Bool)) : Prop :=
  ∀ (i : Nat) b, cfg[i]? = some b → b.entry = false → ∀ j, j < cfg.length →
    (newRow cfg dom i b).getD j false = true → bit dom i j = true

theorem count_mono : ∀ (a b : List Bool), a.length = b.length →
    (∀ j, a.getD j false = true → b.getD j false = true) →
    a.count true ≤ b.count true ∧ (a ≠ b → a.count true < b.count true)
  | [], [], _, _ => ⟨Nat.le_refl _, fun h => absurd rfl h⟩
  | x :: a, y :: b, hl, h => by
    obtain ⟨h₁, h₂⟩ := count_mono a b (by simpa using hl) fun j => by
      have := h (j + 1)
      simpa using this
    have h0 := h 0
    simp only [List.getD_cons_zero] at h0
    cases x <;> cases y <;> simp at h0 ⊢
    · exact ⟨h₁, h₂⟩
    · exact ⟨by omega, by omega⟩
    · exact ⟨h₁, h₂⟩

theorem total_set : ∀ (dom : List (List Bool)) (i : Nat) (row : List Bool), i < dom.length →
    total (dom.set i row) + (dom.getD i []).count true = total dom + row.count true
  | [], i, row, h => by cases h
  | r :: dom, 0, row, h => by simp [total]; omega
  | r :: dom, i + 1, row, h => by
    have := total_set dom i row (by simpa using h)
    simp [total] at this ⊢
    omega

theorem down_set {cfg : List Block} {dom : List (List Bool)} (hs : Shape cfg.length dom)
    (hc : Closed cfg) (hd : Down cfg dom) {i : Nat} {b : Block} (hb : cfg[i]? = some b)
    (he : b.entry = false) : Down cfg (dom.set i (newRow cfg dom i b)) := by
  obtain ⟨hil, -⟩ := List.getElem?_eq_some_iff.1 hb
  have hi : i < dom.length := by rw [hs.1]; exact hil
  obtain ⟨r₁, r₂⟩ := newRow_spec hs hc hb
  have hs' := shape_set hs r₁ i
  -- fewer bits than before
  have less : ∀ k j, j < cfg.length → bit (dom.set i (newRow cfg dom i b)) k j = true →
      bit dom k j = true := by
    intro k j hj h
    rw [bit_set hi] at h
    split at h
    · next e => subst e; exact hd k b hb he j hj h
    · exact h
  intro k c hk hke j hj h
  have : (newRow cfg dom k c).getD j false = true := by
    rw [(newRow_spec hs' hc hk).2 j hj] at h
    rw [(newRow_spec hs hc hk).2 j hj]
    rw [Bool.or_eq_true, List.all_eq_true] at h ⊢
    exact h.imp id fun h p hp => less p j hj (h p hp)
  rw [bit_set hi]
  split
  · next e =>
    subst e
    rw [hb] at hk
    cases hk
    exact this
  · exact hd k c hk hke j hj this

theorem row_ext {a b : List Bool} (hl : a.length = b.length)
    (h : ∀ j, j < a.length → a.getD j false = b.getD j false) : a = b := by
  apply List.ext_getElem hl
  intro j h₁ h₂
  have := h j h₁
  simpa [List.getD_eq_getElem?_getD, h₁, h₂] using this

theorem update_total {cfg : List Block} {dom : List (List Bool)} (hs : Shape cfg.length dom)
    (hc : Closed cfg) (hd : Down cfg dom) {i : Nat} {b : Block} (hb : cfg[i]? = some b)
    (he : b.entry = false) : total (dom.set i (newRow cfg dom i b)) ≤ total dom ∧
      (newRow cfg dom i b ≠ dom.getD i [] →
        total (dom.set i (newRow cfg dom i b)) < total dom) := by
  obtain ⟨hil, -⟩ := List.getElem?_eq_some_iff.1 hb
  obtain ⟨r₁, r₂⟩ := newRow_spec hs hc hb
  have := total_set dom i (newRow cfg dom i b) (by rw [hs.1]; exact hil)
  obtain ⟨m₁, m₂⟩ := count_mono (newRow cfg dom i b) (dom.getD i [])
    (by rw [r₁, hs.2 i hil]) fun j h => by
      by_cases hj : j < cfg.length
      · exact hd i b hb he j hj h
      · rw [List.getD_eq_getElem?_getD, List.getElem?_eq_none (by omega)] at h
        cases h
  exact ⟨by omega, fun h => by have := m₂ h; omega⟩

theorem sweep_total {cfg : List Block} (hc : Closed cfg) : ∀ (bs : List Block) (i : Nat)
    (dom : List (List Bool)) (c : Bool), bs = cfg.drop i → Shape cfg.length dom → Down cfg dom →
    total (sweep cfg i bs (dom, c)).1 ≤ total dom ∧
    ((sweep cfg i bs (dom, c)).2 = true → c = false → total (sweep cfg i bs (dom, c)).1 < total dom)
  | [], i, dom, c, _, _, _ => ⟨Nat.le_refl _, fun h h' => by
      simp only [sweep] at h; rw [h'] at h; cases h⟩
  | b :: bs, i, dom, c, hd, hs, hdn => by
    have hb : cfg[i]? = some b := by
      have := congrArg (·[0]?) hd
      simpa using this.symm
    have hd' : bs = cfg.drop (i + 1) := by
      have := congrArg List.tail hd
      simpa using this
    unfold sweep
    split
    · exact sweep_total hc bs (i + 1) dom c hd' hs hdn
    · next he =>
      have he : b.entry = false := by simpa using he
      dsimp only
      obtain ⟨t₁, t₂⟩ := update_total hs hc hdn hb he
      obtain ⟨h₁, h₂⟩ := sweep_total hc bs (i + 1) (dom.set i (newRow cfg dom i b))
        (c || newRow cfg dom i b != dom.getD i []) hd'
        (shape_set hs (newRow_spec hs hc hb).1 i) (down_set hs hc hdn hb he)
      refine ⟨by omega, fun hch hcf => ?_⟩
      by_cases e : newRow cfg dom i b = dom.getD i []
      · have := h₂ hch (by rw [hcf, e]; simp)
        omega
      · have := t₂ e; omega

theorem iterate_some {cfg : List Block} (hc : Closed cfg) : ∀ (fuel : Nat)
    (dom : List (List Bool)), Shape cfg.length dom → Down cfg dom → total dom < fuel →
    ∃ dom', iterate cfg fuel dom = some dom' ∧ dom'.length = cfg.length ∧
      ∀ (k : Nat) b, cfg[k]? = some b → b.entry = false → newRow cfg dom' k b = dom'.getD k []
  | 0, dom, _, _, h => by omega
  | fuel + 1, dom, hs, hd, h => by
    obtain ⟨t₁, t₂⟩ := sweep_total hc cfg 0 dom false (by simp) hs hd
    have keep := sweep_inv (cfg := cfg) (P := fun d => Shape cfg.length d ∧ Down cfg d)
      (fun d i b hb he hp => ⟨shape_set hp.1 (newRow_spec hp.1 hc hb).1 i,
        down_set hp.1 hc hp.2 hb he⟩) cfg 0 (dom, false) (by simp) ⟨hs, hd⟩
    unfold iterate
    cases hsw : sweep cfg 0 cfg (dom, false) with
    | mk d c =>
      rw [hsw] at t₁ t₂ keep
      dsimp only at t₁ t₂ keep ⊢
      cases c with
      | true =>
        rw [if_pos rfl]
        have := t₂ rfl rfl
        exact iterate_some hc fuel d keep.1 keep.2 (by omega)
      | false =>
        obtain ⟨-, h₂, h₃⟩ := sweep_false cfg 0 dom false (by simp) hs.1 (by rw [hsw])
        rw [hsw] at h₂
        dsimp only at h₂
        subst h₂
        exact ⟨d, rfl, hs.1, fun k b hb he => h₃ k b (by omega) hb he⟩

/-! ### The result -/

theorem initDom_get {cfg : List Block} {i : Nat} {b : Block} (hb : cfg[i]? = some b) :
    (initDom cfg).getD i [] = if b.entry then (List.replicate cfg.length false).set i true
      else List.replicate cfg.length true := by
  unfold initDom
  rw [List.getD_eq_getElem?_getD, List.getElem?_mapIdx, hb]
  rfl

theorem initDom_shape (cfg : List Block) : Shape cfg.length (initDom cfg) := by
  refine ⟨by simp [initDom], fun i hi => ?_⟩
  rw [initDom_get (List.getElem?_eq_getElem hi)]
  split <;> simp

theorem initDom_bit {cfg : List Block} {i j : Nat} {b : Block} (hb : cfg[i]? = some b)
    (hj : j < cfg.length) : bit (initDom cfg) i j = if b.entry then decide (i = j) else true := by
  unfold bit
  rw [initDom_get hb]
  split
  · rw [List.getD_eq_getElem?_getD, List.getElem?_set]
    by_cases e : i = j
    · subst e; simp [hj]
    · simp [e, List.getElem?_replicate, hj]
  · simp [List.getD_eq_getElem?_getD, List.getElem?_replicate, hj]

theorem total_le {n : Nat} {dom : List (List Bool)} (h : ∀ r ∈ dom, r.length = n) :
    total dom ≤ dom.length * n := by
  induction dom with
  | nil => simp [total]
  | cons r dom ih =>
    have h₁ := ih fun r hr => h r (by simp [hr])
    have h₂ : r.count true ≤ n := by rw [← h r (by simp)]; exact List.count_le_length
    simp only [total, List.map_cons, List.sum_cons, List.length_cons] at h₁ ⊢
    rw [Nat.succ_mul]; omega

/-- The loop ends, and every mask is the one computed from the masks of the predecessors. -/
theorem dominators_fixed {cfg : List Block} (hc : Closed cfg) :
    ∃ dom, dominators cfg = some dom ∧ Shape cfg.length dom ∧
      (∀ (i : Nat) b, cfg[i]? = some b → b.entry = true → ∀ j, j < cfg.length →
        bit dom i j = decide (i = j)) ∧
      ∀ (i : Nat) b, cfg[i]? = some b → b.entry = false → ∀ j, j < cfg.length →
        bit dom i j = (decide (j = i) || b.preds.all fun p => bit dom p j) := by
  have hs := initDom_shape cfg
  have hd : Down cfg (initDom cfg) := by
    intro i b hb he j hj _
    rw [initDom_bit hb hj, he]
    rfl
  have ht : total (initDom cfg) < cfg.length * cfg.length + 1 := by
    have := total_le (n := cfg.length) (dom := initDom cfg) fun r hr => by
      obtain ⟨i, hi⟩ := List.getElem?_of_mem hr
      obtain ⟨hl, -⟩ := List.getElem?_eq_some_iff.1 hi
      have := hs.2 i (by rw [← hs.1]; exact hl)
      rw [List.getD_eq_getElem?_getD, hi] at this
      exact this
    rw [hs.1] at this
    omega
  obtain ⟨dom, h₁, -, h₃⟩ := iterate_some hc _ _ hs hd ht
  have inv := iterate_inv (cfg := cfg)
    (P := fun d => Shape cfg.length d ∧ ∀ (i : Nat) b, cfg[i]? = some b → b.entry = true →
      ∀ j, j < cfg.length → bit d i j = decide (i = j))
    (fun d i b hb he hp => ⟨shape_set hp.1 (newRow_spec hp.1 hc hb).1 i, fun k c hk hke j hj => by
      obtain ⟨hil, -⟩ := List.getElem?_eq_some_iff.1 hb
      rw [bit_set (by rw [hp.1.1]; exact hil), if_neg]
      · exact hp.2 k c hk hke j hj
      · intro e
        subst e
        rw [hb] at hk
        cases hk
        rw [he] at hke; cases hke⟩) _ _ _
    ⟨hs, fun i b hb he j hj => by rw [initDom_bit hb hj, he]; rfl⟩ h₁
  refine ⟨dom, h₁, inv.1, inv.2, fun i b hb he j hj => ?_⟩
  have := (newRow_spec inv.1 hc hb).2 j hj
  rw [h₃ i b hb he] at this
  exact this

/-- All blocks that are mentioned are among the first `n`. -/
def Within (n : Nat) (E : Nat → Prop) (R : Nat → Nat → Prop) : Prop :=
  (∀ i, E i → i < n) ∧ ∀ i j, R i j → i < n ∧ j < n

/-- **C31**: for every control flow graph, with any entries `E` and edges `R`, the loop ends, and `j`
is in the mask of `i` if and only if every path from an entry to `i` passes through `j`. -/
theorem dominators_graph {E : Nat → Prop} {R : Nat → Nat → Prop} {cfg : List Block}
    (hw : Within cfg.length E R) (hsem : Sem cfg E R) :
    ∃ dom, dominators cfg = some dom ∧ ∀ i j, i < cfg.length → j < cfg.length →
      (bit dom i j = true ↔ DominatesIn E R j i) := by
  have hc : Closed cfg := fun i b hb p hp => (hw.2 p i (((hsem i b hb).2.1 p).1 hp)).1
  obtain ⟨dom, h₁, hs, h₂, h₃⟩ := dominators_fixed hc
  have path_lt : ∀ {p : List Nat}, Path E R p → ∀ i q, p = i :: q → i < cfg.length := by
    intro p hp
    cases hp with
    | start he =>
      intro i q e
      cases e
      exact hw.1 _ he
    | step _ he =>
      intro i q e
      cases e
      exact (hw.2 _ _ he).2
  refine ⟨dom, h₁, fun i j hi hj => ⟨?_, ?_⟩⟩
  · -- a block in the mask is on every path
    have sound : ∀ {p : List Nat}, Path E R p → ∀ i q, p = i :: q → bit dom i j = true → j ∈ p := by
      intro p hp
      induction hp with
      | start he =>
        next i₀ =>
        intro i q e hb
        obtain rfl : i₀ = i := by cases e; rfl
        have hi := path_lt (.start he) _ _ rfl
        have hbl : cfg[i₀]? = some cfg[i₀] := List.getElem?_eq_getElem (by omega)
        rw [h₂ i₀ _ hbl (((hsem i₀ _ hbl).1).2 he) j (by omega)] at hb
        have : i₀ = j := by simpa using hb
        simp [this]
      | step hp he ih =>
        next i' k q' =>
        intro i q e hb
        cases e
        have hi := path_lt (.step hp he) _ _ rfl
        have hbl : cfg[k]? = some cfg[k] := List.getElem?_eq_getElem (by omega)
        cases hen : cfg[k].entry with
        | true =>
          rw [h₂ k _ hbl hen j (by omega)] at hb
          have : k = j := by simpa using hb
          simp [this]
        | false =>
          rw [h₃ k _ hbl hen j (by omega), Bool.or_eq_true, List.all_eq_true] at hb
          rcases hb with hb | hb
          · have : j = k := by simpa using hb
            simp [this]
          · have := ih i' q' rfl (hb i' (((hsem k _ hbl).2.1 i').2 he))
            exact List.mem_cons_of_mem _ this
    exact fun hb p hp => sound hp i p rfl hb
  · -- a block that is on every path stays in the mask
    intro hdom
    have keep := iterate_inv (cfg := cfg)
      (P := fun d => Shape cfg.length d ∧ ∀ i j, i < cfg.length → j < cfg.length →
        DominatesIn E R j i → bit d i j = true)
      (fun d i b hb he hp => by
        obtain ⟨hil, -⟩ := List.getElem?_eq_some_iff.1 hb
        obtain ⟨r₁, r₂⟩ := newRow_spec hp.1 hc hb
        refine ⟨shape_set hp.1 r₁ i, fun k j hk hj hdom => ?_⟩
        rw [bit_set (by rw [hp.1.1]; exact hil)]
        split
        · next e =>
          subst e
          rw [r₂ j (by omega), Bool.or_eq_true, List.all_eq_true]
          by_cases e : j = k
          · exact .inl (by simpa using e)
          · refine .inr fun p hpp => hp.2 p j ?_ hj fun q hq => ?_
            · have := hc k b hb p hpp
              omega
            · have := hdom _ (.step hq (((hsem k b hb).2.1 p).1 hpp))
              exact (List.mem_cons.1 this).resolve_left e
        · exact hp.2 k j hk hj hdom) _ _ _
      ⟨initDom_shape cfg, fun i j hi hj hdom => by
        have hbl : cfg[i]? = some cfg[i] := List.getElem?_eq_getElem (by omega)
        rw [initDom_bit hbl (by omega)]
        split
        · next he =>
          have := hdom [] (.start (((hsem i _ hbl).1).1 he))
          simp at this
          simp [this]
        · rfl⟩ h₁
    exact keep.2 i j hi hj hdom

/-- The same for a unit. -/
theorem dominators_exact {ts : List Term} (hw : WellFormed ts) {cfg : List Block}
    (hg : getCfg ts = some cfg) :
    ∃ dom, dominators cfg = some dom ∧ ∀ i j, i < ts.length → j < ts.length →
      (bit dom i j = true ↔ Dominates ts j i) := by
  obtain ⟨hl, hsem⟩ := getCfg_sem hg
  obtain ⟨h₀, h₁, h₂⟩ := hw
  rw [← hl]
  refine dominators_graph ⟨?_, ?_⟩ hsem
  · rintro i (rfl | ⟨k, hk⟩)
    · omega
    · have := h₂ k i hk; omega
  · intro i j h
    have := h₁ i j h
    obtain ⟨args, h₃, -⟩ := h
    obtain ⟨h₄, -⟩ := List.getElem?_eq_some_iff.1 h₃
    omega

/-- The same from the blocks, when no last operation has more than four arguments. -/
theorem dominators_exact_partial {ts : List Term} (hw : WellFormed ts)
    (h4 : ∀ args, .other args ∈ ts → args.length ≤ 4) :
    ∃ cfg dom, getCfg ts = some cfg ∧ dominators cfg = some dom ∧
      ∀ i j, i < ts.length → j < ts.length → (bit dom i j = true ↔ Dominates ts j i) := by
  obtain ⟨cfg, hg⟩ := getCfg_some hw h4
  obtain ⟨dom, h₁, h₂⟩ := dominators_exact hw hg
  exact ⟨cfg, dom, hg, h₁, h₂⟩

/-- A `case` with two choices has six arguments: the assertion fails. -/
theorem getCfg_case_counterexample :
    ∃ ts, WellFormed ts ∧ getCfg ts = none := by
  refine ⟨[.other [.other, .block 1, .other, .block 1, .other, .block 1], .ret], ⟨by decide, ?_, ?_⟩,
    by decide⟩
  · rintro i j ⟨args, h, hm⟩
    match i with
    | 0 => simp at h; subst h; simp at hm; subst hm; decide
    | 1 => simp at h
    | i + 2 => simp at h
  · intro i j h
    match i with
    | 0 => simp at h
    | 1 => simp at h
    | i + 2 => simp at h

/-! ### Examples -/

/-- A loop that can be entered at two places, and an unreachable block. -/
def exampleTerms : List Term :=
  [.other [.other, .block 1, .block 2], .other [.block 2], .other [.other, .block 1, .block 3], .ret,
   .other [.block 3]]

example : (getCfg exampleTerms).bind dominators = some
    [[true, false, false, false, false], [true, true, false, false, false],
     [true, false, true, false, false], [true, false, true, true, false],
     [true, true, true, true, true]] := by decide

example : WellFormed exampleTerms ∧ ∀ args, .other args ∈ exampleTerms → args.length ≤ 4 := by
  refine ⟨⟨by decide, ?_, ?_⟩, by intro args h; simp [exampleTerms] at h; rcases h with rfl | rfl | rfl | rfl <;> decide⟩
  · rintro i j ⟨args, h, hm⟩
    match i with
    | 0 => simp [exampleTerms] at h; subst h; simp at hm; simp [exampleTerms]; omega
    | 1 => simp [exampleTerms] at h; subst h; simp at hm; simp [exampleTerms]; omega
    | 2 => simp [exampleTerms] at h; subst h; simp at hm; simp [exampleTerms]; omega
    | 3 => simp [exampleTerms] at h
    | 4 => simp [exampleTerms] at h; subst h; simp at hm; simp [exampleTerms]; omega
    | i + 5 => simp [exampleTerms] at h
  · intro i j h
    match i with
    | 0 | 1 | 2 | 3 | 4 => simp [exampleTerms] at h
    | i + 5 => simp [exampleTerms] at h

end Verif.Dom
