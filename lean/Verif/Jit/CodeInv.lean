import Verif.Jit.CodeOps

/-!
# Invariant of the code cache
-/

namespace Verif.Jit.Code

inductive Key where
  | glob
  | free (t : Nat)
  | open_ (t : Nat)
  | done (i : Nat)
  deriving DecidableEq

def blobReg : Option Blob → Region
  | some b => ⟨b.base, b.size⟩
  | none => ⟨0, 0⟩

def doneReg : Option Done → Region
  | some d => ⟨d.base, d.size⟩
  | none => ⟨0, 0⟩

/-- The pieces of memory. -/
def reg (s : St) : Key → Region
  | .glob => s.gfree
  | .free t => (s.free t).getD ⟨0, 0⟩
  | .open_ t => blobReg (s.blob t)
  | .done i => doneReg s.done[i]?

/-- Pieces lie in pages and have nothing in common. -/
structure Regs (pages : List Nat) (r : Key → Region) : Prop where
  inside : ∀ k, (r k).size ≠ 0 → ∃ p ∈ pages, Inside (r k) p
  disj : ∀ k k', k ≠ k' → Disj (r k) (r k')

def Sub (a b : Region) : Prop :=
  a.size = 0 ∨ (b.base ≤ a.base ∧ a.base + a.size ≤ b.base + b.size)

theorem Regs.sub {pages : List Nat} {r r' : Key → Region} (h : Regs pages r) (src : Key → Key)
    (hsub : ∀ k, Sub (r' k) (r (src k)))
    (hsame : ∀ k k', k ≠ k' → src k = src k' → Disj (r' k) (r' k')) : Regs pages r' := by
  constructor
  · intro k hk
    rcases hsub k with h0 | ⟨h1, h2⟩
    · exact absurd h0 hk
    · obtain ⟨p, hp, hi⟩ := h.inside (src k) (by omega)
      exact ⟨p, hp, by have := hi.1; have := hi.2; unfold Inside; omega⟩
  · intro k k' hne
    by_cases hs : src k = src k'
    · exact hsame k k' hne hs
    · have hd := h.disj _ _ hs
      rcases hsub k with h0 | ⟨h1, h2⟩
      · exact Or.inl h0
      rcases hsub k' with h0' | ⟨h1', h2'⟩
      · exact Or.inr (Or.inl h0')
      unfold Disj at *
      omega

structure Inv (s : St) : Prop where
  pageOk : ∀ p ∈ s.pages, p % 256 = 0
  regs : Regs s.pages (reg s)
  gal : s.gfree.base % 256 = 0 ∧ s.gfree.size % 256 = 0
  fal : ∀ t fr, s.free t = some fr → fr.base % 256 = 0 ∧ fr.size % 256 = 0
  oal : ∀ t b, s.blob t = some b → b.base % 256 = 0 ∧ b.size % 256 = 0
  dal : ∀ d ∈ s.done, d.base % 256 = 0
  adj : ∀ t b, s.blob t = some b → s.free t = some ⟨b.base + b.size, 0⟩
  blobs : ∀ t b, s.blob t = some b → BlobOk s.mem b
  dones : ∀ d ∈ s.done, Linked s.mem d.base d.items ∧ d.size = total d.items ∧ d.size ≠ 0
  spans : ∀ (k : Nat) (sp : Span), s.spans[k]? = some sp →
    (∃ t b, s.blob t = some b ∧ b.sp = k ∧ sp = ⟨b.name, b.base, b.size⟩) ∨
    (∃ d ∈ s.done, sp = ⟨d.name, d.base, d.size⟩) ∨ sp ∈ s.stale
  spanOf : ∀ d ∈ s.done, ∃ (k : Nat), s.spans[k]? = some ⟨d.name, d.base, d.size⟩ ∧
    ∀ t b, s.blob t = some b → b.sp ≠ k
  openSp : ∀ t b, s.blob t = some b → s.spans[b.sp]? = some ⟨b.name, b.base, b.size⟩
  spInj : ∀ t t' b b', s.blob t = some b → s.blob t' = some b' → b.sp = b'.sp → t = t'

theorem alignUp_spec (n : Nat) : alignUp n % 256 = 0 ∧ n ≤ alignUp n ∧
    (∀ m, m % 256 = 0 → n ≤ m → alignUp n ≤ m) := by
  unfold alignUp blobAlign
  refine ⟨by omega, by omega, ?_⟩
  intro m h1 h2
  omega

/-! ## Mapping a page and refilling -/

theorem Inv.page {s : St} (hi : Inv s) {page : Nat} (h1 : page % pageAlign = 0)
    (h2 : ∀ p ∈ s.pages, Apart p page) : Inv (pageNew s page) := by
  unfold pageAlign at h1
  refine { hi with pageOk := ?_, regs := ?_, gal := ?_ }
  · intro p hp
    rcases List.mem_cons.mp hp with hp | hp
    · subst hp; omega
    · exact hi.pageOk p hp
  · have hother : ∀ k, k ≠ .glob → reg (pageNew s page) k = reg s k := by
      intro k hk; cases k <;> first | rfl | exact absurd rfl hk
    have hg : reg (pageNew s page) .glob = ⟨page, pageSize⟩ := rfl
    have hdis : ∀ k, k ≠ .glob → Disj (reg s k) ⟨page, pageSize⟩ := by
      intro k hk
      by_cases h0 : (reg s k).size = 0
      · exact Or.inl h0
      · obtain ⟨p, hp, hin⟩ := hi.regs.inside k h0
        have := h2 p hp
        unfold Apart at this
        have := hin.1
        have := hin.2
        unfold Disj
        simp only
        omega
    constructor
    · intro k hk
      by_cases hkg : k = .glob
      · subst hkg
        rw [hg]
        exact ⟨page, List.mem_cons_self, Nat.le_refl _, Nat.le_refl _⟩
      · rw [hother k hkg] at hk ⊢
        obtain ⟨p, hp, hin⟩ := hi.regs.inside k hk
        exact ⟨p, List.mem_cons_of_mem _ hp, hin⟩
    · intro k k' hne
      by_cases hk : k = .glob
      · subst hk
        rw [hg, hother k' (Ne.symm hne)]
        have := hdis k' (Ne.symm hne)
        unfold Disj at *; omega
      · rw [hother k hk]
        by_cases hk' : k' = .glob
        · subst hk'; rw [hg]; exact hdis k hk
        · rw [hother k' hk']; exact hi.regs.disj k k' hne
  · exact ⟨by show page % 256 = 0; omega, by show pageSize % 256 = 0; decide⟩

def takeN (s : St) (t n : Nat) : St :=
  { s with free := upd s.free t (some ⟨s.gfree.base, n⟩)
           gfree := ⟨s.gfree.base + n, s.gfree.size - n⟩ }

/-- Taking a piece of the global free span. -/
theorem Inv.take {s : St} (hi : Inv s) {t n : Nat} (hb : s.blob t = none) (hn : n ≤ s.gfree.size)
    (ha : n % 256 = 0) :
    Inv (takeN s t n) := by
  have hg := hi.gal
  refine { hi with regs := ?_, gal := ?_, fal := ?_, adj := ?_ }
  · refine hi.regs.sub (fun k => if k = .free t then .glob else k) ?_ ?_
    · intro k
      by_cases hk : k = .free t
      · subst hk
        simp only [if_true]
        right
        show s.gfree.base ≤ ((upd s.free t (some ⟨s.gfree.base, n⟩) t).getD ⟨0, 0⟩).base ∧ _
        simp only [reg, takeN, upd_same, Option.getD_some]
        omega
      · simp only [if_neg hk]
        cases k with
        | glob => right; simp only [reg, takeN]; omega
        | free u =>
          have hu : u ≠ t := fun h => hk (by rw [h])
          right
          simp only [reg, takeN, upd_other _ _ hu]; omega
        | open_ u => right; simp only [reg, takeN]; omega
        | done i => right; simp only [reg, takeN]; omega
    · intro k k' hne hs
      have key : ∀ k, k ≠ .free t → (Key.glob = (if k = .free t then .glob else k)) →
          Disj (⟨s.gfree.base, n⟩) (reg (takeN s t n) k) := by
        intro k hk h
        rw [if_neg hk] at h
        subst h
        unfold Disj
        simp only [reg, takeN]
        omega
      have hf : reg (takeN s t n) (.free t) = ⟨s.gfree.base, n⟩ := by
        simp only [reg, takeN, upd_same, Option.getD_some]
      by_cases hk : k = .free t
      · subst hk
        rw [hf]
        refine key k' (Ne.symm hne) ?_
        simpa using hs
      · by_cases hk' : k' = .free t
        · subst hk'
          rw [hf]
          have := key k hk (by simpa using hs.symm)
          unfold Disj at *; omega
        · simp only [if_neg hk, if_neg hk'] at hs
          exact absurd hs hne
  · constructor
    · show (s.gfree.base + n) % 256 = 0; omega
    · show (s.gfree.size - n) % 256 = 0; omega
  · intro u fr hu
    have hu : upd s.free t (some ⟨s.gfree.base, n⟩) u = some fr := hu
    by_cases h : u = t
    · subst h
      rw [upd_same] at hu
      cases hu
      exact ⟨hg.1, ha⟩
    · rw [upd_other _ _ h] at hu
      exact hi.fal u fr hu
  · intro u b hu
    have hne : u ≠ t := by
      intro h; subst h
      have hu : s.blob u = some b := hu
      rw [hb] at hu; cases hu
    show upd s.free t _ u = _
    rw [upd_other _ _ hne]
    exact hi.adj u b hu

theorem refill_spec {s : St} (hi : Inv s) {t reqsz page : Nat} (hb : s.blob t = none)
    (hreq : reqsz ≤ pageSize) (h1 : page % pageAlign = 0) (h2 : ∀ p ∈ s.pages, Apart p page) :
    Inv (refill s t reqsz page) ∧ (refill s t reqsz page).blob = s.blob ∧
      reqsz ≤ (freeOf (refill s t reqsz page) t).size ∧
      (refill s t reqsz page).free t = some (freeOf (refill s t reqsz page) t) ∧
      (refill s t reqsz page).mem = s.mem ∧ (refill s t reqsz page).done = s.done ∧
      (refill s t reqsz page).pages ⊇ s.pages := by
  have hal := alignUp_spec (max reqsz cacheSize)
  have hle : alignUp (max reqsz cacheSize) ≤ pageSize := by
    refine hal.2.2 pageSize (by decide) ?_
    have : cacheSize ≤ pageSize := by decide
    omega
  have hge : reqsz ≤ alignUp (max reqsz cacheSize) := by omega
  unfold refill
  simp only
  have fin : ∀ s' : St, Inv s' → s'.blob = s.blob → alignUp (max reqsz cacheSize) ≤ s'.gfree.size →
      s'.mem = s.mem → s'.done = s.done → s'.pages ⊇ s.pages →
      let s'' : St := { s' with
        free := upd s'.free t (some ⟨s'.gfree.base, min s'.gfree.size (alignUp (max reqsz cacheSize))⟩),
        gfree := ⟨s'.gfree.base + min s'.gfree.size (alignUp (max reqsz cacheSize)),
          s'.gfree.size - min s'.gfree.size (alignUp (max reqsz cacheSize))⟩ }
      Inv s'' ∧ s''.blob = s.blob ∧ reqsz ≤ (freeOf s'' t).size ∧
        s''.free t = some (freeOf s'' t) ∧ s''.mem = s.mem ∧ s''.done = s.done ∧
        s''.pages ⊇ s.pages := by
    intro s' hi' hbl hsz hmem hdone hpg
    rw [Nat.min_eq_right hsz]
    have hf : freeOf { s' with
        free := upd s'.free t (some ⟨s'.gfree.base, alignUp (max reqsz cacheSize)⟩),
        gfree := ⟨s'.gfree.base + alignUp (max reqsz cacheSize),
          s'.gfree.size - alignUp (max reqsz cacheSize)⟩ } t
        = ⟨s'.gfree.base, alignUp (max reqsz cacheSize)⟩ := by
      simp only [freeOf, upd_same, Option.getD_some]
    intro s''
    refine ⟨hi'.take (by rw [hbl]; exact hb) hsz hal.1, hbl, ?_, ?_, hmem, hdone, hpg⟩
    · show reqsz ≤ (freeOf _ t).size
      rw [hf]; exact hge
    · show upd s'.free t _ t = some (freeOf _ t)
      rw [upd_same, hf]
  by_cases hg : alignUp (max reqsz cacheSize) > s.gfree.size
  · simp only [if_pos hg]
    exact fin (pageNew s page) (hi.page h1 h2) rfl hle rfl rfl (List.subset_cons_self _ _)
  · simp only [if_neg hg]
    have h := fin s hi rfl (by omega) rfl rfl (List.Subset.refl _)
    exact ⟨h.1, trivial, h.2.2.1, h.2.2.2.1, trivial, trivial, h.2.2.2.2.2.2⟩

theorem ready_spec {s : St} (hi : Inv s) {t hint page : Nat} (hb : s.blob t = none)
    (hreq : hint ≤ pageSize) (h1 : page % pageAlign = 0) (h2 : ∀ p ∈ s.pages, Apart p page) :
    Inv (ready s t hint page) ∧ (ready s t hint page).blob = s.blob ∧
      reqOf hint ≤ (freeOf (ready s t hint page) t).size ∧
      (ready s t hint page).free t = some (freeOf (ready s t hint page) t) ∧
      (ready s t hint page).mem = s.mem ∧ (ready s t hint page).done = s.done ∧
      (ready s t hint page).pages ⊇ s.pages := by
  unfold ready
  have hrq : reqOf hint ≤ pageSize ∧ 0 < reqOf hint := by
    unfold reqOf
    split
    · decide
    · omega
  by_cases h : (freeOf s t).size < reqOf hint
  · rw [if_pos h]; exact refill_spec hi hb hrq.1 h1 h2
  · rw [if_neg h]
    refine ⟨hi, rfl, by omega, ?_, rfl, rfl, List.Subset.refl _⟩
    cases hf : s.free t with
    | none =>
      simp only [freeOf, hf, Option.getD_none] at h
      omega
    | some fr => simp only [freeOf, hf, Option.getD_some]

/-! ## Opening a blob -/

theorem Inv.opened {s : St} (hi : Inv s) {t name : Nat} {fr : Region} (hb : s.blob t = none)
    (hf : s.free t = some fr) : Inv (open_ s t name fr) := by
  have hfal := hi.fal t fr hf
  have hsz : fr.size ≤ pageSize := by
    by_cases h0 : fr.size = 0
    · omega
    · have hr : reg s (.free t) = fr := by simp only [reg, hf, Option.getD_some]
      obtain ⟨p, _, hin⟩ := hi.regs.inside (.free t) (by rw [hr]; exact h0)
      rw [hr] at hin
      have := hin.1
      have := hin.2
      omega
  have hcase : ∀ u b, (open_ s t name fr).blob u = some b →
      (u = t ∧ b = ⟨s.spans.length, name, fr.base, fr.size, fr.base, false, [], [], []⟩) ∨
      (u ≠ t ∧ s.blob u = some b) := by
    intro u b hu
    have hu : upd s.blob t (some ⟨s.spans.length, name, fr.base, fr.size, fr.base, false, [], [], []⟩) u
        = some b := hu
    by_cases h : u = t
    · subst h; rw [upd_same] at hu; cases hu; exact Or.inl ⟨rfl, rfl⟩
    · rw [upd_other _ _ h] at hu; exact Or.inr ⟨h, hu⟩
  have hnone : ∀ u b, s.blob u = some b → u ≠ t := by
    intro u b hu h; subst h; rw [hb] at hu; cases hu
  have hlt : ∀ u b, s.blob u = some b → b.sp < s.spans.length := by
    intro u b hu
    rcases List.getElem?_eq_some_iff.mp (hi.openSp u b hu) with ⟨h, _⟩
    exact h
  refine { pageOk := hi.pageOk, regs := ?_, gal := hi.gal, fal := ?_, oal := ?_, dal := hi.dal,
           adj := ?_, blobs := ?_, dones := hi.dones, spans := ?_, spanOf := ?_, openSp := ?_,
           spInj := ?_ }
  · refine hi.regs.sub (fun k => if k = .open_ t then .free t else k) ?_ ?_
    · intro k
      by_cases hk : k = .open_ t
      · subst hk
        simp only [if_true]
        right
        simp only [reg, open_, upd_same, blobReg, hf, Option.getD_some]
        omega
      · simp only [if_neg hk]
        cases k with
        | glob => right; simp only [reg, open_]; omega
        | free u =>
          by_cases hu : u = t
          · subst hu; left; simp only [reg, open_, upd_same, Option.getD_some]
          · right; simp only [reg, open_, upd_other _ _ hu]; omega
        | open_ u =>
          have hu : u ≠ t := fun h => hk (by rw [h])
          right; simp only [reg, open_, upd_other _ _ hu]; omega
        | done i => right; simp only [reg, open_]; omega
    · intro k k' hne hs
      have hfree : (reg (open_ s t name fr) (.free t)).size = 0 := by
        simp only [reg, open_, upd_same, Option.getD_some]
      by_cases hk : k = .open_ t
      · subst hk
        by_cases hk' : k' = .open_ t
        · exact absurd hk'.symm hne
        · simp only [if_true, if_neg hk'] at hs
          subst hs
          exact Or.inr (Or.inl hfree)
      · by_cases hk' : k' = .open_ t
        · subst hk'
          simp only [if_true, if_neg hk] at hs
          subst hs
          exact Or.inl hfree
        · simp only [if_neg hk, if_neg hk'] at hs
          exact absurd hs hne
  · intro u x hu
    have hu : upd s.free t (some ⟨fr.base + fr.size, 0⟩) u = some x := hu
    by_cases h : u = t
    · subst h; rw [upd_same] at hu; cases hu
      exact ⟨by show (fr.base + fr.size) % 256 = 0; omega, rfl⟩
    · rw [upd_other _ _ h] at hu; exact hi.fal u x hu
  · intro u b hu
    rcases hcase u b hu with ⟨_, h⟩ | ⟨_, h⟩
    · subst h; exact hfal
    · exact hi.oal u b h
  · intro u b hu
    show upd s.free t (some ⟨fr.base + fr.size, 0⟩) u = _
    rcases hcase u b hu with ⟨h1, h⟩ | ⟨h1, h⟩
    · subst h1; subst h; rw [upd_same]
    · rw [upd_other _ _ h1]; exact hi.adj u b h
  · intro u b hu
    rcases hcase u b hu with ⟨h1, h⟩ | ⟨h1, h⟩
    · subst h
      refine ⟨Nat.le_refl _, Nat.le_add_right _ _, hsz, (by intro h; cases h), ?_⟩
      intro _
      refine ⟨rfl, ?_, ?_, ?_, List.nodup_nil⟩
      · intro p it hp; cases hp
      · intro l d hd; cases hd
      · intro x hx; cases hx
    · exact hi.blobs u b h
  · intro k sp hk
    have hk : (s.spans ++ [⟨name, fr.base, fr.size⟩])[k]? = some sp := hk
    by_cases hkl : k < s.spans.length
    · rw [List.getElem?_append_left hkl] at hk
      rcases hi.spans k sp hk with ⟨u, b, hu, h1, h2⟩ | h | h
      · refine Or.inl ⟨u, b, ?_, h1, h2⟩
        show upd s.blob t _ u = some b
        rw [upd_other _ _ (hnone u b hu)]; exact hu
      · exact Or.inr (Or.inl h)
      · exact Or.inr (Or.inr h)
    · rw [List.getElem?_append_right (by omega)] at hk
      have hk0 : k - s.spans.length = 0 := by
        rcases List.getElem?_eq_some_iff.mp hk with ⟨h, _⟩
        simp only [List.length_singleton] at h
        omega
      rw [hk0] at hk
      simp only [List.getElem?_cons_zero, Option.some.injEq] at hk
      refine Or.inl ⟨t, _, upd_same _ _ _, ?_, ?_⟩
      · simp only; omega
      · exact hk.symm
  · intro d hd
    obtain ⟨k, hk, hno⟩ := hi.spanOf d hd
    have hkl : k < s.spans.length := by
      rcases List.getElem?_eq_some_iff.mp hk with ⟨h, _⟩; exact h
    refine ⟨k, ?_, ?_⟩
    · show (s.spans ++ [_])[k]? = _
      rw [List.getElem?_append_left hkl]; exact hk
    · intro u b hu
      rcases hcase u b hu with ⟨h1, h⟩ | ⟨h1, h⟩
      · subst h; simp only; omega
      · exact hno u b h
  · intro u b hu
    show (s.spans ++ [(⟨name, fr.base, fr.size⟩ : Span)])[b.sp]? = _
    rcases hcase u b hu with ⟨h1, h⟩ | ⟨h1, h⟩
    · subst h
      simp only
      rw [List.getElem?_append_right (Nat.le_refl _), Nat.sub_self]; rfl
    · rw [List.getElem?_append_left (hlt u b h)]; exact hi.openSp u b h
  · intro u v b b' hu hv he
    rcases hcase u b hu with ⟨h1, h⟩ | ⟨h1, h⟩ <;> rcases hcase v b' hv with ⟨h2, h'⟩ | ⟨h2, h'⟩
    · exact h1.trans h2.symm
    · subst h
      have := hlt v b' h'
      simp only at he; omega
    · subst h'
      have := hlt u b h
      simp only at he; omega
    · exact hi.spInj u v b b' h h' he

/-! ## Work on a blob -/

theorem Linked.congr {mem mem' : Nat → Nat} {base : Nat} {items : List Item}
    (h : Linked mem base items) (hm : ∀ a, base ≤ a → a < base + total items → mem' a = mem a) :
    Linked mem' base items := by
  intro p it hp
  have hb := place_bound _ _ _ _ hp
  have hi := h p it hp
  have hbytes : ∀ bs : List Nat, bs.length ≤ it.len → HasBytes mem p bs → HasBytes mem' p bs := by
    intro bs hl hbs i x hx
    have : i < bs.length := by
      rcases List.getElem?_eq_some_iff.mp hx with ⟨hlt, _⟩; exact hlt
    rw [hm _ (by omega) (by omega)]
    exact hbs i x hx
  cases it with
  | bytes bs => exact hbytes bs (Nat.le_refl _) hi
  | label l => trivial
  | branch opc l w =>
    obtain ⟨h1, d, hd, ht⟩ := hi
    have hlen : (Item.branch opc l w).len = opc.length + w.len := rfl
    rw [hlen] at hb hbytes
    refine ⟨hbytes opc (by omega) h1, d, hd, ?_⟩
    rw [← ht]
    unfold target
    cases w with
    | w8 =>
      have : (Width.w8).len = 1 := rfl
      simp only [this]
      rw [hm (p + opc.length + 1 - 1) (by omega) (by omega)]
    | w32 =>
      have : (Width.w32).len = 4 := rfl
      simp only [this]
      rw [hm (p + opc.length + 4 - 1) (by omega) (by omega),
        hm (p + opc.length + 4 - 2) (by omega) (by omega),
        hm (p + opc.length + 4 - 3) (by omega) (by omega),
        hm (p + opc.length + 4 - 4) (by omega) (by omega)]

/-- What a thread writes into its blob is not part of finished code. -/
theorem Inv.apart_done {s : St} (hi : Inv s) {t : Nat} {b : Blob} (hb : s.blob t = some b)
    {d : Done} (hd : d ∈ s.done) (a : Nat) (h1 : d.base ≤ a) (h2 : a < d.base + d.size) :
    a < b.base ∨ b.base + b.size ≤ a := by
  obtain ⟨i, hil⟩ := List.getElem?_of_mem hd
  have := hi.regs.disj (.open_ t) (.done i) (by intro h; cases h)
  simp only [reg, hb, hil, blobReg, doneReg, Disj] at this
  omega

theorem Inv.apart_open {s : St} (hi : Inv s) {t u : Nat} {b c : Blob} (hb : s.blob t = some b)
    (hc : s.blob u = some c) (hne : u ≠ t) (a : Nat) (h1 : c.base ≤ a) (h2 : a < c.base + c.size) :
    a < b.base ∨ b.base + b.size ≤ a := by
  have := hi.regs.disj (.open_ t) (.open_ u) (by intro h; cases h; exact hne rfl)
  simp only [reg, hb, hc, blobReg, Disj] at this
  omega

theorem Inv.back {s : St} (hi : Inv s) {t : Nat} {b : Blob} {x : (Nat → Nat) × Blob}
    (hb : s.blob t = some b) (hok : BlobOk x.1 x.2) (hs : Same s.mem x.1 b x.2) :
    Inv (s.back t x) := by
  obtain ⟨mem', b'⟩ := x
  simp only at hok hs
  have hcase : ∀ u c, (s.back t (mem', b')).blob u = some c →
      (u = t ∧ c = b') ∨ (u ≠ t ∧ s.blob u = some c) := by
    intro u c hu
    have hu : upd s.blob t (some b') u = some c := hu
    by_cases h : u = t
    · subst h; rw [upd_same] at hu; cases hu; exact Or.inl ⟨rfl, rfl⟩
    · rw [upd_other _ _ h] at hu; exact Or.inr ⟨h, hu⟩
  have hblobreg : ∀ u, blobReg ((s.back t (mem', b')).blob u) = blobReg (s.blob u) := by
    intro u
    show blobReg (upd s.blob t (some b') u) = _
    by_cases h : u = t
    · subst h; rw [upd_same, hb]; simp only [blobReg, hs.base, hs.size]
    · rw [upd_other _ _ h]
  have hreg : reg (s.back t (mem', b')) = reg s := by
    funext k
    cases k with
    | glob => rfl
    | free u => rfl
    | open_ u => exact hblobreg u
    | done i => rfl
  refine { pageOk := hi.pageOk, regs := ?_, gal := hi.gal, fal := hi.fal, oal := ?_, dal := hi.dal,
           adj := ?_, blobs := ?_, dones := ?_, spans := ?_, spanOf := ?_, openSp := ?_,
           spInj := ?_ }
  · rw [hreg]; exact hi.regs
  · intro u c hu
    rcases hcase u c hu with ⟨h1, h⟩ | ⟨h1, h⟩
    · subst h; rw [hs.base, hs.size]; exact hi.oal t b hb
    · exact hi.oal u c h
  · intro u c hu
    rcases hcase u c hu with ⟨h1, h⟩ | ⟨h1, h⟩
    · subst h; subst h1; rw [hs.base, hs.size]; exact hi.adj u b hb
    · exact hi.adj u c h
  · intro u c hu
    rcases hcase u c hu with ⟨h1, h⟩ | ⟨h1, h⟩
    · subst h; exact hok
    · refine (hi.blobs u c h).congr ?_
      intro a ha1 ha2
      exact hs.mem a (hi.apart_open hb h h1 a ha1 ha2)
  · intro d hd
    have hdd := hi.dones d hd
    refine ⟨hdd.1.congr ?_, hdd.2⟩
    intro a ha1 ha2
    exact hs.mem a (hi.apart_done hb hd a ha1 (by rw [hdd.2.1]; exact ha2))
  · intro k sp hk
    rcases hi.spans k sp hk with ⟨u, c, hu, h1, h2⟩ | h | h
    · by_cases h : u = t
      · subst h
        rw [hb] at hu
        cases hu
        refine Or.inl ⟨u, b', upd_same _ _ _, hs.sp.trans h1, ?_⟩
        rw [hs.name, hs.base, hs.size]; exact h2
      · refine Or.inl ⟨u, c, ?_, h1, h2⟩
        show upd s.blob t _ u = _
        rw [upd_other _ _ h]; exact hu
    · exact Or.inr (Or.inl h)
    · exact Or.inr (Or.inr h)
  · intro d hd
    obtain ⟨k, hk, hno⟩ := hi.spanOf d hd
    refine ⟨k, hk, ?_⟩
    intro u c hu
    rcases hcase u c hu with ⟨h1, h⟩ | ⟨h1, h⟩
    · subst h; rw [hs.sp]; exact hno t b hb
    · exact hno u c h
  · intro u c hu
    show s.spans[c.sp]? = _
    rcases hcase u c hu with ⟨h1, h⟩ | ⟨h1, h⟩
    · subst h; rw [hs.sp, hs.name, hs.base, hs.size]; exact hi.openSp t b hb
    · exact hi.openSp u c h
  · intro u v c c' hu hv he
    rcases hcase u c hu with ⟨h1, h⟩ | ⟨h1, h⟩ <;> rcases hcase v c' hv with ⟨h2, h'⟩ | ⟨h2, h'⟩
    · exact h1.trans h2.symm
    · subst h; rw [hs.sp] at he
      have := hi.spInj t v b c' hb h' he
      exact h1.trans this
    · subst h'; rw [hs.sp] at he
      have := hi.spInj u t c b h hb he
      exact this.trans h2.symm
    · exact hi.spInj u v c c' h h' he

/-! ## Finishing a blob -/

theorem setSize_self {l : List Span} {k size : Nat} {sp : Span} (h : l[k]? = some sp) :
    (setSize l k size)[k]? = some { sp with size := size } := by
  have hlt : k < l.length := by
    rcases List.getElem?_eq_some_iff.mp h with ⟨hlt, _⟩; exact hlt
  unfold setSize
  rw [h]
  simp only
  rw [List.getElem?_set_self hlt]

theorem setSize_other {l : List Span} {k j size : Nat} (h : j ≠ k) :
    (setSize l k size)[j]? = l[j]? := by
  unfold setSize
  split
  · rw [List.getElem?_set_ne (Ne.symm h)]
  · rfl

/-- The state after a blob is finished: what it used is given back from `a` on, and its code is
recorded or not. -/
theorem Inv.finish {s s' : St} (hi : Inv s) {t : Nat} {b : Blob} {fr : Region}
    (hb : s.blob t = some b)
    (hpages : s'.pages = s.pages) (hg : s'.gfree = s.gfree) (hmem : s'.mem = s.mem)
    (hblob : s'.blob = upd s.blob t none) (hfree : s'.free = upd s.free t (some fr))
    (hspans : s'.spans = setSize s.spans b.sp (b.wptr - b.base))
    (hfr : b.base ≤ fr.base ∧ fr.base + fr.size = b.base + b.size ∧ fr.base % 256 = 0)
    (hdone : (s'.done = s.done ∧ s'.stale = s.stale ++ [⟨b.name, b.base, b.wptr - b.base⟩]) ∨
      (s'.done = s.done ++ [⟨b.name, b.base, b.wptr - b.base, b.items⟩] ∧ s'.stale = s.stale ∧
        b.wptr ≤ fr.base ∧ b.wptr - b.base ≠ 0 ∧ Linked s.mem b.base b.items ∧
        b.wptr - b.base = total b.items)) :
    Inv s' := by
  have hbo := hi.blobs t b hb
  have hoal := hi.oal t b hb
  have hcase : ∀ u c, s'.blob u = some c → u ≠ t ∧ s.blob u = some c := by
    intro u c hu
    rw [hblob] at hu
    by_cases h : u = t
    · subst h; rw [upd_same] at hu; cases hu
    · rw [upd_other _ _ h] at hu; exact ⟨h, hu⟩
  have hsame : ∀ (sp : Span), s.spans[b.sp]? = some sp → sp = ⟨b.name, b.base, b.size⟩ := by
    intro sp h
    rw [hi.openSp t b hb] at h
    exact (Option.some.inj h).symm
  have hnewsp : s'.spans[b.sp]? = some ⟨b.name, b.base, b.wptr - b.base⟩ := by
    rw [hspans, setSize_self (hi.openSp t b hb)]
  have hdmem : ∀ d ∈ s'.done, d ∈ s.done ∨
      (d = ⟨b.name, b.base, b.wptr - b.base, b.items⟩ ∧ b.wptr ≤ fr.base ∧ b.wptr - b.base ≠ 0 ∧
        Linked s.mem b.base b.items ∧ b.wptr - b.base = total b.items) := by
    intro d hd
    rcases hdone with ⟨h, _⟩ | ⟨h, _, h2⟩
    · rw [h] at hd; exact Or.inl hd
    · rw [h] at hd
      rcases List.mem_append.mp hd with hd | hd
      · exact Or.inl hd
      · exact Or.inr ⟨List.mem_singleton.mp hd, h2⟩
  have hdsub : ∀ d ∈ s.done, d ∈ s'.done := by
    intro d hd
    rcases hdone with ⟨h, _⟩ | ⟨h, _⟩
    · rw [h]; exact hd
    · rw [h]; exact List.mem_append.mpr (Or.inl hd)
  have hbr : reg s (.open_ t) = ⟨b.base, b.size⟩ := by simp only [reg, hb, blobReg]
  refine { pageOk := ?_, regs := ?_, gal := ?_, fal := ?_, oal := ?_, dal := ?_,
           adj := ?_, blobs := ?_, dones := ?_, spans := ?_, spanOf := ?_, openSp := ?_,
           spInj := ?_ }
  · rw [hpages]; exact hi.pageOk
  · rw [hpages]
    have hrf : reg s' (.free t) = fr := by
      simp only [reg, hfree, upd_same, Option.getD_some]
    have hro : (reg s' (.open_ t)).size = 0 := by
      simp only [reg, hblob, upd_same, blobReg]
    have hfu : ∀ u, u ≠ t → reg s' (.free u) = reg s (.free u) := by
      intro u hu; simp only [reg, hfree, upd_other _ _ hu]
    have hou : ∀ u, u ≠ t → reg s' (.open_ u) = reg s (.open_ u) := by
      intro u hu; simp only [reg, hblob, upd_other _ _ hu]
    have hdi : ∀ i, i ≠ s.done.length → reg s' (.done i) = reg s (.done i) := by
      intro i hne
      simp only [reg]
      rcases hdone with ⟨h, _⟩ | ⟨h, _⟩
      · rw [h]
      · rw [h]
        by_cases hlt : i < s.done.length
        · rw [List.getElem?_append_left hlt]
        · rw [List.getElem?_eq_none (by simp; omega), List.getElem?_eq_none (by omega)]
    have hdn : (reg s' (.done s.done.length)).size = 0 ∨
        (reg s' (.done s.done.length) = ⟨b.base, b.wptr - b.base⟩ ∧ b.wptr ≤ fr.base) := by
      simp only [reg]
      rcases hdone with ⟨h, _⟩ | ⟨h, _, h2, _⟩
      · left
        rw [h, List.getElem?_eq_none (Nat.le_refl _)]; rfl
      · right
        rw [h, List.getElem?_append_right (Nat.le_refl _), Nat.sub_self]
        exact ⟨rfl, h2⟩
    refine hi.regs.sub (fun k => if k = .free t ∨ k = .done s.done.length then .open_ t else k) ?_ ?_
    · intro k
      by_cases hk : k = .free t ∨ k = .done s.done.length
      · simp only [if_pos hk, hbr]
        rcases hk with hk | hk
        · subst hk
          right; rw [hrf]; simp only; omega
        · subst hk
          rcases hdn with h | ⟨h, h2⟩
          · exact Or.inl h
          · right; rw [h]
            have := hbo.lo
            have := hbo.hi
            simp only; omega
      · simp only [if_neg hk]
        cases k with
        | glob => right; simp only [reg, hg]; omega
        | free u =>
          have hu : u ≠ t := fun h => hk (Or.inl (by rw [h]))
          right; rw [hfu u hu]; omega
        | open_ u =>
          by_cases hu : u = t
          · subst hu; exact Or.inl hro
          · right; rw [hou u hu]; omega
        | done i =>
          have hu : i ≠ s.done.length := fun h => hk (Or.inr (by rw [h]))
          right; rw [hdi i hu]; omega
    · intro k k' hne hs
      have both : Disj (reg s' (.free t)) (reg s' (.done s.done.length)) := by
        rcases hdn with h | ⟨h, h2⟩
        · exact Or.inr (Or.inl h)
        · rw [hrf, h]
          unfold Disj
          have := hbo.lo
          simp only; omega
      by_cases hk : k = .free t ∨ k = .done s.done.length
      · by_cases hk' : k' = .free t ∨ k' = .done s.done.length
        · rcases hk with hk | hk <;> rcases hk' with hk' | hk'
          · exact absurd (hk.trans hk'.symm) hne
          · subst hk; subst hk'; exact both
          · subst hk; subst hk'
            unfold Disj at *; omega
          · exact absurd (hk.trans hk'.symm) hne
        · simp only [if_pos hk, if_neg hk'] at hs
          subst hs
          exact Or.inr (Or.inl hro)
      · by_cases hk' : k' = .free t ∨ k' = .done s.done.length
        · simp only [if_neg hk, if_pos hk'] at hs
          subst hs
          exact Or.inl hro
        · simp only [if_neg hk, if_neg hk'] at hs
          exact absurd hs hne
  · rw [hg]; exact hi.gal
  · intro u x hu
    rw [hfree] at hu
    by_cases h : u = t
    · subst h; rw [upd_same] at hu; cases hu
      refine ⟨hfr.2.2, ?_⟩
      omega
    · rw [upd_other _ _ h] at hu; exact hi.fal u x hu
  · intro u c hu; exact hi.oal u c (hcase u c hu).2
  · intro d hd
    rcases hdmem d hd with h | ⟨h, _⟩
    · exact hi.dal d h
    · rw [h]; exact hoal.1
  · intro u c hu
    have := hcase u c hu
    rw [hfree, upd_other _ _ this.1]
    exact hi.adj u c this.2
  · intro u c hu; rw [hmem]; exact hi.blobs u c (hcase u c hu).2
  · intro d hd
    rw [hmem]
    rcases hdmem d hd with h | ⟨h, _, h1, h2, h3⟩
    · exact hi.dones d h
    · rw [h]; exact ⟨h2, h3, h1⟩
  · intro k sp hk
    by_cases hkb : k = b.sp
    · subst hkb
      rw [hnewsp] at hk
      have hk := Option.some.inj hk
      rcases hdone with ⟨_, h⟩ | ⟨h, _⟩
      · refine Or.inr (Or.inr ?_)
        rw [h, ← hk]; exact List.mem_append.mpr (Or.inr (by simp))
      · refine Or.inr (Or.inl ⟨_, by rw [h]; exact List.mem_append.mpr (Or.inr (List.mem_singleton.mpr rfl)), hk.symm⟩)
    · rw [hspans, setSize_other hkb] at hk
      rcases hi.spans k sp hk with ⟨u, c, hu, h1, h2⟩ | ⟨d, hd, h⟩ | h
      · refine Or.inl ⟨u, c, ?_, h1, h2⟩
        have hne : u ≠ t := by
          intro h; subst h; rw [hb] at hu; cases hu; exact hkb h1.symm
        rw [hblob, upd_other _ _ hne]; exact hu
      · exact Or.inr (Or.inl ⟨d, hdsub d hd, h⟩)
      · refine Or.inr (Or.inr ?_)
        rcases hdone with ⟨_, h'⟩ | ⟨_, h', _⟩
        · rw [h']; exact List.mem_append.mpr (Or.inl h)
        · rw [h']; exact h
  · intro d hd
    rcases hdmem d hd with h | ⟨h, _⟩
    · obtain ⟨k, hk, hno⟩ := hi.spanOf d h
      have hkb : k ≠ b.sp := fun h => hno t b hb h.symm
      refine ⟨k, ?_, ?_⟩
      · rw [hspans, setSize_other hkb]; exact hk
      · intro u c hu; exact hno u c (hcase u c hu).2
    · refine ⟨b.sp, ?_, ?_⟩
      · rw [h]; exact hnewsp
      · intro u c hu he
        have := hcase u c hu
        exact this.1 (hi.spInj u t c b this.2 hb he)
  · intro u c hu
    have := hcase u c hu
    have hne : c.sp ≠ b.sp := fun he => this.1 (hi.spInj u t c b this.2 hb he)
    rw [hspans, setSize_other hne]
    exact hi.openSp u c this.2
  · intro u v c c' hu hv he
    exact hi.spInj u v c c' (hcase u c hu).2 (hcase v c' hv).2 he

theorem freeOf_open {s : St} (hi : Inv s) {t : Nat} {b : Blob} (hb : s.blob t = some b) :
    freeOf s t = ⟨b.base + b.size, 0⟩ := by
  simp only [freeOf, hi.adj t b hb, Option.getD_some]

theorem finalise_assert {s : St} (hi : Inv s) {t : Nat} {b : Blob} (hb : s.blob t = some b) :
    finalise s t b ≠ .assert := by
  unfold finalise
  simp only [freeOf_open hi hb]
  rw [if_neg (by simp)]
  split
  · intro h; cases h
  · split
    · intro h; cases h
    · split <;> intro h <;> cases h

theorem finalise_ok {s s' : St} (hi : Inv s) {t : Nat} {b : Blob} (hb : s.blob t = some b)
    (h : finalise s t b = .ok s') : Inv s' := by
  have hbo := hi.blobs t b hb
  have hoal := hi.oal t b hb
  unfold finalise at h
  simp only [freeOf_open hi hb] at h
  rw [if_neg (by simp)] at h
  by_cases hp : b.patches ≠ []
  · rw [if_pos hp] at h; cases h
  · rw [if_neg hp] at h
    have hp : b.patches = [] := by
      cases hpp : b.patches with
      | nil => rfl
      | cons x xs => exact absurd (by rw [hpp]; simp) hp
    by_cases ho : b.overflow = true
    · rw [if_pos ho] at h
      have h := Res.ok.inj h
      subst h
      refine hi.finish (fr := ⟨b.base, b.base + b.size - b.base⟩) hb rfl rfl rfl rfl rfl rfl ?_
        (Or.inl ⟨rfl, rfl⟩)
      simp only; omega
    · rw [if_neg ho] at h
      by_cases hz : b.wptr - b.base = 0
      · rw [if_pos hz] at h; cases h
      · rw [if_neg hz] at h
        have h := Res.ok.inj h
        subst h
        have ho' : b.overflow = false := by simpa using ho
        have hl := hbo.live ho'
        have ha := alignUp_spec b.wptr
        have hle := ha.2.2 (b.base + b.size) (by omega) hbo.hi
        have := hbo.lo
        refine hi.finish (fr := ⟨alignUp b.wptr, b.base + b.size - alignUp b.wptr⟩) hb rfl rfl rfl rfl
          rfl rfl ?_ (Or.inr ⟨rfl, rfl, ha.2.1, hz, hl.linked hp, ?_⟩)
        · simp only; omega
        · have := hl.pos; omega

/-! ## All operations -/

theorem blobNew_ok {s : St} (hi : Inv s) {t name hint page : Nat} (hb : s.blob t = none)
    (h : Allowed s (.new t name hint page)) :
    ∃ s', blobNew s t name hint page = .ok s' ∧ Inv s' ∧ s'.mem = s.mem ∧ s'.done = s.done := by
  obtain ⟨h1, h2, h3⟩ := h
  obtain ⟨r1, r2, r3, r4, r5, r6, _⟩ := ready_spec hi hb h1 h2 h3
  unfold blobNew
  simp only
  rw [if_neg (by omega)]
  have hal := r1.fal t _ r4
  rw [if_neg (by unfold blobAlign; omega)]
  exact ⟨_, rfl, r1.opened (by rw [r2]; exact hb) r4, r5, r6⟩

theorem exec_step {s s' : St} {op : Op} (hi : Inv s) (ha : Allowed s op)
    (h : exec s op = some (.ok s')) : Inv s' := by
  cases op with
  | new t name hint page =>
    simp only [exec] at h
    split at h
    · rename_i hb
      obtain ⟨s1, h1, h2, _⟩ := blobNew_ok hi hb ha
      rw [h1] at h
      cases h
      exact h2
    · cases h
  | emit t bs =>
    simp only [exec] at h
    cases hb : s.blob t with
    | none => rw [hb] at h; cases h
    | some b =>
      rw [hb] at h
      cases h
      have := emit_ok (hi.blobs t b hb) bs
      exact hi.back hb this.1 this.2
  | mark t l =>
    simp only [exec] at h
    cases hb : s.blob t with
    | none => rw [hb] at h; cases h
    | some b =>
      rw [hb] at h
      simp only [Option.map_some, Option.some.injEq] at h
      cases hm : mark s.mem b l with
      | fatal => rw [hm] at h; cases h
      | assert => rw [hm] at h; cases h
      | ok x =>
        rw [hm] at h
        have h := Res.ok.inj h
        subst h
        have := mark_ok (hi.blobs t b hb) (ha b hb) (mem' := x.1) (b' := x.2) hm
        exact hi.back hb this.1 this.2
  | branch t opc l w =>
    simp only [exec] at h
    cases hb : s.blob t with
    | none => rw [hb] at h; cases h
    | some b =>
      rw [hb] at h
      simp only [Option.map_some, Option.some.injEq] at h
      cases hm : branch s.mem b opc l w with
      | fatal => rw [hm] at h; cases h
      | assert => rw [hm] at h; cases h
      | ok x =>
        rw [hm] at h
        have h := Res.ok.inj h
        subst h
        have := (branch_cases (hi.blobs t b hb) opc l w).2 x.1 x.2 hm
        exact hi.back hb this.1 this.2
  | finalise t =>
    simp only [exec] at h
    cases hb : s.blob t with
    | none => rw [hb] at h; cases h
    | some b =>
      rw [hb] at h
      simp only [Option.map_some, Option.some.injEq] at h
      exact finalise_ok hi hb h

theorem exec_assert {s : St} {op : Op} (hi : Inv s) (ha : Allowed s op) :
    exec s op ≠ some .assert := by
  intro h
  cases op with
  | new t name hint page =>
    simp only [exec] at h
    split at h
    · rename_i hb
      obtain ⟨s1, h1, _⟩ := blobNew_ok hi hb ha
      rw [h1] at h
      cases h
    · cases h
  | emit t bs =>
    simp only [exec] at h
    cases hb : s.blob t with
    | none => rw [hb] at h; cases h
    | some b => rw [hb] at h; cases h
  | mark t l =>
    simp only [exec] at h
    cases hb : s.blob t with
    | none => rw [hb] at h; cases h
    | some b =>
      rw [hb] at h
      simp only [Option.map_some, Option.some.injEq] at h
      cases hm : mark s.mem b l with
      | fatal => rw [hm] at h; cases h
      | assert => exact mark_assert (hi.blobs t b hb) (ha b hb) hm
      | ok x => rw [hm] at h; cases h
  | branch t opc l w =>
    simp only [exec] at h
    cases hb : s.blob t with
    | none => rw [hb] at h; cases h
    | some b =>
      rw [hb] at h
      simp only [Option.map_some, Option.some.injEq] at h
      cases hm : branch s.mem b opc l w with
      | fatal => rw [hm] at h; cases h
      | assert => exact (branch_cases (hi.blobs t b hb) opc l w).1 hm
      | ok x => rw [hm] at h; cases h
  | finalise t =>
    simp only [exec] at h
    cases hb : s.blob t with
    | none => rw [hb] at h; cases h
    | some b =>
      rw [hb] at h
      simp only [Option.map_some, Option.some.injEq] at h
      exact finalise_assert hi hb h

theorem Inv.start {page : Nat} {mem : Nat → Nat} (h : page % pageAlign = 0) :
    Inv (cacheNew page mem) := by
  unfold pageAlign at h
  have hz : ∀ k, k ≠ .glob → (reg (cacheNew page mem) k).size = 0 := by
    intro k hk
    cases k with
    | glob => exact absurd rfl hk
    | free t => rfl
    | open_ t => rfl
    | done i => simp [reg, cacheNew, doneReg]
  refine { pageOk := ?_, regs := ?_, gal := ?_, fal := ?_, oal := ?_, dal := ?_,
           adj := ?_, blobs := ?_, dones := ?_, spans := ?_, spanOf := ?_, openSp := ?_,
           spInj := ?_ }
  · intro p hp
    simp only [cacheNew, List.mem_singleton] at hp
    subst hp; omega
  · constructor
    · intro k hk
      by_cases hg : k = .glob
      · subst hg
        exact ⟨page, by simp [cacheNew], Nat.le_refl _, Nat.le_refl _⟩
      · exact absurd (hz k hg) hk
    · intro k k' hne
      by_cases hg : k = .glob
      · subst hg; exact Or.inr (Or.inl (hz k' (Ne.symm hne)))
      · exact Or.inl (hz k hg)
  · exact ⟨by show page % 256 = 0; omega, by show pageSize % 256 = 0; decide⟩
  · intro t fr h; cases h
  · intro t b h; cases h
  · intro d h; cases h
  · intro t b h; cases h
  · intro t b h; cases h
  · intro d h; cases h
  · intro k sp h; simp [cacheNew] at h
  · intro d h; cases h
  · intro t b h; cases h
  · intro t t' b b' h; cases h

theorem Reach.inv {s : St} (h : Reach s) : Inv s := by
  induction h with
  | start page mem h => exact Inv.start h
  | step _ ha hs ih => exact exec_step ih ha hs

end Verif.Jit.Code
