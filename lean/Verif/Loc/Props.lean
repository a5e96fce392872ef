import Verif.Loc.Model
import Verif.Fbuf.VarintProps

/-!
# C06: source locations survive a write/read cycle
-/

namespace Verif.Loc

open Verif.Fbuf

/-- The name a location refers to, given a table of files (`loc_file_str`, diag.c 154-160). -/
def nameOf (files : List (List Nat)) (l : Loc) : Option (List Nat) :=
  if l.fileRef = 0xffff then none else files[l.fileRef]?

/-- Same position and same file, each with respect to its own table of files. -/
def SameLoc (files files' : List (List Nat)) (a b : Loc) : Prop :=
  a.firstLine = b.firstLine ∧ a.firstColumn = b.firstColumn ∧ a.lineDelta = b.lineDelta ∧
    a.columnDelta = b.columnDelta ∧ (a.fileRef = 0xffff ↔ b.fileRef = 0xffff) ∧
    nameOf files a = nameOf files' b

/-- Two lists of the same length, related element by element. -/
def Pointwise {α β : Type} (R : α → β → Prop) (l : List α) (l' : List β) : Prop :=
  l.length = l'.length ∧ ∀ (i : Nat) a b, l[i]? = some a → l'[i]? = some b → R a b

theorem Pointwise.nil {α β : Type} (R : α → β → Prop) : Pointwise R [] [] :=
  ⟨rfl, by simp⟩

theorem Pointwise.cons {α β : Type} {R : α → β → Prop} {a b l l'} (h : R a b)
    (hl : Pointwise R l l') : Pointwise R (a :: l) (b :: l') := by
  refine ⟨by simp [hl.1], ?_⟩
  intro i x y hx hy
  cases i with
  | zero => simp only [List.getElem?_cons_zero, Option.some.injEq] at hx hy; subst hx; subst hy; exact h
  | succ i => exact hl.2 i x y (by simpa using hx) (by simpa using hy)

/-- A location whose fields fit their bit fields and whose file is known. -/
structure WF (nfiles : Nat) (l : Loc) : Prop where
  firstLine : l.firstLine < 2 ^ 20
  firstColumn : l.firstColumn < 2 ^ 12
  lineDelta : l.lineDelta < 2 ^ 8
  columnDelta : l.columnDelta < 2 ^ 8
  fileRef : l.fileRef = 0xffff ∨ l.fileRef < nfiles
  fits : l.fileRef < 2 ^ 16

/-! ## Pieces -/

theorem bind_ok {α β : Type} (v : α) (rest : List Nat) (f : α → List Nat → Res β) :
    (Res.ok v rest).bind f = f v rest := rfl

theorem getDelta_putDelta (new old : Nat) (hn : new < 2 ^ 32) (ho : old < 2 ^ 32) (rest : List Nat) :
    getDelta old (putDelta new old ++ rest) = .ok new rest := by
  unfold getDelta putDelta
  rw [getInt_putInt]
  simp only [lift, Res.bind]
  congr 1
  rw [BitVec.toNat_add, BitVec.toNat_ofNat, BitVec.toNat_ofNat]
  omega

theorem lift_getUint (n : Nat) (hn : n < 2 ^ 64) (rest : List Nat) :
    lift (getUint (putUint n ++ rest)) = .ok n rest := by
  rw [getUint_putUint n hn]; rfl

theorem takeWhile_name (n : List Nat) (h : ∀ b ∈ n, b ≠ 0) :
    (n ++ [0]).takeWhile (· ≠ 0) = n := by
  induction n with
  | nil => simp
  | cons a l ih =>
    rw [List.cons_append, List.takeWhile_cons]
    have : a ≠ 0 := h a (by simp)
    simp only [ne_eq, this, not_false_eq_true, decide_true, if_true]
    congr 1
    exact ih (fun b hb => h b (by simp [hb]))

theorem readName_put (n : List Nat) (h : ∀ b ∈ n, b ≠ 0) (rest : List Nat) :
    readName (n.length + 1) (n ++ [0] ++ rest) = .ok n rest := by
  unfold readName
  rw [if_neg (by simp)]
  have hl : (n ++ [0]).length = n.length + 1 := by simp
  rw [← hl, List.take_left, List.drop_left, takeWhile_name n h]

theorem readNames_put (files : List (List Nat)) (h : ∀ n ∈ files, ∀ b ∈ n, b ≠ 0)
    (hl : ∀ n ∈ files, n.length + 1 < 2 ^ 64) (rest : List Nat) :
    readNames files.length ((files.flatMap fun n => putUint (n.length + 1) ++ (n ++ [0])) ++ rest) =
      .ok files rest := by
  induction files with
  | nil => rfl
  | cons n files ih =>
    simp only [List.length_cons, List.flatMap_cons, List.append_assoc]
    unfold readNames
    rw [lift_getUint _ (hl n (by simp))]
    simp only [Res.bind]
    have := readName_put n (h n (by simp))
      ((files.flatMap fun n => putUint (n.length + 1) ++ (n ++ [0])) ++ rest)
    simp only [List.append_assoc] at this ih
    rw [this]
    simp only
    rw [ih (fun m hm => h m (by simp [hm])) (fun m hm => hl m (by simp [hm]))]

theorem readIndex_put (files : List (List Nat)) (h : ∀ n ∈ files, ∀ b ∈ n, b ≠ 0)
    (hl : ∀ n ∈ files, n.length + 1 < 2 ^ 64) (hc : files.length < 2 ^ 64) (ctx : RdCtx)
    (rest : List Nat) :
    readIndex ctx (indexBytes files ++ rest) =
      .ok { ctx with fileMap := files.map some,
                     refMap := List.replicate files.length fileInvalid,
                     haveIndex := true } rest := by
  unfold indexBytes magicBytes readIndex
  simp only [List.append_assoc, List.cons_append, List.nil_append]
  rw [if_neg (by decide), lift_getUint _ hc]
  simp only [Res.bind]
  rw [readNames_put files h hl rest]

/-- The search returns an entry with the name, or the initial value when there is none. -/
theorem searchRef_spec (files : List (List Nat)) (name : List Nat) (hf : files.length ≤ 65535)
    (r0 : Nat) :
    (files[searchRef files name r0]? = some name ∧ searchRef files name r0 < 65535) ∨
      (name ∉ files ∧ searchRef files name r0 = r0) := by
  have gen : ∀ (l : List (List Nat)) (k r : Nat),
      (∃ i, i < l.length ∧ l[i]? = some name ∧
        (l.zipIdx k).foldl (fun r e => if e.1 = name then e.2 % 2 ^ 16 else r) r = (k + i) % 2 ^ 16) ∨
      (name ∉ l ∧
        (l.zipIdx k).foldl (fun r e => if e.1 = name then e.2 % 2 ^ 16 else r) r = r) := by
    intro l
    induction l with
    | nil => intro k r; right; simp
    | cons a l ih =>
      intro k r
      rw [List.zipIdx_cons, List.foldl_cons]
      rcases ih (k + 1) (if a = name then k % 2 ^ 16 else r) with ⟨i, h1, h2, h3⟩ | ⟨h1, h2⟩
      · left
        refine ⟨i + 1, by simp; omega, by simpa using h2, ?_⟩
        rw [h3]; congr 1; omega
      · by_cases c : a = name
        · left
          refine ⟨0, by simp, by simp [c], ?_⟩
          rw [h2, if_pos c]; rfl
        · right
          refine ⟨by simp only [List.mem_cons, not_or]; exact ⟨fun e => c e.symm, h1⟩, ?_⟩
          rw [h2, if_neg c]
  unfold searchRef
  rcases gen files 0 r0 with ⟨i, h1, h2, h3⟩ | ⟨h1, h2⟩
  · left
    rw [h3]
    have : (0 + i) % 2 ^ 16 = i := by omega
    rw [this]
    exact ⟨h2, by omega⟩
  · exact Or.inr ⟨h1, h2⟩

/-! ## Simulation -/

/-- Relation between writer and reader contexts. -/
structure Sim (files : List (List Nat)) (F : List (List Nat)) (w : WrCtx) (r : RdCtx) : Prop where
  fl : r.firstLine = w.firstLine ∧ w.firstLine < 2 ^ 20
  fc : r.firstColumn = w.firstColumn ∧ w.firstColumn < 2 ^ 12
  ld : r.lineDelta = w.lineDelta ∧ w.lineDelta < 2 ^ 8
  cd : r.columnDelta = w.columnDelta ∧ w.columnDelta < 2 ^ 8
  idx : r.haveIndex = w.haveIndex
  len1 : w.haveIndex = true → r.fileMap.length = files.length
  len2 : w.haveIndex = true → r.refMap.length = files.length
  ent : w.haveIndex = true → ∀ (i : Nat) (name : List Nat), files[i]? = some name →
    (r.refMap[i]? = some 0xffff ∧ r.fileMap[i]? = some (some name)) ∨
    (∃ k, k < 65535 ∧ r.refMap[i]? = some k ∧ F[k]? = some name)

/-- Number of index entries not yet given a reference. -/
def unresolved (r : RdCtx) : Nat := r.refMap.countP (· = 0xffff)

theorem prefix_get {α : Type} {F F' : List α} (h : F <+: F') {k : Nat} {a : α} (hk : F[k]? = some a) :
    F'[k]? = some a := by
  obtain ⟨t, rfl⟩ := h
  have := (List.getElem?_eq_some_iff.1 hk).1
  rw [List.getElem?_append_left this]; exact hk

/-- Resolution of a reference. -/
theorem resolve_spec (files F : List (List Nat)) (w : WrCtx) (r : RdCtx) (h : Sim files F w r)
    (hi : w.haveIndex = true) (ref : Nat) (hr : ref = 0xffff ∨ ref < files.length)
    (hF : F.length + unresolved r ≤ 65535) (bs : List Nat) :
    ∃ k F' r', resolve F r ref bs = .ok (k, F', r') bs ∧ F <+: F' ∧ Sim files F' w r' ∧
      F'.length + unresolved r' ≤ 65535 ∧
      ((ref = 0xffff ∧ k = 0xffff) ∨
        (ref ≠ 0xffff ∧ k < 65535 ∧ F'[k]? = files[ref]? ∧ ref < files.length)) := by
  unfold resolve fileInvalid
  by_cases c : ref = 0xffff
  · rw [if_pos c]
    exact ⟨_, F, r, rfl, List.prefix_refl _, h, hF, Or.inl ⟨c, rfl⟩⟩
  · rw [if_neg c]
    have hlt : ref < files.length := by
      rcases hr with h | h
      · exact absurd h c
      · exact h
    have hl1 := h.len1 hi
    have hl2 := h.len2 hi
    rw [if_neg (by omega)]
    have hn : files[ref]? = some files[ref] := List.getElem?_eq_getElem hlt
    rcases h.ent hi ref files[ref] hn with ⟨e1, e2⟩ | ⟨k, k0, e1, e2⟩
    · rw [e1, e2]
      simp only [ne_eq, not_true_eq_false, if_false]
      have hun : 0 < unresolved r := by
        unfold unresolved
        exact List.countP_pos_iff.2 ⟨_, List.mem_of_getElem? e1, by simp⟩
      have hcount : ∀ k, k < 65535 →
          (r.refMap.set ref k).countP (· = 0xffff) + 1 = unresolved r := by
        intro k hk
        have hlt' : ref < r.refMap.length := by omega
        unfold unresolved at hun ⊢
        rw [List.countP_set hlt']
        have e : r.refMap[ref] = 0xffff := by
          have := List.getElem?_eq_getElem hlt'
          rw [e1] at this
          simpa using this.symm
        rw [e]
        have : ¬ (k = 0xffff) := by omega
        simp [this]
        omega
      rcases searchRef_spec F files[ref] (by omega) 0xffff with ⟨s1, s2⟩ | ⟨s1, s2⟩
      · rw [if_pos (by omega)]
        refine ⟨_, F, _, rfl, List.prefix_refl _, ?_, ?_, Or.inr ⟨c, s2, by rw [s1, hn], hlt⟩⟩
        · refine ⟨h.fl, h.fc, h.ld, h.cd, h.idx, h.len1, fun hh => by simp [h.len2 hh], ?_⟩
          intro hh i name hin
          by_cases ci : ref = i
          · subst ci
            right
            refine ⟨_, s2, ?_, ?_⟩
            · simp only
              rw [List.getElem?_set]
              simp [show ref < r.refMap.length by omega]
            · rw [hn] at hin
              cases hin
              exact s1
          · simp only [List.getElem?_set_ne ci]
            exact h.ent hh i name hin
        · have := hcount _ s2
          unfold unresolved at *
          simp only
          omega
      · rw [s2]
        simp only [not_true_eq_false, if_false]
        have hmod : F.length % 2 ^ 16 = F.length := by omega
        rw [hmod]
        refine ⟨_, F ++ [files[ref]], _, rfl, List.prefix_append _ _, ?_, ?_,
          Or.inr ⟨c, by omega, by rw [hn]; simp, hlt⟩⟩
        · refine ⟨h.fl, h.fc, h.ld, h.cd, h.idx, fun hh => by simp [h.len1 hh],
            fun hh => by simp [h.len2 hh], ?_⟩
          intro hh i name hin
          by_cases ci : ref = i
          · subst ci
            right
            refine ⟨F.length, by omega, ?_, ?_⟩
            · simp only
              rw [List.getElem?_set]
              simp [show ref < r.refMap.length by omega]
            · rw [hn] at hin
              cases hin
              simp
          · simp only [List.getElem?_set_ne ci]
            rcases h.ent hh i name hin with hl | ⟨k, k1, k2, k3⟩
            · exact Or.inl hl
            · exact Or.inr ⟨k, k1, k2, prefix_get (List.prefix_append _ _) k3⟩
        · have := hcount F.length (by omega)
          unfold unresolved at *
          simp only [List.length_append, List.length_singleton]
          omega
    · rw [e1]
      have hfm : ∃ en, r.fileMap[ref]? = some en :=
        ⟨_, List.getElem?_eq_getElem (show ref < r.fileMap.length by omega)⟩
      obtain ⟨en, hen⟩ := hfm
      rw [hen]
      simp only
      rw [if_pos (by omega)]
      exact ⟨k, F, r, rfl, List.prefix_refl _, h, hF, Or.inr ⟨c, k0, by rw [e2, hn], hlt⟩⟩

/-- One location. -/
theorem read_write (files F : List (List Nat)) (hz : ∀ n ∈ files, ∀ b ∈ n, b ≠ 0)
    (hl : ∀ n ∈ files, n.length + 1 < 2 ^ 64) (hc : files.length < 2 ^ 64)
    (w : WrCtx) (r : RdCtx) (h : Sim files F w r) (l : Loc)
    (hw : WF files.length l) (hF : F.length + (if w.haveIndex then unresolved r else files.length) ≤ 65535)
    (rest : List Nat) :
    ∃ l' F' r', read F r ((write files w l).1 ++ rest) = .ok (l', F', r') rest ∧ F <+: F' ∧
      SameLoc files F' l l' ∧ Sim files F' (write files w l).2 r' ∧
      F'.length + unresolved r' ≤ 65535 := by
  -- after the index
  have hidx : ∃ r1, (∀ bs, (if r.haveIndex then Res.ok r ((if w.haveIndex then [] else indexBytes files) ++ bs)
      else readIndex r ((if w.haveIndex then [] else indexBytes files) ++ bs)) = Res.ok r1 bs) ∧
      Sim files F { w with haveIndex := true } r1 ∧ F.length + unresolved r1 ≤ 65535 := by
    cases hh : w.haveIndex with
    | true =>
      rw [h.idx, hh]
      refine ⟨r, fun bs => rfl, ?_, by simpa [hh] using hF⟩
      have : { w with haveIndex := true } = w := by
        cases w; simp only at hh; rw [hh]
      rw [this]; exact h
    | false =>
      rw [h.idx, hh]
      refine ⟨_, fun bs => readIndex_put files hz hl hc r bs, ?_, ?_⟩
      · refine ⟨h.fl, h.fc, h.ld, h.cd, rfl, fun _ => by simp, fun _ => by simp, ?_⟩
        intro _ i name hi
        left
        have hlt : i < files.length := (List.getElem?_eq_some_iff.1 hi).1
        constructor
        · simp [List.getElem?_replicate, hlt, fileInvalid]
        · simp [hi]
      · rw [hh] at hF
        simpa [unresolved, List.countP_replicate, fileInvalid] using hF
  obtain ⟨r1, e1, h1, hF1⟩ := hidx
  obtain ⟨k, F', r2, e2, hp, h2, hF2, hk⟩ := resolve_spec files F _ r1 h1 rfl l.fileRef
    hw.fileRef hF1 (putDelta l.firstLine w.firstLine ++ (putDelta l.lineDelta w.lineDelta ++
      (putDelta l.firstColumn w.firstColumn ++ (putDelta l.columnDelta w.columnDelta ++ rest))))
  have a1 := hw.firstLine
  have a2 := hw.firstColumn
  have a3 := hw.lineDelta
  have a4 := hw.columnDelta
  have b1 := h1.fl
  simp only at b1
  have b2 := h1.fc
  simp only at b2
  have b3 := h1.ld
  simp only at b3
  have b4 := h1.cd
  simp only at b4
  have d1 : l.firstLine < 2 ^ 32 := by omega
  have d2 : l.firstColumn < 2 ^ 32 := by omega
  have d3 : l.lineDelta < 2 ^ 32 := by omega
  have d4 : l.columnDelta < 2 ^ 32 := by omega
  have o1 : w.firstLine < 2 ^ 32 := by omega
  have o2 : w.firstColumn < 2 ^ 32 := by omega
  have o3 : w.lineDelta < 2 ^ 32 := by omega
  have o4 : w.columnDelta < 2 ^ 32 := by omega
  have hm : l.fileRef % 2 ^ 16 = l.fileRef := Nat.mod_eq_of_lt hw.fits
  have hb : l.fileRef < 2 ^ 64 := by have := hw.fits; omega
  refine ⟨⟨l.firstLine, l.firstColumn, l.lineDelta, l.columnDelta, k⟩, F',
    { r2 with firstLine := l.firstLine, firstColumn := l.firstColumn, lineDelta := l.lineDelta,
              columnDelta := l.columnDelta }, ?_, hp, ?_, ?_, ?_⟩
  rotate_left
  · refine ⟨rfl, rfl, rfl, rfl, ?_, ?_⟩
    · rcases hk with ⟨c1, c2⟩ | ⟨c1, c2, _⟩
      · simp [c1, c2]
      · constructor
        · intro e; exact absurd e c1
        · intro e; simp only at e; omega
    · unfold nameOf
      simp only
      rcases hk with ⟨c1, c2⟩ | ⟨c1, c2, c3, _⟩
      · simp [c1, c2]
      · rw [if_neg c1, if_neg (by omega), c3]
  rotate_right
  · unfold read write
    simp only [List.append_assoc]
    rw [e1, bind_ok, lift_getUint _ hb, bind_ok, hm, e2, bind_ok, b1.1,
      getDelta_putDelta l.firstLine w.firstLine d1 o1, bind_ok, b3.1,
      getDelta_putDelta l.lineDelta w.lineDelta d3 o3, bind_ok, b2.1,
      getDelta_putDelta l.firstColumn w.firstColumn d2 o2, bind_ok, b4.1,
      getDelta_putDelta l.columnDelta w.columnDelta d4 o4, bind_ok]
    have m1 : min l.firstLine lineInvalid = l.firstLine := by unfold lineInvalid; omega
    have m2 : min l.firstColumn columnInvalid = l.firstColumn := by unfold columnInvalid; omega
    have m3 : min l.lineDelta deltaInvalid = l.lineDelta := by unfold deltaInvalid; omega
    have m4 : min l.columnDelta deltaInvalid = l.columnDelta := by unfold deltaInvalid; omega
    rw [m1, m2, m3, m4]
  · exact ⟨⟨rfl, a1⟩, ⟨rfl, a2⟩, ⟨rfl, a3⟩, ⟨rfl, a4⟩, h2.idx, h2.len1, h2.len2, h2.ent⟩
  · exact hF2

theorem sameLoc_mono {files F F' : List (List Nat)} (h : F <+: F') {a b : Loc}
    (hs : SameLoc files F a b) (ha : a.fileRef = 0xffff ∨ a.fileRef < files.length) :
    SameLoc files F' a b := by
  obtain ⟨h1, h2, h3, h4, h5, h6⟩ := hs
  refine ⟨h1, h2, h3, h4, h5, ?_⟩
  unfold nameOf at h6 ⊢
  by_cases c : a.fileRef = 0xffff
  · rw [if_pos c, if_pos (h5.1 c)]
  · have c' : ¬ b.fileRef = 0xffff := fun e => c (h5.2 e)
    rw [if_neg c] at h6 ⊢
    rw [if_neg c'] at h6 ⊢
    have hlt : a.fileRef < files.length := ha.resolve_left c
    rw [List.getElem?_eq_getElem hlt] at h6 ⊢
    exact (prefix_get h h6.symm).symm

/-- **C06.**  Let `files` be the table of file names of the writing process and `F` that of
the reading process, whatever it contains.  For every sequence of locations written
through one context and read back through one context, from a buffer that continues with
arbitrary data, each location read has the same line, column and extent as the one
written and refers to a file of the same name, or to no file if the original did.  The
only limit is that the reading process has 65535 file numbers. -/
theorem loc_roundtrip (files F : List (List Nat)) (hz : ∀ n ∈ files, ∀ b ∈ n, b ≠ 0)
    (hl : ∀ n ∈ files, n.length + 1 < 2 ^ 64) (hcount : F.length + files.length ≤ 65535)
    (ls : List Loc) (hw : ∀ l ∈ ls, WF files.length l) (rest : List Nat) :
    ∃ ls' F', readAll ls.length F {} (writeAll files {} ls ++ rest) = .ok (ls', F') rest ∧
      F <+: F' ∧ Pointwise (SameLoc files F') ls ls' := by
  have gen : ∀ (ls : List Loc) (F : List (List Nat)) (w : WrCtx) (r : RdCtx),
      (∀ l ∈ ls, WF files.length l) → Sim files F w r →
      F.length + (if w.haveIndex then unresolved r else files.length) ≤ 65535 →
      ∃ ls' F', readAll ls.length F r (writeAll files w ls ++ rest) = .ok (ls', F') rest ∧
        F <+: F' ∧ Pointwise (SameLoc files F') ls ls' := by
    intro ls
    induction ls with
    | nil => intro F w r _ _ _; exact ⟨[], F, rfl, List.prefix_refl _, Pointwise.nil _⟩
    | cons l ls ih =>
      intro F w r hw h hF
      obtain ⟨l', F1, r1, e1, p1, s1, h1, hF1⟩ := read_write files F hz hl (by omega) w r h l
        (hw l (by simp)) hF (writeAll files (write files w l).2 ls ++ rest)
      obtain ⟨ls', F2, e2, p2, s2⟩ := ih F1 _ r1 (fun x hx => hw x (by simp [hx])) h1
        (by simpa [write] using hF1)
      refine ⟨l' :: ls', F2, ?_, p1.trans p2,
        Pointwise.cons (sameLoc_mono p2 s1 (hw l (by simp)).fileRef) s2⟩
      simp only [List.length_cons]
      unfold readAll writeAll
      rw [List.append_assoc, e1]
      simp only [Res.bind]
      rw [e2]
  exact gen ls F {} {} hw
    ⟨⟨rfl, by decide⟩, ⟨rfl, by decide⟩, ⟨rfl, by decide⟩, ⟨rfl, by decide⟩, rfl, by simp, by simp,
      by simp⟩ (by simpa using hcount)

/-- A case that meets the hypotheses: two files, decreasing lines, the invalid location. -/
example : ∀ l ∈ [(⟨100, 5, 0, 3, 1⟩ : Loc), ⟨7, 80, 255, 255, 0⟩, locInvalid], WF 2 l := by
  intro l hl
  simp only [List.mem_cons, List.not_mem_nil, or_false] at hl
  rcases hl with rfl | rfl | rfl <;> refine ⟨?_, ?_, ?_, ?_, ?_, ?_⟩ <;> decide

/-- The reader already knows the second file under another number. -/
example : (match readAll 3 [[65], [66, 67]] {}
      (writeAll [[66, 67], [68]] {} [⟨100, 5, 0, 3, 1⟩, ⟨7, 80, 255, 255, 0⟩, locInvalid]) with
    | .ok (ls, F) _ => some (ls, F) | _ => none) =
    some ([⟨100, 5, 0, 3, 2⟩, ⟨7, 80, 255, 255, 1⟩, locInvalid], [[65], [66, 67], [68]]) := by
  decide +kernel

/-- **C06b.**  `get_loc` always fills the bit fields without truncation: a position out of
range is saturated, an inverted range becomes the invalid location. -/
theorem getLoc_fits (fl fc ll lc ref n : Nat) (h1 : fl < 2 ^ 32) (h2 : fc < 2 ^ 32)
    (h3 : ll < 2 ^ 32) (h4 : lc < 2 ^ 32) (hr : ref = 0xffff ∨ ref < n) (hr2 : ref < 2 ^ 16) :
    WF n (getLoc fl fc ll lc ref) ∧
      (fl ≤ ll → (fl = ll → fc ≤ lc) →
        getLoc fl fc ll lc ref =
          ⟨min fl 0xfffff, min fc 0xfff, min (ll - fl) 0xff,
            if fc ≤ lc then min (lc - fc) 0xff else min (2 ^ 32 - (fc - lc)) 0xff, ref⟩) := by
  unfold getLoc locInvalid lineInvalid columnInvalid deltaInvalid fileInvalid
  constructor
  · split
    · exact ⟨by decide, by decide, by decide, by decide, Or.inl rfl, by decide⟩
    · split
      · exact ⟨by decide, by decide, by decide, by decide, Or.inl rfl, by decide⟩
      · exact ⟨by simp only; omega, by simp only; omega, by simp only; omega, by simp only; omega,
          hr, hr2⟩
  · intro a b
    rw [if_neg (by omega), if_neg (by omega)]
    have e1 : (ll + 2 ^ 32 - fl) % 2 ^ 32 = ll - fl := by omega
    have e2 : (lc + 2 ^ 32 - fc) % 2 ^ 32 = if fc ≤ lc then lc - fc else 2 ^ 32 - (fc - lc) := by
      split <;> omega
    rw [e1, e2]
    congr 1
    split <;> rfl

example : getLoc 3 10 5 2 0 = ⟨3, 10, 2, 255, 0⟩ := by decide

end Verif.Loc
