import Verif.CovRep.Spec

/-
The items of a file over all scopes, src/cov/cov-report.c:1511-1592, property
C103.

Simplification: kind, location and flags are one key; counts are not negative.
-/

namespace Verif.CovRep

/-- An item: kind, location and flags, and its count. -/
structure FileItem where
  key : Nat
  data : Nat
  deriving DecidableEq

/-- `saturate_add` in `cover_merge_one_item`, src/cov/cov-data.c:729. -/
def satAdd (a b : Nat) : Nat := if a + b ≤ 2 ^ 31 - 1 then a + b else 2 ^ 31 - 1

/-- One item of a scope, src/cov/cov-report.c:1554-1580. -/
def mergeIn (s : FileItem) : List FileItem → List FileItem
  | [] => [s]
  | f :: fs => if f.key = s.key then { f with data := satAdd f.data s.data } :: fs
    else f :: mergeIn s fs

/-- The items of a scope, src/cov/cov-report.c:1541-1581. -/
def addScope (fs ss : List FileItem) : List FileItem :=
  if fs.length = 0 then fs ++ ss else ss.foldl (fun fs s => mergeIn s fs) fs

/-- All scopes of a file in the order of the walk. -/
def collect (scopes : List (List FileItem)) : List FileItem := scopes.foldl addScope []

def keys (fs : List FileItem) : List Nat := fs.map (·.key)

theorem merge_new (s : FileItem) (fs : List FileItem) (h : s.key ∉ keys fs) :
    mergeIn s fs = fs ++ [s] := by
  induction fs with
  | nil => rfl
  | cons f fs ih =>
    unfold keys at h ih
    rw [List.map_cons, List.mem_cons, not_or] at h
    rw [mergeIn, if_neg (fun e => h.1 e.symm), ih h.2]
    rfl

/-- Copying and merging are the same for items with different keys. -/
theorem copy_merge (ss fs : List FileItem) (h : (keys (fs ++ ss)).Nodup) :
    ss.foldl (fun fs s => mergeIn s fs) fs = fs ++ ss := by
  induction ss generalizing fs with
  | nil => simp
  | cons s ss ih =>
    have hs : s.key ∉ keys fs := by
      unfold keys at h ⊢
      rw [List.map_append, List.nodup_append] at h
      exact fun hx => h.2.2 _ hx s.key (by simp) rfl
    rw [List.foldl_cons, merge_new s fs hs, ih]
    · simp
    · simpa using h

theorem addScope_merge (fs ss : List FileItem) (h : (keys ss).Nodup) :
    addScope fs ss = ss.foldl (fun fs s => mergeIn s fs) fs := by
  unfold addScope
  split
  · rename_i hl
    have : fs = [] := List.length_eq_zero_iff.mp hl
    subst this
    rw [copy_merge ss [] (by simpa using h)]
  · rfl

theorem collect_merge (scopes : List (List FileItem)) (h : ∀ ss ∈ scopes, (keys ss).Nodup)
    (fs : List FileItem) :
    scopes.foldl addScope fs = scopes.flatten.foldl (fun fs s => mergeIn s fs) fs := by
  induction scopes generalizing fs with
  | nil => rfl
  | cons ss scopes ih =>
    rw [List.foldl_cons, List.flatten_cons, List.foldl_append,
      addScope_merge fs ss (h ss List.mem_cons_self)]
    exact ih (fun x hx => h x (List.mem_cons_of_mem _ hx)) _

theorem keys_merge (s : FileItem) (fs : List FileItem) :
    keys (mergeIn s fs) = if s.key ∈ keys fs then keys fs else keys fs ++ [s.key] := by
  induction fs with
  | nil => simp [mergeIn, keys]
  | cons f fs ih =>
    rw [mergeIn]
    by_cases h : f.key = s.key
    · rw [if_pos h, if_pos (by simp [keys, h])]
      rfl
    · rw [if_neg h]
      have e : keys (f :: mergeIn s fs) = f.key :: keys (mergeIn s fs) := rfl
      have e2 : keys (f :: fs) = f.key :: keys fs := rfl
      rw [e, ih, e2]
      by_cases hm : s.key ∈ keys fs
      · rw [if_pos hm, if_pos (List.mem_cons_of_mem _ hm)]
      · rw [if_neg hm, if_neg (by
          rw [List.mem_cons, not_or]; exact ⟨fun x => h x.symm, hm⟩)]
        rfl

theorem nodup_merge (ss fs : List FileItem) (h : (keys fs).Nodup) :
    (keys (ss.foldl (fun fs s => mergeIn s fs) fs)).Nodup := by
  induction ss generalizing fs with
  | nil => exact h
  | cons s ss ih =>
    rw [List.foldl_cons]
    apply ih
    rw [keys_merge]
    split
    · exact h
    · rename_i hx
      rw [List.nodup_append]
      exact ⟨h, by simp, fun a ha b hb => by simp at hb; subst hb; exact fun e => hx (e ▸ ha)⟩

/-- The count of a key. -/
def count (k : Nat) : List FileItem → Option Nat
  | [] => none
  | f :: fs => if f.key = k then some f.data else count k fs

def comb (o : Option Nat) (d : Nat) : Option Nat :=
  match o with
  | none => some d
  | some e => some (satAdd e d)

theorem count_merge (k : Nat) (s : FileItem) (fs : List FileItem) :
    count k (mergeIn s fs) = if s.key = k then comb (count k fs) s.data else count k fs := by
  induction fs with
  | nil => simp [mergeIn, count, comb]
  | cons f fs ih =>
    rw [mergeIn]
    by_cases h : f.key = s.key
    · rw [if_pos h]
      by_cases hk : s.key = k
      · rw [if_pos hk]; simp [count, h, hk, comb]
      · rw [if_neg hk]; simp [count, h, hk]
    · rw [if_neg h]
      by_cases hk : f.key = k
      · have : ¬ s.key = k := fun x => h (hk.trans x.symm)
        simp [count, hk, this]
      · rw [count, if_neg hk, ih, count, if_neg hk]

theorem count_fold (k : Nat) (ss fs : List FileItem) :
    count k (ss.foldl (fun fs s => mergeIn s fs) fs) =
      ((ss.filter fun s => s.key == k).map (·.data)).foldl comb (count k fs) := by
  induction ss generalizing fs with
  | nil => rfl
  | cons s ss ih =>
    rw [List.foldl_cons, ih, count_merge]
    by_cases hk : s.key = k
    · rw [if_pos hk, List.filter_cons, if_pos (by simp [hk])]
      rfl
    · rw [if_neg hk, List.filter_cons, if_neg (by simp [hk])]

theorem comb_sum (ds : List Nat) (d : Nat) (hd : d ≤ 2 ^ 31 - 1) :
    ds.foldl comb (some d) = some (min (2 ^ 31 - 1) (d + ds.sum)) := by
  induction ds generalizing d with
  | nil => simp; omega
  | cons e ds ih =>
    show ds.foldl comb (some (satAdd d e)) = _
    have hs : satAdd d e = min (2 ^ 31 - 1) (d + e) := by unfold satAdd; split <;> omega
    rw [ih _ (by rw [hs]; omega), hs, List.sum_cons]
    congr 1
    omega

/-- If no scope has two items with the same kind, location and flags, the file
has each once, with the sum of its counts over all scopes, up to the limit. -/
theorem file_items (scopes : List (List FileItem)) (h : ∀ ss ∈ scopes, (keys ss).Nodup)
    (hd : ∀ ss ∈ scopes, ∀ s ∈ ss, s.data ≤ 2 ^ 31 - 1) (k : Nat) :
    (keys (collect scopes)).Nodup ∧
    count k (collect scopes) =
      if (∃ s ∈ scopes.flatten, s.key = k) then
        some (min (2 ^ 31 - 1) ((scopes.flatten.filter fun s => s.key == k).map (·.data)).sum)
      else none := by
  unfold collect
  rw [collect_merge scopes h]
  refine ⟨nodup_merge _ _ List.nodup_nil, ?_⟩
  rw [count_fold]
  have hb : ∀ s ∈ scopes.flatten, s.data ≤ 2 ^ 31 - 1 := by
    intro s hs
    obtain ⟨ss, h1, h2⟩ := List.mem_flatten.mp hs
    exact hd ss h1 s h2
  have hmem : ∀ s : FileItem, s ∈ scopes.flatten.filter (fun s => s.key == k) ↔
      s ∈ scopes.flatten ∧ s.key = k := by intro s; rw [List.mem_filter]; simp
  generalize scopes.flatten.filter (fun s => s.key == k) = l at hmem
  cases l with
  | nil =>
    rw [if_neg]
    · rfl
    · rintro ⟨s, h1, h2⟩
      have := (hmem s).mpr ⟨h1, h2⟩
      cases this
  | cons s l =>
    have hs := (hmem s).mp List.mem_cons_self
    rw [if_pos ⟨s, hs⟩, List.map_cons, List.sum_cons]
    show (l.map (·.data)).foldl comb (some s.data) = _
    exact comb_sum _ _ (hb s hs.1)

example : collect [[⟨1, 5⟩, ⟨2, 0⟩], [⟨2, 3⟩, ⟨3, 1⟩]] = [⟨1, 5⟩, ⟨2, 3⟩, ⟨3, 1⟩] := by decide +kernel

/-- The bits of a vector have toggle items with the same kind, location and
flags: those of the first scope are kept apart, those of a later one are put
together, so the number of items depends on the order of the scopes, and a bit
that never changes is hidden. -/
theorem bits_counterexample :
    collect [[⟨1, 0⟩, ⟨1, 1⟩], [⟨2, 1⟩]] = [⟨1, 0⟩, ⟨1, 1⟩, ⟨2, 1⟩] ∧
    collect [[⟨2, 1⟩], [⟨1, 0⟩, ⟨1, 1⟩]] = [⟨2, 1⟩, ⟨1, 1⟩] := by decide +kernel

end Verif.CovRep
