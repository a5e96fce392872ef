import Verif.Cov.FileModel

/-!
# A coverage database survives being written and read (C85)
-/

namespace Verif.Cov

def I32 (x : Int) : Prop := -2147483648 ≤ x ∧ x ≤ 2147483647
def I64 (x : Int) : Prop := -9223372036854775808 ≤ x ∧ x ≤ 9223372036854775807

instance (x : Int) : Decidable (I32 x) := by unfold I32; infer_instance
instance (x : Int) : Decidable (I64 x) := by unfold I64; infer_instance

/-- The members of an item are in the ranges of their types; locations of operands are set only for bins of
operands, and a name only for the kinds that have one. -/
structure Item.Fits (x : Item) : Prop where
  tag : I32 x.tag
  data : I32 x.data
  consecutive : I32 x.consecutive
  atleast : I32 x.atleast
  source : x.source < 4294967296
  metadata : I64 x.metadata
  ranges : x.ranges.length ≤ 2147483647 ∧ ∀ r ∈ x.ranges, I64 r.1 ∧ I64 r.2
  operands : x.flags &&& lhsRhsBins = 0 → x.locLhs = 0 ∧ x.locRhs = 0
  name : hasFuncName x.kind = false → x.funcName = none

def ItemsFit (l : List Item) : Prop := l.length ≤ 2147483647 ∧ ∀ x ∈ l, x.Fits

def Info.Fits (i : Info) : Prop := i.isInstance = false → i.blockName = none

def Scopes.Fits : Scopes → Prop
  | .nil => True
  | .cons _ info items children next => info.Fits ∧ ItemsFit items ∧ children.Fits ∧ next.Fits

structure File.Fits (f : File) : Prop where
  arrayLimit : I32 f.arrayLimit
  nextTag : I32 f.nextTag
  info : f.info.Fits
  items : ItemsFit f.db.items
  children : f.db.children.Fits

theorem toI32_toU64 {x : Int} (h : I32 x) : toI32 (toU64 x) = x := by
  unfold toI32 toU64
  unfold I32 at h
  rw [BitVec.toInt_setWidth, BitVec.toNat_ofInt]
  simp only [Int.bmod_def]
  omega

theorem toInt_toU64 {x : Int} (h : I64 x) : (toU64 x).toInt = x := by
  unfold toU64
  unfold I64 at h
  rw [BitVec.toInt_ofInt]
  simp only [Int.bmod_def]
  omega

theorem toI32_ofNat {n : Nat} (h : n ≤ 2147483647) : (toI32 (BitVec.ofNat 64 n)).toNat = n := by
  unfold toI32
  rw [BitVec.toInt_setWidth, BitVec.toNat_ofNat]
  simp only [Int.bmod_def]
  omega

theorem kind_ofNum (k : Kind) : Kind.ofNum k.num = some k := by cases k <;> rfl

theorem flags_back (f : BitVec 32) : (f.signExtend 64).setWidth 32 = f := by
  ext i hi
  simp only [BitVec.getElem_setWidth]
  rw [BitVec.getLsbD_signExtend]
  simp [hi, show i < 64 by omega]

/-- A reader that reads back what a writer writes does so for lists. -/
theorem getMany_flatMap {α : Type} {g : List Tok → Option (α × List Tok)} {w : α → List Tok} :
    ∀ (l : List α) (ts : List Tok), (∀ x ∈ l, ∀ ts, g (w x ++ ts) = some (x, ts)) →
      getMany g l.length (l.flatMap w ++ ts) = some (l, ts) := by
  intro l
  induction l with
  | nil => intro ts _; rfl
  | cons x l ih =>
    intro ts h
    simp only [List.flatMap_cons, List.append_assoc, List.length_cons, getMany]
    rw [h x List.mem_cons_self]
    have := ih ts fun y hy => h y (List.mem_cons_of_mem _ hy)
    simp [this]

theorem getItem_itemToks {x : Item} (h : x.Fits) (ts : List Tok) : getItem (itemToks x ++ ts) = some (x, ts) := by
  have hr : ∀ ts, getMany getRange (toI32 (BitVec.ofNat 64 x.ranges.length)).toNat
      (x.ranges.flatMap rangeToks ++ ts) = some (x.ranges, ts) := by
    intro ts
    rw [toI32_ofNat h.ranges.1]
    refine getMany_flatMap _ _ fun r hr ts => ?_
    have := h.ranges.2 r hr
    simp [rangeToks, getRange, getUint, toInt_toU64 this.1, toInt_toU64 this.2]
  have hs : ((BitVec.ofNat 64 x.source).setWidth 32).toNat = x.source := by
    have := h.source
    simp only [BitVec.toNat_setWidth, BitVec.toNat_ofNat]
    omega
  unfold getItem itemToks
  simp only [List.cons_append, List.nil_append, List.append_assoc, getUint, Option.bind_eq_bind, Option.bind_some,
    kind_ofNum, hr, getLoc, flags_back, toI32_toU64 h.tag, toI32_toU64 h.data, toI32_toU64 h.consecutive,
    toI32_toU64 h.atleast, toInt_toU64 h.metadata, hs]
  obtain ⟨kind, hier, flags, data, tag, consecutive, atleast, source, metadata, loc, locLhs, locRhs, funcName,
    ranges⟩ := x
  have ho := h.operands
  have hn := h.name
  dsimp only at ho hn ⊢
  by_cases hf : flags &&& lhsRhsBins = 0
  · obtain ⟨rfl, rfl⟩ := ho hf
    cases hk : hasFuncName kind with
    | true => simp [hf, getIdent]
    | false =>
      have := hn hk
      subst this
      simp [hf, getIdent]
  · rw [if_neg hf]
    simp only [if_neg hf]
    cases hk : hasFuncName kind with
    | true => simp [getIdent, getMany, getLoc]
    | false =>
      have := hn hk
      subst this
      simp [getIdent, getMany, getLoc]

theorem getHead_headToks {name : Name} {info : Info} {items : List Item} (hi : info.Fits) (h : ItemsFit items)
    (ts : List Tok) : getHead (headToks name info items ++ ts) = some ((name, info, items), ts) := by
  have hm : ∀ ts, getMany getItem (toI32 (BitVec.ofNat 64 items.length)).toNat (items.flatMap itemToks ++ ts) =
      some (items, ts) := by
    intro ts
    rw [toI32_ofNat h.1]
    exact getMany_flatMap _ _ fun x hx ts => getItem_itemToks (h.2 x hx) ts
  obtain ⟨inst, hier, loc, block⟩ := info
  unfold getHead headToks
  cases inst with
  | true => simp [getUint, getIdent, getLoc, hm]
  | false =>
    have hb : block = none := hi rfl
    subst hb
    simp [getUint, getIdent, getLoc, hm]

def Scopes.size : Scopes → Nat
  | .nil => 1
  | .cons _ _ _ children next => children.size + next.size + 1

theorem getKids_writeKids : ∀ (s : Scopes) (fuel : Nat) (ts : List Tok), s.Fits → s.size ≤ fuel →
    getKids fuel (writeKids s ++ .byte ctrlPop :: ts) = some (s, ts) := by
  intro s
  induction s with
  | nil =>
    intro fuel ts _ hf
    cases fuel with
    | zero => simp [Scopes.size] at hf
    | succ fuel => simp [writeKids, getKids, ctrlPop, ctrlPush]
  | cons name info items children next ihc ihn =>
    intro fuel ts hs hf
    cases fuel with
    | zero => simp [Scopes.size] at hf
    | succ fuel =>
      simp only [Scopes.size] at hf
      obtain ⟨h1, h2, h3, h4⟩ := hs
      simp only [writeKids, List.cons_append, List.append_assoc, getKids, if_true]
      rw [getHead_headToks h1 h2]
      simp only [Option.bind_eq_bind, Option.bind_some]
      rw [ihc fuel _ h3 (by omega)]
      simp only [Option.bind_some]
      rw [ihn fuel _ h4 (by omega)]
      rfl

theorem size_le (s : Scopes) : s.size ≤ (writeKids s).length + 1 := by
  induction s with
  | nil => simp [Scopes.size]
  | cons name info items children next ihc ihn =>
    simp only [Scopes.size, writeKids, List.length_cons, List.length_append]
    omega

/-- A database that is written is read back as it was. -/
theorem file_round_trip {f : File} (h : f.Fits) : readFile (writeFile f) = some f := by
  obtain ⟨mask, arrayLimit, nextTag, name, info, ⟨items, children⟩⟩ := f
  obtain ⟨h1, h2, h3, h4, h5⟩ := h
  dsimp only at h1 h2 h3 h4 h5
  have hmask : (mask.setWidth 64).setWidth 32 = mask := by simp
  simp only [writeFile, writeKids, List.cons_append, List.append_assoc, readFile, getUint, Option.bind_eq_bind,
    Option.bind_some, if_true, List.nil_append]
  rw [getHead_headToks h3 h4]
  simp only [Option.bind_some]
  rw [getKids_writeKids children _ _ h5 (by have := size_le children; simp only [List.length_append, List.length_cons]; omega)]
  simp [toI32_toU64 h1, toI32_toU64 h2]

/-- A file with an item of an expression, which has a name and operands, in an instance. -/
def exampleFile : File :=
  { mask := 0x105, arrayLimit := 0, nextTag := 2, name := [87], info := {},
    db := ⟨[], .cons [85] { isInstance := true, blockName := some [65] }
      [{ kind := .expression, hier := [85, 1], flags := 0x80000010, data := -2147483648, locLhs := 4, locRhs := 7,
         funcName := some [65, 78, 68], ranges := [(-5, 5)], metadata := -1 }] .nil .nil⟩ }

example : readFile (writeFile exampleFile) = some exampleFile := by decide +kernel

example : exampleFile.Fits :=
  ⟨by decide, by decide, fun _ => rfl, ⟨by decide, (fun x hx => nomatch hx)⟩,
    ⟨(fun h => nomatch h), ⟨by decide, fun x hx => by
      rw [List.mem_singleton.mp hx]
      exact ⟨by decide, by decide, by decide, by decide, by decide, by decide, ⟨by decide, by decide⟩, by decide,
        by decide⟩⟩, trivial, trivial⟩⟩

/-- The scope that is made at run time for functional coverage has a name of a block but is not an instance
(rt/cover.c 385-387), so the name is not in the file. -/
theorem block_name_lost_counterexample : ∃ f g : File, readFile (writeFile f) = some g ∧ g ≠ f := by
  refine ⟨{ exampleFile with info := { blockName := some [65] } }, exampleFile, ?_, ?_⟩ <;> decide +kernel

end Verif.Cov
