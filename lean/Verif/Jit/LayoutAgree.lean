import Verif.Jit.LayoutLeaf

/-
The library and the generated code agree about the types described by
`Faithful` and `FaithfulSignal`.
-/

namespace Verif.Jit.Layout

theorem layoutBoth_elem (t : Ty) : (layoutBoth t).2 = layoutOf t.elemRecur := by
  induction t using Ty.rec (motive_2 := fun _ => True) with
  | array nd e ih => rw [layoutBoth, Ty.elemRecur]; exact ih
  | sub rs e ih => rw [layoutBoth, Ty.elemRecur]; exact ih
  | nil => trivial
  | cons => trivial
  | _ => simp [layoutBoth, Ty.elemRecur, layoutOf]

theorem lowerBoth_elem (t : Ty) : (lowerBoth t).2 = lowerType t.elemRecur := by
  induction t using Ty.rec (motive_2 := fun _ => True) with
  | array nd e ih => rw [lowerBoth, Ty.elemRecur]; exact ih
  | sub rs e ih => rw [lowerBoth, Ty.elemRecur]; exact ih
  | nil => trivial
  | cons => trivial
  | _ => simp [lowerBoth, Ty.elemRecur, lowerType]

theorem countDims_const {rs : List Rng} : ∀ {n r : Nat}, constDims n rs = some r →
    countDims n rs = r := by
  induction rs with
  | nil =>
    intro n r h
    rw [constDims] at h
    cases Option.some.inj h
    rfl
  | cons a rs ih =>
    intro n r h
    rw [constDims] at h
    obtain ⟨len, hl, h⟩ := bind_some h
    rw [countDims, hl]
    exact ih h

theorem fitInt_eq {n m : Int} (h : fitInt n = some m) : m = n := by
  unfold fitInt at h
  split at h
  · exact (Option.some.inj h).symm
  · exact absurd h (by simp)

theorem constBounds_sub {rs : List Rng} {e : Ty} (h : (Ty.sub rs e).constBounds = true) :
    e.isUnconstrained = false ∧ allKnown rs = true ∧ e.constBounds = true := by
  rw [Ty.constBounds] at h
  simp only [Bool.and_eq_true, Bool.not_eq_true'] at h
  exact ⟨h.1.1, h.1.2, h.2⟩

/-- Both sides count the same elements. -/
theorem count_const (t : Ty) : ∀ {n : Int} {k : Nat}, t.constBounds = true →
    countSub t = some n → constSize t = some k → n = k := by
  induction t using Ty.rec (motive_2 := fun _ => True) with
  | array nd e ih => intro n k h; exact absurd h (by simp [Ty.constBounds])
  | sub rs e ih =>
    intro n k h hn hk
    obtain ⟨hu, _, hc⟩ := constBounds_sub h
    rw [countSub, hu, if_neg (by simp)] at hn
    obtain ⟨n', hn', hn⟩ := bind_some hn
    rw [constSize] at hk
    obtain ⟨k', hk', hk⟩ := bind_some hk
    obtain ⟨r, hr, hk⟩ := bind_some hk
    have h1 := ih hc hn' hk'
    subst h1
    rw [countDims_const hr] at hn
    rw [fitInt_eq hn, fitNat_eq hk]
  | nil => trivial
  | cons => trivial
  | _ =>
    intro n k _ hn hk
    simp only [countSub, constSize, Option.some.injEq] at hn hk
    omega

/-- Agreement about a type. -/
def Agr (t : Ty) : Prop :=
  ∀ l m s, layoutOf t = some l → lowerType t = some m → sizeOf m = some s → Agrees l m t.isRecord

/-- Agreement about the fields of a record. -/
def AgrFields (fs : List Ty) : Prop :=
  ∀ off acc l ms stop, layoutFields off acc fs = some l → lowerFields fs = some ms →
    sizeFields off ms = some stop →
    l.size = stop ∧ l.align = 8 ∧ ∃ ps, l.parts = acc ++ ps ∧ ps.length = ms.length ∧
      ∀ (i : Nat) f, ms[i]? = some f → ∃ p, ps[i]? = some p ∧
        recordRef off ms i = some p.offset ∧ sizeOf f = some p.size ∧ p.align = alignOf f ∧
        p.rep = 1 ∧ p.cls = .data

theorem agrees_snug {t : Ty} {l : Lay} {m : MTy} (h : Agrees l m t.isRecord)
    (hs : Snug t) (hl : layoutOf t = some l) : sizeOf m = some l.size := by
  have h1 := h.size
  cases hr : t.isRecord with
  | false => rw [hr] at h1; exact h1
  | true =>
    rw [hr] at h1
    rw [h1, if_pos rfl, alignUp_of_dvd (by decide) (hs l hr hl)]

theorem agr_range {low high : Int} {l : Lay} (h : low ≤ high)
    (hl : rangeLay (.known low high) = some l) : Agrees l (.int low high) false := by
  cases Option.some.inj hl
  have hb : bytesForRange low high = alignUp (reprBits low high) 8 / 8 := by
    rw [bytesForRange, reprBits_eq h]
  refine ⟨hb, ?_, ?_, ?_, ?_, ?_⟩
  · rw [sizeOf, ← hb]; rfl
  · intro ms h; cases h
  · intro n e h; cases h
  · intro d e h; cases h
  · intro _
    exact ⟨rfl, by rw [accesses, ← hb]; rfl⟩

theorem agr_wrapped {nd : Nat} {m : MTy} (hm : m.isSignal = false) :
    Agrees (wrappedLay nd) (.uarray nd m) false := by
  refine ⟨rfl, ?_, ?_, ?_, ?_, ?_⟩
  · rw [sizeOf, hm]
    simp only [wrappedLay, Bool.false_eq_true, if_false, Option.some.injEq]
    omega
  · intro ms h; cases h
  · intro n e h; cases h
  · intro d e h
    cases h
    simp only [wrappedLay]
    rw [Nat.mul_comm]
  · rintro (⟨_, _, h⟩ | h) <;> cases h

theorem isSignal_of_elemOk {m : MTy} (h : elemOk m = true) : m.isSignal = false := by
  cases m <;> simp_all [elemOk, MTy.isSignal]

theorem agr_fields_nil : AgrFields [] := by
  intro off acc l ms stop hl hm hs
  rw [layoutFields] at hl
  rw [lowerFields] at hm
  cases Option.some.inj hl
  cases Option.some.inj hm
  rw [sizeFields] at hs
  cases Option.some.inj hs
  exact ⟨rfl, rfl, [], by simp, rfl, fun i f h => by simp at h⟩

theorem agr_fields_cons {f : Ty} {fs : List Ty} (hf : Agr f) (hsn : Snug f) (hfs : AgrFields fs) :
    AgrFields (f :: fs) := by
  intro off acc l ms stop hl hm hs
  rw [layoutFields] at hl
  obtain ⟨fl, hfl, hl⟩ := bind_some hl
  obtain ⟨next, hnext, hl⟩ := bind_some hl
  rw [lowerFields] at hm
  obtain ⟨m, hfm, hm⟩ := bind_some hm
  obtain ⟨ms', hms, rfl⟩ := map_some hm
  rw [sizeFields] at hs
  obtain ⟨fb, hfb, hs⟩ := bind_some hs
  have hag := hf fl m fb hfl hfm hfb
  have hsz := agrees_snug hag hsn hfl
  rw [hfb] at hsz
  cases Option.some.inj hsz
  cases fitNat_eq hnext
  rw [hag.align] at hl
  obtain ⟨h1, h2, ps, h3, h4, h5⟩ := hfs _ _ l ms' stop hl hms hs
  refine ⟨h1, h2, ⟨alignUp off (alignOf m), fl.size, 1, alignOf m, .data⟩ :: ps, ?_, by simp [h4], ?_⟩
  · rw [h3, List.append_assoc]; rfl
  · intro i g hg
    cases i with
    | zero =>
      simp at hg
      subst hg
      exact ⟨_, rfl, rfl, hfb, rfl, rfl, rfl⟩
    | succ i =>
      obtain ⟨p, hp, ho, hrest⟩ := h5 i g (by simpa using hg)
      refine ⟨p, by simpa using hp, ?_, hrest⟩
      rw [recordRef, hfb]
      exact ho

theorem agr_record {fs : List Ty} (h : AgrFields fs) : Agr (.record fs) := by
  intro l m s hl hm hs
  rw [layoutOf, layoutBoth] at hl
  rw [lowerType, lowerBoth] at hm
  dsimp only at hl hm
  obtain ⟨ms, hms, rfl⟩ := map_some hm
  obtain ⟨bytes, hb, hsb⟩ := sizeOf_record hs
  obtain ⟨h1, h2, ps, h3, h4, h5⟩ := h 0 [] l ms bytes hl hms hb
  refine ⟨h2, ?_, ?_, ?_, ?_, ?_⟩
  · rw [hs, hsb, h1]; rfl
  · intro ms' he
    cases he
    rw [h3, List.nil_append]
    exact ⟨h4, h5⟩
  · intro n e h; cases h
  · intro d e h; cases h
  · rintro (⟨_, _, h⟩ | h) <;> cases h

theorem agr_sub_const {rs : List Rng} {e : Ty} (hc : (Ty.sub rs e).constBounds = true)
    (he : Agr e.elemRecur) (hsn : Snug e.elemRecur) : Agr (.sub rs e) := by
  intro l m s hl hm hs
  rw [layoutOf, layoutBoth] at hl
  dsimp only at hl
  obtain ⟨n, hn, hl⟩ := bind_some hl
  rw [lowerType, lowerBoth] at hm
  dsimp only at hm
  obtain ⟨me, hme, hm⟩ := bind_some hm
  rw [hc, if_pos rfl] at hm
  obtain ⟨k, hk, rfl⟩ := map_some hm
  have hnk := count_const _ hc hn hk
  subst hnk
  rw [if_pos (by omega)] at hl
  obtain ⟨el, hel, hl⟩ := bind_some hl
  unfold arrayLay at hl
  obtain ⟨sz, hsz, rfl⟩ := map_some hl
  rw [layoutBoth_elem] at hel
  rw [lowerBoth_elem] at hme
  obtain ⟨es, hes, hse⟩ := sizeOf_carray hs
  have hag := he el me es hel hme hes
  have h1 := agrees_snug hag hsn hel
  rw [hes] at h1
  cases Option.some.inj h1
  cases fitNat_eq hsz
  refine ⟨hag.align, ?_, ?_, ?_, ?_, ?_⟩
  · rw [hs, hse]; rfl
  · intro ms h; cases h
  · intro n' e' h
    cases h
    refine ⟨el.size, hes, ?_⟩
    dsimp only
    rw [hag.align]
    rfl
  · intro d e h; cases h
  · rintro (⟨_, _, h⟩ | h) <;> cases h

theorem agr_sub_wrapped {rs : List Rng} {e : Ty} (hc : (Ty.sub rs e).constBounds = false)
    (hx : extraDims e = 0) (hneg : ∀ n, countSub (.sub rs e) = some n → n < 0) :
    Agr (.sub rs e) := by
  intro l m s hl hm hs
  rw [layoutOf, layoutBoth] at hl
  dsimp only at hl
  obtain ⟨n, hn, hl⟩ := bind_some hl
  have := hneg n hn
  rw [if_neg (by omega)] at hl
  cases Option.some.inj hl
  rw [lowerType, lowerBoth] at hm
  dsimp only at hm
  obtain ⟨me, hme, hm⟩ := bind_some hm
  rw [hc, if_neg (by simp)] at hm
  cases Option.some.inj hm
  rw [hx]
  exact agr_wrapped (isSignal_of_elemOk ((lowerBoth_ok e).2 me hme).2)

theorem agr_array {nd : Nat} {e : Ty} (hx : extraDims e = 0) : Agr (.array nd e) := by
  intro l m s hl hm hs
  rw [layoutOf, layoutBoth] at hl
  cases Option.some.inj hl
  rw [lowerType, lowerBoth] at hm
  dsimp only at hm
  obtain ⟨me, hme, hm⟩ := bind_some hm
  rw [if_neg (by simp)] at hm
  cases Option.some.inj hm
  rw [hx]
  exact agr_wrapped (isSignal_of_elemOk ((lowerBoth_ok e).2 me hme).2)

mutual

/-- As `Faithful`, in terms of the functions of the model. -/
def FaithfulC : Ty → Prop
  | .int base _ => ∃ low high, base = .known low high ∧ low ≤ high
  | .phys base => ∃ low high, base = .known low high ∧ low ≤ high
  | .enum n => 0 < n
  | .real => True
  | .access => False
  | .file => False
  | .array _ e => extraDims e = 0
  | .sub rs e =>
    if (Ty.sub rs e).constBounds then FaithfulC e ∧ Snug e.elemRecur
    else extraDims e = 0 ∧ ∀ n, countSub (.sub rs e) = some n → n < 0
  | .record fs => allFaithfulC fs

/-- For all fields. -/
def allFaithfulC : List Ty → Prop
  | [] => True
  | f :: fs => FaithfulC f ∧ Snug f ∧ allFaithfulC fs

end

mutual

/-- As `FaithfulSignal`, in terms of the functions of the model. -/
def FaithfulSignalC : Ty → Prop
  | .array _ e => extraDims e = 0
  | .sub rs e =>
    if (Ty.sub rs e).constBounds then e.isHomogeneous = true else extraDims e = 0
  | .record fs => allFaithfulSignalC fs
  | .access => False
  | .file => False
  | _ => True

/-- For all fields. -/
def allFaithfulSignalC : List Ty → Prop
  | [] => True
  | f :: fs => FaithfulSignalC f ∧ allFaithfulSignalC fs

end

theorem agr_all (t : Ty) : FaithfulC t → Agr t ∧ (t.constBounds = true → Agr t.elemRecur) := by
  induction t using Ty.rec (motive_2 := fun fs => allFaithfulC fs → AgrFields fs) with
  | int b o =>
    intro h
    rw [FaithfulC] at h
    obtain ⟨low, high, rfl, hle⟩ := h
    have : Agr (.int (.known low high) o) := by
      intro l m s hl hm _
      rw [layoutOf, layoutBoth] at hl
      rw [lowerType, lowerBoth] at hm
      cases Option.some.inj hm
      exact agr_range hle hl
    exact ⟨this, fun _ => this⟩
  | phys b =>
    intro h
    rw [FaithfulC] at h
    obtain ⟨low, high, rfl, hle⟩ := h
    have : Agr (.phys (.known low high)) := by
      intro l m s hl hm _
      rw [layoutOf, layoutBoth] at hl
      rw [lowerType, lowerBoth] at hm
      cases Option.some.inj hm
      exact agr_range hle hl
    exact ⟨this, fun _ => this⟩
  | enum n =>
    intro h
    rw [FaithfulC] at h
    have : Agr (.enum n) := by
      intro l m s hl hm _
      rw [layoutOf, layoutBoth] at hl
      rw [lowerType, lowerBoth] at hm
      cases Option.some.inj hm
      exact agr_range (by omega) hl
    exact ⟨this, fun _ => this⟩
  | real =>
    intro _
    have : Agr .real := by
      intro l m s hl hm _
      rw [layoutOf, layoutBoth] at hl
      rw [lowerType, lowerBoth] at hm
      cases Option.some.inj hl
      cases Option.some.inj hm
      refine ⟨rfl, by rw [sizeOf]; rfl, ?_, ?_, ?_, fun _ => ⟨rfl, by rw [accesses]; rfl⟩⟩
      · intro ms h; cases h
      · intro n e h; cases h
      · intro d e h; cases h
    exact ⟨this, fun _ => this⟩
  | access => intro h; exact absurd h (by simp [FaithfulC])
  | file => intro h; exact absurd h (by simp [FaithfulC])
  | array nd e ih =>
    intro h
    rw [FaithfulC] at h
    exact ⟨agr_array h, fun hc => absurd hc (by simp [Ty.constBounds])⟩
  | sub rs e ih =>
    intro h
    rw [FaithfulC] at h
    cases hc : (Ty.sub rs e).constBounds with
    | true =>
      rw [hc, if_pos rfl] at h
      have h1 := (ih h.1).2 (constBounds_sub hc).2.2
      refine ⟨agr_sub_const hc h1 h.2, fun _ => ?_⟩
      rw [Ty.elemRecur]
      exact h1
    | false =>
      rw [hc, if_neg (by simp)] at h
      exact ⟨agr_sub_wrapped hc h.1 h.2, fun h => absurd h (by simp)⟩
  | record fs ih =>
    intro h
    rw [FaithfulC] at h
    have := agr_record (ih h)
    exact ⟨this, fun _ => this⟩
  | nil => exact agr_fields_nil
  | cons f fs ihf ihfs =>
    rename_i h
    rw [allFaithfulC] at h
    exact agr_fields_cons (ihf h.1).1 h.2.1 (ihfs h.2.2)

/-! ### Signals -/

theorem isSignal_lowered {e : Ty} {m : MTy} (hm : (lowerSignalBoth e).2 = some m)
    (hh : e.isHomogeneous = false) : m.isSignal = false :=
  (((lowerSignalBoth_ok e).2 m hm).2 hh).2

theorem signalWrapped_agrees {h : Bool} {nd : Nat} {m : MTy} (hm : m.isSignal = h) :
    AgreesSignal (signalWrapped h nd) (.uarray nd m) := by
  subst hm
  refine ⟨?_, ?_, ?_, ?_, ?_, ?_⟩
  · unfold signalWrapped; split <;> rfl
  · refine ⟨_, by rw [sizeOf], ?_⟩
    rw [alignUp_of_dvd (by decide) (by split <;> omega)]
    unfold signalWrapped
    split <;> dsimp only <;> omega
  · intro ms h; cases h
  · intro h; cases h
  · intro d e he
    cases he
    unfold signalWrapped
    split
    · exact ⟨_, _, rfl, rfl, rfl, Nat.mul_comm _ _, rfl, rfl⟩
    · exact ⟨_, _, rfl, rfl, rfl, Nat.mul_comm _ _, rfl, rfl⟩
  · intro n e h; cases h

theorem signal_agrees : AgreesSignal (signalFixed true) .signal := by
  refine ⟨rfl, ⟨12, by rw [sizeOf], by decide⟩, ?_, fun _ => rfl, ?_, ?_⟩
  · intro ms h; cases h
  · intro d e h; cases h
  · intro n e h; cases h

theorem alignUp_eight_mono_add {o s : Nat} : alignUp (alignUp o 8 + s) 8 = alignUp o 8 + alignUp s 8 := by
  have h1 := alignUp_dvd o (a := 8) (by decide)
  have h2 := alignUp_dvd s (a := 8) (by decide)
  have h3 := le_alignUp s (a := 8) (by decide)
  have h4 := alignUp_lt s (a := 8) (by decide)
  have h5 := alignUp_dvd (alignUp o 8 + s) (a := 8) (by decide)
  have h6 := le_alignUp (alignUp o 8 + s) (a := 8) (by decide)
  have h7 := alignUp_lt (alignUp o 8 + s) (a := 8) (by decide)
  omega

theorem signal_align {l : Lay} {m : MTy} {t : Ty} (h : signalLayoutOf t = some l)
    (ha : AgreesSignal l m) (hm : alignOf m = 8) : l.align = 8 := by
  rw [ha.align, hm]

/-- Agreement about the signals of a type. -/
def AgrSig (t : Ty) : Prop :=
  ∀ l m s, signalLayoutOf t = some l → lowerSignalType t = some m → sizeOf m = some s →
    AgreesSignal l m ∧ alignOf m = 8

/-- Agreement about the signals of the fields of a record.  The ends of the
parts differ by the unused bytes. -/
def AgrSigFields (fs : List Ty) : Prop :=
  ∀ off off' acc l ms stop, off = alignUp off' 8 → signalFields off acc fs = some l →
    lowerSignalFields fs = some ms → sizeFields off' ms = some stop →
    l.size = alignUp stop 8 ∧ l.align = 8 ∧ ∃ ps, l.parts = acc ++ ps ∧ ps.length = ms.length ∧
      ∀ (i : Nat) f, ms[i]? = some f → ∃ p s, ps[i]? = some p ∧
        recordRef off' ms i = some p.offset ∧ sizeOf f = some s ∧ p.size = alignUp s 8 ∧
        p.align = alignOf f ∧ p.rep = 1 ∧ p.cls = .data

theorem agrSig_fields_cons {f : Ty} {fs : List Ty} (hf : AgrSig f) (hfs : AgrSigFields fs) :
    AgrSigFields (f :: fs) := by
  intro off off' acc l ms stop ho hl hm hs
  rw [signalFields] at hl
  obtain ⟨fl, hfl, hl⟩ := bind_some hl
  obtain ⟨next, hnext, hl⟩ := bind_some hl
  rw [lowerSignalFields] at hm
  obtain ⟨m, hfm, hm⟩ := bind_some hm
  obtain ⟨ms', hms, rfl⟩ := map_some hm
  rw [sizeFields] at hs
  obtain ⟨fb, hfb, hs⟩ := bind_some hs
  obtain ⟨hag, h8⟩ := hf fl m fb hfl hfm hfb
  obtain ⟨s', hs', hsz⟩ := hag.size
  rw [hfb] at hs'
  cases Option.some.inj hs'
  have hal : fl.align = 8 := by rw [hag.align, h8]
  have hoff : alignUp off 8 = alignUp off' 8 := by
    rw [ho]; exact alignUp_of_dvd (by decide) (alignUp_dvd _ (by decide))
  rw [hal, hoff] at hl hnext
  rw [h8] at hs
  cases fitNat_eq hnext
  obtain ⟨h1, h2, ps, h3, h4, h5⟩ := hfs _ (alignUp off' 8 + fb) _ l ms' stop
    (by rw [alignUp_eight_mono_add, hsz]) hl hms hs
  refine ⟨h1, h2, ⟨alignUp off' 8, fl.size, 1, 8, .data⟩ :: ps, ?_, by simp [h4], ?_⟩
  · rw [h3, List.append_assoc]; rfl
  · intro i g hg
    cases i with
    | zero =>
      simp at hg
      subst hg
      exact ⟨_, fb, rfl, by rw [recordRef, h8], hfb, hsz.symm, h8.symm, rfl, rfl⟩
    | succ i =>
      obtain ⟨p, s, hp, hor, hrest⟩ := h5 i g (by simpa using hg)
      refine ⟨p, s, by simpa using hp, ?_, hrest⟩
      rw [recordRef, hfb, h8]
      exact hor

theorem agrSig_all (t : Ty) : FaithfulSignalC t → AgrSig t := by
  induction t using Ty.rec (motive_2 := fun fs => allFaithfulSignalC fs → AgrSigFields fs) with
  | access => intro h; exact absurd h (by simp [FaithfulSignalC])
  | file => intro h; exact absurd h (by simp [FaithfulSignalC])
  | array nd e ih =>
    intro h l m s hl hm hs
    rw [FaithfulSignalC] at h
    rw [signalLayoutOf] at hl
    cases Option.some.inj hl
    rw [lowerSignalType, lowerSignalBoth] at hm
    dsimp only at hm
    rw [h] at hm
    unfold lowerSignalSub at hm
    cases hh : e.isHomogeneous with
    | true =>
      rw [hh, if_pos rfl, if_neg (by simp)] at hm
      cases Option.some.inj hm
      exact ⟨signalWrapped_agrees rfl, rfl⟩
    | false =>
      rw [hh, if_neg (by simp)] at hm
      obtain ⟨me, hme, hm⟩ := bind_some hm
      rw [if_neg (by simp)] at hm
      cases Option.some.inj hm
      exact ⟨signalWrapped_agrees (isSignal_lowered hme hh), rfl⟩
  | sub rs e ih =>
    intro h l m s hl hm hs
    rw [FaithfulSignalC] at h
    rw [signalLayoutOf] at hl
    rw [lowerSignalType, lowerSignalBoth] at hm
    dsimp only at hm
    unfold lowerSignalSub at hm
    cases hc : (Ty.sub rs e).constBounds with
    | true =>
      rw [hc, if_pos rfl] at h hl
      rw [h] at hl hm
      rw [if_pos rfl, hc, if_pos rfl] at hm
      cases Option.some.inj hl
      cases Option.some.inj hm
      exact ⟨signal_agrees, rfl⟩
    | false =>
      rw [hc, if_neg (by simp)] at h hl
      rw [h, hc] at hm
      cases Option.some.inj hl
      cases hh : e.isHomogeneous with
      | true =>
        rw [hh, if_pos rfl, if_neg (by simp)] at hm
        cases Option.some.inj hm
        exact ⟨signalWrapped_agrees rfl, rfl⟩
      | false =>
        rw [hh, if_neg (by simp)] at hm
        obtain ⟨me, hme, hm⟩ := bind_some hm
        rw [if_neg (by simp)] at hm
        cases Option.some.inj hm
        exact ⟨signalWrapped_agrees (isSignal_lowered hme hh), rfl⟩
  | record fs ih =>
    intro h l m s hl hm hs
    rw [FaithfulSignalC] at h
    rw [signalLayoutOf] at hl
    rw [lowerSignalType, lowerSignalBoth] at hm
    dsimp only at hm
    obtain ⟨ms, hms, rfl⟩ := map_some hm
    obtain ⟨bytes, hb, hsb⟩ := sizeOf_record hs
    obtain ⟨h1, h2, ps, h3, h4, h5⟩ := ih h 0 0 [] l ms bytes rfl hl hms hb
    refine ⟨⟨h2, ⟨s, hs, ?_⟩, ?_, ?_, ?_, ?_⟩, rfl⟩
    · rw [hsb, h1]; exact alignUp_of_dvd (by decide) (alignUp_dvd _ (by decide))
    · intro ms' he
      cases he
      rw [h3, List.nil_append]
      exact ⟨h4, h5⟩
    · intro h; cases h
    · intro d e h; cases h
    · intro n e h; cases h
  | nil =>
    intro off off' acc l ms stop ho hl hm hs
    rw [signalFields] at hl
    rw [lowerSignalFields] at hm
    cases Option.some.inj hl
    cases Option.some.inj hm
    rw [sizeFields] at hs
    cases Option.some.inj hs
    exact ⟨ho, rfl, [], by simp, rfl, fun i f h => by simp at h⟩
  | cons f fs ihf ihfs =>
    rename_i h
    rw [allFaithfulSignalC] at h
    exact agrSig_fields_cons (ihf h.1) (ihfs h.2)
  | _ =>
    intro _ l m s hl hm _
    rw [signalLayoutOf] at hl
    rw [lowerSignalType, lowerSignalBoth] at hm
    · cases Option.some.inj hl
      cases Option.some.inj hm
      exact ⟨signal_agrees, rfl⟩
    all_goals simp

end Verif.Jit.Layout
