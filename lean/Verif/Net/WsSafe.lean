/-
The receiver given bytes of any kind.
-/
import Verif.Net.WsStream

namespace Verif.Net

/-- Somewhere in the bytes there is what could be the length of a frame, in the
    long form, which is negative as an `int`. -/
def Huge (s : List UInt8) : Prop :=
  ∃ (pre ext post : List UInt8) (b1 : UInt8), s = pre ++ b1 :: (ext ++ post) ∧
    b1.toNat % 128 = 127 ∧ ext.length = 8 ∧ 2147483648 ≤ bigEndian ext % 4294967296

theorem Huge.mono {s : List UInt8} (h : Huge s) (t : List UInt8) : Huge (s ++ t) := by
  obtain ⟨pre, ext, post, b1, h1, h2⟩ := h
  exact ⟨pre, ext, post ++ t, b1, by rw [h1]; simp, h2⟩

theorem Huge.suffix {s t : List UInt8} (h : Huge s) (hs : s <:+ t) : Huge t := by
  obtain ⟨pre, ext, post, b1, h1, h2⟩ := h
  obtain ⟨z, hz⟩ := hs
  exact ⟨z ++ pre, ext, post, b1, by rw [← hz, h1]; simp, h2⟩

theorem size0_lt (fr : List UInt8) : size0 fr < 128 := by
  unfold size0
  rw [and_7f]
  omega

theorem headerSize_bounds (fr : List UInt8) : 2 ≤ headerSize fr ∧ headerSize fr ≤ 14 ∧
    (maskBit fr = true → 6 ≤ headerSize fr) ∧ (size0 fr = 127 → 10 ≤ headerSize fr) := by
  unfold headerSize
  refine ⟨by omega, ?_, ?_, ?_⟩
  · split <;> split <;> (try split) <;> omega
  · intro h; rw [if_pos h]; omega
  · intro h
    rw [if_neg (show ¬ size0 fr = 126 by omega), if_pos h]
    omega

theorem frameLength_neg {fr : List UInt8} (h : headerSize fr ≤ fr.length) (hn : frameLength fr < 0) :
    Huge (fr.drop 1) := by
  have hb := headerSize_bounds fr
  unfold frameLength at hn
  split at hn
  · rename_i h1
    have h2 : 10 ≤ fr.length := by have := hb.2.2.2 h1; omega
    rcases fr with _ | ⟨b0, _ | ⟨b1, t⟩⟩
    · simp only [List.length_nil] at h2; omega
    · simp only [List.length_cons, List.length_nil] at h2; omega
    · have h8 : (t.take 8).length = 8 := by
        simp only [List.length_cons] at h2
        rw [List.length_take]
        omega
      refine ⟨[], t.take 8, t.drop 8, b1, ?_, ?_, h8, ?_⟩
      · simp
      · rw [← and_7f]; exact h1
      · simp only [List.drop_succ_cons, List.drop_zero] at hn
        have h3 := unpackBe64_big h8 (t.drop 8)
        rw [List.take_append_drop] at h3
        rw [h3] at hn
        unfold toInt at hn
        split at hn <;> omega
  · split at hn
    · unfold toInt unpackBe16 at hn
      have h3 := ((fr.drop 2).getD 0 0).toNat_lt
      have h4 := ((fr.drop 2).getD 1 0).toNat_lt
      split at hn <;> omega
    · omega

theorem toInt_bounds (n : Nat) : -2147483648 ≤ toInt n ∧ toInt n < 2147483648 := by
  unfold toInt
  split <;> omega

theorem frameLength_bounds (fr : List UInt8) :
    -2147483648 ≤ frameLength fr ∧ frameLength fr < 2147483648 := by
  have h := size0_lt fr
  unfold frameLength
  split
  · exact toInt_bounds _
  · split
    · exact toInt_bounds _
    · omega

theorem needed_pos {fr : List UInt8} (h : 0 ≤ frameLength fr) :
    (needed fr : Int) = frameLength fr + headerSize fr := by
  have h1 := frameLength_bounds fr
  have h2 := headerSize_bounds fr
  unfold needed
  omega

theorem unmask_drop_after (r h l : Nat) (d : List UInt8) (k : Nat) (hk : r + h + l ≤ k) :
    (unmask r h l d).drop k = d.drop k := by
  apply List.ext_getElem?
  intro i
  rw [List.getElem?_drop, List.getElem?_drop]
  simp only [unmask, List.getElem?_mapIdx]
  have : ∀ b : UInt8, (if r + h ≤ k + i ∧ k + i < r + h + l
    then b ^^^ d.getD (r + h - 4 + (k + i - (r + h)) % 4) 0 else b) = b := by
    intro b
    rw [if_neg (by omega)]
  simp only [this]
  cases d[k + i]? <;> rfl

/-- How the dispatch can end for any bytes. -/
theorem dispatch_any (debug : Bool) (rx : Rx) (op : UInt8) (h : Nat) (fl : Int)
    (hidx : (rx.rptr + h + fl).toNat < rx.size) :
    (∃ data' ev, dispatch debug rx op h fl = .next { rx with data := data' } ev ∧
      data'.length = rx.data.length ∧
      (0 ≤ fl → data'.drop ((rx.rptr + h + fl).toNat + 1) = rx.data.drop ((rx.rptr + h + fl).toNat + 1))) ∨
    (fl < 0 ∧ dispatch debug rx op h fl = .fault .negative) ∨
    (debug = true ∧ dispatch debug rx op h fl = .fault .opcode) := by
  unfold dispatch
  dsimp only
  split
  · rw [store, if_pos hidx]
    dsimp only
    split
    · rename_i hn
      right; left; exact ⟨hn, rfl⟩
    · left
      refine ⟨_, _, rfl, by simp, ?_⟩
      intro _
      rw [List.drop_set_of_lt (by omega)]
  · split
    · split
      · rename_i hn
        right; left; exact ⟨hn, rfl⟩
      · left; exact ⟨_, _, rfl, rfl, fun _ => rfl⟩
    · split
      · left; exact ⟨_, _, rfl, rfl, fun _ => rfl⟩
      · split
        · split
          · rename_i hn
            right; left; exact ⟨hn, rfl⟩
          · left; exact ⟨_, _, rfl, rfl, fun _ => rfl⟩
        · split
          · split
            · rename_i hn
              right; left; exact ⟨hn, rfl⟩
            · left; exact ⟨_, _, rfl, rfl, fun _ => rfl⟩
          · split
            · rename_i hd
              right; right; exact ⟨hd, rfl⟩
            · left; exact ⟨_, _, rfl, rfl, fun _ => rfl⟩

/-- How a round can end for any bytes. -/
theorem step_any (debug : Bool) (rx : Rx) (hr : rx.rptr ≤ rx.data.length) (hs : rx.data.length < rx.size) :
    stepFrame debug rx = .more ∨
    (∃ data' ev k, stepFrame debug rx = .next { rx with data := data', rptr := rx.rptr + k } ev ∧
      data'.length = rx.data.length ∧ rx.rptr + k ≤ rx.data.length ∧
      ((2 ≤ k ∧ data'.drop (rx.rptr + k + 1) = rx.data.drop (rx.rptr + k + 1)) ∨
        Huge (rx.data.drop (rx.rptr + 1)))) ∨
    (stepFrame debug rx = .fault .negative ∧ Huge (rx.data.drop (rx.rptr + 1))) ∨
    (debug = true ∧ (stepFrame debug rx = .fault .opcode ∨ stepFrame debug rx = .fault .fin)) := by
  unfold stepFrame
  dsimp only
  by_cases c1 : rx.data.length - rx.rptr < 2
  · left; rw [if_pos c1]
  rw [if_neg c1]
  by_cases c2 : rx.data.length - rx.rptr < headerSize (rx.data.drop rx.rptr)
  · left; rw [if_pos c2]
  rw [if_neg c2]
  by_cases c3 : rx.data.length - rx.rptr < needed (rx.data.drop rx.rptr)
  · left; rw [if_pos c3]
  rw [if_neg c3]
  by_cases c4 : (debug && (rx.data.drop rx.rptr).getD 0 0 &&& 0x80 == 0) = true
  · right; right; right
    rw [if_pos c4]
    refine ⟨?_, Or.inr rfl⟩
    rw [Bool.and_eq_true] at c4
    exact c4.1
  rw [if_neg c4]
  right
  have hlen : (rx.data.drop rx.rptr).length = rx.data.length - rx.rptr := by simp
  have hhuge : frameLength (rx.data.drop rx.rptr) < 0 → Huge (rx.data.drop (rx.rptr + 1)) := by
    intro hn
    rw [← List.drop_drop]
    exact frameLength_neg (by omega) hn
  have hb := headerSize_bounds (rx.data.drop rx.rptr)
  generalize hd : (if maskBit (rx.data.drop rx.rptr) = true
      then unmask rx.rptr (headerSize (rx.data.drop rx.rptr))
        (frameLength (rx.data.drop rx.rptr)).toNat rx.data else rx.data) = d
  have hdl : d.length = rx.data.length := by
    rw [← hd]; split
    · exact unmask_length _ _ _ _
    · rfl
  have hneed : (rx.rptr + headerSize (rx.data.drop rx.rptr) + frameLength (rx.data.drop rx.rptr)).toNat < rx.size := by
    by_cases hn : frameLength (rx.data.drop rx.rptr) < 0
    · omega
    · have := needed_pos (fr := rx.data.drop rx.rptr) (by omega)
      omega
  rcases dispatch_any debug { rx with data := d } ((rx.data.drop rx.rptr).getD 0 0 &&& 0xf)
    (headerSize (rx.data.drop rx.rptr)) (frameLength (rx.data.drop rx.rptr)) hneed with
    ⟨data', ev, e1, e2, e3⟩ | ⟨hn, e1⟩ | ⟨hdb, e1⟩
  · left
    simp only [e1]
    refine ⟨data', ev, needed (rx.data.drop rx.rptr), rfl, by rw [e2]; exact hdl, by omega, ?_⟩
    by_cases hn : frameLength (rx.data.drop rx.rptr) < 0
    · right; exact hhuge hn
    · left
      have h3 := needed_pos (fr := rx.data.drop rx.rptr) (by omega)
      refine ⟨by omega, ?_⟩
      have h4 := e3 (by omega)
      dsimp only at h4
      have h5 : (rx.rptr + headerSize (rx.data.drop rx.rptr) + frameLength (rx.data.drop rx.rptr)).toNat =
          rx.rptr + needed (rx.data.drop rx.rptr) := by omega
      rw [h5] at h4
      rw [h4, ← hd]
      split
      · apply unmask_drop_after
        omega
      · rfl
  · right; left
    simp only [e1]
    exact ⟨trivial, hhuge hn⟩
  · right; right
    simp only [e1]
    exact ⟨hdb, Or.inl trivial⟩

/-- How the receiver may stand after some bytes. -/
def Stands (debug : Bool) (s : List UInt8) (r : Res) : Prop :=
  (∃ rx evs, r = .ok rx evs ∧ RxOk rx ∧ rx.data.drop (rx.rptr + 1) <:+ s) ∨ r = .impossible ∨ Huge s ∨
    (debug = true ∧ (r = .fault .opcode ∨ r = .fault .fin))

theorem frames_stands (debug : Bool) (s : List UInt8) (n : Nat) : ∀ (rx : Rx) (evs : List Event),
    rx.rptr ≤ rx.data.length → rx.data.length < rx.size → rx.data.length - rx.rptr < n →
    rx.data.drop (rx.rptr + 1) <:+ s → Stands debug s (frames debug n rx evs) := by
  induction n with
  | zero => intro rx evs _ _ h; omega
  | succ n ih =>
    intro rx evs hr hs hn hsuf
    unfold frames
    rcases step_any debug rx hr hs with e | ⟨data', ev, k, e, e1, e2, e3⟩ | ⟨e, e1⟩ | ⟨hd, e | e⟩
    · simp only [e]
      left
      exact ⟨rx, evs, rfl, ⟨hr, by omega⟩, hsuf⟩
    · simp only [e]
      rcases e3 with ⟨hk, e3⟩ | hh
      · split
        · rename_i hc
          apply ih
          · dsimp only; omega
          · dsimp only; omega
          · dsimp only; omega
          · dsimp only
            rw [e3, show rx.rptr + k + 1 = rx.rptr + 1 + k by omega, ← List.drop_drop]
            exact (List.drop_suffix _ _).trans hsuf
        · left
          refine ⟨_, _, rfl, ⟨by simp, by simp⟩, ?_⟩
          simp
      · right; right; left
        exact hh.suffix hsuf
    · right; right; left
      exact e1.suffix hsuf
    · simp only [e]
      right; right; right
      exact ⟨hd, Or.inl rfl⟩
    · simp only [e]
      right; right; right
      exact ⟨hd, Or.inr rfl⟩

theorem feedAll_stands (debug : Bool) (cs : List (List UInt8)) : ∀ (rx : Rx) (evs : List Event) (s : List UInt8),
    RxOk rx → rx.data.drop (rx.rptr + 1) <:+ s →
    Stands debug (s ++ cs.flatten) (feedAll debug rx evs cs) := by
  induction cs with
  | nil =>
    intro rx evs s hok hsuf
    left
    exact ⟨rx, evs, rfl, hok, by simpa using hsuf⟩
  | cons c cs ih =>
    intro rx evs s hok hsuf
    unfold feedAll feed
    obtain ⟨hok1, hok2⟩ := hok
    by_cases himp : c = [] ∨ c.length > grown rx - rx.data.length - 1
    · right; left
      simp only [himp, if_true]
    · simp only [himp, if_false]
      have hroom := grown_room hok2
      have hcl : c.length ≤ grown rx - rx.data.length - 1 := by
        apply Classical.byContradiction
        intro h
        exact himp (Or.inr (by omega))
      have h1 := frames_stands debug (s ++ c) ((rx.data ++ c).length + 1)
        { rx with size := grown rx, data := rx.data ++ c } evs (by dsimp only; simp; omega)
        (by dsimp only; simp; omega) (by dsimp only; omega) (by
          dsimp only
          obtain ⟨z, hz⟩ := hsuf
          by_cases hlt : rx.rptr + 1 ≤ rx.data.length
          · rw [List.drop_append_of_le_length hlt]
            exact ⟨z, by rw [← hz]; simp⟩
          · rw [List.drop_append, List.drop_eq_nil_of_le (by omega), List.nil_append]
            exact (List.drop_suffix _ _).trans (List.suffix_append _ _))
      rcases h1 with ⟨rx1, evs1, e, hok1, hsuf1⟩ | e | hh | ⟨hd, e | e⟩
      · simp only [e]
        have h2 := ih rx1 evs1 (s ++ c) hok1 hsuf1
        simpa using h2
      · simp only [e]
        right; left; rfl
      · right; right; left
        have := hh.mono cs.flatten
        simpa using this
      · simp only [e]
        right; right; right; exact ⟨hd, Or.inl rfl⟩
      · simp only [e]
        right; right; right; exact ⟨hd, Or.inr rfl⟩

/-! ### No access outside the buffer, whatever the bytes -/

theorem frames_inside (debug : Bool) (n : Nat) : ∀ (rx : Rx) (evs : List Event),
    rx.rptr ≤ rx.data.length → rx.data.length < rx.size →
    frames debug n rx evs ≠ .fault .bounds ∧
    (∀ rx' evs', frames debug n rx evs = .ok rx' evs' → RxOk rx') := by
  induction n with
  | zero => intro rx evs _ _; simp [frames]
  | succ n ih =>
    intro rx evs hr hs
    unfold frames
    rcases step_any debug rx hr hs with e | ⟨data', ev, k, e, e1, e2, e3⟩ | ⟨e, e1⟩ | ⟨hd, e | e⟩
    · simp only [e]
      refine ⟨by simp, ?_⟩
      intro rx' evs' h
      cases h
      exact ⟨hr, by omega⟩
    · simp only [e]
      split
      · apply ih
        · dsimp only; omega
        · dsimp only; omega
      · refine ⟨by simp, ?_⟩
        intro rx' evs' h
        cases h
        exact ⟨by simp, by simp⟩
    · simp [e]
    · simp [e]
    · simp [e]

theorem feedAll_inside (debug : Bool) (cs : List (List UInt8)) : ∀ (rx : Rx) (evs : List Event),
    RxOk rx → feedAll debug rx evs cs ≠ .fault .bounds ∧
    (∀ rx' evs', feedAll debug rx evs cs = .ok rx' evs' → RxOk rx') := by
  induction cs with
  | nil =>
    intro rx evs h
    refine ⟨by simp [feedAll], ?_⟩
    intro rx' evs' h'
    cases h'
    exact h
  | cons c cs ih =>
    intro rx evs h
    unfold feedAll feed
    by_cases himp : c = [] ∨ c.length > grown rx - rx.data.length - 1
    · simp only [himp, if_true]
      simp
    · simp only [himp, if_false]
      have hroom := grown_room h.2
      have hcl : c.length ≤ grown rx - rx.data.length - 1 := by
        apply Classical.byContradiction
        intro h
        exact himp (Or.inr (by omega))
      obtain ⟨h1, h2⟩ := frames_inside debug ((rx.data ++ c).length + 1)
        { rx with size := grown rx, data := rx.data ++ c } evs
        (by have := h.1; dsimp only; simp; omega) (by dsimp only; simp; omega)
      generalize hr : frames debug ((rx.data ++ c).length + 1)
        { rx with size := grown rx, data := rx.data ++ c } evs = r at *
      cases r with
      | ok rx1 evs1 => exact ih rx1 evs1 (h2 rx1 evs1 rfl)
      | fault f =>
        dsimp only
        refine ⟨h1, ?_⟩
        intro _ _ h'
        cases h'
      | hang => simp
      | impossible => simp

/-- `recv` of at least one byte and at most 1023 is always possible. -/
theorem frames_possible (debug : Bool) (n : Nat) : ∀ (rx : Rx) (evs : List Event),
    frames debug n rx evs ≠ .impossible := by
  induction n with
  | zero => intro rx evs; simp [frames]
  | succ n ih =>
    intro rx evs
    unfold frames
    split
    · simp
    · simp
    · split
      · exact ih _ _
      · simp

theorem feedAll_possible (debug : Bool) (cs : List (List UInt8)) : ∀ (rx : Rx) (evs : List Event),
    RxOk rx → (∀ c ∈ cs, 1 ≤ c.length ∧ c.length ≤ 1023) →
    feedAll debug rx evs cs ≠ .impossible := by
  induction cs with
  | nil => intro rx evs _ _; simp [feedAll]
  | cons c cs ih =>
    intro rx evs h hc
    have h1 := (feedAll_inside debug [c] rx evs h).2
    have hroom := grown_room h.2
    have hcc := hc c (by simp)
    have himp : ¬ (c = [] ∨ c.length > grown rx - rx.data.length - 1) := by
      intro h'
      rcases h' with h' | h'
      · rw [h'] at hcc; simp at hcc
      · omega
    unfold feedAll
    simp only [feedAll] at h1
    generalize hr : feed debug rx evs c = r at *
    cases r with
    | ok rx1 evs1 =>
      exact ih rx1 evs1 (h1 rx1 evs1 rfl) (fun c' hc' => hc c' (by simp [hc']))
    | fault f => simp
    | hang => simp
    | impossible =>
      exfalso
      unfold feed at hr
      rw [if_neg himp] at hr
      exact frames_possible _ _ _ _ hr

end Verif.Net
