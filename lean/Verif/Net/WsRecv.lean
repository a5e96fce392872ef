/-
What the receiver makes of the bytes of a frame, whole or in part.
-/
import Verif.Net.WsSend

namespace Verif.Net

theorem and_7f (b : UInt8) : (b &&& 0x7f).toNat = b.toNat % 128 := by
  revert b
  apply forall_byte
  decide +kernel

theorem and_80 (b : UInt8) : (b &&& 0x80 != 0) = decide (128 ≤ b.toNat) := by
  revert b
  apply forall_byte
  decide +kernel

theorem and_f (b : UInt8) : (b &&& 0xf).toNat = b.toNat % 16 := by
  revert b
  apply forall_byte
  decide +kernel

theorem xor_cancel (a b : UInt8) : a ^^^ b ^^^ b = a := by
  rw [UInt8.xor_assoc, UInt8.xor_self, UInt8.xor_zero]

theorem unpackBe16_big {ext : List UInt8} (h : ext.length = 2) (z : List UInt8) :
    unpackBe16 (ext ++ z) = bigEndian ext := by
  match ext, h with
  | [a, b], _ => simp [unpackBe16, bigEndian]

theorem unpackBe64_big {ext : List UInt8} (h : ext.length = 8) (z : List UInt8) :
    unpackBe64 (ext ++ z) = bigEndian ext := by
  match ext, h with
  | [a, b, c, d, e, f, g, i], _ =>
    simp [unpackBe64, unpackBe32, unpackBe16, bigEndian]
    omega

theorem prefix_of_append {α : Type} {a q b t : List α} (h : a ++ q = b ++ t)
    (hl : b.length ≤ a.length) : ∃ z, a = b ++ z := by
  rw [List.append_eq_append_iff] at h
  rcases h with ⟨z, h1, h2⟩ | ⟨z, h1, h2⟩
  · have : z = [] := by
      rw [h1] at hl
      rw [List.length_append] at hl
      exact List.eq_nil_of_length_eq_zero (by omega)
    exact ⟨[], by rw [h1, this]; simp⟩
  · exact ⟨z, h1⟩

/-- What the receiver reads from the header of a frame that has arrived so far
    as to show the header. -/
structure Seen (m : Msg) (bs ext key body : List UInt8) (b1 : UInt8) (fr : List UInt8) : Prop where
  mask : maskBit fr = decide (128 ≤ b1.toNat)
  hsize : headerSize fr = 2 + ext.length + key.length
  length : headerSize fr ≤ fr.length → frameLength fr = (m.payload.length : Int) ∧ needed fr = bs.length

theorem header_seen {m : Msg} {bs ext key body : List UInt8} {b0 b1 : UInt8}
    (hb : bs = b0 :: b1 :: (ext ++ key ++ body))
    (hf : LengthField b1 ext m.payload.length) (hbody : Body b1 key body m.payload)
    (hl : m.payload.length < 2147483648) {fr q tail : List UInt8}
    (heq : fr ++ q = bs ++ tail) (h2 : 2 ≤ fr.length) :
    fr.getD 0 0 = b0 ∧ Seen m bs ext key body b1 fr := by
  match fr, h2 with
  | c0 :: c1 :: fr, _ =>
    subst hb
    simp only [List.cons_append, List.cons.injEq] at heq
    obtain ⟨rfl, rfl, heq⟩ := heq
    have hm : maskBit (c0 :: c1 :: fr) = decide (128 ≤ c1.toNat) := by
      simp [maskBit, ← and_80]
    have hs : size0 (c0 :: c1 :: fr) = c1.toNat % 128 := by
      simp [size0, ← and_7f]
    have hk : (if maskBit (c0 :: c1 :: fr) then 4 else 0) = key.length := by
      rw [hm]
      rcases hbody with ⟨h, h', _⟩ | ⟨h, h', _⟩
      · simp [h', h]
      · simp [h', h]
    have hbl : body.length = m.payload.length := by
      rcases hbody with ⟨_, _, h⟩ | ⟨_, _, h, _⟩
      · rw [h]
      · exact h
    have hh : headerSize (c0 :: c1 :: fr) = 2 + ext.length + key.length := by
      unfold headerSize
      rw [hk, hs]
      rcases hf with ⟨h, h', h''⟩ | ⟨h, h', h''⟩ | ⟨h, h', h''⟩
      · rw [if_neg (by omega), if_neg (by omega), h'']; simp
      · rw [if_pos h, h']; omega
      · rw [if_neg (by omega), if_pos h, h']; omega
    refine ⟨by simp, hm, hh, ?_⟩
    intro hle
    rw [hh] at hle
    simp only [List.length_cons] at hle
    have hfl : frameLength (c0 :: c1 :: fr) = (m.payload.length : Int) := by
      unfold frameLength
      rw [hs]
      have hz : ∃ z, fr = ext ++ z := by
        apply prefix_of_append (q := q) (t := key ++ (body ++ tail))
        · rw [heq]; simp
        · omega
      obtain ⟨z, hz⟩ := hz
      have hti : toInt m.payload.length = (m.payload.length : Int) := by
        unfold toInt
        rw [Nat.mod_eq_of_lt (by omega), if_pos hl]
      rcases hf with ⟨h, h', h''⟩ | ⟨h, h', h''⟩ | ⟨h, h', h''⟩
      · rw [if_neg (by omega), if_neg (by omega), h]
      · rw [if_neg (by omega), if_pos h]
        simp only [List.drop_succ_cons, List.drop_zero]
        rw [hz, unpackBe16_big h', h'', hti]
      · rw [if_pos h]
        simp only [List.drop_succ_cons, List.drop_zero]
        rw [hz, unpackBe64_big h', h'', hti]
    refine ⟨hfl, ?_⟩
    unfold needed
    rw [hfl, hh]
    have : ext.length ≤ 8 := by
      rcases hf with ⟨h, h', h''⟩ | ⟨h, h', h''⟩ | ⟨h, h', h''⟩
      · simp [h'']
      · omega
      · omega
    have : key.length ≤ 4 := by rw [← hk]; split <;> omega
    simp only [List.length_cons, List.length_append, hbl]
    omega

/-- Part of a frame is not enough. -/
theorem step_part {m : Msg} {bs : List UInt8} (hbs : IsFrame m bs)
    (hl : m.payload.length < 2147483648) (debug : Bool) (rx : Rx) {q tail : List UInt8}
    (heq : rx.data.drop rx.rptr ++ q = bs ++ tail) (hlt : rx.data.length - rx.rptr < bs.length) :
    stepFrame debug rx = .more := by
  obtain ⟨b0, b1, ext, key, body, hb, h0, hf, hbody⟩ := hbs
  unfold stepFrame
  dsimp only
  by_cases h2 : rx.data.length - rx.rptr < 2
  · rw [if_pos h2]
  · rw [if_neg h2]
    by_cases h3 : rx.data.length - rx.rptr < headerSize (rx.data.drop rx.rptr)
    · rw [if_pos h3]
    · rw [if_neg h3]
      have h4 := header_seen hb hf hbody hl heq (by simp; omega)
      have h5 := (h4.2.length (by simp; omega)).2
      rw [h5, if_pos hlt]

theorem unmask_length (r h l : Nat) (d : List UInt8) : (unmask r h l d).length = d.length := by
  simp [unmask]

theorem unmask_drop {r : Nat} {d ext key body payload tail : List UInt8} {b0 b1 : UInt8}
    (hd : d.drop r = b0 :: b1 :: (ext ++ key ++ body) ++ tail) (hk : key.length = 4)
    (hl : body.length = payload.length)
    (hx : ∀ (i : Nat) (p k : UInt8), payload[i]? = some p → key[i % 4]? = some k →
      body[i]? = some (p ^^^ k)) :
    (unmask r (2 + ext.length + 4) payload.length d).drop (r + (2 + ext.length + 4)) =
      payload ++ tail := by
  have hat : ∀ (i : Nat), d[r + i]? = (b0 :: b1 :: (ext ++ key ++ body) ++ tail)[i]? := by
    intro i
    rw [← hd, List.getElem?_drop]
  apply List.ext_getElem?
  intro i
  rw [List.getElem?_drop]
  simp only [unmask, List.getElem?_mapIdx]
  have hdi : d[r + (2 + ext.length + 4) + i]? = (body ++ tail)[i]? := by
    rw [Nat.add_assoc, hat]
    rw [show 2 + ext.length + 4 + i = (ext.length + key.length + i) + 1 + 1 by omega]
    simp only [List.cons_append, List.getElem?_cons_succ]
    rw [List.append_assoc, List.getElem?_append_right (by simp)]
    congr 1
    simp
  rw [hdi]
  by_cases hi : i < payload.length
  · have hc : ∀ (b : UInt8), (if r + (2 + ext.length + 4) ≤ r + (2 + ext.length + 4) + i ∧
        r + (2 + ext.length + 4) + i < r + (2 + ext.length + 4) + payload.length then
        b ^^^ d.getD (r + (2 + ext.length + 4) - 4 + (r + (2 + ext.length + 4) + i - (r + (2 + ext.length + 4))) % 4) 0
        else b) = b ^^^ d.getD (r + (2 + ext.length + i % 4)) 0 := by
      intro b
      rw [if_pos (by omega)]
      congr 2
      omega
    simp only [hc]
    have hki : key[i % 4]? = some key[i % 4] := List.getElem?_eq_getElem (by omega)
    have hpi : payload[i]? = some payload[i] := List.getElem?_eq_getElem hi
    have hkey : d.getD (r + (2 + ext.length + i % 4)) 0 = key[i % 4] := by
      rw [List.getD_eq_getElem?_getD, hat]
      rw [show 2 + ext.length + i % 4 = (ext.length + i % 4) + 1 + 1 by omega]
      simp only [List.cons_append, List.getElem?_cons_succ, List.append_assoc]
      rw [List.getElem?_append_right (by omega), List.getElem?_append_left (by omega),
        Nat.add_sub_cancel_left, hki]
      rfl
    rw [hkey, List.getElem?_append_left (by omega), List.getElem?_append_left (by omega),
      hx i _ _ hpi hki, hpi, Option.map_some, xor_cancel]
  · have hc : ∀ (b : UInt8), (if r + (2 + ext.length + 4) ≤ r + (2 + ext.length + 4) + i ∧
        r + (2 + ext.length + 4) + i < r + (2 + ext.length + 4) + payload.length then
        b ^^^ d.getD (r + (2 + ext.length + 4) - 4 + (r + (2 + ext.length + 4) + i - (r + (2 + ext.length + 4))) % 4) 0
        else b) = b := by
      intro b
      rw [if_neg (by omega)]
    simp only [hc]
    rw [List.getElem?_append_right (by omega), List.getElem?_append_right (by omega), hl]
    cases tail[i - payload.length]? <;> rfl

/-- A text that the handler can be given. -/
def NoZero (m : Msg) : Prop := m.op = 1 → ∀ b ∈ m.payload, b ≠ 0

theorem cstring_noZero {s : List UInt8} (h : ∀ b ∈ s, b ≠ 0) : cstring s = s := by
  unfold cstring
  induction s with
  | nil => rfl
  | cons a s ih =>
    have h1 : (a != 0) = true := by simpa using h a (by simp)
    rw [List.takeWhile_cons, if_pos h1, ih (fun b hb => h b (by simp [hb]))]

theorem dispatch_whole {m : Msg} (hk : Known m) (hz : NoZero m) (debug : Bool) (rx : Rx) (op : UInt8)
    (hop : op.toNat = m.op) (h : Nat) {tail : List UInt8} (hr : rx.rptr + h ≤ rx.data.length)
    (hs : rx.data.length < rx.size)
    (hd : rx.data.drop (rx.rptr + h) = m.payload ++ tail) (ht : m.op = 1 → tail = []) :
    ∃ data', dispatch debug rx op h (m.payload.length : Int) = .next { rx with data := data' } [eventOf m] ∧
      data'.length = rx.data.length ∧ data'.drop (rx.rptr + h + m.payload.length) = tail := by
  have hlen : rx.data.length = rx.rptr + h + m.payload.length + tail.length := by
    have := congrArg List.length hd
    simp only [List.length_drop, List.length_append] at this
    omega
  have hpay : (rx.data.drop (rx.rptr + h)).take (m.payload.length : Int).toNat = m.payload := by
    rw [hd]; simp
  have htail : rx.data.drop (rx.rptr + h + m.payload.length) = tail := by
    rw [← List.drop_drop, hd, List.drop_left]
  have hn : ¬ ((m.payload.length : Int) < 0) := by omega
  unfold dispatch
  dsimp only
  rw [hpay]
  have hop' : op = UInt8.ofNat m.op := by rw [← hop]; simp
  rcases hk with h1 | h1 | h1 | h1 | h1
  · rw [h1] at hop'
    subst hop'
    have hs' : ((rx.rptr : Int) + h + (m.payload.length : Int)).toNat = rx.rptr + h + m.payload.length := by
      omega
    rw [if_pos (by decide), hs', store, if_pos (by omega)]
    simp only [hn, if_false]
    refine ⟨rx.data.set (rx.rptr + h + m.payload.length) 0, ?_, by simp, ?_⟩
    · rw [cstring_noZero (hz h1)]
      simp [eventOf, h1]
    · rw [ht h1]
      apply List.drop_eq_nil_of_le
      rw [ht h1] at hlen
      simp at hlen
      simp
      omega
  · rw [h1] at hop'
    subst hop'
    refine ⟨rx.data, ?_, rfl, htail⟩
    simp [eventOf, h1, hn]
  · rw [h1] at hop'
    subst hop'
    refine ⟨rx.data, ?_, rfl, htail⟩
    simp [eventOf, h1]
  · rw [h1] at hop'
    subst hop'
    refine ⟨rx.data, ?_, rfl, htail⟩
    simp [eventOf, h1, hn]
  · rw [h1] at hop'
    subst hop'
    refine ⟨rx.data, ?_, rfl, htail⟩
    simp [eventOf, h1, hn]

/-- A whole frame is handled, and what follows it stays. -/
theorem step_whole {m : Msg} {bs : List UInt8} (hbs : IsFrame m bs) (hk : Known m) (hz : NoZero m)
    (hl : m.payload.length < 2147483648) (debug : Bool) (rx : Rx) {tail : List UInt8}
    (hs : rx.data.length < rx.size) (heq : rx.data.drop rx.rptr = bs ++ tail)
    (ht : m.op = 1 → tail = []) :
    ∃ data', stepFrame debug rx = .next { rx with data := data', rptr := rx.rptr + bs.length } [eventOf m] ∧
      data'.length = rx.data.length ∧ data'.drop (rx.rptr + bs.length) = tail := by
  obtain ⟨b0, b1, ext, key, body, hb, h0, hf, hbody⟩ := hbs
  have hlen : rx.data.length - rx.rptr = bs.length + tail.length := by
    have := congrArg List.length heq
    simpa using this
  have hbl : bs.length = 2 + ext.length + key.length + m.payload.length := by
    rw [hb]
    rcases hbody with ⟨_, _, h⟩ | ⟨_, _, h, _⟩ <;> simp [h] <;> omega
  have h2 : 2 ≤ (rx.data.drop rx.rptr).length := by simp; omega
  obtain ⟨hb0, hseen⟩ := header_seen (q := []) hb hf hbody hl (by rw [List.append_nil]; exact heq) h2
  have hh := hseen.hsize
  obtain ⟨hfl, hne⟩ := hseen.length (by rw [hh]; simp; omega)
  unfold stepFrame
  dsimp only
  rw [if_neg (by omega), if_neg (by omega), if_neg (by omega)]
  have hfin : (debug && (rx.data.drop rx.rptr).getD 0 0 &&& 0x80 == 0) = false := by
    rw [hb0]
    have h3 := and_80 b0
    rw [decide_eq_true (by omega)] at h3
    have h4 : (b0 &&& 0x80 == 0) = false := by
      simpa using h3
    simp [h4]
  rw [hfin, if_neg (by simp), hb0, hh, hfl, hne]
  have hop : (b0 &&& 0xf).toNat = m.op := by
    rw [and_f, h0]
    rcases hk with h | h | h | h | h <;> rw [h]
  have hdata : ∃ d : List UInt8, (if maskBit (rx.data.drop rx.rptr) = true
      then unmask rx.rptr (2 + ext.length + key.length) (m.payload.length : Int).toNat rx.data
      else rx.data) = d ∧ d.length = rx.data.length ∧
      d.drop (rx.rptr + (2 + ext.length + key.length)) = m.payload ++ tail := by
    rw [hseen.mask]
    rcases hbody with ⟨h, h', h''⟩ | ⟨h, h', h'', h'''⟩
    · rw [if_neg (by simp; omega)]
      refine ⟨_, rfl, rfl, ?_⟩
      rw [← List.drop_drop, heq, hb, h', h'']
      rw [show 2 + ext.length + ([] : List UInt8).length = ext.length + 1 + 1 by simp; omega]
      simp
    · rw [if_pos (by simpa using h)]
      refine ⟨_, rfl, unmask_length _ _ _ _, ?_⟩
      rw [h', Int.toNat_natCast]
      apply unmask_drop (key := key) (body := body) _ h' h'' h'''
      · exact b0
      · exact b1
      · rw [heq, hb]
  obtain ⟨d, hd1, hd2, hd3⟩ := hdata
  rw [hd1]
  obtain ⟨data', e1, e2, e3⟩ := dispatch_whole hk hz debug { rx with data := d } (b0 &&& 0xf) hop
    (2 + ext.length + key.length) (tail := tail) (by dsimp only; omega) (by dsimp only; omega)
    hd3 ht
  simp only [e1]
  refine ⟨data', rfl, by rw [e2]; exact hd2, ?_⟩
  rw [hbl, ← Nat.add_assoc]
  exact e3

end Verif.Net
