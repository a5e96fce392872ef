/-
C68: what is sent over a WebSocket is received.
-/
import Verif.Net.WsSafe

namespace Verif.Net

/-! ### The sender -/

/-- `ws_send` never writes outside its buffer, and what it adds to the buffer is
    one frame with the message, its length written in the shortest way. -/
theorem send_frame (key : Option Nat) (op : UInt8) (data : List UInt8) (hop : op.toNat < 16)
    (hl : data.length < 2 ^ 64) (tx : Tx) (h1 : tx.rptr ≤ tx.data.length)
    (h2 : tx.data.length ≤ tx.size) :
    ∃ tx' bs, wsSend key op data tx = some tx' ∧ tx'.data = tx.data ++ bs ∧ tx'.rptr = tx.rptr ∧
      tx'.data.length ≤ tx'.size ∧ IsFrame ⟨op.toNat, data⟩ bs ∧ Shortest ⟨op.toNat, data⟩ bs := by
  obtain ⟨tx', e1, e2, e3, e4⟩ := wsSend_ok key op data ⟨h1, h2⟩
  obtain ⟨f1, f2⟩ := encode_frame key op data hop (by simpa using hl)
  exact ⟨tx', encode key op data, e1, e2, e3, e4.2, f1, f2⟩

example : wsSend (some 0x01020304) 1 [0x68, 0x69] Tx.init =
    some { size := 1024, data := [0x81, 0x82, 1, 2, 3, 4, 0x69, 0x6b], rptr := 0 } := by decide +kernel

/-- The messages queued by some operations. -/
def queued : List TxOp → List Msg
  | [] => []
  | .send _ op data :: ops => ⟨op.toNat, data⟩ :: queued ops
  | .flush _ :: ops => queued ops

/-- The opcodes have four bits and the lengths 64. -/
def Sendable (ops : List TxOp) : Prop :=
  ∀ key op data, TxOp.send key op data ∈ ops → op.toNat < 16 ∧ data.length < 2 ^ 64

theorem flushLoop_ok (rs : List Sent) : ∀ (tx : Tx), TxOk tx →
    TxOk (flushLoop rs tx).1 ∧
    (flushLoop rs tx).2.1 ++ (flushLoop rs tx).1.data.drop (flushLoop rs tx).1.rptr =
      tx.data.drop tx.rptr := by
  induction rs with
  | nil => intro tx h; exact ⟨h, by simp [flushLoop]⟩
  | cons r rs ih =>
    intro tx h
    unfold flushLoop
    split
    · cases r with
      | wrote n =>
        dsimp only
        split
        · exact ⟨h, by simp⟩
        · have h1 : TxOk { tx with rptr := tx.rptr + min n (tx.data.length - tx.rptr) } := by
            obtain ⟨h1, h2⟩ := h
            exact ⟨by dsimp only; omega, h2⟩
          obtain ⟨h2, h3⟩ := ih _ h1
          refine ⟨h2, ?_⟩
          dsimp only at h3 ⊢
          rw [List.append_assoc, h3, ← List.drop_drop, List.take_append_drop]
      | again => exact ⟨h, by simp⟩
      | broken => exact ⟨h, by simp⟩
    · exact ⟨h, by simp⟩

theorem flush_ok (rs : List Sent) {tx : Tx} (h : TxOk tx) :
    TxOk (flush rs tx).1 ∧
    (flush rs tx).2.1 ++ (flush rs tx).1.data.drop (flush rs tx).1.rptr = tx.data.drop tx.rptr := by
  obtain ⟨h1, h2⟩ := flushLoop_ok rs tx h
  unfold flush
  dsimp only
  split
  · rename_i h3
    refine ⟨⟨by simp, by simp⟩, ?_⟩
    rw [← h2, ← h3]
    simp
  · exact ⟨h1, h2⟩

theorem runTx_ok (ops : List TxOp) : ∀ (tx : Tx) (out : List UInt8), TxOk tx → Sendable ops →
    ∃ tx' out' bss, runTx ops tx out = some (tx', out') ∧ TxOk tx' ∧ IsStream (queued ops) bss ∧
      out' ++ tx'.data.drop tx'.rptr = out ++ tx.data.drop tx.rptr ++ bss.flatten := by
  induction ops with
  | nil =>
    intro tx out h _
    exact ⟨tx, out, [], rfl, h, trivial, by simp⟩
  | cons o ops ih =>
    intro tx out h hs
    have hs' : Sendable ops := fun key op data hm => hs key op data (by simp [hm])
    cases o with
    | send key op data =>
      obtain ⟨tx1, e1, e2, e3, e4⟩ := wsSend_ok key op data h
      obtain ⟨h1, h2⟩ := hs key op data (by simp)
      obtain ⟨f1, _⟩ := encode_frame key op data h1 (by simpa using h2)
      obtain ⟨tx2, out2, bss, g1, g2, g3, g4⟩ := ih tx1 out e4 hs'
      refine ⟨tx2, out2, encode key op data :: bss, by simp only [runTx, e1]; exact g1, g2,
        ⟨f1, g3⟩, ?_⟩
      rw [g4, e2, e3, List.drop_append_of_le_length h.1]
      simp
    | flush rs =>
      obtain ⟨h1, h2⟩ := flush_ok rs h
      obtain ⟨tx2, out2, bss, g1, g2, g3, g4⟩ := ih _ (out ++ (flush rs tx).2.1) h1 hs'
      refine ⟨tx2, out2, bss, by simp only [runTx]; exact g1, g2, g3, ?_⟩
      rw [g4, List.append_assoc out, h2]

/-- However queueing and flushing alternate and however many bytes the socket
    takes at a time, nothing is written outside the buffer, and the bytes given
    to the socket and those still in the buffer are the frames of the queued
    messages, in order. -/
theorem send_order (ops : List TxOp) (hs : Sendable ops) :
    ∃ tx out bss, runTx ops Tx.init [] = some (tx, out) ∧ IsStream (queued ops) bss ∧
      out ++ tx.data.drop tx.rptr = bss.flatten := by
  obtain ⟨tx, out, bss, h1, _, h3, h4⟩ := runTx_ok ops Tx.init [] ⟨by simp [Tx.init], by simp [Tx.init]⟩ hs
  exact ⟨tx, out, bss, h1, h3, by simpa [Tx.init] using h4⟩

example : runTx [.send none 2 [7], .flush [.wrote 2, .again], .send none 9 [], .flush [.wrote 1]]
    Tx.init [] = some ({ size := 1024, data := [0x82, 1, 7, 0x89, 0], rptr := 3 }, [0x82, 1, 7]) := by
  decide +kernel

/-! ### The receiver -/

theorem take_of_got {debug : Bool} {ms : List Msg} {bss : List (List UInt8)} {cs : List (List UInt8)}
    {rest : List UInt8} {rx : Rx} {evs : List Event} {d : List Msg} {db : List (List UInt8)}
    {ms' : List Msg} {bss' : List (List UInt8)}
    (h : Got debug ms bss rest [] rx evs d db ms' bss') (hcut : cs.flatten ++ rest = bss.flatten) :
    evs = (ms.take d.length).map eventOf ∧ d.length ≤ ms.length ∧
      (bss.take d.length).flatten.length ≤ cs.flatten.length ∧
      (d.length < ms.length → cs.flatten.length < (bss.take (d.length + 1)).flatten.length) := by
  have hdl := isStream_length h.dstream
  have hp := congrArg List.length h.pending
  have hc := congrArg List.length hcut
  rw [h.bss_eq, List.flatten_append] at hc
  simp only [List.length_append] at hp hc
  have ht : bss.take d.length = db := by
    rw [h.bss_eq, hdl]; simp
  refine ⟨?_, ?_, ?_, ?_⟩
  · rw [h.evs_eq, h.ms_eq]; simp
  · rw [h.ms_eq]; simp
  · rw [ht]; omega
  · intro hlt
    have hs := h.short
    have hst := h.stream
    rw [h.ms_eq, List.length_append] at hlt
    cases bss' with
    | nil =>
      have := isStream_length hst
      simp at this
      rw [this] at hlt
      simp at hlt
    | cons b bss' =>
      have : bss.take (d.length + 1) = db ++ [b] := by
        rw [h.bss_eq, hdl, List.take_append, List.take_of_length_le (by omega)]
        simp
      rw [this, List.flatten_append, List.length_append]
      simp only [Short] at hs
      simp only [List.flatten_cons, List.flatten_nil, List.append_nil, List.length_append] at *
      omega

/-- However the bytes of the frames are cut into pieces by the network, at any
    time the handlers have been called for exactly the messages whose frames have
    arrived in whole, in order and with the payload that was sent, and none of
    the assertions fails.

    Partial: texts have no zero byte, no payload has two gigabytes, no message
    is sent in fragments, and no text is followed by other bytes in the same
    piece (`htext`); see the counterexamples. -/
theorem receive_partial (debug : Bool) (ms : List Msg) (bss cs : List (List UInt8)) (rest : List UInt8)
    (hst : IsStream ms bss) (hknown : ∀ m ∈ ms, Known m)
    (hzero : ∀ m ∈ ms, m.op = 1 → ∀ b ∈ m.payload, b ≠ 0)
    (hsize : ∀ m ∈ ms, m.payload.length < 2 ^ 31)
    (hcut : cs.flatten ++ rest = bss.flatten)
    (htext : ∀ (i : Nat) (m : Msg), ms[i]? = some m → m.op = 1 →
      (bss.take (i + 1)).flatten.length ≤ cs.flatten.length →
      ∃ j : Nat, (bss.take (i + 1)).flatten.length = (cs.take j).flatten.length) :
    feedAll debug Rx.init [] cs = .impossible ∨
    ∃ rx k, feedAll debug Rx.init [] cs = .ok rx ((ms.take k).map eventOf) ∧ k ≤ ms.length ∧
      (bss.take k).flatten.length ≤ cs.flatten.length ∧
      (k < ms.length → cs.flatten.length < (bss.take (k + 1)).flatten.length) := by
  have hsh : Short (Rx.init.data.drop Rx.init.rptr) bss := by
    cases bss with
    | nil => rfl
    | cons b bss =>
      cases ms with
      | nil => exact hst.elim
      | cons m ms =>
        have := hst.1.two_le
        simp [Short, Rx.init]
        omega
  rcases feedAll_got debug cs Rx.init [] ms bss rest hst
    (fun m hm => ⟨hknown m hm, hzero m hm, by simpa using hsize m hm⟩)
    ⟨by simp [Rx.init], by simp [Rx.init]⟩ hsh (by simpa [Rx.init] using hcut)
    (by
      intro i m hm ho hle
      have := htext i m hm ho (by simpa [Rx.init] using hle)
      simpa [Rx.init] using this) with h | ⟨rx, evs, d, db, ms', bss', e, g⟩
  · left; exact h
  · right
    obtain ⟨h1, h2, h3, h4⟩ := take_of_got (cs := cs) g hcut
    exact ⟨rx, d.length, by rw [e, h1], h2, h3, h4⟩

/-- When all frames have arrived all messages have been handled. -/
theorem receive_all_partial (debug : Bool) (ms : List Msg) (bss cs : List (List UInt8))
    (hst : IsStream ms bss) (hknown : ∀ m ∈ ms, Known m)
    (hzero : ∀ m ∈ ms, m.op = 1 → ∀ b ∈ m.payload, b ≠ 0)
    (hsize : ∀ m ∈ ms, m.payload.length < 2 ^ 31)
    (hcut : cs.flatten = bss.flatten)
    (htext : ∀ (i : Nat) (m : Msg), ms[i]? = some m → m.op = 1 →
      ∃ j : Nat, (bss.take (i + 1)).flatten.length = (cs.take j).flatten.length) :
    feedAll debug Rx.init [] cs = .impossible ∨
    ∃ rx, feedAll debug Rx.init [] cs = .ok rx (ms.map eventOf) := by
  rcases receive_partial debug ms bss cs [] hst hknown hzero hsize (by simpa using hcut)
    (fun i m hm ho _ => htext i m hm ho) with h | ⟨rx, k, e, h1, _, h3⟩
  · left; exact h
  · right
    refine ⟨rx, ?_⟩
    rw [e]
    by_cases hk : k < ms.length
    · have h4 := h3 hk
      rw [hcut] at h4
      have h5 := flatten_take_mono bss (k + 1) (max (k + 1) bss.length) (by omega)
      have h6 : bss.take (max (k + 1) bss.length) = bss := List.take_of_length_le (by omega)
      rw [h6] at h5
      omega
    · rw [List.take_of_length_le (by omega)]

/-- Without texts the way in which the bytes are cut does not matter at all.
    `recv` can return at least 1023 bytes at a time. -/
theorem receive_binary (debug : Bool) (ms : List Msg) (bss cs : List (List UInt8))
    (hst : IsStream ms bss) (hknown : ∀ m ∈ ms, Known m ∧ m.op ≠ 1)
    (hsize : ∀ m ∈ ms, m.payload.length < 2 ^ 31)
    (hcut : cs.flatten = bss.flatten) (hpos : ∀ c ∈ cs, 1 ≤ c.length ∧ c.length ≤ 1023) :
    ∃ rx, feedAll debug Rx.init [] cs = .ok rx (ms.map eventOf) := by
  have hmem : ∀ (i : Nat) (m : Msg), ms[i]? = some m → m ∈ ms := by
    intro i m h
    exact List.mem_of_getElem? h
  rcases receive_all_partial debug ms bss cs hst (fun m hm => (hknown m hm).1)
    (fun m hm h => ((hknown m hm).2 h).elim) hsize hcut
    (fun i m hm h => ((hknown m (hmem i m hm)).2 h).elim) with h | h
  · exact (feedAll_possible debug cs Rx.init [] ⟨by simp [Rx.init], by simp [Rx.init]⟩ hpos h).elim
  · exact h

/-- The sender and the receiver together: whatever part of the queued messages
    the socket has taken, and however it arrives, the handlers are called for a
    first part of the messages queued.  Partial for the same reasons. -/
theorem end_to_end_partial (debug : Bool) (ops : List TxOp) (hs : Sendable ops)
    (hknown : ∀ m ∈ queued ops, Known m ∧ m.op ≠ 1) (hsize : ∀ m ∈ queued ops, m.payload.length < 2 ^ 31) :
    ∃ tx out, runTx ops Tx.init [] = some (tx, out) ∧
      ∀ cs : List (List UInt8), cs.flatten = out → (∀ c ∈ cs, 1 ≤ c.length ∧ c.length ≤ 1023) →
        ∃ rx k, feedAll debug Rx.init [] cs = .ok rx (((queued ops).take k).map eventOf) ∧
          (tx.data.drop tx.rptr = [] → feedAll debug Rx.init [] cs = .ok rx ((queued ops).map eventOf)) := by
  obtain ⟨tx, out, bss, e1, e2, e3⟩ := send_order ops hs
  refine ⟨tx, out, e1, ?_⟩
  intro cs hcs hpos
  have hne := feedAll_possible debug cs Rx.init [] ⟨by simp [Rx.init], by simp [Rx.init]⟩ hpos
  have hmem : ∀ (i : Nat) (m : Msg), (queued ops)[i]? = some m → m ∈ queued ops := by
    intro i m h
    exact List.mem_of_getElem? h
  rcases receive_partial debug (queued ops) bss cs (tx.data.drop tx.rptr) e2
    (fun m hm => (hknown m hm).1) (fun m hm h => ((hknown m hm).2 h).elim) hsize (by rw [hcs]; exact e3)
    (fun i m hm h => ((hknown m (hmem i m hm)).2 h).elim) with h | ⟨rx, k, h, _⟩
  · exact (hne h).elim
  · refine ⟨rx, k, h, ?_⟩
    intro hall
    obtain ⟨rx', h'⟩ := receive_binary debug (queued ops) bss cs e2 hknown hsize
      (by rw [hcs, ← e3, hall, List.append_nil]) hpos
    rw [h'] at h
    injection h with h1 h2
    rw [h', h1]

example : feedAll true Rx.init [] [[0x82], [3, 1, 2], [3, 0x89, 0x81, 9, 8], [7, 6, 5 ^^^ 9, 0x81, 1, 0x61],
    [0x88, 0]] =
    .ok { size := 2048, data := [], rptr := 0 } [.binary [1, 2, 3], .ping [5], .text [0x61], .close] := by
  decide +kernel

/-- Whatever bytes arrive, nothing is written outside the receive buffer. -/
theorem receive_inside (debug : Bool) (cs : List (List UInt8)) :
    feedAll debug Rx.init [] cs ≠ .fault .bounds ∧
    ∀ rx evs, feedAll debug Rx.init [] cs = .ok rx evs → rx.rptr ≤ rx.data.length ∧ rx.data.length ≤ rx.size :=
  feedAll_inside debug cs Rx.init [] ⟨by simp [Rx.init], by simp [Rx.init]⟩

/-- Whatever bytes arrive, without assertions the receiver comes to an end and
    gives no negative length to anyone, unless the bytes contain what could be a
    length of 2^31 or more. -/
theorem receive_safe_partial (cs : List (List UInt8)) (h : ¬ Huge cs.flatten) :
    feedAll false Rx.init [] cs = .impossible ∨ ∃ rx evs, feedAll false Rx.init [] cs = .ok rx evs := by
  rcases feedAll_stands false cs Rx.init [] [] ⟨by simp [Rx.init], by simp [Rx.init]⟩
    (by simp [Rx.init]) with ⟨rx, evs, e, _⟩ | e | hh | ⟨hd, _⟩
  · right; exact ⟨rx, evs, e⟩
  · left; exact e
  · exact (h hh).elim
  · cases hd

/-- With assertions the only failures are those for fragments and for unknown
    opcodes. -/
theorem receive_debug_partial (cs : List (List UInt8)) (h : ¬ Huge cs.flatten) :
    feedAll true Rx.init [] cs = .impossible ∨ (∃ rx evs, feedAll true Rx.init [] cs = .ok rx evs) ∨
    feedAll true Rx.init [] cs = .fault .opcode ∨ feedAll true Rx.init [] cs = .fault .fin := by
  rcases feedAll_stands true cs Rx.init [] [] ⟨by simp [Rx.init], by simp [Rx.init]⟩
    (by simp [Rx.init]) with ⟨rx, evs, e, _⟩ | e | hh | ⟨_, e⟩
  · right; left; exact ⟨rx, evs, e⟩
  · left; exact e
  · exact (h hh).elim
  · right; right; exact e

example : ¬ Huge [0x82, 1, 7] := by
  rintro ⟨pre, ext, post, b1, h1, _, h3, _⟩
  have := congrArg List.length h1
  simp at this
  omega

/-- Every ping is answered by a pong with the same payload, in order. -/
theorem ping_answered (ms : List Msg) (hknown : ∀ m ∈ ms, Known m) :
    (ms.map eventOf).filterMap answer =
      (ms.filter (fun m => m.op = 9)).map (fun m => ((10 : UInt8), m.payload)) := by
  induction ms with
  | nil => rfl
  | cons m ms ih =>
    have h1 := ih (fun m' hm => hknown m' (by simp [hm]))
    have hk := hknown m (by simp)
    rw [List.map_cons, List.filterMap_cons, List.filter_cons]
    rcases hk with h | h | h | h | h <;> simp only [eventOf, h, answer] <;> simp [h1]

/-! ### What does not hold -/

/-- Two texts that arrive together: the zero byte put at the end of the first
    one overwrites the start of the second one.  The second one is lost, or the
    assertion that it is not a fragment fails. -/
theorem text_followed_counterexample :
    IsStream [⟨1, [0x61]⟩, ⟨1, [0x62]⟩] [[0x81, 1, 0x61], [0x81, 1, 0x62]] ∧
    feedAll false Rx.init [] [[0x81, 1, 0x61, 0x81, 1, 0x62]] =
      .ok { size := 1024, data := [], rptr := 0 } [.text [0x61]] ∧
    feedAll true Rx.init [] [[0x81, 1, 0x61, 0x81, 1, 0x62]] = .fault .fin := by
  refine ⟨⟨⟨0x81, 1, [], [], [0x61], by decide, by decide, Or.inl (by decide), Or.inl (by decide)⟩,
    ⟨0x81, 1, [], [], [0x62], by decide, by decide, Or.inl (by decide), Or.inl (by decide)⟩, trivial⟩,
    by decide +kernel, by decide +kernel⟩

/-- The handler of a text sees it only up to the first zero byte. -/
theorem text_zero_counterexample :
    IsFrame ⟨1, [0x61, 0, 0x62]⟩ [0x81, 3, 0x61, 0, 0x62] ∧
    feedAll true Rx.init [] [[0x81, 3, 0x61, 0, 0x62]] =
      .ok { size := 1024, data := [], rptr := 0 } [.text [0x61]] :=
  ⟨⟨0x81, 3, [], [], [0x61, 0, 0x62], by decide, by decide, Or.inl (by decide), Or.inl (by decide)⟩,
    by decide +kernel⟩

/-- Of a length with more than 32 bits the upper ones are ignored: the first
    eleven bytes of a frame of more than four gigabytes are taken for a whole
    frame. -/
theorem length_cut_counterexample :
    ∃ m bs rest, IsFrame m bs ∧ m.payload.length = 4294967297 ∧
      bs = [0x82, 127, 0, 0, 0, 1, 0, 0, 0, 1, 5] ++ rest ∧ rest.length = 4294967296 ∧
      feedAll true Rx.init [] [[0x82, 127, 0, 0, 0, 1, 0, 0, 0, 1, 5]] =
        .ok { size := 1024, data := [], rptr := 0 } [.binary [5]] := by
  have key : ∀ n : Nat, n = 4294967296 →
      ∃ m bs rest, IsFrame m bs ∧ m.payload.length = n + 1 ∧
      bs = [0x82, 127, 0, 0, 0, 1, 0, 0, 0, 1, 5] ++ rest ∧ rest.length = n ∧
      feedAll true Rx.init [] [[0x82, 127, 0, 0, 0, 1, 0, 0, 0, 1, 5]] =
        .ok { size := 1024, data := [], rptr := 0 } [.binary [5]] := by
    intro n hn
    refine ⟨⟨2, 5 :: List.replicate n 0⟩, _, List.replicate n 0, ⟨0x82, 127, [0, 0, 0, 1, 0, 0, 0, 1], [],
      5 :: List.replicate n 0, rfl, rfl, Or.inr (Or.inr ⟨by decide, by decide, ?_⟩),
      Or.inl ⟨by decide, rfl, rfl⟩⟩, by simp, by simp, by simp, by decide +kernel⟩
    rw [List.length_cons, List.length_replicate, hn]
    decide
  exact key _ rfl

/-- A length that is negative as an `int` is given to the handlers. -/
theorem length_negative_counterexample :
    feedAll false Rx.init [] [[0x82, 127, 0, 0, 0, 0, 0xff, 0xff, 0xff, 0xff]] = .fault .negative := by
  decide +kernel

/-- Ten bytes keep the receiver busy for ever: the length is -10, so that frame
    and header have no bytes together and the next frame is this one again. -/
theorem length_hang_counterexample (debug : Bool) :
    ∃ rx, rx.data = Rx.init.data ++ [0x88, 127, 0, 0, 0, 0, 0xff, 0xff, 0xff, 0xf6] ∧ rx.rptr = Rx.init.rptr ∧
      rx.size = grown Rx.init ∧
      ∀ (n : Nat) (evs : List Event), frames debug n rx evs = .hang := by
  refine ⟨{ size := 1024, data := [0x88, 127, 0, 0, 0, 0, 0xff, 0xff, 0xff, 0xf6], rptr := 0 },
    by decide, rfl, by decide, ?_⟩
  have h : ∀ d : Bool, stepFrame d { size := 1024, data := [0x88, 127, 0, 0, 0, 0, 0xff, 0xff, 0xff, 0xf6], rptr := 0 }
      = .next { size := 1024, data := [0x88, 127, 0, 0, 0, 0, 0xff, 0xff, 0xff, 0xf6], rptr := 0 } [.close] := by
    decide +kernel
  intro n
  induction n with
  | zero => intro evs; rfl
  | succ n ih =>
    intro evs
    unfold frames
    rw [h]
    dsimp only
    rw [if_pos (by decide)]
    exact ih _

/-- A message in two fragments, as RFC 6455 allows: the assertion fails, or the
    first fragment is taken for the message and the second one is lost. -/
theorem fragment_counterexample :
    feedAll true Rx.init [] [[0x02, 1, 7], [0x80, 1, 8]] = .fault .fin ∧
    feedAll false Rx.init [] [[0x02, 1, 7], [0x80, 1, 8]] =
      .ok { size := 1024, data := [], rptr := 0 } [.binary [7]] := by
  decide +kernel

/-- The socket does not block; when it has no room for more at the moment, the
    connection is given up as if it were broken. -/
theorem flush_again_counterexample :
    (flush [.wrote 2, .again] { size := 1024, data := [0x82, 1, 7], rptr := 0 }).2.2 = true := by
  decide

end Verif.Net
