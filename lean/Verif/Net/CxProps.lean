/-
C69: the messages of the CXXRTL protocol are answered one by one and in order.
-/
import Verif.Net.WsProps
import Verif.Net.CxModel

namespace Verif.Net

/-- The bytes of some messages on the wire. -/
def wire (ms : List (List UInt8)) : List UInt8 := (ms.map (· ++ [0])).flatten

/-- The texts with which some documents are answered. -/
def answers : List Doc → List (List UInt8)
  | [] => []
  | .invalid :: ds => answers ds
  | .array dump :: ds => dump :: answers ds
  | .object none :: ds => answers ds
  | .object (some a) :: ds => a :: answers ds

theorem wire_append (a b : List (List UInt8)) : wire (a ++ b) = wire a ++ wire b := by
  simp [wire]

theorem answers_append (a b : List Doc) : answers (a ++ b) = answers a ++ answers b := by
  induction a with
  | nil => rfl
  | cons d a ih =>
    cases d with
    | invalid => exact ih
    | array _ => simp [answers, ih]
    | object o => cases o <;> simp [answers, ih]

theorem findZero_append {m : List UInt8} (h : ∀ b ∈ m, b ≠ 0) (t : List UInt8) :
    findZero (m ++ 0 :: t) = some m.length := by
  induction m with
  | nil => rfl
  | cons b m ih =>
    rw [List.cons_append, findZero, if_neg (h b (by simp)), ih (fun b' hb => h b' (by simp [hb]))]
    rfl

theorem findZero_none {m : List UInt8} (h : ∀ b ∈ m, b ≠ 0) : findZero m = none := by
  induction m with
  | nil => rfl
  | cons b m ih =>
    rw [findZero, if_neg (h b (by simp)), ih (fun b' hb => h b' (by simp [hb]))]
    rfl

/-- What has been read of a stream of messages. -/
structure CxGot (parse : List UInt8 → Doc) (ms : List (List UInt8)) (rest : List UInt8)
    (tx : Tx) (log : List (List UInt8)) (sock : Option Nat)
    (cx' : Cx) (log' : List (List UInt8)) (d ms' : List (List UInt8)) : Prop where
  ms_eq : ms = d ++ ms'
  log_eq : log' = log ++ d
  rx_ok : cx'.rptr ≤ cx'.data.length ∧ cx'.data.length ≤ cx'.size
  tx_ok : TxOk cx'.tx
  tx_data : cx'.tx.data = tx.data ++ wire (answers (d.map parse))
  tx_rptr : cx'.tx.rptr = tx.rptr
  sock_eq : cx'.sock = sock
  pending : cx'.data.drop cx'.rptr ++ rest = wire ms'
  short : ∀ m ms'', ms' = m :: ms'' → (cx'.data.drop cx'.rptr).length ≤ m.length

theorem respond_ok {tx : Tx} (h : TxOk tx) {d : Doc} (hd : d ≠ .invalid) :
    ∃ tx', respond tx d = some tx' ∧ TxOk tx' ∧ tx'.data = tx.data ++ wire (answers [d]) ∧
      tx'.rptr = tx.rptr := by
  cases d with
  | invalid => exact (hd rfl).elim
  | array dump =>
    obtain ⟨tx', e1, e2, e3, e4⟩ := queueBuf_ok h (dump ++ [0])
    exact ⟨tx', e1, e4, by rw [e2]; simp [wire, answers], e3⟩
  | object o =>
    cases o with
    | none => exact ⟨tx, rfl, h, by simp [wire, answers], rfl⟩
    | some a =>
      obtain ⟨tx', e1, e2, e3, e4⟩ := queueBuf_ok h (a ++ [0])
      exact ⟨tx', e1, e4, by rw [e2]; simp [wire, answers], e3⟩

theorem cxLoop_got (parse : List UInt8 → Doc) (n : Nat) : ∀ (cx : Cx) (log ms : List (List UInt8))
    (rest : List UInt8),
    (∀ m ∈ ms, (∀ b ∈ m, b ≠ 0) ∧ parse m ≠ .invalid) → cx.rptr < cx.data.length →
    cx.data.length ≤ cx.size → TxOk cx.tx → cx.data.length - cx.rptr < n →
    cx.data.drop cx.rptr ++ rest = wire ms →
    ∃ cx' log' d ms', cxLoop parse n cx log = .ok cx' log' ∧
      CxGot parse ms rest cx.tx log cx.sock cx' log' d ms' := by
  induction n with
  | zero => intro cx log ms rest _ _ _ _ h; omega
  | succ n ih =>
    intro cx log ms rest hms hr hs htx hn hp
    have hplen : (cx.data.drop cx.rptr).length = cx.data.length - cx.rptr := by simp
    match ms with
    | [] =>
      have := congrArg List.length hp
      simp [wire] at this
      omega
    | m :: ms =>
      obtain ⟨hz, hv⟩ := hms m (by simp)
      have hw : wire (m :: ms) = m ++ 0 :: wire ms := by simp [wire]
      unfold cxLoop
      by_cases hle : cx.data.length - cx.rptr ≤ m.length
      · have hpre : ∃ z, m = cx.data.drop cx.rptr ++ z := by
          apply prefix_of_append (q := 0 :: wire ms) (t := rest)
          · rw [hp, hw]
          · omega
        obtain ⟨z, hz'⟩ := hpre
        have hno : findZero (cx.data.drop cx.rptr) = none := by
          apply findZero_none
          intro b hb
          apply hz
          rw [hz']
          simp [hb]
        simp only [hno]
        refine ⟨cx, log, [], m :: ms, rfl, rfl, by simp, ⟨by omega, hs⟩, htx,
          by simp [wire, answers], rfl, rfl, hp, ?_⟩
        intro m' ms'' he
        cases he
        rw [hplen]
        exact hle
      · have htail : ∃ tail, cx.data.drop cx.rptr = m ++ 0 :: tail := by
          obtain ⟨z, hz'⟩ := prefix_of_append (a := cx.data.drop cx.rptr) (q := rest) (b := m ++ [0])
            (t := wire ms) (by rw [hp, hw]; simp) (by simp only [List.length_append, List.length_cons, List.length_nil]; omega)
          exact ⟨z, by rw [hz']; simp⟩
        obtain ⟨tail, htail⟩ := htail
        have hlen : cx.data.length - cx.rptr = m.length + 1 + tail.length := by
          have := congrArg List.length htail
          simp at this
          omega
        have hp' : tail ++ rest = wire ms := by
          rw [htail, hw] at hp
          simpa using hp
        simp only [htail, findZero_append hz]
        have hmsg : (m ++ 0 :: tail).take m.length = m := by simp
        rw [hmsg]
        by_cases hlast : cx.rptr + m.length = cx.data.length - 1
        · have ht0 : tail = [] := List.eq_nil_of_length_eq_zero (by omega)
          subst ht0
          simp only [hlast, if_true]
          obtain ⟨tx', e1, e2, e3, e4⟩ := respond_ok htx hv
          simp only [e1]
          rw [if_neg (by simp)]
          refine ⟨_, _, [m], ms, rfl, rfl, rfl, ⟨by simp, by simp⟩, e2, e3, e4, rfl, by simpa using hp', ?_⟩
          intro m' ms'' _
          simp
        · simp only [hlast, if_false]
          obtain ⟨tx', e1, e2, e3, e4⟩ := respond_ok htx hv
          simp only [e1]
          have hdrop : cx.data.drop (cx.rptr + m.length + 1) = tail := by
            rw [show cx.rptr + m.length + 1 = cx.rptr + (m ++ [0]).length by simp; omega,
              ← List.drop_drop, htail]
            rw [show m ++ 0 :: tail = (m ++ [0]) ++ tail by simp, List.drop_left]
          rw [if_pos (by omega)]
          obtain ⟨cx', log', d, ms', g1, g2⟩ := ih
            { cx with rptr := cx.rptr + m.length + 1, tx := tx' } (log ++ [m]) ms rest
            (fun m' hm => hms m' (by simp [hm])) (by dsimp only; omega) hs e2
            (by dsimp only; omega) (by dsimp only; rw [hdrop]; exact hp')
          refine ⟨cx', log', m :: d, ms', g1, by rw [g2.ms_eq]; rfl, by rw [g2.log_eq]; simp,
            g2.rx_ok, g2.tx_ok, ?_, by rw [g2.tx_rptr]; exact e4, g2.sock_eq, g2.pending, g2.short⟩
          rw [g2.tx_data]
          dsimp only
          rw [e3, List.append_assoc, ← wire_append, ← answers_append]
          rfl

theorem cxReadAll_got (parse : List UInt8 → Doc) (cs : List (List UInt8)) : ∀ (cx : Cx)
    (log ms : List (List UInt8)) (rest : List UInt8),
    (∀ m ∈ ms, (∀ b ∈ m, b ≠ 0) ∧ parse m ≠ .invalid) → cx.rptr ≤ cx.data.length →
    cx.data.length ≤ cx.size → TxOk cx.tx →
    cx.data.drop cx.rptr ++ cs.flatten ++ rest = wire ms →
    (∀ m ms'', ms = m :: ms'' → (cx.data.drop cx.rptr).length ≤ m.length) →
    cxReadAll parse cx log cs = .impossible ∨
    ∃ cx' log' d ms', cxReadAll parse cx log cs = .ok cx' log' ∧
      CxGot parse ms rest cx.tx log cx.sock cx' log' d ms' := by
  induction cs with
  | nil =>
    intro cx log ms rest hms hr hs htx hp hsh
    right
    exact ⟨cx, log, [], ms, rfl, rfl, by simp, ⟨hr, hs⟩, htx, by simp [wire, answers], rfl, rfl,
      by simpa using hp, hsh⟩
  | cons c cs ih =>
    intro cx log ms rest hms hr hs htx hp hsh
    unfold cxReadAll cxRead
    by_cases himp : c = [] ∨ c.length > cx.grown - cx.data.length
    · left
      simp only [himp, if_true]
    · simp only [himp, if_false]
      have hc : 0 < c.length := by
        cases c with
        | nil => exact (himp (Or.inl rfl)).elim
        | cons _ _ => simp
      have hcl : c.length ≤ cx.grown - cx.data.length := by
        apply Classical.byContradiction
        intro h
        exact himp (Or.inr (by omega))
      have hdrop : (cx.data ++ c).drop cx.rptr = cx.data.drop cx.rptr ++ c := by
        rw [List.drop_append_of_le_length hr]
      have hg : cx.size ≤ cx.grown := by unfold Cx.grown; split <;> omega
      obtain ⟨cx1, log1, d, ms1, e1, g1⟩ := cxLoop_got parse (cx.data.length + c.length + 1)
        { cx with size := cx.grown, data := cx.data ++ c } log ms (cs.flatten ++ rest) hms
        (by dsimp only; rw [List.length_append]; omega) (by dsimp only; rw [List.length_append]; omega)
        htx (by dsimp only; rw [List.length_append]; omega)
        (by dsimp only; rw [hdrop]; simpa using hp)
      simp only [e1]
      rcases ih cx1 log1 ms1 rest (fun m hm => hms m (by rw [g1.ms_eq]; simp [hm])) g1.rx_ok.1
        g1.rx_ok.2 g1.tx_ok (by rw [List.append_assoc]; exact g1.pending) g1.short with
        h | ⟨cx2, log2, d2, ms2, e2, g2⟩
      · left; exact h
      · right
        refine ⟨cx2, log2, d ++ d2, ms2, e2, by rw [g1.ms_eq, g2.ms_eq]; simp,
          by rw [g2.log_eq, g1.log_eq]; simp, g2.rx_ok, g2.tx_ok, ?_, by rw [g2.tx_rptr, g1.tx_rptr],
          by rw [g2.sock_eq, g1.sock_eq], g2.pending, g2.short⟩
        rw [g2.tx_data, g1.tx_data, List.map_append, answers_append, wire_append]
        simp

/-- However the bytes are cut into pieces by the network, at any time exactly
    the messages that have arrived in whole have been read, in order, and the
    answers to them are queued in the same order; nothing is written outside the
    buffers.

    Partial: every message is a JSON array or object and the connection is the
    first one; see the counterexamples. -/
theorem cx_messages_partial (parse : List UInt8 → Doc) (fd : Nat) (ms cs : List (List UInt8))
    (rest : List UInt8) (hzero : ∀ m ∈ ms, ∀ b ∈ m, b ≠ 0) (hjson : ∀ m ∈ ms, parse m ≠ .invalid)
    (hcut : cs.flatten ++ rest = wire ms) :
    cxReadAll parse (newConnection Cx.init fd) [] cs = .impossible ∨
    ∃ cx k, cxReadAll parse (newConnection Cx.init fd) [] cs = .ok cx (ms.take k) ∧ k ≤ ms.length ∧
      (wire (ms.take k)).length ≤ cs.flatten.length ∧
      (k < ms.length → cs.flatten.length < (wire (ms.take (k + 1))).length) ∧
      cx.tx.data = wire (answers ((ms.take k).map parse)) ∧ cx.tx.rptr = 0 := by
  rcases cxReadAll_got parse cs (newConnection Cx.init fd) [] ms rest
    (fun m hm => ⟨hzero m hm, hjson m hm⟩) (by simp [newConnection, Cx.init])
    (by simp [newConnection, Cx.init]) ⟨by simp [newConnection, Cx.init, Tx.init], by simp [newConnection, Cx.init, Tx.init]⟩
    (by simpa [newConnection, Cx.init] using hcut) (by simp [newConnection, Cx.init]) with
    h | ⟨cx, log, d, ms', e, g⟩
  · left; exact h
  · right
    have ht : ms.take d.length = d := by rw [g.ms_eq]; simp
    have hp := congrArg List.length g.pending
    have hc := congrArg List.length hcut
    rw [g.ms_eq, wire_append] at hc
    rw [List.length_append] at hp
    rw [List.length_append, List.length_append] at hc
    refine ⟨cx, d.length, ?_, ?_, ?_, ?_, ?_, ?_⟩
    · rw [e, g.log_eq, ht]; rfl
    · rw [g.ms_eq]; simp
    · rw [ht]; omega
    · intro hlt
      have hs := g.short
      cases ms' with
      | nil => rw [g.ms_eq] at hlt; simp at hlt
      | cons m ms' =>
        have h1 := hs m ms' rfl
        have h2 : ms.take (d.length + 1) = d ++ [m] := by
          rw [g.ms_eq, List.take_append, List.take_of_length_le (by omega)]
          simp
        rw [h2, wire_append, List.length_append]
        have h3 : (wire [m]).length = m.length + 1 := by simp [wire]
        omega
    · rw [g.tx_data, ht]
      simp [newConnection, Cx.init, Tx.init]
    · rw [g.tx_rptr]; rfl

/-- When all messages have arrived all have been read. -/
theorem cx_all_partial (parse : List UInt8 → Doc) (fd : Nat) (ms cs : List (List UInt8))
    (hzero : ∀ m ∈ ms, ∀ b ∈ m, b ≠ 0) (hjson : ∀ m ∈ ms, parse m ≠ .invalid)
    (hcut : cs.flatten = wire ms) :
    cxReadAll parse (newConnection Cx.init fd) [] cs = .impossible ∨
    ∃ cx, cxReadAll parse (newConnection Cx.init fd) [] cs = .ok cx ms ∧
      cx.tx.data = wire (answers (ms.map parse)) := by
  rcases cx_messages_partial parse fd ms cs [] hzero hjson (by simpa using hcut) with
    h | ⟨cx, k, e, _, _, h3, h4, _⟩
  · left; exact h
  · right
    have hk : ¬ k < ms.length := by
      intro hlt
      have h5 := h3 hlt
      rw [hcut] at h5
      have h6 : wire ms = wire (ms.take (k + 1)) ++ wire (ms.drop (k + 1)) := by
        rw [← wire_append, List.take_append_drop]
      have h7 := congrArg List.length h6
      rw [List.length_append] at h7
      omega
    rw [List.take_of_length_le (by omega)] at e h4
    exact ⟨cx, e, h4⟩

/-- The parser of the examples: what starts with `{` is an object, answered by
    its length, what starts with `[` an array. -/
def toyParse (m : List UInt8) : Doc :=
  match m with
  | 0x7b :: _ => .object (some [UInt8.ofNat (0x30 + m.length)])
  | 0x5b :: _ => .array m
  | _ => .invalid

example : cxReadAll toyParse (newConnection Cx.init 5) [] [[0x7b], [0x7d, 0, 0x7b, 1], [0x7d, 0]] =
    .ok { sock := some 5, size := 2048, data := [], rptr := 0,
          tx := { size := 1024, data := [0x32, 0, 0x33, 0], rptr := 0 } }
      [[0x7b, 0x7d], [0x7b, 1, 0x7d]] := by decide +kernel

/-- A message that is not JSON: there is no document to put the error into and
    the server crashes. -/
theorem cx_invalid_counterexample :
    cxReadAll toyParse (newConnection Cx.init 5) [] [[0x78, 0]] = .crash := by decide +kernel

/-- An array is not answered by an error but sent back. -/
theorem cx_array_counterexample :
    cxReadAll toyParse (newConnection Cx.init 5) [] [[0x5b, 0x5d, 0]] =
      .ok { sock := some 5, size := 1024, data := [], rptr := 0,
            tx := { size := 1024, data := [0x5b, 0x5d, 0], rptr := 0 } } [[0x5b, 0x5d]] := by
  decide +kernel

/-- A second client connects while the first one is in the middle of a message:
    the beginning of that message is put before the message of the new client. -/
theorem cx_takeover_counterexample :
    ∃ cx, cxReadAll toyParse (newConnection Cx.init 5) [] [[0x7b, 1]] = .ok cx [] ∧
      ∃ cx', cxReadAll toyParse (newConnection cx 6) [] [[0x7b, 0x7d, 0]] =
        .ok cx' [[0x7b, 1, 0x7b, 0x7d]] := by
  refine ⟨{ sock := some 5, size := 1024, data := [0x7b, 1], rptr := 0, tx := Tx.init },
    by decide +kernel, ?_⟩
  refine ⟨{ sock := some 6, size := 2048, data := [], rptr := 0,
            tx := { size := 1024, data := [0x34, 0], rptr := 0 } }, by decide +kernel⟩

/-- A client that goes away before it has got its answer: the descriptor -1 is
    put into the set to watch; were it not, the next client would get the
    answer. -/
theorem cx_gone_counterexample :
    ∃ cx, cxReadAll toyParse (newConnection Cx.init 5) [] [[0x7b, 0x7d, 0]] = .ok cx [[0x7b, 0x7d]] ∧
      fillFdSet (kill cx) = none ∧
      (flush [.wrote 2] (newConnection (kill cx) 6).tx).2.1 = [0x32, 0] := by
  refine ⟨{ sock := some 5, size := 1024, data := [], rptr := 0,
            tx := { size := 1024, data := [0x32, 0], rptr := 0 } }, by decide +kernel, by decide, by decide⟩

end Verif.Net
