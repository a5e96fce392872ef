/-
A stream of frames, cut into pieces in any way.
-/
import Verif.Net.WsRecv

namespace Verif.Net

theorem IsFrame.two_le {m : Msg} {bs : List UInt8} (h : IsFrame m bs) : 2 ≤ bs.length := by
  obtain ⟨b0, b1, ext, key, body, hb, _⟩ := h
  rw [hb]
  simp

theorem isStream_length {ms : List Msg} : ∀ {bss : List (List UInt8)}, IsStream ms bss →
    ms.length = bss.length := by
  induction ms with
  | nil =>
    intro bss h
    cases bss with
    | nil => rfl
    | cons _ _ => exact h.elim
  | cons m ms ih =>
    intro bss h
    cases bss with
    | nil => exact h.elim
    | cons _ _ => simp [ih h.2]

/-- Less has arrived than the next frame. -/
def Short (p : List UInt8) : List (List UInt8) → Prop
  | [] => p = []
  | bs :: _ => p.length < bs.length

/-- The conditions on the messages. -/
def Fine (ms : List Msg) : Prop :=
  ∀ m ∈ ms, Known m ∧ NoZero m ∧ m.payload.length < 2147483648

/-- The pointers of the receive buffer are in order. -/
def RxOk (rx : Rx) : Prop := rx.rptr ≤ rx.data.length ∧ rx.data.length ≤ rx.size

/-- What has been received of a stream: the messages so far, the frames left
    and the bytes of the next one. -/
structure Got (debug : Bool) (ms : List Msg) (bss : List (List UInt8)) (rest : List UInt8)
    (evs : List Event) (rx' : Rx) (evs' : List Event) (d : List Msg) (db : List (List UInt8))
    (ms' : List Msg) (bss' : List (List UInt8)) : Prop where
  ms_eq : ms = d ++ ms'
  bss_eq : bss = db ++ bss'
  dstream : IsStream d db
  stream : IsStream ms' bss'
  evs_eq : evs' = evs ++ d.map eventOf
  ok : RxOk rx'
  pending : rx'.data.drop rx'.rptr ++ rest = bss'.flatten
  short : Short (rx'.data.drop rx'.rptr) bss'

theorem frames_got (debug : Bool) (n : Nat) : ∀ (rx : Rx) (evs : List Event) (ms : List Msg)
    (bss : List (List UInt8)) (rest : List UInt8),
    IsStream ms bss → Fine ms → rx.rptr < rx.data.length → rx.data.length < rx.size →
    rx.data.length - rx.rptr < n → rx.data.drop rx.rptr ++ rest = bss.flatten →
    (∀ (i : Nat) (m : Msg), ms[i]? = some m → m.op = 1 →
      (bss.take (i + 1)).flatten.length ≤ rx.data.length - rx.rptr →
      (bss.take (i + 1)).flatten.length = rx.data.length - rx.rptr) →
    ∃ rx' evs' d db ms' bss', frames debug n rx evs = .ok rx' evs' ∧
      Got debug ms bss rest evs rx' evs' d db ms' bss' := by
  induction n with
  | zero => intro rx _ _ _ _ _ _ _ _ h; omega
  | succ n ih =>
    intro rx evs ms bss rest hst hfine hr hs hn hp ht
    match ms, bss, hst with
    | [], [], _ =>
      have := congrArg List.length hp
      simp at this
      omega
    | m :: ms, bs :: bss, hst =>
      obtain ⟨hk, hz, hl⟩ := hfine m (by simp)
      have h2 := hst.1.two_le
      unfold frames
      by_cases hlt : rx.data.length - rx.rptr < bs.length
      · have hstep := step_part hst.1 hl debug rx (q := rest) (tail := bss.flatten)
          (by rw [hp]; simp) hlt
        simp only [hstep]
        refine ⟨rx, evs, [], [], m :: ms, bs :: bss, rfl, rfl, rfl, trivial, hst, by simp,
          ⟨by omega, by omega⟩, hp, ?_⟩
        simpa [Short] using hlt
      · have htail : ∃ tail, rx.data.drop rx.rptr = bs ++ tail := by
          apply prefix_of_append (q := rest) (t := bss.flatten)
          · rw [hp]; simp
          · simp; omega
        obtain ⟨tail, htail⟩ := htail
        have hlen : rx.data.length - rx.rptr = bs.length + tail.length := by
          have := congrArg List.length htail
          simpa using this
        have ht1 : m.op = 1 → tail = [] := by
          intro h
          have h3 := ht 0 m rfl h
          simp only [Nat.zero_add, List.take_succ_cons, List.take_zero, List.flatten_cons,
            List.flatten_nil, List.append_nil] at h3
          have h4 := h3 (by omega)
          exact List.eq_nil_of_length_eq_zero (by omega)
        obtain ⟨data', e1, e2, e3⟩ := step_whole hst.1 hk hz hl debug rx hs htail ht1
        simp only [e1]
        have hp' : tail ++ rest = bss.flatten := by
          rw [htail] at hp
          simpa using hp
        by_cases hc : rx.rptr + bs.length < data'.length
        · rw [if_pos hc]
          obtain ⟨rx', evs', d, db, ms', bss', g1, g2⟩ := ih
            { rx with data := data', rptr := rx.rptr + bs.length } (evs ++ [eventOf m]) ms bss rest
            hst.2 (fun m' hm => hfine m' (by simp [hm])) hc (by dsimp only; omega)
            (by dsimp only; omega) (by dsimp only; rw [e3]; exact hp') (by
              intro i m' hm ho hle
              dsimp only at hle ⊢
              have h3 := ht (i + 1) m' (by simpa using hm) ho
              rw [List.take_succ_cons, List.flatten_cons, List.length_append] at h3
              have h4 := h3 (by omega)
              omega)
          refine ⟨rx', evs', m :: d, bs :: db, ms', bss', g1, by rw [g2.ms_eq]; rfl,
            by rw [g2.bss_eq]; rfl, ⟨hst.1, g2.dstream⟩, g2.stream, ?_, g2.ok, g2.pending, g2.short⟩
          rw [g2.evs_eq]
          simp
        · rw [if_neg hc]
          have ht0 : tail = [] := List.eq_nil_of_length_eq_zero (by omega)
          subst ht0
          refine ⟨_, _, [m], [bs], ms, bss, rfl, rfl, rfl, ⟨hst.1, trivial⟩, hst.2, by simp,
            ⟨by simp, by simp⟩, by simpa using hp', ?_⟩
          cases bss with
          | nil => simp [Short]
          | cons b bss =>
            cases ms with
            | nil => exact hst.2.elim
            | cons m' ms =>
              have := hst.2.1.two_le
              simp [Short]
              omega

/-- Every text ends where a piece ends: `cs` are the pieces to come, `have_`
    bytes have arrived of the frames. -/
def TextCut (have_ : Nat) (cs : List (List UInt8)) (ms : List Msg) (bss : List (List UInt8)) : Prop :=
  ∀ (i : Nat) (m : Msg), ms[i]? = some m → m.op = 1 →
    (bss.take (i + 1)).flatten.length ≤ have_ + cs.flatten.length →
    ∃ j : Nat, (bss.take (i + 1)).flatten.length = have_ + (cs.take j).flatten.length

theorem grown_room {rx : Rx} (h : rx.data.length ≤ rx.size) :
    1024 ≤ grown rx - rx.data.length ∧ rx.size ≤ grown rx := by
  unfold grown
  split <;> omega

theorem flatten_take_mono {α : Type} (cs : List (List α)) (j k : Nat) (h : j ≤ k) :
    (cs.take j).flatten.length ≤ (cs.take k).flatten.length := by
  have h1 : cs.take j = (cs.take k).take j := by rw [List.take_take, Nat.min_eq_left h]
  rw [h1]
  conv => rhs; rw [← List.take_append_drop j (cs.take k)]
  rw [List.flatten_append, List.length_append]
  omega

theorem short_first {p : List UInt8} {ms : List Msg} {bss : List (List UInt8)} {m : Msg} {i : Nat}
    (hst : IsStream ms bss) (hs : Short p bss) (hm : ms[i]? = some m) :
    p.length < (bss.take (i + 1)).flatten.length := by
  cases bss with
  | nil =>
    have := isStream_length hst
    cases ms with
    | nil => simp at hm
    | cons _ _ => simp at this
  | cons b bss =>
    simp only [Short] at hs
    rw [List.take_succ_cons, List.flatten_cons, List.length_append]
    omega

theorem isStream_append {a : List Msg} : ∀ {b : List (List UInt8)} {a' : List Msg} {b' : List (List UInt8)},
    IsStream a b → IsStream a' b' → IsStream (a ++ a') (b ++ b') := by
  induction a with
  | nil =>
    intro b a' b' h h'
    cases b with
    | nil => exact h'
    | cons _ _ => exact h.elim
  | cons x a ih =>
    intro b a' b' h h'
    cases b with
    | nil => exact h.elim
    | cons y b => exact ⟨h.1, ih h.2 h'⟩

theorem feedAll_got (debug : Bool) (cs : List (List UInt8)) : ∀ (rx : Rx) (evs : List Event)
    (ms : List Msg) (bss : List (List UInt8)) (rest : List UInt8),
    IsStream ms bss → Fine ms → RxOk rx → Short (rx.data.drop rx.rptr) bss →
    rx.data.drop rx.rptr ++ cs.flatten ++ rest = bss.flatten →
    TextCut (rx.data.length - rx.rptr) cs ms bss →
    feedAll debug rx evs cs = .impossible ∨
    ∃ rx' evs' d db ms' bss', feedAll debug rx evs cs = .ok rx' evs' ∧
      Got debug ms bss rest evs rx' evs' d db ms' bss' := by
  induction cs with
  | nil =>
    intro rx evs ms bss rest hst hfine hok hsh hp ht
    right
    exact ⟨rx, evs, [], [], ms, bss, rfl, rfl, rfl, trivial, hst, by simp, hok, by simpa using hp, hsh⟩
  | cons c cs ih =>
    intro rx evs ms bss rest hst hfine hok hsh hp ht
    unfold feedAll feed
    by_cases himp : c = [] ∨ c.length > grown rx - rx.data.length - 1
    · left
      simp only [himp, if_true]
    · simp only [himp, if_false]
      have hroom := grown_room hok.2
      have hc : 0 < c.length := by
        cases c with
        | nil => exact (himp (Or.inl rfl)).elim
        | cons _ _ => simp
      have hcl : c.length ≤ grown rx - rx.data.length - 1 := by
        apply Classical.byContradiction
        intro h
        exact himp (Or.inr (by omega))
      have hok1 := hok.1
      have hdrop : (rx.data ++ c).drop rx.rptr = rx.data.drop rx.rptr ++ c := by
        rw [List.drop_append_of_le_length hok.1]
      obtain ⟨rx1, evs1, d, db, ms1, bss1, e1, g1⟩ := frames_got debug ((rx.data ++ c).length + 1)
        { rx with size := grown rx, data := rx.data ++ c } evs ms bss (cs.flatten ++ rest)
        hst hfine (by dsimp only; simp; omega) (by dsimp only; simp; omega)
        (by dsimp only; omega)
        (by dsimp only; rw [hdrop]; simpa using hp) (by
          intro i m hm ho hle
          dsimp only at hle ⊢
          rw [List.length_append] at hle ⊢
          have hfirst := short_first hst hsh hm
          rw [List.length_drop] at hfirst
          obtain ⟨j, hj⟩ := ht i m hm ho (by
            rw [List.flatten_cons, List.length_append]; omega)
          have hj1 : j ≠ 0 := by
            intro h0
            rw [h0, List.take_zero, List.flatten_nil, List.length_nil] at hj
            omega
          have h3 := flatten_take_mono (c :: cs) 1 j (by omega)
          simp only [List.take_succ_cons, List.take_zero, List.flatten_cons, List.flatten_nil,
            List.append_nil] at h3
          omega)
      simp only [e1]
      have hp1 := g1.pending
      have hlen1 : (rx1.data.length - rx1.rptr) + db.flatten.length = (rx.data.length - rx.rptr) + c.length := by
        have h3 := congrArg List.length hp
        have h4 := congrArg List.length hp1
        rw [g1.bss_eq, List.flatten_append] at h3
        simp only [List.length_append, List.length_drop, List.flatten_cons] at h3 h4
        omega
      have hdl := isStream_length g1.dstream
      rcases ih rx1 evs1 ms1 bss1 rest g1.stream
        (fun m hm => hfine m (by rw [g1.ms_eq]; simp [hm])) g1.ok g1.short
        (by rw [List.append_assoc]; exact hp1) (by
          intro i m hm ho hle
          have hm' : ms[d.length + i]? = some m := by
            rw [g1.ms_eq, List.getElem?_append_right (by omega), Nat.add_sub_cancel_left]
            exact hm
          have htk : bss.take (d.length + i + 1) = db ++ bss1.take (i + 1) := by
            rw [g1.bss_eq, List.take_append, List.take_of_length_le (by omega)]
            congr 2
            omega
          have h3 := ht (d.length + i) m hm' ho
          rw [htk, List.flatten_append, List.length_append, List.flatten_cons, List.length_append] at h3
          obtain ⟨j, hj⟩ := h3 (by omega)
          have hfirst := short_first g1.stream g1.short hm
          rw [List.length_drop] at hfirst
          have hj1 : j ≠ 0 := by
            intro h0
            rw [h0, List.take_zero, List.flatten_nil, List.length_nil] at hj
            omega
          refine ⟨j - 1, ?_⟩
          obtain ⟨j, rfl⟩ : ∃ j', j = j' + 1 := ⟨j - 1, by omega⟩
          rw [List.take_succ_cons, List.flatten_cons, List.length_append] at hj
          rw [Nat.add_sub_cancel]
          omega) with h | ⟨rx2, evs2, d2, db2, ms2, bss2, e2, g2⟩
      · left; exact h
      · right
        refine ⟨rx2, evs2, d ++ d2, db ++ db2, ms2, bss2, e2, ?_, ?_,
          isStream_append g1.dstream g2.dstream, g2.stream, ?_, g2.ok, g2.pending, g2.short⟩
        · rw [g1.ms_eq, g2.ms_eq, List.append_assoc]
        · rw [g1.bss_eq, g2.bss_eq, List.append_assoc]
        · rw [g2.evs_eq, g1.evs_eq]
          simp

end Verif.Net
