/-
What the sender puts in the buffer.
-/
import Verif.Net.WsSpec

namespace Verif.Net

theorem forall_byte {P : UInt8 → Prop} (h : ∀ n : Fin 256, P (UInt8.ofNat n)) (b : UInt8) :
    P b := by
  have h1 := h ⟨b.toNat, b.toNat_lt⟩
  simpa using h1

/-- The pointers of the transmit buffer are in order. -/
def TxOk (tx : Tx) : Prop := tx.rptr ≤ tx.data.length ∧ tx.data.length ≤ tx.size

theorem queueBuf_ok {tx : Tx} (h : TxOk tx) (bs : List UInt8) :
    ∃ tx', queueBuf tx bs = some tx' ∧ tx'.data = tx.data ++ bs ∧ tx'.rptr = tx.rptr ∧ TxOk tx' := by
  obtain ⟨h1, h2⟩ := h
  unfold queueBuf
  have h3 : tx.data.length + bs.length ≤
      (if tx.data.length + bs.length > tx.size
        then max (tx.size + bs.length) 1024 else tx.size) := by
    split <;> omega
  simp only [h3, if_true]
  refine ⟨_, rfl, rfl, rfl, ?_, ?_⟩
  · simp only [List.length_append]; omega
  · simp only [List.length_append]; exact h3

theorem xorPiece_append (masks : List UInt8) (i : Nat) (a b : List UInt8) :
    xorPiece masks i (a ++ b) = xorPiece masks i a ++ xorPiece masks (i + a.length) b := by
  simp only [xorPiece, List.mapIdx_append]
  congr 2
  funext j x
  rw [Nat.add_assoc, Nat.add_comm a.length j]

theorem xorLoop_ok (masks : List UInt8) (n : Nat) : ∀ (i : Nat) (data : List UInt8) (tx : Tx),
    TxOk tx → data.length ≤ i + 128 * n →
    ∃ tx', xorLoop masks n i data tx = some tx' ∧
      tx'.data = tx.data ++ xorPiece masks i (data.drop i) ∧ tx'.rptr = tx.rptr ∧ TxOk tx' := by
  induction n with
  | zero =>
    intro i data tx h hl
    refine ⟨tx, rfl, ?_, rfl, h⟩
    rw [List.drop_eq_nil_of_le (by omega)]
    simp [xorPiece]
  | succ n ih =>
    intro i data tx h hl
    unfold xorLoop
    by_cases hi : i < data.length
    · rw [if_pos hi]
      obtain ⟨tx1, e1, d1, r1, o1⟩ := queueBuf_ok h
        (xorPiece masks i ((data.drop i).take (min 128 (data.length - i))))
      rw [e1]
      obtain ⟨tx2, e2, d2, r2, o2⟩ := ih (i + 128) data tx1 o1 (by omega)
      refine ⟨tx2, e2, ?_, by rw [r2, r1], o2⟩
      rw [d2, d1, List.append_assoc]
      congr 1
      have h3 : data.drop i = (data.drop i).take 128 ++ data.drop (i + 128) := by
        rw [← List.drop_drop, List.take_append_drop]
      conv => rhs; rw [h3, xorPiece_append]
      by_cases hm : 128 ≤ data.length - i
      · rw [Nat.min_eq_left hm, List.length_take, List.length_drop, Nat.min_eq_left hm]
      · have h4 : data.drop (i + 128) = [] := List.drop_eq_nil_of_le (by omega)
        rw [h4, Nat.min_eq_right (by omega), List.take_of_length_le (by simp),
          List.take_of_length_le (by simp; omega)]
        simp [xorPiece]
    · rw [if_neg hi]
      refine ⟨tx, rfl, ?_, rfl, h⟩
      rw [List.drop_eq_nil_of_le (by omega)]
      simp [xorPiece]

/-- The bytes that `ws_send` queues. -/
def encode (key : Option Nat) (op : UInt8) (data : List UInt8) : List UInt8 :=
  sendHeader key.isSome op data.length ++ sendExt data.length ++
    (match key with
     | some k => packBe32 k ++ xorPiece (packBe32 k) 0 data
     | none => data)

theorem wsSend_ok (key : Option Nat) (op : UInt8) (data : List UInt8) {tx : Tx} (h : TxOk tx) :
    ∃ tx', wsSend key op data tx = some tx' ∧ tx'.data = tx.data ++ encode key op data ∧
      tx'.rptr = tx.rptr ∧ TxOk tx' := by
  unfold wsSend
  obtain ⟨tx1, e1, d1, r1, o1⟩ := queueBuf_ok h (sendHeader key.isSome op data.length)
  rw [e1]
  have h2 : ∃ tx2, (if sendExt data.length = [] then some tx1
      else queueBuf tx1 (sendExt data.length)) = some tx2 ∧
      tx2.data = tx1.data ++ sendExt data.length ∧ tx2.rptr = tx1.rptr ∧ TxOk tx2 := by
    split
    · rename_i h3
      exact ⟨tx1, rfl, by rw [h3, List.append_nil], rfl, o1⟩
    · exact queueBuf_ok o1 _
  obtain ⟨tx2, e2, d2, r2, o2⟩ := h2
  simp only [e2]
  cases key with
  | some k =>
    simp only [sendBody]
    obtain ⟨tx3, e3, d3, r3, o3⟩ := queueBuf_ok o2 (packBe32 k)
    simp only [e3]
    obtain ⟨tx4, e4, d4, r4, o4⟩ := xorLoop_ok (packBe32 k) (data.length / 128 + 1) 0 data tx3 o3
      (by omega)
    refine ⟨tx4, e4, ?_, by rw [r4, r3, r2, r1], o4⟩
    rw [d4, d3, d2, d1]
    simp [encode]
  | none =>
    simp only [sendBody]
    split
    · obtain ⟨tx4, e4, d4, r4, o4⟩ := queueBuf_ok o2 data
      refine ⟨tx4, e4, ?_, by rw [r4, r2, r1], o4⟩
      rw [d4, d2, d1]
      simp [encode]
    · rename_i h3
      have h4 : data = [] := by
        cases data with
        | nil => rfl
        | cons a l => simp at h3
      refine ⟨tx2, rfl, ?_, by rw [r2, r1], o2⟩
      subst h4
      rw [d2, d1]
      simp [encode]

theorem packBe16_big {n : Nat} (h : n < 65536) : bigEndian (packBe16 n) = n := by
  simp only [packBe16, bigEndian, List.foldl_cons, List.foldl_nil, UInt8.toNat_ofNat']
  omega

theorem packBe64_big {n : Nat} (h : n < 18446744073709551616) : bigEndian (packBe64 n) = n := by
  simp only [packBe64, packBe32, packBe16, bigEndian, List.foldl_cons, List.foldl_nil,
    UInt8.toNat_ofNat', List.cons_append, List.nil_append]
  omega

theorem second_byte (mask : Bool) (n : Nat) (h : n < 128) :
    ((if mask then 0x80 else 0x00) ||| (UInt8.ofNat n &&& 0x7f) : UInt8).toNat =
      (if mask then 128 else 0) + n := by
  have h1 : ∀ (m : Bool) (k : Fin 128),
      ((if m then 0x80 else 0x00) ||| (UInt8.ofNat k &&& 0x7f) : UInt8).toNat =
      (if m then 128 else 0) + k.val := by decide +kernel
  exact h1 mask ⟨n, h⟩

theorem first_byte (op : UInt8) (h : op.toNat < 16) : (0x80 ||| op : UInt8).toNat = 128 + op.toNat := by
  have h1 : ∀ (k : Fin 16), (0x80 ||| UInt8.ofNat k : UInt8).toNat = 128 + k.val := by decide +kernel
  have h2 := h1 ⟨op.toNat, h⟩
  simpa using h2

theorem encode_frame (key : Option Nat) (op : UInt8) (data : List UInt8) (hop : op.toNat < 16)
    (hl : data.length < 18446744073709551616) :
    IsFrame ⟨op.toNat, data⟩ (encode key op data) ∧ Shortest ⟨op.toNat, data⟩ (encode key op data) := by
  have hs : size0Of data.length < 128 := by unfold size0Of; split <;> (try split) <;> omega
  have hb := second_byte key.isSome _ hs
  refine ⟨⟨0x80 ||| op, (if key.isSome then 0x80 else 0x00) ||| (UInt8.ofNat (size0Of data.length) &&& 0x7f),
    sendExt data.length, (match key with | some k => packBe32 k | none => []),
    (match key with | some k => xorPiece (packBe32 k) 0 data | none => data), ?_, first_byte op hop, ?_, ?_⟩, ?_⟩
  · cases key <;> simp [encode, sendHeader]
  · unfold LengthField
    rw [hb]
    have h2 : ((if key.isSome then 128 else 0) + size0Of data.length) % 128 = size0Of data.length := by
      split <;> omega
    rw [h2]
    unfold sendExt
    by_cases c1 : data.length < 126
    · left
      have : size0Of data.length = data.length := by simp [size0Of, c1]
      rw [this]
      refine ⟨rfl, c1, ?_⟩
      rw [if_neg (by omega), if_neg (by omega)]
    · by_cases c2 : data.length ≤ 65535
      · right; left
        have : size0Of data.length = 126 := by simp [size0Of, c1, c2]
        rw [this]
        exact ⟨rfl, by simp [packBe16], by simpa using packBe16_big (by omega)⟩
      · right; right
        have : size0Of data.length = 127 := by simp [size0Of, c1, c2]
        rw [this]
        refine ⟨rfl, by simp [packBe64, packBe32, packBe16], ?_⟩
        simpa using packBe64_big hl
  · unfold Body
    rw [hb]
    cases key with
    | none => left; simp; omega
    | some k =>
      right
      refine ⟨by simp, by simp [packBe32, packBe16], by simp [xorPiece], ?_⟩
      intro i p m h1 h2
      simp only [xorPiece, List.getElem?_mapIdx, h1, Option.map_some, Nat.zero_add,
        List.getD_eq_getElem?_getD, h2, Option.getD_some]
  · intro b1 h1
    have h2 : b1 = (if key.isSome then 0x80 else 0x00) ||| (UInt8.ofNat (size0Of data.length) &&& 0x7f) := by
      simp [encode, sendHeader] at h1
      exact h1.symm
    rw [h2, hb]
    have h2 : ((if key.isSome then 128 else 0) + size0Of data.length) % 128 = size0Of data.length := by
      split <;> omega
    rw [h2]
    unfold size0Of
    dsimp only
    split
    · omega
    · split <;> omega

end Verif.Net
