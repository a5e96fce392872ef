/-
What a WebSocket connection is to do, independent of the code: the form of a
frame (RFC 6455, section 5.2) and what the receiver of a stream of frames is to
see.
-/
import Verif.Net.WsModel

namespace Verif.Net

/-- The number that some bytes stand for, the most significant byte first. -/
def bigEndian (bs : List UInt8) : Nat := bs.foldl (fun a b => a * 256 + b.toNat) 0

/-- The second byte and the extended length of a frame of `len` bytes of
    payload. -/
def LengthField (b1 : UInt8) (ext : List UInt8) (len : Nat) : Prop :=
  (b1.toNat % 128 = len ∧ len < 126 ∧ ext = []) ∨
  (b1.toNat % 128 = 126 ∧ ext.length = 2 ∧ bigEndian ext = len) ∨
  (b1.toNat % 128 = 127 ∧ ext.length = 8 ∧ bigEndian ext = len)

/-- The masking key and the payload as it is sent. -/
def Body (b1 : UInt8) (key body payload : List UInt8) : Prop :=
  (b1.toNat < 128 ∧ key = [] ∧ body = payload) ∨
  (128 ≤ b1.toNat ∧ key.length = 4 ∧ body.length = payload.length ∧
    ∀ (i : Nat) (p k : UInt8), payload[i]? = some p → key[i % 4]? = some k →
      body[i]? = some (p ^^^ k))

/-- A message: an opcode and the payload. -/
structure Msg where
  op : Nat
  payload : List UInt8
deriving DecidableEq, Repr

/-- The bytes are one whole frame, not a fragment, with the message. -/
def IsFrame (m : Msg) (bs : List UInt8) : Prop :=
  ∃ (b0 b1 : UInt8) (ext key body : List UInt8),
    bs = b0 :: b1 :: (ext ++ key ++ body) ∧ b0.toNat = 128 + m.op ∧
    LengthField b1 ext m.payload.length ∧ Body b1 key body m.payload

/-- The length is written in the shortest way, as the sender must. -/
def Shortest (m : Msg) (bs : List UInt8) : Prop :=
  ∀ b1, bs[1]? = some b1 →
    (b1.toNat % 128 = 126 → 126 ≤ m.payload.length) ∧
    (b1.toNat % 128 = 127 → 65536 ≤ m.payload.length)

/-- The messages that are not control messages of some later version: text,
    binary, close, ping, pong. -/
def Known (m : Msg) : Prop := m.op = 1 ∨ m.op = 2 ∨ m.op = 8 ∨ m.op = 9 ∨ m.op = 10

/-- What the receiver of a message is to see. -/
def eventOf (m : Msg) : Event :=
  if m.op = 1 then .text m.payload
  else if m.op = 2 then .binary m.payload
  else if m.op = 8 then .close
  else if m.op = 9 then .ping m.payload
  else .pong m.payload

/-- One stream of bytes is the frames of the messages, one after the other. -/
def IsStream : List Msg → List (List UInt8) → Prop
  | [], [] => True
  | m :: ms, bs :: bss => IsFrame m bs ∧ IsStream ms bss
  | _, _ => False

end Verif.Net
