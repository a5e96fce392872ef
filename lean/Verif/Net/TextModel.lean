/-
How the debug server writes bytes as text and numbers as bytes: base64 and
packets, /repo/src/server.c:370-455 and 505-536.
-/
import Verif.Net.WsModel

namespace Verif.Net

/-- `map` of `base64_encode`, /repo/src/server.c:507-508. -/
def base64Map : List Char :=
  "ABCDEFGHIJKLMNOPQRSTUVWXYZabcdefghijklmnopqrstuvwxyz0123456789+/".toList

/-- `map[c]`. -/
def digit (c : Nat) : Char := base64Map.getD c '?'

/-- `data[i]`, for an index inside the data. -/
def byteAt (data : List UInt8) (i : Nat) : Nat := (data.getD i 0).toNat

/-- The loop of `base64_encode`, /repo/src/server.c:512-535, from the index `i`
    on, for at most so many rounds. -/
def base64Loop (data : List UInt8) : Nat → Nat → List Char
  | 0, _ => []
  | n + 1, i =>
    if i < data.length then
      let c0 := byteAt data i * 16 % 64
      let c0' := if i + 1 < data.length then c0 ||| byteAt data (i + 1) / 16 % 16 else c0
      let third :=
        if i + 1 < data.length then
          let c1 := byteAt data (i + 1) * 4 % 64
          digit (if i + 2 < data.length then c1 ||| byteAt data (i + 2) / 64 % 4 else c1)
        else '='
      let fourth := if i + 2 < data.length then digit (byteAt data (i + 2) % 64) else '='
      [digit (byteAt data i / 4 % 64), digit c0', third, fourth] ++ base64Loop data n (i + 3)
    else []

/-- `base64_encode`, /repo/src/server.c:505-536. -/
def base64 (data : List UInt8) : List Char := base64Loop data (data.length + 1) 0

/-- `packet_buf_t`, /repo/src/server.c:94-99: the bytes below `wptr` and
    `alloc`. -/
structure Packet where
  alloc : Nat
  data : List UInt8
deriving DecidableEq, Repr

/-- `pb_grow`, /repo/src/server.c:388-394. -/
def pbGrow (pb : Packet) (need : Nat) : Packet :=
  if pb.data.length + need > pb.alloc
    then { pb with alloc := max (pb.data.length + need) (pb.alloc * 2) } else pb

/-- One store `pb->buf[pb->wptr++] = b`; `none` outside the buffer. -/
def pbPut (pb : Packet) (b : UInt8) : Option Packet :=
  if pb.data.length < pb.alloc then some { pb with data := pb.data ++ [b] } else none

def pbPuts : Packet → List UInt8 → Option Packet
  | pb, [] => some pb
  | pb, b :: bs => (pbPut pb b).bind fun pb => pbPuts pb bs

/-- `pb_pack_u8`, /repo/src/server.c:396-400. -/
def packU8 (pb : Packet) (v : Nat) : Option Packet := pbPuts (pbGrow pb 1) [UInt8.ofNat v]

/-- `pb_pack_u16`, /repo/src/server.c:402-407. -/
def packU16 (pb : Packet) (v : Nat) : Option Packet :=
  pbPuts (pbGrow pb 2) [UInt8.ofNat (v / 2 ^ 8), UInt8.ofNat (v % 256)]

/-- `pb_pack_u32`, /repo/src/server.c:409-416. -/
def packU32 (pb : Packet) (v : Nat) : Option Packet :=
  pbPuts (pbGrow pb 4) [UInt8.ofNat (v / 2 ^ 24 % 256), UInt8.ofNat (v / 2 ^ 16 % 256),
    UInt8.ofNat (v / 2 ^ 8 % 256), UInt8.ofNat (v % 256)]

/-- `pb_pack_u64`, /repo/src/server.c:418-429. -/
def packU64 (pb : Packet) (v : Nat) : Option Packet :=
  pbPuts (pbGrow pb 8) [UInt8.ofNat (v / 2 ^ 56 % 256), UInt8.ofNat (v / 2 ^ 48 % 256),
    UInt8.ofNat (v / 2 ^ 40 % 256), UInt8.ofNat (v / 2 ^ 32 % 256),
    UInt8.ofNat (v / 2 ^ 24 % 256), UInt8.ofNat (v / 2 ^ 16 % 256),
    UInt8.ofNat (v / 2 ^ 8 % 256), UInt8.ofNat (v % 256)]

/-- `pb_pack_bytes`, /repo/src/server.c:431-436. -/
def packBytes (pb : Packet) (bs : List UInt8) : Option Packet :=
  let pb := pbGrow pb bs.length
  if pb.data.length + bs.length ≤ pb.alloc then some { pb with data := pb.data ++ bs } else none

/-- `pb_pack_str` and `pb_pack_ident`, /repo/src/server.c:438-454.  `none` also
    for the assertion that the length is below 65535; the argument of
    `pb_pack_u16` is converted to 16 bits. -/
def packStr (debug : Bool) (pb : Packet) (bs : List UInt8) : Option Packet :=
  if debug && bs.length ≥ 65535 then none
  else (packU16 pb (bs.length % 65536)).bind fun pb => packBytes pb bs

/-- `pb_new`, /repo/src/server.c:373-380. -/
def Packet.init : Packet := { alloc := 128, data := [] }

/-- What is put into a packet. -/
inductive Field
  | u8 (v : Nat)
  | u16 (v : Nat)
  | u32 (v : Nat)
  | u64 (v : Nat)
  | str (bs : List UInt8)
deriving DecidableEq, Repr

def packField (debug : Bool) (pb : Packet) : Field → Option Packet
  | .u8 v => packU8 pb v
  | .u16 v => packU16 pb v
  | .u32 v => packU32 pb v
  | .u64 v => packU64 pb v
  | .str bs => packStr debug pb bs

def packAll (debug : Bool) : Packet → List Field → Option Packet
  | pb, [] => some pb
  | pb, f :: fs => (packField debug pb f).bind fun pb => packAll debug pb fs

end Verif.Net
