/-
The WebSocket wrapper of the debug server, /repo/src/server.c.

Bytes are `UInt8`.  Shifts and ors that put bytes side by side (PACK_BE*,
UNPACK_BE*, /repo/src/util.h:443-454) are written as multiplication and
addition.  A `size_t` is a natural number; the one place where the code lets a
negative `int` meet a `size_t` is written out (`needed`).  The handlers are
taken to be set, as both users of the wrapper set them.
-/

namespace Verif.Net

/-! ### Sending -/

/-- PACK_BE16, /repo/src/util.h:449-450. -/
def packBe16 (u : Nat) : List UInt8 := [UInt8.ofNat (u / 256), UInt8.ofNat u]

/-- PACK_BE32, /repo/src/util.h:451-452. -/
def packBe32 (u : Nat) : List UInt8 := packBe16 (u / 65536) ++ packBe16 u

/-- PACK_BE64, /repo/src/util.h:453-454. -/
def packBe64 (u : Nat) : List UInt8 := packBe32 (u / 4294967296) ++ packBe32 u

/-- The transmit side of `web_socket_t`, /repo/src/server.c:79-92.  `data` is
    the first `tx_wptr` bytes of `tx_buf`, which has room for `size` bytes. -/
structure Tx where
  size : Nat
  data : List UInt8
  rptr : Nat
deriving DecidableEq, Repr

/-- `ws_queue_buf`, /repo/src/server.c:159-168.  `none` is a write outside the
    buffer. -/
def queueBuf (tx : Tx) (bytes : List UInt8) : Option Tx :=
  let size := if tx.data.length + bytes.length > tx.size
    then max (tx.size + bytes.length) 1024 else tx.size
  if tx.data.length + bytes.length ≤ size
    then some { tx with size := size, data := tx.data ++ bytes }
    else none

/-- `size0` in `ws_send`, /repo/src/server.c:172. -/
def size0Of (size : Nat) : Nat :=
  if size < 126 then size else if size ≤ 65535 then 126 else 127

/-- `header` in `ws_send`, /repo/src/server.c:174-177. -/
def sendHeader (mask : Bool) (opcode : UInt8) (size : Nat) : List UInt8 :=
  [0x80 ||| opcode,
   (if mask then 0x80 else 0x00) ||| (UInt8.ofNat (size0Of size) &&& 0x7f)]

/-- `extlength` in `ws_send`, /repo/src/server.c:180-187. -/
def sendExt (size : Nat) : List UInt8 :=
  if size0Of size = 126 then packBe16 size
  else if size0Of size = 127 then packBe64 size
  else []

/-- One round of the masking loop, /repo/src/server.c:196-199: the bytes of a
    piece of the data that starts at `i`. -/
def xorPiece (masks : List UInt8) (i : Nat) (piece : List UInt8) : List UInt8 :=
  piece.mapIdx fun j b => b ^^^ masks.getD ((i + j) % 4) 0

/-- The masking loop, /repo/src/server.c:195-202, in pieces of 128 bytes.  The
    first argument counts the rounds still allowed. -/
def xorLoop (masks : List UInt8) : Nat → Nat → List UInt8 → Tx → Option Tx
  | 0, _, _, tx => some tx
  | n + 1, i, data, tx =>
    if i < data.length then
      match queueBuf tx (xorPiece masks i ((data.drop i).take (min 128 (data.length - i)))) with
      | none => none
      | some tx => xorLoop masks n (i + 128) data tx
    else some tx

/-- The end of `ws_send`, /repo/src/server.c:189-205. -/
def sendBody (key : Option Nat) (data : List UInt8) (tx : Tx) : Option Tx :=
  match key with
  | some k =>
    match queueBuf tx (packBe32 k) with
    | none => none
    | some tx => xorLoop (packBe32 k) (data.length / 128 + 1) 0 data tx
  | none => if data.length > 0 then queueBuf tx data else some tx

/-- `ws_send`, /repo/src/server.c:170-205.  `key` is the result of `rand` when
    the socket masks what it sends. -/
def wsSend (key : Option Nat) (opcode : UInt8) (data : List UInt8) (tx : Tx) : Option Tx :=
  match queueBuf tx (sendHeader key.isSome opcode data.length) with
  | none => none
  | some tx =>
    match (if sendExt data.length = [] then some tx else queueBuf tx (sendExt data.length)) with
    | none => none
    | some tx => sendBody key data tx

/-- What `send` may return: it took some bytes (`n` or all there are), or none; the socket has no room
    at the moment (EAGAIN; the socket does not block, /repo/src/server.c:1375);
    or the connection is broken. -/
inductive Sent
  | wrote (n : Nat)
  | again
  | broken
deriving DecidableEq, Repr

/-- `ws_flush`, /repo/src/server.c:232-251, with what the calls of `send`
    return.  The result has the bytes given to the socket and whether `closing`
    was set.  The list running out stands for `send` returning nothing more
    (0). -/
def flushLoop : List Sent → Tx → Tx × List UInt8 × Bool
  | [], tx => (tx, [], false)
  | r :: rs, tx =>
    if tx.data.length ≠ tx.rptr then
      match r with
      | .wrote n =>
        if n = 0 then (tx, [], false)
        else
          let nbytes := min n (tx.data.length - tx.rptr)
          let out := flushLoop rs { tx with rptr := tx.rptr + nbytes }
          (out.1, (tx.data.drop tx.rptr).take nbytes ++ out.2.1, out.2.2)
      | .again => (tx, [], true)
      | .broken => (tx, [], true)
    else (tx, [], false)

/-- All of `ws_flush`: at last the empty buffer is used from the start,
    /repo/src/server.c:249-250. -/
def flush (rs : List Sent) (tx : Tx) : Tx × List UInt8 × Bool :=
  let out := flushLoop rs tx
  (if out.1.data.length = out.1.rptr then { out.1 with data := [], rptr := 0 } else out.1, out.2)

/-! ### Receiving -/

/-- UNPACK_BE16, UNPACK_BE32 and UNPACK_BE64, /repo/src/util.h:443-447. -/
def unpackBe16 (b : List UInt8) : Nat := (b.getD 0 0).toNat * 256 + (b.getD 1 0).toNat
def unpackBe32 (b : List UInt8) : Nat := unpackBe16 b * 65536 + unpackBe16 (b.drop 2)
def unpackBe64 (b : List UInt8) : Nat := unpackBe32 b * 4294967296 + unpackBe32 (b.drop 4)

/-- The conversion of a number to `int`, as gcc does it. -/
def toInt (n : Nat) : Int :=
  if n % 4294967296 < 2147483648 then (n % 4294967296 : Nat)
  else (n % 4294967296 : Nat) - 4294967296

/-- The receive side of `web_socket_t`, /repo/src/server.c:79-92.  `data` is the
    first `rx_wptr` bytes of `rx_buf`, which has room for `size` bytes. -/
structure Rx where
  size : Nat
  data : List UInt8
  rptr : Nat
deriving DecidableEq, Repr

/-- What the handlers are called with, /repo/src/server.c:322-356.  A text is
    passed as a pointer, so the handler sees it up to the first zero byte.  A
    ping is answered by `ws_send`. -/
inductive Event
  | text (s : List UInt8)
  | binary (d : List UInt8)
  | close
  | ping (d : List UInt8)
  | pong (d : List UInt8)
deriving DecidableEq, Repr

/-- What can go wrong: the assertion that the frame is not a fragment
    (/repo/src/server.c:310), the fatal error for an unknown opcode (354; both
    only in a debug build), an access outside the buffer, and a negative length
    given to a handler or to `ws_send`. -/
inductive Fault
  | fin
  | opcode
  | bounds
  | negative
deriving DecidableEq, Repr

/-- `mask`, `size0` and `headersz` of a frame, /repo/src/server.c:287-294. -/
def maskBit (frame : List UInt8) : Bool := frame.getD 1 0 &&& 0x80 != 0
def size0 (frame : List UInt8) : Nat := (frame.getD 1 0 &&& 0x7f).toNat
def headerSize (frame : List UInt8) : Nat :=
  2 + (if maskBit frame then 4 else 0)
    + (if size0 frame = 126 then 2 else if size0 frame = 127 then 8 else 0)

/-- `flength`, /repo/src/server.c:299-303. -/
def frameLength (frame : List UInt8) : Int :=
  if size0 frame = 127 then toInt (unpackBe64 (frame.drop 2))
  else if size0 frame = 126 then toInt (unpackBe16 (frame.drop 2))
  else size0 frame

/-- `flength + headersz` as a `size_t`, /repo/src/server.c:305 and 358. -/
def needed (frame : List UInt8) : Nat :=
  ((frameLength frame + headerSize frame) % 18446744073709551616).toNat

/-- The unmasking in place, /repo/src/server.c:313-316, of the frame at
    `rptr`. -/
def unmask (rptr headersz len : Nat) (data : List UInt8) : List UInt8 :=
  data.mapIdx fun k b =>
    if rptr + headersz ≤ k ∧ k < rptr + headersz + len
    then b ^^^ data.getD (rptr + headersz - 4 + (k - (rptr + headersz)) % 4) 0
    else b

/-- A store of one byte in a buffer of `size` bytes of which only the first
    ones are in `data`. -/
def store (size : Nat) (data : List UInt8) (i : Nat) (b : UInt8) : Option (List UInt8) :=
  if i < size then some (data.set i b) else none

inductive Step
  | more
  | fault (f : Fault)
  | next (rx : Rx) (ev : List Event)
deriving DecidableEq, Repr

/-- What the handler of a text gets to see. -/
def cstring (s : List UInt8) : List UInt8 := s.takeWhile (· != 0)

/-- The `switch` of `ws_poll`, /repo/src/server.c:320-356, for the frame at
    `rptr` of `data`, which is unmasked. -/
def dispatch (debug : Bool) (rx : Rx) (opcode : UInt8) (headersz : Nat) (flength : Int) : Step :=
  let payload := (rx.data.drop (rx.rptr + headersz)).take flength.toNat
  if opcode = 1 then
    match store rx.size rx.data (rx.rptr + headersz + flength).toNat 0 with
    | none => .fault .bounds
    | some data =>
      if flength < 0 then .fault .negative
      else .next { rx with data := data } [.text (cstring payload)]
  else if opcode = 2 then
    if flength < 0 then .fault .negative else .next rx [.binary payload]
  else if opcode = 8 then .next rx [.close]
  else if opcode = 9 then
    if flength < 0 then .fault .negative else .next rx [.ping payload]
  else if opcode = 10 then
    if flength < 0 then .fault .negative else .next rx [.pong payload]
  else if debug then .fault .opcode
  else .next rx []

/-- One round of the `do` loop of `ws_poll`, /repo/src/server.c:269-358.
    `debug` says whether assertions are compiled in. -/
def stepFrame (debug : Bool) (rx : Rx) : Step :=
  let frame := rx.data.drop rx.rptr
  let rbytes := rx.data.length - rx.rptr
  if rbytes < 2 then .more
  else if rbytes < headerSize frame then .more
  else if rbytes < needed frame then .more
  else if debug && frame.getD 0 0 &&& 0x80 == 0 then .fault .fin
  else
    let data := if maskBit frame
      then unmask rx.rptr (headerSize frame) (frameLength frame).toNat rx.data else rx.data
    match dispatch debug { rx with data := data } (frame.getD 0 0 &&& 0xf)
      (headerSize frame) (frameLength frame) with
    | .next rx' ev => .next { rx' with rptr := rx.rptr + needed frame } ev
    | s => s

inductive Res
  | ok (rx : Rx) (evs : List Event)
  | fault (f : Fault)
  | hang
  | impossible
deriving DecidableEq, Repr

/-- The `do` loop of `ws_poll`, /repo/src/server.c:269-361, for at most so many
    rounds; `hang` when they are not enough. -/
def frames (debug : Bool) : Nat → Rx → List Event → Res
  | 0, _, _ => .hang
  | n + 1, rx, evs =>
    match stepFrame debug rx with
    | .more => .ok rx evs
    | .fault f => .fault f
    | .next rx' ev =>
      if rx'.rptr < rx'.data.length then frames debug n rx' (evs ++ ev)
      else .ok { rx' with rptr := 0, data := [] } (evs ++ ev)

/-- The size of the buffer before `recv`, /repo/src/server.c:256-257. -/
def grown (rx : Rx) : Nat :=
  if rx.size - rx.data.length < 1024 then rx.size + 1024 else rx.size

/-- `ws_poll` from one `recv` to the next, /repo/src/server.c:253-362, when
    `recv` returns `chunk`.  Whether the function jumps back to `read_more`, or
    returns because there are no bytes at the moment and is called again later,
    makes no difference to what is kept.  `impossible` when `recv` cannot
    return so many bytes or none (which closes the connection). -/
def feed (debug : Bool) (rx : Rx) (evs : List Event) (chunk : List UInt8) : Res :=
  if chunk = [] ∨ chunk.length > grown rx - rx.data.length - 1 then .impossible
  else
    let rx' := { rx with size := grown rx, data := rx.data ++ chunk }
    frames debug (rx'.data.length + 1) rx' evs

/-- `ws_poll` for one chunk after the other. -/
def feedAll (debug : Bool) : Rx → List Event → List (List UInt8) → Res
  | rx, evs, [] => .ok rx evs
  | rx, evs, c :: cs =>
    match feed debug rx evs c with
    | .ok rx' evs' => feedAll debug rx' evs' cs
    | r => r

/-- `ws_new`, /repo/src/server.c:142-150. -/
def Rx.init : Rx := { size := 0, data := [], rptr := 0 }
def Tx.init : Tx := { size := 0, data := [], rptr := 0 }

/-- What is done with the transmit buffer: a message is queued or the buffer is
    flushed. -/
inductive TxOp
  | send (key : Option Nat) (opcode : UInt8) (data : List UInt8)
  | flush (rs : List Sent)
deriving DecidableEq, Repr

/-- Several of them one after the other: the buffer and the bytes given to the
    socket.  What `closing` does is left to the caller. -/
def runTx : List TxOp → Tx → List UInt8 → Option (Tx × List UInt8)
  | [], tx, out => some (tx, out)
  | .send key op data :: ops, tx, out =>
    match wsSend key op data tx with
    | none => none
    | some tx => runTx ops tx out
  | .flush rs :: ops, tx, out => runTx ops (flush rs tx).1 (out ++ (flush rs tx).2.1)

/-- The answers that `ws_poll` queues, /repo/src/server.c:344-346. -/
def answer : Event → Option (UInt8 × List UInt8)
  | .ping d => some (10, d)
  | _ => none

end Verif.Net
