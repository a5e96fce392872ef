/-
The CXXRTL debug protocol over TCP, /repo/src/server.c:1068-1350: messages in
JSON, each followed by a zero byte.

What is in the JSON is left to a parameter; what matters here is where messages
start and end, in which order they are answered, and what happens when the
connection changes.  The transmit buffer is the same as that of the WebSocket
wrapper: `cxxrtl_send` (/repo/src/server.c:1081-1097) puts bytes into it as
`ws_queue_buf` does, and `cxxrtl_flush` (1263-1283) is `ws_flush` but for what
it does when `send` fails.
-/
import Verif.Net.WsModel

namespace Verif.Net

/-- What `json_loads` makes of a message and what the handlers answer,
    /repo/src/server.c:1235-1258: not JSON (or JSON that is neither an array nor
    an object, which Jansson refuses without a flag); an array, with its text;
    an object, with the text of the answer if there is one. -/
inductive Doc
  | invalid
  | array (dump : List UInt8)
  | object (answer : Option (List UInt8))
deriving DecidableEq, Repr

/-- `cxxrtl_server_t`, /repo/src/server.c:127-138.  `data` is the first
    `rx_wptr` bytes of `rx_buf`. -/
structure Cx where
  sock : Option Nat
  size : Nat
  data : List UInt8
  rptr : Nat
  tx : Tx
deriving DecidableEq, Repr

/-- `memchr(…, '\0', …)`. -/
def findZero : List UInt8 → Option Nat
  | [] => none
  | b :: bs => if b = 0 then some 0 else (findZero bs).map (· + 1)

/-- What is done with a document, /repo/src/server.c:1235-1258.  When it is not
    an object, `cxxrtl_error` sets members of it, which does nothing, and sends
    it (1099-1107): an array is sent back as it is; without a document
    `json_dumps` returns NULL, whose length `cxxrtl_send` takes (1084-1087).
    `none` is this crash, or a write outside the transmit buffer. -/
def respond (tx : Tx) : Doc → Option Tx
  | .invalid => none
  | .array dump => queueBuf tx (dump ++ [0])
  | .object none => some tx
  | .object (some a) => queueBuf tx (a ++ [0])

inductive CxRes
  | ok (cx : Cx) (log : List (List UInt8))
  | crash
  | hang
  | impossible
deriving DecidableEq, Repr

/-- The `do` loop of `cxxrtl_read_message`, /repo/src/server.c:1222-1259, for at
    most so many rounds.  `log` has the messages so far. -/
def cxLoop (parse : List UInt8 → Doc) : Nat → Cx → List (List UInt8) → CxRes
  | 0, _, _ => .hang
  | n + 1, cx, log =>
    match findZero (cx.data.drop cx.rptr) with
    | none => .ok cx log
    | some k =>
      let msg := (cx.data.drop cx.rptr).take k
      let cx1 := if cx.rptr + k = cx.data.length - 1
        then { cx with data := [], rptr := 0 } else { cx with rptr := cx.rptr + k + 1 }
      match respond cx1.tx (parse msg) with
      | none => .crash
      | some tx =>
        if cx1.rptr ≠ cx1.data.length
          then cxLoop parse n { cx1 with tx := tx } (log ++ [msg])
          else .ok { cx1 with tx := tx } (log ++ [msg])

/-- The size of the buffer before `recv`, /repo/src/server.c:1200-1201. -/
def Cx.grown (cx : Cx) : Nat :=
  if cx.size - cx.data.length < 1024 then cx.size + 1024 else cx.size

/-- `cxxrtl_read_message`, /repo/src/server.c:1198-1261, when `recv` returns
    `chunk`. -/
def cxRead (parse : List UInt8 → Doc) (cx : Cx) (log : List (List UInt8)) (chunk : List UInt8) : CxRes :=
  if chunk = [] ∨ chunk.length > cx.grown - cx.data.length then .impossible
  else cxLoop parse (cx.data.length + chunk.length + 1)
    { cx with size := cx.grown, data := cx.data ++ chunk } log

def cxReadAll (parse : List UInt8 → Doc) : Cx → List (List UInt8) → List (List UInt8) → CxRes
  | cx, log, [] => .ok cx log
  | cx, log, c :: cs =>
    match cxRead parse cx log c with
    | .ok cx' log' => cxReadAll parse cx' log' cs
    | r => r

/-- `kill_cxxrtl_connection`, /repo/src/server.c:1071-1079, called when the
    other side has closed the connection (1207-1210). -/
def kill (cx : Cx) : Cx := { cx with sock := none, data := [], rptr := 0 }

/-- `cxxrtl_new_connection`, /repo/src/server.c:1174-1184. -/
def newConnection (cx : Cx) (fd : Nat) : Cx := { cx with sock := some fd }

/-- `cxxrtl_fill_fd_set`, /repo/src/server.c:1186-1196: whether the socket is
    watched for reading and for writing.  `none` when FD_SET is used with the
    descriptor -1. -/
def fillFdSet (cx : Cx) : Option (Bool × Bool) :=
  match cx.sock with
  | some _ => some (true, cx.tx.data.length ≠ cx.tx.rptr)
  | none => if cx.tx.data.length ≠ cx.tx.rptr then none else some (false, false)

/-- `cxxrtl_server_new`, /repo/src/server.c:1309-1315. -/
def Cx.init : Cx := { sock := none, size := 0, data := [], rptr := 0, tx := Tx.init }

end Verif.Net
