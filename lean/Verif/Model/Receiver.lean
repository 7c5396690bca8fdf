import Verif.Model.Messages
import Verif.Model.Catalogue
/-!
# Model of the receiving side of a chunk transfer

`flu/recvConnection.go` and `downloadChunk` in `flu/serverStartDownload.go`.  The connection's socket, the reading goroutine and `outChan` together are a queue of
datagrams followed, possibly, by a read error (deadline of five seconds); `recvLoop` consumes such a queue.  Simplification: a datagram is parsed when it is
consumed, in the code it may be parsed earlier.  Allocation failure of `make([]byte, size)` is not modelled.
-/
namespace Flu

/-- A data packet: `messages.DataPacket`. -/
structure Packet where
  offset : UInt32
  data : Bytes
  deriving DecidableEq

/-- `Serialize`. -/
def Packet.bytes (p : Packet) : Bytes := (Msg.data p.offset p.data).serialize

/-- Reading a datagram into the 1029-byte buffer and `ParseAsDataPacket(buffer[:n])` (recvConnection.go:56-65); longer datagrams are cut off. -/
def readPacket (d : Bytes) : Res Packet := do
  let (o, x) ← parseAsDataPacket ⟨d.take 1029 ++ List.replicate (1029 - (d.take 1029).length) 0, (d.take 1029).length⟩
  return ⟨o, x⟩

/-- The fields of `RecvConnection` that matter (recvConnection.go:12-19); `hash = none` and an empty buffer stand for nil. -/
structure RConn where
  hash : Option Sha1Hash
  buffer : Bytes
  bytesReceived : Nat
  deriving DecidableEq

/-- As set up by `DialPeer` (recvConnection.go:42-49). -/
def RConn.fresh : RConn := ⟨none, [], 0⟩

/-- `copy(buf[off:], data)`: overwrites what fits; slicing beyond the length panics. -/
def copyAt (buf : Bytes) (off : Nat) (data : Bytes) : Res Bytes :=
  if off > buf.length then .panic
  else .ok (buf.take off ++ data.take (buf.length - off) ++ buf.drop (off + data.length))

/-- What a packet leads to: an acknowledgement, or the end with the buffer and whether its hash was the announced one. -/
inductive RAct where
  | ack (offset : UInt32)
  | finish (buffer : Bytes) (hashOk : Bool)
  deriving DecidableEq

/-- The body of the loop of `downloadChunk` for one packet (serverStartDownload.go:111-141).  (`Split` is applied to the data without its spare capacity; by
`C19_split_panics_iff` that makes no difference.) -/
def onPacket (sha1 : Bytes → Sha1Hash) (c : RConn) (p : Packet) : Res (RConn × RAct) :=
  if p.offset = 0 then do
    let (hash, size, data) ← splitFirst ⟨p.data, p.data.length⟩
    let buffer ← copyAt (List.replicate size.toNat 0) 0 data
    return (⟨some hash, buffer, c.bytesReceived + data.length⟩, .ack p.offset)
  else if p.data.length > 0 then do
    let buffer ← copyAt c.buffer p.offset.toNat p.data
    return ({ c with buffer := buffer, bytesReceived := c.bytesReceived + p.data.length }, .ack p.offset)
  else
    match c.hash with
    | none => .panic
    | some h => return (c, .finish c.buffer (decide (sha1 c.buffer = h)))

/-- How the loop of `downloadChunk` stands after a queue of datagrams. -/
inductive ROut where
  | waiting (c : RConn)                         -- waits for the next datagram
  | closed                                      -- the read failed or timed out: gave up
  | finished (buffer : Bytes) (hashOk : Bool)   -- end marker seen, the buffer goes to `SaveChunk`
  deriving DecidableEq

/-- The loop of `downloadChunk` (serverStartDownload.go:105-142): the acknowledgements sent and how it stands.  `none` is a failed read. -/
def recvLoop (sha1 : Bytes → Sha1Hash) : RConn → List (Option Bytes) → Res (List UInt32 × ROut)
  | c, [] => .ok ([], .waiting c)
  | _, none :: _ => .ok ([], .closed)
  | c, some d :: rest => do
    let p ← readPacket d
    let (c', act) ← onPacket sha1 c p
    match act with
    | .finish b ok => return ([], .finished b ok)
    | .ack o => do
      let (acks, out) ← recvLoop sha1 c' rest
      return (o :: acks, out)

/-- What `downloadChunk` comes to. -/
inductive DLOut where
  | waiting
  | gaveUp
  | saved (hashOk : Bool)
  deriving DecidableEq

/-- `downloadChunk` (serverStartDownload.go:97-145) on the datagrams the peer sends: an error of `SaveChunk` panics; a wrong hash is only printed. -/
def downloadChunk (env : Env) (h : Sha1Hash) (chunk : UInt16) (queue : List (Option Bytes)) : CM DLOut := do
  let (_, out) ← IOM.lift (recvLoop env.sha1 .fresh queue)
  match out with
  | .waiting _ => return .waiting
  | .closed => return .gaveUp
  | .finished buffer ok => do
    IOM.orPanic (saveChunk h chunk buffer)
    return .saved ok

end Flu
