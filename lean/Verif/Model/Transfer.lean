import Verif.Model.Sender
/-!
# A chunk transfer over a reliable link

The sender's connection (`Model/Sender.lean`), the receiver's loop (`Model/Receiver.lean`) and between them a link that neither loses, duplicates nor reorders:
datagrams to the receiver are a queue, acknowledgements to the sender are counted (the sender never looks inside them; the daemon handles each in its own
goroutine, so their order is not fixed anyway).  The request that opens the connection has been answered by `kickstart`.
-/
namespace Flu

/-- The receiver's loop. -/
inductive RState where
  | waiting (c : RConn)
  | finished (buffer : Bytes) (hashOk : Bool)   -- the buffer goes to `SaveChunk`
  | gaveUp                                      -- the five seconds are over
  | dead                                        -- panicked
  deriving DecidableEq

/-- The whole system. -/
structure Link where
  sender : Sender
  net : List Bytes
  acks : Nat
  recv : RState

/-- One datagram at the receiver (serverStartDownload.go:105-142): the receiver afterwards and the number of acknowledgements sent. -/
def recvDatagram (sha1 : Bytes → Sha1Hash) (c : RConn) (d : Bytes) : RState × Nat :=
  match readPacket d >>= onPacket sha1 c with
  | .ok (c', .ack _) => (.waiting c', 1)
  | .ok (_, .finish b ok) => (.finished b ok, 0)
  | _ => (.dead, 0)

/-- What a step of the sender puts on the link. -/
def Ev.wire : Ev → List Bytes
  | .sent p => [p.bytes]
  | _ => []

/-- One step of the system.  With `faults = false` the sender's reads and writes succeed and the receiver does not give up. -/
inductive LStep (sha1 : Bytes → Sha1Hash) (content : Bytes) (faults : Bool) : Link → Link → Prop
  | sender (l : Link) (e : Ev) (s : Sender) (he : e ≠ .ack) (hs : SStep content faults l.sender e s) :
      LStep sha1 content faults l { l with sender := s, net := l.net ++ e.wire }
  | ack (l : Link) (s : Sender) (hs : SStep content faults l.sender .ack s) (ha : 0 < l.acks) :
      LStep sha1 content faults l { l with sender := s, acks := l.acks - 1 }
  | receive (l : Link) (c : RConn) (d : Bytes) (rest : List Bytes) (hr : l.recv = .waiting c) (hn : l.net = d :: rest) :
      LStep sha1 content faults l { l with net := rest, acks := l.acks + (recvDatagram sha1 c d).2, recv := (recvDatagram sha1 c d).1 }
  | timeout (l : Link) (c : RConn) (hr : l.recv = .waiting c) (hf : faults = true) :
      LStep sha1 content faults l { l with recv := .gaveUp }

/-- Executions of `k` steps. -/
inductive LRun (sha1 : Bytes → Sha1Hash) (content : Bytes) (faults : Bool) : Link → Nat → Link → Prop
  | refl (l : Link) : LRun sha1 content faults l 0 l
  | step {l m u : Link} {k : Nat} (h : LRun sha1 content faults l k m) (h' : LStep sha1 content faults m u) : LRun sha1 content faults l (k + 1) u

/-- A transfer after `k` steps: the sender has just sent the first packet, the receiver waits for it. -/
def Transfer (sha1 : Bytes → Sha1Hash) (content : Bytes) (faults : Bool) (cr : ChunkReader) (cap : UInt16) (k : Nat) (l : Link) : Prop :=
  ∃ rd p s0, (faults = false → rd = .good) ∧ kickstart content (newSender cr cap) cr.hash cr.size rd true = (.ok p, s0) ∧
    LRun sha1 content faults ⟨s0, [p.bytes], 0, .waiting .fresh⟩ k l

end Flu
