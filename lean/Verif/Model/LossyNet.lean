import Verif.Model.Network
import Verif.Model.Unreliable
/-!
# Several hosts that run this program, on an unreliable network

As `Model/Network.lean`, but the packets and acknowledgements of a chunk transfer may get lost, be repeated and change their order (`Model/Unreliable.lean`).
-/
namespace Flu

/-- An unreliable link (see `LossyStep`), with the queue that the receiver's loop has taken from its socket so far. -/
inductive LossyTake (sha1 : Bytes → Sha1Hash) (content : Bytes) (l0 : Link) : List (Option Bytes) → Link → Prop
  | refl : LossyTake sha1 content l0 [] l0
  | sender {q : List (Option Bytes)} {l : Link} (h : LossyTake sha1 content l0 q l) (e : Ev) (s : Sender) (he : e ≠ .ack) (hs : SStep content true l.sender e s) :
      LossyTake sha1 content l0 q { l with sender := s, net := l.net ++ e.wire }
  | ack {q : List (Option Bytes)} {l : Link} (h : LossyTake sha1 content l0 q l) (s : Sender) (hs : SStep content true l.sender .ack s) (ha : 0 < l.acks) :
      LossyTake sha1 content l0 q { l with sender := s, acks := l.acks - 1 }
  | receive {q : List (Option Bytes)} {l : Link} (h : LossyTake sha1 content l0 q l) (c : RConn) (d : Bytes) (rest : List Bytes) (hr : l.recv = .waiting c) (hn : l.net = d :: rest) :
      LossyTake sha1 content l0 (q ++ [some d]) { l with net := rest, acks := l.acks + (recvDatagram sha1 c d).2, recv := (recvDatagram sha1 c d).1 }
  | timeout {q : List (Option Bytes)} {l : Link} (h : LossyTake sha1 content l0 q l) (c : RConn) (hr : l.recv = .waiting c) :
      LossyTake sha1 content l0 (q ++ [none]) { l with recv := .gaveUp }
  | network {q : List (Option Bytes)} {l : Link} (h : LossyTake sha1 content l0 q l) (net : List Bytes) (acks : Nat) (hn : ∀ d ∈ net, d ∈ l.net) (ha : 0 < acks → 0 < l.acks) :
      LossyTake sha1 content l0 q { l with net := net, acks := acks }

/-- One step: as on a reliable network, or the end of a transfer over an unreliable link (serverStartDownload.go:97-145). -/
inductive LossyNStep (place : Nat → Place) : NEv → Net → Net → Prop
  | plain {a : NEv} {s s' : Net} (h : NStep place a s s') : LossyNStep place a s s'
  | fetch (i : Nat) (s : Net) (line : Line) (q : List (Option Bytes)) (l : Link) (out : DLOut) (s' : St) (hline : line ∈ s.lines)
      (htake : LossyTake (place i).env.sha1 line.content line.start q l) (hsafe : ∀ data, (Op.save line.hash line.chunk data).Safe (place i).d (s.cat i))
      (hrun : downloadChunk (place i).env line.hash line.chunk q (s.st i) = (.ok out, s')) : LossyNStep place (.fetch i line.hash line.chunk) s (s.put i s')

/-- Any number of steps, each of which satisfies `ok`. -/
inductive LossyNRun (place : Nat → Place) (ok : NEv → Net → Net → Prop) (s0 : Net) : Net → Prop
  | refl : LossyNRun place ok s0 s0
  | step {s s' : Net} (a : NEv) (h : LossyNRun place ok s0 s) (h' : LossyNStep place a s s') (hok : ok a s s') : LossyNRun place ok s0 s'

end Flu
