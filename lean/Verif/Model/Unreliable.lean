import Verif.Model.Transfer
/-!
# A chunk transfer over an unreliable network

As `Model/Transfer.lean`, but what is under way between the two hosts may get lost, be repeated and change its order, the packets as well as the acknowledgements.  The
request that opens the upload arrives once (several are in `Model/SenderMany.lean`), and datagrams are not altered (UDP's checksum).
-/
namespace Flu

/-- One step: of the sender or the receiver, or of the network. -/
inductive LossyStep (sha1 : Bytes → Sha1Hash) (content : Bytes) (faults : Bool) : Link → Link → Prop
  | host {l l' : Link} (h : LStep sha1 content faults l l') : LossyStep sha1 content faults l l'
  /-- What is under way becomes any sequence of datagrams that are under way; an acknowledgement can be repeated as long as one is under way. -/
  | network (l : Link) (net : List Bytes) (acks : Nat) (hn : ∀ d ∈ net, d ∈ l.net) (ha : 0 < acks → 0 < l.acks) :
      LossyStep sha1 content faults l { l with net := net, acks := acks }

/-- Executions. -/
inductive LossyRun (sha1 : Bytes → Sha1Hash) (content : Bytes) (faults : Bool) (l0 : Link) : Link → Prop
  | refl : LossyRun sha1 content faults l0 l0
  | step {l l' : Link} (h : LossyRun sha1 content faults l0 l) (h' : LossyStep sha1 content faults l l') : LossyRun sha1 content faults l0 l'

/-- A transfer: the sender has just sent the first packet, the receiver waits for it (`kickstart`, senderConnection.go:41-88). -/
def LossyTransfer (sha1 : Bytes → Sha1Hash) (content : Bytes) (faults : Bool) (cr : ChunkReader) (cap : UInt16) (l : Link) : Prop :=
  ∃ rd p s0, (faults = false → rd = .good) ∧ kickstart content (newSender cr cap) cr.hash cr.size rd true = (.ok p, s0) ∧
    LossyRun sha1 content faults ⟨s0, [p.bytes], 0, .waiting .fresh⟩ l

end Flu
