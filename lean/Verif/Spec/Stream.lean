import Verif.Model.Receiver
/-!
# What the packets of an upload should be
-/
namespace Flu.Spec

/-- `d` is what one of the versions of the file has at `pos`. -/
def FromFile (versions : List Bytes) (pos : Nat) (d : Bytes) : Prop := ∃ v ∈ versions, d <+: v.drop pos

/-- Packets of an upload of the section of a file that begins at `base`: announcements with the first bytes of the section, each followed by pieces that begin where the one before
ended (at `pos`, in the end). -/
inductive Stream (versions : List Bytes) (base : Nat) : List Packet → Nat → Prop where
  | nil : Stream versions base [] 0
  | first {ps : List Packet} {pos : Nat} (h : Stream versions base ps pos) (hash : Sha1Hash) (size : UInt32) (d : Bytes) (hd : FromFile versions base d) :
      Stream versions base (ps ++ [⟨0, hash.1 ++ put32 size ++ d⟩]) d.length
  | next {ps : List Packet} {pos : Nat} (h : Stream versions base ps pos) (o : UInt32) (d : Bytes) (ho : o.toNat = pos) (hd : FromFile versions (base + pos) d) :
      Stream versions base (ps ++ [⟨o, d⟩]) (pos + d.length)

/-- A packet carries what it says: an announcement and the first bytes of the section, or bytes of the section at the offset it names. -/
def Honest (versions : List Bytes) (base : Nat) (p : Packet) : Prop :=
  (p.offset = 0 ∧ ∃ (hash : Sha1Hash) (size : UInt32) (d : Bytes), p.data = hash.1 ++ put32 size ++ d ∧ FromFile versions base d) ∨
  FromFile versions (base + p.offset.toNat) p.data

end Flu.Spec
