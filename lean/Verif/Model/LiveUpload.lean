import Verif.Model.Sender
/-!
# Uploading a chunk of a file that another program is changing

`Model/Sender` keeps the bytes of the file fixed during an upload.  Here every look at the file — each `ReadAt` while the chunk is opened and hashed, the one of `kickstart`, and each one of
`kick` — finds its own content.  One worker, that is, one request from the address (several: `Model/SenderMany`).  Simplification: one `ReadAt` finds the bytes of one moment.
-/
namespace Flu

/-- The loop of `NewChunkReader` (chunkReader.go:61-80), with the content of the file at each read. -/
def openLiveLoop (sha1 : Bytes → Sha1Hash) : SectionReader → (size : Nat) → (acc : Bytes) → List (Bytes × AtChoice) → Option ChunkReader
  | _, _, _, [] => none
  | r, size, acc, (content, c) :: cs =>
    let (bytes, err, r') := r.read content 4096 c
    let size' := if bytes.length > 0 then size + bytes.length else size
    let acc' := if bytes.length > 0 then acc ++ bytes else acc
    if err = some .eof then
      some { reader := { r' with off := r'.base }, hash := Sha1Hash.zero.fromSlice (sha1 acc').1, size := size' }
    else openLiveLoop sha1 r' size' acc' cs

/-- `NewChunkReader(io.NewSectionReader(fd, start, n))` (chunkReader.go:55-89, indexRecord.go:82-88). -/
def openLive (sha1 : Bytes → Sha1Hash) (start n : Nat) (looks : List (Bytes × AtChoice)) : Option ChunkReader :=
  openLiveLoop sha1 (newSectionReader start n) 0 [] looks

/-- Any number of steps of a connection, with the content of the file at each of them and what was seen of them. -/
inductive LiveRun (faults : Bool) : Sender → List Bytes → List Ev → Sender → Prop
  | refl (s : Sender) : LiveRun faults s [] [] s
  | step {s t u : Sender} {vs : List Bytes} {tr : List Ev} {e : Ev} (v : Bytes) (h : LiveRun faults s vs tr t) (h' : SStep v faults t e u) :
      LiveRun faults s (vs ++ [v]) (tr ++ [e]) u

/-- `StartUpload` (serverStartUpload.go:15-48) and what follows: the chunk is opened, with the contents `looks`; `kickstart` on a new connection sends the first packet, with the content
`first`; then any steps, with the contents `vs`. -/
def LiveUpload (sha1 : Bytes → Sha1Hash) (start n : Nat) (faults : Bool) (cap : UInt16) (looks : List (Bytes × AtChoice)) (first : Bytes) (vs : List Bytes) (tr : List Ev)
    (s : Sender) : Prop :=
  ∃ cr rd p s0 tr', openLive sha1 start n looks = some cr ∧ (faults = false → rd = .good) ∧ kickstart first (newSender cr cap) cr.hash cr.size rd true = (.ok p, s0) ∧
    LiveRun faults s0 vs tr' s ∧ tr = .sent p :: tr'

end Flu
