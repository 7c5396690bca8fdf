import Verif.Model.Receiver
/-!
# Model of the sending side of a chunk transfer

`flu/senderConnection.go`: one `SenderConnection` with the worker goroutine started by `kickstart`.  The worker runs in small steps, so that acknowledgements may
arrive at any point.  The bytes of the file do not change during the upload.
-/
namespace Flu

/-- Where the worker goroutine is (senderConnection.go:73-85, 96-124). -/
inductive Worker where
  | select                                  -- at the `select` statement (line 75)
  | loop (ends : Nat)                       -- at the loop test of `kick` (line 102), with `ends` calls of `terminate` deferred
  | defers (left : Nat) (failed : Bool)     -- `kick` is returning (with an error if `failed`), `left` deferred calls still to run
  | exited                                  -- returned (line 82)
  | dead                                    -- panicked (line 79 or inside `Read`), which ends the daemon
  deriving DecidableEq

/-- `SenderConnection` (senderConnection.go:12-20).  `pending` counts the acknowledgements in `packetChan` together with the goroutines waiting to put one there
(their contents are never looked at); `cancel` says whether `cancelChan`, of capacity one, is full. -/
structure Sender where
  reader : ChunkReader
  windowSize : UInt16
  windowCap : UInt16
  pending : Nat
  cancel : Bool
  worker : Worker
  deriving DecidableEq

/-- `NewSenderConnection` (senderConnection.go:22-36); there is no worker yet. -/
def newSender (reader : ChunkReader) (windowCap : UInt16) : Sender := ⟨reader, 0, windowCap, 0, false, .exited⟩

/-- `kickstart` (senderConnection.go:41-88): the first packet, if it was sent, and the connection afterwards.  `rd` is what the operating system does on the read,
`sends` whether the write succeeds. -/
def kickstart (content : Bytes) (s : Sender) (hash : Sha1Hash) (size : Nat) (rd : AtChoice) (sends : Bool) : Res Packet × Sender :=
  let s := { s with reader := s.reader.reset }
  match s.reader.read content 1000 rd with
  | .ok (got, _, err, reader) =>
    let s := { s with reader := reader }
    if err = some .other then (.err .io, s)
    else if sends then
      (.ok ⟨0, hash.1 ++ put32 (UInt32.ofNat size) ++ got⟩, { s with windowSize := s.windowSize + 1, worker := .select })
    else (.err .io, s)
  | _ => (.panic, s)

/-- What can be seen of a step: an acknowledgement arriving, a packet leaving, or nothing. -/
inductive Ev where
  | ack
  | sent (p : Packet)
  | tau
  deriving DecidableEq

/-- One turn of the loop of `kick` (senderConnection.go:102-121). -/
def kickTurn (content : Bytes) (s : Sender) (ends : Nat) (rd : AtChoice) (sends : Bool) : Ev × Sender :=
  if s.windowSize < s.windowCap then
    match s.reader.read content 1024 rd with
    | .ok (got, offset, err, reader) =>
      let s := { s with reader := reader }
      if err = some .other then (.tau, { s with worker := .defers ends true })
      else
        let ends := if err = some .eof then ends + 1 else ends
        if sends then (.sent ⟨offset, got⟩, { s with windowSize := s.windowSize + 1, worker := .loop ends })
        else (.tau, { s with worker := .defers ends true })
    | _ => (.tau, { s with worker := .dead })
  else (.tau, { s with worker := .defers ends false })

/-- One step of the connection: an acknowledgement arrives (`ContinueUpload`, serverContinueUpload.go), the worker takes one or the cancellation at the `select`, or
it goes on in `kick`.  With `faults = false` reads and writes succeed. -/
inductive SStep (content : Bytes) (faults : Bool) : Sender → Ev → Sender → Prop
  | arrive (s : Sender) : SStep content faults s .ack { s with pending := s.pending + 1 }
  | take (s : Sender) (hw : s.worker = .select) (hp : 0 < s.pending) :
      SStep content faults s .tau { s with pending := s.pending - 1, windowSize := s.windowSize - 1, worker := .loop 0 }
  | cancel (s : Sender) (hw : s.worker = .select) (hc : s.cancel = true) :
      SStep content faults s .tau { s with cancel := false, worker := .exited }
  | turn (s : Sender) (ends : Nat) (rd : AtChoice) (sends : Bool) (hw : s.worker = .loop ends) (hf : faults = false → rd = .good ∧ sends = true) :
      SStep content faults s (kickTurn content s ends rd sends).1 (kickTurn content s ends rd sends).2
  | terminate (s : Sender) (left : Nat) (failed : Bool) (hw : s.worker = .defers (left + 1) failed) (hc : s.cancel = false) :
      SStep content faults s .tau { s with cancel := true, worker := .defers left failed }
  | ret (s : Sender) (failed : Bool) (hw : s.worker = .defers 0 failed) :
      SStep content faults s .tau { s with worker := if failed then .dead else .select }

/-- Any number of steps, with what was seen of them. -/
inductive SRun (content : Bytes) (faults : Bool) : Sender → List Ev → Sender → Prop
  | refl (s : Sender) : SRun content faults s [] s
  | step {s t u : Sender} {tr : List Ev} {e : Ev} (h : SRun content faults s tr t) (h' : SStep content faults t e u) : SRun content faults s (tr ++ [e]) u

/-- An upload so far: `kickstart` on a new connection sent the first packet, then any steps. -/
def Upload (content : Bytes) (faults : Bool) (cr : ChunkReader) (cap : UInt16) (tr : List Ev) (s : Sender) : Prop :=
  ∃ rd p s0 tr', (faults = false → rd = .good) ∧ kickstart content (newSender cr cap) cr.hash cr.size rd true = (.ok p, s0) ∧
    SRun content faults s0 tr' s ∧ tr = .sent p :: tr'

end Flu
