import Verif.Model.Sender
/-!
# An upload with several goroutines, of a file that changes

Every `OpenConnectionRequest` from one address runs `kickstart` on the same `SenderConnection` (serverStartUpload.go:42-47) and starts one more worker on it
(senderConnection.go:73).  The goroutines share the reader and the window without a lock.  Here they are interleaved at every single access to the reader's position and to the
window (`x++` is a load and a store, and so is every `Seek`), at every use of the socket and of the channels; and the file may be changed by anybody at any moment.
Simplifications: memory is sequentially consistent, and the bytes of one `ReadAt` are those of one moment.
-/
namespace Flu

/-- Where a goroutine is in `ChunkReader.Read` (chunkReader.go:35-39): first in `Offset` (:18-33), that is in `(*io.SectionReader).Seek(0, io.SeekCurrent)`, which loads the
position and stores it again; then in `(*io.SectionReader).Read`, which loads the position four times and stores it once. -/
inductive RdPc where
  | seek                                                                            -- in `Seek`, before the load
  | seekStore (a : Nat)                                                             -- in `Seek`, `a` was loaded
  | test (o : UInt32)                                                               -- `Offset` has returned `o`; before `s.off >= s.limit`
  | clip (o : UInt32)                                                               -- before `s.limit - s.off`
  | fetch (o : UInt32) (want : Nat)                                                 -- before `ReadAt(p, s.off)`, `len(p) = want`
  | add (o : UInt32) (got : Bytes) (err : Option ReadErr)                           -- before the load of `s.off += n`
  | addStore (o : UInt32) (got : Bytes) (err : Option ReadErr) (a : Nat)            -- before its store, `a` was loaded
  | done (o : UInt32) (got : Bytes) (err : Option ReadErr)
  | panicked
  deriving DecidableEq

/-- The call has neither returned nor panicked. -/
def RdPc.busy : RdPc → Bool
  | .done _ _ _ | .panicked => false
  | _ => true

/-- One access to the position by `ChunkReader.Read(buffer)`, `len(buffer) = buflen` (chunkReader.go:18-39; `Seek` and `Read` of io.SectionReader): where the goroutine is then, and the
position then.  `Offset` panics if `Seek` fails or the position is over `MaxUint32`; slicing `p[0:max]` panics if `max` is negative. -/
def RdPc.next (r : SectionReader) (now : Bytes) (buflen : Nat) (rd : AtChoice) : RdPc → RdPc × Nat
  | .seek => (.seekStore r.off, r.off)
  | .seekStore a =>
    if a < r.base then (.panicked, r.off)
    else if 4294967295 < a - r.base then (.panicked, a)
    else (.test (UInt32.ofNat (a - r.base)), a)
  | .test o => (if r.limit ≤ r.off then .done o [] (some .eof) else .clip o, r.off)
  | .clip o => (if r.limit < r.off then .panicked else .fetch o (min buflen (r.limit - r.off)), r.off)
  | .fetch o want => (.add o (osReadAt now r.off want rd).1 (osReadAt now r.off want rd).2, r.off)
  | .add o got err => (.addStore o got err r.off, r.off)
  | .addStore o got err a => (.done o got err, a + got.length)
  | .done o got err => (.done o got err, r.off)
  | .panicked => (.panicked, r.off)

/-- Where a goroutine is. -/
inductive MuThread where
  | none                                                            -- not started
  | reset (hash : Sha1Hash) (size : Nat) (loaded : Option Nat)      -- in `Reset`, in `Offset` (chunkReader.go:48), before the load or the store
  | first (hash : Sha1Hash) (size : Nat) (pc : RdPc)                -- in `kickstart`, in `Read` (senderConnection.go:56)
  | announce (hash : Sha1Hash) (size : Nat) (got : Bytes)           -- before `WriteTo` (:66)
  | firstLoad                                                       -- before the load of `windowSize++` (:71)
  | firstStore (w : UInt16)                                         -- before its store, `w` was loaded
  | select                                                          -- the worker at `select` (:75)
  | takeLoad                                                        -- in `kick`, before the load of `windowSize--` (:97)
  | takeStore (w : UInt16)                                          -- before its store
  | loop (ends : Nat)                                               -- at the loop test of `kick` (:102)
  | reading (ends : Nat) (pc : RdPc)                                -- in `Read` (:104)
  | sending (ends : Nat) (offset : UInt32) (got : Bytes)            -- before `WriteTo` (:115)
  | sentLoad (ends : Nat)                                           -- before the load of `windowSize++` (:120)
  | sentStore (ends : Nat) (w : UInt16)                             -- before its store
  | defers (left : Nat) (failed : Bool)                             -- `kick` is returning or panicking
  | exited
  | dead                                                            -- panicked
  deriving DecidableEq

/-- The goroutine has not begun or has ended. -/
def MuThread.idle : MuThread → Bool
  | .none | .exited | .dead => true
  | _ => false

/-- One `SenderConnection`, its goroutines, and the file: `now` is what it contains, `before` what it contained at earlier times since the upload was opened. -/
structure MuState where
  reader : SectionReader
  windowSize : UInt16
  windowCap : UInt16
  pending : Nat
  cancel : Bool
  threads : Nat → MuThread
  now : Bytes
  before : List Bytes

/-- Thread `i` becomes `x`. -/
def MuState.set (s : MuState) (i : Nat) (x : MuThread) : MuState := { s with threads := fun j => if j = i then x else s.threads j }

/-- The position becomes `off`. -/
def MuState.move (s : MuState) (off : Nat) : MuState := { s with reader := { s.reader with off := off } }

/-- `NewSenderConnection` (senderConnection.go:22-36). -/
def MuState.init (r : SectionReader) (cap : UInt16) (file : Bytes) : MuState := ⟨r, 0, cap, 0, false, fun _ => .none, file, []⟩

/-- One step.  `sent` events are the packets that leave. -/
inductive MuStep : MuState → Option Packet → MuState → Prop where
  /-- Somebody writes to the file. -/
  | edit (s : MuState) (new : Bytes) : MuStep s .none { s with now := new, before := s.now :: s.before }
  /-- An `OpenConnectionRequest` arrives; hash and size are those of a reader that was made for it.  `Reset` begins with `Seek(0, 0)` (chunkReader.go:42). -/
  | kickstart (s : MuState) (i : Nat) (hash : Sha1Hash) (size : Nat) (h : s.threads i = .none) : MuStep s .none ((s.set i (.reset hash size .none)).move s.reader.base)
  | resetLoad (s : MuState) (i : Nat) (hash : Sha1Hash) (size : Nat) (h : s.threads i = .reset hash size .none) :
      MuStep s .none (s.set i (.reset hash size (some s.reader.off)))
  /-- `Offset` panics or returns; if the offset is not 0 then `Reset` returns an error, which `kickstart` ignores (senderConnection.go:45). -/
  | resetStore (s : MuState) (i : Nat) (hash : Sha1Hash) (size : Nat) (a : Nat) (h : s.threads i = .reset hash size (some a)) :
      MuStep s .none ((s.set i (if (RdPc.next s.reader s.now 0 .good (.seekStore a)).1 = .panicked then .dead else .first hash size .seek)).move
        (RdPc.next s.reader s.now 0 .good (.seekStore a)).2)
  /-- `Read` into a buffer of 1000 bytes (:56). -/
  | firstStep (s : MuState) (i : Nat) (hash : Sha1Hash) (size : Nat) (pc : RdPc) (rd : AtChoice) (h : s.threads i = .first hash size pc) (hp : pc.busy = true) :
      MuStep s .none ((s.set i (.first hash size (pc.next s.reader s.now 1000 rd).1)).move (pc.next s.reader s.now 1000 rd).2)
  | firstDone (s : MuState) (i : Nat) (hash : Sha1Hash) (size : Nat) (o : UInt32) (got : Bytes) (err : Option ReadErr) (h : s.threads i = .first hash size (.done o got err))
      (he : err ≠ some .other) : MuStep s .none (s.set i (.announce hash size got))
  | firstFails (s : MuState) (i : Nat) (hash : Sha1Hash) (size : Nat) (o : UInt32) (got : Bytes) (h : s.threads i = .first hash size (.done o got (some .other))) :
      MuStep s .none (s.set i .exited)
  | firstDies (s : MuState) (i : Nat) (hash : Sha1Hash) (size : Nat) (h : s.threads i = .first hash size .panicked) : MuStep s .none (s.set i .dead)
  | sendFirst (s : MuState) (i : Nat) (hash : Sha1Hash) (size : Nat) (got : Bytes) (h : s.threads i = .announce hash size got) :
      MuStep s (some ⟨0, hash.1 ++ put32 (UInt32.ofNat size) ++ got⟩) (s.set i .firstLoad)
  | sendFirstFails (s : MuState) (i : Nat) (hash : Sha1Hash) (size : Nat) (got : Bytes) (h : s.threads i = .announce hash size got) :
      MuStep s .none (s.set i .exited)
  | firstLoad (s : MuState) (i : Nat) (h : s.threads i = .firstLoad) : MuStep s .none (s.set i (.firstStore s.windowSize))
  /-- `windowSize++`, and the worker is started (:71-73). -/
  | firstStore (s : MuState) (i : Nat) (w : UInt16) (h : s.threads i = .firstStore w) : MuStep s .none { s.set i .select with windowSize := w + 1 }
  /-- An acknowledgement arrives. -/
  | arrive (s : MuState) : MuStep s .none { s with pending := s.pending + 1 }
  | take (s : MuState) (i : Nat) (h : s.threads i = .select) (hp : 0 < s.pending) : MuStep s .none { s.set i .takeLoad with pending := s.pending - 1 }
  | takeLoad (s : MuState) (i : Nat) (h : s.threads i = .takeLoad) : MuStep s .none (s.set i (.takeStore s.windowSize))
  | takeStore (s : MuState) (i : Nat) (w : UInt16) (h : s.threads i = .takeStore w) : MuStep s .none { s.set i (.loop 0) with windowSize := w - 1 }
  | cancel (s : MuState) (i : Nat) (h : s.threads i = .select) (hc : s.cancel = true) : MuStep s .none { s.set i .exited with cancel := false }
  | more (s : MuState) (i : Nat) (ends : Nat) (h : s.threads i = .loop ends) (hw : s.windowSize < s.windowCap) : MuStep s .none (s.set i (.reading ends .seek))
  | full (s : MuState) (i : Nat) (ends : Nat) (h : s.threads i = .loop ends) (hw : ¬ s.windowSize < s.windowCap) : MuStep s .none (s.set i (.defers ends false))
  /-- `Read` into a buffer of 1024 bytes (:104). -/
  | readStep (s : MuState) (i : Nat) (ends : Nat) (pc : RdPc) (rd : AtChoice) (h : s.threads i = .reading ends pc) (hp : pc.busy = true) :
      MuStep s .none ((s.set i (.reading ends (pc.next s.reader s.now 1024 rd).1)).move (pc.next s.reader s.now 1024 rd).2)
  | readDone (s : MuState) (i : Nat) (ends : Nat) (o : UInt32) (got : Bytes) (err : Option ReadErr) (h : s.threads i = .reading ends (.done o got err)) (he : err ≠ some .other) :
      MuStep s .none (s.set i (.sending (if err = some .eof then ends + 1 else ends) o got))
  | readFails (s : MuState) (i : Nat) (ends : Nat) (o : UInt32) (got : Bytes) (h : s.threads i = .reading ends (.done o got (some .other))) : MuStep s .none (s.set i (.defers ends true))
  | readDies (s : MuState) (i : Nat) (ends : Nat) (h : s.threads i = .reading ends .panicked) : MuStep s .none (s.set i (.defers ends true))
  | send (s : MuState) (i : Nat) (ends : Nat) (o : UInt32) (got : Bytes) (h : s.threads i = .sending ends o got) : MuStep s (some ⟨o, got⟩) (s.set i (.sentLoad ends))
  | sendFails (s : MuState) (i : Nat) (ends : Nat) (o : UInt32) (got : Bytes) (h : s.threads i = .sending ends o got) : MuStep s .none (s.set i (.defers ends true))
  | sentLoad (s : MuState) (i : Nat) (ends : Nat) (h : s.threads i = .sentLoad ends) : MuStep s .none (s.set i (.sentStore ends s.windowSize))
  | sentStore (s : MuState) (i : Nat) (ends : Nat) (w : UInt16) (h : s.threads i = .sentStore ends w) : MuStep s .none { s.set i (.loop ends) with windowSize := w + 1 }
  | terminate (s : MuState) (i : Nat) (left : Nat) (failed : Bool) (h : s.threads i = .defers (left + 1) failed) (hc : s.cancel = false) :
      MuStep s .none { s.set i (.defers left failed) with cancel := true }
  | ret (s : MuState) (i : Nat) (failed : Bool) (h : s.threads i = .defers 0 failed) : MuStep s .none (s.set i (if failed then .dead else .select))

/-- Any number of steps, with the packets sent so far. -/
inductive MuRun (s0 : MuState) : List Packet → MuState → Prop where
  | refl : MuRun s0 [] s0
  | quiet {s t : MuState} {ps : List Packet} (h : MuRun s0 ps s) (hs : MuStep s .none t) : MuRun s0 ps t
  | sent {s t : MuState} {ps : List Packet} {p : Packet} (h : MuRun s0 ps s) (hs : MuStep s (some p) t) : MuRun s0 (ps ++ [p]) t

end Flu
