import Verif.Model.Transfer
import Verif.Model.DownloadLoop
/-!
# Several hosts that run this program

Any number of daemons, each with its own catalogue and file system; the answers to requests for a description; and the lines over which chunks travel.  A step is a call
of the catalogue on one host, the start of a download, the answer to a datagram, the end of a chunk transfer, a restart of a daemon, or a change of a file by another program.

Simplifications: disks work; a daemon is stopped only between two calls and started again; a chunk travels over a reliable link (`Model/Transfer.lean`), each over a socket whose
address no upload has been opened for before; an upload keeps reading the file as it was when the upload was opened (`Model/Server.lean`).  Which host asks which other
host for what, and when, is left open: any host may fetch any chunk that any host has opened an upload for, any number of times.
-/
namespace Flu

/-- A link (see `LStep`), with the queue that the receiver's loop has taken from its socket so far: datagrams, and `none` for the five seconds being over (recvConnection.go:52-70). -/
inductive LTake (sha1 : Bytes → Sha1Hash) (content : Bytes) (l0 : Link) : List (Option Bytes) → Link → Prop
  | refl : LTake sha1 content l0 [] l0
  | sender {q : List (Option Bytes)} {l : Link} (h : LTake sha1 content l0 q l) (e : Ev) (s : Sender) (he : e ≠ .ack) (hs : SStep content true l.sender e s) :
      LTake sha1 content l0 q { l with sender := s, net := l.net ++ e.wire }
  | ack {q : List (Option Bytes)} {l : Link} (h : LTake sha1 content l0 q l) (s : Sender) (hs : SStep content true l.sender .ack s) (ha : 0 < l.acks) :
      LTake sha1 content l0 q { l with sender := s, acks := l.acks - 1 }
  | receive {q : List (Option Bytes)} {l : Link} (h : LTake sha1 content l0 q l) (c : RConn) (d : Bytes) (rest : List Bytes) (hr : l.recv = .waiting c) (hn : l.net = d :: rest) :
      LTake sha1 content l0 (q ++ [some d]) { l with net := rest, acks := l.acks + (recvDatagram sha1 c d).2, recv := (recvDatagram sha1 c d).1 }
  | timeout {q : List (Option Bytes)} {l : Link} (h : LTake sha1 content l0 q l) (c : RConn) (hr : l.recv = .waiting c) :
      LTake sha1 content l0 (q ++ [none]) { l with recv := .gaveUp }

/-- What is fixed about a host: its machine, its data directory and its downloads directory. -/
structure Place where
  env : Env
  d : Path
  dl : Path

/-- An upload that a host has opened: what was asked for, the connection with the file it reads from, and the first packet, which is under way (serverStartUpload.go:11-47). -/
structure Line where
  hash : Sha1Hash
  chunk : UInt16
  content : Bytes
  conn : Sender
  first : Packet

/-- The link at the beginning. -/
def Line.start (l : Line) : Link := ⟨l.conn, [l.first.bytes], 0, .waiting .fresh⟩

/-- The hosts; the answers given so far to requests for the description of a file; the uploads opened so far. -/
structure Net where
  cat : Nat → Cat
  fs : Nat → FS
  told : List (Sha1Hash × Bytes)
  lines : List Line

/-- A host moves on. -/
def Net.put (s : Net) (i : Nat) (st : St) : Net := { s with cat := fun j => if j = i then st.cat else s.cat j, fs := fun j => if j = i then st.fs else s.fs j }

/-- The memory and disk of a host, with a disk that works. -/
def Net.st (s : Net) (i : Nat) : St := ⟨s.cat i, s.fs i, []⟩

/-- What happens. -/
inductive NEv where
  | call (i : Nat) (o : Op)             -- a call of the catalogue on host `i`
  | user (i : Nat) (p : Path)           -- another program on host `i` changes the file `p`
  | restart (i : Nat)
  | describe (i : Nat) (h : Sha1Hash)   -- host `i` describes the file `h`
  | upload (i : Nat) (h : Sha1Hash) (n : UInt16)   -- host `i` opens an upload of chunk `n` of `h`
  | start (i : Nat) (h : Sha1Hash)      -- `StartDownload` on host `i`
  | fetch (i : Nat) (h : Sha1Hash) (n : UInt16)    -- a transfer of chunk `n` of `h` to host `i` ends

/-- Calls that come from the command line or from the daemon itself; the other two are made by downloads. -/
def Op.plain : Op → Bool
  | .register .. => false
  | .save .. => false
  | _ => true

/-- One step. -/
inductive NStep (place : Nat → Place) : NEv → Net → Net → Prop
  | call (i : Nat) (o : Op) (s : Net) (r : Res Unit) (s' : St) (ho : o.plain = true) (hrun : o.run (place i).env (s.st i) = (r, s')) (hret : r.returns = true) :
      NStep place (.call i o) s (s.put i s')
  | user (i : Nat) (p : Path) (s : Net) (content : Option Bytes) (hp : ¬ CatFile (place i).d p) :
      NStep place (.user i p) s (s.put i ⟨s.cat i, (s.fs i).put p content, []⟩)
  /-- The daemon of host `i` is stopped and started again (main.go). -/
  | restart (i : Nat) (s : Net) (pid now : Int) (s' : St)
      (hrun : Cat.init { (place i).env with pid := pid, now := now } ⟨⟨(place i).d, (place i).dl, none⟩, s.fs i, []⟩ = (.ok (), s')) : NStep place (.restart i) s (s.put i s')
  /-- A request for the description of `h` arrives at host `i`, which answers (serverListFilesOnHost.go:67-107). -/
  | describe (i : Nat) (h : Sha1Hash) (s : Net) (port : Nat) (w : Wire) (id : UInt16) (pad : Bytes) (ret : Addr) (ups : UpKey → Option Up) (ip : Bytes) (to : Nat) (reply : Bytes) (s' : Srv)
      (hrun : serveDatagram (place i).env port w ((Msg.listReq id h).serialize ++ pad) ret ⟨s.st i, ups⟩ = (.ok (.sent ip to reply), s')) :
      NStep place (.describe i h) s { s.put i s'.st with told := (h, reply) :: s.told }
  /-- A request for chunk `n` of `h` arrives at host `i`, which opens an upload (serverStartUpload.go:11-47). -/
  | upload (i : Nat) (h : Sha1Hash) (n cap : UInt16) (s : Net) (port : Nat) (w : Wire) (pad : Bytes) (ret : Addr) (ups : UpKey → Option Up) (key : UpKey) (p : Packet) (up : Up) (s' : Srv)
      (hnew : ups key = none) (hrun : serveDatagram (place i).env port w ((Msg.openReq h n cap).serialize ++ pad) ret ⟨s.st i, ups⟩ = (.ok (.first key p), s'))
      (hup : s'.uploads key = some up) :
      NStep place (.upload i h n) s { s.put i s'.st with lines := ⟨h, n, up.content, up.conn, p⟩ :: s.lines }
  /-- `StartDownload` (serverStartDownload.go:15-47); the descriptions it obtains are answers of hosts. -/
  | start (i : Nat) (h : Sha1Hash) (s : Net) (w : DLWire) (r : Res (ByteArr 4)) (s' : St) (hw : ∀ peer raw, w.description peer = .datagram raw → (h, raw) ∈ s.told)
      (hrun : startDownload (place i).env w h (s.st i) = (r, s')) (hret : r.returns = true) : NStep place (.start i h) s (s.put i s')
  /-- `downloadChunk` on host `i` has come to an end, or still waits (serverStartDownload.go:97-145).  As in `Step`, the chunk is not aimed at one of the catalogue's own files. -/
  | fetch (i : Nat) (s : Net) (line : Line) (q : List (Option Bytes)) (l : Link) (out : DLOut) (s' : St) (hline : line ∈ s.lines)
      (htake : LTake (place i).env.sha1 line.content line.start q l) (hsafe : ∀ data, (Op.save line.hash line.chunk data).Safe (place i).d (s.cat i))
      (hrun : downloadChunk (place i).env line.hash line.chunk q (s.st i) = (.ok out, s')) : NStep place (.fetch i line.hash line.chunk) s (s.put i s')

/-- Any number of steps, each of which satisfies `ok` (what happens, and the states before and after). -/
inductive NRun (place : Nat → Place) (ok : NEv → Net → Net → Prop) (s0 : Net) : Net → Prop
  | refl : NRun place ok s0 s0
  | step {s s' : Net} (a : NEv) (h : NRun place ok s0 s) (h' : NStep place a s s') (hok : ok a s s') : NRun place ok s0 s'

end Flu
