import Verif.Model.DownloadLoop
import Verif.Model.SenderMany
/-!
# One daemon, with everything that runs in it

The parts of the model together: the catalogue and the disk, the goroutines of downloads and commands (`Model/DownloadLoop.lean`), one goroutine per datagram that arrives
(main.go:90-100, server.go:131-155), the uploads with their goroutines (`Model/SenderMany.lean`), and the table of pending requests (`Model/Requests.lean`).  A run is one life of
the daemon, from the end of its start until it dies or is killed.  All goroutines are interleaved; a call of the catalogue is one step (C110), with arbitrary disk faults.

An upload reads from the file that `GetChunkReader` opened (indexRecord.go:76).  If that file is replaced at its path the upload goes on with the old file; if it is changed in place
the upload sees the change.  The model allows both: at any moment the upload may see what is at the path then (`sees`), or go on with what it saw before.

Simplifications: a search for hosts by a download gets any responses (the link to the table of pending requests is made in `Model/Linked.lean`); the requests and acknowledgements that a download sends are
not shown (they hold a hash and numbers only); races on the maps without a lock are in `Model/Locks.lean` and `Model/Unlocked.lean`.
-/
namespace Flu

/-- An entry of `uploads`: the path of the file its reader was opened on, and the connection with its goroutines. -/
structure UpConn where
  path : Path
  mu : MuState

/-- Where the goroutine of a datagram is. -/
inductive HPos where
  | asked (m : Msg)                                                                 -- parsed (server.go:132-137)
  | known (hash : Sha1Hash) (chunk cap : UInt16)                                    -- in `StartUpload`, after `Contains` (serverStartUpload.go:17-20)
  | opened (key : UpKey) (path : Path) (content : Bytes) (reader : ChunkReader) (cap : UInt16)   -- after `GetChunkReader`, before it looks in `uploads` (:22-40)
  | reading                                                                         -- in `NewChunkReader` for ever (C24)
  | done                                                                            -- returned

/-- The goroutine of a datagram: where the datagram came from, and where the goroutine is. -/
structure Handler where
  ret : Addr
  pos : HPos

/-- The daemon. -/
structure Daemon where
  loop : DLState
  uploads : UpKey → Option UpConn
  table : Table
  handlers : Nat → Option Handler

/-- Alive or dead. -/
inductive DmSys where
  | alive (s : Daemon)
  | dead

/-- What leaves the daemon in answer to others: a packet of an upload, or the answer to a request. -/
inductive Out where
  | packet (key : UpKey) (p : Packet)
  | answer (ip : Bytes) (port : Nat) (bytes : Bytes)

/-- Who takes a step. -/
inductive DmEv where
  | loop (a : Actor)        -- a download, a command, or another program
  | datagram (data : Bytes) (ret : Addr)   -- a datagram arrives from an address
  | handler (t : Nat)
  | upload (key : UpKey)
  | discovery (t : Nat)

/-- A handler goes on, after a call of the catalogue. -/
def Daemon.after (s : Daemon) (st : St) (t : Nat) (h : Handler) (pos : HPos) : Daemon :=
  { s with loop := { s.loop with cat := st.cat, fs := st.fs }, handlers := upd s.handlers t (some { h with pos := pos }) }

/-- A handler goes on. -/
def Daemon.goes (s : Daemon) (t : Nat) (h : Handler) (pos : HPos) : Daemon := { s with handlers := upd s.handlers t (some { h with pos := pos }) }

/-- The state that a call of the catalogue finds, with the faults that it will meet. -/
def Daemon.st (s : Daemon) (fl : List Fault) : St := ⟨s.loop.cat, s.loop.fs, fl⟩

/-- The handlers of the two requests that are answered at once (server.go:138-141); they call the catalogue once. -/
def replyTo (port : Nat) (w : Wire) (ret : Addr) : Msg → Option (SM Done)
  | .discoverReq reqID hash chunks => some (respondToDiscoverHosts port w reqID hash chunks ret)
  | .listReq reqID hash => some (respondToListFiles w reqID hash ret)
  | _ => none

/-- One step. -/
inductive DmStep (env : Env) (d : Path) (port : Nat) : Daemon → DmEv → Option Out → DmSys → Prop
  | loop (s : Daemon) (a : Actor) (l : DLState) (h : DLStep env d a s.loop (.alive l)) : DmStep env d port s (.loop a) none (.alive { s with loop := l })
  | loopDies (s : Daemon) (a : Actor) (why : Death) (h : DLStep env d a s.loop (.dead why)) : DmStep env d port s (.loop a) none .dead
  /-- A datagram arrives, and a goroutine is started for it (main.go:90-100). -/
  | arrives (s : Daemon) (t : Nat) (dg : Bytes) (ret : Addr) (m : Msg) (ht : s.handlers t = none) (hp : parse (udpBuffer dg) = .ok m) :
      DmStep env d port s (.datagram dg ret) none (.alive { s with handlers := upd s.handlers t (some ⟨ret, .asked m⟩) })
  /-- `Parse` fails, and the goroutine ends. -/
  | garbage (s : Daemon) (dg : Bytes) (ret : Addr) (e : Err) (hp : parse (udpBuffer dg) = .err e) : DmStep env d port s (.datagram dg ret) none (.alive s)
  | garbageDies (s : Daemon) (dg : Bytes) (ret : Addr) (hp : (parse (udpBuffer dg)).returns = false) : DmStep env d port s (.datagram dg ret) none .dead
  | replies (s : Daemon) (t : Nat) (h : Handler) (m : Msg) (w : Wire) (fl : List Fault) (f : SM Done) (ip : Bytes) (to : Nat) (bytes : Bytes) (s' : Srv) (ht : s.handlers t = some h)
      (hp : h.pos = .asked m) (hm : replyTo port w h.ret m = some f) (hrun : f ⟨s.st fl, fun _ => none⟩ = (.ok (.sent ip to bytes), s')) :
      DmStep env d port s (.handler t) (some (.answer ip to bytes)) (.alive (s.after s'.st t h .done))
  | replyFails (s : Daemon) (t : Nat) (h : Handler) (m : Msg) (w : Wire) (fl : List Fault) (f : SM Done) (e : Err) (s' : Srv) (ht : s.handlers t = some h) (hp : h.pos = .asked m)
      (hm : replyTo port w h.ret m = some f) (hrun : f ⟨s.st fl, fun _ => none⟩ = (.err e, s')) : DmStep env d port s (.handler t) none (.alive (s.after s'.st t h .done))
  | replyDies (s : Daemon) (t : Nat) (h : Handler) (m : Msg) (w : Wire) (fl : List Fault) (f : SM Done) (ht : s.handlers t = some h) (hp : h.pos = .asked m)
      (hm : replyTo port w h.ret m = some f) (hrun : (f ⟨s.st fl, fun _ => none⟩).1.returns = false) : DmStep env d port s (.handler t) none .dead
  /-- `StartUpload`: `Contains` (serverStartUpload.go:17). -/
  | looks (s : Daemon) (t : Nat) (h : Handler) (hash : Sha1Hash) (chunk cap : UInt16) (fl : List Fault) (e : Export) (s' : St) (ht : s.handlers t = some h)
      (hp : h.pos = .asked (.openReq hash chunk cap)) (hrun : contains hash (s.st fl) = (.ok e, s')) :
      DmStep env d port s (.handler t) none (.alive (s.after s' t h (.known e.sha1Hash chunk cap)))
  | looksFails (s : Daemon) (t : Nat) (h : Handler) (hash : Sha1Hash) (chunk cap : UInt16) (fl : List Fault) (e : Err) (s' : St) (ht : s.handlers t = some h)
      (hp : h.pos = .asked (.openReq hash chunk cap)) (hrun : contains hash (s.st fl) = (.err e, s')) : DmStep env d port s (.handler t) none (.alive (s.after s' t h .done))
  | looksDies (s : Daemon) (t : Nat) (h : Handler) (hash : Sha1Hash) (chunk cap : UInt16) (fl : List Fault) (ht : s.handlers t = some h)
      (hp : h.pos = .asked (.openReq hash chunk cap)) (hrun : (contains hash (s.st fl)).1.returns = false) : DmStep env d port s (.handler t) none .dead
  /-- `GetChunkReader` (serverStartUpload.go:22), the test of the size (:27-30), and the key of the upload (:32-40). -/
  | opens (s : Daemon) (t : Nat) (h : Handler) (hash : Sha1Hash) (chunk cap : UInt16) (choices : List AtChoice) (fl : List Fault) (reader : ChunkReader) (s' : St) (path : Path) (content : Bytes)
      (host : ByteArr 4) (ht : s.handlers t = some h) (hp : h.pos = .known hash chunk cap) (hrun : getChunkReader env hash chunk.toNat choices (s.st fl) = (.ok (some reader), s'))
      (hsize : reader.size ≤ 4294967295) (hip : newIpv4 h.ret.ip = .ok host) (hpath : s'.cat.pathOf hash = some path) (hfile : s'.fs path = some content) :
      DmStep env d port s (.handler t) none (.alive (s.after s' t h (.opened ⟨host, UInt16.ofNat h.ret.port⟩ path content reader cap)))
  | opensNever (s : Daemon) (t : Nat) (h : Handler) (hash : Sha1Hash) (chunk cap : UInt16) (choices : List AtChoice) (fl : List Fault) (s' : St) (ht : s.handlers t = some h)
      (hp : h.pos = .known hash chunk cap) (hrun : getChunkReader env hash chunk.toNat choices (s.st fl) = (.ok none, s')) :
      DmStep env d port s (.handler t) none (.alive (s.after s' t h .reading))
  | opensNot (s : Daemon) (t : Nat) (h : Handler) (hash : Sha1Hash) (chunk cap : UInt16) (choices : List AtChoice) (fl : List Fault) (reader : ChunkReader) (s' : St) (ht : s.handlers t = some h)
      (hp : h.pos = .known hash chunk cap) (hrun : getChunkReader env hash chunk.toNat choices (s.st fl) = (.ok (some reader), s')) (hsize : ¬ reader.size ≤ 4294967295 ∨ ∃ e, newIpv4 h.ret.ip = .err e) :
      DmStep env d port s (.handler t) none (.alive (s.after s' t h .done))
  | opensFails (s : Daemon) (t : Nat) (h : Handler) (hash : Sha1Hash) (chunk cap : UInt16) (choices : List AtChoice) (fl : List Fault) (e : Err) (s' : St) (ht : s.handlers t = some h)
      (hp : h.pos = .known hash chunk cap) (hrun : getChunkReader env hash chunk.toNat choices (s.st fl) = (.err e, s')) : DmStep env d port s (.handler t) none (.alive (s.after s' t h .done))
  | opensDies (s : Daemon) (t : Nat) (h : Handler) (hash : Sha1Hash) (chunk cap : UInt16) (choices : List AtChoice) (fl : List Fault) (ht : s.handlers t = some h)
      (hp : h.pos = .known hash chunk cap)
      (hrun : (getChunkReader env hash chunk.toNat choices (s.st fl)).1.returns = false ∨ (newIpv4 h.ret.ip).returns = false) : DmStep env d port s (.handler t) none .dead
  /-- The upload for this address, which is made if there is none (serverStartUpload.go:42-44), and `kickstart` begins (:46, senderConnection.go:45). -/
  | kicks (s : Daemon) (t : Nat) (h : Handler) (key : UpKey) (path : Path) (content : Bytes) (reader : ChunkReader) (cap : UInt16) (i : Nat) (u : UpConn) (ht : s.handlers t = some h)
      (hp : h.pos = .opened key path content reader cap) (hu : u = (s.uploads key).getD ⟨path, .init reader.reader cap content⟩) (hi : u.mu.threads i = .none) :
      DmStep env d port s (.handler t) none (.alive { s.goes t h .done with
        uploads := upd s.uploads key (some { u with mu := (u.mu.set i (.reset reader.hash reader.size .none)).move u.mu.reader.base }) })
  /-- `ContinueUpload` (serverContinueUpload.go:10-32). -/
  | acks (s : Daemon) (t : Nat) (h : Handler) (off : UInt32) (host : ByteArr 4) (u : UpConn) (ht : s.handlers t = some h) (hp : h.pos = .asked (.ack off)) (hip : newIpv4 h.ret.ip = .ok host)
      (hu : s.uploads ⟨host, UInt16.ofNat h.ret.port⟩ = some u) :
      DmStep env d port s (.handler t) none (.alive { s.goes t h .done with
        uploads := upd s.uploads ⟨host, UInt16.ofNat h.ret.port⟩ (some { u with mu := { u.mu with pending := u.mu.pending + 1 } }) })
  | acksNone (s : Daemon) (t : Nat) (h : Handler) (off : UInt32) (host : ByteArr 4) (ht : s.handlers t = some h) (hp : h.pos = .asked (.ack off)) (hip : newIpv4 h.ret.ip = .ok host)
      (hu : s.uploads ⟨host, UInt16.ofNat h.ret.port⟩ = none) : DmStep env d port s (.handler t) none (.alive (s.goes t h .done))
  | acksFails (s : Daemon) (t : Nat) (h : Handler) (off : UInt32) (e : Err) (ht : s.handlers t = some h) (hp : h.pos = .asked (.ack off)) (hip : newIpv4 h.ret.ip = .err e) :
      DmStep env d port s (.handler t) none (.alive (s.goes t h .done))
  | acksDies (s : Daemon) (t : Nat) (h : Handler) (off : UInt32) (ht : s.handlers t = some h) (hp : h.pos = .asked (.ack off)) (hip : (newIpv4 h.ret.ip).returns = false) :
      DmStep env d port s (.handler t) none .dead
  /-- A response is handed to `deliverResponse` (server.go:146-149). -/
  | delivers (s : Daemon) (t t' : Nat) (h : Handler) (m : Msg) (i : UInt16) (table : Table) (ht : s.handlers t = some h) (hp : h.pos = .asked m) (hm : m.type = 1 ∨ m.type = 3)
      (hi : m.reqID? = some i) (hfree : s.table.threads t' = .idle) (htable : table = { s.table with threads := upd s.table.threads t' (.wantDeliver ⟨i, m.type⟩ m) }) :
      DmStep env d port s (.handler t) none (.alive { s.goes t h .done with table := table })
  /-- A goroutine of an upload goes on.  New goroutines and acknowledgements come from the handlers. -/
  | uploads (s : Daemon) (key : UpKey) (u : UpConn) (o : Option Packet) (mu : MuState) (hu : s.uploads key = some u) (hs : MuStep u.mu o mu) (hnew : ∀ i, u.mu.threads i = .none → mu.threads i = .none)
      (hack : mu.pending ≤ u.mu.pending) (hsee : mu.before = u.mu.before) (hlive : ∀ i, mu.threads i ≠ .dead) :
      DmStep env d port s (.upload key) (o.map (.packet key)) (.alive { s with uploads := upd s.uploads key (some { u with mu := mu }) })
  /-- A goroutine of an upload panics. -/
  | uploadDies (s : Daemon) (key : UpKey) (u : UpConn) (o : Option Packet) (mu : MuState) (i : Nat) (hu : s.uploads key = some u) (hs : MuStep u.mu o mu)
      (hnew : ∀ i, u.mu.threads i = .none → mu.threads i = .none) (hi : mu.threads i = .dead) : DmStep env d port s (.upload key) none .dead
  /-- From now on the upload sees what is at the path now. -/
  | sees (s : Daemon) (key : UpKey) (u : UpConn) (new : Bytes) (hu : s.uploads key = some u) (hnew : s.loop.fs u.path = some new) :
      DmStep env d port s (.upload key) none (.alive { s with uploads := upd s.uploads key (some { u with mu := { u.mu with now := new, before := u.mu.now :: u.mu.before } }) })
  /-- A search for hosts, or `deliverResponse`, goes on. -/
  | discovery (s : Daemon) (t : Nat) (table : Table) (h : TStep t s.table table) (hnew : ∀ key m, s.table.threads t = .idle → table.threads t ≠ .wantDeliver key m)
      (hlive : table.threads t ≠ .dead) : DmStep env d port s (.discovery t) none (.alive { s with table := table })
  | discoveryDies (s : Daemon) (t : Nat) (table : Table) (h : TStep t s.table table) (hdead : table.threads t = .dead) : DmStep env d port s (.discovery t) none .dead

/-- A run: what has happened, with the state after each step, oldest first. -/
inductive DmRun (env : Env) (d : Path) (port : Nat) (s0 : Daemon) : List (DmEv × Option Out × DmSys) → DmSys → Prop
  | refl : DmRun env d port s0 [] (.alive s0)
  | step {tr : List (DmEv × Option Out × DmSys)} {s : Daemon} {x : DmSys} {e : DmEv} {o : Option Out} (h : DmRun env d port s0 tr (.alive s)) (h' : DmStep env d port s e o x) :
      DmRun env d port s0 (tr ++ [(e, o, x)]) x

/-- The daemon when it has started (server.go:61-73, `NewServer`): no uploads, no requests, no downloads, no datagram yet. -/
def Daemon.fresh (c : Cat) (fs : FS) : Daemon := ⟨⟨c, fs, false, fun _ => false, fun _ => none⟩, fun _ => none, .fresh, fun _ => none⟩

end Flu
