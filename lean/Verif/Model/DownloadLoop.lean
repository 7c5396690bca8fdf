import Verif.Model.Receiver
import Verif.Model.Server
import Verif.Model.Requests
import Verif.Model.CatSystem
/-!
# Downloads

`StartDownload` (serverStartDownload.go:15-78): the setup, and the goroutine that fetches chunks until the file is complete.

Any number of download goroutines run side by side, together with other calls of the catalogue (by the command line, by uploads, by `clean`) and with other programs that
change files.  A step is a call of the catalogue (which holds the catalogue's lock), a search for hosts, or taking or giving back the transfer lock.  `downloadChunk` calls
the catalogue once, at its end, and does nothing else that others could see, so its end is one step; while it runs the transfer lock is held.  Every step may meet
arbitrary disk faults.
-/
namespace Flu

/-- What `StartDownload` obtains from outside: the addresses of the interfaces (serverStartDownload.go:18), the responses to its search for the file (:25; none if the
broadcast socket cannot be opened, serverDiscoverHosts.go:34-35), and what comes of asking each host for the file's description (:33). -/
structure DLWire where
  addrs : Option (List Bytes)
  responses : Option (List HostResp)
  description : HostResp → Contact

/-- `ownIP := s.LocalIP(); newIpv4(ownIP)` (serverStartDownload.go:18-19): without an address the pointer is nil and `To4` panics (ipv4.go:11). -/
def ownAddress (addrs : Option (List Bytes)) : Res (ByteArr 4) := do
  match ← localIP addrs with
  | none => .panic
  | some ip => newIpv4 (.exact ip)

/-- `StartDownload` after `Contains` and up to the `go` statement (serverStartDownload.go:18-47); `known` tells whether `Contains` found the file.  The result is
this host's address. -/
def startSetup (env : Env) (w : DLWire) (hash : Sha1Hash) (known : Bool) : CM (ByteArr 4) := do
  let own ← IOM.lift (ownAddress w.addrs)
  match w.responses with
  | none => IOM.lift .exit
  | some rs =>
    match goodHosts own rs with
    | [] => IOM.lift (.err .noGoodHosts)
    | peer :: _ =>
      if known then return own
      else do
        let f ← IOM.lift (downloadMetaData hash (w.description peer))
        let _ ← registerDownload env f.sizeInBytes f.chunkSize f.hash f.fileName
        return own

/-- `s.cat.Contains(hash)` at the beginning of `StartDownload` (serverStartDownload.go:16), whose error is ignored. -/
def startCheck (hash : Sha1Hash) : CM Bool := do
  match ← IOM.attempt (contains hash) with
  | .ok _ => return true
  | .error _ => return false

/-- `StartDownload` when nothing else happens meanwhile. -/
def startDownload (env : Env) (w : DLWire) (hash : Sha1Hash) : CM (ByteArr 4) := do
  let known ← startCheck hash
  startSetup env w hash known

/-- Where a call of `StartDownload` or its goroutine stands. -/
inductive DLPos where
  | check                                                                     -- serverStartDownload.go:16
  | setup (known : Bool)                                                      -- :18-47
  | refused                                                                   -- returned an error
  | test (own : ByteArr 4)                                                    -- :50
  | want (own : ByteArr 4)                                                    -- :53-56
  | search (own : ByteArr 4) (c : UInt16)                                     -- :57
  | hosts (own : ByteArr 4) (c : UInt16) (todo : List HostResp)               -- :60, between two hosts
  | fetching (own : ByteArr 4) (c : UInt16) (r : HostResp) (todo : List HostResp)   -- in `downloadChunk`, :69, holding `transferLock`
  | finished                                                                  -- :74

/-- A call of `StartDownload`, with the history of the rounds of its loop, newest first: the chunk asked for, and whether some host delivered it. -/
structure DLThread where
  hash : Sha1Hash
  pos : DLPos
  rounds : List (UInt16 × Bool)

/-- `downloadKey` (server.go:50-53). -/
abbrev DLKey := Sha1Hash × ByteArr 4

/-- What the goroutines share. -/
structure DLState where
  cat : Cat
  fs : FS
  locked : Bool                       -- `transferLock`
  downloads : DLKey → Bool
  threads : Nat → Option DLThread

/-- Why the daemon died. -/
inductive Death where
  | noMissing (t : Nat)    -- index out of range at serverStartDownload.go:56
  | catalogue (t : Nat)    -- `FileComplete`, `MissingChunks` or `Contains` did not return
  | setup (t : Nat)
  | search (t : Nat)       -- `check(err)` in `DiscoverHosts`
  | dial (t : Nat)         -- panic at serverStartDownload.go:100
  | transfer (t : Nat)     -- a datagram of the peer, or `SaveChunk` failed
  | call                   -- another call

inductive DLSys where
  | alive (s : DLState)
  | dead (why : Death)

/-- Who takes a step. -/
inductive Actor where
  | thread (t : Nat)
  | call (o : Op)
  | user (p : Path)

/-- The thread moves on. -/
def DLState.move (s : DLState) (t : Nat) (th : DLThread) (pos : DLPos) : DLState := { s with threads := upd s.threads t (some { th with pos := pos }) }

/-- The chunk of the current round was delivered. -/
def delivered : List (UInt16 × Bool) → List (UInt16 × Bool)
  | [] => []
  | (c, _) :: rest => (c, true) :: rest

/-- One step. -/
inductive DLStep (env : Env) (d : Path) : Actor → DLState → DLSys → Prop
  /-- Somebody calls `StartDownload`. -/
  | start (t : Nat) (h : Sha1Hash) (s : DLState) (ht : s.threads t = none) :
      DLStep env d (.thread t) s (.alive { s with threads := upd s.threads t (some ⟨h, .check, []⟩) })
  | check (t : Nat) (s : DLState) (th : DLThread) (fl : List Fault) (b : Bool) (s' : St) (ht : s.threads t = some th) (hp : th.pos = .check)
      (hrun : startCheck th.hash ⟨s.cat, s.fs, fl⟩ = (.ok b, s')) :
      DLStep env d (.thread t) s (.alive ({ s with cat := s'.cat, fs := s'.fs }.move t th (.setup b)))
  | checkDies (t : Nat) (s : DLState) (th : DLThread) (fl : List Fault) (ht : s.threads t = some th) (hp : th.pos = .check)
      (hrun : ∀ b, (startCheck th.hash ⟨s.cat, s.fs, fl⟩).1 ≠ .ok b) : DLStep env d (.thread t) s (.dead (.catalogue t))
  | setup (t : Nat) (s : DLState) (th : DLThread) (fl : List Fault) (w : DLWire) (b : Bool) (own : ByteArr 4) (s' : St) (ht : s.threads t = some th)
      (hp : th.pos = .setup b) (hrun : startSetup env w th.hash b ⟨s.cat, s.fs, fl⟩ = (.ok own, s')) :
      DLStep env d (.thread t) s (.alive ({ s with cat := s'.cat, fs := s'.fs }.move t th (.test own)))
  | refuse (t : Nat) (s : DLState) (th : DLThread) (fl : List Fault) (w : DLWire) (b : Bool) (e : Err) (s' : St) (ht : s.threads t = some th)
      (hp : th.pos = .setup b) (hrun : startSetup env w th.hash b ⟨s.cat, s.fs, fl⟩ = (.err e, s')) :
      DLStep env d (.thread t) s (.alive ({ s with cat := s'.cat, fs := s'.fs }.move t th .refused))
  | setupDies (t : Nat) (s : DLState) (th : DLThread) (fl : List Fault) (w : DLWire) (b : Bool) (ht : s.threads t = some th)
      (hp : th.pos = .setup b) (hrun : (startSetup env w th.hash b ⟨s.cat, s.fs, fl⟩).1.returns = false) : DLStep env d (.thread t) s (.dead (.setup t))
  /-- `for !s.cat.FileComplete(hash)` (serverStartDownload.go:50). -/
  | test (t : Nat) (s : DLState) (th : DLThread) (fl : List Fault) (own : ByteArr 4) (v : Bool) (s' : St) (ht : s.threads t = some th)
      (hp : th.pos = .test own) (hrun : fileComplete th.hash ⟨s.cat, s.fs, fl⟩ = (.ok v, s')) :
      DLStep env d (.thread t) s (.alive ({ s with cat := s'.cat, fs := s'.fs }.move t th (if v then .finished else .want own)))
  | testDies (t : Nat) (s : DLState) (th : DLThread) (fl : List Fault) (own : ByteArr 4) (ht : s.threads t = some th) (hp : th.pos = .test own)
      (hrun : ∀ v, (fileComplete th.hash ⟨s.cat, s.fs, fl⟩).1 ≠ .ok v) : DLStep env d (.thread t) s (.dead (.catalogue t))
  /-- `wantedChunks := s.cat.MissingChunks(hash, 1); c := wantedChunks[0]` (serverStartDownload.go:53-56). -/
  | want (t : Nat) (s : DLState) (th : DLThread) (fl : List Fault) (own : ByteArr 4) (r : Range) (rest : List Range) (s' : St) (ht : s.threads t = some th)
      (hp : th.pos = .want own) (hrun : missingChunks th.hash ⟨s.cat, s.fs, fl⟩ = (.ok (r :: rest), s')) :
      DLStep env d (.thread t) s (.alive ({ s with cat := s'.cat, fs := s'.fs }.move t { th with rounds := (r.start, false) :: th.rounds } (.search own r.start)))
  | wantNone (t : Nat) (s : DLState) (th : DLThread) (fl : List Fault) (own : ByteArr 4) (s' : St) (ht : s.threads t = some th)
      (hp : th.pos = .want own) (hrun : missingChunks th.hash ⟨s.cat, s.fs, fl⟩ = (.ok [], s')) : DLStep env d (.thread t) s (.dead (.noMissing t))
  | wantDies (t : Nat) (s : DLState) (th : DLThread) (fl : List Fault) (own : ByteArr 4) (ht : s.threads t = some th) (hp : th.pos = .want own)
      (hrun : ∀ v, (missingChunks th.hash ⟨s.cat, s.fs, fl⟩).1 ≠ .ok v) : DLStep env d (.thread t) s (.dead (.catalogue t))
  /-- `goodHosts = s.getGoodHosts(…)` (serverStartDownload.go:57). -/
  | search (t : Nat) (s : DLState) (th : DLThread) (own : ByteArr 4) (c : UInt16) (rs : List HostResp) (ht : s.threads t = some th) (hp : th.pos = .search own c) :
      DLStep env d (.thread t) s (.alive (s.move t th (.hosts own c (goodHosts own rs))))
  | searchDies (t : Nat) (s : DLState) (th : DLThread) (own : ByteArr 4) (c : UInt16) (ht : s.threads t = some th) (hp : th.pos = .search own c) :
      DLStep env d (.thread t) s (.dead (.search t))
  /-- No host is left: the next round. -/
  | again (t : Nat) (s : DLState) (th : DLThread) (own : ByteArr 4) (c : UInt16) (ht : s.threads t = some th) (hp : th.pos = .hosts own c []) :
      DLStep env d (.thread t) s (.alive (s.move t th (.test own)))
  /-- Taking the lock, and a transfer from this host is under way already (serverStartDownload.go:65-71). -/
  | skip (t : Nat) (s : DLState) (th : DLThread) (own : ByteArr 4) (c : UInt16) (r : HostResp) (todo : List HostResp) (ht : s.threads t = some th)
      (hp : th.pos = .hosts own c (r :: todo)) (hl : s.locked = false) (hk : s.downloads (th.hash, r.addr) = true) :
      DLStep env d (.thread t) s (.alive (s.move t th (.hosts own c todo)))
  /-- Taking the lock, and dialling (serverStartDownload.go:65-69, 98). -/
  | dial (t : Nat) (s : DLState) (th : DLThread) (own : ByteArr 4) (c : UInt16) (r : HostResp) (todo : List HostResp) (ht : s.threads t = some th)
      (hp : th.pos = .hosts own c (r :: todo)) (hl : s.locked = false) (hk : s.downloads (th.hash, r.addr) = false) :
      DLStep env d (.thread t) s (.alive ({ s with locked := true, downloads := upd s.downloads (th.hash, r.addr) true }.move t th (.fetching own c r todo)))
  | dialDies (t : Nat) (s : DLState) (th : DLThread) (own : ByteArr 4) (c : UInt16) (r : HostResp) (todo : List HostResp) (ht : s.threads t = some th)
      (hp : th.pos = .hosts own c (r :: todo)) (hl : s.locked = false) (hk : s.downloads (th.hash, r.addr) = false) :
      DLStep env d (.thread t) s (.dead (.dial t))
  /-- `downloadChunk` returns (serverStartDownload.go:97-145) and the lock is released (:71).  As in `Step`, the chunk is not aimed at one of the catalogue's own files. -/
  | fetched (t : Nat) (s : DLState) (th : DLThread) (fl : List Fault) (own : ByteArr 4) (c : UInt16) (r : HostResp) (todo : List HostResp)
      (queue : List (Option Bytes)) (ok : Bool) (s' : St) (ht : s.threads t = some th) (hp : th.pos = .fetching own c r todo)
      (hsafe : ∀ data, (Op.save th.hash c data).Safe d s.cat) (hrun : downloadChunk env th.hash c queue ⟨s.cat, s.fs, fl⟩ = (.ok (.saved ok), s')) :
      DLStep env d (.thread t) s (.alive ({ s with
        cat := s'.cat, fs := s'.fs, locked := false, downloads := upd s.downloads (th.hash, r.addr) false }.move t
          { th with rounds := delivered th.rounds } (.hosts own c todo)))
  | gaveUp (t : Nat) (s : DLState) (th : DLThread) (fl : List Fault) (own : ByteArr 4) (c : UInt16) (r : HostResp) (todo : List HostResp)
      (queue : List (Option Bytes)) (s' : St) (ht : s.threads t = some th) (hp : th.pos = .fetching own c r todo)
      (hrun : downloadChunk env th.hash c queue ⟨s.cat, s.fs, fl⟩ = (.ok .gaveUp, s')) :
      DLStep env d (.thread t) s (.alive ({ s with
        cat := s'.cat, fs := s'.fs, locked := false, downloads := upd s.downloads (th.hash, r.addr) false }.move t th (.hosts own c todo)))
  | fetchDies (t : Nat) (s : DLState) (th : DLThread) (fl : List Fault) (own : ByteArr 4) (c : UInt16) (r : HostResp) (todo : List HostResp)
      (queue : List (Option Bytes)) (ht : s.threads t = some th) (hp : th.pos = .fetching own c r todo)
      (hrun : ∀ out, (downloadChunk env th.hash c queue ⟨s.cat, s.fs, fl⟩).1 ≠ .ok out) : DLStep env d (.thread t) s (.dead (.transfer t))
  /-- Another call of the catalogue. -/
  | call (o : Op) (s : DLState) (fl : List Fault) (r : Res Unit) (s' : St) (hsafe : o.Safe d s.cat) (hrun : o.run env ⟨s.cat, s.fs, fl⟩ = (r, s'))
      (hret : r.returns = true) : DLStep env d (.call o) s (.alive { s with cat := s'.cat, fs := s'.fs })
  | callDies (o : Op) (s : DLState) (fl : List Fault) (hrun : (o.run env ⟨s.cat, s.fs, fl⟩).1.returns = false) : DLStep env d (.call o) s (.dead .call)
  /-- Another program changes a file that is not the catalogue's. -/
  | user (p : Path) (s : DLState) (content : Option Bytes) (hp : ¬ CatFile d p) : DLStep env d (.user p) s (.alive { s with fs := s.fs.put p content })

/-- Any number of steps, each of which satisfies `ok` (who takes it, and the state it leads to). -/
inductive DLRun (env : Env) (d : Path) (ok : Actor → DLSys → Prop) (s0 : DLState) : DLSys → Prop
  | refl : DLRun env d ok s0 (.alive s0)
  | step {s : DLState} {x : DLSys} (a : Actor) (h : DLRun env d ok s0 (.alive s)) (h' : DLStep env d a s x) (hok : ok a x) : DLRun env d ok s0 x

end Flu
