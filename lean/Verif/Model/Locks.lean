import Verif.Model.Go
/-!
# Locks and shared tables

Which locks every goroutine of the daemon takes and which of the shared Go maps it touches, in which order; everything else it does is left out.  A goroutine is the list of
these actions that it goes through; what it goes through depends on data, so every activity has a set of such lists.  A goroutine that ends the process (panic, `log.Fatal`)
is one that stops for ever at some point of its list.
-/
namespace Flu

/-- The mutexes: `Cat.lock` (catalogue.go:21), those of the progress files, taken to be one (progressFile.go:16), `reqIDLock`, `resMapLock`, `transferLock`
(flu/server.go:28,34,38). -/
inductive Mutex where
  | cat | progress | reqID | resMap | transfer
  deriving DecidableEq

/-- The maps shared between goroutines: `indexFile.index` (indexFile.go:25), `Server.resMap`, `Server.downloads`, `Server.uploads` (flu/server.go:33,39,40). -/
inductive MapTab where
  | index | resMap | downloads | uploads
  deriving DecidableEq

/-- What a goroutine does with them.  `get` is a look-up or an iteration, `put` an assignment to an element or a deletion. -/
inductive LAct where
  | lock (m : Mutex)
  | unlock (m : Mutex)
  | get (t : MapTab)
  | put (t : MapTab)
  deriving DecidableEq

/-- `lock.Lock(); defer lock.Unlock()` around a body. -/
def locked (m : Mutex) (body : List LAct) : List LAct := .lock m :: body ++ [.unlock m]

/-! ### The catalogue (catalogue/catalogue.go, catalogue/indexFile.go) -/

/-- Calls that take the lock and look the index up: `ListFiles` (148-166, an iteration), `Get` (193-201), `MissingChunks` (214-222), `GetChunkReader`
(241-249).  `fill` (259-268) assigns to a record through its pointer, not to the map. -/
def lockedLookup : List LAct := locked .cat [.get .index]

/-- `FileComplete` (203-211) and `SaveChunk` (224-239): the same, and then the lock of the progress file in `Full` or `Set` (progressFile.go:22-32). -/
def lockedProgress : List LAct := locked .cat (.get .index :: locked .progress [])

/-- `Contains` (184-190) and `Rehash` (170-180): the look-up of `getIndexRecord` (251-257) without the lock. -/
def plainLookup : List LAct := [.get .index]

/-- `ShareFile` (63-85), `RegisterDownload` (113-143) and `UnshareFile` (89-109): under the lock; they may fail before looking the index up, after it, or go on to
`AddIndexRecord` (indexFile.go:95-101) or `RemoveIndexRecord` (:105-108) and `save`, which iterates in `MarshalJSON` (:119). -/
inductive CatWrites : List LAct → Prop where
  | early : CatWrites (locked .cat [])
  | known : CatWrites (locked .cat [.get .index])
  | done : CatWrites (locked .cat [.get .index, .put .index, .get .index])

/-! ### The server (flu/) -/

/-- `generateRequestID` (server.go:75-81). -/
def nextID : List LAct := locked .reqID []
/-- `registerResponseChan` (server.go:83-90) and `unregisterResponseChan` (:92-97). -/
def putResMap : List LAct := locked .resMap [.put .resMap]
/-- `deliverResponse` (server.go:100-109). -/
def getResMap : List LAct := locked .resMap [.get .resMap]
/-- `DiscoverHosts` (serverDiscoverHosts.go:14-55). -/
def discovery : List LAct := nextID ++ putResMap ++ putResMap

/-- `HandleMessage` (server.go:131-155), one goroutine per datagram (main.go:90-100). -/
inductive HandlerActs : List LAct → Prop where
  /-- A datagram that does not parse. -/
  | bad : HandlerActs []
  /-- `RespondToDiscoverHosts` (serverDiscoverHosts.go:57-80), with a blank hash or not. -/
  | discoverBlank : HandlerActs []
  | discover : HandlerActs plainLookup
  /-- `RespondToListFilesOnHost` (serverListFilesOnHost.go:67-107). -/
  | listAll : HandlerActs lockedLookup
  | listOne : HandlerActs plainLookup
  /-- `StartUpload` (serverStartUpload.go:11-47): unknown file, unreadable chunk, upload known, upload new. -/
  | openUnknown : HandlerActs plainLookup
  | openUnreadable : HandlerActs (plainLookup ++ lockedLookup)
  | openKnown : HandlerActs (plainLookup ++ lockedLookup ++ [.get .uploads, .get .uploads])
  | openNew : HandlerActs (plainLookup ++ lockedLookup ++ [.get .uploads, .put .uploads, .get .uploads])
  /-- `ContinueUpload` (serverContinueUpload.go:10-32). -/
  | ack : HandlerActs [.get .uploads]
  /-- A response. -/
  | response : HandlerActs getResMap

/-- The inner loop of a download over the hosts (serverStartDownload.go:60-72) with `downloadChunk` (:97-145), which may save the chunk. -/
inductive HostActs : List LAct → Prop where
  | nil : HostActs []
  | busy (rest : List LAct) (h : HostActs rest) : HostActs (locked .transfer [.get .downloads] ++ rest)
  | gaveUp (rest : List LAct) (h : HostActs rest) : HostActs (locked .transfer [.get .downloads, .put .downloads, .put .downloads] ++ rest)
  | saved (rest : List LAct) (h : HostActs rest) :
      HostActs (locked .transfer ([.get .downloads, .put .downloads] ++ lockedProgress ++ [.put .downloads]) ++ rest)

/-- The goroutine of a download (serverStartDownload.go:49-75). -/
inductive DownloadActs : List LAct → Prop where
  | complete : DownloadActs lockedProgress
  | round (hosts rest : List LAct) (hh : HostActs hosts) (h : DownloadActs rest) : DownloadActs (lockedProgress ++ lockedLookup ++ discovery ++ hosts ++ rest)

/-- The loop of `Clean` (cliMethodsClean.go:46-79): `Rehash`, and perhaps `UnshareFile`, for every file. -/
inductive CleanActs : List LAct → Prop where
  | nil : CleanActs []
  | keep (rest : List LAct) (h : CleanActs rest) : CleanActs (plainLookup ++ rest)
  | drop (w rest : List LAct) (hw : CatWrites w) (h : CleanActs rest) : CleanActs (plainLookup ++ w ++ rest)

/-- A command of the user, one goroutine per call (`net/rpc`; cli/cliMethods*.go). -/
inductive CommandActs : List LAct → Prop where
  | share (w : List LAct) (hw : CatWrites w) : CommandActs w
  | list : CommandActs lockedLookup
  /-- `ListFilesOnHost` (serverListFilesOnHost.go:17-65). -/
  | listRemote : CommandActs nextID
  | chims : CommandActs discovery
  | clean (l : List LAct) (hl : CleanActs l) : CommandActs (lockedLookup ++ l)
  /-- `StartDownload` (serverStartDownload.go:15-47): no address of our own; no host, or a file already known; no description; registered. -/
  | getNoAddress : CommandActs plainLookup
  | getKnown : CommandActs (plainLookup ++ discovery)
  | getFails : CommandActs (plainLookup ++ discovery ++ nextID)
  | getNew (w : List LAct) (hw : CatWrites w) : CommandActs (plainLookup ++ discovery ++ nextID ++ w)

/-- Everything the daemon runs. -/
inductive DaemonActs : List LAct → Prop where
  | handler (l : List LAct) (h : HandlerActs l) : DaemonActs l
  | command (l : List LAct) (h : CommandActs l) : DaemonActs l
  | download (l : List LAct) (h : DownloadActs l) : DaemonActs l

/-! ### Running goroutines together -/

/-- A goroutine: what it has still to do, and whether it is in the middle of the first of these (a use of a map). -/
structure LThread where
  rest : List LAct
  inside : Bool

/-- All goroutines (those that do not exist have nothing to do), and who holds which lock. -/
structure LWorld where
  threads : Nat → LThread
  held : Mutex → Option Nat

/-- Nothing runs. -/
def LWorld.start : LWorld := ⟨fun _ => ⟨[], false⟩, fun _ => none⟩

/-- Thread `i` becomes `x`. -/
def LWorld.set (w : LWorld) (i : Nat) (x : LThread) : LWorld := { w with threads := fun j => if j = i then x else w.threads j }

/-- The table a thread is in the middle of using. -/
def LThread.using (x : LThread) : Option (MapTab × Bool) :=
  if x.inside then
    match x.rest with
    | .get t :: _ => some (t, false)
    | .put t :: _ => some (t, true)
    | _ => none
  else none

/-- The daemon goes on, or has been ended by the Go runtime ("fatal error: concurrent map read and map write", "concurrent map writes"), which cannot be recovered from. -/
inductive LOutcome where
  | alive (w : LWorld)
  | dead (t : MapTab)
  /-- "fatal error: sync: unlock of unlocked mutex". -/
  | badUnlock (m : Mutex)

/-- Another thread is in the middle of writing `t`; this is the flag that the runtime looks at when a use of the map begins (runtime/map.go, `hashWriting`). -/
def LWorld.writing (w : LWorld) (i : Nat) (t : MapTab) : Prop := ∃ j, j ≠ i ∧ (w.threads j).using = some (t, true)

/-- One step; `P` says what goroutines can be started. -/
inductive LkStep (P : List LAct → Prop) : LWorld → LOutcome → Prop where
  | start (w : LWorld) (i : Nat) (l : List LAct) (hp : P l) (hi : w.threads i = ⟨[], false⟩) : LkStep P w (.alive (w.set i ⟨l, false⟩))
  | lock (w : LWorld) (i : Nat) (m : Mutex) (rest : List LAct) (hi : w.threads i = ⟨.lock m :: rest, false⟩) (hm : w.held m = none) :
      LkStep P w (.alive { w.set i ⟨rest, false⟩ with held := fun k => if k = m then some i else w.held k })
  | unlock (w : LWorld) (i : Nat) (m : Mutex) (rest : List LAct) (hi : w.threads i = ⟨.unlock m :: rest, false⟩) (hm : w.held m ≠ none) :
      LkStep P w (.alive { w.set i ⟨rest, false⟩ with held := fun k => if k = m then none else w.held k })
  | unlockFree (w : LWorld) (i : Nat) (m : Mutex) (rest : List LAct) (hi : w.threads i = ⟨.unlock m :: rest, false⟩) (hm : w.held m = none) :
      LkStep P w (.badUnlock m)
  | enter (w : LWorld) (i : Nat) (a : LAct) (t : MapTab) (rest : List LAct) (ha : a = .get t ∨ a = .put t) (hi : w.threads i = ⟨a :: rest, false⟩)
      (hw : ¬ w.writing i t) : LkStep P w (.alive (w.set i ⟨a :: rest, true⟩))
  | leave (w : LWorld) (i : Nat) (a : LAct) (rest : List LAct) (hi : w.threads i = ⟨a :: rest, true⟩) : LkStep P w (.alive (w.set i ⟨rest, false⟩))
  /-- The runtime notices. -/
  | throw (w : LWorld) (i : Nat) (a : LAct) (t : MapTab) (rest : List LAct) (ha : a = .get t ∨ a = .put t) (hi : w.threads i = ⟨a :: rest, false⟩)
      (hw : w.writing i t) : LkStep P w (.dead t)

/-- Any number of steps. -/
inductive LkRun (P : List LAct → Prop) : LWorld → LOutcome → Prop where
  | refl (w : LWorld) : LkRun P w (.alive w)
  | step {w w1 : LWorld} {o : LOutcome} (h : LkRun P w (.alive w1)) (hs : LkStep P w1 o) : LkRun P w o

end Flu
