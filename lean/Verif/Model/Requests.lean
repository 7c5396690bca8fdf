import Verif.Model.Messages
/-!
# Request identifiers and the table of pending requests

`generateRequestID`, `registerResponseChan`, `unregisterResponseChan`, `deliverResponse` (server.go:75-109) and the goroutines that call them: `DiscoverHosts`
(serverDiscoverHosts.go:14-55) and the handler of a response datagram (server.go:146-149).

`resMapLock` is a plain mutex.  Registering and unregistering never block while holding it, so each is one step, possible when the lock is free.  Delivering holds the
lock while it sends on a channel of capacity one: looking up and sending are two steps and the lock is held in between.
-/
namespace Flu

/-- `generateRequestID` (server.go:75-81) on the counter `reqID`: the identifier and the counter afterwards. -/
def generateRequestID (reqID : Nat) : UInt16 × Nat := (UInt16.ofNat reqID, (reqID + 1) % 65536)

/-- `requestKey` (server.go:45-48). -/
structure RequestKey where
  reqID : UInt16
  msgType : UInt8
  deriving DecidableEq

/-- The `RequestID` of a message that has one. -/
def Msg.reqID? : Msg → Option UInt16
  | .discoverReq i _ _ | .discoverResp i _ _ _ | .listReq i _ | .listResp i _ => some i
  | _ => none

/-- A goroutine. -/
inductive Thread where
  | idle                                                      -- not started
  | wantRegister (key : RequestKey)                           -- DiscoverHosts before serverDiscoverHosts.go:26
  | collecting (key : RequestKey) (chan : Nat) (got : List Msg)  -- the loop, :43-54
  | wantUnregister (key : RequestKey) (chan : Nat) (got : List Msg)        -- two seconds are over, :46-47
  | returned (key : RequestKey) (chan : Nat) (got : List Msg)              -- :48
  | wantDeliver (key : RequestKey) (msg : Msg)                -- deliverResponse before server.go:102
  | sending (chan : Nat) (msg : Msg)                          -- at server.go:105, holding the lock
  | delivered
  | rejected
  | dead                                                      -- panicked

/-- What the goroutines share. -/
structure Table where
  reqID : Nat
  resMap : RequestKey → Option Nat
  chans : Nat → List Msg
  nchans : Nat
  locked : Bool
  threads : Nat → Thread
  sent : Nat → List Msg   -- history only: everything ever sent on each channel

/-- A freshly started server (server.go:61-73). -/
def Table.fresh : Table := ⟨0, fun _ => none, fun _ => [], 0, false, fun _ => .idle, fun _ => []⟩

def upd [DecidableEq α] (f : α → β) (a : α) (b : β) : α → β := fun x => if x = a then b else f x

/-- One step of goroutine `t`. -/
inductive TStep (t : Nat) : Table → Table → Prop
  /-- `DiscoverHosts` is called and draws an identifier (serverDiscoverHosts.go:19-23); the response type is 1 (msgDiscoverHosts.go:57-59). -/
  | discover (s : Table) (h : s.threads t = .idle) :
      TStep t s { s with reqID := (generateRequestID s.reqID).2, threads := upd s.threads t (.wantRegister ⟨(generateRequestID s.reqID).1, 1⟩) }
  /-- `ListFilesOnHost` draws an identifier (serverListFilesOnHost.go:23) and does not use the table. -/
  | other (s : Table) (h : s.threads t = .idle) : TStep t s { s with reqID := (generateRequestID s.reqID).2 }
  /-- `registerResponseChan` (server.go:83-90). -/
  | register (s : Table) (key : RequestKey) (h : s.threads t = .wantRegister key) (hl : s.locked = false) :
      TStep t s { s with
        resMap := upd s.resMap key (some s.nchans), chans := upd s.chans s.nchans [], sent := upd s.sent s.nchans [], nchans := s.nchans + 1,
        threads := upd s.threads t (.collecting key s.nchans []) }
  /-- A message is taken from the channel (serverDiscoverHosts.go:49-52); the cast panics for another type. -/
  | collect (s : Table) (key : RequestKey) (c : Nat) (got : List Msg) (m : Msg) (rest : List Msg) (h : s.threads t = .collecting key c got) (hb : s.chans c = m :: rest) :
      TStep t s { s with
        chans := upd s.chans c rest, threads := upd s.threads t (if m.type = 1 then .collecting key c (got ++ [m]) else .dead) }
  /-- The two seconds are over. -/
  | timeout (s : Table) (key : RequestKey) (c : Nat) (got : List Msg) (h : s.threads t = .collecting key c got) :
      TStep t s { s with threads := upd s.threads t (.wantUnregister key c got) }
  /-- `unregisterResponseChan` (server.go:92-97), and `DiscoverHosts` returns. -/
  | unregister (s : Table) (key : RequestKey) (c : Nat) (got : List Msg) (h : s.threads t = .wantUnregister key c got) (hl : s.locked = false) :
      TStep t s { s with resMap := upd s.resMap key none, threads := upd s.threads t (.returned key c got) }
  /-- A response datagram arrives and is parsed (server.go:146-149). -/
  | arrive (s : Table) (i : UInt16) (m : Msg) (h : s.threads t = .idle) (hm : m.type = 1 ∨ m.type = 3) (hi : m.reqID? = some i) :
      TStep t s { s with threads := upd s.threads t (.wantDeliver ⟨i, m.type⟩ m) }
  /-- `deliverResponse` finds no entry (server.go:101-104, 108). -/
  | reject (s : Table) (key : RequestKey) (m : Msg) (h : s.threads t = .wantDeliver key m) (hl : s.locked = false) (hk : s.resMap key = none) :
      TStep t s { s with threads := upd s.threads t .rejected }
  /-- `deliverResponse` finds a channel (server.go:104). -/
  | find (s : Table) (key : RequestKey) (m : Msg) (c : Nat) (h : s.threads t = .wantDeliver key m) (hl : s.locked = false) (hk : s.resMap key = some c) :
      TStep t s { s with locked := true, threads := upd s.threads t (.sending c m) }
  /-- The channel has room; the lock is released on return (server.go:105-106). -/
  | send (s : Table) (c : Nat) (m : Msg) (h : s.threads t = .sending c m) (hb : s.chans c = []) :
      TStep t s { s with chans := upd s.chans c [m], sent := upd s.sent c (s.sent c ++ [m]), locked := false, threads := upd s.threads t .delivered }

/-- Any interleaving. -/
inductive TRun : Table → Table → Prop
  | refl (s : Table) : TRun s s
  | step {s u v : Table} (h : TRun s u) (t : Nat) (h' : TStep t u v) : TRun s v

end Flu
