import Verif.Model.Receiver
/-!
# The two goroutines of the receiving side

`Model/Receiver.lean` treats the socket, the reading goroutine of `DialPeer` and `outChan` as one queue of datagrams.  Here they are separate: the goroutine reads and parses a
datagram and puts it into a channel of capacity ten, `downloadChunk` takes from the channel.  After `downloadChunk` has returned nobody takes from the channel any more.  Another read
error than the deadline has the same effect (recvConnection.go:59).
-/
namespace Flu

/-- The goroutine started by `DialPeer` (recvConnection.go:54-69). -/
inductive Reader where
  | reading                        -- in `ReadFromUDP` (line 58)
  | sending (x : Option Packet)    -- at `outChan <- nil` (line 61) or `outChan <- packet` (line 65)
  | done                           -- has returned (line 63)
  deriving DecidableEq

/-- The loop of `downloadChunk` (serverStartDownload.go:105-142). -/
inductive Loop where
  | waiting (c : RConn)
  | finished (buffer : Bytes) (hashOk : Bool)   -- left after the end marker: the buffer goes to `SaveChunk`
  | gaveUp                                      -- left after a read error
  deriving DecidableEq

/-- One transfer. -/
structure RT where
  reader : Reader
  chan : List (Option Packet)      -- `outChan`; `none` is nil
  closed : Bool                    -- the socket (recvConnection.go:60)
  loop : Loop

/-- As set up by `DialPeer` (recvConnection.go:42-49). -/
def RT.init : RT := ⟨.reading, [], false, .waiting .fresh⟩

inductive RTSys where
  | alive (s : RT)
  | dead                           -- a panic of either goroutine ends the daemon

/-- What can be seen of a step: a datagram or an error is read, or nothing. -/
inductive REv where
  | datagram (d : Bytes)
  | timeout
  | tau
  deriving DecidableEq

/-- Where the loop goes after a packet. -/
def Loop.after (c : RConn) : RAct → Loop
  | .ack _ => .waiting c
  | .finish b ok => .finished b ok

/-- One step. -/
inductive RTStep (sha1 : Bytes → Sha1Hash) : RT → REv → RTSys → Prop
  | read (s : RT) (d : Bytes) (p : Packet) (hr : s.reader = .reading) (hp : readPacket d = .ok p) :
      RTStep sha1 s (.datagram d) (.alive { s with reader := .sending (some p) })
  | readDies (s : RT) (d : Bytes) (hr : s.reader = .reading) (hp : ∀ p, readPacket d ≠ .ok p) : RTStep sha1 s (.datagram d) .dead
  | timeout (s : RT) (hr : s.reader = .reading) : RTStep sha1 s .timeout (.alive { s with closed := true, reader := .sending none })
  | send (s : RT) (x : Option Packet) (hr : s.reader = .sending x) (hc : s.chan.length < 10) :
      RTStep sha1 s .tau (.alive { s with chan := s.chan ++ [x], reader := if x = none then .done else .reading })
  | take (s : RT) (c c' : RConn) (p : Packet) (rest : List (Option Packet)) (act : RAct) (hl : s.loop = .waiting c) (hc : s.chan = some p :: rest)
      (hp : onPacket sha1 c p = .ok (c', act)) : RTStep sha1 s .tau (.alive { s with chan := rest, loop := .after c' act })
  | takeDies (s : RT) (c : RConn) (p : Packet) (rest : List (Option Packet)) (hl : s.loop = .waiting c) (hc : s.chan = some p :: rest)
      (hp : ∀ x, onPacket sha1 c p ≠ .ok x) : RTStep sha1 s .tau .dead
  | takeNil (s : RT) (c : RConn) (rest : List (Option Packet)) (hl : s.loop = .waiting c) (hc : s.chan = none :: rest) :
      RTStep sha1 s .tau (.alive { s with chan := rest, loop := .gaveUp })

/-- Any number of steps, with what was seen of them. -/
inductive RTRun (sha1 : Bytes → Sha1Hash) (s0 : RT) : List REv → RTSys → Prop
  | refl : RTRun sha1 s0 [] (.alive s0)
  | step {s : RT} {tr : List REv} {e : REv} {x : RTSys} (h : RTRun sha1 s0 tr (.alive s)) (h' : RTStep sha1 s e x) : RTRun sha1 s0 (tr ++ [e]) x

/-- What was read, in order. -/
def readings : List REv → List (Option Bytes)
  | [] => []
  | .datagram d :: tr => some d :: readings tr
  | .timeout :: tr => none :: readings tr
  | .tau :: tr => readings tr

end Flu
