import Verif.Model.Server
/-!
# Daemon processes (`main.go`)

What `startDaemon` does after `Cat.Init` (main.go:53-107): one goroutine removes whatever is at `/tmp/flu-network.sock` and listens there for the command line, another
one binds the UDP port.  Any number of daemons may be started on one machine, by a user who forgot that one is running or by a script; their steps interleave.

The operating system is reduced to what these steps touch: which process the file at the socket's path belongs to (the file stays when its process ends: nothing closes the
listener, and a panic does not either) and which process has the UDP port (released when the process ends).  `net.ListenUnix` fails if there is a file at the path;
`net.ListenUDP` fails if another process has the port; `failHard` (main.go:109-113) makes every failure a panic, which ends the process with all its goroutines.

All daemons belong to the same user; failures for other reasons (permissions, no memory) and signals are the step `ends`.
-/
namespace Flu

/-- The goroutine for the command line (main.go:64-80): before `os.RemoveAll`, before `net.ListenUnix`, and in `Accept`. -/
inductive RpcPos where
  | removing
  | listening
  | serving
  deriving DecidableEq, Repr

/-- The goroutine for datagrams (main.go:83-101): before `net.ListenUDP`, before it prints the address, and in its loop. -/
inductive UdpPos where
  | binding
  | printing
  | serving
  deriving DecidableEq, Repr

/-- A daemon after `go func …` twice. -/
structure Proc where
  rpc : RpcPos
  udp : UdpPos
  deriving DecidableEq, Repr

/-- The machine.  Processes are numbered in the order of their start, `next` being the number of those started so far. -/
structure Machine where
  procs : Nat → Option Proc
  sock : Option Nat
  port : Option Nat
  next : Nat

/-- A process ends: the port is free again, the file of the socket stays. -/
def Machine.ending (m : Machine) (p : Nat) : Machine :=
  { m with procs := fun q => if q = p then none else m.procs q, port := if m.port = some p then none else m.port }

/-- A process goes on. -/
def Machine.put (m : Machine) (p : Nat) (x : Proc) : Machine := { m with procs := fun q => if q = p then some x else m.procs q }

/-- What happens. -/
inductive DEv where
  | start                 -- a daemon is started and has read its catalogue (main.go:47-56)
  | removed (p : Nat)     -- `os.RemoveAll(sockaddr)` (main.go:65)
  | listened (p : Nat)    -- `net.ListenUnix` (main.go:74)
  | bound (p : Nat)       -- `net.ListenUDP` (main.go:86)
  | printed (p : Nat) (addrs : Option (List Bytes))   -- the address is printed, the interfaces having these addresses (main.go:88)
  | ended (p : Nat)       -- the process ends
  deriving DecidableEq

/-- One step. -/
inductive DStep : Machine → DEv → Machine → Prop
  | start (m : Machine) : DStep m .start { m.put m.next ⟨.removing, .binding⟩ with next := m.next + 1 }
  | remove (m : Machine) (p : Nat) (x : Proc) (hx : m.procs p = some x) (hpos : x.rpc = .removing) :
      DStep m (.removed p) { m.put p { x with rpc := .listening } with sock := none }
  | listen (m : Machine) (p : Nat) (x : Proc) (hx : m.procs p = some x) (hpos : x.rpc = .listening) (hfree : m.sock = none) :
      DStep m (.listened p) { m.put p { x with rpc := .serving } with sock := some p }
  | listenFails (m : Machine) (p : Nat) (x : Proc) (hx : m.procs p = some x) (hpos : x.rpc = .listening) (hused : m.sock ≠ none) :
      DStep m (.ended p) (m.ending p)
  | bind (m : Machine) (p : Nat) (x : Proc) (hx : m.procs p = some x) (hpos : x.udp = .binding) (hfree : m.port = none) :
      DStep m (.bound p) { m.put p { x with udp := .printing } with port := some p }
  | bindFails (m : Machine) (p : Nat) (x : Proc) (hx : m.procs p = some x) (hpos : x.udp = .binding) (hused : m.port ≠ none) :
      DStep m (.ended p) (m.ending p)
  | print (m : Machine) (p : Nat) (x : Proc) (hx : m.procs p = some x) (hpos : x.udp = .printing) (ip : Bytes) (addrs : Option (List Bytes))
      (hip : localIP addrs = .ok (some ip)) : DStep m (.printed p addrs) (m.put p { x with udp := .serving })
  /- `LocalIP` returns nil (then `.String()` dereferences it) or panics (main.go:88). -/
  | printFails (m : Machine) (p : Nat) (x : Proc) (hx : m.procs p = some x) (hpos : x.udp = .printing) (addrs : Option (List Bytes))
      (hip : ∀ ip, localIP addrs ≠ .ok (some ip)) : DStep m (.ended p) (m.ending p)
  | ends (m : Machine) (p : Nat) (x : Proc) (hx : m.procs p = some x) : DStep m (.ended p) (m.ending p)

/-- Executions. -/
inductive DRun : Machine → List DEv → Machine → Prop
  | refl (m : Machine) : DRun m [] m
  | step {m m' m'' : Machine} {tr : List DEv} {e : DEv} (h : DRun m tr m') (h' : DStep m' e m'') : DRun m (tr ++ [e]) m''

/-- A machine on which no daemon runs; the file of an earlier one may be there (`stale`, a number no daemon gets). -/
def Machine.idle (stale : Bool) : Machine := ⟨fun _ => none, if stale then some 0 else none, none, 1⟩

/-- The daemon that a command of the user reaches (`rpc.Dial("unix", sockaddr)`, cliClient.go): the process that the file belongs to, if it is running. -/
def Machine.answers (m : Machine) : Option Nat :=
  match m.sock with
  | none => none
  | some p => if (m.procs p).isSome then some p else none

end Flu
