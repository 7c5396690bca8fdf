import Verif.Model.Daemon
import Verif.Model.Discovery
/-!
# Downloads and their searches

In `Model/Daemon.lean` a download that searches for hosts gets any responses.  Here it gets those of its own search: `StartDownload` and its goroutine call `getGoodHosts`
(serverStartDownload.go:25, 57), which calls `DiscoverHosts` (serverStartDownload.go:147-161), which registers a request in the table, collects responses, and returns them
(`Model/Requests.lean`).  A download waits until its call of `DiscoverHosts` returns.  Every step here is one or a step of the daemon of `Model/Daemon.lean`; deaths are left out.
-/
namespace Flu

/-- The call of `DiscoverHosts` that a download made last: the goroutine it runs in, in the table, the identifier it drew, and whether the download has its result. -/
structure Search where
  runs : Nat
  id : UInt16
  over : Bool

/-- The daemon, with the search of each download. -/
structure Linked where
  dm : Daemon
  link : Nat → Option Search

/-- In a part of `StartDownload` or its goroutine that calls `getGoodHosts` (serverStartDownload.go:18-47, 57). -/
def DLPos.searches : DLPos → Prop
  | .setup _ | .search _ _ => True
  | _ => False

/-- One step. -/
inductive LinkStep (env : Env) (d : Path) (port : Nat) : Linked → DmEv → Option Out → Linked → Prop
  /-- The download calls `DiscoverHosts`, which draws an identifier (serverDiscoverHosts.go:19-23). -/
  | begins (s : Linked) (t b : Nat) (th : DLThread) (table : Table) (ht : s.dm.loop.threads t = some th) (hp : th.pos.searches) (hl : ∀ x, s.link t = some x → x.over = true)
      (hb : s.dm.table.threads b = .idle) (htable : table = { s.dm.table with
        reqID := (generateRequestID s.dm.table.reqID).2, threads := upd s.dm.table.threads b (.wantRegister ⟨(generateRequestID s.dm.table.reqID).1, 1⟩) }) :
      LinkStep env d port s (.discovery b) none ⟨{ s.dm with table := table }, upd s.link t (some ⟨b, (generateRequestID s.dm.table.reqID).1, false⟩)⟩
  /-- It has returned, and the goroutine of the download goes on to the hosts found (serverStartDownload.go:57-60). -/
  | finds (s : Linked) (t : Nat) (th : DLThread) (own : ByteArr 4) (c : UInt16) (x : Search) (key : RequestKey) (ch : Nat) (got : List Msg) (rs : List HostResp)
      (ht : s.dm.loop.threads t = some th) (hp : th.pos = .search own c) (hl : s.link t = some x) (ho : x.over = false) (hb : s.dm.table.threads x.runs = .returned key ch got)
      (hr : hostResps got = .ok rs) :
      LinkStep env d port s (.loop (.thread t)) none ⟨{ s.dm with loop := s.dm.loop.move t th (.hosts own c (goodHosts own rs)) }, upd s.link t (some { x with over := true })⟩
  /-- It has returned, and `StartDownload` goes on (serverStartDownload.go:26-49) or returns an error. -/
  | sets (s : Linked) (t : Nat) (th : DLThread) (b : Bool) (x : Search) (key : RequestKey) (ch : Nat) (got : List Msg) (w : DLWire) (rs : List HostResp) (fl : List Fault)
      (own : ByteArr 4) (st : St) (ht : s.dm.loop.threads t = some th) (hp : th.pos = .setup b) (hl : s.link t = some x) (ho : x.over = false)
      (hb : s.dm.table.threads x.runs = .returned key ch got) (hr : hostResps got = .ok rs) (hw : w.responses = some rs)
      (hrun : startSetup env w th.hash b ⟨s.dm.loop.cat, s.dm.loop.fs, fl⟩ = (.ok own, st)) :
      LinkStep env d port s (.loop (.thread t)) none
        ⟨{ s.dm with loop := { s.dm.loop with cat := st.cat, fs := st.fs }.move t th (.test own) }, upd s.link t (some { x with over := true })⟩
  | refuses (s : Linked) (t : Nat) (th : DLThread) (b : Bool) (x : Search) (key : RequestKey) (ch : Nat) (got : List Msg) (w : DLWire) (rs : List HostResp) (fl : List Fault)
      (e : Err) (st : St) (ht : s.dm.loop.threads t = some th) (hp : th.pos = .setup b) (hl : s.link t = some x) (ho : x.over = false)
      (hb : s.dm.table.threads x.runs = .returned key ch got) (hr : hostResps got = .ok rs) (hw : w.responses = some rs)
      (hrun : startSetup env w th.hash b ⟨s.dm.loop.cat, s.dm.loop.fs, fl⟩ = (.err e, st)) :
      LinkStep env d port s (.loop (.thread t)) none
        ⟨{ s.dm with loop := { s.dm.loop with cat := st.cat, fs := st.fs }.move t th .refused }, upd s.link t (some { x with over := true })⟩
  /-- Any other step of the daemon: not one of a download that searches. -/
  | other (s : Linked) (e : DmEv) (o : Option Out) (dm : Daemon) (h : DmStep env d port s.dm e o (.alive dm))
      (hno : ∀ t th, e = .loop (.thread t) → s.dm.loop.threads t = some th → ¬ th.pos.searches) : LinkStep env d port s e o ⟨dm, s.link⟩

/-- A run, with what has happened, oldest first. -/
inductive LinkRun (env : Env) (d : Path) (port : Nat) (s0 : Linked) : List (DmEv × Option Out × DmSys) → Linked → Prop
  | refl : LinkRun env d port s0 [] s0
  | step {tr : List (DmEv × Option Out × DmSys)} {s s' : Linked} {e : DmEv} {o : Option Out} (h : LinkRun env d port s0 tr s) (h' : LinkStep env d port s e o s') :
      LinkRun env d port s0 (tr ++ [(e, o, .alive s'.dm)]) s'

/-- The daemon when it has started. -/
def Linked.fresh (c : Cat) (fs : FS) : Linked := ⟨.fresh c fs, fun _ => none⟩

end Flu
