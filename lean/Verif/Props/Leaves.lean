import Verif.Props.Daemon
import Verif.Props.Server
import Verif.Props.SenderMany
/-!
# What leaves the machine
-/
namespace Flu
open Spec

/-- The address of an upload is that of a host. -/
def Spec.From (key : UpKey) (ret : Addr) : Prop := newIpv4 ret.ip = .ok key.host ∧ key.port = UInt16.ofNat ret.port

/-- In the course of a run a host asked for a chunk, and at some time after that the catalogue had this chunk of this file, which then contained these bytes; `later` is what happened
since then. -/
def Spec.Granted (tr : List (DmEv × Option Out × DmSys)) (key : UpKey) (chunk : UInt16) (e : Export) (content : Bytes) (later : List (DmEv × Option Out × DmSys)) : Prop :=
  ∃ a dg ret x b ev o s hash cap, tr = a ++ (.datagram dg ret, none, x) :: (b ++ (ev, o, .alive s) :: later) ∧ parse (udpBuffer dg) = .ok (.openReq hash chunk cap) ∧ Spec.From key ret ∧
    observe s.loop.cat s.loop.fs hash = .ok e ∧ e.saved chunk.toNat ∧ s.loop.fs e.filePath = some content

/-- The bytes are a piece of what the file was then, or at some time since then. -/
def Spec.Piece (path : Path) (content : Bytes) (later : List (DmEv × Option Out × DmSys)) (got : Bytes) : Prop :=
  ∃ v i n, (v = content ∨ ∃ x ∈ later, ∃ s : Daemon, x.2.2 = .alive s ∧ s.loop.fs path = some v) ∧ n ≤ 1024 ∧ got = (v.drop i).take n

/-- The chunk of the file. -/
def Spec.chunkOf (e : Export) (content : Bytes) (chunk : UInt16) : Bytes := (content.drop (chunk.toNat * e.chunkSize.toNat)).take e.chunkSize.toNat

/-- A packet of an upload may leave: its bytes are a piece of a file that was granted to the host; in front of them, in a first packet, are hash and size of a chunk that was granted to the host. -/
def Spec.MayLeave (sha1 : Bytes → Sha1Hash) (tr : List (DmEv × Option Out × DmSys)) (key : UpKey) (p : Packet) : Prop :=
  ∃ chunk e content later got, Spec.Granted tr key chunk e content later ∧ Spec.Piece e.filePath content later got ∧
    (p.data = got ∨ p.offset = 0 ∧ ∃ chunk' e' content' later', Spec.Granted tr key chunk' e' content' later' ∧
      p.data = (sha1 (Spec.chunkOf e' content' chunk')).1 ++ put32 (UInt32.ofNat (Spec.chunkOf e' content' chunk').length) ++ got)

/-! ## One upload -/

/-- The bytes are a piece of one of these. -/
def PieceOf (vs : List Bytes) (got : Bytes) : Prop := ∃ v ∈ vs, ∃ i n, n ≤ 1024 ∧ got = (v.drop i).take n

def RdPc.From (vs : List Bytes) : RdPc → Prop
  | .fetch _ want => want ≤ 1024
  | .add _ got _ | .addStore _ got _ _ | .done _ got _ => PieceOf vs got
  | _ => True

def MuThread.From (H : Sha1Hash → Nat → Prop) (vs : List Bytes) : MuThread → Prop
  | .reset hash size _ => H hash size
  | .first hash size pc => H hash size ∧ pc.From vs
  | .announce hash size got => H hash size ∧ PieceOf vs got
  | .reading _ pc => pc.From vs
  | .sending _ _ got => PieceOf vs got
  | _ => True

theorem PieceOf.more {vs vs' : List Bytes} {got : Bytes} (h : PieceOf vs got) (hle : ∀ v ∈ vs, v ∈ vs') : PieceOf vs' got := by
  obtain ⟨v, hv, h⟩ := h
  exact ⟨v, hle v hv, h⟩

theorem RdPc.From.more {vs vs' : List Bytes} {pc : RdPc} (h : pc.From vs) (hle : ∀ v ∈ vs, v ∈ vs') : pc.From vs' := by
  cases pc <;> first | exact h | exact PieceOf.more h hle

theorem MuThread.From.more {H H' : Sha1Hash → Nat → Prop} {vs vs' : List Bytes} {x : MuThread} (h : x.From H vs) (hH : ∀ a b, H a b → H' a b) (hle : ∀ v ∈ vs, v ∈ vs') : x.From H' vs' := by
  cases x <;> first
    | exact trivial
    | exact hH _ _ h
    | exact ⟨hH _ _ h.1, h.2.more hle⟩
    | exact RdPc.From.more h hle
    | exact PieceOf.more h hle

theorem pieceOf_read (now : Bytes) (vs : List Bytes) (off want : Nat) (rd : AtChoice) (hw : want ≤ 1024) : PieceOf (now :: vs) (osReadAt now off want rd).1 := by
  cases rd with
  | good => exact ⟨now, List.mem_cons_self, off, want, hw, rfl⟩
  | fail n => exact ⟨now, List.mem_cons_self, off, min n want, by omega, rfl⟩

theorem pieceOf_nil (now : Bytes) (vs : List Bytes) : PieceOf (now :: vs) [] := ⟨now, List.mem_cons_self, 0, 0, by omega, rfl⟩

theorem RdPc.From.next {now : Bytes} {vs : List Bytes} {pc : RdPc} (h : pc.From (now :: vs)) (r : SectionReader) (n : Nat) (hn : n ≤ 1024) (rd : AtChoice) :
    (pc.next r now n rd).1.From (now :: vs) := by
  cases pc with
  | seek => trivial
  | seekStore a =>
    show (if a < r.base then (RdPc.panicked, r.off) else if 4294967295 < a - r.base then (.panicked, a) else (.test (UInt32.ofNat (a - r.base)), a)).1.From _
    split
    · trivial
    · split <;> trivial
  | test o =>
    show (if r.limit ≤ r.off then RdPc.done o [] (some .eof) else .clip o).From _
    split
    · exact pieceOf_nil _ _
    · trivial
  | clip o =>
    show (if r.limit < r.off then RdPc.panicked else .fetch o (min n (r.limit - r.off))).From _
    split
    · trivial
    · show min n (r.limit - r.off) ≤ 1024
      omega
  | fetch o want => exact pieceOf_read _ _ _ _ _ h
  | _ => exact h

/-- A step of an upload, except the arrival of a request. -/
theorem mu_from {H : Sha1Hash → Nat → Prop} {s t : MuState} {p : Option Packet} (hs : MuStep s p t) (h : ∀ i, (s.threads i).From H (s.now :: s.before))
    (hnew : ∀ i, s.threads i = .none → t.threads i = .none) (hsee : t.before = s.before) :
    t.now = s.now ∧ (∀ i, (t.threads i).From H (t.now :: t.before)) ∧
    ∀ q, p = some q → ∃ got, PieceOf (s.now :: s.before) got ∧ (q.data = got ∨ q.offset = 0 ∧ ∃ hash size, H hash size ∧ q.data = hash.1 ++ put32 (UInt32.ofNat size) ++ got) := by
  have move : ∀ {t : MuState} (i : Nat) (x : MuThread), t.threads = (s.set i x).threads → t.now = s.now → t.before = s.before → x.From H (s.now :: s.before) →
      t.now = s.now ∧ ∀ i, (t.threads i).From H (t.now :: t.before) := by
    intro t i x h1 h2 h3 h4
    refine ⟨h2, fun j => ?_⟩
    rw [h1, h2, h3]
    by_cases hj : j = i
    · subst hj; rw [MuState.set_self]; exact h4
    · rw [MuState.set_other hj]; exact h j
  have quiet : ∀ {t : MuState} (i : Nat) (x : MuThread), t.threads = (s.set i x).threads → t.now = s.now → t.before = s.before → x.From H (s.now :: s.before) →
      t.now = s.now ∧ (∀ i, (t.threads i).From H (t.now :: t.before)) ∧ ∀ q, (none : Option Packet) = some q →
        ∃ got, PieceOf (s.now :: s.before) got ∧ (q.data = got ∨ q.offset = 0 ∧ ∃ hash size, H hash size ∧ q.data = hash.1 ++ put32 (UInt32.ofNat size) ++ got) :=
    fun i x h1 h2 h3 h4 => ⟨(move i x h1 h2 h3 h4).1, (move i x h1 h2 h3 h4).2, fun q hq => by cases hq⟩
  have at_ : ∀ {i : Nat} {x : MuThread}, s.threads i = x → x.From H (s.now :: s.before) := fun h1 => h1 ▸ h _
  cases hs with
  | edit new =>
    have := congrArg List.length hsee
    simp at this
  | kickstart i hash size hi =>
    have := hnew i hi
    rw [show ((s.set i (.reset hash size none)).move s.reader.base).threads i = (s.set i (.reset hash size none)).threads i from rfl, MuState.set_self] at this
    cases this
  | resetLoad i hash size hi => exact quiet i _ rfl rfl rfl (show H hash size from at_ hi)
  | resetStore i hash size a hi =>
    refine quiet i _ rfl rfl rfl ?_
    split
    · trivial
    · exact ⟨at_ hi, trivial⟩
  | firstStep i hash size pc rd hi hp => exact quiet i _ rfl rfl rfl ⟨(at_ hi).1, (at_ hi).2.next _ _ (by omega) rd⟩
  | firstDone i hash size o got err hi he => exact quiet i _ rfl rfl rfl ⟨(at_ hi).1, (at_ hi).2⟩
  | sendFirst i hash size got hi =>
    obtain ⟨h1, h2⟩ := move i .firstLoad rfl rfl rfl trivial
    refine ⟨h1, h2, fun q hq => ?_⟩
    cases hq
    exact ⟨got, (at_ hi).2, .inr ⟨rfl, hash, size, (at_ hi).1, rfl⟩⟩
  | arrive => exact ⟨rfl, h, fun q hq => by cases hq⟩
  | readStep i ends pc rd hi hp => exact quiet i _ rfl rfl rfl (RdPc.From.next (at_ hi) _ _ (by omega) rd)
  | readDone i ends o got err hi he => exact quiet i _ rfl rfl rfl (show PieceOf _ got from at_ hi)
  | send i ends o got hi =>
    obtain ⟨h1, h2⟩ := move i (.sentLoad ends) rfl rfl rfl trivial
    refine ⟨h1, h2, fun q hq => ?_⟩
    cases hq
    exact ⟨got, at_ hi, .inl rfl⟩
  | ret i failed hi => exact quiet i _ rfl rfl rfl (by split <;> trivial)
  | firstFails i hash size o got hi => exact quiet i _ rfl rfl rfl trivial
  | firstDies i hash size hi => exact quiet i _ rfl rfl rfl trivial
  | sendFirstFails i hash size got hi => exact quiet i _ rfl rfl rfl trivial
  | firstLoad i hi => exact quiet i _ rfl rfl rfl trivial
  | firstStore i w hi => exact quiet i .select rfl rfl rfl trivial
  | take i hi hp => exact quiet i .takeLoad rfl rfl rfl trivial
  | takeLoad i hi => exact quiet i _ rfl rfl rfl trivial
  | takeStore i w hi => exact quiet i (.loop 0) rfl rfl rfl trivial
  | cancel i hi hc => exact quiet i .exited rfl rfl rfl trivial
  | more i ends hi hw => exact quiet i _ rfl rfl rfl trivial
  | full i ends hi hw => exact quiet i _ rfl rfl rfl trivial
  | readFails i ends o got hi => exact quiet i _ rfl rfl rfl trivial
  | readDies i ends hi => exact quiet i _ rfl rfl rfl trivial
  | sendFails i ends o got hi => exact quiet i _ rfl rfl rfl trivial
  | sentLoad i ends hi => exact quiet i _ rfl rfl rfl trivial
  | sentStore i ends w hi => exact quiet i (.loop ends) rfl rfl rfl trivial
  | terminate i left failed hi hc => exact quiet i (.defers left failed) rfl rfl rfl trivial

/-! ## The daemon -/

section
variable {env : Env} {d dl : Path} {port : Nat}

/-- A datagram of this content from this address has arrived. -/
def Arrived (tr : List (DmEv × Option Out × DmSys)) (ret : Addr) (m : Msg) : Prop := ∃ a dg x b, tr = a ++ (.datagram dg ret, none, x) :: b ∧ parse (udpBuffer dg) = .ok m

/-- Hash and size of a chunk that was granted. -/
def Described (sha1 : Bytes → Sha1Hash) (tr : List (DmEv × Option Out × DmSys)) (key : UpKey) (hash : Sha1Hash) (size : Nat) : Prop :=
  ∃ chunk e content later, Spec.Granted tr key chunk e content later ∧ hash = sha1 (Spec.chunkOf e content chunk) ∧ size = (Spec.chunkOf e content chunk).length

/-- What holds of a goroutine that serves a datagram. -/
def Handler.Ok (sha1 : Bytes → Sha1Hash) (tr : List (DmEv × Option Out × DmSys)) (h : Handler) : Prop :=
  match h.pos with
  | .asked m => Arrived tr h.ret m
  | .known hash chunk cap => Arrived tr h.ret (.openReq hash chunk cap)
  | .opened key path content reader _ => ∃ chunk e later, Spec.Granted tr key chunk e content later ∧ path = e.filePath ∧ Described sha1 tr key reader.hash reader.size
  | _ => True

/-- What the upload may have seen. -/
def Seen (path : Path) (content : Bytes) (later : List (DmEv × Option Out × DmSys)) (v : Bytes) : Prop :=
  v = content ∨ ∃ x ∈ later, ∃ s : Daemon, x.2.2 = .alive s ∧ s.loop.fs path = some v

/-- What holds of an upload. -/
def UpConn.Ok (sha1 : Bytes → Sha1Hash) (tr : List (DmEv × Option Out × DmSys)) (key : UpKey) (u : UpConn) : Prop :=
  ∃ chunk e content later, Spec.Granted tr key chunk e content later ∧ u.path = e.filePath ∧ (∀ v ∈ u.mu.now :: u.mu.before, Seen e.filePath content later v) ∧
    ∀ i, (u.mu.threads i).From (Described sha1 tr key) (u.mu.now :: u.mu.before)

structure Daemon.Ok (sha1 : Bytes → Sha1Hash) (tr : List (DmEv × Option Out × DmSys)) (s : Daemon) : Prop where
  handlers : ∀ t h, s.handlers t = some h → h.Ok sha1 tr
  uploads : ∀ key u, s.uploads key = some u → u.Ok sha1 tr key

variable {tr : List (DmEv × Option Out × DmSys)} {sha1 : Bytes → Sha1Hash}

theorem Spec.Granted.more {key : UpKey} {chunk : UInt16} {e : Export} {content : Bytes} {later : List (DmEv × Option Out × DmSys)} (h : Spec.Granted tr key chunk e content later)
    (y : DmEv × Option Out × DmSys) : Spec.Granted (tr ++ [y]) key chunk e content (later ++ [y]) := by
  obtain ⟨a, dg, ret, x, b, ev, o, s, hash, cap, rfl, h⟩ := h
  exact ⟨a, dg, ret, x, b, ev, o, s, hash, cap, by simp, h⟩

theorem Arrived.more {ret : Addr} {m : Msg} (h : Arrived tr ret m) (y : DmEv × Option Out × DmSys) : Arrived (tr ++ [y]) ret m := by
  obtain ⟨a, dg, x, b, rfl, h⟩ := h
  exact ⟨a, dg, x, b ++ [y], by simp, h⟩

theorem Described.more {key : UpKey} {hash : Sha1Hash} {size : Nat} (h : Described sha1 tr key hash size) (y : DmEv × Option Out × DmSys) : Described sha1 (tr ++ [y]) key hash size := by
  obtain ⟨chunk, e, content, later, h1, h2⟩ := h
  exact ⟨chunk, e, content, _, h1.more y, h2⟩

theorem Seen.more {path : Path} {content v : Bytes} {later : List (DmEv × Option Out × DmSys)} (h : Seen path content later v) (y : DmEv × Option Out × DmSys) : Seen path content (later ++ [y]) v := by
  rcases h with h | ⟨x, h, h'⟩
  · exact .inl h
  · exact .inr ⟨x, List.mem_append_left _ h, h'⟩

theorem Handler.Ok.more {h : Handler} (hh : h.Ok sha1 tr) (y : DmEv × Option Out × DmSys) : h.Ok sha1 (tr ++ [y]) := by
  rcases h with ⟨ret, pos⟩
  cases pos with
  | asked m => exact Arrived.more hh y
  | known hash chunk cap => exact Arrived.more hh y
  | opened key path content reader cap =>
    obtain ⟨chunk, e, later, h1, h2, h3⟩ := hh
    exact ⟨chunk, e, _, h1.more y, h2, h3.more y⟩
  | reading => trivial
  | done => trivial

theorem UpConn.Ok.more {key : UpKey} {u : UpConn} (h : u.Ok sha1 tr key) (y : DmEv × Option Out × DmSys) : u.Ok sha1 (tr ++ [y]) key := by
  obtain ⟨chunk, e, content, later, h1, h2, h3, h4⟩ := h
  exact ⟨chunk, e, content, _, h1.more y, h2, fun v hv => (h3 v hv).more y, fun i => (h4 i).more (fun _ _ h => h.more y) (fun _ h => h)⟩

theorem Daemon.Ok.more {s : Daemon} (h : s.Ok sha1 tr) (y : DmEv × Option Out × DmSys) : s.Ok sha1 (tr ++ [y]) :=
  ⟨fun t hd ht => (h.handlers t hd ht).more y, fun key u hu => (h.uploads key u hu).more y⟩

/-- A handler goes on, and nothing else changes that matters here. -/
theorem Daemon.Ok.handler {s s' : Daemon} (h : s.Ok sha1 tr) {t : Nat} {hd : Handler} (h1 : s'.handlers = upd s.handlers t (some hd)) (h2 : s'.uploads = s.uploads) (h3 : hd.Ok sha1 tr) : s'.Ok sha1 tr := by
  refine ⟨fun t' hd' ht => ?_, fun key u hu => h.uploads key u (h2 ▸ hu)⟩
  rw [h1] at ht
  unfold upd at ht
  split at ht
  · cases ht; exact h3
  · exact h.handlers t' hd' ht

/-- An upload goes on. -/
theorem Daemon.Ok.upload {s s' : Daemon} (h : s.Ok sha1 tr) {key : UpKey} {u : UpConn} (h1 : s'.uploads = upd s.uploads key (some u)) (h2 : s'.handlers = s.handlers) (h3 : u.Ok sha1 tr key) : s'.Ok sha1 tr := by
  refine ⟨fun t hd ht => h.handlers t hd (h2 ▸ ht), fun key' u' hu => ?_⟩
  rw [h1] at hu
  unfold upd at hu
  split at hu
  · rename_i hk
    cases hu; rw [hk]; exact h3
  · exact h.uploads key' u' hu

theorem Daemon.Ok.step (hh : Healthy env d) {s s' : Daemon} {e : DmEv} {o : Option Out} (h : s.Ok env.sha1 tr) (hreach : Reach env d dl (.running s.loop.cat s.loop.fs))
    (hs : DmStep env d port s e o (.alive s')) : s'.Ok env.sha1 (tr ++ [(e, o, .alive s')]) ∧ ∀ key p, o = some (.packet key p) → Spec.MayLeave env.sha1 tr key p := by
  have quiet : s'.Ok env.sha1 (tr ++ [(e, o, .alive s')]) → (∀ key p, o ≠ some (.packet key p)) →
      s'.Ok env.sha1 (tr ++ [(e, o, .alive s')]) ∧ ∀ key p, o = some (.packet key p) → Spec.MayLeave env.sha1 tr key p :=
    fun h1 h2 => ⟨h1, fun key p h3 => absurd h3 (h2 key p)⟩
  have hm := h.more (e, o, .alive s')
  have at_ : ∀ {t : Nat} {hd : Handler} {pos : HPos}, s.handlers t = some hd → hd.pos = pos → (Handler.mk hd.ret pos).Ok env.sha1 tr := by
    rintro t ⟨ret, pos⟩ pos' h1 rfl
    exact h.handlers t _ h1
  cases hs with
  | loop a l hl => exact quiet ⟨hm.handlers, hm.uploads⟩ (fun _ _ => nofun)
  | arrives t dg ret m ht hp => exact quiet (hm.handler rfl rfl ⟨tr, dg, _, [], rfl, hp⟩) (fun _ _ => nofun)
  | garbage dg ret e hp => exact quiet hm (fun _ _ => nofun)
  | replies t hd m w fl f ip to bytes s' ht hp hm' hrun => exact quiet (hm.handler rfl rfl trivial) (fun _ _ => nofun)
  | replyFails t hd m w fl f e s' ht hp hm' hrun => exact quiet (hm.handler rfl rfl trivial) (fun _ _ => nofun)
  | looks t hd hash chunk cap fl e s' ht hp hrun =>
    refine quiet (hm.handler rfl rfl ?_) (fun _ _ => nofun)
    obtain ⟨-, -, g3, -⟩ := contains_effect hh hreach hash fl _ _ hrun
    have hown := C27_own hh hreach hash e (g3 e rfl)
    show Arrived _ hd.ret (.openReq e.sha1Hash chunk cap)
    rw [hown]
    exact Arrived.more (at_ ht hp) _
  | looksFails t hd hash chunk cap fl e s' ht hp hrun => exact quiet (hm.handler rfl rfl trivial) (fun _ _ => nofun)
  | opens t hd hash chunk cap choices fl reader s' path content host ht hp hrun hsize hip hpath hfile =>
    refine quiet (hm.handler rfl rfl ?_) (fun _ _ => nofun)
    obtain ⟨a, dg, x, b, g1, g2⟩ := (at_ ht hp : Arrived tr hd.ret (.openReq hash chunk cap))
    obtain ⟨k1, k2⟩ := C35_harmless hh hreach hash chunk.toNat choices _ _ _ hrun
    have hI : Inv env d dl s.loop.cat s.loop.fs := hreach.inv hh.abs hh.utf8
    obtain ⟨ind, hind, hw⟩ := hI.split
    have hr2 : Reach env d dl (.running s'.cat s'.fs) := Reach.call hreach (.reader hash chunk.toNat choices) trivial _ _ (CM.void_ok _ _ _ _ hrun)
    have hrun' := hrun
    unfold Daemon.st at hrun'
    rw [hind] at hrun'
    obtain ⟨-, e, content', m2, m3, m4, m5⟩ :=
      ((ro_reader (dl := dl) (fs0 := s.loop.fs) env hw.ownGet hash chunk.toNat choices) ⟨_, s.loop.fs, fl⟩ (RO.init d dl ind s.loop.fs)).1 _ _ hrun'
    rw [← observe_eq d dl, ← hind, ← k2] at m2
    have hp' := observe_path hh hr2 hash e m2
    rw [hpath] at hp'
    cases hp'
    rw [← k1, hfile] at m4
    cases m4
    obtain ⟨q1, q2, -, -⟩ := C23_describes env.sha1 content _ _ _ reader m5.symm
    have G : ∀ y : Daemon, y.loop.cat = s'.cat → y.loop.fs = s'.fs → Spec.Granted (tr ++ [(.handler t, none, .alive y)]) ⟨host, UInt16.ofNat hd.ret.port⟩ chunk e content [] := by
      intro y h1 h2
      refine ⟨a, dg, hd.ret, x, b, .handler t, none, y, hash, cap, by rw [g1]; simp, g2, ⟨hip, rfl⟩, ?_, m3, ?_⟩
      · rw [h1, h2]; exact m2
      · rw [h2]; exact hfile
    exact ⟨chunk, e, [], G _ rfl rfl, rfl, chunk, e, content, [], G _ rfl rfl, q1, q2⟩
  | opensNever t hd hash chunk cap choices fl s' ht hp hrun => exact quiet (hm.handler rfl rfl trivial) (fun _ _ => nofun)
  | opensNot t hd hash chunk cap choices fl reader s' ht hp hrun hsize => exact quiet (hm.handler rfl rfl trivial) (fun _ _ => nofun)
  | opensFails t hd hash chunk cap choices fl e s' ht hp hrun => exact quiet (hm.handler rfl rfl trivial) (fun _ _ => nofun)
  | kicks t hd key path content reader cap i u ht hp hu hi =>
    refine quiet ?_ (fun _ _ => nofun)
    have h1 := (at_ ht hp).more (DmEv.handler t, none, .alive { s.goes t hd .done with
        uploads := upd s.uploads key (some { u with mu := (u.mu.set i (.reset reader.hash reader.size .none)).move u.mu.reader.base }) })
    obtain ⟨chunk, e, later, h2, h3, h4⟩ := h1
    refine Daemon.Ok.upload (hm.handler (s' := s.goes t hd .done) rfl rfl trivial) rfl rfl ?_
    have hu' : u.Ok env.sha1 (tr ++ [(DmEv.handler t, none, .alive { s.goes t hd .done with
        uploads := upd s.uploads key (some { u with mu := (u.mu.set i (.reset reader.hash reader.size .none)).move u.mu.reader.base }) })]) key := by
      rcases hk : s.uploads key with _ | v
      · rw [hk] at hu
        subst hu
        refine ⟨chunk, e, content, later, h2, h3, fun v hv => ?_, fun i => trivial⟩
        exact .inl (List.mem_singleton.1 hv)
      · rw [hk] at hu
        subst hu
        exact hm.uploads key _ hk
    obtain ⟨chunk', e', content', later', k1, k2, k3, k4⟩ := hu'
    refine ⟨chunk', e', content', later', k1, k2, k3, fun j => ?_⟩
    show (((u.mu.set i (.reset reader.hash reader.size .none))).threads j).From _ _
    by_cases hj : j = i
    · subst hj; rw [MuState.set_self]; exact h4
    · rw [MuState.set_other hj]; exact k4 j
  | acks t hd off host u ht hp hip hu =>
    refine quiet (Daemon.Ok.upload (hm.handler (s' := s.goes t hd .done) rfl rfl trivial) rfl rfl ?_) (fun _ _ => nofun)
    exact hm.uploads _ u hu
  | acksNone t hd off host ht hp hip hu => exact quiet (hm.handler rfl rfl trivial) (fun _ _ => nofun)
  | acksFails t hd off e ht hp hip => exact quiet (hm.handler rfl rfl trivial) (fun _ _ => nofun)
  | delivers t t' hd m i table ht hp hm' hi hfree htable => exact quiet (hm.handler (hd := { hd with pos := .done }) rfl rfl trivial) (fun _ _ => nofun)
  | uploads key u o mu hu hst hnew hack hsee hlive =>
    obtain ⟨chunk, e, content, later, h1, h2, h3, h4⟩ := h.uploads key u hu
    obtain ⟨g1, g2, g3⟩ := mu_from hst h4 hnew hsee
    refine ⟨Daemon.Ok.upload hm rfl rfl ?_, fun key' p hp => ?_⟩
    · refine UpConn.Ok.more (u := { u with mu := mu }) ⟨chunk, e, content, later, h1, h2, ?_, g2⟩ _
      show ∀ v ∈ mu.now :: mu.before, _
      rw [g1, hsee]; exact h3
    · rcases o with _ | q
      · cases hp
      cases hp
      obtain ⟨got, ⟨v, hv, i, n, hn, hgot⟩, q2⟩ := g3 p rfl
      refine ⟨chunk, e, content, later, got, h1, ⟨v, i, n, h3 v hv, hn, hgot⟩, ?_⟩
      rcases q2 with q2 | ⟨q2, hash, size, ⟨chunk', e', content', later', r1, rfl, rfl⟩, q4⟩
      · exact .inl q2
      · exact .inr ⟨q2, chunk', e', content', later', r1, q4⟩
  | sees key u new hu hnew =>
    refine quiet (Daemon.Ok.upload hm rfl rfl ?_) (fun _ _ => nofun)
    obtain ⟨chunk, e, content, later, h1, h2, h3, h4⟩ := h.uploads key u hu
    refine ⟨chunk, e, content, _, h1.more _, h2, fun v hv => ?_, fun i => (h4 i).more (fun _ _ h => h.more _) (fun _ h => List.mem_cons_of_mem _ h)⟩
    rcases List.mem_cons.1 hv with rfl | hv
    · exact .inr ⟨_, List.mem_append_right _ (List.mem_singleton.2 rfl), _, rfl, by rw [← h2]; exact hnew⟩
    · exact (h3 v hv).more _
  | discovery t table ht hnew hlive => exact quiet ⟨hm.handlers, hm.uploads⟩ (fun _ _ => nofun)

/-- A daemon that dies sends nothing by that. -/
theorem DmStep.quiet {s : Daemon} {e : DmEv} {o : Option Out} (hs : DmStep env d port s e o .dead) (key : UpKey) (p : Packet) : o ≠ some (.packet key p) := by
  generalize hx : DmSys.dead = x at hs
  cases hs <;> first | (cases hx; done) | (intro h; cases h)

theorem DmRun.ok (hh : Healthy env d) {c : Cat} {fs : FS} (h0 : Reach env d dl (.running c fs)) {x : DmSys} (h : DmRun env d port (.fresh c fs) tr x) :
    ∀ s, x = .alive s → s.Ok env.sha1 tr := by
  induction h with
  | refl => rintro s hs; cases hs; exact ⟨fun _ _ => nofun, fun _ _ => nofun⟩
  | step h1 hst ih => rintro s rfl; exact ((ih _ rfl).step hh (h1.reach h0) hst).1

/-- C118: whatever datagrams arrive from whatever hosts, whatever downloads, commands and other programs do at the same time, and whatever fails: every packet of an upload that leaves the
daemon goes to a host that asked for a chunk before; the catalogue had that chunk at some time after the host asked; and the bytes are a piece of that file, as it was then or at some time
between then and now.  In front of them, in a first packet, are hash and size of a chunk that was asked for by that host and that the catalogue had. -/
theorem C118_leaves (hh : Healthy env d) {c : Cat} {fs : FS} (h0 : Reach env d dl (.running c fs)) {x : DmSys} (h : DmRun env d port (.fresh c fs) tr x)
    {a b : List (DmEv × Option Out × DmSys)} {ev : DmEv} {y : DmSys} {key : UpKey} {p : Packet} (htr : tr = a ++ (ev, some (.packet key p), y) :: b) : Spec.MayLeave env.sha1 a key p := by
  induction h generalizing b with
  | refl => simp at htr
  | @step tr s x e o h1 hst ih =>
    rcases List.eq_nil_or_concat b with rfl | ⟨b', z, rfl⟩
    · obtain ⟨h2, h3⟩ := List.append_inj' htr rfl
      cases h3
      subst h2
      cases y with
      | alive s' => exact ((h1.ok hh h0 s rfl).step hh (h1.reach h0) hst).2 key p rfl
      | dead => exact absurd rfl (hst.quiet _ _)
    · have : tr ++ [(e, o, x)] = (a ++ (ev, some (.packet key p), y) :: b') ++ [z] := by rw [htr]; simp
      exact ih (List.append_inj' this rfl).1

/-- An answer may leave: it goes to a host that asked, and it says which chunks of the file asked for the catalogue has, or what the catalogue shows about files (sizes, counts, hash and name). -/
def Spec.MayAnswer (port : Nat) (tr : List (DmEv × Option Out × DmSys)) (s : Daemon) (ip : Bytes) (to : Nat) (bytes : Bytes) : Prop :=
  ∃ a dg ret x b, tr = a ++ (.datagram dg ret, none, x) :: b ∧ ip = ret.ip.bytes ∧
    ((∃ r h q own cs, parse (udpBuffer dg) = .ok (.discoverReq r h q) ∧ to = port ∧ bytes = (Msg.discoverResp r own (UInt16.ofNat port) cs).serialize ∧
        (cs = [] ∨ ∃ e, observe s.loop.cat s.loop.fs h = .ok e ∧ ∃ held : Nat → Bool, (∀ i, i < 2 ^ 63 → (held i = true ↔ e.saved i)) ∧ Advertises held e.progress.sizeOf.toNat q cs)) ∨
     ∃ (r : UInt16) (h : Sha1Hash) (files : List Export), parse (udpBuffer dg) = .ok (.listReq r h) ∧ to = ret.port ∧ bytes = (Msg.listResp r (files.map listEntry)).serialize ∧
        ∀ f ∈ files, ∃ k, (h.isBlank = false → k = h) ∧ observe s.loop.cat s.loop.fs k = .ok f)

theorem ro_listLoop_shows {ind : IndexFile} {fs0 : FS} (ho : Own ind.index) (order : List Sha1Hash) :
    Triple (RO d dl ind fs0) (listLoop order) (fun l c fs => RO d dl ind fs0 c fs ∧ ∀ f ∈ l, ∃ k, obsRec d fs0 ind.index k = .ok f) (RO d dl ind fs0) := by
  induction order with
  | nil => exact Triple.pure _ (fun _ _ h => ⟨h, fun f hf => by cases hf⟩)
  | cons h rest ih =>
    refine Triple.bind (Triple.getIndex (fun _ _ h => h)) ?_
    intro i
    split
    · exact ih.pre (fun _ _ h => h.1)
    · rename_i r hr
      refine Triple.bind ((ro_fillRecord ho h r).pre ?_) ?_
      · rintro c fs ⟨h1, h2⟩
        refine ⟨h1, ?_⟩
        rw [h2]; exact hr
      · intro r'
        refine Triple.bind (Q := fun e c fs => RO d dl ind fs0 c fs ∧ obsRec d fs0 ind.index h = .ok e) (Triple.lift _ ?_ (fun c fs h => h.1)) ?_
        · rintro e he c fs ⟨h1, r0, p, h2, h3, rfl⟩
          refine ⟨h1, ?_⟩
          unfold obsRec
          rw [h2]
          simp only [h3]
          cases he
          rfl
        intro e
        refine Triple.facts fun he => ?_
        exact Triple.bind ih (fun l => Triple.pure _ (fun _ _ h => ⟨h.1, fun f hf => by
          rcases List.mem_cons.1 hf with rfl | hf
          · exact ⟨_, he⟩
          · exact h.2 f hf⟩))

theorem listFiles_shows (hh : Healthy env d) {c : Cat} {fs : FS} (hreach : Reach env d dl (.running c fs)) (order : List Sha1Hash) (fl : List Fault) (l : List Export) (s' : St)
    (hrun : listFiles order ⟨c, fs, fl⟩ = (.ok l, s')) : ∀ f ∈ l, ∃ k, observe c fs k = .ok f := by
  have hI : Inv env d dl c fs := hreach.inv hh.abs hh.utf8
  obtain ⟨ind, rfl, hw⟩ := hI.split
  have := (Triple.bind (Triple.getIndex (fun _ _ h => h)) (fun _ => (ro_listLoop_shows (dl := dl) (fs0 := fs) hw.ownGet order).pre (fun _ _ h => h.1)) :
    Triple (RO d dl ind fs) (listFiles order) _ _)
  obtain ⟨-, h2⟩ := (this ⟨_, fs, fl⟩ (RO.init d dl ind fs)).1 _ _ hrun
  intro f hf
  obtain ⟨k, hk⟩ := h2 f hf
  exact ⟨k, by rw [observe_eq]; exact hk⟩

/-- C118, for the answers to requests. -/
theorem C118_answers (hh : Healthy env d) {c : Cat} {fs : FS} (h0 : Reach env d dl (.running c fs)) {s : Daemon} (h : DmRun env d port (.fresh c fs) tr (.alive s))
    {ev : DmEv} {ip : Bytes} {to : Nat} {bytes : Bytes} {x : DmSys} (hs : DmStep env d port s ev (some (.answer ip to bytes)) x) : Spec.MayAnswer port tr s ip to bytes := by
  have hok := h.ok hh h0 s rfl
  have hreach := h.reach h0
  generalize ho : some (Out.answer ip to bytes) = o at hs
  cases hs with
  | replies t hd m w fl f ip' to' bytes' s' ht hp hm hrun =>
    cases ho
    have harr : Arrived tr hd.ret m := by
      have := hok.handlers t hd ht
      rcases hd with ⟨ret, pos⟩
      cases hp
      exact this
    obtain ⟨a, dg, x, b, rfl, hparse⟩ := harr
    refine ⟨a, dg, hd.ret, x, b, rfl, ?_⟩
    unfold replyTo at hm
    split at hm
    · cases hm
      rename_i r h q
      unfold respondToDiscoverHosts at hrun
      obtain ⟨lip, s1, h1, hrun⟩ := (IOM.bind_ok_iff _ _ _ _ _).1 hrun
      obtain rfl := lift_state _ _ _ _ h1
      obtain ⟨own, s1, h1, hrun⟩ := (IOM.bind_ok_iff _ _ _ _ _).1 hrun
      obtain rfl := lift_state _ _ _ _ h1
      obtain ⟨cs, s1, h2, hrun⟩ := (IOM.bind_ok_iff _ _ _ _ _).1 hrun
      obtain ⟨u, s2, h3, hrun⟩ := (IOM.bind_ok_iff _ _ _ _ _).1 hrun
      cases hrun
      refine ⟨rfl, .inl ⟨r, h, q, own, cs, hparse, rfl, rfl, ?_⟩⟩
      unfold answerChunks at h2
      split at h2
      · cases h2; exact .inl rfl
      · obtain ⟨y, s3, h4, h5⟩ := (IOM.bind_ok_iff _ _ _ _ _).1 h2
        split at h5
        · cases h5; exact .inl rfl
        · rename_i e
          refine .inr ⟨e, ?_⟩
          have hcon : contains h (s.st fl) = (.ok e, s3.st) := by
            unfold IOM.attempt at h4
            rw [SM.cat_apply] at h4
            rcases hc : contains h (s.st fl) with ⟨r, st⟩
            simp only [hc] at h4
            cases r <;> first | (cases h4; rfl) | cases h4
          obtain ⟨-, -, g3, -⟩ := contains_effect hh hreach h fl _ _ hcon
          have hobs := g3 e rfl
          refine ⟨hobs, e.progress.has, fun i hi => (e.saved_iff i hi).symm, ?_⟩
          rw [IOM.lift_apply] at h5
          have h6 := (Prod.mk.inj h5).1
          by_cases hq : q.length % 2 = 0
          · obtain ⟨cs', k1, k2⟩ := answers_ok hh hreach h e hobs q hq
            rw [k1] at h6
            cases h6
            exact k2
          · rw [if_pos (by omega), C09_odd_panics _ _ ((pairUp_none_iff q).2 (by omega))] at h6
            cases h6
    · cases hm
      rename_i r h
      unfold respondToListFiles at hrun
      split at hrun
      · rename_i hb
        obtain ⟨files, s1, h1, hrun⟩ := (IOM.bind_ok_iff _ _ _ _ _).1 hrun
        obtain ⟨l, h2, h3⟩ := orExit_ok _ _ _ _ h1 rfl
        cases h3
        obtain ⟨u, s2, h3, hrun⟩ := (IOM.bind_ok_iff _ _ _ _ _).1 hrun
        cases hrun
        refine ⟨rfl, .inr ⟨r, h, files, hparse, rfl, rfl, fun f hf => ?_⟩⟩
        obtain ⟨k, hk⟩ := listFiles_shows hh hreach w.order fl files s1.st (SM.cat_ok _ _ _ _ h2).1 f hf
        exact ⟨k, fun hb' => absurd (hb.symm.trans hb') (by decide), hk⟩
      · rename_i hb
        obtain ⟨f, s1, h1, hrun⟩ := (IOM.bind_ok_iff _ _ _ _ _).1 hrun
        obtain ⟨l, h2, h3⟩ := orExit_ok _ _ _ _ h1 rfl
        cases h3
        obtain ⟨files, s2, h3, hrun⟩ := (IOM.bind_ok_iff _ _ _ _ _).1 hrun
        cases h3
        obtain ⟨u, s2, h3, hrun⟩ := (IOM.bind_ok_iff _ _ _ _ _).1 hrun
        cases hrun
        refine ⟨rfl, .inr ⟨r, h, [f], hparse, rfl, rfl, fun f' hf => ?_⟩⟩
        obtain ⟨-, -, g3, -⟩ := contains_effect hh hreach h fl _ _ (SM.cat_ok _ _ _ _ h2).1
        rw [List.mem_singleton.1 hf]
        exact ⟨h, fun _ => rfl, g3 f rfl⟩
    · cases hm
  | uploads key u o mu => cases o <;> cases ho
  | _ => cases ho

/-- An upload with one goroutine. -/
def MuState.one (r : SectionReader) (off : Nat) (cap : UInt16) (content : Bytes) (x : MuThread) : MuState :=
  ⟨{ r with off := off }, 0, cap, 0, false, fun j => if j = 0 then x else .none, content, []⟩

theorem MuState.one_set (r : SectionReader) (off off' : Nat) (cap : UInt16) (content : Bytes) (x y : MuThread) :
    ((MuState.one r off cap content x).set 0 y).move off' = .one r off' cap content y := by
  unfold MuState.one MuState.set MuState.move
  congr 1
  funext j
  simp only []
  by_cases h : j = 0
  · rw [if_pos h, if_pos h]
  · rw [if_neg h, if_neg h, if_neg h]

/-- The upload to `key` is this in some run, and the last output was `o`. -/
def Gets (env : Env) (d : Path) (port : Nat) (c : Cat) (fs : FS) (key : UpKey) (o : Option Out) (u : UpConn) : Prop :=
  ∃ tr ev x s, DmRun env d port (.fresh c fs) (tr ++ [(ev, o, x)]) (.alive s) ∧ s.uploads key = some u

theorem Gets.next {c : Cat} {fs : FS} {key : UpKey} {o : Option Out} {path : Path} {r : SectionReader} {off off' : Nat} {cap : UInt16} {content : Bytes} {x y : MuThread} {p : Option Packet}
    (h : Gets env d port c fs key o ⟨path, .one r off cap content x⟩) (hs : MuStep (.one r off cap content x) p (((MuState.one r off cap content x).set 0 y).move off')) (hx : x ≠ .none)
    (hy : y ≠ .dead) : Gets env d port c fs key (p.map (.packet key)) ⟨path, .one r off' cap content y⟩ := by
  obtain ⟨tr, ev, z, s, h1, h2⟩ := h
  rw [MuState.one_set] at hs
  refine ⟨_, _, _, _, .step h1 (.uploads s key _ p _ h2 hs ?_ (Nat.le_refl _) rfl ?_), ?_⟩
  · intro i hi
    have : i ≠ 0 := by
      rintro rfl
      exact hx hi
    show (if i = 0 then y else MuThread.none) = .none
    rw [if_neg this]
  · intro i
    show (if i = 0 then y else MuThread.none) ≠ .dead
    split
    · exact hy
    · nofun
  · simp [upd]

/-- The other half of C118: a chunk that the catalogue has is sent to a host that asks for it, in some run: hash and size of the chunk, and its first bytes. -/
theorem C118_sent (hh : Healthy env d) {c : Cat} {fs : FS} (hreach : Reach env d dl (.running c fs)) (dg : Bytes) (ret : Addr) (host : ByteArr 4) (h : Sha1Hash) (n cap : UInt16) (e : Export)
    (content : Bytes) (hp : parse (udpBuffer dg) = .ok (.openReq h n cap)) (hip : newIpv4 ret.ip = .ok host) (ho : observe c fs h = .ok e) (hn : e.saved n.toNat)
    (hf : fs e.filePath = some content) (hcs : 0 < e.chunkSize) :
    ∃ tr ev x s, DmRun env d port (.fresh c fs) (tr ++ [(ev, some (.packet ⟨host, UInt16.ofNat ret.port⟩
        ⟨0, (env.sha1 (Spec.chunkOf e content n)).1 ++ put32 (UInt32.ofNat (Spec.chunkOf e content n).length) ++ (Spec.chunkOf e content n).take 1000⟩), x)]) (.alive s) := by
  obtain ⟨hc1, hc2⟩ := observe_chunkSize hh hreach h e ho
  -- `Contains`
  rcases hcon : contains h ⟨c, fs, []⟩ with ⟨r0, s1⟩
  have hr0 : r0 = .ok e := by
    have : (contains h ⟨c, fs, []⟩).1 = .ok e := ho
    rw [hcon] at this; exact this
  subst hr0
  obtain ⟨g1, g2, -, g4⟩ := contains_effect hh hreach h [] _ _ hcon
  have hr1 := g4 rfl
  have ho1 : observe s1.cat s1.fs h = .ok e := by rw [g2]; exact ho
  have hown := C27_own hh hreach h e ho
  -- `GetChunkReader`
  obtain ⟨cr, s2, hread⟩ := C35_serves hh hr1 h n.toNat (List.replicate (e.chunkSize.toNat + 1) .good) e content ho1 hn (by rw [g1]; exact hf) (by simp [List.countP_replicate])
  obtain ⟨k1, k2⟩ := C35_harmless hh hr1 h n.toNat _ [] _ _ hread
  have hr2 : Reach env d dl (.running s2.cat s2.fs) := Reach.call hr1 (.reader h n.toNat _) trivial _ _ (CM.void_ok _ _ _ _ hread)
  have hI1 : Inv env d dl s1.cat s1.fs := hr1.inv hh.abs hh.utf8
  obtain ⟨ind, hind, hw⟩ := hI1.split
  have hread' := hread
  rw [hind] at hread'
  obtain ⟨-, e2, content2, m2, m3, m4, m5⟩ :=
    ((ro_reader (dl := dl) (fs0 := s1.fs) env hw.ownGet h n.toNat _) ⟨_, s1.fs, []⟩ (RO.init d dl ind s1.fs)).1 _ _ hread'
  rw [← observe_eq d dl, ← hind, ho1] at m2
  cases m2
  rw [g1, hf] at m4
  cases m4
  obtain ⟨q1, q2, -, q4⟩ := C23_describes env.sha1 content _ _ _ cr m5.symm
  have hsz : cr.size ≤ 4294967295 := by
    rw [q2]
    unfold slice
    simp
    omega
  have hpath : s2.cat.pathOf h = some e.filePath := observe_path hh hr2 h e (by rw [k2]; exact ho1)
  -- the datagram, and its goroutine
  have a1 := DmRun.step (env := env) (d := d) (port := port) (DmRun.refl (s0 := .fresh c fs)) (.arrives _ 0 dg ret _ rfl hp)
  have a2 := DmRun.step a1 (.looks _ 0 ⟨ret, .asked (.openReq h n cap)⟩ h n cap [] e s1 rfl rfl hcon)
  have a3 := DmRun.step a2 (.opens _ 0 ⟨ret, .known e.sha1Hash n cap⟩ e.sha1Hash n cap (List.replicate (e.chunkSize.toNat + 1) .good) [] cr s2 e.filePath content host rfl rfl
    (by rw [hown]; exact hread) hsz hip (by rw [hown]; exact hpath) (by rw [k1, g1]; exact hf))
  have a4 := DmRun.step a3 (.kicks _ 0 ⟨ret, .opened ⟨host, UInt16.ofNat ret.port⟩ e.filePath content cr cap⟩ _ _ _ _ _ 0 ⟨e.filePath, .init cr.reader cap content⟩ rfl rfl rfl rfl)
  -- the upload
  have b0 : Gets env d port c fs ⟨host, UInt16.ofNat ret.port⟩ none ⟨e.filePath, .one cr.reader cr.reader.base cap content (.reset cr.hash cr.size none)⟩ := by
    refine ⟨_, _, _, _, a4, ?_⟩
    show upd _ _ _ _ = _
    unfold upd
    rw [if_pos rfl]
    rfl
  have b1 := b0.next (y := .reset cr.hash cr.size (some cr.reader.base)) (off' := cr.reader.base) (.resetLoad _ 0 cr.hash cr.size rfl) nofun nofun
  have b2 := b1.next (y := .first cr.hash cr.size .seek) (off' := cr.reader.base) (by
    have := MuStep.resetStore (MuState.one cr.reader cr.reader.base cap content (.reset cr.hash cr.size (some cr.reader.base))) 0 cr.hash cr.size cr.reader.base rfl
    rw [show RdPc.next (MuState.one cr.reader cr.reader.base cap content (.reset cr.hash cr.size (some cr.reader.base))).reader
        (MuState.one cr.reader cr.reader.base cap content (.reset cr.hash cr.size (some cr.reader.base))).now 0 .good (.seekStore cr.reader.base) =
      (.test 0, cr.reader.base) by simp [RdPc.next, MuState.one]] at this
    exact this) nofun nofun
  have rd : ∀ {o : Option Out} {off : Nat} {pc : RdPc} {pc' : RdPc} {off' : Nat}, Gets env d port c fs ⟨host, UInt16.ofNat ret.port⟩ o ⟨e.filePath, .one cr.reader off cap content (.first cr.hash cr.size pc)⟩ →
      pc.busy = true → RdPc.next { cr.reader with off := off } content 1000 .good pc = (pc', off') →
      Gets env d port c fs ⟨host, UInt16.ofNat ret.port⟩ none ⟨e.filePath, .one cr.reader off' cap content (.first cr.hash cr.size pc')⟩ := by
    intro o off pc pc' off' h1 h2 h3
    refine h1.next (y := .first cr.hash cr.size pc') (p := none) (off' := off') ?_ nofun nofun
    have := MuStep.firstStep (MuState.one cr.reader off cap content (.first cr.hash cr.size pc)) 0 cr.hash cr.size pc .good rfl h2
    rw [show RdPc.next (MuState.one cr.reader off cap content (.first cr.hash cr.size pc)).reader
        (MuState.one cr.reader off cap content (.first cr.hash cr.size pc)).now 1000 .good pc = (pc', off') from h3] at this
    exact this
  have hbase : cr.reader.base = n.toNat * e.chunkSize.toNat := by rw [q4]
  have hlim : cr.reader.limit = cr.reader.base + e.chunkSize.toNat := by rw [q4]
  have b3 := rd b2 rfl rfl
  have b4 := rd b3 rfl (pc' := .test 0) (off' := cr.reader.base) (by simp [RdPc.next])
  have b5 := rd b4 rfl (pc' := .clip 0) (off' := cr.reader.base) (by
    show ((if cr.reader.limit ≤ cr.reader.base then _ else _), cr.reader.base) = _
    rw [if_neg (by omega)])
  have b6 := rd b5 rfl (pc' := .fetch 0 (min 1000 e.chunkSize.toNat)) (off' := cr.reader.base) (by
    show ((if cr.reader.limit < cr.reader.base then _ else RdPc.fetch 0 (min 1000 (cr.reader.limit - cr.reader.base))), cr.reader.base) = _
    rw [if_neg (by omega), hlim, Nat.add_sub_cancel_left])
  have b7 := rd b6 rfl rfl
  have b8 := rd b7 rfl rfl
  have b9 := rd b8 rfl rfl
  have b10 := b9.next (y := .announce cr.hash cr.size ((content.drop cr.reader.base).take (min 1000 e.chunkSize.toNat))) (.firstDone _ 0 cr.hash cr.size 0 _ _ rfl (by
    show (if _ then _ else _) ≠ _
    split <;> nofun)) nofun nofun
  obtain ⟨tr, ev, x, s, b11, -⟩ := b10.next (y := .firstLoad) (.sendFirst _ 0 cr.hash cr.size _ rfl) nofun nofun
  refine ⟨tr, ev, x, s, ?_⟩
  have hbytes : (content.drop cr.reader.base).take (min 1000 e.chunkSize.toNat) = (Spec.chunkOf e content n).take 1000 := by
    unfold Spec.chunkOf
    rw [hbase, List.take_take]
  rw [hbytes, q1, q2] at b11
  exact b11

/-- There is a catalogue with a chunk, a host that asks for it, and a run in which it is sent; what `C118_leaves` says of that run. -/
example (sha1 : Bytes → Sha1Hash) (json : JsonCodec) : ∃ c fs tr ev x s key p, Reach (exEnv sha1 json) exDir exDown (.running c fs) ∧
    DmRun (exEnv sha1 json) exDir 7 (.fresh c fs) (tr ++ [(ev, some (.packet key p), x)]) (.alive s) ∧ p.data = (sha1 [3, 4]).1 ++ put32 2 ++ [3, 4] ∧ Spec.MayLeave sha1 tr key p := by
  obtain ⟨c, fs, e, h1, h2, h3, h4, h5, h6, h7, h8, h9⟩ := ex_complete sha1 json Sha1Hash.zero
  have hh := ex_healthy sha1 json
  have hp := parse_buffer (.openReq Sha1Hash.zero 1 1) trivial (by decide) []
  obtain ⟨tr, ev, x, s, hrun⟩ := C118_sent (port := 7) hh h1.reach _ exAddr ⟨[10, 0, 0, 2], rfl⟩ Sha1Hash.zero 1 1 e [1, 2, 3, 4, 5] hp (by rfl) h2 h7 h4 (by omega)
  refine ⟨c, fs, tr, ev, x, s, _, _, h1.reach, hrun, ?_, C118_leaves hh h1.reach hrun rfl⟩
  have : Spec.chunkOf e [1, 2, 3, 4, 5] 1 = [3, 4] := by
    unfold Spec.chunkOf
    rw [h3]
    rfl
  rw [this]
  rfl

end
end Flu
