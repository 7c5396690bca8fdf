import Verif.Props.Flood
import Verif.Props.Fatal
/-!
# How a datagram is handled in the running daemon

C137: in every state of the running daemon a datagram can be handled at once, whatever else is under way, and then has the effect that the handler has when it is taken by itself.  The daemon of
`Model/Daemon.lean` takes small steps; the handlers of `Model/Server.lean` are functions.  The theorems here say that the first does what the second says.
-/
namespace Flu
open Spec

namespace Spec

/-- What leaves in the course of a run. -/
def outs (tr : List (DmEv × Option Out × DmSys)) : List Out := tr.filterMap (fun x => x.2.1)

/-- The goroutine of this datagram, and nobody else, takes the steps. -/
def ByItself (dg : Bytes) (ret : Addr) (t : Nat) (tr : List (DmEv × Option Out × DmSys)) : Prop := ∀ x ∈ tr, x.1 = .datagram dg ret ∨ x.1 = .handler t

/-- Catalogue and disk are those of `st`; downloads, uploads and searches are where they were. -/
structure OnlyCat (s s' : Daemon) (st : St) : Prop where
  loop : s'.loop = { s.loop with cat := st.cat, fs := st.fs }
  uploads : s'.uploads = s.uploads
  table : s'.table = s.table

/-- What has come of a datagram, other than a request for a chunk, is what the handler taken by itself has come to. -/
def Shows (s : Daemon) (r : Res Done × Srv) (os : List Out) (x : DmSys) : Prop :=
  match r.1 with
  | .ok (.sent ip to bytes) => os = [.answer ip to bytes] ∧ ∃ s', x = .alive s' ∧ OnlyCat s s' r.2.st
  | .ok (.acked key) => os = [] ∧ ∃ s' u, x = .alive s' ∧ s'.loop = s.loop ∧ s'.table = s.table ∧ s.uploads key = some u ∧
      s'.uploads = upd s.uploads key (some { u with mu := { u.mu with pending := u.mu.pending + 1 } })
  | .ok (.deliver i m) => os = [] ∧ ∃ s' t, x = .alive s' ∧ s'.loop = s.loop ∧ s'.uploads = s.uploads ∧ s.table.threads t = .idle ∧
      s'.table = { s.table with threads := upd s.table.threads t (.wantDeliver ⟨i, m.type⟩ m) }
  | .ok (.first _ _) => False
  | .ok .reading => False
  | .err _ => os = [] ∧ ∃ s', x = .alive s' ∧ OnlyCat s s' r.2.st
  | _ => os = [] ∧ x = .dead

/-- `StartUpload` up to the upload: the reader of the chunk and the address (serverStartUpload.go:11-40). -/
def openPrep (env : Env) (reads : List AtChoice) (hash : Sha1Hash) (chunk : UInt16) (ret : Addr) : SM (Option (Export × ChunkReader × UpKey)) := do
  let ir ← SM.cat (contains hash)
  match ← SM.cat (getChunkReader env ir.sha1Hash chunk.toNat reads) with
  | none => return none
  | some reader =>
    if reader.size > 4294967295 then IOM.lift (.err .chunkTooLarge)
    else do
      let host ← IOM.lift (newIpv4 ret.ip)
      return some (ir, reader, ⟨host, UInt16.ofNat ret.port⟩)

/-- What has come of a request for a chunk is what `StartUpload` has come to: with a reader, `kickstart` has begun on the upload for the address, which is new if there was none. -/
def ShowsOpen (s : Daemon) (t : Nat) (cap : UInt16) (r : Res (Option (Export × ChunkReader × UpKey)) × Srv) (x : DmSys) : Prop :=
  match r.1 with
  | .ok (some (_, reader, key)) => ∃ s' u i path content, x = .alive s' ∧ s'.loop = { s.loop with cat := r.2.st.cat, fs := r.2.st.fs } ∧ s'.table = s.table ∧
      r.2.st.fs path = some content ∧ u = (s.uploads key).getD ⟨path, .init reader.reader cap content⟩ ∧ u.mu.threads i = .none ∧
      s'.uploads = upd s.uploads key (some { u with mu := (u.mu.set i (.reset reader.hash reader.size .none)).move u.mu.reader.base })
  | .ok none => ∃ s' h, x = .alive s' ∧ OnlyCat s s' r.2.st ∧ s'.handlers t = some h ∧ h.pos = .reading
  | .err _ => ∃ s' h, x = .alive s' ∧ OnlyCat s s' r.2.st ∧ s'.handlers t = some h ∧ h.pos = .done
  | _ => x = .dead

/-- A step of the goroutine of a datagram. -/
def isStep (t : Nat) : DmEv → Bool
  | .handler u => u == t
  | _ => false

/-- How many steps of a run are those of one goroutine. -/
def stepsOf (t : Nat) (tr : List (DmEv × Option Out × DmSys)) : Nat := tr.countP fun x => isStep t x.1

end Spec

/-! ### There is always room -/

/-- Only finitely many goroutines have been started. -/
structure Roomy (s : Daemon) : Prop where
  handlers : ∃ n, ∀ t, n ≤ t → s.handlers t = none
  table : ∃ n, ∀ t, n ≤ t → s.table.threads t = .idle
  uploads : ∀ key u, s.uploads key = some u → ∃ n, ∀ i, n ≤ i → u.mu.threads i = .none

theorem TStep.others {t t' : Nat} {s s' : Table} (h : TStep t s s') (hne : t' ≠ t) : s'.threads t' = s.threads t' := by
  cases h <;> first | rfl | exact upd_other _ _ hne

theorem room_upd {α : Type} {f : Nat → α} {z : α} (h : ∃ n, ∀ t, n ≤ t → f t = z) (t : Nat) (x : α) : ∃ n, ∀ t', n ≤ t' → upd f t x t' = z := by
  obtain ⟨n, hn⟩ := h
  exact ⟨max n (t + 1), fun t' ht => by rw [upd_other _ _ (by omega)]; exact hn t' (by omega)⟩

theorem room_uploads {s : Daemon} (hr : Roomy s) (key : UpKey) (u : UpConn) (hu : ∃ n, ∀ i, n ≤ i → u.mu.threads i = .none) :
    ∀ k v, upd s.uploads key (some u) k = some v → ∃ n, ∀ i, n ≤ i → v.mu.threads i = .none := by
  intro k v hv
  by_cases e : k = key
  · subst e; rw [upd_same] at hv; cases hv; exact hu
  · rw [upd_other _ _ e] at hv; exact hr.uploads k v hv

section
variable {env : Env} {d : Path} {port : Nat}

theorem Roomy.step {s s' : Daemon} {e : DmEv} {o : Option Out} (hr : Roomy s) (h : DmStep env d port s e o (.alive s')) : Roomy s' := by
  generalize hx : DmSys.alive s' = x at h
  cases h with
  | loop a l h => cases hx; exact ⟨hr.handlers, hr.table, hr.uploads⟩
  | arrives t dg ret m ht hp => cases hx; exact ⟨room_upd hr.handlers _ _, hr.table, hr.uploads⟩
  | garbage dg ret e hp => cases hx; exact hr
  | replies t h m w fl f ip to bytes s' ht hp hm hrun => cases hx; exact ⟨room_upd hr.handlers _ _, hr.table, hr.uploads⟩
  | replyFails t h m w fl f e s' ht hp hm hrun => cases hx; exact ⟨room_upd hr.handlers _ _, hr.table, hr.uploads⟩
  | looks t h hash chunk cap fl e s' ht hp hrun => cases hx; exact ⟨room_upd hr.handlers _ _, hr.table, hr.uploads⟩
  | looksFails t h hash chunk cap fl e s' ht hp hrun => cases hx; exact ⟨room_upd hr.handlers _ _, hr.table, hr.uploads⟩
  | opens t h hash chunk cap choices fl reader s' path content host ht hp hrun hsize hip hpath hfile => cases hx; exact ⟨room_upd hr.handlers _ _, hr.table, hr.uploads⟩
  | opensNever t h hash chunk cap choices fl s' ht hp hrun => cases hx; exact ⟨room_upd hr.handlers _ _, hr.table, hr.uploads⟩
  | opensNot t h hash chunk cap choices fl reader s' ht hp hrun hsize => cases hx; exact ⟨room_upd hr.handlers _ _, hr.table, hr.uploads⟩
  | opensFails t h hash chunk cap choices fl e s' ht hp hrun => cases hx; exact ⟨room_upd hr.handlers _ _, hr.table, hr.uploads⟩
  | kicks t h key path content reader cap i u ht hp hu hi =>
    cases hx
    refine ⟨room_upd hr.handlers _ _, hr.table, room_uploads hr _ _ ?_⟩
    have hn : ∃ n, ∀ i, n ≤ i → u.mu.threads i = .none := by
      cases hk : s.uploads key with
      | none => rw [hk] at hu; subst hu; exact ⟨0, fun _ _ => rfl⟩
      | some v => rw [hk] at hu; subst hu; exact hr.uploads key _ hk
    exact room_upd (f := u.mu.threads) hn i _
  | acks t h off host u ht hp hip hu => cases hx; exact ⟨room_upd hr.handlers _ _, hr.table, room_uploads hr _ _ (by obtain ⟨n, hn⟩ := hr.uploads _ _ hu; exact ⟨n, hn⟩)⟩
  | acksNone t h off host ht hp hip hu => cases hx; exact ⟨room_upd hr.handlers _ _, hr.table, hr.uploads⟩
  | acksFails t h off e ht hp hip => cases hx; exact ⟨room_upd hr.handlers _ _, hr.table, hr.uploads⟩
  | delivers t t' h m i table ht hp hm hi hfree htable => cases hx; subst htable; exact ⟨room_upd hr.handlers _ _, room_upd hr.table _ _, hr.uploads⟩
  | uploads key u o mu hu hs hnew hack hsee hlive =>
    cases hx
    refine ⟨hr.handlers, hr.table, room_uploads hr _ _ ?_⟩
    obtain ⟨n, hn⟩ := hr.uploads _ _ hu
    exact ⟨n, fun i hi => hnew i (hn i hi)⟩
  | sees key u new hu hnew => cases hx; exact ⟨hr.handlers, hr.table, room_uploads hr _ _ (by obtain ⟨n, hn⟩ := hr.uploads _ _ hu; exact ⟨n, hn⟩)⟩
  | discovery t table h hnew hlive =>
    cases hx
    refine ⟨hr.handlers, ?_, hr.uploads⟩
    obtain ⟨n, hn⟩ := hr.table
    exact ⟨max n (t + 1), fun t' ht => by rw [h.others (by omega)]; exact hn t' (by omega)⟩
  | _ => cases hx

theorem DmRun.roomy {c : Cat} {fs : FS} {tr : List (DmEv × Option Out × DmSys)} {s : Daemon} (h : DmRun env d port (.fresh c fs) tr (.alive s)) : Roomy s := by
  suffices key : ∀ x, DmRun env d port (.fresh c fs) tr x → ∀ s, x = .alive s → Roomy s from key _ h s rfl
  intro x hx
  clear h
  induction hx with
  | refl => intro s e; cases e; exact ⟨⟨0, fun _ _ => rfl⟩, ⟨0, fun _ _ => rfl⟩, fun _ _ h => by cases h⟩
  | step h h' ih => intro s' e; subst e; exact (ih _ rfl).step h'

end

/-! ### Answering does not look at the uploads -/

/-- The uploads are neither looked at nor changed. -/
def UpsFree {α : Type} (x : SM α) : Prop := ∀ st ups, x ⟨st, ups⟩ = ((x ⟨st, fun _ => none⟩).1, ⟨(x ⟨st, fun _ => none⟩).2.st, ups⟩)

theorem UpsFree.lift {α : Type} (r : Res α) : UpsFree (IOM.lift r) := fun _ _ => rfl
theorem UpsFree.pure {α : Type} (a : α) : UpsFree (pure a) := fun _ _ => rfl
theorem UpsFree.cat {α : Type} (x : CM α) : UpsFree (SM.cat x) := fun _ _ => rfl
theorem UpsFree.bind {α β : Type} {x : SM α} {f : α → SM β} (hx : UpsFree x) (hf : ∀ a, UpsFree (f a)) : UpsFree (x >>= f) := by
  intro st ups
  have h0 := hx st (fun _ => none)
  rw [IOM.bind_apply, IOM.bind_apply, hx st ups]
  rcases hz : x ⟨st, fun _ => none⟩ with ⟨r, st', u'⟩
  rw [hz] at h0
  cases h0
  cases r with
  | ok a => exact hf a st' ups
  | err e => rfl
  | panic => rfl
  | exit => rfl
  | crash => rfl
theorem UpsFree.orExit {α : Type} {x : SM α} (hx : UpsFree x) : UpsFree (IOM.orExit x) := by
  intro st ups
  unfold IOM.orExit
  rw [hx st ups]
  rcases x ⟨st, fun _ => none⟩ with ⟨r, st', u'⟩
  cases r <;> rfl
theorem UpsFree.attempt {α : Type} {x : SM α} (hx : UpsFree x) : UpsFree (IOM.attempt x) := by
  intro st ups
  unfold IOM.attempt
  rw [hx st ups]
  rcases x ⟨st, fun _ => none⟩ with ⟨r, st', u'⟩
  cases r <;> rfl

theorem UpsFree.answerChunks (h : Sha1Hash) (q : List UInt16) : UpsFree (answerChunks h q) := by
  unfold Flu.answerChunks
  split
  · exact UpsFree.pure _
  · refine UpsFree.bind (UpsFree.attempt (UpsFree.cat _)) (fun a => ?_)
    cases a with
    | error e => exact UpsFree.pure _
    | ok ir => exact UpsFree.lift _

theorem UpsFree.discover (port : Nat) (w : Wire) (r : UInt16) (h : Sha1Hash) (q : List UInt16) (ret : Addr) : UpsFree (respondToDiscoverHosts port w r h q ret) :=
  UpsFree.bind (UpsFree.lift _) (fun _ => UpsFree.bind (UpsFree.lift _) (fun _ => UpsFree.bind (UpsFree.answerChunks h q) (fun _ => UpsFree.bind (UpsFree.lift _) (fun _ => UpsFree.pure _))))

theorem UpsFree.listing (w : Wire) (r : UInt16) (h : Sha1Hash) (ret : Addr) : UpsFree (respondToListFiles w r h ret) := by
  unfold respondToListFiles
  simp only
  split
  · exact UpsFree.bind (UpsFree.orExit (UpsFree.cat _)) (fun _ => UpsFree.bind (UpsFree.lift _) (fun _ => UpsFree.pure _))
  · exact UpsFree.bind (UpsFree.orExit (UpsFree.cat _)) (fun _ => UpsFree.bind (UpsFree.pure _) (fun _ => UpsFree.bind (UpsFree.lift _) (fun _ => UpsFree.pure _)))

theorem sent_discover (port : Nat) (w : Wire) (r : UInt16) (h : Sha1Hash) (q : List UInt16) (ret : Addr) (s s' : Srv) (x : Done)
    (hrun : respondToDiscoverHosts port w r h q ret s = (.ok x, s')) : ∃ ip to bytes, x = .sent ip to bytes := by
  unfold respondToDiscoverHosts at hrun
  obtain ⟨_, s1, -, hrun⟩ := (IOM.bind_ok_iff _ _ _ _ _).1 hrun
  obtain ⟨_, s2, -, hrun⟩ := (IOM.bind_ok_iff _ _ _ _ _).1 hrun
  obtain ⟨_, s3, -, hrun⟩ := (IOM.bind_ok_iff _ _ _ _ _).1 hrun
  obtain ⟨_, s4, -, hrun⟩ := (IOM.bind_ok_iff _ _ _ _ _).1 hrun
  cases hrun
  exact ⟨_, _, _, rfl⟩

theorem sent_listing (w : Wire) (r : UInt16) (h : Sha1Hash) (ret : Addr) (s s' : Srv) (x : Done)
    (hrun : respondToListFiles w r h ret s = (.ok x, s')) : ∃ ip to bytes, x = .sent ip to bytes := by
  unfold respondToListFiles at hrun
  simp only at hrun
  split at hrun
  · obtain ⟨_, s1, -, hrun⟩ := (IOM.bind_ok_iff _ _ _ _ _).1 hrun
    obtain ⟨_, s2, -, hrun⟩ := (IOM.bind_ok_iff _ _ _ _ _).1 hrun
    cases hrun
    exact ⟨_, _, _, rfl⟩
  · obtain ⟨_, s1, -, hrun⟩ := (IOM.bind_ok_iff _ _ _ _ _).1 hrun
    obtain ⟨_, s2, -, hrun⟩ := (IOM.bind_ok_iff _ _ _ _ _).1 hrun
    obtain ⟨_, s3, -, hrun⟩ := (IOM.bind_ok_iff _ _ _ _ _).1 hrun
    cases hrun
    exact ⟨_, _, _, rfl⟩

theorem byItself_one (dg : Bytes) (ret : Addr) (t : Nat) (o : Option Out) (x : DmSys) : ByItself dg ret t [(.datagram dg ret, o, x)] := by
  intro y hy
  rcases List.mem_cons.1 hy with rfl | hy
  · exact .inl rfl
  · cases hy

theorem continueUpload_apply (ret : Addr) (st : St) (ups : UpKey → Option Up) : continueUpload ret ⟨st, ups⟩ =
      match newIpv4 ret.ip with
      | .ok host => (match ups ⟨host, UInt16.ofNat ret.port⟩ with
        | none => (.err .noUpload, ⟨st, ups⟩)
        | some up => (.ok (.acked ⟨host, UInt16.ofNat ret.port⟩),
          ⟨st, fun k => if k = ⟨host, UInt16.ofNat ret.port⟩ then some { up with conn := { up.conn with pending := up.conn.pending + 1 } } else ups k⟩))
      | .err e => (.err e, ⟨st, ups⟩)
      | .panic => (.panic, ⟨st, ups⟩)
      | .exit => (.exit, ⟨st, ups⟩)
      | .crash => (.crash, ⟨st, ups⟩) := by
  unfold continueUpload
  rcases newIpv4 ret.ip with host | e | _ | _ | _ <;> rfl

section
variable {env : Env} {d : Path} {port : Nat}

/-- The goroutine of a request that is answered at once. -/
theorem answers_at_once {s : Daemon} (t : Nat) (h : Handler) (m : Msg) (w : Wire) (fl : List Fault) (f : SM Done) (ups : UpKey → Option Up) (ht : s.handlers t = some h)
    (hp : h.pos = .asked m) (hm : replyTo port w h.ret m = some f) (hf : UpsFree f) (hsent : ∀ s s' x, f s = (.ok x, s') → ∃ ip to bytes, x = .sent ip to bytes) :
    ∃ o x, DmStep env d port s (.handler t) o x ∧ Shows s (f ⟨s.st fl, ups⟩) o.toList x := by
  rw [hf (s.st fl) ups]
  rcases hz : f ⟨s.st fl, fun _ => none⟩ with ⟨r, s'⟩
  cases r with
  | ok x =>
    obtain ⟨ip, to, bytes, rfl⟩ := hsent _ _ _ hz
    exact ⟨_, _, .replies s t h m w fl f ip to bytes s' ht hp hm hz, rfl, _, rfl, rfl, rfl, rfl⟩
  | err e => exact ⟨_, _, .replyFails s t h m w fl f e s' ht hp hm hz, rfl, _, rfl, rfl, rfl, rfl⟩
  | panic => exact ⟨_, _, .replyDies s t h m w fl f ht hp hm (by rw [hz]; rfl), rfl, rfl⟩
  | exit => exact ⟨_, _, .replyDies s t h m w fl f ht hp hm (by rw [hz]; rfl), rfl, rfl⟩
  | crash => exact ⟨_, _, .replyDies s t h m w fl f ht hp hm (by rw [hz]; rfl), rfl, rfl⟩

/-- What `Shows` says does not depend on the goroutines of datagrams. -/
theorem Spec.Shows.before {s s1 : Daemon} {r : Res Done × Srv} {os : List Out} {x : DmSys} (h : Shows s1 r os x) (h1 : s1.loop = s.loop) (h2 : s1.uploads = s.uploads) (h3 : s1.table = s.table) :
    Shows s r os x := by
  obtain ⟨l, u, tb, hd⟩ := s
  obtain ⟨l1, u1, tb1, hd1⟩ := s1
  simp only at h1 h2 h3
  subst h1 h2 h3
  obtain ⟨r, srv⟩ := r
  cases r with
  | ok y =>
    cases y with
    | sent ip to bytes => obtain ⟨a, s', b, c⟩ := h; exact ⟨a, s', b, ⟨c.loop, c.uploads, c.table⟩⟩
    | first k p => exact h
    | acked k => exact h
    | deliver i m => exact h
    | reading => exact h
  | err e => obtain ⟨a, s', b, c⟩ := h; exact ⟨a, s', b, ⟨c.loop, c.uploads, c.table⟩⟩
  | panic => exact h
  | exit => exact h
  | crash => exact h

/-- C137: in every state of the daemon, any datagram other than a request for a chunk can be handled at once, and what comes of it is what its handler does by itself. -/
theorem C137_served {c : Cat} {fs : FS} {tr : List (DmEv × Option Out × DmSys)} {s : Daemon} (hrun : DmRun env d port (.fresh c fs) tr (.alive s)) (dg : Bytes) (ret : Addr) (w : Wire)
    (fl : List Fault) (ups : UpKey → Option Up) (hups : ∀ k, ups k = none ↔ s.uploads k = none) (hno : ∀ h n cap, parse (udpBuffer dg) ≠ .ok (.openReq h n cap)) :
    ∃ t tr' x, s.handlers t = none ∧ DmRun env d port s tr' x ∧ ByItself dg ret t tr' ∧ tr'.length ≤ 2 ∧ Shows s (serveDatagram env port w dg ret ⟨s.st fl, ups⟩) (outs tr') x := by
  have hroom := hrun.roomy
  obtain ⟨t, htn⟩ := hroom.handlers
  have ht := htn t (Nat.le_refl t)
  obtain ⟨t', htn'⟩ := hroom.table
  have ht' := htn' t' (Nat.le_refl t')
  refine ⟨t, ?_⟩
  unfold serveDatagram handleMessage
  rw [IOM.bind_apply, IOM.lift_apply]
  have hdata := (parse_types (dg.take 1024 ++ List.replicate (1024 - (dg.take 1024).length) 0) (by simp; omega)).2.2.2.2
  rcases hp : parse (udpBuffer dg) with m | e | _ | _ | _
  rotate_left
  · exact ⟨[(.datagram dg ret, none, .alive s)], .alive s, ht, .step .refl (.garbage s dg ret e hp), byItself_one dg ret t _ _, Nat.le_succ 1, rfl, s, rfl, rfl, rfl, rfl⟩
  · exact ⟨[(.datagram dg ret, none, .dead)], .dead, ht, .step .refl (.garbageDies s dg ret (by rw [hp]; rfl)), byItself_one dg ret t _ _, Nat.le_succ 1, rfl, rfl⟩
  · exact ⟨[(.datagram dg ret, none, .dead)], .dead, ht, .step .refl (.garbageDies s dg ret (by rw [hp]; rfl)), byItself_one dg ret t _ _, Nat.le_succ 1, rfl, rfl⟩
  · exact ⟨[(.datagram dg ret, none, .dead)], .dead, ht, .step .refl (.garbageDies s dg ret (by rw [hp]; rfl)), byItself_one dg ret t _ _, Nat.le_succ 1, rfl, rfl⟩
  let s1 : Daemon := { s with handlers := upd s.handlers t (some ⟨ret, .asked m⟩) }
  have h1 : DmStep env d port s (.datagram dg ret) none (.alive s1) := .arrives s t dg ret m ht hp
  have hs1 : s1.handlers t = some ⟨ret, .asked m⟩ := upd_same _ _ _
  have fin : ∀ r : Res Done × Srv, (∃ o x, DmStep env d port s1 (.handler t) o x ∧ Shows s1 r o.toList x) →
      ∃ tr' x, s.handlers t = none ∧ DmRun env d port s tr' x ∧ ByItself dg ret t tr' ∧ tr'.length ≤ 2 ∧ Shows s r (outs tr') x := by
    rintro r ⟨o, x, h2, h3⟩
    refine ⟨[(.datagram dg ret, none, .alive s1), (.handler t, o, x)], x, ht, .step (tr := [(.datagram dg ret, none, .alive s1)]) (.step (tr := []) .refl h1) h2, ?_, by simp, ?_⟩
    · intro y hy
      rcases List.mem_cons.1 hy with rfl | hy
      · exact .inl rfl
      · rcases List.mem_cons.1 hy with rfl | hy
        · exact .inr rfl
        · cases hy
    · have ho : outs [((.datagram dg ret : DmEv), (none : Option Out), DmSys.alive s1), (.handler t, o, x)] = o.toList := by
        cases o <;> rfl
      rw [ho]
      exact h3.before rfl rfl rfl
  simp only
  cases m with
  | discoverReq r h q => exact fin _ (answers_at_once t ⟨ret, .asked (.discoverReq r h q)⟩ (.discoverReq r h q) w fl _ ups hs1 rfl rfl (UpsFree.discover port w r h q ret) (fun _ _ _ => sent_discover port w r h q ret _ _ _))
  | listReq r h => exact fin _ (answers_at_once t ⟨ret, .asked (.listReq r h)⟩ (.listReq r h) w fl _ ups hs1 rfl rfl (UpsFree.listing w r h ret) (fun _ _ _ => sent_listing w r h ret _ _ _))
  | openReq h n cap => exact absurd hp (hno h n cap)
  | data o p => exact absurd hp (hdata o p)
  | ack off =>
    apply fin
    simp only [continueUpload_apply]
    rcases hip : newIpv4 ret.ip with host | e | _ | _ | _
    rotate_left
    · exact ⟨_, _, .acksFails s1 t ⟨ret, .asked (.ack off)⟩ off e hs1 rfl hip, rfl, _, rfl, rfl, rfl, rfl⟩
    · exact ⟨_, _, .acksDies s1 t ⟨ret, .asked (.ack off)⟩ off hs1 rfl (by rw [hip]; rfl), rfl, rfl⟩
    · exact ⟨_, _, .acksDies s1 t ⟨ret, .asked (.ack off)⟩ off hs1 rfl (by rw [hip]; rfl), rfl, rfl⟩
    · exact ⟨_, _, .acksDies s1 t ⟨ret, .asked (.ack off)⟩ off hs1 rfl (by rw [hip]; rfl), rfl, rfl⟩
    rcases hu : s.uploads ⟨host, UInt16.ofNat ret.port⟩ with _ | u
    · simp only [(hups _).2 hu]
      exact ⟨_, _, .acksNone s1 t ⟨ret, .asked (.ack off)⟩ off host hs1 rfl hip hu, rfl, _, rfl, rfl, rfl, rfl⟩
    · rcases hk : ups ⟨host, UInt16.ofNat ret.port⟩ with _ | v
      · rw [(hups _).1 hk] at hu; cases hu
      simp only [hk]
      exact ⟨_, _, .acks s1 t ⟨ret, .asked (.ack off)⟩ off host u hs1 rfl hip hu, rfl, _, u, rfl, rfl, rfl, hu, rfl⟩
  | discoverResp r a p cs =>
    exact fin _ ⟨_, _, .delivers s1 t t' ⟨ret, .asked (.discoverResp r a p cs)⟩ (.discoverResp r a p cs) r _ hs1 rfl (.inl rfl) rfl ht' rfl, rfl, _, t', rfl, rfl, rfl, ht', rfl⟩
  | listResp r es =>
    exact fin _ ⟨_, _, .delivers s1 t t' ⟨ret, .asked (.listResp r es)⟩ (.listResp r es) r _ hs1 rfl (.inr rfl) rfl ht' rfl, rfl, _, t', rfl, rfl, rfl, ht', rfl⟩

/-! ### A request for a chunk -/

/-- `StartUpload` is the preparation followed by the upload. -/
theorem startUpload_prep (w : Wire) (hash : Sha1Hash) (chunk cap : UInt16) (ret : Addr) : startUpload env w hash chunk cap ret =
    (openPrep env w.reads hash chunk ret >>= fun
      | none => pure .reading
      | some (ir, reader, key) => do
        let fs ← SM.cat getFS
        openUpload w ((fs ir.filePath).getD []) reader cap key) := by
  funext s
  unfold startUpload openPrep
  simp only [IOM.bind_apply]
  rcases SM.cat (contains hash) s with ⟨r, s1⟩
  cases r with
  | ok ir =>
    simp only
    rcases SM.cat (getChunkReader env ir.sha1Hash chunk.toNat w.reads) s1 with ⟨r, s2⟩
    cases r with
    | ok o =>
      cases o with
      | none => rfl
      | some reader =>
        simp only
        split
        · rfl
        · rw [IOM.bind_apply, IOM.bind_apply, IOM.lift_apply]
          rcases newIpv4 ret.ip with host | e | _ | _ | _ <;> rfl
    | err e => rfl
    | panic => rfl
    | exit => rfl
    | crash => rfl
  | err e => rfl
  | panic => rfl
  | exit => rfl
  | crash => rfl

theorem getIndexRecord_path (h : Sha1Hash) (s s' : St) (r : Record) (hrun : getIndexRecord h s = (.ok r, s')) : s'.cat.pathOf h = some r.filePath := by
  have hq := OkClean.getIndexRecord h s r s' hrun
  obtain ⟨⟨d, dl, i⟩, fs, fl⟩ := s
  cases i with
  | none => cases hq
  | some ind =>
    rw [St.quiet_eq] at hq
    simp only at hq
    rw [getIndexRecord_nil] at hq
    rcases hm : mapGet ind.index h with _ | r0
    · rw [hm] at hq; cases hq
    rw [hm] at hq
    simp only at hq
    rcases hv : viewProgress d fs r0 with p | e | _ | _ | _
    all_goals rw [hv] at hq
    rotate_left
    · cases hq
    · cases hq
    · cases hq
    · cases hq
    simp only [Prod.mk.injEq, Res.ok.injEq] at hq
    obtain ⟨h1, h2⟩ := hq
    have hc : s'.cat = ⟨d, dl, some { ind with index := loadInto ind.index r0 p }⟩ := (congrArg St.cat h2).symm
    rw [hc, ← h1]
    unfold Cat.pathOf loadInto
    simp only [Option.bind_some]
    split
    · rw [hm]; rfl
    · rw [mapGet_put]
      by_cases e : r0.sha1Hash = h
      · rw [if_pos e]; rfl
      · rw [if_neg e, hm]; rfl

theorem getChunkReader_file (h : Sha1Hash) (n : Nat) (ch : List AtChoice) (s s' : St) (o : Option ChunkReader) (hrun : getChunkReader env h n ch s = (.ok o, s')) :
    ∃ path content, s'.cat.pathOf h = some path ∧ s'.fs path = some content := by
  unfold getChunkReader at hrun
  obtain ⟨r, s1, h1, hrun⟩ := (IOM.bind_ok_iff _ _ _ _ _).1 hrun
  have hp := getIndexRecord_path h s s1 r h1
  rcases hpf : r.progressFile with _ | p
  · rw [hpf] at hrun; cases hrun
  rw [hpf] at hrun
  simp only at hrun
  obtain ⟨b, s2, h2, hrun⟩ := (IOM.bind_ok_iff _ _ _ _ _).1 hrun
  rw [IOM.lift_apply] at h2
  obtain ⟨-, rfl⟩ := Prod.mk.inj h2
  split at hrun
  · cases hrun
  obtain ⟨_, s3, h3, hrun⟩ := (IOM.bind_ok_iff _ _ _ _ _).1 hrun
  obtain ⟨f, s4, h4, hrun⟩ := (IOM.bind_ok_iff _ _ _ _ _).1 hrun
  rw [getFS_apply] at h4
  cases h4
  have h3c : s3.cat = s1.cat := by
    have ht : Triple (fun c fs => c = s1.cat) osTouch (fun _ c fs => c = s1.cat) (fun c fs => c = s1.cat) := Triple.osTouch (fun _ _ h => h)
    exact (ht s1 rfl).1 _ _ h3
  rcases hc : s3.fs r.filePath with _ | content
  · rw [hc] at hrun; cases hrun
  rw [hc] at hrun
  cases hrun
  exact ⟨r.filePath, content, by rw [h3c]; exact hp, hc⟩

/-- C137: so it is with a request for a chunk: what comes of it is what `StartUpload` prepares by itself, and then the upload for the address has begun. -/
theorem C137_opened {c : Cat} {fs : FS} {tr : List (DmEv × Option Out × DmSys)} {s : Daemon} (hrun : DmRun env d port (.fresh c fs) tr (.alive s)) (dg : Bytes) (ret : Addr) (hash : Sha1Hash)
    (chunk cap : UInt16) (hp : parse (udpBuffer dg) = .ok (.openReq hash chunk cap)) (reads : List AtChoice) (fl : List Fault) (ups : UpKey → Option Up) :
    ∃ t tr' x, s.handlers t = none ∧ DmRun env d port s tr' x ∧ ByItself dg ret t tr' ∧ tr'.length ≤ 4 ∧ outs tr' = [] ∧ ShowsOpen s t cap (openPrep env reads hash chunk ret ⟨s.st fl, ups⟩) x := by
  have hroom := hrun.roomy
  obtain ⟨t, htn⟩ := hroom.handlers
  have ht := htn t (Nat.le_refl t)
  refine ⟨t, ?_⟩
  let h1 : Handler := ⟨ret, .asked (.openReq hash chunk cap)⟩
  let s1 : Daemon := { s with handlers := upd s.handlers t (some h1) }
  have e1 : DmStep env d port s (.datagram dg ret) none (.alive s1) := .arrives s t dg ret _ ht hp
  have hs1 : s1.handlers t = some h1 := upd_same _ _ _
  have two : ∀ x, DmStep env d port s1 (.handler t) none x → ∃ tr', DmRun env d port s tr' x ∧ ByItself dg ret t tr' ∧ tr'.length ≤ 2 ∧ outs tr' = [] := by
    intro x e2
    refine ⟨[(.datagram dg ret, none, .alive s1), (.handler t, none, x)], .step (tr := [(.datagram dg ret, none, .alive s1)]) (.step (tr := []) .refl e1) e2, ?_, Nat.le_refl 2, rfl⟩
    intro y hy
    simp only [List.mem_cons, List.not_mem_nil, or_false] at hy
    rcases hy with rfl | rfl
    · exact .inl rfl
    · exact .inr rfl
  have more : ∀ tr' s' x n, DmRun env d port s tr' (.alive s') → ByItself dg ret t tr' → tr'.length ≤ n → outs tr' = [] → DmStep env d port s' (.handler t) none x →
      ∃ tr'', DmRun env d port s tr'' x ∧ ByItself dg ret t tr'' ∧ tr''.length ≤ n + 1 ∧ outs tr'' = [] := by
    intro tr' s' x n a b l q e
    refine ⟨tr' ++ [(.handler t, none, x)], .step a e, ?_, by simp; omega, ?_⟩
    · intro y hy
      rcases List.mem_append.1 hy with hy | hy
      · exact b y hy
      · simp only [List.mem_cons, List.not_mem_nil, or_false] at hy
        exact .inr (by rw [hy])
    · unfold outs at q ⊢
      rw [List.filterMap_append, q]; rfl
  unfold openPrep
  rw [IOM.bind_apply, SM.cat_apply]
  simp only
  rcases hc : contains hash (s.st fl) with ⟨r, st1⟩
  rcases r with ir | e | _ | _ | _
  rotate_left
  · obtain ⟨tr', a, b, l, q⟩ := two _ (.looksFails s1 t h1 hash chunk cap fl e st1 hs1 rfl hc)
    exact ⟨tr', _, ht, a, b, by omega, q, _, _, rfl, ⟨rfl, rfl, rfl⟩, upd_same _ _ _, rfl⟩
  · obtain ⟨tr', a, b, l, q⟩ := two _ (.looksDies s1 t h1 hash chunk cap fl hs1 rfl (by rw [show contains hash (s1.st fl) = _ from hc]; rfl))
    exact ⟨tr', _, ht, a, b, by omega, q, rfl⟩
  · obtain ⟨tr', a, b, l, q⟩ := two _ (.looksDies s1 t h1 hash chunk cap fl hs1 rfl (by rw [show contains hash (s1.st fl) = _ from hc]; rfl))
    exact ⟨tr', _, ht, a, b, by omega, q, rfl⟩
  · obtain ⟨tr', a, b, l, q⟩ := two _ (.looksDies s1 t h1 hash chunk cap fl hs1 rfl (by rw [show contains hash (s1.st fl) = _ from hc]; rfl))
    exact ⟨tr', _, ht, a, b, by omega, q, rfl⟩
  obtain ⟨tr2, a2, b2, l2, q2⟩ := two _ (.looks s1 t h1 hash chunk cap fl ir st1 hs1 rfl hc)
  let h2 : Handler := ⟨ret, .known ir.sha1Hash chunk cap⟩
  let s2 : Daemon := s1.after st1 t h1 (.known ir.sha1Hash chunk cap)
  have hs2 : s2.handlers t = some h2 := upd_same _ _ _
  have next : ∀ x, DmStep env d port s2 (.handler t) none x → ∃ tr', DmRun env d port s tr' x ∧ ByItself dg ret t tr' ∧ tr'.length ≤ 3 ∧ outs tr' = [] :=
    fun x e => more tr2 _ x 2 a2 b2 l2 q2 e
  simp only
  rw [IOM.bind_apply, SM.cat_apply]
  simp only
  have hst : s2.st st1.faults = st1 := rfl
  rcases hg : getChunkReader env ir.sha1Hash chunk.toNat reads st1 with ⟨r, st2⟩
  rcases r with o | e | _ | _ | _
  rotate_left
  · obtain ⟨tr', a, b, l, q⟩ := next _ (.opensFails s2 t h2 ir.sha1Hash chunk cap reads st1.faults e st2 hs2 rfl hg)
    exact ⟨tr', _, ht, a, b, by omega, q, _, _, rfl, ⟨rfl, rfl, rfl⟩, upd_same _ _ _, rfl⟩
  · obtain ⟨tr', a, b, l, q⟩ := next _ (.opensDies s2 t h2 ir.sha1Hash chunk cap reads st1.faults hs2 rfl (.inl (by rw [hst, hg]; rfl)))
    exact ⟨tr', _, ht, a, b, by omega, q, rfl⟩
  · obtain ⟨tr', a, b, l, q⟩ := next _ (.opensDies s2 t h2 ir.sha1Hash chunk cap reads st1.faults hs2 rfl (.inl (by rw [hst, hg]; rfl)))
    exact ⟨tr', _, ht, a, b, by omega, q, rfl⟩
  · obtain ⟨tr', a, b, l, q⟩ := next _ (.opensDies s2 t h2 ir.sha1Hash chunk cap reads st1.faults hs2 rfl (.inl (by rw [hst, hg]; rfl)))
    exact ⟨tr', _, ht, a, b, by omega, q, rfl⟩
  cases o with
  | none =>
    obtain ⟨tr', a, b, l, q⟩ := next _ (.opensNever s2 t h2 ir.sha1Hash chunk cap reads st1.faults st2 hs2 rfl hg)
    exact ⟨tr', _, ht, a, b, by omega, q, _, _, rfl, ⟨rfl, rfl, rfl⟩, upd_same _ _ _, rfl⟩
  | some reader =>
    simp only
    split
    · rename_i hsize
      obtain ⟨tr', a, b, l, q⟩ := next _ (.opensNot s2 t h2 ir.sha1Hash chunk cap reads st1.faults reader st2 hs2 rfl hg (.inl (by omega)))
      exact ⟨tr', _, ht, a, b, by omega, q, _, _, rfl, ⟨rfl, rfl, rfl⟩, upd_same _ _ _, rfl⟩
    · rename_i hsize
      rw [IOM.bind_apply, IOM.lift_apply]
      rcases hip : newIpv4 ret.ip with host | e | _ | _ | _
      rotate_left
      · obtain ⟨tr', a, b, l, q⟩ := next _ (.opensNot s2 t h2 ir.sha1Hash chunk cap reads st1.faults reader st2 hs2 rfl hg (.inr ⟨e, hip⟩))
        exact ⟨tr', _, ht, a, b, by omega, q, _, _, rfl, ⟨rfl, rfl, rfl⟩, upd_same _ _ _, rfl⟩
      · obtain ⟨tr', a, b, l, q⟩ := next _ (.opensDies s2 t h2 ir.sha1Hash chunk cap reads st1.faults hs2 rfl (.inr (by rw [show newIpv4 h2.ret.ip = _ from hip]; rfl)))
        exact ⟨tr', _, ht, a, b, by omega, q, rfl⟩
      · obtain ⟨tr', a, b, l, q⟩ := next _ (.opensDies s2 t h2 ir.sha1Hash chunk cap reads st1.faults hs2 rfl (.inr (by rw [show newIpv4 h2.ret.ip = _ from hip]; rfl)))
        exact ⟨tr', _, ht, a, b, by omega, q, rfl⟩
      · obtain ⟨tr', a, b, l, q⟩ := next _ (.opensDies s2 t h2 ir.sha1Hash chunk cap reads st1.faults hs2 rfl (.inr (by rw [show newIpv4 h2.ret.ip = _ from hip]; rfl)))
        exact ⟨tr', _, ht, a, b, by omega, q, rfl⟩
      obtain ⟨path, content, hpath, hfile⟩ := getChunkReader_file _ _ _ _ _ _ hg
      obtain ⟨tr3, a3, b3, l3, q3⟩ := next _ (.opens s2 t h2 ir.sha1Hash chunk cap reads st1.faults reader st2 path content host hs2 rfl hg (by omega) hip hpath hfile)
      let key : UpKey := ⟨host, UInt16.ofNat ret.port⟩
      let h3 : Handler := ⟨ret, .opened key path content reader cap⟩
      let s3 : Daemon := s2.after st2 t h2 (.opened key path content reader cap)
      have hs3 : s3.handlers t = some h3 := upd_same _ _ _
      have hi : ∃ i, ((s.uploads key).getD ⟨path, .init reader.reader cap content⟩).mu.threads i = .none := by
        cases hk : s.uploads key with
        | none => exact ⟨0, rfl⟩
        | some v => obtain ⟨n, hn⟩ := hroom.uploads key v hk; exact ⟨n, hn n (Nat.le_refl n)⟩
      obtain ⟨i, hi⟩ := hi
      obtain ⟨tr', a, b, l, q⟩ := more tr3 _ _ 3 a3 b3 l3 q3 (.kicks s3 t h3 key path content reader cap i _ hs3 rfl rfl hi)
      exact ⟨tr', _, ht, a, b, l, q, _, _, i, path, content, rfl, rfl, rfl, hfile, rfl, hi, rfl⟩

/-! ### A datagram is done with after three steps -/

/-- How many steps the goroutine of a datagram still has, at most. -/
def HPos.left : HPos → Nat
  | .asked _ => 3
  | .known _ _ _ => 2
  | .opened _ _ _ _ _ => 1
  | .reading => 0
  | .done => 0

/-- How many steps the goroutine `t` still has, at most. -/
def Daemon.left (s : Daemon) (t : Nat) : Nat := match s.handlers t with | none => 3 | some h => h.pos.left

theorem left_goes (s : Daemon) (f : Nat → Option Handler) (hf : s.handlers = f) (t t' : Nat) (h h' : Handler) (ht : f t = some h) (hlt : h'.pos.left < h.pos.left) (s' : Daemon)
    (hs' : s'.handlers = upd f t (some h')) : s'.left t' + (if t' = t then 1 else 0) ≤ s.left t' := by
  unfold Daemon.left
  rw [hs', hf]
  by_cases e : t' = t
  · subst e; rw [upd_same, if_pos rfl, ht]; simp only; omega
  · rw [upd_other _ _ e, if_neg e]; omega

theorem left_step {s s' : Daemon} {e : DmEv} {o : Option Out} (h : DmStep env d port s e o (.alive s')) (t' : Nat) : s'.left t' + (if isStep t' e then 1 else 0) ≤ s.left t' := by
  have go : ∀ (t : Nat) (h h' : Handler), s.handlers t = some h → h'.pos.left < h.pos.left → s'.handlers = upd s.handlers t (some h') →
      s'.left t' + (if isStep t' (.handler t) then 1 else 0) ≤ s.left t' := by
    intro t h h' ht hlt hs'
    have := left_goes s s.handlers rfl t t' h h' ht hlt s' hs'
    by_cases e : t' = t
    · subst e; rw [if_pos rfl] at this; rw [if_pos (show isStep t' (.handler t') = true from beq_self_eq_true t')]; exact this
    · rw [if_neg e] at this; rw [if_neg (fun q : isStep t' (.handler t) = true => e (beq_iff_eq.1 (show (t == t') = true from q)).symm)]; exact this
  have same : ∀ e : DmEv, isStep t' e = false → s'.handlers = s.handlers → s'.left t' + (if isStep t' e then 1 else 0) ≤ s.left t' := by
    intro e he hh
    unfold Daemon.left
    rw [he, hh]
    exact Nat.le_refl _
  generalize hx : DmSys.alive s' = x at h
  cases h with
  | loop a l h => cases hx; exact same _ rfl rfl
  | arrives t dg ret m ht hp =>
    cases hx
    show Daemon.left _ t' + 0 ≤ _
    unfold Daemon.left
    simp only
    by_cases e : t' = t
    · subst e; rw [upd_same, ht]; exact Nat.le_refl 3
    · rw [upd_other _ _ e]; exact Nat.le_refl _
  | garbage dg ret e hp => cases hx; exact same _ rfl rfl
  | replies t h m w fl f ip to bytes s' ht hp hm hrun => cases hx; exact go t h { h with pos := .done } ht (by rw [hp]; exact Nat.succ_pos 2) rfl
  | replyFails t h m w fl f e s' ht hp hm hrun => cases hx; exact go t h { h with pos := .done } ht (by rw [hp]; exact Nat.succ_pos 2) rfl
  | looks t h hash chunk cap fl e s' ht hp hrun => cases hx; exact go t h { h with pos := .known e.sha1Hash chunk cap } ht (by rw [hp]; exact Nat.lt_succ_self 2) rfl
  | looksFails t h hash chunk cap fl e s' ht hp hrun => cases hx; exact go t h { h with pos := .done } ht (by rw [hp]; exact Nat.succ_pos 2) rfl
  | opens t h hash chunk cap choices fl reader s' path content host ht hp hrun hsize hip hpath hfile =>
    cases hx; exact go t h { h with pos := .opened ⟨host, UInt16.ofNat h.ret.port⟩ path content reader cap } ht (by rw [hp]; exact Nat.lt_succ_self 1) rfl
  | opensNever t h hash chunk cap choices fl s' ht hp hrun => cases hx; exact go t h { h with pos := .reading } ht (by rw [hp]; exact Nat.succ_pos 1) rfl
  | opensNot t h hash chunk cap choices fl reader s' ht hp hrun hsize => cases hx; exact go t h { h with pos := .done } ht (by rw [hp]; exact Nat.succ_pos 1) rfl
  | opensFails t h hash chunk cap choices fl e s' ht hp hrun => cases hx; exact go t h { h with pos := .done } ht (by rw [hp]; exact Nat.succ_pos 1) rfl
  | kicks t h key path content reader cap i u ht hp hu hi => cases hx; exact go t h { h with pos := .done } ht (by rw [hp]; exact Nat.succ_pos 0) rfl
  | acks t h off host u ht hp hip hu => cases hx; exact go t h { h with pos := .done } ht (by rw [hp]; exact Nat.succ_pos 2) rfl
  | acksNone t h off host ht hp hip hu => cases hx; exact go t h { h with pos := .done } ht (by rw [hp]; exact Nat.succ_pos 2) rfl
  | acksFails t h off e ht hp hip => cases hx; exact go t h { h with pos := .done } ht (by rw [hp]; exact Nat.succ_pos 2) rfl
  | delivers t t' h m i table ht hp hm hi hfree htable => cases hx; exact go t h { h with pos := .done } ht (by rw [hp]; exact Nat.succ_pos 2) rfl
  | uploads key u o mu hu hs hnew hack hsee hlive => cases hx; exact same _ rfl rfl
  | sees key u new hu hnew => cases hx; exact same _ rfl rfl
  | discovery t table h hnew hlive => cases hx; exact same _ rfl rfl
  | _ => cases hx

/-- C137: however the daemon goes on, the goroutine of a datagram takes at most three steps; it is never taken back to an earlier one. -/
theorem C137_short {c : Cat} {fs : FS} {tr : List (DmEv × Option Out × DmSys)} {s : Daemon} (hrun : DmRun env d port (.fresh c fs) tr (.alive s)) (t : Nat) :
    stepsOf t tr ≤ 3 := by
  suffices key : ∀ x, DmRun env d port (.fresh c fs) tr x → ∀ s, x = .alive s → s.left t + stepsOf t tr ≤ 3 by
    have := key _ hrun s rfl; omega
  intro x hx
  clear hrun
  induction hx with
  | refl => intro s e; cases e; exact Nat.le_refl 3
  | step h h' ih =>
    intro s' e
    subst e
    have h1 := ih _ rfl
    have h2 := left_step h' t
    unfold stepsOf at h1 ⊢
    rw [List.countP_append]
    simp only [List.countP_cons, List.countP_nil, Nat.zero_add]
    omega

/-! ### A search -/

/-- C137: a search for hosts can be made at once from start to end, as long as no response is being handed over. -/
theorem C137_search {c : Cat} {fs : FS} {tr : List (DmEv × Option Out × DmSys)} {s : Daemon} (hrun : DmRun env d port (.fresh c fs) tr (.alive s)) (hfree : s.table.locked = false) :
    ∃ t tr' s' key ch, s.table.threads t = .idle ∧ DmRun env d port s tr' (.alive s') ∧ (∀ x ∈ tr', x.1 = .discovery t) ∧ outs tr' = [] ∧ s'.table.threads t = .returned key ch [] ∧
      s'.table.locked = false ∧ s'.loop = s.loop ∧ s'.uploads = s.uploads ∧ s'.handlers = s.handlers := by
  obtain ⟨t, htn⟩ := hrun.roomy.table
  have ht := htn t (Nat.le_refl t)
  have one : ∀ (s : Daemon) (table : Table), TStep t s.table table → (∀ key m, table.threads t ≠ .wantDeliver key m) → table.threads t ≠ .dead →
      DmStep env d port s (.discovery t) none (.alive { s with table := table }) := fun s table h1 h2 h3 => .discovery s t table h1 (fun key m _ => h2 key m) h3
  let k : RequestKey := ⟨(generateRequestID s.table.reqID).1, 1⟩
  let t1 : Table := { s.table with reqID := (generateRequestID s.table.reqID).2, threads := upd s.table.threads t (.wantRegister k) }
  let t2 : Table := { t1 with resMap := upd t1.resMap k (some t1.nchans), chans := upd t1.chans t1.nchans [], sent := upd t1.sent t1.nchans [], nchans := t1.nchans + 1,
                              threads := upd t1.threads t (.collecting k t1.nchans []) }
  let t3 : Table := { t2 with threads := upd t2.threads t (.wantUnregister k t1.nchans []) }
  let t4 : Table := { t3 with resMap := upd t3.resMap k none, threads := upd t3.threads t (.returned k t1.nchans []) }
  have g1 : t1.threads t = .wantRegister k := upd_same _ _ _
  have g2 : t2.threads t = .collecting k t1.nchans [] := upd_same _ _ _
  have g3 : t3.threads t = .wantUnregister k t1.nchans [] := upd_same _ _ _
  have g4 : t4.threads t = .returned k t1.nchans [] := upd_same _ _ _
  have e1 := one s t1 (.discover s.table ht) (by intro _ _ e; rw [g1] at e; cases e) (by intro e; rw [g1] at e; cases e)
  have e2 := one { s with table := t1 } t2 (.register t1 k g1 hfree) (by intro _ _ e; rw [g2] at e; cases e) (by intro e; rw [g2] at e; cases e)
  have e3 := one { s with table := t2 } t3 (.timeout t2 k _ [] g2) (by intro _ _ e; rw [g3] at e; cases e) (by intro e; rw [g3] at e; cases e)
  have e4 := one { s with table := t3 } t4 (.unregister t3 k _ [] g3 hfree) (by intro _ _ e; rw [g4] at e; cases e) (by intro e; rw [g4] at e; cases e)
  refine ⟨t, _, _, k, t1.nchans, ht, .step (.step (.step (.step .refl e1) e2) e3) e4, ?_, rfl, g4, hfree, rfl, rfl, rfl⟩
  intro x hx
  simp only [List.nil_append, List.cons_append, List.mem_cons, List.not_mem_nil, or_false] at hx
  rcases hx with rfl | rfl | rfl | rfl <;> rfl

/-- A daemon that is in the middle of an upload: a request for another chunk arrives at it, and an acknowledgement. -/
example (sha1 : Bytes → Sha1Hash) (json : JsonCodec) : ∃ c fs tr s, DmRun (exEnv sha1 json) exDir 7 (.fresh c fs) tr (.alive s) ∧ Spec.times (Spec.Leaves ⟨⟨[10, 0, 0, 2], rfl⟩, UInt16.ofNat exAddr.port⟩) tr = 1 ∧
    parse (udpBuffer (Msg.openReq Sha1Hash.zero 0 9).serialize) = .ok (.openReq Sha1Hash.zero 0 9) ∧ (∀ h n cap, parse (udpBuffer (Msg.ack 0).serialize) ≠ .ok (.openReq h n cap)) ∧
    ∃ ups : UpKey → Option Up, ∀ k, ups k = none ↔ s.uploads k = none := by
  obtain ⟨c, fs, e, h1, h2, h3, h4, h5, h6, h7, h8, h9⟩ := ex_complete sha1 json Sha1Hash.zero
  have hp := parse_buffer (.openReq Sha1Hash.zero 1 65535) trivial (by decide) []
  have hq := parse_buffer (.openReq Sha1Hash.zero 0 9) trivial (by decide) []
  have ha := parse_buffer (.ack 0) trivial (by decide) []
  rw [List.append_nil] at hq ha
  obtain ⟨r, off, -, -, -, tr, s, z1, -, z3, z4, z5, -⟩ := draws (port := 7) (ex_healthy sha1 json) h1.reach _ exAddr ⟨[10, 0, 0, 2], rfl⟩ Sha1Hash.zero 1 65535 e [1, 2, 3, 4, 5] hp (by rfl) h2 h7 h4
  refine ⟨c, fs, tr, s, z1, z3, hq, fun h n cap e => ?_, fun k => (s.uploads k).map fun v => ⟨[], newSender ⟨v.mu.reader, Sha1Hash.zero, 0⟩ 1⟩, fun k => ?_⟩
  · rw [ha] at e; cases e
  · simp only [Option.map_eq_none_iff]

/-- A daemon that a datagram has reached can search for hosts. -/
example (env : Env) (d : Path) (c : Cat) (fs : FS) : ∃ tr s, tr ≠ [] ∧ DmRun env d 7 (.fresh c fs) tr (.alive s) ∧ s.table.locked = false := by
  have hp := parse_buffer (.discoverReq 5 Sha1Hash.blank []) (Nat.zero_le _) (by decide) []
  exact ⟨_, _, by simp, DmRun.step (env := env) (d := d) (port := 7) (DmRun.refl (s0 := .fresh c fs)) (.arrives _ 0 _ exAddr _ rfl hp), rfl⟩

end
section
variable {env : Env} {d : Path} {port : Nat}

/-! ### A goroutine can always go on -/

/-- What goroutines have been asked is not data: that goes to other sockets. -/
def NoData (s : Daemon) : Prop := ∀ t h m, s.handlers t = some h → h.pos = .asked m → ∀ o p, m ≠ .data o p

theorem NoData.go {s s' : Daemon} (hn : NoData s) (t : Nat) (h' : Handler) (hs' : s'.handlers = upd s.handlers t (some h')) (hp : ∀ m, h'.pos = .asked m → ∀ o p, m ≠ .data o p) : NoData s' := by
  intro t' h m ht hm
  rw [hs'] at ht
  by_cases e : t' = t
  · subst e; rw [upd_same] at ht; cases ht; exact hp m hm
  · rw [upd_other _ _ e] at ht; exact hn t' h m ht hm

theorem NoData.step {s s' : Daemon} {e : DmEv} {o : Option Out} (hn : NoData s) (h : DmStep env d port s e o (.alive s')) : NoData s' := by
  generalize hx : DmSys.alive s' = x at h
  have other : ∀ pos : HPos, (∀ m, pos ≠ .asked m) → ∀ (t : Nat) (h : Handler), s'.handlers = upd s.handlers t (some { h with pos := pos }) → NoData s' :=
    fun pos hpos t h hs => hn.go t _ hs (fun m e => absurd e (hpos m))
  cases h with
  | arrives t dg ret m ht hp =>
    cases hx
    refine hn.go t _ rfl (fun m' e => ?_)
    cases e
    intro o p e
    subst e
    exact (parse_types (dg.take 1024 ++ List.replicate (1024 - (dg.take 1024).length) 0) (by simp; omega)).2.2.2.2 o p hp
  | replies t h m w fl f ip to bytes s' ht hp hm hrun => cases hx; exact other .done (fun _ e => by cases e) t h rfl
  | replyFails t h m w fl f e s' ht hp hm hrun => cases hx; exact other .done (fun _ e => by cases e) t h rfl
  | looks t h hash chunk cap fl e s' ht hp hrun => cases hx; exact other (.known e.sha1Hash chunk cap) (fun _ e => by cases e) t h rfl
  | looksFails t h hash chunk cap fl e s' ht hp hrun => cases hx; exact other .done (fun _ e => by cases e) t h rfl
  | opens t h hash chunk cap choices fl reader s' path content host ht hp hrun hsize hip hpath hfile =>
    cases hx; exact other (.opened ⟨host, UInt16.ofNat h.ret.port⟩ path content reader cap) (fun _ e => by cases e) t h rfl
  | opensNever t h hash chunk cap choices fl s' ht hp hrun => cases hx; exact other .reading (fun _ e => by cases e) t h rfl
  | opensNot t h hash chunk cap choices fl reader s' ht hp hrun hsize => cases hx; exact other .done (fun _ e => by cases e) t h rfl
  | opensFails t h hash chunk cap choices fl e s' ht hp hrun => cases hx; exact other .done (fun _ e => by cases e) t h rfl
  | kicks t h key path content reader cap i u ht hp hu hi => cases hx; exact other .done (fun _ e => by cases e) t h rfl
  | acks t h off host u ht hp hip hu => cases hx; exact other .done (fun _ e => by cases e) t h rfl
  | acksNone t h off host ht hp hip hu => cases hx; exact other .done (fun _ e => by cases e) t h rfl
  | acksFails t h off e ht hp hip => cases hx; exact other .done (fun _ e => by cases e) t h rfl
  | delivers t t' h m i table ht hp hm hi hfree htable => cases hx; exact other .done (fun _ e => by cases e) t h rfl
  | loop a l h => cases hx; exact hn
  | garbage dg ret e hp => cases hx; exact hn
  | uploads key u o mu hu hs hnew hack hsee hlive => cases hx; exact hn
  | sees key u new hu hnew => cases hx; exact hn
  | discovery t table h hnew hlive => cases hx; exact hn
  | _ => cases hx

theorem DmRun.noData {c : Cat} {fs : FS} {tr : List (DmEv × Option Out × DmSys)} {s : Daemon} (h : DmRun env d port (.fresh c fs) tr (.alive s)) : NoData s := by
  suffices key : ∀ x, DmRun env d port (.fresh c fs) tr x → ∀ s, x = .alive s → NoData s from key _ h s rfl
  intro x hx
  clear h
  induction hx with
  | refl => intro s e; cases e; intro t h m ht; cases ht
  | step h h' ih => intro s' e; subst e; exact (ih _ rfl).step h'

/-- A goroutine that is not at its end can move. -/
theorem handler_moves {s : Daemon} (hroom : Roomy s) (hn : NoData s) (t : Nat) (h : Handler) (ht : s.handlers t = some h) (hp : 0 < h.pos.left) : ∃ o x, DmStep env d port s (.handler t) o x := by
  let w : Wire := ⟨none, [], [], .good, true⟩
  obtain ⟨ret, pos⟩ := h
  cases pos with
  | asked m =>
    cases m with
    | discoverReq r k q =>
      obtain ⟨o, x, h1, -⟩ := answers_at_once t ⟨ret, .asked (.discoverReq r k q)⟩ (.discoverReq r k q) w [] _ (fun _ => none) ht rfl rfl (UpsFree.discover port w r k q ret) (fun _ _ _ => sent_discover port w r k q ret _ _ _)
      exact ⟨o, x, h1⟩
    | listReq r k =>
      obtain ⟨o, x, h1, -⟩ := answers_at_once t ⟨ret, .asked (.listReq r k)⟩ (.listReq r k) w [] _ (fun _ => none) ht rfl rfl (UpsFree.listing w r k ret) (fun _ _ _ => sent_listing w r k ret _ _ _)
      exact ⟨o, x, h1⟩
    | openReq k n cap =>
      rcases hc : contains k (s.st []) with ⟨r, st1⟩
      rcases r with ir | e | _ | _ | _
      · exact ⟨_, _, .looks s t _ k n cap [] ir st1 ht rfl hc⟩
      · exact ⟨_, _, .looksFails s t _ k n cap [] e st1 ht rfl hc⟩
      · exact ⟨_, _, .looksDies s t _ k n cap [] ht rfl (by rw [hc]; rfl)⟩
      · exact ⟨_, _, .looksDies s t _ k n cap [] ht rfl (by rw [hc]; rfl)⟩
      · exact ⟨_, _, .looksDies s t _ k n cap [] ht rfl (by rw [hc]; rfl)⟩
    | data o p => exact absurd rfl (hn t _ _ ht rfl o p)
    | ack off =>
      rcases hip : newIpv4 ret.ip with host | e | _ | _ | _
      · rcases hu : s.uploads ⟨host, UInt16.ofNat ret.port⟩ with _ | u
        · exact ⟨_, _, .acksNone s t _ off host ht rfl hip hu⟩
        · exact ⟨_, _, .acks s t _ off host u ht rfl hip hu⟩
      · exact ⟨_, _, .acksFails s t _ off e ht rfl hip⟩
      · exact ⟨_, _, .acksDies s t _ off ht rfl (by rw [show newIpv4 (Handler.ret ⟨ret, _⟩).ip = _ from hip]; rfl)⟩
      · exact ⟨_, _, .acksDies s t _ off ht rfl (by rw [show newIpv4 (Handler.ret ⟨ret, _⟩).ip = _ from hip]; rfl)⟩
      · exact ⟨_, _, .acksDies s t _ off ht rfl (by rw [show newIpv4 (Handler.ret ⟨ret, _⟩).ip = _ from hip]; rfl)⟩
    | discoverResp r a p cs => obtain ⟨n, hfree⟩ := hroom.table; exact ⟨_, _, .delivers s t n _ (.discoverResp r a p cs) r _ ht rfl (.inl rfl) rfl (hfree n (Nat.le_refl n)) rfl⟩
    | listResp r es => obtain ⟨n, hfree⟩ := hroom.table; exact ⟨_, _, .delivers s t n _ (.listResp r es) r _ ht rfl (.inr rfl) rfl (hfree n (Nat.le_refl n)) rfl⟩
  | known k n cap =>
    rcases hg : getChunkReader env k n.toNat [] (s.st []) with ⟨r, st2⟩
    rcases r with o | e | _ | _ | _
    · cases o with
      | none => exact ⟨_, _, .opensNever s t _ k n cap [] [] st2 ht rfl hg⟩
      | some reader =>
        by_cases hsize : reader.size ≤ 4294967295
        · rcases hip : newIpv4 ret.ip with host | e | _ | _ | _
          · obtain ⟨path, content, hpath, hfile⟩ := getChunkReader_file _ _ _ _ _ _ hg
            exact ⟨_, _, .opens s t _ k n cap [] [] reader st2 path content host ht rfl hg hsize hip hpath hfile⟩
          · exact ⟨_, _, .opensNot s t _ k n cap [] [] reader st2 ht rfl hg (.inr ⟨e, hip⟩)⟩
          · exact ⟨_, _, .opensDies s t _ k n cap [] [] ht rfl (.inr (by rw [show newIpv4 (Handler.ret ⟨ret, _⟩).ip = _ from hip]; rfl))⟩
          · exact ⟨_, _, .opensDies s t _ k n cap [] [] ht rfl (.inr (by rw [show newIpv4 (Handler.ret ⟨ret, _⟩).ip = _ from hip]; rfl))⟩
          · exact ⟨_, _, .opensDies s t _ k n cap [] [] ht rfl (.inr (by rw [show newIpv4 (Handler.ret ⟨ret, _⟩).ip = _ from hip]; rfl))⟩
        · exact ⟨_, _, .opensNot s t _ k n cap [] [] reader st2 ht rfl hg (.inl hsize)⟩
    · exact ⟨_, _, .opensFails s t _ k n cap [] [] e st2 ht rfl hg⟩
    · exact ⟨_, _, .opensDies s t _ k n cap [] [] ht rfl (.inl (by rw [hg]; rfl))⟩
    · exact ⟨_, _, .opensDies s t _ k n cap [] [] ht rfl (.inl (by rw [hg]; rfl))⟩
    · exact ⟨_, _, .opensDies s t _ k n cap [] [] ht rfl (.inl (by rw [hg]; rfl))⟩
  | opened key path content reader cap =>
    have hi : ∃ i, ((s.uploads key).getD ⟨path, .init reader.reader cap content⟩).mu.threads i = .none := by
      cases hk : s.uploads key with
      | none => exact ⟨0, rfl⟩
      | some v => obtain ⟨n, hn⟩ := hroom.uploads key v hk; exact ⟨n, hn n (Nat.le_refl n)⟩
    obtain ⟨i, hi⟩ := hi
    exact ⟨_, _, .kicks s t _ key path content reader cap i _ ht rfl rfl hi⟩
  | reading => exact absurd hp (Nat.lt_irrefl 0)
  | done => exact absurd hp (Nat.lt_irrefl 0)

/-- A goroutine of a datagram does not vanish. -/
theorem handler_stays {s s' : Daemon} {e : DmEv} {o : Option Out} (h : DmStep env d port s e o (.alive s')) (t : Nat) (ht : s.handlers t ≠ none) : s'.handlers t ≠ none := by
  generalize hx : DmSys.alive s' = x at h
  have go : ∀ (t' : Nat) (h' : Handler), s'.handlers = upd s.handlers t' (some h') → s'.handlers t ≠ none := by
    intro t' h' e
    rw [e]
    by_cases q : t = t'
    · subst q; rw [upd_same]; intro k; cases k
    · rw [upd_other _ _ q]; exact ht
  cases h with
  | arrives t' dg ret m ht' hp => cases hx; exact go t' _ rfl
  | replies t' h m w fl f ip to bytes s' ht' hp hm hrun => cases hx; exact go t' _ rfl
  | replyFails t' h m w fl f e s' ht' hp hm hrun => cases hx; exact go t' _ rfl
  | looks t' h hash chunk cap fl e s' ht' hp hrun => cases hx; exact go t' _ rfl
  | looksFails t' h hash chunk cap fl e s' ht' hp hrun => cases hx; exact go t' _ rfl
  | opens t' h hash chunk cap choices fl reader s' path content host ht' hp hrun hsize hip hpath hfile => cases hx; exact go t' _ rfl
  | opensNever t' h hash chunk cap choices fl s' ht' hp hrun => cases hx; exact go t' _ rfl
  | opensNot t' h hash chunk cap choices fl reader s' ht' hp hrun hsize => cases hx; exact go t' _ rfl
  | opensFails t' h hash chunk cap choices fl e s' ht' hp hrun => cases hx; exact go t' _ rfl
  | kicks t' h key path content reader cap i u ht' hp hu hi => cases hx; exact go t' _ rfl
  | acks t' h off host u ht' hp hip hu => cases hx; exact go t' _ rfl
  | acksNone t' h off host ht' hp hip hu => cases hx; exact go t' _ rfl
  | acksFails t' h off e ht' hp hip => cases hx; exact go t' _ rfl
  | delivers t' t2 h m i table ht' hp hm hi hfree htable => cases hx; exact go t' _ rfl
  | loop a l h => cases hx; exact ht
  | garbage dg ret e hp => cases hx; exact ht
  | uploads key u o mu hu hs hnew hack hsee hlive => cases hx; exact ht
  | sees key u new hu hnew => cases hx; exact ht
  | discovery t' table h hnew hlive => cases hx; exact ht
  | _ => cases hx

/-- C137: no goroutine of a datagram ever has to wait for another: wherever it is, it can go on to its end by itself, in at most three steps. -/
theorem C137_finishes {c : Cat} {fs : FS} {tr : List (DmEv × Option Out × DmSys)} {s : Daemon} (hrun : DmRun env d port (.fresh c fs) tr (.alive s)) (t : Nat) (h : Handler)
    (ht : s.handlers t = some h) : ∃ tr' x, DmRun env d port s tr' x ∧ (∀ y ∈ tr', y.1 = .handler t) ∧ tr'.length ≤ 3 ∧
      (x = .dead ∨ ∃ s' h', x = .alive s' ∧ s'.handlers t = some h' ∧ (h'.pos = .done ∨ h'.pos = .reading)) := by
  suffices key : ∀ n s', Roomy s' → NoData s' → (∃ h', s'.handlers t = some h') → s'.left t ≤ n → ∀ tr1, DmRun env d port s tr1 (.alive s') → (∀ y ∈ tr1, y.1 = .handler t) →
      ∃ tr' x, DmRun env d port s tr' x ∧ (∀ y ∈ tr', y.1 = .handler t) ∧ tr'.length ≤ tr1.length + n ∧
        (x = .dead ∨ ∃ s' h', x = .alive s' ∧ s'.handlers t = some h' ∧ (h'.pos = .done ∨ h'.pos = .reading)) by
    have hl : s.left t ≤ 3 := by
      unfold Daemon.left; rw [ht]; obtain ⟨r, p⟩ := h; cases p <;> simp [HPos.left]
    obtain ⟨tr', x, h1, h2, h3, h4⟩ := key 3 s hrun.roomy hrun.noData ⟨h, ht⟩ hl [] .refl (by intro y hy; cases hy)
    exact ⟨tr', x, h1, h2, by simpa using h3, h4⟩
  intro n
  induction n with
  | zero =>
    rintro s' - - ⟨h', hh⟩ hl tr1 h1 h2
    refine ⟨tr1, _, h1, h2, Nat.le_refl _, .inr ⟨s', h', rfl, hh, ?_⟩⟩
    unfold Daemon.left at hl
    rw [hh] at hl
    obtain ⟨r, p⟩ := h'
    cases p <;> simp [HPos.left] at hl ⊢
  | succ n ih =>
    rintro s' hroom hn ⟨h', hh⟩ hl tr1 h1 h2
    by_cases hp : 0 < h'.pos.left
    · obtain ⟨o, x, hs⟩ := handler_moves (env := env) (d := d) (port := port) hroom hn t h' hh hp
      have h2' : ∀ y ∈ tr1 ++ [(DmEv.handler t, o, x)], y.1 = .handler t := by
        intro y hy
        rcases List.mem_append.1 hy with hy | hy
        · exact h2 y hy
        · simp only [List.mem_cons, List.not_mem_nil, or_false] at hy; rw [hy]
      cases x with
      | dead => exact ⟨_, _, h1.step hs, h2', by simp, .inl rfl⟩
      | alive s2 =>
        have hl2 := left_step hs t
        rw [if_pos (show isStep t (.handler t) = true from beq_self_eq_true t)] at hl2
        obtain ⟨tr', x, g1, g2, g3, g4⟩ := ih s2 (hroom.step hs) (hn.step hs) (Option.ne_none_iff_exists'.1 (handler_stays hs t (by rw [hh]; intro e; cases e))) (by omega) _ (h1.step hs) h2'
        exact ⟨tr', x, g1, g2, by simp at g3; omega, g4⟩
    · refine ⟨tr1, _, h1, h2, by omega, .inr ⟨s', h', rfl, hh, ?_⟩⟩
      obtain ⟨r, p⟩ := h'
      cases p <;> simp [HPos.left] at hp ⊢

end
/-- The hypotheses of `C137_finishes` hold once a datagram has arrived. -/
example (env : Env) (d : Path) (c : Cat) (fs : FS) : ∃ tr s h, DmRun env d 7 (.fresh c fs) tr (.alive s) ∧ s.handlers 0 = some h ∧ h.pos.left = 3 := by
  have hp := parse_buffer (.openReq Sha1Hash.zero 0 9) trivial (by decide) []
  exact ⟨_, _, ⟨exAddr, .asked (.openReq Sha1Hash.zero 0 9)⟩, DmRun.step (env := env) (d := d) (port := 7) (DmRun.refl (s0 := .fresh c fs)) (.arrives _ 0 _ exAddr _ rfl hp), rfl, rfl⟩

end Flu
