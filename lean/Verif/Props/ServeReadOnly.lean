import Verif.Props.Privacy
/-!
# What peers can change by sending datagrams to the daemon (C88)
-/
namespace Flu
open Spec

/-- The daemon after a sequence of datagrams. -/
def Spec.served (env : Env) (port : Nat) : List (Wire × Bytes × Addr) → Srv → Srv
  | [], s => s
  | (w, dg, a) :: rest, s => Spec.served env port rest (serveDatagram env port w dg a s).2

/-- The datagrams among them that came from this address and port, as far as the daemon tells them apart. -/
def Spec.FromKey (key : UpKey) (a : Addr) : Prop := newIpv4 a.ip = .ok key.host ∧ UInt16.ofNat a.port = key.port

/-! ## Handlers that keep a property of the catalogue's state -/

/-- However `x` ends, it keeps `R`; or, if `all` is false, at least if it returns, with or without an error. -/
def SKeeps {α : Type} (all : Bool) (R : Srv → Prop) (x : SM α) : Prop := ∀ s, R s → (all = true ∨ (x s).1.returns = true) → R (x s).2

section
variable {all : Bool} {R : Srv → Prop} {α β : Type}

theorem SKeeps.pure (a : α) : SKeeps all R (Pure.pure a : SM α) := fun _ h _ => h

theorem SKeeps.lift (r : Res α) : SKeeps all R (IOM.lift r : SM α) := fun _ h _ => h

theorem SKeeps.bind {x : SM α} {f : α → SM β} (hx : SKeeps all R x) (hf : ∀ a, SKeeps all R (f a)) : SKeeps all R (x >>= f) := by
  intro s h
  have h1 := hx s h
  rw [IOM.bind_apply]
  rcases hr : x s with ⟨r, s'⟩
  rw [hr] at h1
  cases r with
  | ok a => exact hf a s' (h1 (.inr rfl))
  | _ => exact h1

theorem SKeeps.bindLift {r : Res α} {f : α → SM β} (hf : ∀ a, r = .ok a → SKeeps all R (f a)) : SKeeps all R (IOM.lift r >>= f) := by
  intro s h
  rw [IOM.bind_apply, IOM.lift]
  cases r with
  | ok a => exact hf a rfl s h
  | _ => exact fun _ => h

theorem SKeeps.attempt {x : SM α} (hx : SKeeps all R x) : SKeeps all R (IOM.attempt x) := by
  intro s h
  have h1 := hx s h
  unfold IOM.attempt
  rcases hr : x s with ⟨r, s'⟩
  rw [hr] at h1
  cases r <;> exact h1

theorem SKeeps.orExit {x : SM α} (hx : SKeeps all R x) : SKeeps all R (IOM.orExit x) := by
  intro s h
  have h1 := hx s h
  unfold IOM.orExit
  rcases hr : x s with ⟨r, s'⟩
  rw [hr] at h1
  cases r with
  | err e => exact fun hl => h1 (hl.imp id (fun h => rfl))
  | _ => exact h1

theorem SKeeps.respond (port : Nat) (w : Wire) (id : UInt16) (h : Sha1Hash) (cs : List UInt16) (ret : Addr)
    (hc : ∀ h, SKeeps all R (SM.cat (contains h))) : SKeeps all R (respondToDiscoverHosts port w id h cs ret) := by
  unfold respondToDiscoverHosts
  refine (SKeeps.lift _).bind fun _ => (SKeeps.lift _).bind fun _ => SKeeps.bind ?_ fun _ => (SKeeps.lift _).bind fun _ => SKeeps.pure _
  unfold answerChunks
  split
  · exact SKeeps.pure _
  · refine (SKeeps.attempt (hc h)).bind fun r => ?_
    cases r with
    | error e => exact SKeeps.pure _
    | ok f => exact SKeeps.lift _

theorem SKeeps.listing (w : Wire) (id : UInt16) (h : Sha1Hash) (ret : Addr)
    (hc : ∀ h, SKeeps all R (SM.cat (contains h))) (hl : ∀ o, SKeeps all R (SM.cat (listFiles o))) : SKeeps all R (respondToListFiles w id h ret) := by
  unfold respondToListFiles
  simp only
  split
  · exact (SKeeps.orExit (hl _)).bind fun _ => (SKeeps.lift _).bind fun _ => SKeeps.pure _
  · exact (SKeeps.orExit (hc _)).bind fun _ => (SKeeps.pure _).bind fun _ => (SKeeps.lift _).bind fun _ => SKeeps.pure _

/-- `R` is kept when the entry of the sender of a datagram in the table of uploads changes. -/
def KeepsUpload (R : Srv → Prop) (ret : Addr) : Prop :=
  ∀ s key up, FromKey key ret → R s → R { s with uploads := fun k => if k = key then some up else s.uploads k }

theorem SKeeps.upload (env : Env) (w : Wire) (h : Sha1Hash) (n cap : UInt16) (ret : Addr) (hu : KeepsUpload R ret)
    (hc : ∀ h, SKeeps all R (SM.cat (contains h))) (hr : ∀ h n ch, SKeeps all R (SM.cat (getChunkReader env h n ch))) : SKeeps all R (startUpload env w h n cap ret) := by
  unfold startUpload
  refine (hc _).bind fun ir => (hr _ _ _).bind fun o => ?_
  cases o with
  | none => exact SKeeps.pure _
  | some reader =>
    simp only
    split
    · exact SKeeps.lift _
    · refine SKeeps.bindLift fun host hip => ?_
      intro s h _
      exact hu _ _ _ ⟨hip, rfl⟩ h

theorem SKeeps.ack (ret : Addr) (hu : KeepsUpload R ret) : SKeeps all R (continueUpload ret) := by
  unfold continueUpload
  refine SKeeps.bindLift fun host hip => ?_
  intro s h
  simp only
  split
  · exact fun _ => h
  · exact fun _ => hu _ _ _ ⟨hip, rfl⟩ h

/-- A datagram keeps what the three catalogue calls keep. -/
theorem SKeeps.serve (env : Env) (port : Nat) (w : Wire) (dg : Bytes) (ret : Addr) (hu : KeepsUpload R ret)
    (hc : ∀ h, SKeeps all R (SM.cat (contains h))) (hl : ∀ o, SKeeps all R (SM.cat (listFiles o)))
    (hr : ∀ h n ch, SKeeps all R (SM.cat (getChunkReader env h n ch))) : SKeeps all R (serveDatagram env port w dg ret) := by
  unfold serveDatagram handleMessage
  refine (SKeeps.lift _).bind fun m => ?_
  cases m with
  | discoverReq id h cs => exact SKeeps.respond port w id h cs ret hc
  | listReq id h => exact SKeeps.listing w id h ret hc hl
  | openReq h n cap => exact SKeeps.upload env w h n cap ret hu hc hr
  | ack o => exact SKeeps.ack ret hu
  | discoverResp => exact SKeeps.pure _
  | listResp => exact SKeeps.pure _
  | data => exact SKeeps.lift _

end

/-- What a triple with one invariant says about a single run. -/
theorem Triple.kept {α : Type} {P : Assn} {x : CM α} (h : Triple P x (fun _ => P) P) (s : St) (hs : P s.cat s.fs) : P (x s).2.cat (x s).2.fs := by
  rcases hr : x s with ⟨r, s'⟩
  cases r with
  | ok a => exact (h s hs).1 a s' hr
  | err e => exact (h s hs).2 _ s' hr (fun a e => by cases e)
  | panic => exact (h s hs).2 _ s' hr (fun a e => by cases e)
  | exit => exact (h s hs).2 _ s' hr (fun a e => by cases e)
  | crash => exact (h s hs).2 _ s' hr (fun a e => by cases e)

section
variable {env : Env} {d dl : Path} {c : Cat} {fs : FS}

theorem served_keeps {R : Srv → Prop} (port : Nat) (hc : ∀ h, SKeeps true R (SM.cat (contains h))) (hl : ∀ o, SKeeps true R (SM.cat (listFiles o)))
    (hr : ∀ h n ch, SKeeps true R (SM.cat (getChunkReader env h n ch))) (q : List (Wire × Bytes × Addr)) (hu : ∀ x ∈ q, KeepsUpload R x.2.2) :
    ∀ s, R s → R (served env port q s) := by
  induction q with
  | nil => exact fun s h => h
  | cons x q ih =>
    intro s h
    obtain ⟨w, dg, a⟩ := x
    exact ih (fun y hy => hu y (List.mem_cons_of_mem _ hy)) _ (SKeeps.serve env port w dg a (hu (w, dg, a) (by simp)) hc hl hr s h (.inl rfl))

theorem ro_listFiles {ind : IndexFile} (ho : Own ind.index) (order : List Sha1Hash) :
    Triple (RO d dl ind fs) (listFiles order) (fun _ => RO d dl ind fs) (RO d dl ind fs) :=
  Triple.bind (Triple.getIndex (fun _ _ h => h)) (fun _ => (ro_listLoop ho order).pre (fun _ _ h => h.1))

/-- C88: whatever datagrams arrive at the daemon, in whatever number and order and from whatever addresses, and whatever fails meanwhile, no file is created, changed or
removed, and the catalogue shows the same about every file; and the upload to an address changes only if one of the datagrams came from that address. -/
theorem C88_nothing_changes (hh : Healthy env d) (hreach : Reach env d dl (.running c fs)) (port : Nat) (q : List (Wire × Bytes × Addr)) (fl : List Fault)
    (ups : UpKey → Option Up) :
    (served env port q ⟨⟨c, fs, fl⟩, ups⟩).st.fs = fs ∧
    (∀ k, observe (served env port q ⟨⟨c, fs, fl⟩, ups⟩).st.cat fs k = observe c fs k) ∧
    ∀ key, (∀ x ∈ q, ¬ FromKey key x.2.2) → (served env port q ⟨⟨c, fs, fl⟩, ups⟩).uploads key = ups key := by
  have hI : Inv env d dl c fs := hreach.inv hh.abs hh.utf8
  obtain ⟨ind, rfl, hw⟩ := hI.split
  have h1 := served_keeps (env := env) (R := fun s => RO d dl ind fs s.st.cat s.st.fs) port
    (fun h s hs _ => Triple.kept ((ro_contains hw.ownGet h).post (fun _ _ _ h => h.1)) s.st hs)
    (fun o s hs _ => Triple.kept (ro_listFiles hw.ownGet o) s.st hs)
    (fun h n ch s hs _ => Triple.kept ((ro_reader env hw.ownGet h n ch).post (fun _ _ _ h => h.1)) s.st hs) q
    (fun _ _ _ _ _ _ h => h) ⟨⟨_, fs, fl⟩, ups⟩ (RO.init d dl ind fs)
  obtain ⟨g1, g2⟩ := RO.same h1
  rw [g1] at g2
  refine ⟨g1, g2, fun key hkey => ?_⟩
  refine served_keeps (env := env) (R := fun s => s.uploads key = ups key) port (fun _ _ h _ => h) (fun _ _ h _ => h) (fun _ _ _ _ h _ => h) q ?_ ⟨⟨_, fs, fl⟩, ups⟩ rfl
  intro x hx s key' up hf h
  show (if key = key' then some up else s.uploads key) = ups key
  rw [if_neg (by rintro rfl; exact hkey x hx hf)]
  exact h

theorem Reach.kept {α : Type} {x : CM α} {o : Op} (ho : o.run env = CM.void x) (hs : ∀ c, o.Safe d c) (s : St) (h : Reach env d dl (.running s.cat s.fs))
    (hr : (x s).1.returns = true) : Reach env d dl (.running (x s).2.cat (x s).2.fs) := by
  obtain ⟨fs0, h0, h1⟩ := h
  refine ⟨fs0, h0, Steps.step h1 ?_⟩
  have := Step.call (env := env) (d := d) (dl := dl) o s.faults s.cat s.fs (hs s.cat)
  rw [ho] at this
  unfold CM.void at this
  rw [IOM.bind_apply] at this
  obtain ⟨c, fs, fl⟩ := s
  simp only at this
  rcases hx : x ⟨c, fs, fl⟩ with ⟨r, s'⟩
  rw [hx] at hr this
  cases r with
  | ok a => exact this
  | err e => exact this
  | _ => cases hr

/-- C88: after a datagram that does not end the daemon the catalogue is again in a reachable state, so that everything said about such states holds between datagrams. -/
theorem C88_reachable (hreach : Reach env d dl (.running c fs)) (port : Nat) (w : Wire) (dg : Bytes) (ret : Addr) (fl : List Fault) (ups : UpKey → Option Up) (r : Res Done)
    (s' : Srv) (hrun : serveDatagram env port w dg ret ⟨⟨c, fs, fl⟩, ups⟩ = (r, s')) (hr : r.returns = true) : Reach env d dl (.running s'.st.cat s'.st.fs) := by
  have pick : ∀ {b : Prop}, (false = true ∨ b) → b := fun h => h.resolve_left (fun e => by cases e)
  have h := SKeeps.serve (all := false) (R := fun s => Reach env d dl (.running s.st.cat s.st.fs)) env port w dg ret (fun _ _ _ _ h => h)
    (fun h s hs hl => Reach.kept (o := .contains h) rfl (fun _ => trivial) s.st hs (pick hl))
    (fun o s hs hl => Reach.kept (o := .list o) rfl (fun _ => trivial) s.st hs (pick hl))
    (fun h n ch s hs hl => Reach.kept (o := .reader h n ch) rfl (fun _ => trivial) s.st hs (pick hl))
    ⟨⟨c, fs, fl⟩, ups⟩ hreach
  rw [hrun] at h
  exact h (.inr hr)

end

/-! ## Where answers go -/

/-- Every value `x` returns satisfies `Q`. -/
def SReturns {α : Type} (Q : α → Prop) (x : SM α) : Prop := ∀ s a s', x s = (.ok a, s') → Q a

theorem SReturns.bind {α β : Type} {Q : β → Prop} {x : SM α} {f : α → SM β} (hf : ∀ a, SReturns Q (f a)) : SReturns Q (x >>= f) := by
  intro s b s' h
  obtain ⟨a, s1, -, h2⟩ := (IOM.bind_ok_iff _ _ _ _ _).1 h
  exact hf a s1 b s' h2

theorem SReturns.bindLift {α β : Type} {Q : β → Prop} {r : Res α} {f : α → SM β} (hf : ∀ a, r = .ok a → SReturns Q (f a)) : SReturns Q (IOM.lift r >>= f) := by
  intro s b s' h
  obtain ⟨a, s1, h1, h2⟩ := (IOM.bind_ok_iff _ _ _ _ _).1 h
  cases h1
  exact hf a rfl s b s' h2

theorem SReturns.pure {α : Type} {Q : α → Prop} {a : α} (h : Q a) : SReturns Q (Pure.pure a : SM α) := by
  intro s b s' e
  cases e
  exact h

theorem SReturns.fail {α : Type} {Q : α → Prop} {r : Res α} (h : ∀ a, r ≠ .ok a) : SReturns Q (IOM.lift r : SM α) := by
  intro s b s' e
  cases e
  exact absurd rfl (h b)

/-- The answer, if any, is sent to the host the datagram came from. -/
def Spec.ToSender (ret : Addr) : Done → Prop
  | .sent ip _ _ => ip = ret.ip.bytes
  | .first key _ => FromKey key ret
  | .acked key => FromKey key ret
  | _ => True

/-- C88: whatever is sent in answer to a datagram is sent to the IP address it came from. -/
theorem C88_answers (env : Env) (port : Nat) (w : Wire) (dg : Bytes) (ret : Addr) (s s' : Srv) (a : Done)
    (hrun : serveDatagram env port w dg ret s = (.ok a, s')) : ToSender ret a := by
  revert hrun
  suffices h : SReturns (ToSender ret) (serveDatagram env port w dg ret) from fun hrun => h s a s' hrun
  unfold serveDatagram handleMessage
  refine SReturns.bind fun m => ?_
  cases m with
  | discoverReq id h cs =>
    unfold respondToDiscoverHosts
    exact SReturns.bind fun _ => SReturns.bind fun _ => SReturns.bind fun _ => SReturns.bind fun _ => SReturns.pure rfl
  | listReq id h =>
    unfold respondToListFiles
    simp only
    split
    · exact SReturns.bind fun _ => SReturns.bind fun _ => SReturns.pure rfl
    · exact SReturns.bind fun _ => SReturns.bind fun _ => SReturns.bind fun _ => SReturns.pure rfl
  | openReq h n cap =>
    unfold startUpload
    refine SReturns.bind fun ir => SReturns.bind fun o => ?_
    cases o with
    | none => exact SReturns.pure trivial
    | some reader =>
      simp only
      split
      · exact SReturns.fail (fun a e => by cases e)
      · refine SReturns.bindLift fun host hip => SReturns.bind fun fs => ?_
        intro s a s' h
        unfold openUpload at h
        simp only at h
        rcases hk : kickstart ((s.uploads ⟨host, UInt16.ofNat ret.port⟩).getD ⟨(fs ir.filePath).getD [], newSender reader cap⟩).content
          ((s.uploads ⟨host, UInt16.ofNat ret.port⟩).getD ⟨(fs ir.filePath).getD [], newSender reader cap⟩).conn reader.hash reader.size w.rd w.sends with ⟨r, conn⟩
        rw [hk] at h
        simp only at h
        injection h with h1 h2
        cases r with
        | ok p => cases h1; exact ⟨hip, rfl⟩
        | _ => cases h1
  | ack o =>
    unfold continueUpload
    refine SReturns.bindLift fun host hip => ?_
    intro s a s' h
    simp only at h
    split at h
    · cases h
    · cases h; exact ⟨hip, rfl⟩
  | discoverResp => exact SReturns.pure trivial
  | listResp => exact SReturns.pure trivial
  | data => exact SReturns.fail (fun a e => by cases e)

/-! ### Examples -/

/-- A daemon with a complete file, and two datagrams from one address: a request for a chunk and an acknowledgement.  Both concern this address only, and the daemon
answers the first. -/
example (sha1 : Bytes → Sha1Hash) (json : JsonCodec) (h : Sha1Hash) :
    ∃ c fs e, Healthy (exEnv sha1 json) exDir ∧ Reach (exEnv sha1 json) exDir exDown (.running c fs) ∧ observe c fs h = .ok e ∧
      FromKey ⟨⟨[10, 0, 0, 2], rfl⟩, 4000⟩ exAddr ∧ ¬ FromKey ⟨⟨[10, 0, 0, 3], rfl⟩, 4000⟩ exAddr ∧
      (served (exEnv sha1 json) 0 [(exWire, (Msg.openReq h 1 1).serialize, exAddr), (exWire, [6, 0, 0, 0, 0], exAddr)] ⟨⟨c, fs, []⟩, fun _ => none⟩).st.fs = fs ∧
      (served (exEnv sha1 json) 0 [(exWire, (Msg.openReq h 1 1).serialize, exAddr), (exWire, [6, 0, 0, 0, 0], exAddr)] ⟨⟨c, fs, []⟩, fun _ => none⟩).uploads
        ⟨⟨[10, 0, 0, 3], rfl⟩, 4000⟩ = none := by
  obtain ⟨c, fs, e, h1, h2, -⟩ := ex_complete sha1 json h
  have hn : ¬ FromKey ⟨⟨[10, 0, 0, 3], rfl⟩, 4000⟩ exAddr := by
    rintro ⟨h, -⟩
    rw [show newIpv4 exAddr.ip = .ok ⟨[10, 0, 0, 2], rfl⟩ from rfl] at h
    injection h with h
    have := congrArg (·.1) h
    simp at this
  obtain ⟨k1, -, k3⟩ := C88_nothing_changes (ex_healthy sha1 json) h1.reach 0
    [(exWire, (Msg.openReq h 1 1).serialize, exAddr), (exWire, [6, 0, 0, 0, 0], exAddr)] [] (fun _ => none)
  refine ⟨c, fs, e, ex_healthy sha1 json, h1.reach, h2, ⟨rfl, rfl⟩, hn, k1, k3 _ ?_⟩
  intro x hx
  simp only [List.mem_cons, List.not_mem_nil, or_false] at hx
  rcases hx with rfl | rfl <;> exact hn

end Flu
