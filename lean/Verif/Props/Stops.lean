import Verif.Props.Flood
import Verif.Props.Fatal
import Verif.Props.UploadPanic
import Verif.Props.CutProgress
/-!
# What can end a running daemon (C128)

C54 says which datagrams are fatal to a daemon that handles one datagram at a time, and C105 says when the goroutines of one upload panic.  Here the whole daemon is meant: any number of
datagrams, uploads, searches, downloads and commands at once.
-/
namespace Flu
open Spec

/-- The daemon ends, although no operation of the disk and no write to a socket fails and the machine has an address.  (Downloads and commands may end it for whatever reason.) -/
inductive Spec.Undone (env : Env) (d : Path) (port : Nat) (s : Daemon) : DmEv → Prop
  | loop (a : Actor) (why : Death) (h : DLStep env d a s.loop (.dead why)) : Spec.Undone env d port s (.loop a)
  | parse (dg : Bytes) (ret : Addr) (hp : (parse (udpBuffer dg)).returns = false) : Spec.Undone env d port s (.datagram dg ret)
  | reply (t : Nat) (h : Handler) (m : Msg) (w : Wire) (f : SM Done) (own : Bytes) (ht : s.handlers t = some h) (hp : h.pos = .asked m) (hord : MapOrder s.loop.cat w.order)
      (hown : localIP w.addrs = .ok (some own)) (hm : replyTo port w h.ret m = some f) (hrun : (f ⟨s.st [], fun _ => none⟩).1.returns = false) : Spec.Undone env d port s (.handler t)
  | looks (t : Nat) (h : Handler) (hash : Sha1Hash) (chunk cap : UInt16) (ht : s.handlers t = some h) (hp : h.pos = .asked (.openReq hash chunk cap))
      (hrun : (contains hash (s.st [])).1.returns = false) : Spec.Undone env d port s (.handler t)
  | opens (t : Nat) (h : Handler) (hash : Sha1Hash) (chunk cap : UInt16) (choices : List AtChoice) (ht : s.handlers t = some h) (hp : h.pos = .known hash chunk cap)
      (hrun : (getChunkReader env hash chunk.toNat choices (s.st [])).1.returns = false ∨ (newIpv4 h.ret.ip).returns = false) : Spec.Undone env d port s (.handler t)
  | acks (t : Nat) (h : Handler) (off : UInt32) (ht : s.handlers t = some h) (hp : h.pos = .asked (.ack off)) (hip : (newIpv4 h.ret.ip).returns = false) : Spec.Undone env d port s (.handler t)
  | upload (key : UpKey) (u : UpConn) (o : Option Packet) (mu : MuState) (i : Nat) (hu : s.uploads key = some u) (hs : MuStep u.mu o mu)
      (hnew : ∀ i, u.mu.threads i = .none → mu.threads i = .none) (hi : mu.threads i = .dead) (hsound : Spec.Sound u.mu mu) : Spec.Undone env d port s (.upload key)
  | discovery (t : Nat) (table : Table) (h : TStep t s.table table) (hdead : table.threads t = .dead) : Spec.Undone env d port s (.discovery t)

/-- Runs in which the catalogue is always as if no operation of the disk had failed, no read and no write to a socket fails in an upload, the machine has an address, and datagrams come from
addresses as a socket gives them. -/
inductive Spec.WellRun (env : Env) (d dl : Path) (port : Nat) (s0 : Daemon) : List (DmEv × Option Out × DmSys) → DmSys → Prop
  | refl : Spec.WellRun env d dl port s0 [] (.alive s0)
  | goes {tr : List (DmEv × Option Out × DmSys)} {s s' : Daemon} {e : DmEv} {o : Option Out} (h : Spec.WellRun env d dl port s0 tr (.alive s)) (h' : DmStep env d port s e o (.alive s'))
      (hc : CleanReach env d dl (.running s'.loop.cat s'.loop.fs)) (hu : ∀ key u u', s.uploads key = some u → s'.uploads key = some u' → Spec.Sound u.mu u'.mu)
      (hip : ∀ dg ret, e = .datagram dg ret → newIpv4 ret.ip ≠ .panic) : Spec.WellRun env d dl port s0 (tr ++ [(e, o, .alive s')]) (.alive s')
  | stops {tr : List (DmEv × Option Out × DmSys)} {s : Daemon} {e : DmEv} (h : Spec.WellRun env d dl port s0 tr (.alive s)) (h' : Spec.Undone env d port s e)
      (hip : ∀ dg ret, e = .datagram dg ret → newIpv4 ret.ip ≠ .panic) : Spec.WellRun env d dl port s0 (tr ++ [(e, none, .dead)]) .dead

section
variable {env : Env} {d dl : Path} {port : Nat} {tr : List (DmEv × Option Out × DmSys)}

/-- Such a step is a step of the daemon. -/
theorem Spec.Undone.step {s : Daemon} {e : DmEv} (h : Spec.Undone env d port s e) : DmStep env d port s e none .dead := by
  cases h with
  | loop a why h => exact .loopDies s a why h
  | parse dg ret hp => exact .garbageDies s dg ret hp
  | reply t h m w f own ht hp hord hown hm hrun => exact .replyDies s t h m w [] f ht hp hm hrun
  | looks t h hash chunk cap ht hp hrun => exact .looksDies s t h hash chunk cap [] ht hp hrun
  | opens t h hash chunk cap choices ht hp hrun => exact .opensDies s t h hash chunk cap choices [] ht hp hrun
  | acks t h off ht hp hip => exact .acksDies s t h off ht hp hip
  | upload key u o mu i hu hs hnew hi hsound => exact .uploadDies s key u o mu i hu hs hnew hi
  | discovery t table h hdead => exact .discoveryDies s t table h hdead

theorem Spec.WellRun.run {s0 : Daemon} {x : DmSys} (h : Spec.WellRun env d dl port s0 tr x) : DmRun env d port s0 tr x := by
  induction h with
  | refl => exact .refl
  | goes _ h' _ _ _ ih => exact ih.step h'
  | stops _ h' _ ih => exact ih.step h'.step

theorem Spec.WellRun.clean {s0 s : Daemon} (h : Spec.WellRun env d dl port s0 tr (.alive s)) (h0 : CleanReach env d dl (.running s0.loop.cat s0.loop.fs)) :
    CleanReach env d dl (.running s.loop.cat s.loop.fs) := by
  cases h with
  | refl => exact h0
  | goes _ _ hc _ _ => exact hc

/-! ## The goroutines of the datagrams -/

/-- The datagram came, from an address as a socket gives it, and the reader of a chunk is one. -/
structure WellHandler (tr : List (DmEv × Option Out × DmSys)) (h : Handler) : Prop where
  came : ∀ m, h.pos = .asked m → ∃ dg o x, (DmEv.datagram dg h.ret, o, x) ∈ tr ∧ parse (udpBuffer dg) = .ok m
  ip : newIpv4 h.ret.ip ≠ .panic
  small : ∀ key path content reader cap, h.pos = .opened key path content reader cap → Spec.Small reader.reader

theorem WellHandler.more {h : Handler} (w : WellHandler tr h) (x : DmEv × Option Out × DmSys) : WellHandler (tr ++ [x]) h :=
  ⟨fun m hm => by obtain ⟨dg, o, y, g1, g2⟩ := w.came m hm; exact ⟨dg, o, y, List.mem_append_left _ g1, g2⟩, w.ip, w.small⟩

theorem well_upd {s s' : Daemon} {t : Nat} {h' : Handler} {x : DmEv × Option Out × DmSys} (hw : ∀ t h, s.handlers t = some h → WellHandler tr h)
    (hs : s'.handlers = upd s.handlers t (some h')) (h1 : WellHandler (tr ++ [x]) h') : ∀ t h, s'.handlers t = some h → WellHandler (tr ++ [x]) h := by
  intro i h hi
  rw [hs] at hi
  by_cases e : i = t
  · subst e
    rw [upd_same] at hi
    cases hi
    exact h1
  · rw [upd_other _ _ e] at hi
    exact (hw i h hi).more x

/-- The section that `GetChunkReader` opens has at most 2^32 - 1 bytes. -/
theorem reader_small (hh : Healthy env d) {c : Cat} {fs : FS} (hreach : Reach env d dl (.running c fs)) {h : Sha1Hash} {n : Nat} {ch : List AtChoice} {fl : List Fault} {cr : ChunkReader} {s' : St}
    (hrun : getChunkReader env h n ch ⟨c, fs, fl⟩ = (.ok (some cr), s')) : Spec.Small cr.reader := by
  have hI : Inv env d dl c fs := hreach.inv hh.abs hh.utf8
  obtain ⟨ind, hind, hw⟩ := hI.split
  have hrun' := hrun
  rw [hind] at hrun'
  obtain ⟨-, e2, content2, m2, m3, m4, m5⟩ := ((ro_reader (dl := dl) (fs0 := fs) env hw.ownGet h n ch) ⟨_, fs, fl⟩ (RO.init d dl ind fs)).1 _ _ hrun'
  rw [← observe_eq d dl, ← hind] at m2
  obtain ⟨hc1, hc2⟩ := observe_chunkSize hh hreach h e2 m2
  obtain ⟨q1, q2, -, q4⟩ := C23_describes env.sha1 content2 _ _ _ cr m5.symm
  rw [q4]
  refine ⟨?_, ?_⟩
  · show n * e2.chunkSize.toNat ≤ n * e2.chunkSize.toNat + e2.chunkSize.toNat
    omega
  · show n * e2.chunkSize.toNat + e2.chunkSize.toNat - n * e2.chunkSize.toNat ≤ 4294967295
    omega

theorem well_step (hh : Healthy env d) {s s' : Daemon} {e : DmEv} {o : Option Out} (hreach : Reach env d dl (.running s.loop.cat s.loop.fs)) (hs : DmStep env d port s e o (.alive s'))
    (hip : ∀ dg ret, e = .datagram dg ret → newIpv4 ret.ip ≠ .panic) (hw : ∀ t h, s.handlers t = some h → WellHandler tr h) :
    ∀ t h, s'.handlers t = some h → WellHandler (tr ++ [(e, o, .alive s')]) h := by
  have keep : s'.handlers = s.handlers → ∀ t h, s'.handlers t = some h → WellHandler (tr ++ [(e, o, .alive s')]) h := fun h1 t h ht => (hw t h (by rw [← h1]; exact ht)).more _
  have moves : ∀ {t : Nat} {h : Handler} {pos : HPos}, s.handlers t = some h → s'.handlers = upd s.handlers t (some { h with pos := pos }) → (∀ m, pos ≠ .asked m) →
      (∀ key path content reader cap, pos = .opened key path content reader cap → Spec.Small reader.reader) → ∀ t h, s'.handlers t = some h → WellHandler (tr ++ [(e, o, .alive s')]) h :=
    fun ht hs hp hq => well_upd hw hs ⟨fun m hm => absurd hm (hp m), (hw _ _ ht).ip, hq⟩
  cases hs with
  | loop a l h => exact keep rfl
  | arrives t dg ret m ht hp =>
    refine well_upd hw rfl ⟨fun m' hm => ?_, hip dg ret rfl, by intro _ _ _ _ _ h; cases h⟩
    cases hm
    exact ⟨dg, _, _, List.mem_append_right _ (List.mem_singleton.2 rfl), hp⟩
  | garbage dg ret e hp => exact keep rfl
  | replies t h m w fl f ip to bytes s1 ht hp hm hrun => exact moves ht rfl (by intro _ h; cases h) (by intro _ _ _ _ _ h; cases h)
  | replyFails t h m w fl f e s1 ht hp hm hrun => exact moves ht rfl (by intro _ h; cases h) (by intro _ _ _ _ _ h; cases h)
  | looks t h hash chunk cap fl e s1 ht hp hrun => exact moves ht rfl (by intro _ h; cases h) (by intro _ _ _ _ _ h; cases h)
  | looksFails t h hash chunk cap fl e s1 ht hp hrun => exact moves ht rfl (by intro _ h; cases h) (by intro _ _ _ _ _ h; cases h)
  | opens t h hash chunk cap choices fl reader s1 path content host ht hp hrun hsize hip hpath hfile =>
    refine moves ht rfl (by intro _ h; cases h) ?_
    intro _ _ _ _ _ h
    cases h
    exact reader_small hh hreach hrun
  | opensNever t h hash chunk cap choices fl s1 ht hp hrun => exact moves ht rfl (by intro _ h; cases h) (by intro _ _ _ _ _ h; cases h)
  | opensNot t h hash chunk cap choices fl reader s1 ht hp hrun hsize => exact moves ht rfl (by intro _ h; cases h) (by intro _ _ _ _ _ h; cases h)
  | opensFails t h hash chunk cap choices fl e s1 ht hp hrun => exact moves ht rfl (by intro _ h; cases h) (by intro _ _ _ _ _ h; cases h)
  | kicks t h key path content reader cap i u ht hp hu hi => exact moves ht rfl (by intro _ h; cases h) (by intro _ _ _ _ _ h; cases h)
  | acks t h off host u ht hp hip hu => exact moves ht rfl (by intro _ h; cases h) (by intro _ _ _ _ _ h; cases h)
  | acksNone t h off host ht hp hip hu => exact moves ht rfl (by intro _ h; cases h) (by intro _ _ _ _ _ h; cases h)
  | acksFails t h off e ht hp hip => exact moves ht rfl (by intro _ h; cases h) (by intro _ _ _ _ _ h; cases h)
  | delivers t t' h m i table ht hp hm hi hfree htable => exact moves ht rfl (by intro _ h; cases h) (by intro _ _ _ _ _ h; cases h)
  | uploads key u o mu hu hs hnew hack hsee hlive => exact keep rfl
  | sees key u new hu hnew => exact keep rfl
  | discovery t table h hnew hlive => exact keep rfl

theorem Spec.WellRun.handlers (hh : Healthy env d) {c : Cat} {fs : FS} (h0 : CleanReach env d dl (.running c fs)) {x : DmSys} (h : Spec.WellRun env d dl port (.fresh c fs) tr x) :
    ∀ s, x = .alive s → ∀ t h, s.handlers t = some h → WellHandler tr h := by
  induction h with
  | refl =>
    rintro s hs t h ht
    cases hs
    cases ht
  | goes h1 h' hc hu hip ih =>
    rintro s hs
    cases hs
    exact well_step hh (h1.clean h0).reach h' hip (ih _ rfl)
  | stops => rintro s hs; cases hs

/-! ## The uploads -/

/-- The upload for an address from which no more than one request came. -/
structure Single (key : UpKey) (opens : Nat) (s : Daemon) : Prop where
  few : ∃ a b, AtMost (s.Owing key) a ∧ AtMost (fun i => ∃ u, s.uploads key = some u ∧ u.mu.threads i ≠ .none) b ∧ a + b ≤ opens
  safe : opens ≤ 1 → ∀ u, s.uploads key = some u → ∃ r, Spec.Small r ∧ SafeInv r u.mu

/-- An upload that is made has the reader of the goroutine that makes it. -/
theorem upload_made {s s' : Daemon} {e : DmEv} {o : Option Out} (hs : DmStep env d port s e o (.alive s')) {key : UpKey} (h0 : s.uploads key = none) {u : UpConn} (hu : s'.uploads key = some u) :
    ∃ t h path content reader cap i, s.handlers t = some h ∧ h.pos = .opened key path content reader cap ∧
      u.mu = ((MuState.init reader.reader cap content).set i (.reset reader.hash reader.size .none)).move reader.reader.base := by
  have other : s'.uploads = s.uploads → False := fun h => by rw [h, h0] at hu; cases hu
  have at_ : ∀ {k : UpKey} {v : UpConn}, s'.uploads = upd s.uploads k (some v) → s.uploads k ≠ none → False := by
    intro k v h1 h2
    rw [h1] at hu
    by_cases e : key = k
    · subst e; exact absurd h0 h2
    · rw [upd_other _ _ e, h0] at hu; cases hu
  cases hs with
  | kicks t h k path content reader cap i u' ht hp hu' hi =>
    by_cases e : key = k
    · subst e
      have hu : upd s.uploads key _ key = some u := hu
      rw [upd_same] at hu
      cases hu
      rw [h0] at hu'
      subst hu'
      exact ⟨t, h, path, content, reader, cap, i, ht, hp, rfl⟩
    · have hu : upd s.uploads k _ key = some u := hu
      rw [upd_other _ _ e, h0] at hu; cases hu
  | acks t h off host u' ht hp hip hu' => exact (at_ rfl (by rw [hu']; simp)).elim
  | uploads k u' o mu hu' hs hnew hack hsee hlive => exact (at_ rfl (by rw [hu']; simp)).elim
  | sees k u' new hu' hnew => exact (at_ rfl (by rw [hu']; simp)).elim
  | _ => exact (other rfl).elim

theorem single_step {key : UpKey} {s s' : Daemon} {e : DmEv} {o : Option Out} (h : Single key (Spec.times (Spec.OpensAny key) tr) s) (hs : DmStep env d port s e o (.alive s'))
    (hw : ∀ t h, s.handlers t = some h → WellHandler tr h) (hsound : ∀ u u', s.uploads key = some u → s'.uploads key = some u' → Spec.Sound u.mu u'.mu) :
    Single key (Spec.times (Spec.OpensAny key) (tr ++ [(e, o, .alive s')])) s' := by
  obtain ⟨⟨a, b, h1, h2, h3⟩, h4⟩ := h
  have same : ∀ {u u' : UpConn}, s.uploads key = some u → s'.uploads key = some u' → (∀ i, u.mu.threads i = .none → u'.mu.threads i = .none) →
      AtMost (fun i => ∃ v, s'.uploads key = some v ∧ v.mu.threads i ≠ .none) b := by
    intro u u' hu hu' hnew
    refine h2.mono ?_
    rintro i ⟨v, hv, hv2⟩
    rw [hu'] at hv
    cases hv
    exact ⟨u, hu, fun h => hv2 (hnew i h)⟩
  have hmade := @upload_made env d port s s' e o hs key
  cases hs.moves key with
  | other hc hu hx ho ha =>
    rw [times_no (fun ⟨cap, h⟩ => ho cap h)]
    refine ⟨⟨a, b, h1.mono hc.owing, ?_, h3⟩, fun hle u hv => h4 hle u (by rw [← hu]; exact hv)⟩
    rw [hu]; exact h2
  | opens t hd cap hs ht hh hn hu hx ho ha =>
    rw [times_yes ⟨cap, ho⟩]
    refine ⟨⟨a + 1, b, h1.add t (owing_upd hs), by rw [hu]; exact h2, by omega⟩, fun hle u hv => h4 (by omega) u (by rw [← hu]; exact hv)⟩
  | acks t hd hs ht hh hn hu hx ho ha =>
    rw [times_no (fun ⟨cap, h⟩ => ho cap h)]
    refine ⟨⟨a, b, h1.mono ?_, by rw [hu]; exact h2, h3⟩, fun hle u hv => h4 hle u (by rw [← hu]; exact hv)⟩
    intro i hi
    by_cases e : i = t
    · subst e
      obtain ⟨h', cap, g1, g2⟩ := hi
      rw [hs, upd_same] at g1
      cases g1
      exact absurd g2 (hn cap)
    · exact owing_upd hs i e hi
  | kicks t cap hd hd' u i hash size ht hh hs hdone hu hi hu' hx ho ha =>
    rw [times_no (fun ⟨cap, h⟩ => ho cap h)]
    obtain ⟨m, rfl, h6⟩ := h1.drop (q := s'.Owing key) (t := t) ⟨hd, cap, ht, hh⟩ (not_owing_done hs hdone) (fun i hi => by
      by_cases e : i = t
      · subst e; exact absurd hi (not_owing_done hs hdone)
      · exact owing_upd hs i e hi)
    refine ⟨⟨m, b + 1, h6, h2.add i ?_, by omega⟩, fun hle v hv => ?_⟩
    · rintro j hj ⟨v, hv, hv2⟩
      rw [hu'] at hv
      cases hv
      have hv3 : (u.mu.set i (.reset hash size .none)).threads j ≠ .none := hv2
      rw [MuState.set_other hj] at hv3
      rcases hu with hu | ⟨-, r, content, hu⟩
      · exact ⟨u, hu, hv3⟩
      · rw [hu] at hv3; exact absurd rfl hv3
    · have hb : b = 0 := by omega
      subst hb
      have hnone : ∀ v, s.uploads key = some v → ∀ j, v.mu.threads j = .none := by
        intro v hv j
        apply Classical.byContradiction
        intro hj
        have := h2.pos ⟨v, hv, hj⟩
        omega
      have kick : ∀ (r : SectionReader) (mu : MuState) (i : Nat) (hash : Sha1Hash) (size : Nat), Spec.Small r → SafeInv r mu → (∀ j, mu.threads j = .none) →
          SafeInv r ((mu.set i (.reset hash size .none)).move mu.reader.base) := by
        intro r mu i hash size hr hsafe hn
        refine safe_step hr hsafe (.kickstart mu i hash size (hn i)) (fun j _ _ k _ => by rw [hn k]; rfl) (fun j => ?_)
        rw [hn j]
        intro h
        exact h
      rcases hu with hu | ⟨hu, r, content, hmu⟩
      · rw [hu'] at hv
        cases hv
        obtain ⟨r, hr, hsafe⟩ := h4 hle u hu
        exact ⟨r, hr, kick r u.mu i hash size hr hsafe (hnone u hu)⟩
      · obtain ⟨t1, hd1, path, content1, reader, cap1, i1, k1, k2, k3⟩ := hmade hu hv
        have hr := (hw t1 hd1 k1).small _ _ _ _ _ k2
        refine ⟨reader.reader, hr, ?_⟩
        rw [k3]
        exact kick reader.reader (.init reader.reader cap1 content1) i1 _ _ hr ⟨rfl, rfl, fun _ => by simp [MuState.init], 0, fun _ _ => rfl, trivial⟩ (fun _ => rfl)
  | passes t hd hd' u ht hh hs hdone hu hu' hx ho ha =>
    rw [times_no (fun ⟨cap, h⟩ => ho cap h)]
    refine ⟨⟨a, b, h1.mono ?_, same hu hu' (fun _ h => h), h3⟩, fun hle v hv => ?_⟩
    · intro i hi
      by_cases e : i = t
      · subst e; exact absurd hi (not_owing_done hs hdone)
      · exact owing_upd hs i e hi
    · rw [hu'] at hv
      cases hv
      exact h4 hle u hu
  | runs u p mu hs hu hm hnew hack hu' hx ho ha =>
    rw [times_no (fun ⟨cap, h⟩ => ho cap h)]
    refine ⟨⟨a, b, h1.mono (fun i => by unfold Daemon.Owing; rw [hs]; exact fun h => h), same hu hu' hnew, h3⟩, fun hle v hv => ?_⟩
    rw [hu'] at hv
    cases hv
    obtain ⟨r, hr, hsafe⟩ := h4 hle u hu
    exact ⟨r, hr, safe_step hr hsafe hm (fun i h1 h2 => absurd (hnew i h1) h2) (hsound u _ hu hu')⟩
  | sees u now before hs hu hu' hx ho ha =>
    rw [times_no (fun ⟨cap, h⟩ => ho cap h)]
    refine ⟨⟨a, b, h1.mono (fun i => by unfold Daemon.Owing; rw [hs]; exact fun h => h), same hu hu' (fun _ h => h), h3⟩, fun hle v hv => ?_⟩
    rw [hu'] at hv
    cases hv
    exact h4 hle u hu

theorem Spec.WellRun.single (hh : Healthy env d) {c : Cat} {fs : FS} (h0 : CleanReach env d dl (.running c fs)) (key : UpKey) {x : DmSys} (h : Spec.WellRun env d dl port (.fresh c fs) tr x) :
    ∀ s, x = .alive s → Single key (Spec.times (Spec.OpensAny key) tr) s := by
  induction h with
  | refl =>
    rintro s hs
    cases hs
    refine ⟨⟨0, 0, atMost_none ?_, atMost_none ?_, Nat.le_refl 0⟩, fun _ u hu => by cases hu⟩
    · rintro t ⟨_, _, h, _⟩; cases h
    · rintro t ⟨_, h, _⟩; cases h
  | goes h1 h' hc hu hip ih =>
    rintro s hs
    cases hs
    exact single_step (ih _ rfl) h' (h1.handlers hh h0 _ rfl) (fun u u' => hu key u u')
  | stops => rintro s hs; cases hs

/-! ## What ends the daemon -/

theorem dies_iff {α : Type} (r : Res α) : Dies r ↔ r.returns = false := by
  cases r <;> simp [Dies, Res.returns]

theorem newIpv4_returns {ip : NetIP} (h : newIpv4 ip ≠ .panic) : ¬ (newIpv4 ip).returns = false := by
  unfold newIpv4 at h ⊢
  split
  · simp [Res.returns]
  · split
    · simp [Res.returns]
    · split
      · simp [Res.returns]
      · rename_i h1 h2 h3
        rw [h1] at h
        simp [h2, h3] at h

/-- The goroutine of a search or a request for a listing does what `HandleMessage` does. -/
theorem replyTo_serves {w : Wire} {ret : Addr} {m : Msg} {f : SM Done} {dg : Bytes} (hm : replyTo port w ret m = some f) (hp : parse (udpBuffer dg) = .ok m) (s : Srv) :
    serveDatagram env port w dg ret s = f s := by
  unfold serveDatagram handleMessage
  rw [IOM.bind_apply, IOM.lift_apply, hp]
  cases m with
  | discoverReq r h q => cases hm; rfl
  | listReq r h => cases hm; rfl
  | _ => cases hm

theorem order_exists (hh : Healthy env d) {c : Cat} {fs : FS} (hreach : Reach env d dl (.running c fs)) : ∃ order, MapOrder c order := by
  obtain ⟨ind, hind, -⟩ := (hreach.inv hh.abs hh.utf8).split
  exact ⟨ind.index.map (·.1), ind, by rw [hind], List.Perm.refl _⟩

/-- **C128.**  A daemon in which nothing fails, with any number of datagrams, uploads, searches, downloads and commands at once, ends only with a step of a download or a command; or
with a datagram that is fatal for what the catalogue has at that moment, when it arrives or when its goroutine goes on; or with a goroutine of an upload to an address from which at least two
requests for chunks have come.  The searches for hosts never end it. -/
theorem C128_causes (hh : Healthy env d) {c : Cat} {fs : FS} (h0 : CleanReach env d dl (.running c fs)) (h : Spec.WellRun env d dl port (.fresh c fs) tr .dead) :
    ∃ tr' e s, tr = tr' ++ [(e, none, .dead)] ∧ Spec.WellRun env d dl port (.fresh c fs) tr' (.alive s) ∧
      ((∃ a why, e = .loop a ∧ DLStep env d a s.loop (.dead why)) ∨
       (∃ dg ret, e = .datagram dg ret ∧ Spec.Lethal (fun h => ∃ x, observe s.loop.cat s.loop.fs h = .ok x) dg) ∨
       (∃ t dg ret o x, e = .handler t ∧ (.datagram dg ret, o, x) ∈ tr' ∧ Spec.Lethal (fun h => ∃ x, observe s.loop.cat s.loop.fs h = .ok x) dg) ∨
       (∃ key, e = .upload key ∧ 2 ≤ Spec.times (Spec.OpensAny key) tr')) := by
  generalize hx : DmSys.dead = x at h
  cases h with
  | refl => cases hx
  | goes => cases hx
  | @stops tr s e h1 h' hip =>
    refine ⟨tr, e, s, rfl, h1, ?_⟩
    have hc := h1.clean h0
    have hw := h1.handlers hh h0 _ rfl
    cases h' with
    | loop a why h => exact .inl ⟨a, why, rfl, h⟩
    | parse dg ret hp =>
      obtain ⟨order, hord⟩ := order_exists hh hc.reach
      refine .inr (.inl ⟨dg, ret, rfl, ?_⟩)
      rw [← C54_fatal_iff_partial hh hc port ⟨some [[10, 0, 0, 3]], order, [], .good, true⟩ hord [10, 0, 0, 3] rfl dg ret (hip dg ret rfl) (fun _ => none), dies_iff]
      unfold serveDatagram handleMessage
      rw [IOM.bind_apply, IOM.lift_apply]
      cases hq : parse (udpBuffer dg) <;> rw [hq] at hp <;> first | rfl | cases hp
    | reply t h m w f own ht hp hord hown hm hrun =>
      obtain ⟨dg, o, x, g1, g2⟩ := (hw t h ht).came m hp
      refine .inr (.inr (.inl ⟨t, dg, h.ret, o, x, rfl, g1, ?_⟩))
      rw [← C54_fatal_iff_partial hh hc port w hord own hown dg h.ret (hw t h ht).ip (fun _ => none), dies_iff, replyTo_serves hm g2]
      exact hrun
    | looks t h hash chunk cap ht hp hrun =>
      obtain ⟨-, -, -, -, -, h4⟩ := C30_restart hh hc 0 0
      have hob : (contains hash (s.st [])).1 = observe s.loop.cat s.loop.fs hash := rfl
      rw [hob] at hrun
      rcases h4 hash with ⟨e, ho⟩ | ho <;> rw [ho] at hrun <;> cases hrun
    | opens t h hash chunk cap choices ht hp hrun =>
      rcases hrun with hrun | hrun
      · have hlt : chunk.toNat < 2 ^ 63 := by have := chunk.toNat_lt; omega
        rcases getChunkReader_survives hh hc hash chunk.toNat hlt choices with ⟨o, ho⟩ | ⟨o, ho⟩
        · have hrun : (getChunkReader env hash chunk.toNat choices ⟨s.loop.cat, s.loop.fs, []⟩).1.returns = false := hrun
          rw [ho] at hrun; cases hrun
        · have hrun : (getChunkReader env hash chunk.toNat choices ⟨s.loop.cat, s.loop.fs, []⟩).1.returns = false := hrun
          rw [ho] at hrun; cases hrun
      · exact absurd hrun (newIpv4_returns (hw t h ht).ip)
    | acks t h off ht hp hip' => exact absurd hip' (newIpv4_returns (hw t h ht).ip)
    | upload key u o mu i hu hs hnew hi hsound =>
      refine .inr (.inr (.inr ⟨key, rfl, ?_⟩))
      apply Classical.byContradiction
      intro hlt
      obtain ⟨r, hr, hsafe⟩ := (h1.single hh h0 key s rfl).safe (by omega) u hu
      exact (safe_step hr hsafe hs (fun i h1 h2 => absurd (hnew i h1) h2) hsound).2.2.1 i hi
    | discovery t table h hdead => exact absurd hdead (C50_only_answers table (h1.run.table.step t h) t).2

/-- **C128, the fatal datagrams are fatal**: at every moment of such a run, a datagram that is fatal for what the catalogue has then ends the daemon if it arrives and its goroutine
goes on at once. -/
theorem C128_fatal (hh : Healthy env d) {c : Cat} {fs : FS} (h0 : CleanReach env d dl (.running c fs)) {s : Daemon} (h : Spec.WellRun env d dl port (.fresh c fs) tr (.alive s)) (dg : Bytes)
    (ret : Addr) (hip : newIpv4 ret.ip ≠ .panic) (hl : Spec.Lethal (fun h => ∃ x, observe s.loop.cat s.loop.fs h = .ok x) dg) :
    ∃ tr', tr'.length ≤ 2 ∧ Spec.WellRun env d dl port (.fresh c fs) (tr ++ tr') .dead ∧ ∃ o x, (.datagram dg ret, o, x) ∈ tr' := by
  have hc := h.clean h0
  obtain ⟨order, hord⟩ := order_exists hh hc.reach
  obtain ⟨n, hn⟩ := h.run.room
  have hd := (C54_fatal_iff_partial hh hc port ⟨some [[10, 0, 0, 3]], order, [], .good, true⟩ hord [10, 0, 0, 3] rfl dg ret hip (fun _ => none)).2 hl
  have hne : ∀ dg' ret', DmEv.datagram dg ret = .datagram dg' ret' → newIpv4 ret'.ip ≠ .panic := by
    intro _ _ h
    cases h
    exact hip
  cases hq : parse (udpBuffer dg) with
  | ok m =>
    cases hm : replyTo port ⟨some [[10, 0, 0, 3]], order, [], .good, true⟩ ret m with
    | some f =>
      rw [dies_iff, replyTo_serves hm hq] at hd
      have a1 := h.goes (.arrives s n dg ret m (hn n (Nat.le_refl n)) hq) hc (fun key u u' h1 h2 => by
        have h2 : s.uploads key = some u' := h2
        rw [h1] at h2
        cases h2
        exact fun i => failsAt_self _) hne
      have a2 := a1.stops (.reply n ⟨ret, .asked m⟩ m _ f [10, 0, 0, 3] (upd_same _ _ _) rfl hord rfl hm hd) (by intro _ _ h; cases h)
      refine ⟨[_, _], Nat.le_refl 2, by rw [List.append_assoc] at a2; exact a2, _, _, List.mem_cons_self⟩
    | none =>
      exfalso
      unfold serveDatagram handleMessage at hd
      rw [IOM.bind_apply, IOM.lift_apply, hq] at hd
      cases m with
      | discoverReq r h q => cases hm
      | listReq r h => cases hm
      | openReq h n cap => exact startUpload_survives hh hc _ h n cap ret hip (fun _ => none) hd
      | ack o => exact continueUpload_survives ret hip _ hd
      | discoverResp r a p cs => exact not_dies_ok _ hd
      | listResp r fs => exact not_dies_ok _ hd
      | data o p => exact (parse_types _ (buffer_length dg)).2.2.2.2 o p hq
  | err e =>
    exfalso
    unfold serveDatagram handleMessage at hd
    rw [IOM.bind_apply, IOM.lift_apply, hq] at hd
    exact not_dies_err _ hd
  | panic => exact ⟨[_], by simp, h.stops (.parse dg ret (by rw [hq]; rfl)) hne, _, _, List.mem_singleton.2 rfl⟩
  | exit => exact ⟨[_], by simp, h.stops (.parse dg ret (by rw [hq]; rfl)) hne, _, _, List.mem_singleton.2 rfl⟩
  | crash => exact ⟨[_], by simp, h.stops (.parse dg ret (by rw [hq]; rfl)) hne, _, _, List.mem_singleton.2 rfl⟩

/-- **C128, a daemon that serves others goes on.**  If no datagram is fatal, whatever the catalogue has, and no address asks for more than one chunk, then nothing but a download or a
command ends the daemon. -/
theorem C128_serves (hh : Healthy env d) {c : Cat} {fs : FS} (h0 : CleanReach env d dl (.running c fs)) (h : Spec.WellRun env d dl port (.fresh c fs) tr .dead)
    (hl : ∀ dg ret o x, (.datagram dg ret, o, x) ∈ tr → ∀ known, ¬ Spec.Lethal known dg) (ho : ∀ key, Spec.times (Spec.OpensAny key) tr ≤ 1) :
    ∃ tr' a, tr = tr' ++ [(.loop a, none, .dead)] := by
  obtain ⟨tr', e, s, rfl, h1, h2⟩ := C128_causes hh h0 h
  rcases h2 with ⟨a, -, rfl, -⟩ | ⟨dg, ret, rfl, h2⟩ | ⟨t, dg, ret, o, x, rfl, h2, h3⟩ | ⟨key, rfl, h2⟩
  · exact ⟨tr', a, rfl⟩
  · exact absurd h2 (hl dg ret _ _ (List.mem_append_right _ (List.mem_singleton.2 rfl)) _)
  · exact absurd h3 (hl dg ret o x (List.mem_append_left _ h2) _)
  · have := ho key
    have := times_le (tr := tr') (Spec.OpensAny key) (.upload key, none, .dead)
    omega

set_option maxRecDepth 8000 in
/-- The hypotheses of `C128_fatal` and `C128_causes` can be met: a datagram of five bytes. -/
example (sha1 : Bytes → Sha1Hash) (json : JsonCodec) : ∃ c fs tr, CleanReach (exEnv sha1 json) exDir exDown (.running c fs) ∧ Spec.WellRun (exEnv sha1 json) exDir exDown 7 (.fresh c fs) tr .dead := by
  obtain ⟨c, fs, e, h1, -⟩ := ex_complete sha1 json Sha1Hash.zero
  obtain ⟨tr, -, h, -⟩ := C128_fatal (port := 7) (ex_healthy sha1 json) h1 .refl [3, 0, 0, 0, 30] exAddr (by decide) (.inr (.inr ⟨rfl, by decide⟩))
  exact ⟨c, fs, tr, h1, h⟩

/-- The hypotheses of `C128_serves` can be met: a search is received, and then the machine loses its power in the middle of a command. -/
theorem ex_stops (sha1 : Bytes → Sha1Hash) (json : JsonCodec) : ∃ c fs dg ret x o, CleanReach (exEnv sha1 json) exDir exDown (.running c fs) ∧
    Spec.WellRun (exEnv sha1 json) exDir exDown 7 (.fresh c fs) [(.datagram dg ret, none, x), (.loop (.call o), none, .dead)] .dead ∧ ∀ known, ¬ Spec.Lethal known dg := by
  obtain ⟨c, fs, e, h1, h2, h3, h4, h5, h6, h7, h8, h9⟩ := ex_complete sha1 json Sha1Hash.zero
  obtain ⟨fl, s', bytes, g1, -⟩ := C119_every (n := 0) (ex_healthy sha1 json) h1 h2 h9 (by rw [h5]; decide) [] 0 (Nat.zero_le _)
  have hp := parse_buffer (.discoverReq 5 Sha1Hash.blank []) (Nat.zero_le _) (by decide) []
  have a1 := (Spec.WellRun.refl (env := exEnv sha1 json) (d := exDir) (dl := exDown) (port := 7) (s0 := .fresh c fs)).goes
    (.arrives _ 0 ((Msg.discoverReq 5 Sha1Hash.blank []).serialize ++ []) exAddr _ rfl hp) h1 (fun _ _ _ h => by cases h) (by intro _ _ h; cases h; decide)
  have a2 := a1.stops (.loop (.call (.save Sha1Hash.zero 0 [])) .call (.callDies _ _ fl (by show (saveChunk Sha1Hash.zero 0 [] ⟨c, fs, fl⟩).1.returns = false; rw [g1]; rfl))) (by intro _ _ h; cases h)
  refine ⟨c, fs, _, exAddr, _, _, h1, a2, fun known => ?_⟩
  rintro (⟨h, -⟩ | ⟨-, h', x1, ⟨b, x2, x3⟩, -⟩ | ⟨h, -⟩)
  · cases h
  · have : h'.1 = List.replicate 20 255 := x1.symm
    rw [this, List.mem_replicate] at x2
    exact x3 x2.2
  · cases h

end
end Flu
