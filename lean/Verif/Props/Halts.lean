import Verif.Props.Embed
import Verif.Props.Unshare
import Verif.Props.Works
import Verif.Props.Commands
import Verif.Props.Away
/-!
# Why a download ends the daemon (C131)

For every place in which a call of `StartDownload` and its goroutine can be, and for everything that the network can do there: whether the next step ends the daemon, in terms of
what the catalogue shows at that moment.
-/
namespace Flu
open Spec

/-- What the network does to a download in its next step. -/
inductive Spec.Outside where
  | nothing                                  -- the step does not use the network
  | answers (w : DLWire)                     -- the addresses, the hosts found and the description, when the download begins
  | noBroadcast                              -- the search cannot open its socket
  | noSocket                                 -- no socket to the host can be opened
  | data (queue : List (Option Bytes))       -- the datagrams that the host sends for a chunk, and failed reads

/-- The next step of download `t` ends the daemon, if the network does this and operations of the disk fail like this. -/
inductive Spec.Halts (env : Env) (fl : List Fault) (s : DLState) (t : Nat) : Spec.Outside → Prop
  | check (th : DLThread) (ht : s.threads t = some th) (hp : th.pos = .check) (hrun : ∀ b, (startCheck th.hash ⟨s.cat, s.fs, fl⟩).1 ≠ .ok b) : Spec.Halts env fl s t .nothing
  | setup (th : DLThread) (w : DLWire) (b : Bool) (ht : s.threads t = some th) (hp : th.pos = .setup b) (hrun : (startSetup env w th.hash b ⟨s.cat, s.fs, fl⟩).1.returns = false) :
      Spec.Halts env fl s t (.answers w)
  | test (th : DLThread) (own : ByteArr 4) (ht : s.threads t = some th) (hp : th.pos = .test own) (hrun : ∀ v, (fileComplete th.hash ⟨s.cat, s.fs, fl⟩).1 ≠ .ok v) :
      Spec.Halts env fl s t .nothing
  | want (th : DLThread) (own : ByteArr 4) (ht : s.threads t = some th) (hp : th.pos = .want own) (hrun : ∀ r rest, (missingChunks th.hash ⟨s.cat, s.fs, fl⟩).1 ≠ .ok (r :: rest)) :
      Spec.Halts env fl s t .nothing
  | search (th : DLThread) (own : ByteArr 4) (c : UInt16) (ht : s.threads t = some th) (hp : th.pos = .search own c) : Spec.Halts env fl s t .noBroadcast
  | dial (th : DLThread) (own : ByteArr 4) (c : UInt16) (r : HostResp) (todo : List HostResp) (ht : s.threads t = some th) (hp : th.pos = .hosts own c (r :: todo)) (hl : s.locked = false)
      (hk : s.downloads (th.hash, r.addr) = false) : Spec.Halts env fl s t .noSocket
  | fetch (th : DLThread) (own : ByteArr 4) (c : UInt16) (r : HostResp) (todo : List HostResp) (queue : List (Option Bytes)) (ht : s.threads t = some th)
      (hp : th.pos = .fetching own c r todo) (hrun : ∀ out, (downloadChunk env th.hash c queue ⟨s.cat, s.fs, fl⟩).1 ≠ .ok out) : Spec.Halts env fl s t (.data queue)

/-- Why a download ends the daemon, in terms of what the catalogue shows and of what comes from the network. -/
def Spec.Reason (s : DLState) (th : DLThread) : Spec.Outside → Prop
  | .nothing => (∃ own, th.pos = .test own ∧ Unlisted th.hash s) ∨
      ∃ own, th.pos = .want own ∧ (Unlisted th.hash s ∨ ∃ e, observe s.cat s.fs th.hash = .ok e ∧ ∀ i : Nat, (i : Int) < e.progress.sizeOf → e.saved i)
  | .answers w => ∃ b, th.pos = .setup b ∧ (Addressless w.addrs ∨ w.responses = none ∨
      (b = false ∧ ∃ own rs peer rest, ownAddress w.addrs = .ok own ∧ w.responses = some rs ∧ goodHosts own rs = peer :: rest ∧ (w.description peer = .noSocket ∨ ∃ data, w.description peer = .datagram data ∧
        (Overruns data ∨ ∃ id f, parse (.exact (buffer data)) = .ok (.listResp id [f]) ∧ f.hash = th.hash ∧ Bad f.sizeInBytes f.chunkSize ∧ Unlisted th.hash s))))
  | .noBroadcast => ∃ own c, th.pos = .search own c
  | .noSocket => ∃ own c r todo, th.pos = .hosts own c (r :: todo) ∧ s.locked = false ∧ s.downloads (th.hash, r.addr) = false
  | .data queue => ∃ own c r todo, th.pos = .fetching own c r todo ∧ ∃ seen dg rest, queue = seen.map some ++ some dg :: rest ∧ (∀ x ∈ seen, ¬ isEnd x) ∧
      (Fatal seen dg ∨ (isEnd dg ∧ Unlisted th.hash s))

section
variable {env : Env} {d dl : Path} {c : Cat} {fs : FS}

/-! ### The pieces -/

/-- Registering a file that is known is refused, whatever its metadata. -/
theorem register_known (hh : Healthy env d) (hr : Reach env d dl (.running c fs)) (size : UInt64) (cs : UInt32) (h : Sha1Hash) (name : GoString) {e : Export}
    (ho : observe c fs h = .ok e) : ∃ x, (registerDownload env size cs h name ⟨c, fs, []⟩).1 = .err x := by
  have hI : Inv env d dl c fs := hr.inv hh.abs hh.utf8
  obtain ⟨ind, rfl, hw⟩ := hI.split
  have hk : mapGet ind.index h ≠ none := by
    intro hn
    rw [observe_eq, obsRec_notFound.2 hn] at ho
    cases ho
  obtain ⟨r, hm⟩ := Option.ne_none_iff_exists'.1 hk
  have hadd := addIndexRecord_nil env (downloadRecord dl size cs h name) d dl ind fs
  rw [show mapGet ind.index (downloadRecord dl size cs h name).sha1Hash = some r from hm] at hadd
  simp only at hadd
  unfold registerDownload
  rw [IOM.bind_apply, getCat_apply]
  simp only
  rw [IOM.bind_apply]
  unfold downloadRecord at hadd
  rw [hadd]
  exact ⟨_, rfl⟩

/-- The setup of a download on a disk that works. -/
theorem setup_halts (hh : Healthy env d) (hr : CleanReach env d dl (.running c fs)) (w : DLWire) (h : Sha1Hash) (b : Bool) :
    (startSetup env w h b ⟨c, fs, []⟩).1.returns = false ↔ Addressless w.addrs ∨ w.responses = none ∨
      (b = false ∧ ∃ own rs peer rest, ownAddress w.addrs = .ok own ∧ w.responses = some rs ∧ goodHosts own rs = peer :: rest ∧ (w.description peer = .noSocket ∨ ∃ data, w.description peer = .datagram data ∧
        (Overruns data ∨ ∃ id f, parse (.exact (buffer data)) = .ok (.listResp id [f]) ∧ f.hash = h ∧ Bad f.sizeInBytes f.chunkSize ∧ observe c fs h = .err .fileNotFound))) := by
  rcases ownAddress_cases w.addrs with ⟨h1, h2⟩ | ⟨h1, own, h2⟩
  · refine ⟨fun _ => .inl h1, fun _ => ?_⟩
    unfold startSetup
    rw [IOM.bind_apply, IOM.lift_apply, h2]; rfl
  cases hrs : w.responses with
  | none =>
    refine ⟨fun _ => .inr (.inl rfl), fun _ => ?_⟩
    unfold startSetup
    rw [IOM.bind_apply, IOM.lift_apply, h2, hrs]; rfl
  | some rs =>
    cases hg : goodHosts own rs with
    | nil =>
      constructor
      · intro hx
        unfold startSetup at hx
        rw [IOM.bind_apply, IOM.lift_apply, h2, hrs] at hx
        simp only [hg] at hx
        cases hx
      · rintro (hx | hx | ⟨-, own', rs', peer, rest, k1, k2, k3, -⟩)
        · exact absurd hx h1
        · cases hx
        · rw [h2] at k1; cases k1; cases k2; rw [hg] at k3; cases k3
    | cons peer rest =>
      cases b with
      | true =>
        constructor
        · intro hx
          unfold startSetup at hx
          rw [IOM.bind_apply, IOM.lift_apply, h2, hrs] at hx
          simp only [hg] at hx
          cases hx
        · rintro (hx | hx | ⟨hx, -⟩)
          · exact absurd hx h1
          · cases hx
          · cases hx
      | false =>
        have key : (startSetup env w h false ⟨c, fs, []⟩).1.returns = false ↔ (w.description peer = .noSocket ∨ ∃ data, w.description peer = .datagram data ∧
            (Overruns data ∨ ∃ id f, parse (.exact (buffer data)) = .ok (.listResp id [f]) ∧ f.hash = h ∧ Bad f.sizeInBytes f.chunkSize ∧ observe c fs h = .err .fileNotFound)) := by
          unfold startSetup
          rw [IOM.bind_apply, IOM.lift_apply, h2, hrs]
          simp only [hg, Bool.false_eq_true, if_false]
          rw [IOM.bind_apply, IOM.lift_apply]
          have hret := listFilesOnHost_returns (w.description peer)
          rw [← downloadMetaData_returns h] at hret
          cases hf : downloadMetaData h (w.description peer) with
          | ok f =>
            rw [hf] at hret
            obtain ⟨n1, n2⟩ := hret.1 rfl
            obtain ⟨g1, data, id, g2, g3⟩ := (downloadMetaData_ok h _ f).1 hf
            simp only
            rw [IOM.bind_apply]
            rcases clean_known hh hr h with ⟨e, ho⟩ | ho
            · obtain ⟨x, hx⟩ := register_known hh hr.reach f.sizeInBytes f.chunkSize f.hash f.fileName (by rw [g1]; exact ho)
              rcases hq : registerDownload env f.sizeInBytes f.chunkSize f.hash f.fileName ⟨c, fs, []⟩ with ⟨q, s'⟩
              rw [hq] at hx
              simp only at hx
              subst hx
              constructor
              · intro hx; cases hx
              · rintro (hx | ⟨data', k1, k2 | ⟨id', f', -, -, -, k3⟩⟩)
                · exact absurd hx n1
                · exact absurd k2 (n2 data' k1)
                · rw [ho] at k3; cases k3
            · by_cases hb : Bad f.sizeInBytes f.chunkSize
              · have hp := register_bad hh hr.reach f.sizeInBytes f.chunkSize f.hash f.fileName (by rw [g1]; exact ho) hb
                rcases hq : registerDownload env f.sizeInBytes f.chunkSize f.hash f.fileName ⟨c, fs, []⟩ with ⟨q, s'⟩
                rw [hq] at hp
                simp only at hp
                subst hp
                exact ⟨fun _ => .inr ⟨data, g2, .inr ⟨id, f, g3, g1, hb, ho⟩⟩, fun _ => rfl⟩
              · have hi : HasIdx (c : Cat) fs := by
                  obtain ⟨b', s', -, -, -⟩ := startCheck_steady hh hr [] (fun f hf => by cases hf) h
                  obtain ⟨ind, rfl, hs⟩ := hr.sync hh.abs hh.utf8
                  exact (RO.init d dl ind fs).hasIdx
                have hst := (Steady.seq (Steady.registerGood env f.sizeInBytes f.chunkSize f.hash f.fileName hb) (fun _ => Steady.pure own)) ⟨c, fs, []⟩ hi (by intro f hf; cases hf)
                have hst := hst.1
                rw [IOM.bind_apply] at hst
                rw [hst]
                constructor
                · intro hx; cases hx
                · rintro (hx | ⟨data', k1, k2 | ⟨id', f', k3, -, k4, -⟩⟩)
                  · exact absurd hx n1
                  · exact absurd k2 (n2 data' k1)
                  · rw [g2] at k1; cases k1
                    rw [g3] at k3; cases k3
                    exact absurd k4 hb
          | err x =>
            rw [hf] at hret
            obtain ⟨n1, n2⟩ := hret.1 rfl
            constructor
            · intro hx; cases hx
            · rintro (hx | ⟨data', k1, k2 | ⟨id', f', k3, k4, -⟩⟩)
              · exact absurd hx n1
              · exact absurd k2 (n2 data' k1)
              · rw [(downloadMetaData_ok h _ f').2 ⟨k4, data', id', k1, k3⟩] at hf; cases hf
          | panic => refine ⟨fun _ => ?_, fun _ => rfl⟩; rw [hf] at hret; exact harmful_now hret
          | exit => refine ⟨fun _ => ?_, fun _ => rfl⟩; rw [hf] at hret; exact harmful_now hret
          | crash => refine ⟨fun _ => ?_, fun _ => rfl⟩; rw [hf] at hret; exact harmful_now hret
        rw [key]
        constructor
        · intro hx; exact .inr (.inr ⟨rfl, own, rs, peer, rest, h2, rfl, hg, hx⟩)
        · rintro (hx | hx | ⟨-, own', rs', peer', rest', k1, k2, k3, k4⟩)
          · exact absurd hx h1
          · cases hx
          · rw [h2] at k1; cases k1; cases k2; rw [hg] at k3; cases k3; exact k4
where
  harmful_now {x : Contact} {P : Bytes → Prop} {r : Bool} (h : r = true ↔ x ≠ .noSocket ∧ ∀ data, x = .datagram data → ¬ Overruns data) (hr : r = false := by rfl) :
      x = .noSocket ∨ ∃ data, x = .datagram data ∧ (Overruns data ∨ P data) := by
    apply Classical.byContradiction
    intro hn
    obtain ⟨n1, n2⟩ := not_or.1 hn
    rw [h.2 ⟨n1, fun data hd ho => n2 ⟨data, hd, .inl ho⟩⟩] at hr
    cases hr

/-- What ends a transfer that is not ended by the host's datagrams: an end marker. -/
theorem recvLoop_end (sha1 : Bytes → Sha1Hash) (queue : List (Option Bytes)) : ∀ (k : RConn) (seen : List Bytes), k.Knows (announced seen) → ∀ acks out, recvLoop sha1 k queue = .ok (acks, out) →
    ((∃ b ok, out = .finished b ok) ↔ ∃ (more : List Bytes) (dg : Bytes) (rest : List (Option Bytes)), queue = more.map some ++ some dg :: rest ∧ (∀ x ∈ more, ¬ isEnd x) ∧ isEnd dg) := by
  induction queue with
  | nil =>
    rintro k seen hk acks out hx
    cases hx
    constructor
    · rintro ⟨_, _, h⟩; cases h
    · rintro ⟨more, dg, rest, h, -⟩; cases more <;> cases h
  | cons o rest ih =>
    intro k seen hk acks out hx
    rcases o with _ | dg
    · cases hx
      constructor
      · rintro ⟨_, _, h⟩; cases h
      · rintro ⟨more, dg, rest, h, -⟩; cases more <;> cases h
    · obtain ⟨h1, h2, h3⟩ := onDatagram sha1 k seen hk dg
      rw [recvLoop_cons] at hx
      by_cases hf : Fatal seen dg
      · rw [h1 hf] at hx; cases hx
      by_cases he : isEnd dg
      · obtain ⟨h, -, e⟩ := h2 hf he
        rw [e] at hx
        cases hx
        exact ⟨fun _ => ⟨[], dg, rest, rfl, (by intro x hx; cases hx), he⟩, fun _ => ⟨_, _, rfl⟩⟩
      · obtain ⟨k', hk', e⟩ := h3 hf he
        rw [e, Res.bind_ok] at hx
        simp only at hx
        obtain ⟨⟨a, out'⟩, g1, g2⟩ := (Res.bind_ok_iff _ _ _).1 hx
        cases g2
        rw [ih k' (seen ++ [dg]) hk' a out' g1]
        constructor
        · rintro ⟨more, dg', rest', rfl, m1, m2⟩
          exact ⟨dg :: more, dg', rest', rfl, fun x hx => (List.mem_cons.1 hx).elim (fun e => e ▸ he) (m1 x), m2⟩
        · rintro ⟨more, dg', rest', m0, m1, m2⟩
          cases more with
          | nil => cases m0; exact absurd m2 he
          | cons a more =>
            cases m0
            exact ⟨more, dg', rest', rfl, fun x hx => m1 x (List.mem_cons_of_mem _ hx), m2⟩

/-- A transfer on a disk that works. -/
theorem fetch_halts (hh : Healthy env d) (hr : CleanReach env d dl (.running c fs)) (h : Sha1Hash) (n : UInt16) (queue : List (Option Bytes)) :
    (∀ out, (downloadChunk env h n queue ⟨c, fs, []⟩).1 ≠ .ok out) ↔ ∃ seen dg rest, queue = seen.map some ++ some dg :: rest ∧ (∀ x ∈ seen, ¬ isEnd x) ∧
      (Fatal seen dg ∨ (isEnd dg ∧ observe c fs h = .err .fileNotFound)) := by
  rw [downloadChunk_eq]
  rcases C20_total env.sha1 queue with hp | ⟨acks, out, hq⟩
  · rw [hp]
    obtain ⟨seen, dg, rest, k1, k2, k3⟩ := (C20_panics_iff_partial env.sha1 queue).1 hp
    exact ⟨fun _ => ⟨seen, dg, rest, k1, k2, .inl k3⟩, fun _ => (by intro _ h; cases h)⟩
  · have hend := recvLoop_end env.sha1 queue .fresh [] RConn.fresh_knows acks out hq
    have hnf : ∀ seen dg rest, queue = seen.map some ++ some dg :: rest → (∀ x ∈ seen, ¬ isEnd x) → ¬ Fatal seen dg := by
      intro seen dg rest k1 k2 k3
      rw [(C20_panics_iff_partial env.sha1 queue).2 ⟨seen, dg, rest, k1, k2, k3⟩] at hq
      cases hq
    rw [hq]
    rcases out with k | _ | ⟨b, ok⟩
    · constructor
      · intro hx; exact absurd rfl (hx _)
      · rintro ⟨seen, dg, rest, k1, k2, k3 | ⟨k3, -⟩⟩
        · exact absurd k3 (hnf _ _ _ k1 k2)
        · obtain ⟨_, _, hx⟩ := hend.2 ⟨seen, dg, rest, k1, k2, k3⟩; cases hx
    · constructor
      · intro hx; exact absurd rfl (hx _)
      · rintro ⟨seen, dg, rest, k1, k2, k3 | ⟨k3, -⟩⟩
        · exact absurd k3 (hnf _ _ _ k1 k2)
        · obtain ⟨_, _, hx⟩ := hend.2 ⟨seen, dg, rest, k1, k2, k3⟩; cases hx
    · obtain ⟨seen, dg, rest, k1, k2, k3⟩ := hend.1 ⟨b, ok, rfl⟩
      simp only
      rcases clean_known hh hr h with ⟨e, ho⟩ | ho
      · obtain ⟨s', hs⟩ := saveChunk_total hh hr.reach h n b e ho
        constructor
        · intro hx
          refine absurd ?_ (hx (.saved ok))
          rw [IOM.bind_apply]
          unfold IOM.orPanic
          rw [hs]
          rfl
        · rintro ⟨seen, dg, rest, k1, k2, k3 | ⟨-, k3⟩⟩
          · exact absurd k3 (hnf _ _ _ k1 k2)
          · rw [ho] at k3; cases k3
      · refine ⟨fun _ => ⟨seen, dg, rest, k1, k2, .inr ⟨k3, ho⟩⟩, fun _ out hx => ?_⟩
        have hu := saveChunk_unknown hh hr.reach h ho n b []
        rw [IOM.bind_apply] at hx
        unfold IOM.orPanic at hx
        rcases hq : saveChunk h n b ⟨c, fs, []⟩ with ⟨q, s'⟩
        rw [hq] at hu hx
        simp only at hu
        subst hu
        cases hx

/-! ### The theorems -/

/-- C131: these are all the ways in which a step of a download ends the daemon. -/
theorem C131_all (s : DLState) (t : Nat) : (∃ why, DLStep env d (.thread t) s (.dead why)) ↔ ∃ fl x, Spec.Halts env fl s t x := by
  constructor
  · rintro ⟨why, h⟩
    cases h with
    | checkDies _ _ th fl ht hp hrun => exact ⟨fl, _, .check th ht hp hrun⟩
    | setupDies _ _ th fl w b ht hp hrun => exact ⟨fl, _, .setup th w b ht hp hrun⟩
    | testDies _ _ th fl own ht hp hrun => exact ⟨fl, _, .test th own ht hp hrun⟩
    | wantNone _ _ th fl own s' ht hp hrun => exact ⟨fl, _, .want th own ht hp (by intro r rest h; rw [hrun] at h; cases h)⟩
    | wantDies _ _ th fl own ht hp hrun => exact ⟨fl, _, .want th own ht hp (fun _ _ => hrun _)⟩
    | searchDies _ _ th own c ht hp => exact ⟨[], _, .search th own c ht hp⟩
    | dialDies _ _ th own c r todo ht hp hl hk => exact ⟨[], _, .dial th own c r todo ht hp hl hk⟩
    | fetchDies _ _ th fl own c r todo queue ht hp hrun => exact ⟨fl, _, .fetch th own c r todo queue ht hp hrun⟩
  · rintro ⟨fl, x, h⟩
    cases h with
    | check th ht hp hrun => exact ⟨_, .checkDies t s th fl ht hp hrun⟩
    | setup th w b ht hp hrun => exact ⟨_, .setupDies t s th fl w b ht hp hrun⟩
    | test th own ht hp hrun => exact ⟨_, .testDies t s th fl own ht hp hrun⟩
    | want th own ht hp hrun =>
      rcases hq : missingChunks th.hash ⟨s.cat, s.fs, fl⟩ with ⟨q, s'⟩
      cases q with
      | ok l =>
        cases l with
        | nil => exact ⟨_, .wantNone t s th fl own s' ht hp hq⟩
        | cons r rest => rw [hq] at hrun; exact absurd rfl (hrun r rest)
      | _ => exact ⟨_, .wantDies t s th fl own ht hp (by rw [hq]; intro v hv; cases hv)⟩
    | search th own c ht hp => exact ⟨_, .searchDies t s th own c ht hp⟩
    | dial th own c r todo ht hp hl hk => exact ⟨_, .dialDies t s th own c r todo ht hp hl hk⟩
    | fetch th own c r todo queue ht hp hrun => exact ⟨_, .fetchDies t s th fl own c r todo queue ht hp hrun⟩

/-- C131: on a disk that works, the next step of a download ends the daemon exactly for one of the reasons. -/
theorem C131_exact (hh : Healthy env d) (s : DLState) (hr : CleanReach env d dl (.running s.cat s.fs)) (t : Nat) (th : DLThread) (ht : s.threads t = some th)
    (hsize : ∀ e, observe s.cat s.fs th.hash = .ok e → e.progress.sizeOf ≤ 65536) (x : Spec.Outside) : Spec.Halts env [] s t x ↔ Spec.Reason s th x := by
  have self : ∀ {th' : DLThread}, s.threads t = some th' → th' = th := fun h => Option.some.inj (h.symm.trans ht)
  constructor
  · intro h
    cases h with
    | check th' ht' hp hrun =>
      obtain ⟨b, s', h1, -, -⟩ := startCheck_steady hh hr [] (fun f hf => by cases hf) th'.hash
      exact absurd (by rw [h1]) (hrun b)
    | setup th' w b ht' hp hrun =>
      obtain rfl := self ht'
      exact ⟨b, hp, (setup_halts hh hr w _ b).1 hrun⟩
    | test th' own ht' hp hrun =>
      obtain rfl := self ht'
      rcases clean_known hh hr th'.hash with ⟨e, ho⟩ | ho
      · obtain ⟨⟨v, s', hv⟩, -⟩ := C34_total hh hr _ e ho
        exact absurd (by rw [hv]) (hrun v)
      · exact .inl ⟨own, hp, ho⟩
    | want th' own ht' hp hrun =>
      obtain rfl := self ht'
      refine .inr ⟨own, hp, ?_⟩
      rcases clean_known hh hr th'.hash with ⟨e, ho⟩ | ho
      · obtain ⟨-, hm⟩ := C34_total hh hr _ e ho
        obtain ⟨rs, s', hm⟩ := hm (hsize e ho)
        obtain ⟨e', k1, -, -, k2⟩ := C34_missing hh hr.reach _ _ _ _ hm
        rw [ho] at k1; cases k1
        cases rs with
        | nil => exact .inr ⟨e, ho, (k2 (hsize e ho)).2.1.1 rfl⟩
        | cons r rest => exact absurd (by rw [hm]) (hrun r rest)
      · exact .inl ho
    | search th' own c ht' hp => obtain rfl := self ht'; exact ⟨own, c, hp⟩
    | dial th' own c r todo ht' hp hl hk => obtain rfl := self ht'; exact ⟨own, c, r, todo, hp, hl, hk⟩
    | fetch th' own c r todo queue ht' hp hrun =>
      obtain rfl := self ht'
      exact ⟨own, c, r, todo, hp, (fetch_halts hh hr _ c queue).1 hrun⟩
  · intro h
    cases x with
    | nothing =>
      rcases h with ⟨own, hp, hg⟩ | ⟨own, hp, hg | ⟨e, ho, hall⟩⟩
      · refine .test th own ht hp (fun v hv => ?_)
        rw [fileComplete_unknown hh hr.reach _ hg] at hv
        cases hv
      · refine .want th own ht hp (fun r rest hv => ?_)
        rw [missingChunks_unknown hh hr.reach _ hg] at hv
        cases hv
      · refine .want th own ht hp (fun r rest hv => ?_)
        rcases hq : missingChunks th.hash ⟨s.cat, s.fs, []⟩ with ⟨q, s'⟩
        rw [hq] at hv
        simp only at hv
        subst hv
        obtain ⟨e', k1, -, -, k2⟩ := C34_missing hh hr.reach _ _ _ _ hq
        rw [ho] at k1; cases k1
        have := (k2 (hsize e ho)).2.1.2 hall
        cases this
    | answers w => obtain ⟨b, hp, hx⟩ := h; exact .setup th w b ht hp ((setup_halts hh hr w _ b).2 hx)
    | noBroadcast => obtain ⟨own, c, hp⟩ := h; exact .search th own c ht hp
    | noSocket => obtain ⟨own, c, r, todo, hp, hl, hk⟩ := h; exact .dial th own c r todo ht hp hl hk
    | data queue => obtain ⟨own, c, r, todo, hp, hx⟩ := h; exact .fetch th own c r todo queue ht hp ((fetch_halts hh hr _ c queue).2 hx)

/-- C131: while nobody else downloads the file or takes it out of the catalogue, only the network ends the daemon through this download: a search or a host for which no socket can be
opened, or a datagram that is fatal (C20). -/
theorem C131_network (hh : Healthy env d) (h : Sha1Hash) (t : Nat) (own : ByteArr 4) (s0 : DLState) (hreach : Reach env d dl (.running s0.cat s0.fs))
    (ht : s0.threads t = some ⟨h, .test own, []⟩) (honly : Only h t s0) (e0 : Export) (ho : observe s0.cat s0.fs h = .ok e0) (hsize : e0.progress.sizeOf ≤ 65536) (s : DLState)
    (hrun : DLRun env d (Spec.Alone h t) s0 (.alive s)) (hr : CleanReach env d dl (.running s.cat s.fs)) (x : Spec.Outside) (hx : Spec.Halts env [] s t x) :
    x = .noBroadcast ∨ x = .noSocket ∨ ∃ seen dg rest, x = .data (seen.map some ++ some dg :: rest) ∧ (∀ y ∈ seen, ¬ isEnd y) ∧ Fatal seen dg := by
  have hI : DLInv h t e0 s0 e0 ⟨h, .test own, []⟩ :=
    ⟨ho, ht, rfl, rfl, rfl, fun i _ => (by simp [gotten]), fun _ hr => (by cases hr), List.Pairwise.nil, trivial⟩
  obtain ⟨-, e, th, hI⟩ := DLRun.inv hh hreach hsize honly ⟨_, _, hI⟩ hrun _ rfl
  have hk : ∀ P : Prop, Unlisted th.hash s → P := by
    intro P hg
    unfold Unlisted at hg
    rw [hI.hash, hI.obs] at hg
    cases hg
  have hre := (C131_exact hh s hr t th hI.thread (by rw [hI.hash, hI.obs]; intro e' he; cases he; rw [hI.size]; exact hsize) x).1 hx
  have hhere := hI.here
  cases x with
  | nothing =>
    rcases hre with ⟨own, hp, hg⟩ | ⟨own, hp, hg | ⟨e', ho', hall⟩⟩
    · exact hk _ hg
    · exact hk _ hg
    · rw [hI.hash, hI.obs] at ho'; cases ho'
      rw [hp] at hhere
      obtain ⟨i, hi, hs⟩ := hhere
      exact absurd (hall i hi) hs
  | answers w => obtain ⟨b, hp, -⟩ := hre; rw [hp] at hhere; exact hhere.elim
  | noBroadcast => exact .inl rfl
  | noSocket => exact .inr (.inl rfl)
  | data queue =>
    obtain ⟨own, c, r, todo, hp, seen, dg, rest, rfl, k2, k3 | ⟨-, k3⟩⟩ := hre
    · exact .inr (.inr ⟨seen, dg, rest, rfl, k2, k3⟩)
    · exact hk _ k3

/-- C131: and so it is at every moment of a daemon that does everything else at the same time. -/
theorem C131_daemon (hh : Healthy env d) (h0 : CleanReach env d dl (.running c fs)) {port : Nat} {tr : List (DmEv × Option Out × DmSys)} {s : Daemon}
    (h : Spec.WellRun env d dl port (.fresh c fs) tr (.alive s)) (t : Nat) (th : DLThread) (ht : s.loop.threads t = some th)
    (hsize : ∀ e, observe s.loop.cat s.loop.fs th.hash = .ok e → e.progress.sizeOf ≤ 65536) (x : Spec.Outside) :
    (Spec.Halts env [] s.loop t x ↔ Spec.Reason s.loop th x) ∧ (Spec.Reason s.loop th x → Spec.WellRun env d dl port (.fresh c fs) (tr ++ [(.loop (.thread t), none, .dead)]) .dead) := by
  have he := C131_exact hh s.loop (h.clean h0) t th ht hsize x
  refine ⟨he, fun hx => ?_⟩
  obtain ⟨why, hw⟩ := (C131_all (env := env) (d := d) s.loop t).2 ⟨[], x, he.2 hx⟩
  exact h.stops (.loop _ why hw) (by intro _ _ h; cases h)

end

/-! ### Cases -/

/-- A daemon that has just been asked for a file it has: the search of its download cannot open a socket. -/
example (sha1 : Bytes → Sha1Hash) (json : JsonCodec) (own : ByteArr 4) (h : Sha1Hash) : ∃ c fs, CleanReach (exEnv sha1 json) exDir exDown (.running c fs) ∧
    Spec.Halts (exEnv sha1 json) [] ⟨c, fs, false, fun _ => false, fun _ => some ⟨h, .search own 0, []⟩⟩ 0 .noBroadcast ∧
    Spec.Halts (exEnv sha1 json) [] ⟨c, fs, false, fun _ => false, fun _ => some ⟨h, .test own, []⟩⟩ 0 .nothing ∧
    ¬ Spec.Halts (exEnv sha1 json) [] ⟨c, fs, false, fun _ => false, fun _ => some ⟨h, .check, []⟩⟩ 0 .nothing := by
  have hr := CleanReach.fresh (exEnv sha1 json) exDir exDown (ex_healthy sha1 json).utf8 (fun _ => none) (fun _ _ => rfl)
  refine ⟨_, _, hr, ?_, ?_, ?_⟩
  · exact (C131_exact (ex_healthy sha1 json) ⟨_, _, _, _, _⟩ hr 0 _ rfl (by intro e he; cases he) _).2 ⟨own, 0, rfl⟩
  · exact (C131_exact (ex_healthy sha1 json) ⟨_, _, _, _, _⟩ hr 0 _ rfl (by intro e he; cases he) _).2 (.inl ⟨own, rfl, rfl⟩)
  · intro hx
    rcases (C131_exact (ex_healthy sha1 json) ⟨_, _, _, _, _⟩ hr 0 _ rfl (by intro e he; cases he) _).1 hx with ⟨_, hp, _⟩ | ⟨_, hp, _⟩ <;> cases hp

/-- `C131_network`: a download of which nothing is there yet, at its first search. -/
example (sha1 : Bytes → Sha1Hash) (json : JsonCodec) (h : Sha1Hash) : ∃ s s' e, CleanReach (exEnv sha1 json) exDir exDown (.running s.cat s.fs) ∧ observe s.cat s.fs h = .ok e ∧
    e.progress.sizeOf ≤ 65536 ∧ s.threads 1 = some ⟨h, .test exOwn, []⟩ ∧ Only h 1 s ∧ DLRun (exEnv sha1 json) exDir (Spec.Alone h 1) s (.alive s') ∧
    CleanReach (exEnv sha1 json) exDir exDown (.running s'.cat s'.fs) ∧ Spec.Halts (exEnv sha1 json) [] s' 1 .noBroadcast := by
  have hh := ex_healthy sha1 json
  obtain ⟨s, e, hr, h2, h3⟩ := ex_ready sha1 json h (fun t => if t = 1 then some ⟨h, .test exOwn, []⟩ else none) rfl
  have hmem : 0 ∈ missingList e := by rw [h3]; decide
  obtain ⟨j1, j2⟩ := (mem_missingList _ _).1 hmem
  obtain ⟨⟨v, s1, h1⟩, -⟩ := C34_total hh hr.clean h e hr.obs
  obtain ⟨e', g1, g2, g3, g4⟩ := C34_complete hh hr.clean.reach h [] v s1 h1
  rw [hr.obs] at g1; cases g1
  have hv : v = false := by
    cases v with
    | false => rfl
    | true => exact absurd (g2.1 rfl 0 (by omega)) j2
  subst hv
  have hc1 := hr.clean.returns (.complete h) trivial s1 (.inl (CM.void_ok _ _ _ _ h1))
  have ho1 : observe s1.cat s1.fs h = .ok e := (g4 h).trans hr.obs
  obtain ⟨-, hm⟩ := C34_total hh hc1 h e ho1
  obtain ⟨rs, s2, h4⟩ := hm hr.size
  obtain ⟨e', k1, k2, k3, k4⟩ := C34_missing hh hc1.reach h [] rs s2 h4
  rw [ho1] at k1; cases k1
  rcases rs with _ | ⟨rg, rest⟩
  · exact absurd ((k4 hr.size).2.1.1 rfl 0 (by omega)) j2
  have hc2 := hc1.returns (.missing h) trivial s2 (.inl (CM.void_ok _ _ _ _ h4))
  have st1 := DLStep.test (env := exEnv sha1 json) (d := exDir) 1 s ⟨h, .test exOwn, []⟩ [] exOwn false s1 hr.thread rfl h1
  have st2 := DLStep.want (env := exEnv sha1 json) (d := exDir) 1 ({ s with cat := s1.cat, fs := s1.fs }.move 1 ⟨h, .test exOwn, []⟩ (.want exOwn)) ⟨h, .want exOwn, []⟩ [] exOwn rg rest s2
    (upd_self s.threads 1 _) rfl h4
  have only : ∀ (th : DLThread) (t' : Nat) (th' : DLThread), upd s.threads 1 (some th) t' = some th' → t' = 1 := by
    intro th t' th' hx
    apply Classical.byContradiction
    intro hne
    unfold upd at hx
    rw [if_neg hne, h2] at hx
    simp [hne] at hx
  have ok1 : Spec.Alone h 1 (.thread 1) (.alive ({ s with cat := s1.cat, fs := s1.fs }.move 1 ⟨h, .test exOwn, []⟩ (.want exOwn))) := by
    refine ⟨(by intro o ho; cases ho), ?_⟩
    rintro s' hs t' th' ht' _ _
    cases hs
    exact only _ _ _ ht'
  have run := (DLRun.refl.step (ok := Spec.Alone h 1) _ st1 ok1).step _ st2 (by
    refine ⟨(by intro o ho; cases ho), ?_⟩
    rintro s' hs t' th' ht' _ _
    cases hs
    have ht' : upd (upd s.threads 1 (some ⟨h, .want exOwn, []⟩)) 1 (some ⟨h, .search exOwn rg.start, [(rg.start, false)]⟩) t' = some th' := ht'
    apply Classical.byContradiction
    intro hne
    unfold upd at ht'
    rw [if_neg hne, if_neg hne, h2] at ht'
    simp [hne] at ht')
  refine ⟨s, _, e, hr.clean, hr.obs, hr.size, hr.thread, ?_, run, hc2,
    .search ⟨h, .search exOwn rg.start, [(rg.start, false)]⟩ exOwn rg.start (upd_self (upd s.threads 1 (some ⟨h, .want exOwn, []⟩)) 1 _) rfl⟩
  intro t' th' ht' _ _
  rw [h2] at ht'
  simp only [] at ht'
  split at ht'
  · assumption
  · cases ht'

/-- `C131_daemon`: somebody asks for a file, the catalogue has been looked at, and the search for hosts fails. -/
example (sha1 : Bytes → Sha1Hash) (json : JsonCodec) (h : Sha1Hash) : ∃ c fs tr s th w, CleanReach (exEnv sha1 json) exDir exDown (.running c fs) ∧
    Spec.WellRun (exEnv sha1 json) exDir exDown 7 (.fresh c fs) tr (.alive s) ∧ s.loop.threads 0 = some th ∧
    (∀ e, observe s.loop.cat s.loop.fs th.hash = .ok e → e.progress.sizeOf ≤ 65536) ∧ Spec.Reason s.loop th (.answers w) := by
  have hh := ex_healthy sha1 json
  have hr := CleanReach.fresh (exEnv sha1 json) exDir exDown hh.utf8 (fun _ => none) (fun _ _ => rfl)
  obtain ⟨known, s1, k1, k2, k3, k4⟩ := startCheck_clean hh hr h
  have a1 := (Spec.WellRun.refl (env := exEnv sha1 json) (d := exDir) (dl := exDown) (port := 7) (s0 := .fresh _ _)).goes
    (.loop _ _ _ (.start 0 h _ rfl)) hr (fun _ _ _ h => by cases h) (by intro _ _ h; cases h)
  have a2 := a1.goes (.loop _ _ _ (.check 0 _ ⟨h, .check, []⟩ [] known s1 rfl rfl k1)) k3 (fun _ _ _ h => by cases h) (by intro _ _ h; cases h)
  refine ⟨_, _, _, _, ⟨h, .setup known, []⟩, ⟨none, none, fun _ => .noSocket⟩, hr, a2, rfl, ?_, known, rfl, .inr (.inl rfl)⟩
  intro e he
  have he : observe s1.cat s1.fs h = .ok e := he
  rw [k4.2.1] at he
  cases he

end Flu
