import Verif.Props.UserFiles
import Verif.Props.StartDownload
/-!
# A finished download is the file (C74)
-/
namespace Flu
open Spec

section
variable {env : Env} {d dl : Path} {h : Sha1Hash} {F old : Bytes} {cs : Nat} {path : Path}

/-- What is known at a place of the loop: the chunk asked for exists; at the end nothing is missing. -/
def DLPos.Fits (F : Bytes) (cs : Nat) (e : Export) : DLPos → Prop
  | .search _ n | .hosts _ n _ | .fetching _ n _ _ => n.toNat < (F.length + cs - 1) / cs
  | .finished => ∀ i : Nat, (i : Int) < e.progress.sizeOf → e.saved i
  | _ => True

structure E2E (env : Env) (d dl : Path) (h : Sha1Hash) (F old : Bytes) (cs : Nat) (path : Path) (s : DLState) (e : Export) : Prop where
  reach : Reach env d dl (.running s.cat s.fs)
  obs : observe s.cat s.fs h = .ok e
  at_ : e.filePath = path
  down : Downloading F old cs (s.fs path) e
  threads : ∀ t th, s.threads t = some th → th.hash = h → th.pos.Fits F cs e

/-- A step that is not the end of a transfer of this file changes neither its record nor its content. -/
theorem HonestStep.calm (hh : Healthy env d) (hpath : ¬ CatFile d path) {a : Actor} {s s' : DLState} {e : Export} (hI : E2E env d dl h F old cs path s e)
    (hst : DLStep env d a s (.alive s')) (hok : HonestStep env h F cs path a s s')
    (hno : ∀ t th own n r todo, a = .thread t → s.threads t = some th → th.hash = h → th.pos ≠ .fetching own n r todo) :
    observe s'.cat s'.fs h = .ok e ∧ s'.fs path = s.fs path := by
  have hne : observe s.cat s.fs h ≠ .err .fileNotFound := by rw [hI.obs]; intro hx; cases hx
  rcases hst.effect.1 with ⟨h1, h2⟩ | ⟨p, x, rfl, hp, h1, h2⟩ | ⟨o, fl, r, st', h1, h2, h3, h4, h5, h6⟩
  · rw [h1, h2]; exact ⟨hI.obs, rfl⟩
  · rw [h1, h2, observe_user hh hI.reach p x hp h]
    exact ⟨hI.obs, FS.put_other _ _ _ _ (fun e => hok.user (by rw [e]))⟩
  · rw [h4, h5]
    have key : ¬ o.Touches h → (∀ k n data, o = .save k n data → s.cat.pathOf k ≠ some path) → observe st'.cat st'.fs h = .ok e ∧ st'.fs path = s.fs path :=
      fun g1 g2 => ⟨by rw [observe_other hh hI.reach h hne o h1 g1 fl r st' h2, hI.obs], C75_call hh hI.reach o path hpath g2 fl r st' h2⟩
    rcases h6 with rfl | ⟨t, th, rfl, ht, -, h6⟩
    · exact key (hok.call o rfl).1 (hok.call o rfl).2
    · rcases h6 with h6 | ⟨n, b, rfl, -, own, host, todo, hpos⟩
      · refine key (h6 h) ?_
        rintro k n data rfl
        exact absurd rfl (h6 k)
      · by_cases hth : th.hash = h
        · exact absurd hpos (hno t th own n host todo rfl ht hth)
        · refine key hth ?_
          intro k n' data hx
          cases hx
          exact hok.others t th rfl ht hth

theorem DLPos.Fits.mono {e e' : Export} {p : DLPos} (hp : p.Fits F cs e) (hsize : e'.progress.sizeOf = e.progress.sizeOf)
    (hsaved : ∀ i : Nat, (i : Int) < e.progress.sizeOf → e.saved i → e'.saved i) : p.Fits F cs e' := by
  cases p with
  | finished => intro i hi; rw [hsize] at hi; exact hsaved i hi (hp i hi)
  | check => trivial
  | setup b => trivial
  | refused => trivial
  | test o => trivial
  | want o => trivial
  | search o n => exact hp
  | hosts o n t => exact hp
  | fetching o n r t => exact hp

theorem E2E.step (hh : Healthy env d) (hpath : ¬ CatFile d path) {a : Actor} {s s' : DLState} {e : Export} (hI : E2E env d dl h F old cs path s e)
    (hst : DLStep env d a s (.alive s')) (hok : HonestStep env h F cs path a s s') : ∃ e', E2E env d dl h F old cs path s' e' := by
  have hreach' := hst.reach hI.reach
  -- the threads, given the new record
  have keep : ∀ {e' : Export} (t0 : Nat) (th0 : DLThread), e'.progress.sizeOf = e.progress.sizeOf → (∀ i : Nat, (i : Int) < e.progress.sizeOf → e.saved i → e'.saved i) →
      (th0.hash = h → th0.pos.Fits F cs e') → ∀ t th, upd s.threads t0 (some th0) t = some th → th.hash = h → th.pos.Fits F cs e' := by
    intro e' t0 th0 g1 g2 g3 t th ht hth
    unfold upd at ht
    split at ht
    · cases ht; exact g3 hth
    · exact (hI.threads t th ht hth).mono g1 g2
  by_cases hno : ∀ t th own n r todo, a = .thread t → s.threads t = some th → th.hash = h → th.pos ≠ .fetching own n r todo
  · obtain ⟨hobs, hcont⟩ := HonestStep.calm hh hpath hI hst hok hno
    refine ⟨e, hreach', hobs, hI.at_, by rw [hcont]; exact hI.down, ?_⟩
    have go : ∀ (t0 : Nat) (th0 : DLThread), (th0.hash = h → th0.pos.Fits F cs e) → ∀ t th, upd s.threads t0 (some th0) t = some th → th.hash = h → th.pos.Fits F cs e :=
      fun t0 th0 g => keep t0 th0 rfl (fun _ _ hx => hx) g
    cases hst with
    | start t0 h' _ ht => exact go _ _ (fun _ => trivial)
    | check t0 _ th0 fl b s' ht hp hrun => exact go _ _ (fun _ => trivial)
    | setup t0 _ th0 fl w b own s' ht hp hrun => exact go _ _ (fun _ => trivial)
    | refuse t0 _ th0 fl w b e s' ht hp hrun => exact go _ _ (fun _ => trivial)
    | again t0 _ th0 own c ht hp => exact go _ _ (fun _ => trivial)
    | call o _ fl r s' hsafe hrun hret => exact hI.threads
    | user p _ content hp => exact hI.threads
    | search t0 _ th0 own c rs ht hp =>
      refine go _ _ (fun hx => ?_)
      have := hI.threads t0 th0 ht hx
      rw [hp] at this; exact this
    | skip t0 _ th0 own c r todo ht hp hl hk =>
      refine go _ _ (fun hx => ?_)
      have := hI.threads t0 th0 ht hx
      rw [hp] at this; exact this
    | dial t0 _ th0 own c r todo ht hp hl hk =>
      refine go _ _ (fun hx => ?_)
      have := hI.threads t0 th0 ht hx
      rw [hp] at this; exact this
    | fetched t0 _ th0 fl own c r todo queue ok s' ht hp hsafe hrun => exact go _ _ (fun hx => absurd hp (hno t0 th0 own c r todo rfl ht hx))
    | gaveUp t0 _ th0 fl own c r todo queue s' ht hp hrun => exact go _ _ (fun hx => absurd hp (hno t0 th0 own c r todo rfl ht hx))
    | test t0 _ th0 fl own v s' ht hp hrun =>
      refine go _ _ (fun hx => ?_)
      simp only [] at hx
      rw [hx] at hrun
      obtain ⟨e', k1, k2, -, -⟩ := C34_complete hh hI.reach h fl v s' hrun
      rw [hI.obs] at k1; cases k1
      cases v with
      | true => exact k2.1 rfl
      | false => trivial
    | want t0 _ th0 fl own r rest s' ht hp hrun =>
      refine go _ _ (fun hx => ?_)
      simp only [] at hx
      rw [hx] at hrun
      obtain ⟨e', k1, -, -, k4⟩ := C34_missing hh hI.reach h fl _ s' hrun
      rw [hI.obs] at k1; cases k1
      show r.start.toNat < _
      have hr16 := r.start.toNat_lt
      have hcount := hI.down.count
      rcases Nat.lt_or_ge r.start.toNat ((F.length + cs - 1) / cs) with hlt | hge
      · exact hlt
      · exfalso
        obtain ⟨-, k5, k6⟩ := k4 (by omega)
        obtain ⟨-, k7⟩ := k6 r rest rfl
        have := k5.2 (fun i hi => k7 i (by omega))
        cases this
  · -- the end of a transfer of this file
    obtain ⟨t, th, own, n, r, todo, rfl, ht, hth, hpos⟩ : ∃ t th own n r todo, a = .thread t ∧ s.threads t = some th ∧ th.hash = h ∧ th.pos = .fetching own n r todo := by
      apply Classical.byContradiction
      intro hc
      exact hno (fun t th own n r todo h1 h2 h3 h4 => hc ⟨t, th, own, n, r, todo, h1, h2, h3, h4⟩)
    have hn : n.toNat < (F.length + cs - 1) / cs := by
      have := hI.threads t th ht hth
      rw [hpos] at this; exact this
    obtain ⟨queue, fl, out, s1, g1, g2, g3, g4⟩ := hok.peers t th own n r todo rfl ht hth hpos
    -- the record and the content
    have hrec : ∃ e', observe s1.cat s1.fs h = .ok e' ∧ e'.filePath = path ∧ Downloading F old cs (s1.fs path) e' ∧ e'.progress.sizeOf = e.progress.sizeOf ∧
        ∀ i : Nat, (i : Int) < e.progress.sizeOf → e.saved i → e'.saved i := by
      have same : s1 = ⟨s.cat, s.fs, fl⟩ → ∃ e', observe s1.cat s1.fs h = .ok e' ∧ e'.filePath = path ∧ Downloading F old cs (s1.fs path) e' ∧
          e'.progress.sizeOf = e.progress.sizeOf ∧ ∀ i : Nat, (i : Int) < e.progress.sizeOf → e.saved i → e'.saved i := by
        rintro rfl
        exact ⟨e, hI.obs, hI.at_, hI.down, rfl, fun _ _ hx => hx⟩
      have hdc := downloadChunk_eq env h n queue ⟨s.cat, s.fs, fl⟩
      rw [g2] at hdc
      rcases hr : recvLoop env.sha1 .fresh queue with ⟨x, o⟩ | e' | _ | _ | _
      · rw [hr] at hdc
        rcases o with c' | _ | ⟨b, ok⟩
        · cases hdc; exact same rfl
        · cases hdc; exact same rfl
        · obtain rfl := g1 x b ok hr
          obtain ⟨_, s2, k1, k2⟩ := (IOM.bind_ok_iff _ _ _ _ _).1 hdc.symm
          rw [IOM.pure_apply] at k2
          cases k2
          have k1 : saveChunk h n ((F.drop (n.toNat * cs)).take cs) ⟨s.cat, s.fs, fl⟩ = (.ok (), s1) := by
            unfold IOM.orPanic at k1
            rcases hs : saveChunk h n ((F.drop (n.toNat * cs)).take cs) ⟨s.cat, s.fs, fl⟩ with ⟨r', s2⟩
            rw [hs] at k1
            cases r' <;> cases k1
            rfl
          obtain ⟨e2, m1, m2, m3, m4⟩ := C33_step hh hI.reach F old cs h n fl e hI.obs (by rw [hI.at_]; exact hpath) (by rw [hI.at_]; exact hI.down) hn s1 k1
          rw [hI.at_] at m2 m3
          refine ⟨e2, m1, m2, m3, by rw [m3.count, hI.down.count], ?_⟩
          intro i hi hs
          have hc := hI.down.count
          exact (m4 i (by omega)).2 (.inl hs)
      all_goals (rw [hr] at hdc; cases hdc)
    obtain ⟨e', m1, m2, m3, m4, m5⟩ := hrec
    refine ⟨e', hreach', by rw [g3, g4]; exact m1, m2, by rw [g4]; exact m3, ?_⟩
    have hself : ∀ th0, s.threads t = some th0 → th0 = th := fun th0 h0 => by rw [ht] at h0; exact (Option.some.inj h0).symm
    cases hst with
    | start _ h' _ ht' => rw [ht] at ht'; cases ht'
    | check _ _ th0 fl b s' ht' hp hrun => rw [hself _ ht', hpos] at hp; cases hp
    | setup _ _ th0 fl w b own s' ht' hp hrun => rw [hself _ ht', hpos] at hp; cases hp
    | refuse _ _ th0 fl w b e s' ht' hp hrun => rw [hself _ ht', hpos] at hp; cases hp
    | again _ _ th0 own c ht' hp => rw [hself _ ht', hpos] at hp; cases hp
    | search _ _ th0 own c rs ht' hp => rw [hself _ ht', hpos] at hp; cases hp
    | skip _ _ th0 own c r todo ht' hp hl hk => rw [hself _ ht', hpos] at hp; cases hp
    | dial _ _ th0 own c r todo ht' hp hl hk => rw [hself _ ht', hpos] at hp; cases hp
    | test _ _ th0 fl own v s' ht' hp hrun => rw [hself _ ht', hpos] at hp; cases hp
    | want _ _ th0 fl own r rest s' ht' hp hrun => rw [hself _ ht', hpos] at hp; cases hp
    | fetched _ _ th0 fl own' c r' todo' queue' ok s' ht' hp hsafe hrun =>
      rw [hself _ ht', hpos] at hp
      cases hp
      exact keep _ _ m4 m5 (fun _ => hn)
    | gaveUp _ _ th0 fl own' c r' todo' queue' s' ht' hp hrun =>
      rw [hself _ ht', hpos] at hp
      cases hp
      exact keep _ _ m4 m5 (fun _ => hn)

theorem E2E.run (hh : Healthy env d) (hpath : ¬ CatFile d path) {s0 s : DLState} {e0 : Export} (hI : E2E env d dl h F old cs path s0 e0)
    (hrun : HonestRun env d h F cs path s0 s) : ∃ e, E2E env d dl h F old cs path s e := by
  induction hrun with
  | refl => exact ⟨e0, hI⟩
  | step a _ hs hok ih =>
    obtain ⟨e, hI'⟩ := ih
    exact hI'.step hh hpath hs hok

/-- C74: from a state where the download of `F` has been registered (and possibly part of it saved), whatever the daemon does besides, whichever chunks arrive from whichever honest
peers and in whichever order: once a download of it has finished, the file is `F`; and so it is whenever the catalogue says that it is complete. -/
theorem C74_content (hh : Healthy env d) (hpath : ¬ CatFile d path) (s0 s : DLState) (hreach : Reach env d dl (.running s0.cat s0.fs)) (e0 : Export)
    (ho : observe s0.cat s0.fs h = .ok e0) (hp : e0.filePath = path) (hd : Downloading F old cs (s0.fs path) e0) (hF : F ≠ []) (hold : old.length ≤ F.length)
    (hthreads : ∀ t th, s0.threads t = some th → th.hash = h → ∃ own, th.pos = .test own) (hrun : HonestRun env d h F cs path s0 s) :
    (∀ t th, s.threads t = some th → th.hash = h → th.pos = .finished → s.fs path = some F) ∧
    (∀ fl s', fileComplete h ⟨s.cat, s.fs, fl⟩ = (.ok true, s') → s.fs path = some F) := by
  have h0 : E2E env d dl h F old cs path s0 e0 := by
    refine ⟨hreach, ho, hp, hd, ?_⟩
    intro t th ht hth
    obtain ⟨own, hx⟩ := hthreads t th ht hth
    rw [hx]; trivial
  obtain ⟨e, hI⟩ := h0.run hh hpath hrun
  constructor
  · intro t th ht hth hfin
    have := hI.threads t th ht hth
    rw [hfin] at this
    exact (C33_content F old cs _ e hI.down hF this).2 hold
  · intro fl s' hc
    have := C33_complete hh hI.reach F old cs h fl e hI.obs (by rw [hI.at_]; exact hI.down) hF hold s' hc
    rw [hI.at_] at this
    exact this

/-- C74, what honest peers send: the packets of a chunk, the first one first and once, the others in any order and any number of times, then the end marker. -/
theorem C74_peers (sha1 : Bytes → Sha1Hash) (B : Bytes) (h : Sha1Hash) (k : Nat) (f e : Packet) (ps : List Packet) (rest : List (Option Bytes))
    (hB : B.length < 2 ^ 32) (hk : k ≤ 1000) (hf : IsFirst B h k f) (hp : ∀ p ∈ ps, IsPiece B p) (he : IsEndPacket e)
    (hall : ∀ i, k ≤ i → i < B.length → ∃ p ∈ ps, p.offset.toNat ≤ i ∧ i < p.offset.toNat + p.data.length) :
    Assembles sha1 B ((f :: ps).map (fun p => some p.bytes) ++ some e.bytes :: rest) := by
  intro acks b ok hr
  rw [C43_delivers sha1 B h k f e ps rest hB hk hf hp he hall] at hr
  cases hr; rfl

/-- C74, from one host to another: a host has the file `F` under the hash `h` and answers the request for its description; a second host, which does not know the file, starts to
download it and runs with honest peers. Once that download has finished, the second host has a file of the same base name with exactly the content `F`. -/
theorem C74_host_to_host {env2 : Env} {d2 dl2 : Path} {c2 : Cat} {fs2 : FS} (hh2 : Healthy env2 d2) (hreach2 : Reach env2 d2 dl2 (.running c2 fs2))
    (hb : h.isBlank = false) (e : Export) (ho2 : observe c2 fs2 h = .ok e) (hF2 : fs2 e.filePath = some F) (hsize : e.sizeInBytes = F.length) (hcs : 0 < e.chunkSize)
    (hF : F ≠ []) (hbig : F.length < 2 ^ 63)
    (port : Nat) (w2 : Wire) (hsend : w2.sends = true) (id : UInt16) (pad : Bytes) (ret : Addr) (ups : UpKey → Option Up)
    (hh : Healthy env d) {c : Cat} {fs : FS} (hclean : CleanReach env d dl (.running c fs)) (hno : observe c fs h = .err .fileNotFound)
    (w : DLWire) (own : ByteArr 4) (rs : List HostResp) (peer : HostResp) (rest : List HostResp) (hown : ownAddress w.addrs = .ok own) (hrs : w.responses = some rs)
    (hg : goodHosts own rs = peer :: rest)
    (hpeer : ∀ ip p reply s2, serveDatagram env2 port w2 ((Msg.listReq id h).serialize ++ pad) ret ⟨⟨c2, fs2, []⟩, ups⟩ = (.ok (.sent ip p reply), s2) →
      w.description peer = .datagram reply) :
    ∃ s1 n, startDownload env w h ⟨c, fs, []⟩ = (.ok own, s1) ∧ IsBaseName e.filePath n ∧
      (¬ CatFile d (joinPath [dl, n.take 255]) → ((fs (joinPath [dl, n.take 255])).getD []).length ≤ F.length →
        ∀ (t : Nat) (locked : Bool) (downloads : DLKey → Bool) (others : Nat → Option DLThread), (∀ t' th, others t' = some th → th.hash ≠ h) →
        ∀ s, HonestRun env d h F e.chunkSize.toNat (joinPath [dl, n.take 255])
            ⟨s1.cat, s1.fs, locked, downloads, upd others t (some ⟨h, .test own, []⟩)⟩ s →
          ∀ th, s.threads t = some th → th.hash = h → th.pos = .finished → s.fs (joinPath [dl, n.take 255]) = fs2 e.filePath) ∧
      (¬ CatFile d (joinPath [dl, n.take 255]) → ((fs (joinPath [dl, n.take 255])).getD []).length ≤ F.length → F.length ≤ 65536 * e.chunkSize.toNat →
        ∀ (t : Nat) (downloads : DLKey → Bool) (others : Nat → Option DLThread), downloads (h, peer.addr) = false →
        ∃ s th, HonestRun env d h F e.chunkSize.toNat (joinPath [dl, n.take 255])
          ⟨s1.cat, s1.fs, false, downloads, upd others t (some ⟨h, .test own, []⟩)⟩ s ∧ s.threads t = some th ∧ th.hash = h ∧ th.pos = .finished) := by
  obtain ⟨s1, e', n, h1, h2, h3, h4, h5, h6, h7, h8, hclean1, hfs⟩ := C66_as_shared hh2 hreach2 h hb e ho2 (by omega) hcs port w2 hsend id pad ret ups hh hclean hno w own rs peer rest hown hrs hg hpeer
  have hcsn : ((e.chunkSize.toNat : Nat) : Int) = e.chunkSize := by omega
  have hlen : 0 < F.length := List.length_pos_iff.2 hF
  have hcount : e'.progress.sizeOf = ((F.length + e.chunkSize.toNat - 1) / e.chunkSize.toNat : Nat) := by
    rw [h7, hsize, Int.natCast_ediv, hcsn]
    congr 1
    omega
  have hdown : Downloading F ((s1.fs (joinPath [dl, n.take 255])).getD []) e.chunkSize.toNat (s1.fs (joinPath [dl, n.take 255])) e' := by
    refine ⟨by omega, by rw [h6, hcsn], hcount, ?_, fun _ _ => rfl⟩
    intro i hi hs
    refine absurd hs (h8 i ?_)
    have : (F.length + e.chunkSize.toNat - 1) / e.chunkSize.toNat ≤ F.length := by
      rw [Nat.div_le_iff_le_mul (by omega)]
      have : F.length * 1 ≤ F.length * e.chunkSize.toNat := Nat.mul_le_mul_left _ (by omega)
      omega
    omega
  refine ⟨s1, n, h1, h3, ?_, ?_⟩
  · intro hpath hold t locked downloads others hoth s hrun th ht hth hfin
    rw [hF2]
    refine (C74_content (dl := dl) hh hpath _ s hclean1.reach e' h2 h4 hdown hF ?_ ?_ hrun).1 t th ht hth hfin
    · rw [hfs _ hpath]; exact hold
    · intro t' th' ht' hth'
      simp only [upd] at ht'
      split at ht'
      · cases ht'; exact ⟨own, rfl⟩
      · exact absurd hth' (hoth t' th' ht')
  · intro hpath hold hchunks t downloads others hidle
    have hgood : goodHosts own [peer] = [peer] := by
      have hp : peer ∈ goodHosts own rs := by rw [hg]; exact List.mem_cons_self
      have : ∀ l : List HostResp, peer ∈ goodHosts own l → goodHosts own [peer] = [peer] := by
        intro l
        induction l with
        | nil => intro hx; cases hx
        | cons a l ih =>
          intro hx
          unfold goodHosts at hx
          split at hx
          · rename_i hc
            rcases List.mem_cons.1 hx with rfl | hx
            · simp only [goodHosts, if_pos hc]
            · exact ih hx
          · exact ih hx
      exact this rs hp
    have hready : DLReady env d dl h t own peer F ((s1.fs (joinPath [dl, n.take 255])).getD []) e.chunkSize.toNat
        ⟨s1.cat, s1.fs, false, downloads, upd others t (some ⟨h, .test own, []⟩)⟩ e' [] := by
      refine ⟨hclean1, h2, by rw [h4]; exact hpath, ?_, by rw [h4]; exact hdown, rfl, hidle, upd_self _ _ _⟩
      rw [hcount]
      have : (F.length + e.chunkSize.toNat - 1) / e.chunkSize.toNat ≤ 65536 := by
        rw [Nat.div_le_iff_le_mul (by omega)]
        omega
      omega
    obtain ⟨s2, -, rounds, -, k2, -, -, -, -, -, -, -, k9, -⟩ := dl_completes hh hgood hready hF (by rw [hfs _ hpath]; exact hold)
    rw [h4] at k9
    exact ⟨s2, _, k9, k2, rfl, rfl⟩

/-- C74, for a file that has just been shared: its content when it was shared is what the other host ends up with. -/
theorem C74_shared {env2 : Env} {d2 dl2 : Path} {c2 : Cat} {fs2 : FS} (hh2 : Healthy env2 d2) (hreach2 : Reach env2 d2 dl2 (.running c2 fs2)) (file : GoString)
    (hfile : ¬ CatFile d2 (absPath env2.cwd file)) (fl : List Fault) (r : Record) (s2 : St) (hshare : shareFile env2 file ⟨c2, fs2, fl⟩ = (.ok r, s2))
    (F : Bytes) (hF2 : fs2 (absPath env2.cwd file) = some F) (hb : (env2.sha1 F).isBlank = false) (hF : F ≠ []) (hbig : F.length < 2 ^ 63)
    (port : Nat) (w2 : Wire) (hsend : w2.sends = true) (id : UInt16) (pad : Bytes) (ret : Addr) (ups : UpKey → Option Up)
    (hh : Healthy env d) {c : Cat} {fs : FS} (hclean : CleanReach env d dl (.running c fs)) (hno : observe c fs (env2.sha1 F) = .err .fileNotFound)
    (w : DLWire) (own : ByteArr 4) (rs : List HostResp) (peer : HostResp) (rest : List HostResp) (hown : ownAddress w.addrs = .ok own) (hrs : w.responses = some rs)
    (hg : goodHosts own rs = peer :: rest)
    (hpeer : ∀ ip p reply s', serveDatagram env2 port w2 ((Msg.listReq id (env2.sha1 F)).serialize ++ pad) ret ⟨⟨s2.cat, s2.fs, []⟩, ups⟩ = (.ok (.sent ip p reply), s') →
      w.description peer = .datagram reply) :
    ∃ s1 n, startDownload env w (env2.sha1 F) ⟨c, fs, []⟩ = (.ok own, s1) ∧ IsBaseName (absPath env2.cwd file) n ∧
      (¬ CatFile d (joinPath [dl, n.take 255]) → ((fs (joinPath [dl, n.take 255])).getD []).length ≤ F.length →
        ∀ (t : Nat) (locked : Bool) (downloads : DLKey → Bool) (others : Nat → Option DLThread), (∀ t' th, others t' = some th → th.hash ≠ env2.sha1 F) →
        ∀ s, HonestRun env d (env2.sha1 F) F 4194304 (joinPath [dl, n.take 255])
            ⟨s1.cat, s1.fs, locked, downloads, upd others t (some ⟨env2.sha1 F, .test own, []⟩)⟩ s →
          ∀ th, s.threads t = some th → th.hash = env2.sha1 F → th.pos = .finished → s.fs (joinPath [dl, n.take 255]) = some F) ∧
      (¬ CatFile d (joinPath [dl, n.take 255]) → ((fs (joinPath [dl, n.take 255])).getD []).length ≤ F.length → F.length ≤ 65536 * 4194304 →
        ∀ (t : Nat) (downloads : DLKey → Bool) (others : Nat → Option DLThread), downloads (env2.sha1 F, peer.addr) = false →
        ∃ s th, HonestRun env d (env2.sha1 F) F 4194304 (joinPath [dl, n.take 255])
          ⟨s1.cat, s1.fs, false, downloads, upd others t (some ⟨env2.sha1 F, .test own, []⟩)⟩ s ∧ s.threads t = some th ∧ th.hash = env2.sha1 F ∧ th.pos = .finished) := by
  obtain ⟨F', h1, -, h3, -, h5⟩ := C26_share hh2 hreach2 file fl r s2 hshare
  rw [hF2] at h1; cases h1
  obtain ⟨b, h6, -, -, -⟩ := h3 hbig
  have hcont : s2.fs (absPath env2.cwd file) = some F := by
    rw [h5 _ (fun e => hfile (.inl e)) (fun e => hfile (.inr ⟨_, e⟩)), hF2]
  have hreach' := hreach2.call (.share file) trivial fl s2 (CM.void_ok _ _ _ _ hshare)
  obtain ⟨s1, n, g1, g2, g3, g4⟩ := C74_host_to_host hh2 hreach' hb _ h6 hcont rfl (show (0 : Int) < 4194304 by decide) hF hbig port w2 hsend id pad ret ups hh hclean hno w own rs peer rest hown hrs hg hpeer
  refine ⟨s1, n, g1, g2, ?_, g4⟩
  intro k1 k2 t locked downloads others k3 s k4 th k5 k6 k7
  rw [g3 k1 k2 t locked downloads others k3 s k4 th k5 k6 k7]
  exact hcont

end

/-! ### Cases -/

theorem ex_path3 : joinPath [exDown, [102]] = absOf [[119], [102]] := joinPath_plain [[119]] (ex_plain 119 (by simp)) [102] ⟨by decide, by decide, by decide, by decide⟩

theorem ex_not_catFile3 : ¬ CatFile exDir (joinPath [exDown, [102]]) := by
  rw [ex_path3]
  have hd := ex_plain 100 (by simp)
  have hw : ∀ e ∈ ([[119], [102]] : List GoString), Plain e :=
    plain_snoc (ex_plain 119 (by simp)) ⟨by decide, by decide, by decide, by decide⟩
  rintro (e | ⟨x, e⟩)
  · rw [exDir, indexPath_abs _ hd] at e
    have := absOf_inj _ _ hw (plain_snoc hd plain_indexFileName) e
    simp at this
  · rw [exDir, progressPath_abs _ hd] at e
    have := absOf_inj _ _ hw (plain_snoc hd (plain_hash x)) e
    simp at this

/-- `C74_content`: a download of five bytes in three chunks that runs to its end. -/
example (sha1 : Bytes → Sha1Hash) (json : JsonCodec) (h : Sha1Hash) : ∃ s0 s e0 th, Healthy (exEnv sha1 json) exDir ∧ ¬ CatFile exDir e0.filePath ∧
    Reach (exEnv sha1 json) exDir exDown (.running s0.cat s0.fs) ∧ observe s0.cat s0.fs h = .ok e0 ∧ Downloading [1, 2, 3, 4, 5] [] 2 (s0.fs e0.filePath) e0 ∧
    missingList e0 = [0, 1, 2] ∧ s0.threads 1 = some ⟨h, .test exOwn, []⟩ ∧
    HonestRun (exEnv sha1 json) exDir h [1, 2, 3, 4, 5] 2 e0.filePath s0 s ∧ s.threads 1 = some th ∧ th.hash = h ∧ th.pos = .finished := by
  obtain ⟨s0, e0, h1, h2, h3⟩ := ex_ready sha1 json h (fun t => if t = 1 then some ⟨h, .test exOwn, []⟩ else none) rfl
  obtain ⟨s, -, rounds, -, k2, -, -, -, -, -, -, -, k9, -⟩ := dl_completes (ex_healthy sha1 json) ex_good h1 (by decide) (by decide)
  exact ⟨s0, s, e0, _, ex_healthy sha1 json, h1.path, h1.clean.reach, h1.obs, h1.down, h3, by rw [h2]; rfl, k9, k2, rfl, rfl⟩

/-- `C74_shared` (and through it `C74_host_to_host`): a host shares `f` of three bytes; a fresh host asks it for its description. -/
example (json : JsonCodec) : ∃ (c2 : Cat) (fs2 : FS) (r : Record) (s2 : St) (s3 : Srv) (reply : Bytes) (c : Cat) (fs : FS),
    Reach (exEnv (fun _ => Sha1Hash.zero) json) exDir exDown (.running c2 fs2) ∧ shareFile (exEnv (fun _ => Sha1Hash.zero) json) [102] ⟨c2, fs2, []⟩ = (.ok r, s2) ∧
    ¬ CatFile exDir (absPath (exEnv (fun _ => Sha1Hash.zero) json).cwd [102]) ∧ fs2 (absPath (exEnv (fun _ => Sha1Hash.zero) json).cwd [102]) = some [1, 2, 3] ∧
    serveDatagram (exEnv (fun _ => Sha1Hash.zero) json) 61696 exWire ((Msg.listReq 7 Sha1Hash.zero).serialize ++ []) exAddr ⟨⟨s2.cat, s2.fs, []⟩, fun _ => none⟩ =
      (.ok (.sent exAddr.ip.bytes exAddr.port reply), s3) ∧
    CleanReach (exEnv (fun _ => Sha1Hash.zero) json) exDir exDown (.running c fs) ∧ observe c fs Sha1Hash.zero = .err .fileNotFound ∧
    ¬ CatFile exDir (joinPath [exDown, [102]]) ∧ ((fs (joinPath [exDown, [102]])).getD []).length ≤ 3 := by
  have hh := ex_healthy (fun _ => Sha1Hash.zero) json
  obtain ⟨r, s2, h⟩ := shareFile_total (exEnv (fun _ => Sha1Hash.zero) json) [102] exDir exDown (freshIdx (exEnv (fun _ => Sha1Hash.zero) json) exDir) _ [1, 2, 3] (ex_file _ json) rfl (by decide)
  have hreach := (ex_reach (fun _ => Sha1Hash.zero) json).call (.share [102]) trivial [] s2 (CM.void_ok _ _ _ _ h)
  obtain ⟨F, h1, -, h3, -⟩ := C26_share hh (ex_reach _ json) [102] [] r s2 h
  rw [ex_file] at h1; cases h1
  obtain ⟨b, h4, -⟩ := h3 (by decide)
  obtain ⟨x, reply, s3, hd, k1, -, -, k2, -⟩ := C53_metadata hh hreach 61696 exWire rfl 7 Sha1Hash.zero rfl _ h4 [] exAddr (fun _ => none)
  have e1 : absPath (exEnv (fun _ => Sha1Hash.zero) json).cwd [102] = absOf [[102]] := by
    show absPath [47] [102] = _
    decide
  refine ⟨_, _, r, s2, s3, reply, _, _, ex_reach _ json, h, ?_, ex_file _ json, k1, CleanReach.fresh _ exDir exDown hh.utf8 exFS ex_fs_clean, rfl, ?_, ?_⟩
  · rw [e1]; exact ex_not_catFile 102 (by simp)
  · exact ex_not_catFile3
  · rw [FS.put_other _ _ _ _ (fun e => ex_not_catFile3 (.inl e)), ex_path3]
    decide

end Flu
