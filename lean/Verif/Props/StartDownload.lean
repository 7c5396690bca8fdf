import Verif.Props.DownloadLoop
import Verif.Props.Listing
import Verif.Props.Fatal
/-!
# Starting a download (C66), and files that do not disturb each other (C67)
-/
namespace Flu
open Spec

section
variable {env : Env} {d dl : Path} {c : Cat} {fs : FS}

/-- `Contains` in a state without faults. -/
theorem startCheck_clean (hh : Healthy env d) (hclean : CleanReach env d dl (.running c fs)) (h : Sha1Hash) :
    ∃ known s1, startCheck h ⟨c, fs, []⟩ = (.ok known, s1) ∧ s1.faults = [] ∧ CleanReach env d dl (.running s1.cat s1.fs) ∧
      s1.fs = fs ∧ (∀ k, observe s1.cat s1.fs k = observe c fs k) ∧ ((known = true ∧ ∃ e, observe c fs h = .ok e) ∨ (known = false ∧ observe c fs h = .err .fileNotFound)) := by
  obtain ⟨-, -, -, -, -, h4⟩ := C30_restart hh hclean 0 0
  have hhave : ∀ x, observe c fs h = x → contains h ⟨c, fs, []⟩ = (x, (contains h ⟨c, fs, []⟩).2) := fun x hx => Prod.ext hx rfl
  have hrun : ∀ x, observe c fs h = x → startCheck h ⟨c, fs, []⟩ = match x with
      | .ok _ => (.ok true, (contains h ⟨c, fs, []⟩).2)
      | .err _ => (.ok false, (contains h ⟨c, fs, []⟩).2)
      | .panic => (.panic, (contains h ⟨c, fs, []⟩).2)
      | .exit => (.exit, (contains h ⟨c, fs, []⟩).2)
      | .crash => (.crash, (contains h ⟨c, fs, []⟩).2) := by
    intro x hx
    unfold startCheck
    rw [IOM.bind_apply]
    unfold IOM.attempt
    rw [hhave x hx]
    cases x <;> rfl
  rcases h4 h with ⟨e, ho⟩ | ho
  · have hcon := hhave _ ho
    obtain ⟨g1, g2, -, g4⟩ := contains_effect hh hclean.reach h [] _ _ hcon
    refine ⟨true, _, ?_, contains_quiet hh hclean.reach h e ho, hclean.returns (.contains h) trivial _ (.inl (CM.void_ok _ _ _ _ hcon)), g1, g2, .inl ⟨rfl, e, ho⟩⟩
    rw [hrun _ ho]
  · have hcon := hhave _ ho
    obtain ⟨g1, g2, -, g4⟩ := contains_effect hh hclean.reach h [] _ _ hcon
    refine ⟨false, _, ?_, ?_, hclean.returns (.contains h) trivial _ (.inr ⟨_, CM.void_err _ _ _ _ hcon⟩), g1, g2, .inr ⟨rfl, ho⟩⟩
    · rw [hrun _ ho]
    · have hI : Inv env d dl c fs := hclean.reach.inv hh.abs hh.utf8
      obtain ⟨ind, rfl, hw⟩ := hI.split
      unfold contains
      rw [IOM.bind_apply, getIndexRecord_nil]
      rw [observe_eq, obsRec_notFound] at ho
      rw [ho]

theorem registerDownload_unknown (hh : Healthy env d) (hreach : Reach env d dl (.running c fs)) (size : UInt64) (cs : UInt32) (h : Sha1Hash) (name : GoString)
    (ho : observe c fs h = .err .fileNotFound) (hsize : size.toNat < 2 ^ 63) (hcs : 0 < cs.toNat) :
    ∃ e s', registerDownload env size cs h name ⟨c, fs, []⟩ = (.ok e, s') := by
  have hI : Inv env d dl c fs := hreach.inv hh.abs hh.utf8
  obtain ⟨ind, rfl, hw⟩ := hI.split
  rw [observe_eq, obsRec_notFound] at ho
  exact registerDownload_total env size cs h name d dl ind fs ho hsize hcs

/-- The request for a download in a state without faults: what the setup does after `Contains`. -/
theorem startDownload_eq (hh : Healthy env d) (hclean : CleanReach env d dl (.running c fs)) (w : DLWire) (h : Sha1Hash) :
    ∃ known c1, startDownload env w h ⟨c, fs, []⟩ = startSetup env w h known ⟨c1, fs, []⟩ ∧ CleanReach env d dl (.running c1 fs) ∧
      (∀ k, observe c1 fs k = observe c fs k) ∧ ((known = true ∧ ∃ e, observe c fs h = .ok e) ∨ (known = false ∧ observe c fs h = .err .fileNotFound)) := by
  obtain ⟨known, ⟨c1, fs1, fl⟩, h1, h2, h3, h4, h5, h6⟩ := startCheck_clean hh hclean h
  simp only [] at h2 h3 h4 h5
  subst h2; subst h4
  refine ⟨known, c1, ?_, h3, h5, h6⟩
  unfold startDownload
  rw [IOM.bind_apply, h1]

/-- C66: when `StartDownload` succeeds, this host has an address, another host has announced chunks of the file, and either the catalogue knew the file, and then nothing changed,
or the first such host described it, and the catalogue now has it as described, at its name in the downloads directory, with nothing downloaded; no other file changed. -/
theorem C66_starts (hh : Healthy env d) (hclean : CleanReach env d dl (.running c fs)) (w : DLWire) (h : Sha1Hash) (own : ByteArr 4) (s' : St)
    (hrun : startDownload env w h ⟨c, fs, []⟩ = (.ok own, s')) :
    ownAddress w.addrs = .ok own ∧ ∃ rs peer rest, w.responses = some rs ∧ goodHosts own rs = peer :: rest ∧ CleanReach env d dl (.running s'.cat s'.fs) ∧
      (((∃ e, observe c fs h = .ok e) ∧ s'.fs = fs ∧ ∀ k, observe s'.cat s'.fs k = observe c fs k) ∨
        (observe c fs h = .err .fileNotFound ∧ ∃ f, downloadMetaData h (w.description peer) = .ok f ∧
          (f.sizeInBytes.toNat < 2 ^ 63 → 0 < f.chunkSize.toNat → ∃ b, observe s'.cat s'.fs h = .ok ⟨joinPath [dl, f.fileName], f.sizeInBytes.toNat, h, b, f.chunkSize.toNat⟩ ∧
            b.sizeOf = ((f.sizeInBytes.toNat + f.chunkSize.toNat - 1) / f.chunkSize.toNat : Nat) ∧ (∀ i, i < 2 ^ 63 → b.get (BitVec.ofNat 64 i) = .ok false) ∧
            (∀ k, k ≠ h → observe s'.cat s'.fs k = observe c fs k) ∧ ∀ q, ¬ CatFile d q → s'.fs q = fs q))) := by
  obtain ⟨known, c1, h1, h2, h3, h4⟩ := startDownload_eq hh hclean w h
  rw [h1] at hrun
  unfold startSetup at hrun
  obtain ⟨own', s2, k0, k2⟩ := (IOM.bind_ok_iff _ _ _ _ _).1 hrun
  rw [IOM.lift_apply] at k0
  obtain ⟨k1, rfl⟩ := Prod.mk.inj k0
  rcases w with ⟨addrs, _ | rs, desc⟩
  · cases k2
  simp only [] at k1 k2 ⊢
  cases hg : goodHosts own' rs with
  | nil => rw [hg] at k2; cases k2
  | cons peer rest =>
    rw [hg] at k2
    simp only [] at k2
    rcases h4 with ⟨rfl, h4⟩ | ⟨rfl, h4⟩
    · rw [if_pos rfl] at k2
      cases k2
      exact ⟨k1, rs, peer, rest, rfl, hg, h2, .inl ⟨h4, rfl, h3⟩⟩
    · rw [if_neg (by decide)] at k2
      obtain ⟨f, s3, m0, m2⟩ := (IOM.bind_ok_iff _ _ _ _ _).1 k2
      rw [IOM.lift_apply] at m0
      obtain ⟨m1, rfl⟩ := Prod.mk.inj m0
      obtain ⟨e, s4, m3, m4⟩ := (IOM.bind_ok_iff _ _ _ _ _).1 m2
      cases m4
      have hf := downloadMetaData_hash _ _ _ m1
      rw [hf] at m3
      refine ⟨k1, rs, peer, rest, rfl, hg, h2.returns (.register _ _ h _) trivial s' (.inl (CM.void_ok _ _ _ _ m3)), .inr ⟨h4, f, m1, ?_⟩⟩
      intro hsz hcs
      obtain ⟨-, ⟨b, q1, q2, q3, -, q5⟩, q6, q7⟩ := C29_register hh h2.reach _ _ h _ [] e s' hsz hcs m3
      subst q1
      exact ⟨b, q2, q3, q5, fun k hk => (q6 k hk).trans (h3 k), fun q hq => q7 q (fun e => hq (.inl e)) (fun e => hq (.inr ⟨_, e⟩))⟩

/-- C66: when `StartDownload` returns an error, nothing changed. -/
theorem C66_refused (hh : Healthy env d) (hclean : CleanReach env d dl (.running c fs)) (w : DLWire) (h : Sha1Hash) (x : Err) (s' : St)
    (hrun : startDownload env w h ⟨c, fs, []⟩ = (.err x, s')) : s'.fs = fs ∧ ∀ k, observe s'.cat s'.fs k = observe c fs k := by
  obtain ⟨known, c1, h1, h2, h3, h4⟩ := startDownload_eq hh hclean w h
  rw [h1] at hrun
  unfold startSetup at hrun
  rcases IOM.lift_bind_inv _ _ _ _ _ hrun rfl with ⟨own, k1, k2⟩ | ⟨e, k1, k2, rfl⟩
  rotate_left
  · exact ⟨rfl, h3⟩
  rcases w with ⟨addrs, _ | rs, desc⟩
  · cases k2
  simp only [] at k1 k2
  cases hg : goodHosts own rs with
  | nil => rw [hg] at k2; cases k2; exact ⟨rfl, h3⟩
  | cons peer rest =>
    rw [hg] at k2
    simp only [] at k2
    split at k2
    · cases k2
    rcases IOM.lift_bind_inv _ _ _ _ _ k2 rfl with ⟨f, m1, m2⟩ | ⟨e, m1, m2, rfl⟩
    rotate_left
    · exact ⟨rfl, h3⟩
    have hf := downloadMetaData_hash _ _ _ m1
    rw [hf, IOM.bind_apply] at m2
    rcases hr : registerDownload env f.sizeInBytes f.chunkSize h f.fileName ⟨c1, fs, []⟩ with ⟨y, s1⟩
    rw [hr] at m2
    cases y with
    | ok a => cases m2
    | panic => cases m2
    | exit => cases m2
    | crash => cases m2
    | err e =>
      cases m2
      have hI : Inv env d dl c1 fs := h2.reach.inv hh.abs hh.utf8
      obtain ⟨ind, rfl, hw⟩ := hI.split
      have := registerDownload_nil_err env _ _ _ _ _ _ _ _ _ _ hr
      subst this
      exact ⟨rfl, h3⟩

/-- C66: `StartDownload` succeeds if this host has an address, some other host announces chunks, and the file is known or the first such host describes it sensibly. -/
theorem C66_total (hh : Healthy env d) (hclean : CleanReach env d dl (.running c fs)) (w : DLWire) (h : Sha1Hash) (own : ByteArr 4) (rs : List HostResp) (peer : HostResp)
    (rest : List HostResp) (hown : ownAddress w.addrs = .ok own) (hrs : w.responses = some rs) (hg : goodHosts own rs = peer :: rest)
    (hf : (∃ e, observe c fs h = .ok e) ∨ ∃ f, downloadMetaData h (w.description peer) = .ok f ∧ f.sizeInBytes.toNat < 2 ^ 63 ∧ 0 < f.chunkSize.toNat) :
    ∃ s', startDownload env w h ⟨c, fs, []⟩ = (.ok own, s') := by
  obtain ⟨known, c1, h1, h2, h3, h4⟩ := startDownload_eq hh hclean w h
  rw [h1]
  unfold startSetup
  rw [IOM.bind_apply, IOM.lift_apply, hown]
  rcases w with ⟨addrs, rs', desc⟩
  simp only [] at hrs hf hown ⊢
  subst hrs
  simp only [hg]
  rcases h4 with ⟨rfl, h4⟩ | ⟨rfl, h4⟩
  · exact ⟨_, rfl⟩
  · rcases hf with ⟨e, he⟩ | ⟨f, f1, f2, f3⟩
    · rw [h4] at he; cases he
    · have hfh := downloadMetaData_hash _ _ _ f1
      obtain ⟨e, s', k1⟩ := registerDownload_unknown hh h2.reach f.sizeInBytes f.chunkSize h f.fileName ((h3 h).trans h4) f2 f3
      refine ⟨s', ?_⟩
      rw [if_neg (by decide), IOM.bind_apply, IOM.lift_apply, f1]
      simp only []
      rw [IOM.bind_apply, hfh, k1]
      rfl

/-- C66: without another host that announces chunks, it is refused. -/
theorem C66_no_host (hh : Healthy env d) (hclean : CleanReach env d dl (.running c fs)) (w : DLWire) (h : Sha1Hash) (own : ByteArr 4) (rs : List HostResp)
    (hown : ownAddress w.addrs = .ok own) (hrs : w.responses = some rs) (hno : ∀ r ∈ rs, r.chunks = [] ∨ r.addr = own) :
    ∃ s', startDownload env w h ⟨c, fs, []⟩ = (.err .noGoodHosts, s') := by
  obtain ⟨known, c1, h1, h2, h3, h4⟩ := startDownload_eq hh hclean w h
  have hg : goodHosts own rs = [] := by
    clear hrs
    induction rs with
    | nil => rfl
    | cons r rs ih =>
      unfold goodHosts
      rw [if_neg, ih (fun x hx => hno x (List.mem_cons_of_mem _ hx))]
      rintro ⟨a, b⟩
      rcases hno r List.mem_cons_self with h | h
      · rw [h] at a; cases a
      · exact b h
  rw [h1]
  unfold startSetup
  rw [IOM.bind_apply, IOM.lift_apply, hown]
  rcases w with ⟨addrs, rs', desc⟩
  simp only [] at hrs ⊢
  subst hrs
  simp only [hg]
  exact ⟨_, rfl⟩

/-- C66, from catalogue to catalogue: if the first other host that announces the file runs this program and has the file, then the download of a file unknown here starts, and this
catalogue has the file with the size, chunk size, number of chunks and (up to 255 bytes) name that it has there. -/
theorem C66_as_shared {env2 : Env} {d2 dl2 : Path} {c2 : Cat} {fs2 : FS} (hh2 : Healthy env2 d2) (hreach2 : Reach env2 d2 dl2 (.running c2 fs2)) (h : Sha1Hash)
    (hb : h.isBlank = false) (e : Export) (ho2 : observe c2 fs2 h = .ok e) (hsize : 0 ≤ e.sizeInBytes ∧ e.sizeInBytes < 2 ^ 63) (hcs : 0 < e.chunkSize)
    (port : Nat) (w2 : Wire) (hsend : w2.sends = true) (id : UInt16) (pad : Bytes) (ret : Addr) (ups : UpKey → Option Up)
    (hh : Healthy env d) (hclean : CleanReach env d dl (.running c fs)) (hno : observe c fs h = .err .fileNotFound)
    (w : DLWire) (own : ByteArr 4) (rs : List HostResp) (peer : HostResp) (rest : List HostResp) (hown : ownAddress w.addrs = .ok own) (hrs : w.responses = some rs)
    (hg : goodHosts own rs = peer :: rest)
    (hpeer : ∀ ip p reply s2, serveDatagram env2 port w2 ((Msg.listReq id h).serialize ++ pad) ret ⟨⟨c2, fs2, []⟩, ups⟩ = (.ok (.sent ip p reply), s2) →
      w.description peer = .datagram reply) :
    ∃ s' e' n, startDownload env w h ⟨c, fs, []⟩ = (.ok own, s') ∧ observe s'.cat s'.fs h = .ok e' ∧ IsBaseName e.filePath n ∧
      e'.filePath = joinPath [dl, n.take 255] ∧ e'.sizeInBytes = e.sizeInBytes ∧ e'.chunkSize = e.chunkSize ∧
      e'.progress.sizeOf = (e.sizeInBytes + e.chunkSize - 1) / e.chunkSize ∧ (∀ i, i < 2 ^ 63 → ¬ e'.saved i) ∧
      CleanReach env d dl (.running s'.cat s'.fs) ∧ (∀ q, ¬ CatFile d q → s'.fs q = fs q) := by
  obtain ⟨x, reply, s2, hd, h1, -, -, h2, -⟩ := C53_metadata hh2 hreach2 port w2 hsend id h hb e ho2 pad ret ups
  have hdesc := hpeer _ _ _ _ h1
  have hsz := hd.size hsize.1 (by omega)
  have hck := hd.chunkSize
  have hx1 : x.sizeInBytes.toNat < 2 ^ 63 := by omega
  have hx2 : 0 < x.chunkSize.toNat := by omega
  obtain ⟨s', hrun⟩ := C66_total hh hclean w h own rs peer rest hown hrs hg (.inr ⟨x, by rw [hdesc]; exact h2, hx1, hx2⟩)
  obtain ⟨-, rs', peer', rest', k1, k2, kc, k3⟩ := C66_starts hh hclean w h own s' hrun
  rw [hrs] at k1; cases k1
  rw [hg] at k2; cases k2
  rcases k3 with ⟨⟨e1, k4⟩, -⟩ | ⟨-, f, k4, k5⟩
  · rw [hno] at k4; cases k4
  rw [hdesc, h2] at k4; cases k4
  obtain ⟨b, m1, m2, m3, -, m5⟩ := k5 hx1 hx2
  obtain ⟨n, n1, n2⟩ := hd.name
  refine ⟨s', _, n, hrun, m1, n1, by rw [← n2], hsz, hck, ?_, ?_, kc, m5⟩
  · show b.sizeOf = _
    rw [m2, ← hsz, ← hck]
    rw [Int.natCast_ediv]
    congr 1
    omega
  · intro i hi hs
    unfold Export.saved at hs
    simp only [m3 i hi] at hs
    cases hs

/-! ## C67 -/

/-- C67: no call about other files changes what the catalogue says about a file it has, whatever faults occur and however the call ends. -/
theorem C67_call (hh : Healthy env d) (hreach : Reach env d dl (.running c fs)) (g : Sha1Hash) (e : Export) (ho : observe c fs g = .ok e) (o : Op)
    (hsafe : o.Safe d c) (hne : ¬ o.Touches g) (fl : List Fault) (r : Res Unit) (s' : St) (hrun : o.run env ⟨c, fs, fl⟩ = (r, s')) :
    observe s'.cat s'.fs g = .ok e := by
  rw [observe_other hh hreach g (by rw [ho]; intro hx; cases hx) o hsafe hne fl r s' hrun, ho]

/-- C67: any number of downloads of other files, other calls and other programs never change what the catalogue says about a file. -/
theorem C67_run (hh : Healthy env d) (g : Sha1Hash) (s0 : DLState) (hreach : Reach env d dl (.running s0.cat s0.fs)) (e : Export)
    (ho : observe s0.cat s0.fs g = .ok e) (s : DLState)
    (hrun : DLRun env d (fun a x => (∀ o, a = .call o → ¬ o.Touches g) ∧ ∀ s, x = .alive s → ∀ t th, s.threads t = some th → th.hash ≠ g) s0 (.alive s))
    (h0 : ∀ t th, s0.threads t = some th → th.hash ≠ g) : observe s.cat s.fs g = .ok e := by
  generalize hx : DLSys.alive s = x at hrun
  suffices ∀ s, x = .alive s → Reach env d dl (.running s.cat s.fs) ∧ observe s.cat s.fs g = .ok e ∧ ∀ t th, s.threads t = some th → th.hash ≠ g from
    (this s hx.symm).2.1
  clear hx
  induction hrun with
  | refl => intro s hs; cases hs; exact ⟨hreach, ho, h0⟩
  | @step s1 x a hr hst hok ih =>
    intro s2 hs; subst hs
    obtain ⟨h1, h2, h3⟩ := ih s1 rfl
    refine ⟨hst.reach h1, ?_, hok.2 s2 rfl⟩
    rw [hst.elsewhere hh h1 g (by rw [h2]; intro hx; cases hx) hok.1 (fun t th _ ht _ => h3 t th ht), h2]

end

/-- C66: a machine without a usable address, or whose addresses cannot be read: `StartDownload` ends the daemon. -/
theorem C66_no_address {env : Env} {d dl : Path} {c : Cat} {fs : FS} (hh : Healthy env d) (hclean : CleanReach env d dl (.running c fs)) (w : DLWire) (h : Sha1Hash)
    (hno : ∀ addrs, w.addrs = some addrs → ∀ a ∈ addrs, Spec.usable a = none) : (startDownload env w h ⟨c, fs, []⟩).1 = .panic := by
  obtain ⟨known, c1, h1, -⟩ := startDownload_eq hh hclean w h
  rw [h1]
  have hown : ownAddress w.addrs = .panic := by
    unfold ownAddress
    cases ha : w.addrs with
    | none => rw [(C65_localIP []).2]; rfl
    | some addrs =>
      have : addrs.findSome? Spec.usable = none := List.findSome?_eq_none_iff.2 (hno addrs ha)
      rw [(C65_localIP addrs).1, this]; rfl
  unfold startSetup
  rw [IOM.bind_apply, IOM.lift_apply, hown]

/-! ### Cases -/

/-- `C66_no_address`: only the loopback address. -/
example : ∀ addrs, (⟨some [[127, 0, 0, 1]], some [exPeer], fun _ => .silence⟩ : DLWire).addrs = some addrs → ∀ a ∈ addrs, Spec.usable a = none := by
  intro addrs h
  cases h
  decide

/-- `C66_starts`, `C66_total`, `C66_as_shared`: a host that has a file of five bytes, and a fresh host that asks for it. -/
example (sha1 : Bytes → Sha1Hash) (json : JsonCodec) : ∃ (c2 c : Cat) (fs2 fs : FS) (e : Export) (w : DLWire) (reply : Bytes) (s2 : Srv),
    CleanReach (exEnv sha1 json) exDir exDown (.running c2 fs2) ∧ Sha1Hash.zero.isBlank = false ∧ observe c2 fs2 Sha1Hash.zero = .ok e ∧
    serveDatagram (exEnv sha1 json) 61696 exWire ((Msg.listReq 7 Sha1Hash.zero).serialize ++ []) exAddr ⟨⟨c2, fs2, []⟩, fun _ => none⟩ =
      (.ok (.sent exAddr.ip.bytes exAddr.port reply), s2) ∧ w.description exPeer = .datagram reply ∧
    ownAddress w.addrs = .ok exOwn ∧ w.responses = some [exPeer] ∧ goodHosts exOwn [exPeer] = exPeer :: [] ∧
    CleanReach (exEnv sha1 json) exDir exDown (.running c fs) ∧ observe c fs Sha1Hash.zero = .err .fileNotFound := by
  have hh := ex_healthy sha1 json
  obtain ⟨c2, fs2, e, h1, h2, h3, h4, -⟩ := ex_complete sha1 json Sha1Hash.zero
  obtain ⟨x, reply, s2, hd, k1, -, -, k2, -⟩ := C53_metadata hh h1.reach 61696 exWire rfl 7 Sha1Hash.zero rfl e h2 [] exAddr (fun _ => none)
  exact ⟨c2, _, fs2, _, e, ⟨some [[10, 0, 0, 1]], some [exPeer], fun _ => .datagram reply⟩, reply, s2, h1, rfl, h2, k1, rfl,
    (show ownAddress (some [[10, 0, 0, 1]]) = .ok exOwn by decide), rfl, ex_good,
    CleanReach.fresh (exEnv sha1 json) exDir exDown hh.utf8 exFS ex_fs_clean, rfl⟩

/-- `C66_refused`, `C66_no_host`: the only answer is this host's own. -/
example (sha1 : Bytes → Sha1Hash) (json : JsonCodec) : ∃ (c : Cat) (fs : FS) (s' : St), CleanReach (exEnv sha1 json) exDir exDown (.running c fs) ∧
    (∀ r ∈ [{ exPeer with addr := exOwn }], r.chunks = [] ∨ r.addr = exOwn) ∧
    startDownload (exEnv sha1 json) ⟨some [[10, 0, 0, 1]], some [{ exPeer with addr := exOwn }], fun _ => .silence⟩ Sha1Hash.zero ⟨c, fs, []⟩ = (.err .noGoodHosts, s') := by
  have hh := ex_healthy sha1 json
  have h0 := CleanReach.fresh (exEnv sha1 json) exDir exDown hh.utf8 exFS ex_fs_clean
  have h1 : ∀ r ∈ [{ exPeer with addr := exOwn }], r.chunks = [] ∨ r.addr = exOwn := by
    intro r hr
    rw [List.mem_singleton.1 hr]
    exact .inr rfl
  obtain ⟨s', hs⟩ := C66_no_host hh h0 ⟨some [[10, 0, 0, 1]], some [{ exPeer with addr := exOwn }], fun _ => .silence⟩ Sha1Hash.zero exOwn _ (by decide) rfl h1
  exact ⟨_, _, s', h0, h1, hs⟩

/-- `C67_call`, `C67_run`: one file, while another one is unshared, or downloaded. -/
example (sha1 : Bytes → Sha1Hash) (json : JsonCodec) : ∃ (c : Cat) (fs : FS) (e e' : Export) (k : Sha1Hash), Reach (exEnv sha1 json) exDir exDown (.running c fs) ∧
    observe c fs Sha1Hash.zero = .ok e ∧ observe c fs k = .ok e' ∧ ¬ (Op.unshare k).Touches Sha1Hash.zero ∧ (Op.unshare k).Safe exDir c ∧
    ∀ t th, (fun t => if t = 1 then some ⟨k, .test exOwn, []⟩ else none : Nat → Option DLThread) t = some th → th.hash ≠ Sha1Hash.zero := by
  have hk : (⟨1 :: List.replicate 19 0, rfl⟩ : Sha1Hash) ≠ Sha1Hash.zero := by decide
  obtain ⟨c, fs, h1, h2⟩ := ex_many sha1 json [Sha1Hash.zero, ⟨1 :: List.replicate 19 0, rfl⟩] (by decide)
  obtain ⟨e, he⟩ := (h2 Sha1Hash.zero).1 (by simp)
  obtain ⟨e', he'⟩ := (h2 ⟨1 :: List.replicate 19 0, rfl⟩).1 (by simp)
  refine ⟨c, fs, e, e', ⟨1 :: List.replicate 19 0, rfl⟩, h1.reach, he, he', hk, trivial, ?_⟩
  intro t th ht
  simp only [] at ht
  split at ht
  · cases ht; exact hk
  · cases ht

end Flu
