import Verif.Model.Network
import Verif.Props.EndToEnd
import Verif.Props.Transfer
import Verif.Props.OneByOne
import Verif.Props.Failures
import Verif.Props.Works
import Verif.Props.ServeReadOnly
/-!
# Files spread over hosts that run this program (C112)
-/
namespace Flu
open Spec

/-! ### The queue of a link -/

section
variable {sha1 : Bytes → Sha1Hash} {content : Bytes} {l0 : Link}

theorem LTake.run {q : List (Option Bytes)} {l : Link} (h : LTake sha1 content l0 q l) : ∃ k, LRun sha1 content true l0 k l := by
  induction h with
  | refl => exact ⟨0, .refl _⟩
  | sender _ e s he hs ih => obtain ⟨k, ih⟩ := ih; exact ⟨_, .step ih (.sender _ e s he hs)⟩
  | ack _ s hs ha ih => obtain ⟨k, ih⟩ := ih; exact ⟨_, .step ih (.ack _ s hs ha)⟩
  | receive _ c d rest hr hn ih => obtain ⟨k, ih⟩ := ih; exact ⟨_, .step ih (.receive _ c d rest hr hn)⟩
  | timeout _ c hr ih => obtain ⟨k, ih⟩ := ih; exact ⟨_, .step ih (.timeout _ c hr rfl)⟩

/-- How the loop stands after a queue, in the terms of the link. -/
def LoopAt (sha1 : Bytes → Sha1Hash) (q : List (Option Bytes)) : RState → Prop
  | .waiting c => ∃ acks, ∀ rest, recvLoop sha1 .fresh (q ++ rest) = (recvLoop sha1 c rest >>= fun x => .ok (acks ++ x.1, x.2))
  | .finished b ok => ∃ acks, recvLoop sha1 .fresh q = .ok (acks, .finished b ok)
  | .gaveUp => ∃ acks, recvLoop sha1 .fresh q = .ok (acks, .closed)
  | .dead => True

theorem LTake.loop {q : List (Option Bytes)} {l : Link} (h : LTake sha1 content l0 q l) (h0 : l0.recv = .waiting .fresh) : LoopAt sha1 q l.recv := by
  induction h with
  | refl =>
    rw [h0]
    refine ⟨[], fun rest => ?_⟩
    rw [List.nil_append]
    cases recvLoop sha1 .fresh rest <;> rfl
  | sender _ e s he hs ih => exact ih
  | ack _ s hs ha ih => exact ih
  | @receive q l _ c d rest hr hn ih =>
    rw [hr] at ih
    obtain ⟨acks, ih⟩ := ih
    show LoopAt sha1 (q ++ [some d]) (recvDatagram sha1 c d).1
    unfold recvDatagram
    rcases hp : readPacket d with p | _ | _ | _ | _ <;> simp only [Res.bind_ok, Res.bind_err, Res.bind_panic, Res.bind_exit, Res.bind_crash] <;> try trivial
    rcases ha : onPacket sha1 c p with ⟨c', a | ⟨b, ok⟩⟩ | _ | _ | _ | _ <;> simp only [] <;> try trivial
    · refine ⟨acks ++ [a], fun rest => ?_⟩
      rw [List.append_assoc, ih]
      show ((readPacket d >>= fun p => _) >>= _) = _
      rw [hp]
      simp only [Res.bind_ok, ha]
      rcases hx : recvLoop sha1 c' rest with _ | _ | _ | _ | _ <;> simp [hx, Res.bind_ok, Res.pure_eq, Res.bind_err, Res.bind_panic, Res.bind_exit, Res.bind_crash]
    · refine ⟨acks, ?_⟩
      rw [ih]
      show ((readPacket d >>= fun p => _) >>= _) = _
      rw [hp]
      simp [Res.bind_ok, ha, Res.pure_eq]
  | @timeout q l _ c hr ih =>
    rw [hr] at ih
    obtain ⟨acks, ih⟩ := ih
    refine ⟨acks, ?_⟩
    rw [ih]
    simp [recvLoop, Res.bind_ok]

end

/-! ### A line that carries a chunk of `F` -/

section
variable {sha1 : Bytes → Sha1Hash} {h : Sha1Hash} {F : Bytes}

/-- The chunks of shared files. -/
abbrev net_cs : Nat := 4194304

/-- The line carries the chunk of `F` that was asked for, in windows of `cap` packets. -/
def Line.CarriesIn (sha1 : Bytes → Sha1Hash) (F : Bytes) (cap : UInt16) (ln : Line) : Prop :=
  ln.chunk.toNat < (F.length + net_cs - 1) / net_cs ∧
  ∃ start ch cr rd, newChunkReader sha1 ln.content start net_cs ch = some cr ∧ slice ln.content start net_cs = (F.drop (ln.chunk.toNat * net_cs)).take net_cs ∧
    kickstart ln.content (newSender cr cap) cr.hash cr.size rd true = (.ok ln.first, ln.conn)

/-- The line carries the chunk of `F` that was asked for. -/
def Line.Carries (sha1 : Bytes → Sha1Hash) (F : Bytes) (ln : Line) : Prop := ∃ cap, ln.CarriesIn sha1 F cap

theorem chunk_ne (F : Bytes) (n cs : Nat) (h0 : 0 < cs) (hn : n < (F.length + cs - 1) / cs) : (F.drop (n * cs)).take cs ≠ [] := by
  have h1 : (n + 1) * cs ≤ F.length + cs - 1 := (Nat.le_div_iff_mul_le h0).1 hn
  rw [Nat.add_mul, Nat.one_mul] at h1
  intro h
  have := congrArg List.length h
  simp only [List.length_take, List.length_drop, List.length_nil] at this
  omega

/-- What comes out of such a line: the loop has not ended, or it has given up, or it has assembled the chunk and found its hash right. -/
theorem Line.Carries.out {ln : Line} (hc : ln.Carries sha1 F) {q : List (Option Bytes)} {l : Link} (ht : LTake sha1 ln.content ln.start q l) :
    (∃ x c, recvLoop sha1 .fresh q = .ok (x, .waiting c)) ∨ (∃ x, recvLoop sha1 .fresh q = .ok (x, .closed)) ∨
      ∃ x, recvLoop sha1 .fresh q = .ok (x, .finished ((F.drop (ln.chunk.toNat * net_cs)).take net_cs) true) := by
  obtain ⟨cap, hn, start, ch, cr, rd, h1, h2, h3⟩ := hc
  have hne : slice ln.content start net_cs ≠ [] := by rw [h2]; exact chunk_ne F _ _ (by decide) hn
  obtain ⟨k, hk⟩ := ht.run
  obtain ⟨g1, -, g3⟩ := C42_delivers (cap := cap) ch cr h1 (by decide) hne k l ⟨rd, ln.first, ln.conn, (by intro hx; cases hx), h3, hk⟩
  have hl := ht.loop rfl
  rcases hr : l.recv with c | ⟨b, ok⟩ | _ | _
  · rw [hr] at hl
    obtain ⟨acks, hl⟩ := hl
    have := hl []
    rw [List.append_nil] at this
    exact .inl ⟨acks ++ [], c, this⟩
  · rw [hr] at hl
    obtain ⟨acks, hl⟩ := hl
    obtain ⟨rfl, rfl⟩ := g3 b ok hr
    rw [h2] at hl
    exact .inr (.inr ⟨acks, hl⟩)
  · rw [hr] at hl
    obtain ⟨acks, hl⟩ := hl
    exact .inr (.inl ⟨acks, hl⟩)
  · exact absurd hr g1

end

/-! ### One host -/

section
variable {env : Env} {d dl : Path} {c : Cat} {fs : FS} {h : Sha1Hash} {F : Bytes}

/-- The host knows nothing of `h`, or has (part of) `F` under it. -/
def HostRight (d : Path) (h : Sha1Hash) (F : Bytes) (c : Cat) (fs : FS) : Prop :=
  ∀ e, observe c fs h = .ok e → ¬ CatFile d e.filePath ∧ e.sizeInBytes = F.length ∧ ∃ old, old.length ≤ F.length ∧ Downloading F old net_cs (fs e.filePath) e

theorem HostRight.of_same {c' : Cat} {fs' : FS} (hr : HostRight d h F c fs) (h1 : observe c' fs' h = observe c fs h) (h2 : ∀ e, observe c fs h = .ok e → fs' e.filePath = fs e.filePath) :
    HostRight d h F c' fs' := by
  intro e he
  rw [h1] at he
  rw [h2 e he]
  exact hr e he

theorem HostRight.of_none (h1 : ∀ e, observe c fs h ≠ .ok e) : HostRight d h F c fs := fun e he => absurd he (h1 e)

/-- What a line of such a host carries. -/
theorem HostRight.slice (hr : HostRight d h F c fs) {e : Export} (he : observe c fs h = .ok e) {content : Bytes} (hf : fs e.filePath = some content) (n : Nat) (hs : e.saved n)
    (hn : n < (F.length + net_cs - 1) / net_cs) : (content.drop (n * net_cs)).take net_cs = (F.drop (n * net_cs)).take net_cs := by
  obtain ⟨-, -, old, ho, hd⟩ := hr e he
  obtain ⟨c', h1, h2⟩ := hd.right n hn hs
  rw [hf] at h1; cases h1
  apply List.ext_getElem?
  intro j
  rw [List.getElem?_take, List.getElem?_take, List.getElem?_drop, List.getElem?_drop]
  split
  · rename_i hj
    by_cases hF : n * net_cs + j < F.length
    · exact h2 _ (by omega) (by rw [Nat.add_mul]; omega) hF
    · have ht := hd.tail (n * net_cs + j) (by omega)
      rw [hf] at ht
      simp only [Option.getD_some] at ht
      rw [ht, List.getElem?_eq_none (by omega), List.getElem?_eq_none (by omega)]
  · rfl

theorem saved_lt (hh : Healthy env d) (hreach : Reach env d dl (.running c fs)) (e : Export) (ho : observe c fs h = .ok e) (n : Nat) (hn : n < 2 ^ 63) (hs : e.saved n) :
    (n : Int) < e.progress.sizeOf := by
  have hl := observe_loaded hh hreach h e ho
  rw [Export.saved_iff _ _ hn] at hs
  rcases Nat.lt_or_ge n e.progress.size.toNat with h1 | h1
  · show (n : Int) < e.progress.size
    omega
  · rw [hl.above n h1] at hs; cases hs

/-- A chunk of `F` arrives. -/
theorem HostRight.save (hh : Healthy env d) (hcl : CleanReach env d dl (.running c fs)) (hr : HostRight d h F c fs) (n : UInt16) (hn : n.toNat < (F.length + net_cs - 1) / net_cs) (s' : St)
    (hrun : saveChunk h n ((F.drop (n.toNat * net_cs)).take net_cs) ⟨c, fs, []⟩ = (.ok (), s')) : HostRight d h F s'.cat s'.fs := by
  rcases clean_known hh hcl h with ⟨e, he⟩ | he
  · obtain ⟨h1, h2, old, h3, h4⟩ := hr e he
    obtain ⟨e2, g1, g2, g3, -⟩ := C33_step hh hcl.reach F old net_cs h n [] e he h1 h4 hn s' hrun
    have hsafe : (Op.save h n ((F.drop (n.toNat * net_cs)).take net_cs)).Safe d c := by
      intro p hp
      rw [observe_path hh hcl.reach h e he] at hp
      cases hp; exact h1
    obtain ⟨e0, e', k1, k2, k3, -⟩ := saveChunk_effect hh hcl.reach h n _ [] hsafe s' hrun
    rw [he] at k1; cases k1
    rw [g1] at k2; cases k2
    intro e'' he''
    rw [g1] at he''; cases he''
    rw [g2]
    refine ⟨h1, ?_, old, h3, g3⟩
    rw [k3]; exact h2
  · exact absurd hrun (by
      intro hrun
      have := (C108_succeeds hh hcl (.save h n ((F.drop (n.toNat * net_cs)).take net_cs)) trivial).1 ⟨s', hrun⟩
      obtain ⟨e, hx⟩ := this
      rw [he] at hx; cases hx)

theorem pathOf_observe (hh : Healthy env d) (hcl : CleanReach env d dl (.running c fs)) {k : Sha1Hash} {p : Path} (hp : c.pathOf k = some p) :
    ∃ e, observe c fs k = .ok e ∧ e.filePath = p := by
  rcases clean_known hh hcl k with ⟨e, he⟩ | he
  · have := observe_path hh hcl.reach k e he
    rw [hp] at this
    cases this
    exact ⟨e, he, rfl⟩
  · obtain ⟨ind, rfl, -⟩ := (hcl.reach.inv hh.abs hh.utf8 : Inv env d dl c fs).split
    rw [observe_eq, obsRec_notFound] at he
    unfold Cat.pathOf at hp
    simp only [Option.bind_some, he] at hp
    cases hp

/-- A chunk of another file, with another path. -/
theorem HostRight.save_other (hh : Healthy env d) (hcl : CleanReach env d dl (.running c fs)) (hr : HostRight d h F c fs) (k : Sha1Hash) (hk : k ≠ h) (n : UInt16) (data : Bytes)
    (hsafe : (Op.save k n data).Safe d c) (hp : ∀ e ek, observe c fs h = .ok e → observe c fs k = .ok ek → ek.filePath ≠ e.filePath) (s' : St)
    (hrun : saveChunk k n data ⟨c, fs, []⟩ = (.ok (), s')) : HostRight d h F s'.cat s'.fs := by
  refine hr.of_same ((C32_save hh hcl.reach k n data [] hsafe _ s' hrun).others h (fun hx => hk hx.symm)).2 ?_
  intro e he
  refine C75_call hh hcl.reach (.save k n data) e.filePath (hr e he).1 ?_ [] _ s' hrun
  rintro k' n' data' hx hpk
  cases hx
  obtain ⟨ek, g1, g2⟩ := pathOf_observe hh hcl hpk
  exact hp e ek he g1 g2

/-- A call of the catalogue that is not made by a download. -/
theorem HostRight.call (hh : Healthy env d) (hcl : CleanReach env d dl (.running c fs)) (hr : HostRight d h F c fs) (hbig : F.length < 2 ^ 63) (o : Op) (ho : o.plain = true)
    (hshare : ∀ path X, o = .share path → fs (absPath env.cwd path) = some X → env.sha1 X = h → X = F ∧ ¬ CatFile d (absPath env.cwd path))
    (r : Res Unit) (s' : St) (hrun : o.run env ⟨c, fs, []⟩ = (r, s')) (hret : r.returns = true) : HostRight d h F s'.cat s'.fs := by
  rcases Res.returns_cases hret with rfl | ⟨x, rfl⟩
  rotate_left
  · obtain ⟨h1, h2⟩ := C81_partial hh hcl.reach o [] (.inr rfl) x s' hrun
    exact hr.of_same (h2 h) (fun e _ => by rw [h1])
  by_cases hro : o.readOnly = true
  · obtain ⟨ind, rfl, hw⟩ := (hcl.reach.inv hh.abs hh.utf8 : Inv env d dl c fs).split
    obtain ⟨h1, h2⟩ := RO.same ((ro_op env hw.ownGet o hro ⟨_, fs, []⟩ (RO.init d dl ind fs)).1 _ s' hrun)
    exact hr.of_same (h2 h) (fun e _ => by rw [h1])
  cases o with
  | share path =>
    obtain ⟨rec, hs⟩ := void_ok.1 hrun
    obtain ⟨X, h1, h2, h3, h4, h5⟩ := C26_share hh hcl.reach path [] rec s' hs
    by_cases hx : env.sha1 X = h
    · obtain ⟨rfl, h6⟩ := hshare path X rfl h1 hx
      obtain ⟨b, g1, g2, g3, g4⟩ := h3 hbig
      rw [hx] at g1 h5
      intro e he
      rw [g1] at he; cases he
      refine ⟨h6, rfl, X, Nat.le_refl _, by decide, rfl, ?_, ?_, ?_⟩
      · simp only [g2]
        have : X.length + net_cs - 1 = X.length + 4194303 := by simp only [net_cs]; omega
        rw [this]
      · intro i hi hsv
        refine ⟨X, ?_, fun j _ _ _ => rfl⟩
        show s'.fs (absPath env.cwd path) = some X
        rw [h5 _ (fun e => h6 (.inl e)) (fun e => h6 (.inr ⟨_, e⟩))]; exact h1
      · intro j _
        show (Option.getD (s'.fs (absPath env.cwd path)) [])[j]? = X[j]?
        rw [h5 _ (fun e => h6 (.inl e)) (fun e => h6 (.inr ⟨_, e⟩)), h1]; rfl
    · refine hr.of_same (h4 h (fun e => hx e.symm)) (fun e he => ?_)
      exact h5 _ (fun e' => (hr e he).1 (.inl e')) (fun e' => (hr e he).1 (.inr ⟨_, e'⟩))
  | unshare k =>
    obtain ⟨-, h2, -, h4, h5⟩ := C28_unshare hh hcl.reach k [] s' hrun
    by_cases hx : h = k
    · subst hx
      exact HostRight.of_none (fun e he => by rw [h2] at he; cases he)
    · refine hr.of_same (h4 h hx) (fun e he => ?_)
      exact h5 _ (fun e' => (hr e he).1 (.inl e')) (fun e' => (hr e he).1 (.inr ⟨_, e'⟩))
  | register => cases ho
  | save => cases ho
  | list => exact absurd rfl hro
  | rehash => exact absurd rfl hro
  | contains => exact absurd rfl hro
  | get => exact absurd rfl hro
  | complete => exact absurd rfl hro
  | missing => exact absurd rfl hro
  | reader => exact absurd rfl hro

theorem register_others (hh : Healthy env d) (hreach : Reach env d dl (.running c fs)) (size : UInt64) (cs : UInt32) (k : Sha1Hash) (name : GoString) (e : Export) (s' : St)
    (hrun : registerDownload env size cs k name ⟨c, fs, []⟩ = (.ok e, s')) : (∀ h, h ≠ k → observe s'.cat s'.fs h = observe c fs h) ∧ ∀ q, ¬ CatFile d q → s'.fs q = fs q := by
  have hI : Inv env d dl c fs := hreach.inv hh.abs hh.utf8
  obtain ⟨ind, rfl, hw⟩ := hI.split
  obtain ⟨p, m1, fs1, h1, h2, h3, h4, h5, -, h6, -⟩ := registerDownload_ok env size cs k name d dl ind fs [] e s' hrun
  obtain ⟨hpp, -⟩ := newProgressFile_ok _ (asInt64_lt _) (by show (0 : Int) ≤ (cs.toNat : Int); omega) p h2
  replace hpp : p.filePath = progressPath d k := hpp
  have hfs' : ∀ q, q ≠ indexPath d → q ≠ progressPath d k → s'.fs q = fs q := by
    intro q hq1 hq2
    rw [h6 rfl, hpp, FS.put_other _ _ _ _ hq2, h4, hw.dir, FS.put_other _ _ _ _ hq1]
  refine ⟨?_, fun q hq => hfs' q (fun e => hq (.inl e)) (fun e => hq (.inr ⟨_, e⟩))⟩
  intro h' hne
  rw [h5, observe_eq, observe_eq]
  simp only
  rw [obsRec_congr d s'.fs _ ind.index h' (by rw [mapGet_put, if_neg (Ne.symm hne), h3, mapGet_put, if_neg (Ne.symm hne)])]
  apply obsRec_fs d fs s'.fs ind.index h' hw.own
  exact hfs' _ (fun e => indexPath_ne_progressPath d d hh.abs hh.abs h' e.symm) (fun e => hne (progressPath_inj d hh.abs _ _ e))

/-- What `StartDownload` does to the catalogue. -/
theorem startDownload_shape (hh : Healthy env d) (hcl : CleanReach env d dl (.running c fs)) (w : DLWire) (k : Sha1Hash) (r : Res (ByteArr 4)) (s' : St)
    (hrun : startDownload env w k ⟨c, fs, []⟩ = (r, s')) (hret : r.returns = true) :
    CleanReach env d dl (.running s'.cat s'.fs) ∧ ∀ g, g ≠ k → observe s'.cat s'.fs g = observe c fs g ∧ ∀ q, ¬ CatFile d q → s'.fs q = fs q := by
  obtain ⟨known, c1, h1, h2, h3, h4⟩ := startDownload_eq hh hcl w k
  rw [h1] at hrun
  unfold startSetup at hrun
  have base : CleanReach env d dl (.running c1 fs) ∧ ∀ g, g ≠ k → observe c1 fs g = observe c fs g ∧ ∀ q, ¬ CatFile d q → fs q = fs q :=
    ⟨h2, fun g _ => ⟨h3 g, fun _ _ => rfl⟩⟩
  have hlift : ∀ {α β : Type} (x : Res α) (f : α → CM β) (s s' : St) (r : Res β), (IOM.lift x >>= f) s = (r, s') → r.returns = true →
      (∃ a, x = .ok a ∧ f a s = (r, s')) ∨ s' = s := by
    intro α β x f s s' r hb hr
    rw [IOM.bind_apply, IOM.lift_apply] at hb
    cases x with
    | ok a => exact .inl ⟨a, rfl, hb⟩
    | err e => cases hb; exact .inr rfl
    | panic => cases hb; exact .inr rfl
    | exit => cases hb; exact .inr rfl
    | crash => cases hb; exact .inr rfl
  rcases hlift _ _ _ _ _ hrun hret with ⟨own, k1, k2⟩ | rfl
  rotate_left
  · exact base
  rcases w with ⟨addrs, _ | rs, desc⟩
  · cases k2; cases hret
  simp only [] at k1 k2
  cases hg : goodHosts own rs with
  | nil => rw [hg] at k2; cases k2; exact base
  | cons peer rest =>
    rw [hg] at k2
    simp only [] at k2
    split at k2
    · cases k2; exact base
    rcases hlift _ _ _ _ _ k2 hret with ⟨f, m1, m2⟩ | rfl
    rotate_left
    · exact base
    have hfk := downloadMetaData_hash _ _ _ m1
    rw [IOM.bind_apply] at m2
    rcases hr : registerDownload env f.sizeInBytes f.chunkSize f.hash f.fileName ⟨c1, fs, []⟩ with ⟨y, s1⟩
    rw [hr] at m2
    have hv : (Op.register f.sizeInBytes f.chunkSize f.hash f.fileName).run env ⟨c1, fs, []⟩ = (y >>= fun _ => .ok (), s1) := by
      show CM.void _ _ = _
      unfold CM.void
      rw [IOM.bind_apply, hr]
      cases y <;> rfl
    cases y with
    | ok a =>
      cases m2
      obtain ⟨g1, g2⟩ := register_others hh h2.reach _ _ _ _ a s' hr
      rw [hfk] at g1
      exact ⟨h2.returns (.register f.sizeInBytes f.chunkSize f.hash f.fileName) trivial _ (.inl hv), fun g hg => ⟨(g1 g hg).trans (h3 g), g2⟩⟩
    | err e =>
      cases m2
      obtain ⟨g1, g2⟩ := C81_partial hh h2.reach _ [] (.inr rfl) e s' hv
      exact ⟨h2.returns (.register f.sizeInBytes f.chunkSize f.hash f.fileName) trivial _ (.inr ⟨e, hv⟩), fun g _ => ⟨(g2 g).trans (h3 g), fun q _ => by rw [g1]⟩⟩
    | panic => cases m2; cases hret
    | exit => cases m2; cases hret
    | crash => cases m2; cases hret

/-- The start of a download, of this file or another. -/
theorem HostRight.start (hh : Healthy env d) (hcl : CleanReach env d dl (.running c fs)) (hr : HostRight d h F c fs) (hbig : F.length < 2 ^ 63) (w : DLWire) (k : Sha1Hash)
    (hw : k = h → ∀ peer f, downloadMetaData h (w.description peer) = .ok f → f.sizeInBytes.toNat = F.length ∧ f.chunkSize.toNat = net_cs)
    (r : Res (ByteArr 4)) (s' : St) (hrun : startDownload env w k ⟨c, fs, []⟩ = (r, s')) (hret : r.returns = true)
    (hok : ∀ e, observe c fs h = .err .fileNotFound → observe s'.cat s'.fs h = .ok e → ¬ CatFile d e.filePath ∧ ((fs e.filePath).getD []).length ≤ F.length) :
    HostRight d h F s'.cat s'.fs := by
  by_cases hk : h = k
  rotate_left
  · obtain ⟨h1, h2⟩ := (startDownload_shape hh hcl w k r s' hrun hret).2 h hk
    exact hr.of_same h1 (fun e he => h2 _ (hr e he).1)
  subst hk
  cases r with
  | err x =>
    obtain ⟨h1, h2⟩ := C66_refused hh hcl w h x s' hrun
    exact hr.of_same (h2 h) (fun e _ => by rw [h1])
  | ok own =>
    obtain ⟨-, rs, peer, rest, -, -, -, h1⟩ := C66_starts hh hcl w h own s' hrun
    rcases h1 with ⟨-, h1, h2⟩ | ⟨h1, f, h2, h3⟩
    · exact hr.of_same (h2 h) (fun e _ => by rw [h1])
    obtain ⟨g1, g2⟩ := hw rfl peer f h2
    rw [g1, g2] at h3
    obtain ⟨b, k1, k2, k3, -, k5⟩ := h3 hbig (by decide)
    intro e he
    obtain ⟨m1, m2⟩ := hok e h1 he
    rw [k1] at he; cases he
    refine ⟨m1, rfl, (fs (joinPath [dl, f.fileName])).getD [], m2, by decide, rfl, k2, ?_, ?_⟩
    · intro i hi hs
      have hfalse : b.get (BitVec.ofNat 64 i) = .ok true := hs
      rw [k3 i (by simp only [net_cs] at hi; omega)] at hfalse
      cases hfalse
    · intro j _
      rw [k5 _ m1]
  | panic => cases hret
  | exit => cases hret
  | crash => cases hret

theorem void_snd {α : Type} (x : CM α) (s : St) : (CM.void x s).2 = (x s).2 := by
  unfold CM.void
  rw [IOM.bind_apply]
  rcases x s with ⟨r, t⟩
  cases r <;> rfl

theorem op_dry (o : LCall) (s : St) (hs : s.faults = []) : (o.op.run env s).2.faults = [] := by
  rw [(alone_run (env := env) o s).2.1]
  exact alone_dry o s hs

theorem contains_dry (env : Env) (k : Sha1Hash) (s : St) (hs : s.faults = []) : (contains k s).2.faults = [] := by
  have h := op_dry (env := env) (.get k) s hs
  have e : ((Op.get k).run env s).2 = (contains k s).2 := by
    show (CM.void (catGet k) s).2 = _
    rw [void_snd]
    unfold catGet IOM.orPanic
    rcases contains k s with ⟨r, t⟩
    cases r <;> rfl
  rw [← e]
  exact h

/-- Answering datagrams keeps a catalogue clean. -/
theorem serve_clean (hh : Healthy env d) (hcl : CleanReach env d dl (.running c fs)) (port : Nat) (w : Wire) (dg : Bytes) (ret : Addr) (ups : UpKey → Option Up) (r : Res Done) (s' : Srv)
    (hrun : serveDatagram env port w dg ret ⟨⟨c, fs, []⟩, ups⟩ = (r, s')) (hret : r.returns = true) :
    CleanReach env d dl (.running s'.st.cat s'.st.fs) ∧ s'.st.fs = fs ∧ ∀ k, observe s'.st.cat s'.st.fs k = observe c fs k := by
  have pick : ∀ {b : Prop}, (false = true ∨ b) → b := fun h => h.resolve_left (fun e => by cases e)
  have kept : ∀ {α : Type} {x : CM α} {o : Op} (ho : o.run env = CM.void x) (hs : ∀ c, o.Safe d c) (hdry : ∀ s : St, s.faults = [] → (x s).2.faults = []) (s : St),
      (CleanReach env d dl (.running s.cat s.fs) ∧ s.faults = []) → (x s).1.returns = true →
      CleanReach env d dl (.running (x s).2.cat (x s).2.fs) ∧ (x s).2.faults = [] := by
    intro α x o ho hs hdry s h hr
    refine ⟨?_, hdry s h.2⟩
    have hst : s = ⟨s.cat, s.fs, []⟩ := by rw [← h.2]
    refine CleanReach.call o s.cat s.fs ((x s).1 >>= fun _ => .ok ()) (x s).2 h.1 (hs _) ?_ ?_
    · rw [ho, ← hst]
      unfold CM.void
      rw [IOM.bind_apply]
      rcases x s with ⟨r, t⟩
      cases r <;> rfl
    · revert hr
      rcases x s with ⟨r, t⟩
      cases r <;> intro hr <;> first | rfl | cases hr
  have h := SKeeps.serve (all := false) (R := fun s => CleanReach env d dl (.running s.st.cat s.st.fs) ∧ s.st.faults = []) env port w dg ret (fun _ _ _ _ h => h)
    (fun h s hs hl => kept (o := .contains h) rfl (fun _ => trivial) (contains_dry env h) s.st hs (pick hl))
    (fun o s hs hl => kept (o := .list o) rfl (fun _ => trivial) (fun s hs => void_snd (listFiles o) s ▸ op_dry (env := env) (.list o) s hs) s.st hs (pick hl))
    (fun h n ch s hs hl => kept (o := .reader h n ch) rfl (fun _ => trivial) (fun s hs => void_snd (getChunkReader env h n ch) s ▸ op_dry (env := env) (.reader h n ch) s hs) s.st hs (pick hl))
    ⟨⟨c, fs, []⟩, ups⟩ ⟨hcl, rfl⟩
  rw [hrun] at h
  refine ⟨(h (.inr hret)).1, ?_⟩
  obtain ⟨h1, h2, -⟩ := C88_nothing_changes hh hcl.reach port [(w, dg, ret)] [] ups
  simp only [served, hrun] at h1 h2
  exact ⟨h1, fun k => by rw [h1]; exact h2 k⟩

/-- A host that answers a request for the description of `k` knows `k`. -/
theorem describe_known (hh : Healthy env d) (hcl : CleanReach env d dl (.running c fs)) (port : Nat) (w : Wire) (id : UInt16) (k : Sha1Hash) (hb : k.isBlank = false) (pad : Bytes) (ret : Addr)
    (ups : UpKey → Option Up) (ip : Bytes) (to : Nat) (reply : Bytes) (s' : Srv)
    (hrun : serveDatagram env port w ((Msg.listReq id k).serialize ++ pad) ret ⟨⟨c, fs, []⟩, ups⟩ = (.ok (.sent ip to reply), s')) :
    w.sends = true ∧ ∃ e, observe c fs k = .ok e := by
  have hp := parse_buffer (.listReq id k) trivial (by have := k.2; simp [Msg.serialize, put16, this]) pad
  unfold serveDatagram handleMessage at hrun
  rw [IOM.bind_apply, IOM.lift_apply, hp] at hrun
  simp only [] at hrun
  unfold respondToListFiles at hrun
  rw [if_neg (by simp [hb])] at hrun
  obtain ⟨f, s1, h4, h1⟩ := (IOM.bind_ok_iff _ _ _ _ _).1 hrun
  obtain ⟨files, s2, -, h2⟩ := (IOM.bind_ok_iff _ _ _ _ _).1 h1
  obtain ⟨_, s3, h3, -⟩ := (IOM.bind_ok_iff _ _ _ _ _).1 h2
  constructor
  · rw [IOM.lift_apply] at h3
    injection h3 with h3 _
    unfold udpSend at h3
    split at h3
    · rename_i hx; exact hx.1
    · cases h3
  · rcases clean_known hh hcl k with he | he
    · exact he
    · exfalso
      have hc : (contains k ⟨c, fs, []⟩).1 = .err .fileNotFound := he
      unfold IOM.orExit at h4
      rw [SM.cat_apply] at h4
      simp only [hc] at h4
      cases h4

theorem HostRight.describe (hh : Healthy env d) (hcl : CleanReach env d dl (.running c fs)) (hr : HostRight d h F c fs) (hbig : F.length < 2 ^ 63) (port : Nat) (w : Wire) (id : UInt16)
    (hb : h.isBlank = false) (pad : Bytes) (ret : Addr) (ups : UpKey → Option Up) (ip : Bytes) (to : Nat) (reply : Bytes) (s' : Srv)
    (hrun : serveDatagram env port w ((Msg.listReq id h).serialize ++ pad) ret ⟨⟨c, fs, []⟩, ups⟩ = (.ok (.sent ip to reply), s')) (f : ListFilesEntry)
    (hf : downloadMetaData h (.datagram reply) = .ok f) : f.sizeInBytes.toNat = F.length ∧ f.chunkSize.toNat = net_cs := by
  obtain ⟨hs, e, he⟩ := describe_known hh hcl port w id h hb pad ret ups ip to reply s' hrun
  obtain ⟨x, reply', s2, h1, h2, -, -, h3, -⟩ := C53_metadata hh hcl.reach port w hs id h hb e he pad ret ups
  rw [hrun] at h2
  injection h2 with h2 _
  injection h2 with h2
  injection h2 with _ _ h2
  subst h2
  rw [hf] at h3
  cases h3
  obtain ⟨-, g1, old, -, g2⟩ := hr e he
  have a1 := h1.size (by omega) (by omega)
  have a2 := h1.chunkSize
  have a3 := g2.chunkSize
  constructor <;> omega

/-- The upload that such a host opens carries the chunk of `F`. -/
theorem HostRight.upload (hh : Healthy env d) (hcl : CleanReach env d dl (.running c fs)) (hr : HostRight d h F c fs) (port : Nat) (w : Wire) (n cap : UInt16) (pad : Bytes) (ret : Addr)
    (ups : UpKey → Option Up) (key : UpKey) (p : Packet) (up : Up) (s' : Srv) (hnew : ups key = none)
    (hrun : serveDatagram env port w ((Msg.openReq h n cap).serialize ++ pad) ret ⟨⟨c, fs, []⟩, ups⟩ = (.ok (.first key p), s')) (hup : s'.uploads key = some up) :
    Line.CarriesIn env.sha1 F cap ⟨h, n, up.content, up.conn, p⟩ := by
  have hp := parse_buffer (.openReq h n cap) trivial (by have := h.2; simp [Msg.serialize, put16, this]) pad
  obtain ⟨e, content, cs, h1, h2, h3, h4, -, -, -, -, ⟨cr, conn, h5, h6, rd, p', s0, tr, -, h7, h8, h9⟩, -⟩ := C48_new_partial hh hcl.reach port w _ h n cap ret [] ups key p s' hp hrun hnew
  rw [hup] at h6
  cases h6
  obtain ⟨-, -, old, -, g2⟩ := hr e h1
  have a3 := g2.chunkSize
  have hcs : cs = net_cs := by omega
  subst hcs
  have hn16 := n.toNat_lt
  have hlt := saved_lt hh hcl.reach e h1 n.toNat (by omega) h2
  have hcount := g2.count
  have hn : n.toNat < (F.length + net_cs - 1) / net_cs := by omega
  cases h9
  refine ⟨hn, n.toNat * net_cs, w.reads, cr, rd, h5, ?_, ?_⟩
  · exact hr.slice h1 h3 n.toNat h2 hn
  · have : conn = s0 := by
      generalize htr : ([] : List Ev) = tr at h8
      cases h8 with
      | refl => rfl
      | step _ _ => exact absurd htr (by simp)
    rw [this]
    exact h7

/-- What `downloadChunk` does when it returns: nothing, or it saves what the loop assembled. -/
theorem downloadChunk_shape (k : Sha1Hash) (n : UInt16) (q : List (Option Bytes)) (s : St) (out : DLOut) (s' : St) (hrun : downloadChunk env k n q s = (.ok out, s')) :
    (s' = s ∧ (out = .waiting ∨ out = .gaveUp)) ∨ ∃ x b ok, recvLoop env.sha1 .fresh q = .ok (x, .finished b ok) ∧ saveChunk k n b s = (.ok (), s') ∧ out = .saved ok := by
  rw [downloadChunk_eq] at hrun
  rcases hr : recvLoop env.sha1 .fresh q with ⟨x, o⟩ | e | _ | _ | _
  · rw [hr] at hrun
    rcases o with c | _ | ⟨b, ok⟩
    · cases hrun; exact .inl ⟨rfl, .inl rfl⟩
    · cases hrun; exact .inl ⟨rfl, .inr rfl⟩
    · obtain ⟨_, s2, k1, k2⟩ := (IOM.bind_ok_iff _ _ _ _ _).1 hrun
      rw [IOM.pure_apply] at k2
      cases k2
      unfold IOM.orPanic at k1
      rcases hs : saveChunk k n b s with ⟨r, s2⟩
      rw [hs] at k1
      cases r <;> cases k1
      exact .inr ⟨x, b, ok, rfl, hs, rfl⟩
  all_goals (rw [hr] at hrun; cases hrun)

/-- Restarting the daemon, when JSON preserves the path of the file. -/
theorem HostRight.restart (hh : Healthy env d) (hcl : CleanReach env d dl (.running c fs)) (hr : HostRight d h F c fs) (hfix : ∀ e, observe c fs h = .ok e → env.json.fix e.filePath = e.filePath)
    (pid now : Int) (s' : St) (hrun : Cat.init { env with pid := pid, now := now } ⟨⟨d, dl, none⟩, fs, []⟩ = (.ok (), s')) :
    CleanReach env d dl (.running s'.cat s'.fs) ∧ HostRight d h F s'.cat s'.fs := by
  refine ⟨CleanReach.start pid now fs s' (CleanReach.kill _ _ hcl) hrun, ?_⟩
  obtain ⟨c', h1, -, h2, h3, h4⟩ := C30_restart hh hcl pid now
  rw [hrun] at h1
  injection h1 with _ h1
  subst h1
  rcases h4 h with ⟨e, he⟩ | he
  · have g := h2 h e he
    refine hr.of_same ?_ (fun _ _ => rfl)
    rw [g, he]
    unfold Export.refix
    rw [hfix e he]
  · exact HostRight.of_none (fun e hx => by rw [h3 h he] at hx; cases hx)

end

/-! ### The network -/

section
variable {place : Nat → Place} {sha1 : Bytes → Sha1Hash} {h : Sha1Hash} {F : Bytes}

/-- What is asked of a step of the network, for the sake of the file `F` with hash `h`: whoever shares a file with that hash shares `F` (and not from among the catalogue's own files); no other
program changes a file that its host has under `h`; a daemon is restarted only if JSON preserves the path of its file; a download of it does not begin at a path that is the catalogue's or
at which there is a longer file; and no other file is downloaded to its path. -/
def Spec.Careful (place : Nat → Place) (h : Sha1Hash) (F : Bytes) : NEv → Net → Net → Prop
  | .call i (.share path), s, _ => ∀ X, s.fs i (absPath (place i).env.cwd path) = some X → (place i).env.sha1 X = h → X = F ∧ ¬ CatFile (place i).d (absPath (place i).env.cwd path)
  | .user i p, s, _ => ∀ e, observe (s.cat i) (s.fs i) h = .ok e → e.filePath ≠ p
  | .restart i, s, _ => ∀ e, observe (s.cat i) (s.fs i) h = .ok e → (place i).env.json.fix e.filePath = e.filePath
  | .start i _, s, s' => ∀ e, observe (s.cat i) (s.fs i) h = .err .fileNotFound → observe (s'.cat i) (s'.fs i) h = .ok e →
      ¬ CatFile (place i).d e.filePath ∧ ((s.fs i e.filePath).getD []).length ≤ F.length
  | .fetch i k _, s, _ => k ≠ h → ∀ e ek, observe (s.cat i) (s.fs i) h = .ok e → observe (s.cat i) (s.fs i) k = .ok ek → ek.filePath ≠ e.filePath
  | _, _, _ => True

/-- Where it begins: daemons that have been used without disk faults, none of which knows `h`; nobody has been told of it or is uploading it. -/
structure Spec.Before (place : Nat → Place) (h : Sha1Hash) (s : Net) : Prop where
  clean : ∀ i, CleanReach (place i).env (place i).d (place i).dl (.running (s.cat i) (s.fs i))
  unknown : ∀ i, observe (s.cat i) (s.fs i) h = .err .fileNotFound
  told : ∀ raw, (h, raw) ∉ s.told
  lines : ∀ ln ∈ s.lines, ln.hash ≠ h

structure NetRight (place : Nat → Place) (sha1 : Bytes → Sha1Hash) (h : Sha1Hash) (F : Bytes) (s : Net) : Prop where
  clean : ∀ i, CleanReach (place i).env (place i).d (place i).dl (.running (s.cat i) (s.fs i))
  hosts : ∀ i, HostRight (place i).d h F (s.cat i) (s.fs i)
  told : ∀ raw, (h, raw) ∈ s.told → ∀ f, downloadMetaData h (.datagram raw) = .ok f → f.sizeInBytes.toNat = F.length ∧ f.chunkSize.toNat = net_cs
  lines : ∀ ln ∈ s.lines, ln.hash = h → ln.Carries sha1 F

theorem NetRight.put {s : Net} (hI : NetRight place sha1 h F s) (i : Nat) (st : St) (h1 : CleanReach (place i).env (place i).d (place i).dl (.running st.cat st.fs))
    (h2 : HostRight (place i).d h F st.cat st.fs) : NetRight place sha1 h F (s.put i st) := by
  refine ⟨fun j => ?_, fun j => ?_, hI.told, hI.lines⟩
  · show CleanReach _ _ _ (.running (if j = i then st.cat else s.cat j) (if j = i then st.fs else s.fs j))
    split
    · rename_i e; subst e; exact h1
    · exact hI.clean j
  · show HostRight _ _ _ (if j = i then st.cat else s.cat j) (if j = i then st.fs else s.fs j)
    split
    · rename_i e; subst e; exact h2
    · exact hI.hosts j

theorem Net.put_self (s : Net) (i : Nat) (st : St) : (s.put i st).cat i = st.cat ∧ (s.put i st).fs i = st.fs := by
  simp [Net.put]

theorem NetRight.step (hh : ∀ i, Healthy (place i).env (place i).d) (hsha : ∀ i, (place i).env.sha1 = sha1) (hb : h.isBlank = false) (hbig : F.length < 2 ^ 63) {a : NEv} {s s' : Net}
    (hI : NetRight place sha1 h F s) (hst : NStep place a s s') (hok : Careful place h F a s s') : NetRight place sha1 h F s' := by
  cases hst with
  | call i o s r s1 ho hrun hret =>
    refine hI.put i s1 (CleanReach.call o _ _ r s1 (hI.clean i) ?_ hrun hret) ?_
    · cases o <;> first | trivial | cases ho
    · refine (hI.hosts i).call (hh i) (hI.clean i) hbig o ho ?_ r s1 hrun hret
      rintro path X rfl hX hx
      exact hok X hX hx
  | user i p s content hp =>
    refine hI.put i _ (CleanReach.userRunning _ _ p content hp (hI.clean i)) ?_
    refine (hI.hosts i).of_same (observe_user (hh i) (hI.clean i).reach p content hp h) ?_
    intro e he
    exact FS.put_other _ _ _ _ (hok e he)
  | restart i s pid now s1 hrun =>
    obtain ⟨h1, h2⟩ := (hI.hosts i).restart (hh i) (hI.clean i) hok pid now s1 hrun
    exact hI.put i s1 h1 h2
  | describe i k s port w id pad ret ups ip to reply s1 hrun =>
    obtain ⟨h1, h2, h3⟩ := serve_clean (hh i) (hI.clean i) port w _ ret ups _ s1 hrun rfl
    have hp := hI.put i s1.st h1 ((hI.hosts i).of_same (h3 h) (fun e _ => by rw [h2]))
    refine ⟨hp.clean, hp.hosts, ?_, hp.lines⟩
    intro raw hraw f hf
    rcases List.mem_cons.1 hraw with hx | hx
    · cases hx
      exact (hI.hosts i).describe (hh i) (hI.clean i) hbig port w id hb pad ret ups ip to reply s1 hrun f hf
    · exact hI.told raw hx f hf
  | upload i k n cap s port w pad ret ups key p up s1 hnew hrun hup =>
    obtain ⟨h1, h2, h3⟩ := serve_clean (hh i) (hI.clean i) port w _ ret ups _ s1 hrun rfl
    have hp := hI.put i s1.st h1 ((hI.hosts i).of_same (h3 h) (fun e _ => by rw [h2]))
    refine ⟨hp.clean, hp.hosts, hp.told, ?_⟩
    intro ln hln hx
    rcases List.mem_cons.1 hln with rfl | hln
    · have hx : k = h := hx
      subst hx
      rw [← hsha i]
      exact ⟨cap, (hI.hosts i).upload (hh i) (hI.clean i) port w n cap pad ret ups key p up s1 hnew hrun hup⟩
    · exact hI.lines ln hln hx
  | start i k s w r s1 hw hrun hret =>
    refine hI.put i s1 (startDownload_shape (hh i) (hI.clean i) w k r s1 hrun hret).1 ?_
    refine (hI.hosts i).start (hh i) (hI.clean i) hbig w k ?_ r s1 hrun hret ?_
    · rintro rfl peer f hf
      rcases hd : w.description peer with _ | _ | raw
      · rw [hd] at hf; cases hf
      · rw [hd] at hf; cases hf
      · rw [hd] at hf
        exact hI.told raw (hw peer raw hd) f hf
    · intro e h1 h2
      refine hok e h1 ?_
      rw [(Net.put_self s i s1).1, (Net.put_self s i s1).2]
      exact h2
  | fetch i s ln q l out s1 hline htake hsafe hrun =>
    rcases downloadChunk_shape _ _ _ _ _ _ hrun with ⟨rfl, -⟩ | ⟨x, b, ok, h1, h2, rfl⟩
    · exact hI.put i _ (hI.clean i) (hI.hosts i)
    refine hI.put i s1 (CleanReach.call (.save ln.hash ln.chunk b) _ _ _ s1 (hI.clean i) (hsafe b) h2 rfl) ?_
    by_cases hk : ln.hash = h
    · have hc := hI.lines ln hline hk
      rw [hsha i] at htake h1
      have hb : b = (F.drop (ln.chunk.toNat * net_cs)).take net_cs := by
        rcases hc.out htake with ⟨_, _, g⟩ | ⟨_, g⟩ | ⟨_, g⟩ <;> rw [h1] at g <;> cases g
        rfl
      subst hb
      rw [hk] at h2
      exact (hI.hosts i).save (hh i) (hI.clean i) ln.chunk hc.choose_spec.1 s1 h2
    · exact (hI.hosts i).save_other (hh i) (hI.clean i) ln.hash hk ln.chunk b (hsafe b) (hok hk) s1 h2

theorem NetRight.run (hh : ∀ i, Healthy (place i).env (place i).d) (hsha : ∀ i, (place i).env.sha1 = sha1) (hb : h.isBlank = false) (hbig : F.length < 2 ^ 63) {s0 s : Net}
    (h0 : Before place h s0) (hrun : NRun place (Careful place h F) s0 s) : NetRight place sha1 h F s := by
  induction hrun with
  | refl =>
    refine ⟨h0.clean, fun i => HostRight.of_none (fun e he => by rw [h0.unknown i] at he; cases he), fun raw hr => absurd hr (h0.told raw), fun ln hl hx => absurd hx (h0.lines ln hl)⟩
  | step a _ hst hok ih => exact ih.step hh hsha hb hbig hst hok

/-- **C112**: in a network of hosts that run this program, whatever they do and in whichever order, everything that any host has under the hash `h` is `F`: the size is right, the saved chunks
are the chunks of `F` wherever they came from, and a host to which the file is complete has exactly `F`. -/
theorem C112_network (hh : ∀ i, Healthy (place i).env (place i).d) (hsha : ∀ i, (place i).env.sha1 = sha1) (hb : h.isBlank = false) (hF : F ≠ []) (hbig : F.length < 2 ^ 63) {s0 s : Net}
    (h0 : Before place h s0) (hrun : NRun place (Careful place h F) s0 s) (i : Nat) (e : Export) (he : observe (s.cat i) (s.fs i) h = .ok e) :
    e.sizeInBytes = F.length ∧ e.chunkSize = 4194304 ∧ e.progress.sizeOf = ((F.length + 4194303) / 4194304 : Nat) ∧
      (∀ n : Nat, n < 2 ^ 63 → e.saved n → ∃ content, s.fs i e.filePath = some content ∧ (content.drop (n * 4194304)).take 4194304 = (F.drop (n * 4194304)).take 4194304) ∧
      ((∀ n : Nat, (n : Int) < e.progress.sizeOf → e.saved n) → s.fs i e.filePath = some F) ∧
      (∀ fl s', fileComplete h ⟨s.cat i, s.fs i, fl⟩ = (.ok true, s') → s.fs i e.filePath = some F) := by
  have hI := NetRight.run hh hsha hb hbig h0 hrun
  obtain ⟨-, h2, old, h3, h4⟩ := hI.hosts i e he
  have hall : (∀ n : Nat, (n : Int) < e.progress.sizeOf → e.saved n) → s.fs i e.filePath = some F := fun ha => (C33_content F old net_cs _ e h4 hF ha).2 h3
  refine ⟨h2, h4.chunkSize, ?_, ?_, hall, ?_⟩
  · rw [h4.count]
    have : F.length + net_cs - 1 = F.length + 4194303 := by simp only [net_cs]; omega
    rw [this]
  · intro n hn hs
    have hlt := saved_lt (hh i) (hI.clean i).reach e he n hn hs
    have hc := h4.count
    have hn' : n < (F.length + net_cs - 1) / net_cs := by omega
    obtain ⟨content, g1, -⟩ := h4.right n hn' hs
    exact ⟨content, g1, (hI.hosts i).slice he g1 n hs hn'⟩
  · intro fl s' hc
    obtain ⟨e', k1, k2, -, -⟩ := C34_complete (hh i) (hI.clean i).reach h fl true s' hc
    rw [he] at k1; cases k1
    exact hall (k2.1 rfl)

/-- C112: no chunk that arrives kills the daemon that fetches it, and every chunk that arrives has the hash that its sender announced. -/
theorem C112_arrives (hh : ∀ i, Healthy (place i).env (place i).d) (hsha : ∀ i, (place i).env.sha1 = sha1) (hb : h.isBlank = false) (hbig : F.length < 2 ^ 63) {s0 s : Net}
    (h0 : Before place h s0) (hrun : NRun place (Careful place h F) s0 s) (i : Nat) (e : Export) (he : observe (s.cat i) (s.fs i) h = .ok e) (ln : Line) (hln : ln ∈ s.lines) (hk : ln.hash = h)
    (q : List (Option Bytes)) (l : Link) (ht : LTake sha1 ln.content ln.start q l) :
    ∃ out s', downloadChunk (place i).env h ln.chunk q (s.st i) = (.ok out, s') ∧ out ≠ .saved false ∧
      (out = .saved true → ∃ e', observe s'.cat s'.fs h = .ok e' ∧ e'.saved ln.chunk.toNat ∧ ∀ n, n < 2 ^ 63 → e.saved n → e'.saved n) := by
  have hI := NetRight.run hh hsha hb hbig h0 hrun
  have hc := hI.lines ln hln hk
  have heq := downloadChunk_eq (place i).env h ln.chunk q (s.st i)
  rw [hsha i] at heq
  rcases hc.out ht with ⟨x, c, g⟩ | ⟨x, g⟩ | ⟨x, g⟩ <;> rw [g] at heq
  · exact ⟨_, _, heq, by simp, by intro hx; cases hx⟩
  · exact ⟨_, _, heq, by simp, by intro hx; cases hx⟩
  · obtain ⟨s', hs⟩ := saveChunk_total (hh i) (hI.clean i).reach h ln.chunk ((F.drop (ln.chunk.toNat * net_cs)).take net_cs) e he
    refine ⟨.saved true, s', ?_, by simp, fun _ => ?_⟩
    · rw [heq]
      simp only []
      rw [IOM.bind_apply]
      unfold IOM.orPanic
      have hs' : saveChunk h ln.chunk ((F.drop (ln.chunk.toNat * net_cs)).take net_cs) (s.st i) = (.ok (), s') := hs
      rw [hs']
      rfl
    · have hsafe : (Op.save h ln.chunk ((F.drop (ln.chunk.toNat * net_cs)).take net_cs)).Safe (place i).d (s.cat i) := by
        intro p hp
        rw [observe_path (hh i) (hI.clean i).reach h e he] at hp
        cases hp; exact (hI.hosts i e he).1
      obtain ⟨e0, e', k1, k2, -, -, k5, -⟩ := saveChunk_effect (hh i) (hI.clean i).reach h ln.chunk _ [] hsafe s' hs
      rw [he] at k1; cases k1
      have hn16 := ln.chunk.toNat_lt
      exact ⟨e', k2, (k5 _ (by omega)).2 (.inr rfl), fun n hn hsv => (k5 n hn).2 (.inl hsv)⟩

end
end Flu
