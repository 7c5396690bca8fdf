import Verif.Props.GetAgain
import Verif.Props.StartDownload
import Verif.Props.Commands
/-!
# Asking several times at once for a file that is new (C134)
-/
namespace Flu
open Spec

/-- A call of `get` that has started its download. -/
def Spec.Begun : DLPos → Prop
  | .check | .setup _ | .refused => False
  | _ => True

/-- A call of `get` for the file that has looked into the catalogue and not found it there. -/
def Spec.Unaware (s : DLState) (h : Sha1Hash) (t : Nat) : Prop := ∃ th, s.threads t = some th ∧ th.hash = h ∧ th.pos = .setup false

section
variable {env : Env} {d dl : Path} {h : Sha1Hash}

/-- How the position of a call changes with one of its steps. -/
theorem DLStep.onward {t : Nat} {s s2 : DLState} {th : DLThread} (hst : DLStep env d (.thread t) s (.alive s2)) (ht : s.threads t = some th) :
    ∃ th2, s2.threads t = some th2 ∧ th2.hash = th.hash ∧ (th.pos = .check → ∃ b, th2.pos = .setup b) ∧ ((∃ b, th.pos = .setup b) → th2.pos = .refused ∨ Begun th2.pos) ∧ th.pos ≠ .refused ∧
      (Begun th.pos → Begun th2.pos) := by
  have up : ∀ {q : DLThread} {f : Nat → Option DLThread}, upd f t (some q) t = some q := by intro q f; unfold upd; rw [if_pos rfl]
  cases hst with
  | start _ h s ht' => rw [ht] at ht'; cases ht'
  | check _ s th' fl b s' ht' hp hrun => rw [ht] at ht'; cases ht'; refine ⟨_, up, rfl, fun _ => ⟨_, rfl⟩, ?_, ?_, ?_⟩ <;> simp [hp, Begun]
  | setup _ s th' fl w b own s' ht' hp hrun => rw [ht] at ht'; cases ht'; refine ⟨_, up, rfl, ?_, ?_, ?_, ?_⟩ <;> simp [hp, Begun]
  | refuse _ s th' fl w b e s' ht' hp hrun => rw [ht] at ht'; cases ht'; refine ⟨_, up, rfl, ?_, ?_, ?_, ?_⟩ <;> simp [hp, Begun]
  | test _ s th' fl own v s' ht' hp hrun =>
    rw [ht] at ht'; cases ht'
    refine ⟨_, up, rfl, ?_, ?_, ?_, ?_⟩ <;> simp [hp, Begun]
    cases v <;> simp
  | want _ s th' fl own r rest s' ht' hp hrun => rw [ht] at ht'; cases ht'; refine ⟨_, up, rfl, ?_, ?_, ?_, ?_⟩ <;> simp [hp, Begun]
  | search _ s th' own c rs ht' hp => rw [ht] at ht'; cases ht'; refine ⟨_, up, rfl, ?_, ?_, ?_, ?_⟩ <;> simp [hp, Begun]
  | again _ s th' own c ht' hp => rw [ht] at ht'; cases ht'; refine ⟨_, up, rfl, ?_, ?_, ?_, ?_⟩ <;> simp [hp, Begun]
  | skip _ s th' own c r todo ht' hp hl hk => rw [ht] at ht'; cases ht'; refine ⟨_, up, rfl, ?_, ?_, ?_, ?_⟩ <;> simp [hp, Begun]
  | dial _ s th' own c r todo ht' hp hl hk => rw [ht] at ht'; cases ht'; refine ⟨_, up, rfl, ?_, ?_, ?_, ?_⟩ <;> simp [hp, Begun]
  | fetched _ s th' fl own c r todo queue ok s' ht' hp hsafe hrun => rw [ht] at ht'; cases ht'; refine ⟨_, up, rfl, ?_, ?_, ?_, ?_⟩ <;> simp [hp, Begun]
  | gaveUp _ s th' fl own c r todo queue s' ht' hp hrun => rw [ht] at ht'; cases ht'; refine ⟨_, up, rfl, ?_, ?_, ?_, ?_⟩ <;> simp [hp, Begun]

/-- A file stays in the catalogue as long as nobody takes it out. -/
theorem DLStep.stays (hh : Healthy env d) {a : Actor} {s s2 : DLState} (hreach : Reach env d dl (.running s.cat s.fs)) (hst : DLStep env d a s (.alive s2)) (hok : ∀ o, a = .call o → ¬ o.Touches h)
    (hne : observe s.cat s.fs h ≠ .err .fileNotFound) : observe s2.cat s2.fs h ≠ .err .fileNotFound := by
  rcases hst.effect.1 with ⟨h1, h2⟩ | ⟨p, x, rfl, hp, h1, h2⟩ | ⟨o, fl, r, st', h1, h2, h3, h4, h5, h6⟩
  · rw [h1, h2]; exact hne
  · rw [h1, h2, observe_user hh hreach p x hp h]; exact hne
  · rw [h4, h5]
    have key : ¬ o.Touches h → observe st'.cat st'.fs h ≠ .err .fileNotFound := fun g1 => by
      rw [observe_other hh hreach h hne o h1 g1 fl r st' h2]; exact hne
    rcases h6 with rfl | ⟨t, th, rfl, ht, -, h6⟩
    · exact key (hok o rfl)
    · rcases h6 with h6 | ⟨n, b, rfl, rfl, own, host, todo, hpos⟩
      · exact key (h6 h)
      · by_cases hx : th.hash = h
        · rw [hx] at h1 h2
          obtain ⟨e0, e2, k1, k2, k3, k4, k5, -⟩ := saveChunk_effect hh hreach h n b fl h1 st' h2
          rw [k2]; intro hx; cases hx
        · exact key hx

/-- The setup of a download of a new file succeeds only if the catalogue does not have the file, and then it has it. -/
theorem startSetup_new (hh : Healthy env d) {c : Cat} {fs : FS} (hreach : Reach env d dl (.running c fs)) (fl : List Fault) (w : DLWire) (own : ByteArr 4) (s' : St)
    (hrun : startSetup env w h false ⟨c, fs, fl⟩ = (.ok own, s')) :
    observe c fs h = .err .fileNotFound ∧ observe s'.cat s'.fs h ≠ .err .fileNotFound := by
  unfold startSetup at hrun
  rcases IOM.lift_bind_inv _ _ _ _ _ hrun rfl with ⟨own', -, hrun⟩ | ⟨e, -, hx, -⟩
  rotate_left
  · cases hx
  rcases w with ⟨addrs, _ | rs, desc⟩
  · cases hrun
  simp only [] at hrun
  cases hg : goodHosts own' rs with
  | nil => rw [hg] at hrun; cases hrun
  | cons g gs =>
    rw [hg] at hrun
    simp only [Bool.false_eq_true, if_false] at hrun
    obtain ⟨f, s2, h2, hrun⟩ := (IOM.bind_ok_iff _ _ _ _ _).1 hrun
    obtain ⟨e, s3, h3, hrun⟩ := (IOM.bind_ok_iff _ _ _ _ _).1 hrun
    cases hrun
    have hf : downloadMetaData h (desc g) = .ok f ∧ s2 = ⟨c, fs, fl⟩ := by
      rw [IOM.lift_apply] at h2
      cases hq : downloadMetaData h (desc g) <;> rw [hq] at h2 <;> cases h2
      exact ⟨rfl, rfl⟩
    obtain ⟨hf, rfl⟩ := hf
    rw [downloadMetaData_hash _ _ _ hf] at h3
    refine ⟨?_, ?_⟩
    · apply Classical.byContradiction
      intro hn
      obtain ⟨p, hp, -⟩ := C27_register_again hh hreach f.sizeInBytes f.chunkSize h f.fileName fl hn
      rw [hp] at h3; cases h3
    · obtain ⟨ind, rfl, hw⟩ := (hreach.inv hh.abs hh.utf8).split
      obtain ⟨p, m1, fs1, -, -, -, -, hcat, -⟩ := registerDownload_ok env _ _ h _ d dl ind fs fl e _ h3
      rw [hcat, observe_eq]
      unfold obsRec
      rw [mapGet_put, if_pos rfl]
      simp only [viewProgress]
      intro hx; cases hx

/-- **C134**: of all the calls of `get` that did not find the file, at most one starts a download, whatever else happens. -/
theorem C134_one (hh : Healthy env d) {s0 s : DLState} (hreach : Reach env d dl (.running s0.cat s0.fs))
    (hrun : DLRun env d (fun a _ => ∀ o, a = .call o → ¬ o.Touches h) s0 (.alive s)) (t t' : Nat) (h1 : Unaware s0 h t) (h2 : Unaware s0 h t')
    (th th' : DLThread) (g1 : s.threads t = some th) (g2 : s.threads t' = some th') (b1 : Begun th.pos) (b2 : Begun th'.pos) : t = t' := by
  suffices key : ∀ x, DLRun env d (fun a _ => ∀ o, a = .call o → ¬ o.Touches h) s0 x → ∀ s, x = .alive s → Reach env d dl (.running s.cat s.fs) ∧
      (∀ t, Unaware s0 h t → ∃ th, s.threads t = some th ∧ th.hash = h ∧ (th.pos = .setup false ∨ th.pos = .refused ∨ Begun th.pos ∧ observe s.cat s.fs h ≠ .err .fileNotFound)) ∧
      ∀ t t', Unaware s0 h t → Unaware s0 h t' → ∀ th th', s.threads t = some th → s.threads t' = some th' → Begun th.pos → Begun th'.pos → t = t' from
    (key _ hrun s rfl).2.2 t t' h1 h2 th th' g1 g2 b1 b2
  clear h1 h2 g1 g2 b1 b2 hrun
  intro x hx
  induction hx with
  | refl =>
    intro s hs; cases hs
    refine ⟨hreach, fun t ⟨th, k1, k2, k3⟩ => ⟨th, k1, k2, .inl k3⟩, ?_⟩
    rintro t t' ⟨q, k1, k2, k3⟩ - th th' k4 - k5 -
    rw [k1] at k4; cases k4; rw [k3] at k5; exact k5.elim
  | @step s1 x a _ hst hok ih =>
    rintro s rfl
    obtain ⟨i1, i2, i3⟩ := ih s1 rfl
    have hstay := DLStep.stays hh i1 hst hok
    have hsame := hst.effect.2
    /- A call that starts in this step. -/
    have hnew : ∀ t, Unaware s0 h t → ∀ th th2, s1.threads t = some th → s.threads t = some th2 → ¬ Begun th.pos → Begun th2.pos →
        a = .thread t ∧ observe s1.cat s1.fs h = .err .fileNotFound ∧ observe s.cat s.fs h ≠ .err .fileNotFound := by
      intro t hu th th2 k1 k2 k3 k4
      by_cases ha : a = .thread t
      · subst ha
        refine ⟨rfl, ?_⟩
        obtain ⟨th', j1, j2, j3⟩ := i2 t hu
        rw [k1] at j1; cases j1
        have up : ∀ {q : DLThread} {f : Nat → Option DLThread}, upd f t (some q) t = some q := by intro q f; unfold upd; rw [if_pos rfl]
        rcases j3 with j3 | j3 | ⟨j3, -⟩
        · cases hst with
          | setup _ s th' fl w b own s' ht' hp hrun =>
            rw [k1] at ht'; cases ht'
            rw [j3] at hp; cases hp
            rw [j2] at hrun
            exact startSetup_new hh i1 fl w own s' hrun
          | refuse _ s th' fl w b e s' ht' hp hrun =>
            have : some th2 = some _ := k2.symm.trans up
            cases this; exact k4.elim
          | start _ h s ht' => rw [k1] at ht'; cases ht'
          | check _ s th' fl b s' ht' hp hrun => rw [k1] at ht'; cases ht'; rw [j3] at hp; cases hp
          | test _ s th' fl own v s' ht' hp hrun => rw [k1] at ht'; cases ht'; rw [j3] at hp; cases hp
          | want _ s th' fl own r rest s' ht' hp hrun => rw [k1] at ht'; cases ht'; rw [j3] at hp; cases hp
          | search _ s th' own c rs ht' hp => rw [k1] at ht'; cases ht'; rw [j3] at hp; cases hp
          | again _ s th' own c ht' hp => rw [k1] at ht'; cases ht'; rw [j3] at hp; cases hp
          | skip _ s th' own c r todo ht' hp hl hk => rw [k1] at ht'; cases ht'; rw [j3] at hp; cases hp
          | dial _ s th' own c r todo ht' hp hl hk => rw [k1] at ht'; cases ht'; rw [j3] at hp; cases hp
          | fetched _ s th' fl own c r todo queue ok s' ht' hp hsafe hrun => rw [k1] at ht'; cases ht'; rw [j3] at hp; cases hp
          | gaveUp _ s th' fl own c r todo queue s' ht' hp hrun => rw [k1] at ht'; cases ht'; rw [j3] at hp; cases hp
        · obtain ⟨_, -, -, -, -, hx, -⟩ := hst.onward k1; exact absurd j3 hx
        · exact absurd j3 k3
      · rw [hsame t ha, k1] at k2; cases k2; exact absurd k4 k3
    refine ⟨hst.reach i1, ?_, ?_⟩
    · intro t hu
      obtain ⟨th, j1, j2, j3⟩ := i2 t hu
      by_cases ha : a = .thread t
      · subst ha
        obtain ⟨th2, m1, m2, -, m3, m4, m5⟩ := hst.onward j1
        refine ⟨th2, m1, m2.trans j2, ?_⟩
        rcases j3 with j3 | j3 | ⟨j3, j4⟩
        · rcases m3 ⟨false, j3⟩ with m3 | m3
          · exact .inr (.inl m3)
          · exact .inr (.inr ⟨m3, (hnew t hu th th2 j1 m1 (by rw [j3]; exact id) m3).2.2⟩)
        · exact absurd j3 m4
        · exact .inr (.inr ⟨m5 j3, hstay j4⟩)
      · refine ⟨th, by rw [hsame t ha]; exact j1, j2, ?_⟩
        rcases j3 with j3 | j3 | ⟨j3, j4⟩
        · exact .inl j3
        · exact .inr (.inl j3)
        · exact .inr (.inr ⟨j3, hstay j4⟩)
    · intro t t' hu hu' th th' k1 k2 k3 k4
      obtain ⟨p, j1, -, j3⟩ := i2 t hu
      obtain ⟨p', j1', -, j3'⟩ := i2 t' hu'
      by_cases hb : Begun p.pos
      · by_cases hb' : Begun p'.pos
        · exact i3 t t' hu hu' p p' j1 j1' hb hb'
        · have := (hnew t' hu' p' th' j1' k2 hb' k4).2.1
          rcases j3 with j3 | j3 | ⟨-, j3⟩
          · rw [j3] at hb; exact hb.elim
          · rw [j3] at hb; exact hb.elim
          · exact absurd this j3
      · obtain ⟨ha, hn, -⟩ := hnew t hu p th j1 k1 hb k3
        by_cases hb' : Begun p'.pos
        · rcases j3' with j3 | j3 | ⟨-, j3⟩
          · rw [j3] at hb'; exact hb'.elim
          · rw [j3] at hb'; exact hb'.elim
          · exact absurd hn j3
        · have ha' := (hnew t' hu' p' th' j1' k2 hb' k4).1
          rw [ha] at ha'; cases ha'; rfl

/-- **C134**: once the catalogue has the file, because another call was faster or because it was shared meanwhile, a call that did not find it is refused and changes nothing. -/
theorem C134_refused (hh : Healthy env d) {s s2 : DLState} (hreach : Reach env d dl (.running s.cat s.fs)) (t : Nat) (hu : Unaware s h t) (hne : observe s.cat s.fs h ≠ .err .fileNotFound)
    (hst : DLStep env d (.thread t) s (.alive s2)) : s2.cat = s.cat ∧ s2.fs = s.fs ∧ s2.downloads = s.downloads ∧ ∃ th, s2.threads t = some th ∧ th.pos = .refused := by
  obtain ⟨th, k1, k2, k3⟩ := hu
  have up : ∀ {q : DLThread} {f : Nat → Option DLThread}, upd f t (some q) t = some q := by intro q f; unfold upd; rw [if_pos rfl]
  cases hst with
  | setup _ s th' fl w b own s' ht' hp hrun =>
    rw [k1] at ht'; cases ht'
    rw [k3] at hp; cases hp
    rw [k2] at hrun
    exact absurd (startSetup_new hh hreach fl w own s' hrun).1 hne
  | refuse _ s th' fl w b e s' ht' hp hrun =>
    rw [k1] at ht'; cases ht'
    rw [k3] at hp; cases hp
    rw [k2] at hrun
    have hs : s'.cat = s.cat ∧ s'.fs = s.fs := by
      rcases startSetup_effect w h false _ s' (.err e) hrun rfl with rfl | ⟨size, cs, name, r', g1, g2⟩
      · exact ⟨rfl, rfl⟩
      · obtain ⟨p, hp, -⟩ := C27_register_again hh hreach size cs h name fl hne
        have := CM.void_err _ _ _ _ hp
        have g3 : (r', s') = (.err (.alreadyShared p), ⟨s.cat, s.fs, fl⟩) := g1.symm.trans this
        cases g3; exact ⟨rfl, rfl⟩
    exact ⟨hs.1, hs.2, rfl, _, up, rfl⟩
  | start _ h s ht' => rw [k1] at ht'; cases ht'
  | check _ s th' fl b s' ht' hp hrun => rw [k1] at ht'; cases ht'; rw [k3] at hp; cases hp
  | test _ s th' fl own v s' ht' hp hrun => rw [k1] at ht'; cases ht'; rw [k3] at hp; cases hp
  | want _ s th' fl own r rest s' ht' hp hrun => rw [k1] at ht'; cases ht'; rw [k3] at hp; cases hp
  | search _ s th' own c rs ht' hp => rw [k1] at ht'; cases ht'; rw [k3] at hp; cases hp
  | again _ s th' own c ht' hp => rw [k1] at ht'; cases ht'; rw [k3] at hp; cases hp
  | skip _ s th' own c r todo ht' hp hl hk => rw [k1] at ht'; cases ht'; rw [k3] at hp; cases hp
  | dial _ s th' own c r todo ht' hp hl hk => rw [k1] at ht'; cases ht'; rw [k3] at hp; cases hp
  | fetched _ s th' fl own c r todo queue ok s' ht' hp hsafe hrun => rw [k1] at ht'; cases ht'; rw [k3] at hp; cases hp
  | gaveUp _ s th' fl own c r todo queue s' ht' hp hrun => rw [k1] at ht'; cases ht'; rw [k3] at hp; cases hp

/-- **C134**: a call that did not find the file starts its download if the file is not there yet and a host describes it. -/
theorem C134_first (hh : Healthy env d) {c : Cat} {fs : FS} (hreach : Reach env d dl (.running c fs)) (ho : observe c fs h = .err .fileNotFound) (w : DLWire) (own : ByteArr 4) (rs : List HostResp)
    (peer : HostResp) (rest : List HostResp) (hown : ownAddress w.addrs = .ok own) (hrs : w.responses = some rs) (hg : goodHosts own rs = peer :: rest) (f : ListFilesEntry)
    (hf : downloadMetaData h (w.description peer) = .ok f) (hsize : f.sizeInBytes.toNat < 2 ^ 63) (hcs : 0 < f.chunkSize.toNat) :
    ∃ s', startSetup env w h false ⟨c, fs, []⟩ = (.ok own, s') ∧ observe s'.cat s'.fs h ≠ .err .fileNotFound := by
  obtain ⟨e, s', k1⟩ := registerDownload_unknown hh hreach f.sizeInBytes f.chunkSize h f.fileName ho hsize hcs
  have hrun : startSetup env w h false ⟨c, fs, []⟩ = (.ok own, s') := by
    unfold startSetup
    rw [IOM.bind_apply, IOM.lift_apply, hown]
    rcases w with ⟨addrs, rs', desc⟩
    simp only [] at hrs hf hown ⊢
    subst hrs
    simp only [hg]
    rw [if_neg (by decide), IOM.bind_apply, IOM.lift_apply, hf]
    simp only []
    rw [IOM.bind_apply, downloadMetaData_hash _ _ _ hf, k1]
    rfl
  exact ⟨s', hrun, (startSetup_new hh hreach [] w own s' hrun).2⟩

end

/-- A description of a file of ten bytes. -/
theorem ex_described (h : Sha1Hash) : downloadMetaData h (.datagram (Msg.listResp 7 [⟨10, 1, 16, 1, h, [97]⟩]).serialize) = .ok ⟨10, 1, 16, 1, h, [97]⟩ := by
  have h1 : listingSize (([⟨10, 1, 16, 1, h, [97]⟩] : List ListFilesEntry).map cutEntry) = 47 := rfl
  have h2 := serialize_listing_length 7 [⟨10, 1, 16, 1, h, [97]⟩]
  have h3 := listing_received 7 [⟨10, 1, 16, 1, h, [97]⟩] (by rw [h2, h1]; decide)
  rw [if_pos (by rw [h1]; decide)] at h3
  unfold downloadMetaData
  rw [h3]
  show (if h = h then _ else _) = _
  rw [if_pos rfl]
  rfl

/-- `C134_one`, `C134_refused`, `C134_first`: two calls at once on a fresh daemon; the first is served, the second is refused. -/
example (sha1 : Bytes → Sha1Hash) (json : JsonCodec) (h : Sha1Hash) : ∃ s0 s1 s2, Reach (exEnv sha1 json) exDir exDown (.running s0.cat s0.fs) ∧ Unaware s0 h 1 ∧ Unaware s0 h 2 ∧
    DLRun (exEnv sha1 json) exDir (fun a _ => ∀ o, a = .call o → ¬ o.Touches h) s0 (.alive s1) ∧ s1.threads 1 = some ⟨h, .test exOwn, []⟩ ∧ Unaware s1 h 2 ∧
    observe s1.cat s1.fs h ≠ .err .fileNotFound ∧ DLStep (exEnv sha1 json) exDir (.thread 2) s1 (.alive s2) ∧ s2.threads 2 = some ⟨h, .refused, []⟩ := by
  have hh := ex_healthy sha1 json
  have h0 := CleanReach.fresh (exEnv sha1 json) exDir exDown hh.utf8 exFS ex_fs_clean
  have hown : ownAddress (some [[10, 0, 0, 1]]) = .ok exOwn := by decide
  obtain ⟨s', k1, k2⟩ := C134_first (h := h) hh h0.reach rfl ⟨some [[10, 0, 0, 1]], some [exPeer], fun _ => .datagram (Msg.listResp 7 [⟨10, 1, 16, 1, h, [97]⟩]).serialize⟩ exOwn [exPeer] exPeer []
    hown rfl ex_good _ (ex_described h) (by show (10 : UInt64).toNat < 2 ^ 63; decide) (by show 0 < (16 : UInt32).toNat; decide)
  have hrefuse : startSetup (exEnv sha1 json) ⟨some [[10, 0, 0, 1]], some [], fun _ => .silence⟩ h false ⟨s'.cat, s'.fs, []⟩ = (.err .noGoodHosts, ⟨s'.cat, s'.fs, []⟩) := by
    unfold startSetup
    rw [IOM.bind_apply, IOM.lift_apply, hown]
    rfl
  refine ⟨⟨_, _, false, fun _ => false, fun t => if t = 1 ∨ t = 2 then some ⟨h, .setup false, []⟩ else none⟩, _, _, h0.reach, ⟨⟨h, .setup false, []⟩, rfl, rfl, rfl⟩, ⟨⟨h, .setup false, []⟩, rfl, rfl, rfl⟩,
    DLRun.step (.thread 1) .refl (DLStep.setup 1 _ ⟨h, .setup false, []⟩ [] _ false exOwn s' rfl rfl k1) (by intro o ho; cases ho), rfl, ⟨⟨h, .setup false, []⟩, rfl, rfl, rfl⟩, k2,
    DLStep.refuse 2 _ ⟨h, .setup false, []⟩ [] _ false _ _ rfl rfl hrefuse, rfl⟩

end Flu
