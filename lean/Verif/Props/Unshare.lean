import Verif.Props.DownloadLock
import Verif.Props.Clean
import Verif.Props.Fatal
/-!
# Taking a file out of the catalogue while it is being transferred

`UnshareFile` promises (catalogue.go:88-89) that transfers in progress throw errors and stop.  `clean` calls it.
-/
namespace Flu

namespace Spec

/-- The catalogue does not know the file. -/
def Unlisted (h : Sha1Hash) (s : DLState) : Prop := observe s.cat s.fs h = .err .fileNotFound

/-- The call of `StartDownload` has returned success and its goroutine is running. -/
def InLoop : DLPos → Prop
  | .test _ | .want _ | .search _ _ | .hosts _ _ _ | .fetching _ _ _ _ => True
  | _ => False

/-- An execution that never ends: who takes each step, and the states between them. -/
def Forever (env : Env) (d : Path) (a : Nat → Actor) (σ : Nat → DLState) : Prop := ∀ n, DLStep env d (a n) (σ n) (.alive (σ (n + 1)))

end Spec
open Spec

section
variable {env : Env} {d dl : Path} {c : Cat} {fs : FS}

theorem missingChunks_unknown (hh : Healthy env d) (hreach : Reach env d dl (.running c fs)) (h : Sha1Hash) (hx : observe c fs h = .err .fileNotFound) (fl : List Fault) :
    (missingChunks h ⟨c, fs, fl⟩).1 = .panic := by
  have hI : Inv env d dl c fs := hreach.inv hh.abs hh.utf8
  obtain ⟨ind, rfl, hw⟩ := hI.split
  rw [observe_eq, obsRec_notFound] at hx
  unfold missingChunks
  rw [IOM.bind_apply]
  unfold IOM.orPanic getIndexRecord
  simp only [IOM.bind_apply, getIndex_eval, hx]
  rfl

theorem saveChunk_unknown (hh : Healthy env d) (hreach : Reach env d dl (.running c fs)) (h : Sha1Hash) (hx : observe c fs h = .err .fileNotFound) (n : UInt16) (b : Bytes)
    (fl : List Fault) : (saveChunk h n b ⟨c, fs, fl⟩).1 = .panic := by
  have hI : Inv env d dl c fs := hreach.inv hh.abs hh.utf8
  obtain ⟨ind, rfl, hw⟩ := hI.split
  rw [observe_eq, obsRec_notFound] at hx
  unfold saveChunk
  rw [IOM.bind_apply]
  unfold IOM.orPanic getIndexRecord
  simp only [IOM.bind_apply, getIndex_eval, hx]
  rfl

/-- How far a download is from its next look at the catalogue. -/
def DLPos.rank : DLPos → Nat × Nat
  | .search _ _ => (1, 0)
  | .hosts _ _ todo => (0, 2 * todo.length + 1)
  | .fetching _ _ _ todo => (0, 2 * todo.length + 2)
  | _ => (0, 0)

/-- A step of a daemon that survives it, while the file is gone. -/
theorem gone_step (hh : Healthy env d) {a : Actor} {s s2 : DLState} {h : Sha1Hash} (hreach : Reach env d dl (.running s.cat s.fs)) (hgone : Unlisted h s) (t : Nat) (th : DLThread)
    (ht : s.threads t = some th) (hth : th.hash = h) (hl : InLoop th.pos) (hst : DLStep env d a s (.alive s2)) :
    ∃ th2, s2.threads t = some th2 ∧ th2.hash = h ∧ InLoop th2.pos ∧ th2.rounds = th.rounds ∧ (a ≠ .thread t → th2 = th) ∧
      (a = .thread t → Prod.Lex (· < ·) (· < ·) th2.pos.rank th.pos.rank) := by
  by_cases ha : a = .thread t
  · subst ha
    subst hth
    have hc := fileComplete_unknown hh hreach th.hash hgone
    have hm := missingChunks_unknown hh hreach th.hash hgone
    have hsv := saveChunk_unknown hh hreach th.hash hgone
    cases hst with
    | start _ _ _ ht' => rw [ht] at ht'; cases ht'
    | check _ _ th' _ _ _ ht' hp => rw [ht] at ht'; cases ht'; rw [hp] at hl; exact hl.elim
    | setup _ _ th' _ _ _ _ _ ht' hp => rw [ht] at ht'; cases ht'; rw [hp] at hl; exact hl.elim
    | refuse _ _ th' _ _ _ _ _ ht' hp => rw [ht] at ht'; cases ht'; rw [hp] at hl; exact hl.elim
    | test _ _ th' fl _ _ _ ht' hp hrun =>
      rw [ht] at ht'; cases ht'
      have := hc fl
      rw [hrun] at this; cases this
    | want _ _ th' fl _ _ _ _ ht' hp hrun =>
      rw [ht] at ht'; cases ht'
      have := hm fl
      rw [hrun] at this; cases this
    | search _ _ th' own c rs ht' hp =>
      rw [ht] at ht'; cases ht'
      refine ⟨_, upd_self _ _ _, rfl, trivial, rfl, fun h => absurd rfl h, fun _ => ?_⟩
      rw [hp]
      exact .left _ _ (by decide)
    | again _ _ th' own c ht' hp =>
      rw [ht] at ht'; cases ht'
      refine ⟨_, upd_self _ _ _, rfl, trivial, rfl, fun h => absurd rfl h, fun _ => ?_⟩
      rw [hp]
      exact .right _ (by decide)
    | skip _ _ th' own c r todo ht' hp =>
      rw [ht] at ht'; cases ht'
      refine ⟨_, upd_self _ _ _, rfl, trivial, rfl, fun h => absurd rfl h, fun _ => ?_⟩
      rw [hp]
      exact .right _ (by simp)
    | dial _ _ th' own c r todo ht' hp =>
      rw [ht] at ht'; cases ht'
      refine ⟨_, upd_self _ _ _, rfl, trivial, rfl, fun h => absurd rfl h, fun _ => ?_⟩
      rw [hp]
      exact .right _ (by simp; omega)
    | fetched _ _ th' fl own c r todo queue ok s' ht' hp hsafe hrun =>
      rw [ht] at ht'; cases ht'
      obtain ⟨acks, b, -, h2⟩ := downloadChunk_saved env _ _ _ _ _ _ hrun
      have := hsv c b fl
      rw [h2] at this; cases this
    | gaveUp _ _ th' fl own c r todo queue s' ht' hp hrun =>
      rw [ht] at ht'; cases ht'
      refine ⟨_, upd_self _ _ _, rfl, trivial, rfl, fun h => absurd rfl h, fun _ => ?_⟩
      rw [hp]
      exact .right _ (by simp)
  · have := hst.effect.2 t ha
    exact ⟨th, by rw [this, ht], hth, hl, rfl, fun _ => rfl, fun h => absurd h ha⟩

/-- C99, downloads: as long as the file is not put back, its download does not stop, obtains no chunk, and its next look at the catalogue ends the daemon. -/
theorem C99_download (hh : Healthy env d) (h : Sha1Hash) (s0 : DLState) (hreach : Reach env d dl (.running s0.cat s0.fs)) (hgone : Unlisted h s0) (t : Nat) (th0 : DLThread)
    (ht : s0.threads t = some th0) (hth : th0.hash = h) (hl : InLoop th0.pos) (x : DLSys) (hrun : DLRun env d (fun _ x => ∀ s, x = .alive s → Unlisted h s) s0 x) :
    ∀ s, x = .alive s → ∃ th, s.threads t = some th ∧ th.hash = h ∧ InLoop th.pos ∧ th.rounds = th0.rounds ∧
      ∀ y, DLStep env d (.thread t) s y → (∀ own, th.pos = .test own ∨ th.pos = .want own → y = .dead (.catalogue t)) ∧
        (∀ own c r todo, th.pos = .fetching own c r todo → y = .dead (.transfer t) ∨ ∃ s2, y = .alive s2 ∧ s2.cat = s.cat ∧ s2.fs = s.fs) := by
  have main : ∀ x, DLRun env d (fun _ x => ∀ s, x = .alive s → Unlisted h s) s0 x → ∀ s, x = .alive s → Reach env d dl (.running s.cat s.fs) ∧ Unlisted h s ∧
      ∃ th, s.threads t = some th ∧ th.hash = h ∧ InLoop th.pos ∧ th.rounds = th0.rounds := by
    intro x hrun
    induction hrun with
    | refl => intro s hs; cases hs; exact ⟨hreach, hgone, th0, ht, hth, hl, rfl⟩
    | @step s1 x a _ hst hok ih =>
      intro s hs
      subst hs
      obtain ⟨h1, h2, th, h3, h4, h5, h6⟩ := ih s1 rfl
      obtain ⟨th2, g1, g2, g3, g4, -⟩ := gone_step hh h1 h2 t th h3 h4 h5 hst
      exact ⟨hst.reach h1, hok s rfl, th2, g1, g2, g3, g4.trans h6⟩
  intro s hs
  obtain ⟨hr, hu, th, h1, h2, h3, h4⟩ := main x hrun s hs
  refine ⟨th, h1, h2, h3, h4, fun y hy => ⟨fun own hp => ?_, fun own c r todo hp => ?_⟩⟩
  · have hno : ∀ s2, y ≠ .alive s2 := by
      rintro s2 rfl
      obtain ⟨th2, -, -, -, -, -, g⟩ := gone_step hh hr hu t th h1 h2 h3 hy
      have hlex := g rfl
      have hz : th.pos.rank = (0, 0) := by rcases hp with hp | hp <;> rw [hp] <;> rfl
      rw [hz] at hlex
      rcases Prod.lex_def.1 hlex with hlt | ⟨-, hlt⟩ <;> exact Nat.not_lt_zero _ hlt
    subst h2
    have hm := missingChunks_unknown hh hr th.hash hu
    cases hy with
    | testDies => rfl
    | wantDies => rfl
    | wantNone _ _ th' fl _ _ ht' _ hrun =>
      rw [h1] at ht'; cases ht'
      have h9 := hm fl
      rw [hrun] at h9; exact absurd h9 (by simp)
    | checkDies => rfl
    | setupDies _ _ th' _ _ _ ht' hp' => rw [h1] at ht'; cases ht'; rw [hp'] at hp; rcases hp with hp | hp <;> cases hp
    | searchDies _ _ th' _ _ ht' hp' => rw [h1] at ht'; cases ht'; rw [hp'] at hp; rcases hp with hp | hp <;> cases hp
    | dialDies _ _ th' _ _ _ _ ht' hp' => rw [h1] at ht'; cases ht'; rw [hp'] at hp; rcases hp with hp | hp <;> cases hp
    | fetchDies _ _ th' _ _ _ _ _ _ ht' hp' => rw [h1] at ht'; cases ht'; rw [hp'] at hp; rcases hp with hp | hp <;> cases hp
    | _ => exact absurd rfl (hno _)
  · subst h2
    have hsv := saveChunk_unknown hh hr th.hash hu
    cases hy with
    | fetchDies => exact .inl rfl
    | gaveUp _ _ th' fl _ _ _ _ queue s' ht' _ hrun =>
      refine .inr ⟨_, rfl, ?_⟩
      rw [downloadChunk_eq] at hrun
      rcases hrl : recvLoop env.sha1 .fresh queue with ⟨x, out⟩ | e | _ | _ | _
      · rw [hrl] at hrun
        rcases out with c | _ | ⟨b, ok⟩
        · cases hrun
        · cases hrun; exact ⟨rfl, rfl⟩
        · obtain ⟨_, s1, h1, h2⟩ := (IOM.bind_ok_iff _ _ _ _ _).1 hrun
          cases h2
      all_goals (rw [hrl] at hrun; cases hrun)
    | fetched _ _ th' fl _ c _ _ _ _ _ ht' _ _ hrun =>
      rw [h1] at ht'; cases ht'
      obtain ⟨acks, b, -, h2⟩ := downloadChunk_saved env _ _ _ _ _ _ hrun
      have := hsv c b fl
      rw [h2] at this; cases this
    | start _ _ _ ht' => rw [h1] at ht'; cases ht'
    | check _ _ th' _ _ _ ht' hp' => rw [h1] at ht'; cases ht'; rw [hp] at hp'; cases hp'
    | checkDies _ _ th' _ ht' hp' => rw [h1] at ht'; cases ht'; rw [hp] at hp'; cases hp'
    | setup _ _ th' _ _ _ _ _ ht' hp' => rw [h1] at ht'; cases ht'; rw [hp] at hp'; cases hp'
    | refuse _ _ th' _ _ _ _ _ ht' hp' => rw [h1] at ht'; cases ht'; rw [hp] at hp'; cases hp'
    | setupDies _ _ th' _ _ _ ht' hp' => rw [h1] at ht'; cases ht'; rw [hp] at hp'; cases hp'
    | test _ _ th' _ _ _ _ ht' hp' => rw [h1] at ht'; cases ht'; rw [hp] at hp'; cases hp'
    | testDies _ _ th' _ _ ht' hp' => rw [h1] at ht'; cases ht'; rw [hp] at hp'; cases hp'
    | want _ _ th' _ _ _ _ _ ht' hp' => rw [h1] at ht'; cases ht'; rw [hp] at hp'; cases hp'
    | wantNone _ _ th' _ _ _ ht' hp' => rw [h1] at ht'; cases ht'; rw [hp] at hp'; cases hp'
    | wantDies _ _ th' _ _ ht' hp' => rw [h1] at ht'; cases ht'; rw [hp] at hp'; cases hp'
    | search _ _ th' _ _ _ ht' hp' => rw [h1] at ht'; cases ht'; rw [hp] at hp'; cases hp'
    | searchDies _ _ th' _ _ ht' hp' => rw [h1] at ht'; cases ht'; rw [hp] at hp'; cases hp'
    | again _ _ th' _ _ ht' hp' => rw [h1] at ht'; cases ht'; rw [hp] at hp'; cases hp'
    | skip _ _ th' _ _ _ _ ht' hp' => rw [h1] at ht'; cases ht'; rw [hp] at hp'; cases hp'
    | dial _ _ th' _ _ _ _ ht' hp' => rw [h1] at ht'; cases ht'; rw [hp] at hp'; cases hp'
    | dialDies _ _ th' _ _ _ _ ht' hp' => rw [h1] at ht'; cases ht'; rw [hp] at hp'; cases hp'

/-- C99: so an execution in which the file stays away and its download is not stopped by the operating system for ever ends with the death of the daemon: no execution goes
on for ever in which the download takes infinitely many steps. -/
theorem C99_ends (hh : Healthy env d) (h : Sha1Hash) (a : Nat → Actor) (σ : Nat → DLState) (hreach : Reach env d dl (.running (σ 0).cat (σ 0).fs)) (hgone : ∀ n, Unlisted h (σ n))
    (t : Nat) (th : DLThread) (ht : (σ 0).threads t = some th) (hth : th.hash = h) (hl : InLoop th.pos) (hrun : Forever env d a σ) : ∃ N, ∀ n, N ≤ n → a n ≠ .thread t := by
  have hr : ∀ n, Reach env d dl (.running (σ n).cat (σ n).fs) := by
    intro n
    induction n with
    | zero => exact hreach
    | succ n ih => exact (hrun n).reach ih
  have key : ∀ (r : Nat × Nat) (n : Nat) (th : DLThread), th.pos.rank = r → (σ n).threads t = some th → th.hash = h → InLoop th.pos → ∃ N, ∀ m, N ≤ m → a m ≠ .thread t := by
    intro r
    induction r using (Prod.lex Nat.lt_wfRel Nat.lt_wfRel).wf.induction with
    | _ r ih =>
      intro n th hr0 ht hth hl
      by_cases hnone : ∀ m, n ≤ m → a m ≠ .thread t
      · exact ⟨n, hnone⟩
      · -- the first step of the download from here on
        have hex : ∃ k, a (n + k) = .thread t := by
          apply Classical.byContradiction
          intro hno
          apply hnone
          intro m hm ha
          exact hno ⟨m - n, by rw [show n + (m - n) = m from by omega]; exact ha⟩
        have walk : ∀ k, (∀ j, j < k → a (n + j) ≠ .thread t) → (σ (n + k)).threads t = some th := by
          intro k
          induction k with
          | zero => exact fun _ => ht
          | succ k ihk =>
            intro hj
            rw [← ihk (fun j h => hj j (by omega))]
            exact (hrun (n + k)).effect.2 t (hj k (by omega))
        obtain ⟨k, hk, hmin⟩ : ∃ k, a (n + k) = .thread t ∧ ∀ j, j < k → a (n + j) ≠ .thread t := by
          obtain ⟨k, hk⟩ := hex
          induction k using Nat.strongRecOn with
          | _ k ihk =>
            by_cases hj : ∃ j, j < k ∧ a (n + j) = .thread t
            · obtain ⟨j, h1, h2⟩ := hj
              exact ihk j h1 h2
            · exact ⟨k, hk, fun j h1 h2 => hj ⟨j, h1, h2⟩⟩
        obtain ⟨th2, g1, g2, g3, -, -, g6⟩ := gone_step hh (hr (n + k)) (hgone (n + k)) t th (walk k hmin) hth hl (hrun (n + k))
        have hlex := g6 hk
        rw [hr0] at hlex
        exact ih _ hlex (n + k + 1) th2 rfl g1 g2 g3
  exact key _ 0 th rfl ht hth hl

/-- C99, uploads: an acknowledgement has the same effect whatever the catalogue says about the file, so an upload under way goes on to the end of its chunk. -/
theorem C99_upload (env : Env) (port : Nat) (w : Wire) (dg : Bytes) (ret : Addr) (o : UInt32) (hp : parse (udpBuffer dg) = .ok (.ack o)) (st st' : St) (ups : UpKey → Option Up) :
    (serveDatagram env port w dg ret ⟨st, ups⟩).1 = (serveDatagram env port w dg ret ⟨st', ups⟩).1 ∧
      (serveDatagram env port w dg ret ⟨st, ups⟩).2.uploads = (serveDatagram env port w dg ret ⟨st', ups⟩).2.uploads := by
  unfold serveDatagram handleMessage
  simp only [IOM.bind_apply, IOM.lift_apply, hp]
  have hc : ∀ st : St, continueUpload ret ⟨st, ups⟩ =
      match newIpv4 ret.ip with
      | .ok host => (match ups ⟨host, UInt16.ofNat ret.port⟩ with
        | none => (.err .noUpload, ⟨st, ups⟩)
        | some up => (.ok (.acked ⟨host, UInt16.ofNat ret.port⟩),
          ⟨st, fun k => if k = ⟨host, UInt16.ofNat ret.port⟩ then some { up with conn := { up.conn with pending := up.conn.pending + 1 } } else ups k⟩))
      | .err e => (.err e, ⟨st, ups⟩)
      | .panic => (.panic, ⟨st, ups⟩)
      | .exit => (.exit, ⟨st, ups⟩)
      | .crash => (.crash, ⟨st, ups⟩) := by
    intro st
    unfold continueUpload
    rcases newIpv4 ret.ip with host | e | _ | _ | _ <;> rfl
  rw [hc, hc]
  rcases newIpv4 ret.ip with host | e | _ | _ | _
  · rcases hu : ups ⟨host, UInt16.ofNat ret.port⟩ with _ | u <;> simp only [hu, and_self]
  all_goals simp only [and_self]

/-- What of C99 is true: the file itself and everything the catalogue says about other files stay as they are, and no new transfer of the file is begun: requests for its
chunks are refused.  Missing: transfers under way do not stop; a download under way ends the daemon. -/
theorem C99_partial (hh : Healthy env d) (hreach : Reach env d dl (.running c fs)) (h : Sha1Hash) (fl : List Fault) (s' : St) (hrun : unshareFile env h ⟨c, fs, fl⟩ = (.ok (), s')) :
    (∀ q, ¬ CatFile d q → s'.fs q = fs q) ∧ (∀ k, k ≠ h → observe s'.cat s'.fs k = observe c fs k) ∧
      ∀ port w dg ret n cap fl' ups, parse (udpBuffer dg) = .ok (.openReq h n cap) →
        serveDatagram env port w dg ret ⟨⟨s'.cat, s'.fs, fl'⟩, ups⟩ = (.err .fileNotFound, ⟨⟨s'.cat, s'.fs, fl'⟩, ups⟩) := by
  obtain ⟨-, h1, -, h2, h3⟩ := C28_unshare hh hreach h fl s' hrun
  refine ⟨fun q hq => h3 q (fun e => hq (.inl e)) (fun e => hq (.inr ⟨_, e⟩)), h2, ?_⟩
  intro port w dg ret n cap fl' ups hp
  have hr : Reach env d dl (.running s'.cat s'.fs) := hreach.op (.unshare h) trivial fl _ s' hrun rfl
  have hI : Inv env d dl s'.cat s'.fs := hr.inv hh.abs hh.utf8
  generalize s'.cat = c' at *
  generalize s'.fs = fs' at *
  obtain ⟨ind, rfl, hw⟩ := hI.split
  rw [observe_eq, obsRec_notFound] at h1
  unfold serveDatagram handleMessage
  simp only [IOM.bind_apply, IOM.lift_apply, hp]
  have hcon : contains h ⟨⟨d, dl, some ind⟩, fs', fl'⟩ = (.err .fileNotFound, ⟨⟨d, dl, some ind⟩, fs', fl'⟩) := by
    unfold contains getIndexRecord
    simp only [IOM.bind_apply, getIndex_eval, h1]
    rfl
  unfold startUpload
  rw [IOM.bind_apply]
  unfold SM.cat
  simp only [hcon]

end

/-- Full statement (the comment of `UnshareFile`): transfers in progress of a file that is unshared stop with an error; in particular no download of it ends the daemon. -/
def C99_statement (env : Env) (d dl : Path) : Prop :=
  ∀ (s s1 : DLState) (h : Sha1Hash) (x : DLSys), Reach env d dl (.running s.cat s.fs) → DLStep env d (.call (.unshare h)) s (.alive s1) →
    DLRun env d (fun _ x => ∀ s, x = .alive s → Unlisted h s) s1 x → ∀ t th, s1.threads t = some th → th.hash = h → InLoop th.pos → x ≠ .dead (.catalogue t)

/-- A download of a file that has just been taken out of the catalogue. -/
theorem ex_unshared (sha1 : Bytes → Sha1Hash) (json : JsonCodec) (h : Sha1Hash) : ∃ s s1 : DLState, Reach (exEnv sha1 json) exDir exDown (.running s.cat s.fs) ∧
    DLStep (exEnv sha1 json) exDir (.call (.unshare h)) s (.alive s1) ∧ Reach (exEnv sha1 json) exDir exDown (.running s1.cat s1.fs) ∧ Unlisted h s1 ∧
    s1.threads 1 = some ⟨h, .test exOwn, []⟩ ∧ ∃ p, ¬ CatFile exDir p := by
  have hh := ex_healthy sha1 json
  obtain ⟨s, e, h1, h2, -⟩ := ex_ready sha1 json h (fun t => if t = 1 then some ⟨h, .test exOwn, []⟩ else none) rfl
  obtain ⟨s', hs'⟩ := unshare_total hh h1.clean h e h1.obs
  have hst : DLStep (exEnv sha1 json) exDir (.call (.unshare h)) s (.alive { s with cat := s'.cat, fs := s'.fs }) :=
    .call (.unshare h) s [] (.ok ()) s' trivial hs' rfl
  exact ⟨s, _, h1.clean.reach, hst, hst.reach h1.clean.reach, (C28_unshare hh h1.clean.reach h [] s' hs').2.1, h1.thread, _, h1.path⟩

/-- C99 is false of the code. -/
theorem C99_refuted (sha1 : Bytes → Sha1Hash) (json : JsonCodec) : ¬ C99_statement (exEnv sha1 json) exDir exDown := by
  intro hst
  have hh := ex_healthy sha1 json
  obtain ⟨s, s1, h1, h2, h3, h4, h5, -⟩ := ex_unshared sha1 json Sha1Hash.zero
  refine hst s s1 Sha1Hash.zero (.dead (.catalogue 1)) h1 h2 ?_ 1 _ h5 rfl trivial rfl
  refine .step (.thread 1) .refl (.testDies 1 s1 _ [] exOwn h5 rfl ?_) (fun _ h => (by cases h))
  intro v hv
  have := fileComplete_unknown hh h3 Sha1Hash.zero h4 []
  rw [this] at hv; cases hv

/-- `C99_download`, `C99_ends`: executions in which the download is never scheduled again. -/
example (sha1 : Bytes → Sha1Hash) (json : JsonCodec) (h : Sha1Hash) : ∃ (a : Nat → Actor) (σ : Nat → DLState) (th : DLThread),
    Reach (exEnv sha1 json) exDir exDown (.running (σ 0).cat (σ 0).fs) ∧ (∀ n, Unlisted h (σ n)) ∧ (σ 0).threads 1 = some th ∧ th.hash = h ∧ InLoop th.pos ∧
    Forever (exEnv sha1 json) exDir a σ := by
  obtain ⟨s, s1, -, -, h3, h4, h5, p, hp⟩ := ex_unshared sha1 json h
  refine ⟨fun _ => .user p, fun _ => s1, _, h3, fun _ => h4, h5, rfl, trivial, fun n => ?_⟩
  have := DLStep.user (env := exEnv sha1 json) (d := exDir) p s1 (s1.fs p) hp
  have he : s1.fs.put p (s1.fs p) = s1.fs := by
    funext q
    unfold FS.put
    split
    · rename_i hq; subst hq; rfl
    · rfl
  rw [he] at this
  exact this

/-- `C99_partial`: a file is unshared and then asked for. -/
example (sha1 : Bytes → Sha1Hash) (json : JsonCodec) : ∃ (c : Cat) (fs : FS) (s' : St), Reach (exEnv sha1 json) exDir exDown (.running c fs) ∧
    unshareFile (exEnv sha1 json) Sha1Hash.zero ⟨c, fs, []⟩ = (.ok (), s') ∧ parse (udpBuffer ((Msg.openReq Sha1Hash.zero 0 1).serialize ++ [])) = .ok (.openReq Sha1Hash.zero 0 1) := by
  have hh := ex_healthy sha1 json
  obtain ⟨s, e, h1, h2, -⟩ := ex_ready sha1 json Sha1Hash.zero (fun t => if t = 1 then some ⟨Sha1Hash.zero, .test exOwn, []⟩ else none) rfl
  obtain ⟨s', hs'⟩ := unshare_total hh h1.clean Sha1Hash.zero e h1.obs
  exact ⟨_, _, s', h1.clean.reach, hs', parse_buffer (.openReq Sha1Hash.zero 0 1) trivial (by simp [Msg.serialize, put16, Sha1Hash.zero]) []⟩

/-- `C99_upload`: an acknowledgement. -/
example : parse (udpBuffer ((Msg.ack 5).serialize ++ [])) = .ok (.ack 5) := parse_buffer (.ack 5) trivial (by simp [Msg.serialize, put32]) []

end Flu
