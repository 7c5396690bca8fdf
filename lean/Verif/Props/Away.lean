import Verif.Props.GetAgain
import Verif.Props.DownloadLock
/-!
# Downloads while the network is away (C123)
-/
namespace Flu
open Spec

/-! ### Specification -/

/-- A place in `StartDownload` whose next step opens no socket: calls of the catalogue, the end of a round, and the end of a transfer that is under way (whatever still arrives of it). -/
def Spec.NeedsNoSocket : DLPos → Prop
  | .setup _ | .search _ _ | .hosts _ _ (_ :: _) => False
  | _ => True

/-- A step while the network is away, so that no socket to another machine can be opened: the search at the start of a download fails (`responses` is none, serverDiscoverHosts.go:34-35), and so do the
search of a round (the same lines) and the dialling of a host (serverStartDownload.go:98-101).  Everything else can happen. -/
inductive Spec.AwayStep (env : Env) (d : Path) : Actor → DLState → DLSys → Prop
  | quiet (a : Actor) (s : DLState) (x : DLSys) (h : DLStep env d a s x) (hq : ∀ t th, a = .thread t → s.threads t = some th → NeedsNoSocket th.pos) : AwayStep env d a s x
  | setup (t : Nat) (s : DLState) (th : DLThread) (fl : List Fault) (w : DLWire) (b : Bool) (own : ByteArr 4) (s' : St) (hw : w.responses = none) (ht : s.threads t = some th)
      (hp : th.pos = .setup b) (hrun : startSetup env w th.hash b ⟨s.cat, s.fs, fl⟩ = (.ok own, s')) :
      AwayStep env d (.thread t) s (.alive ({ s with cat := s'.cat, fs := s'.fs }.move t th (.test own)))
  | refuse (t : Nat) (s : DLState) (th : DLThread) (fl : List Fault) (w : DLWire) (b : Bool) (e : Err) (s' : St) (hw : w.responses = none) (ht : s.threads t = some th)
      (hp : th.pos = .setup b) (hrun : startSetup env w th.hash b ⟨s.cat, s.fs, fl⟩ = (.err e, s')) :
      AwayStep env d (.thread t) s (.alive ({ s with cat := s'.cat, fs := s'.fs }.move t th .refused))
  | setupDies (t : Nat) (s : DLState) (th : DLThread) (fl : List Fault) (w : DLWire) (b : Bool) (hw : w.responses = none) (ht : s.threads t = some th)
      (hp : th.pos = .setup b) (hrun : (startSetup env w th.hash b ⟨s.cat, s.fs, fl⟩).1.returns = false) : AwayStep env d (.thread t) s (.dead (.setup t))
  | search (t : Nat) (s : DLState) (th : DLThread) (own : ByteArr 4) (c : UInt16) (ht : s.threads t = some th) (hp : th.pos = .search own c) :
      AwayStep env d (.thread t) s (.dead (.search t))
  | skip (t : Nat) (s : DLState) (th : DLThread) (own : ByteArr 4) (c : UInt16) (r : HostResp) (todo : List HostResp) (ht : s.threads t = some th)
      (hp : th.pos = .hosts own c (r :: todo)) (hl : s.locked = false) (hk : s.downloads (th.hash, r.addr) = true) :
      AwayStep env d (.thread t) s (.alive (s.move t th (.hosts own c todo)))
  | dial (t : Nat) (s : DLState) (th : DLThread) (own : ByteArr 4) (c : UInt16) (r : HostResp) (todo : List HostResp) (ht : s.threads t = some th)
      (hp : th.pos = .hosts own c (r :: todo)) (hl : s.locked = false) (hk : s.downloads (th.hash, r.addr) = false) :
      AwayStep env d (.thread t) s (.dead (.dial t))

/-- Any number of such steps, none of which takes the file `h` out of the catalogue or rehashes it; the number counts those of thread `t`. -/
inductive Spec.AwayRun (env : Env) (d : Path) (h : Sha1Hash) (t : Nat) (s0 : DLState) : Nat → DLSys → Prop
  | refl : AwayRun env d h t s0 0 (.alive s0)
  | mine {n : Nat} {s : DLState} {x : DLSys} (hr : AwayRun env d h t s0 n (.alive s)) (hst : AwayStep env d (.thread t) s x) : AwayRun env d h t s0 (n + 1) x
  | other {n : Nat} {s : DLState} {x : DLSys} (a : Actor) (ha : a ≠ .thread t) (ho : ∀ o, a = .call o → ¬ o.Touches h) (hr : AwayRun env d h t s0 n (.alive s))
      (hst : AwayStep env d a s x) : AwayRun env d h t s0 n x

/-- The most steps that a call of `StartDownload` takes from a given place before it is over, one way or the other. -/
def Spec.left : DLPos → Nat
  | .check => 2
  | .setup _ => 1
  | .refused => 0
  | .test _ => 3
  | .want _ => 2
  | .search _ _ => 1
  | .hosts _ _ todo => todo.length + 4
  | .fetching _ _ _ todo => todo.length + 5
  | .finished => 0

section
variable {env : Env} {d dl : Path} {h : Sha1Hash}

/-- This host's address, if there is one, is an address of four bytes. -/
theorem ownAddress_no_error (addrs : Option (List Bytes)) (e : Err) : ownAddress addrs ≠ .err e := by
  unfold ownAddress
  rcases addrs with _ | l
  · intro hx; cases hx
  rw [(C65_localIP l).1]
  rcases l.findSome? usable with _ | ip
  · intro hx; cases hx
  · obtain ⟨w, hw⟩ := ip
    show newIpv4 (.exact w) ≠ _
    have h4 : to4 (NetIP.exact w).bytes = some w := by
      show to4 (w.take w.length) = _
      rw [List.take_length]
      unfold to4
      rw [if_pos hw]
    unfold newIpv4
    rw [h4]
    simp only [show (NetIP.exact w).cap = 4 from hw, if_true]
    intro hx; cases hx

/-- C123: `get` while the network is away ends the daemon, whatever the file. -/
theorem C123_get_partial (w : DLWire) (hw : w.responses = none) (hash : Sha1Hash) (known : Bool) (s : St) : (startSetup env w hash known s).1.returns = false := by
  rcases hr : startSetup env w hash known s with ⟨r, s'⟩
  by_cases hret : r.returns = true
  · exfalso
    unfold startSetup at hr
    rcases IOM.lift_bind_inv _ _ _ _ _ hr hret with ⟨own, h1, h2⟩ | ⟨e, h1, h2, rfl⟩
    · rw [hw] at h2; cases h2; cases hret
    · exact ownAddress_no_error _ _ h1
  · simpa using hret

/-- C123: and so does `get` for a file that the catalogue does not have, if the first other host that answered is one to which no socket can be opened. -/
theorem C123_host_partial (hh : Healthy env d) {c : Cat} {fs : FS} (hclean : CleanReach env d dl (.running c fs)) (w : DLWire) (own : ByteArr 4) (rs : List HostResp) (peer : HostResp)
    (rest : List HostResp) (hown : ownAddress w.addrs = .ok own) (hrs : w.responses = some rs) (hgood : goodHosts own rs = peer :: rest) (hpeer : w.description peer = .noSocket)
    (hnew : observe c fs h = .err .fileNotFound) : (startDownload env w h ⟨c, fs, []⟩).1 = .exit := by
  obtain ⟨known, st1, k1, k2, k3, k4, k5, k6⟩ := startCheck_clean hh hclean h
  obtain rfl : known = false := by
    rcases k6 with ⟨-, e, k⟩ | ⟨k, -⟩
    · rw [hnew] at k; cases k
    · exact k
  unfold startDownload startSetup
  rw [IOM.bind_apply, k1]
  simp only [IOM.bind_apply, IOM.lift_apply, hown, hrs, hgood, hpeer]
  rfl

theorem Spec.AwayStep.step {a : Actor} {s : DLState} {x : DLSys} (hst : AwayStep env d a s x) : DLStep env d a s x := by
  cases hst with
  | quiet _ _ _ hs hq => exact hs
  | setup t _ th fl w b own s' hw ht hp hrun => exact .setup t s th fl w b own s' ht hp hrun
  | refuse t _ th fl w b e s' hw ht hp hrun => exact .refuse t s th fl w b e s' ht hp hrun
  | setupDies t _ th fl w b hw ht hp hrun => exact .setupDies t s th fl w b ht hp hrun
  | search t _ th own c ht hp => exact .searchDies t s th own c ht hp
  | skip t _ th own c r todo ht hp hl hk => exact .skip t s th own c r todo ht hp hl hk
  | dial t _ th own c r todo ht hp hl hk => exact .dialDies t s th own c r todo ht hp hl hk

/-- What a step of a download does while the network is away, if the daemon survives it. -/
theorem Spec.AwayStep.moves {t : Nat} {s s2 : DLState} {th : DLThread} (ht : s.threads t = some th) (hst : AwayStep env d (.thread t) s (.alive s2)) :
    ∃ th2, s2.threads t = some th2 ∧ th2.hash = th.hash ∧ left th2.pos + 1 ≤ left th.pos ∧ th2.pos ≠ .refused ∧ th2.transfer = none ∧
      (th2.pos = .finished → ∃ fl s', fileComplete th.hash ⟨s.cat, s.fs, fl⟩ = (.ok true, s')) := by
  have dead : ∀ (w : DLWire) (hw : w.responses = none) b fl r s', startSetup env w th.hash b ⟨s.cat, s.fs, fl⟩ = (r, s') → r.returns = true → False := by
    intro w hw b fl r s' hrun hret
    have := C123_get_partial (env := env) w hw th.hash b ⟨s.cat, s.fs, fl⟩
    rw [hrun] at this
    rw [this] at hret; cases hret
  generalize hx : DLSys.alive s2 = x at hst
  cases hst with
  | quiet _ _ _ hs hq =>
    have hq := hq t th rfl ht
    cases hs with
    | start _ k _ hn => rw [ht] at hn; cases hn
    | check _ _ th' fl b s' ht' hp hrun =>
      rw [ht] at ht'; cases ht'; cases hx
      exact ⟨_, upd_self _ _ _, rfl, (by rw [hp]; exact Nat.le_refl _), (by intro hy; cases hy), rfl, (by intro hy; cases hy)⟩
    | setup _ _ th' fl w b own s' ht' hp hrun => rw [ht] at ht'; cases ht'; rw [hp] at hq; exact hq.elim
    | refuse _ _ th' fl w b e s' ht' hp hrun => rw [ht] at ht'; cases ht'; rw [hp] at hq; exact hq.elim
    | test _ _ th' fl own v s' ht' hp hrun =>
      rw [ht] at ht'; cases ht'; cases hx
      refine ⟨_, upd_self _ _ _, rfl, ?_, ?_, ?_, ?_⟩
      · rw [hp]
        cases v with
        | false => exact Nat.le_refl 3
        | true => exact (by decide : 0 + 1 ≤ 3)
      · cases v <;> (intro hy; cases hy)
      · cases v <;> rfl
      · intro hy
        cases v with
        | true => exact ⟨fl, s', hrun⟩
        | false => cases hy
    | want _ _ th' fl own r rest s' ht' hp hrun =>
      rw [ht] at ht'; cases ht'; cases hx
      exact ⟨_, upd_self _ _ _, rfl, (by rw [hp]; exact Nat.le_refl _), (by intro hy; cases hy), rfl, (by intro hy; cases hy)⟩
    | search _ _ th' own c rs ht' hp => rw [ht] at ht'; cases ht'; rw [hp] at hq; exact hq.elim
    | again _ _ th' own c ht' hp =>
      rw [ht] at ht'; cases ht'; cases hx
      exact ⟨_, upd_self _ _ _, rfl, (by rw [hp]; exact Nat.le_refl _), (by intro hy; cases hy), rfl, (by intro hy; cases hy)⟩
    | skip _ _ th' own c r todo ht' hp hl hk => rw [ht] at ht'; cases ht'; rw [hp] at hq; exact hq.elim
    | dial _ _ th' own c r todo ht' hp hl hk => rw [ht] at ht'; cases ht'; rw [hp] at hq; exact hq.elim
    | fetched _ _ th' fl own c r todo queue ok s' ht' hp hsafe hrun =>
      rw [ht] at ht'; cases ht'; cases hx
      exact ⟨_, upd_self _ _ _, rfl, (by rw [hp]; exact Nat.le_refl _), (by intro hy; cases hy), rfl, (by intro hy; cases hy)⟩
    | gaveUp _ _ th' fl own c r todo queue s' ht' hp hrun =>
      rw [ht] at ht'; cases ht'; cases hx
      exact ⟨_, upd_self _ _ _, rfl, (by rw [hp]; exact Nat.le_refl _), (by intro hy; cases hy), rfl, (by intro hy; cases hy)⟩
    | _ => cases hx
  | setup _ _ th' fl w b own s' hw ht' hp hrun => rw [ht] at ht'; cases ht'; exact (dead w hw b fl _ _ hrun rfl).elim
  | refuse _ _ th' fl w b e s' hw ht' hp hrun => rw [ht] at ht'; cases ht'; exact (dead w hw b fl _ _ hrun rfl).elim
  | skip _ _ th' own c r todo ht' hp hl hk =>
    rw [ht] at ht'; cases ht'; cases hx
    exact ⟨_, upd_self _ _ _, rfl, (by rw [hp]; exact Nat.le_refl _), (by intro hy; cases hy), rfl, (by intro hy; cases hy)⟩
  | _ => cases hx

/-- A call that is over does nothing more. -/
theorem DLStep.busy {t : Nat} {s : DLState} {x : DLSys} {th : DLThread} (ht : s.threads t = some th) (hst : DLStep env d (.thread t) s x) : th.pos.Busy := by
  have key : ∀ {th' : DLThread} {p : DLPos}, s.threads t = some th' → th'.pos = p → p.Busy → th.pos.Busy := by
    intro th' p h1 h2 h3
    rw [ht] at h1; cases h1
    rw [h2]; exact h3
  cases hst with
  | start _ k _ hn => rw [ht] at hn; cases hn
  | check _ _ th' fl b s' ht' hp hrun => exact key ht' hp trivial
  | checkDies _ _ th' fl ht' hp hrun => exact key ht' hp trivial
  | setup _ _ th' fl w b own s' ht' hp hrun => exact key ht' hp trivial
  | refuse _ _ th' fl w b e s' ht' hp hrun => exact key ht' hp trivial
  | setupDies _ _ th' fl w b ht' hp hrun => exact key ht' hp trivial
  | test _ _ th' fl own v s' ht' hp hrun => exact key ht' hp trivial
  | testDies _ _ th' fl own ht' hp hrun => exact key ht' hp trivial
  | want _ _ th' fl own r rest s' ht' hp hrun => exact key ht' hp trivial
  | wantNone _ _ th' fl own s' ht' hp hrun => exact key ht' hp trivial
  | wantDies _ _ th' fl own ht' hp hrun => exact key ht' hp trivial
  | search _ _ th' own c rs ht' hp => exact key ht' hp trivial
  | searchDies _ _ th' own c ht' hp => exact key ht' hp trivial
  | again _ _ th' own c ht' hp => exact key ht' hp trivial
  | skip _ _ th' own c r todo ht' hp hl hk => exact key ht' hp trivial
  | dial _ _ th' own c r todo ht' hp hl hk => exact key ht' hp trivial
  | dialDies _ _ th' own c r todo ht' hp hl hk => exact key ht' hp trivial
  | fetched _ _ th' fl own c r todo queue ok s' ht' hp hsafe hrun => exact key ht' hp trivial
  | gaveUp _ _ th' fl own c r todo queue s' ht' hp hrun => exact key ht' hp trivial
  | fetchDies _ _ th' fl own c r todo queue ht' hp hrun => exact key ht' hp trivial

/-- The first step of a call. -/
theorem DLStep.first {t : Nat} {s s2 : DLState} (hn : s.threads t = none) (hst : DLStep env d (.thread t) s (.alive s2)) : ∃ k, s2.threads t = some ⟨k, .check, []⟩ := by
  have no : ∀ {th : DLThread} {P : Prop}, s.threads t = some th → P := by
    intro th P h1
    rw [hn] at h1; cases h1
  cases hst with
  | start _ k _ _ => exact ⟨k, upd_self _ _ _⟩
  | check _ _ th' fl b s' ht' hp hrun => exact no ht'
  | setup _ _ th' fl w b own s' ht' hp hrun => exact no ht'
  | refuse _ _ th' fl w b e s' ht' hp hrun => exact no ht'
  | test _ _ th' fl own v s' ht' hp hrun => exact no ht'
  | want _ _ th' fl own r rest s' ht' hp hrun => exact no ht'
  | search _ _ th' own c rs ht' hp => exact no ht'
  | again _ _ th' own c ht' hp => exact no ht'
  | skip _ _ th' own c r todo ht' hp hl hk => exact no ht'
  | dial _ _ th' own c r todo ht' hp hl hk => exact no ht'
  | fetched _ _ th' fl own c r todo queue ok s' ht' hp hsafe hrun => exact no ht'
  | gaveUp _ _ th' fl own c r todo queue s' ht' hp hrun => exact no ht'

theorem left_pos {p : DLPos} (hb : p.Busy) : 1 ≤ left p := by
  cases p with
  | refused => exact hb.elim
  | finished => exact hb.elim
  | _ => simp only [left]; omega

theorem Spec.AwayRun.run {t : Nat} {s0 : DLState} {n : Nat} {x : DLSys} (hr : AwayRun env d h t s0 n x) : DLRun env d (fun a _ => ∀ o, a = .call o → ¬ o.Touches h) s0 x := by
  induction hr with
  | refl => exact .refl
  | mine _ hst ih => exact .step (.thread t) ih hst.step (by intro o ho; cases ho)
  | other a ha ho _ hst ih => exact .step a ih hst.step ho

/-- C123: while the network is away, a call of `StartDownload` or its goroutine takes at most `left` steps; then it is over, or the daemon is.  (A transfer that is under way may still end well.) -/
theorem C123_steps_partial {t : Nat} {s0 : DLState} {th0 : DLThread} (ht0 : s0.threads t = some th0) {n : Nat} {x : DLSys} (hr : AwayRun env d h t s0 n x) :
    n ≤ left th0.pos ∧ ∀ s, x = .alive s → ∃ th, s.threads t = some th ∧ th.hash = th0.hash ∧ left th.pos + n ≤ left th0.pos := by
  induction hr with
  | refl => exact ⟨Nat.zero_le _, fun s hs => by cases hs; exact ⟨th0, ht0, rfl, Nat.le_refl _⟩⟩
  | @mine n s x _ hst ih =>
    obtain ⟨th, h1, h2, h3⟩ := ih.2 s rfl
    refine ⟨?_, ?_⟩
    · have := left_pos (hst.step.busy h1)
      omega
    · rintro s2 rfl
      obtain ⟨th2, g1, g2, g3, -⟩ := hst.moves h1
      exact ⟨th2, g1, g2.trans h2, by omega⟩
  | other a ha ho _ hst ih =>
    refine ⟨ih.1, ?_⟩
    rintro s2 rfl
    obtain ⟨th, h1, h2, h3⟩ := ih.2 _ rfl
    refine ⟨th, ?_, h2, h3⟩
    rw [hst.step.effect.2 t ha]; exact h1

/-- C123: a download of a file that is not complete, when no transfer of this file is under way: the network goes away, and the daemon ends before the goroutine has taken `left` steps.  Until then the
catalogue shows the file as it was. -/
theorem C123_ends_partial (hh : Healthy env d) {t : Nat} {s0 : DLState} (hreach : Reach env d dl (.running s0.cat s0.fs)) {e : Export} (ho : observe s0.cat s0.fs h = .ok e)
    (hmiss : ∃ i : Nat, (i : Int) < e.progress.sizeOf ∧ ¬ e.saved i) {th0 : DLThread} (ht0 : s0.threads t = some th0) (hh0 : th0.hash = h) (hb0 : th0.pos.Busy)
    (hno : ∀ t' th', s0.threads t' = some th' → th'.hash = h → th'.transfer = none) {n : Nat} {x : DLSys} (hr : AwayRun env d h t s0 n x) :
    n ≤ left th0.pos ∧ ((∃ why, x = .dead why) ∨
      ∃ s th, x = .alive s ∧ observe s.cat s.fs h = .ok e ∧ s.threads t = some th ∧ th.hash = h ∧ th.pos.Busy ∧ left th.pos + n ≤ left th0.pos) := by
  suffices key : ∀ s, x = .alive s → Reach env d dl (.running s.cat s.fs) ∧ observe s.cat s.fs h = .ok e ∧
      (∀ t' th', s.threads t' = some th' → th'.hash = h → th'.transfer = none) ∧ ∃ th, s.threads t = some th ∧ th.pos.Busy by
    obtain ⟨h1, h2⟩ := C123_steps_partial ht0 hr
    refine ⟨h1, ?_⟩
    cases x with
    | dead why => exact .inl ⟨why, rfl⟩
    | alive s =>
      obtain ⟨-, k1, -, th, k2, k3⟩ := key s rfl
      obtain ⟨th', g1, g2, g3⟩ := h2 s rfl
      rw [k2] at g1; cases g1
      exact .inr ⟨s, th, rfl, k1, k2, g2.trans hh0, k3, g3⟩
  have keep : ∀ {a : Actor} {s1 s2 : DLState}, Reach env d dl (.running s1.cat s1.fs) → observe s1.cat s1.fs h = .ok e →
      (∀ t' th', s1.threads t' = some th' → th'.hash = h → th'.transfer = none) → (∀ o, a = .call o → ¬ o.Touches h) → AwayStep env d a s1 (.alive s2) →
      observe s2.cat s2.fs h = .ok e ∧ ∀ t' th', s2.threads t' = some th' → th'.hash = h → th'.transfer = none := by
    intro a s1 s2 i1 i2 i3 hcall hst
    have hne : observe s1.cat s1.fs h ≠ .err .fileNotFound := by rw [i2]; intro hx; cases hx
    refine ⟨?_, ?_⟩
    · rcases hst.step.effect.1 with ⟨h1, h2⟩ | ⟨p, x, rfl, hp, h1, h2⟩ | ⟨o, fl, r, st', h1, h2, h3, h4, h5, h6⟩
      · rw [h1, h2]; exact i2
      · rw [h1, h2, observe_user hh i1 p x hp h]; exact i2
      · rw [h4, h5]
        have key : ¬ o.Touches h → observe st'.cat st'.fs h = .ok e := fun g1 => by rw [observe_other hh i1 h hne o h1 g1 fl r st' h2, i2]
        rcases h6 with rfl | ⟨t, th, rfl, ht, -, h6⟩
        · exact key (hcall o rfl)
        · rcases h6 with h6 | ⟨n, b, rfl, -, own, host, todo, hpos⟩
          · exact key (h6 h)
          · refine key (fun hx => ?_)
            have := i3 t th ht hx
            unfold DLThread.transfer at this
            rw [hpos] at this
            cases this
    · intro t' th' ht' hx
      by_cases ha : a = .thread t'
      · subst ha
        cases hold : s1.threads t' with
        | some th1 =>
          obtain ⟨th2, g1, g2, -, -, g5, -⟩ := hst.moves hold
          rw [ht'] at g1; cases g1
          exact g5
        | none =>
          obtain ⟨k, hk⟩ := hst.step.first hold
          rw [ht'] at hk; cases hk; rfl
      · rw [hst.step.effect.2 t' ha] at ht'
        exact i3 t' th' ht' hx
  induction hr with
  | refl => rintro s hs; cases hs; exact ⟨hreach, ho, hno, th0, ht0, hb0⟩
  | @mine n s1 x _ hst ih =>
    rintro s2 rfl
    obtain ⟨i1, i2, i3, th, i4, i5⟩ := ih s1 rfl
    obtain ⟨g1, g2⟩ := keep i1 i2 i3 (by intro o ho; cases ho) hst
    refine ⟨hst.step.reach i1, g1, g2, ?_⟩
    obtain ⟨th2, k1, k2, k3, k4, -, k6⟩ := hst.moves i4
    refine ⟨th2, k1, ?_⟩
    rcases hpos : th2.pos with _ | _ | _ | _ | _ | _ | _ | _ | _
    case refused => exact (k4 hpos).elim
    case finished =>
      exfalso
      obtain ⟨fl, s', hc⟩ := k6 hpos
      obtain ⟨th', j1, j2, -⟩ := (C123_steps_partial ht0 ‹_›).2 s1 rfl
      rw [i4] at j1; cases j1
      rw [j2, hh0] at hc
      obtain ⟨e', m1, m2, -⟩ := C34_complete hh i1 h fl true s' hc
      rw [i2] at m1; cases m1
      obtain ⟨i, hi, hs⟩ := hmiss
      exact hs (m2.1 rfl i hi)
    all_goals trivial
  | @other n s1 x a ha hcall _ hst ih =>
    rintro s2 rfl
    obtain ⟨i1, i2, i3, th, i4, i5⟩ := ih s1 rfl
    obtain ⟨g1, g2⟩ := keep i1 i2 i3 hcall hst
    exact ⟨hst.step.reach i1, g1, g2, th, by rw [hst.step.effect.2 t ha]; exact i4, i5⟩

/-- C123, and that is what happens to every download: three steps after the network went away at the beginning of a round, the daemon has ended, although the disk works. -/
theorem C123_dies (hh : Healthy env d) {t : Nat} {s : DLState} (hclean : CleanReach env d dl (.running s.cat s.fs)) {e : Export} (ho : observe s.cat s.fs h = .ok e)
    (hsize : e.progress.sizeOf ≤ 65536) (hmiss : ∃ i : Nat, (i : Int) < e.progress.sizeOf ∧ ¬ e.saved i) {own : ByteArr 4} {rounds : List (UInt16 × Bool)}
    (ht : s.threads t = some ⟨h, .test own, rounds⟩) : AwayRun env d h t s 3 (.dead (.search t)) := by
  obtain ⟨i0, hi1, hi2⟩ := hmiss
  obtain ⟨⟨v, s1, h1⟩, -⟩ := C34_total hh hclean h e ho
  obtain ⟨e', g1, g2, g3, g4⟩ := C34_complete hh hclean.reach h [] v s1 h1
  rw [ho] at g1; cases g1
  have hv : v = false := by
    cases v with
    | false => rfl
    | true => exact absurd (g2.1 rfl i0 hi1) hi2
  subst hv
  have hc1 := hclean.returns (.complete h) trivial s1 (.inl (CM.void_ok _ _ _ _ h1))
  have ho1 : observe s1.cat s1.fs h = .ok e := (g4 h).trans ho
  obtain ⟨-, hm⟩ := C34_total hh hc1 h e ho1
  obtain ⟨rs, s2, h2⟩ := hm hsize
  obtain ⟨e', k1, k2, k3, k4⟩ := C34_missing hh hc1.reach h [] rs s2 h2
  rw [ho1] at k1; cases k1
  rcases rs with _ | ⟨rg, rest⟩
  · exact absurd ((k4 hsize).2.1.1 rfl i0 hi1) hi2
  have st1 := DLStep.test (env := env) (d := d) t s ⟨h, .test own, rounds⟩ [] own false s1 ht rfl h1
  have r1 := AwayRun.mine (h := h) .refl (AwayStep.quiet _ _ _ st1 (by intro t' th' ha ht'; cases ha; rw [ht] at ht'; cases ht'; trivial))
  have st2 := DLStep.want (env := env) (d := d) t ({ s with cat := s1.cat, fs := s1.fs }.move t ⟨h, .test own, rounds⟩ (.want own)) ⟨h, .want own, rounds⟩ [] own rg rest s2 (upd_self s.threads t _) rfl h2
  have r2 := AwayRun.mine r1 (AwayStep.quiet _ _ _ st2 (by
    intro t' th' ha ht'; cases ha
    have ht' : upd s.threads t (some ⟨h, .want own, rounds⟩) t = some th' := ht'
    rw [upd_self] at ht'; cases ht'; trivial))
  exact AwayRun.mine r2 (AwayStep.search t _ ⟨h, .search own rg.start, (rg.start, false) :: rounds⟩ own rg.start (upd_self _ _ _) rfl)

end

/-- What a user expects of a download whose network goes away: it waits. -/
def C123_statement (env : Env) (d dl : Path) : Prop :=
  ∀ (h : Sha1Hash) (t : Nat) (s : DLState) (e : Export) (own : ByteArr 4), CleanReach env d dl (.running s.cat s.fs) → observe s.cat s.fs h = .ok e → s.threads t = some ⟨h, .test own, []⟩ →
    ∀ n, ¬ AwayRun env d h t s n (.dead (.search t))

/-- **C123**: it does not wait: it ends the daemon. -/
theorem C123_refuted (sha1 : Bytes → Sha1Hash) (json : JsonCodec) (h : Sha1Hash) : ¬ C123_statement (exEnv sha1 json) exDir exDown := by
  intro hst
  obtain ⟨s, e, hr, h2, h3⟩ := ex_ready sha1 json h (fun t => if t = 1 then some ⟨h, .test exOwn, []⟩ else none) rfl
  have hmem : 0 ∈ missingList e := by rw [h3]; decide
  obtain ⟨j1, j2⟩ := (mem_missingList _ _).1 hmem
  exact hst h 1 s e exOwn hr.clean hr.obs hr.thread 3 (C123_dies (ex_healthy sha1 json) hr.clean hr.obs hr.size ⟨0, by omega, j2⟩ hr.thread)

/-- `C123_ends_partial`, `C123_steps_partial`: a download of which nothing is there yet, one step after the network went away. -/
example (sha1 : Bytes → Sha1Hash) (json : JsonCodec) (h : Sha1Hash) : ∃ s s' e, Reach (exEnv sha1 json) exDir exDown (.running s.cat s.fs) ∧ observe s.cat s.fs h = .ok e ∧
    (∃ i : Nat, (i : Int) < e.progress.sizeOf ∧ ¬ e.saved i) ∧ s.threads 1 = some ⟨h, .test exOwn, []⟩ ∧ (∀ t' th', s.threads t' = some th' → th'.hash = h → th'.transfer = none) ∧
    AwayRun (exEnv sha1 json) exDir h 1 s 1 (.alive s') ∧ s'.threads 1 = some ⟨h, .want exOwn, []⟩ := by
  obtain ⟨s, e, hr, h2, h3⟩ := ex_ready sha1 json h (fun t => if t = 1 then some ⟨h, .test exOwn, []⟩ else none) rfl
  have hmem : 0 ∈ missingList e := by rw [h3]; decide
  obtain ⟨j1, j2⟩ := (mem_missingList _ _).1 hmem
  obtain ⟨⟨v, s1, h1⟩, -⟩ := C34_total (ex_healthy sha1 json) hr.clean h e hr.obs
  obtain ⟨e', g1, g2, -⟩ := C34_complete (ex_healthy sha1 json) hr.clean.reach h [] v s1 h1
  rw [hr.obs] at g1; cases g1
  have hv : v = false := by
    cases v with
    | false => rfl
    | true => exact absurd (g2.1 rfl 0 (by omega)) j2
  subst hv
  have st1 := DLStep.test (env := exEnv sha1 json) (d := exDir) 1 s ⟨h, .test exOwn, []⟩ [] exOwn false s1 hr.thread rfl h1
  refine ⟨s, _, e, hr.clean.reach, hr.obs, ⟨0, by omega, j2⟩, hr.thread, ?_,
    .mine .refl (.quiet _ _ _ st1 (by intro t' th' ha ht'; cases ha; rw [hr.thread] at ht'; cases ht'; trivial)), upd_self s.threads 1 _⟩
  intro t' th' ht' hx
  rw [h2] at ht'
  simp only [] at ht'
  split at ht'
  · cases ht'; rfl
  · cases ht'

/-- `C123_get_partial`: a machine with an address but without a route. -/
example : (⟨some [[10, 0, 0, 1]], none, fun _ => .noSocket⟩ : DLWire).responses = none ∧ ownAddress (some [[10, 0, 0, 1]]) = .ok exOwn := ⟨rfl, by decide⟩

/-- `C123_host_partial`: a host has answered, and no socket to it can be opened. -/
example (sha1 : Bytes → Sha1Hash) (json : JsonCodec) (h : Sha1Hash) : ∃ c fs, CleanReach (exEnv sha1 json) exDir exDown (.running c fs) ∧ observe c fs h = .err .fileNotFound ∧
    goodHosts exOwn [exPeer] = [exPeer] ∧ (startDownload (exEnv sha1 json) ⟨some [[10, 0, 0, 1]], some [exPeer], fun _ => .noSocket⟩ h ⟨c, fs, []⟩).1 = .exit := by
  have hh := ex_healthy sha1 json
  have h0 := CleanReach.fresh (exEnv sha1 json) exDir exDown hh.utf8 exFS ex_fs_clean
  exact ⟨_, _, h0, rfl, ex_good, C123_host_partial hh h0 _ exOwn _ exPeer [] (by decide) rfl ex_good rfl rfl⟩

end Flu
