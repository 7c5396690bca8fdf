import Verif.Props.DownloadLoop
import Verif.Lemmas.Json2
/-!
# The transfer lock: one transfer at a time, and no deadlock
-/
namespace Flu
open Spec

/-- The transfer a thread is in the middle of: the file and the host. -/
def DLThread.transfer (th : DLThread) : Option DLKey :=
  match th.pos with
  | .fetching _ _ r _ => some (th.hash, r.addr)
  | _ => none

/-- Thread `t` is in the middle of the transfer `k`. -/
def Spec.Transfers (s : DLState) (t : Nat) (k : DLKey) : Prop := ∃ th, s.threads t = some th ∧ th.transfer = some k

/-- No transfer is under way, as when the daemon starts. -/
structure DLIdle (s : DLState) : Prop where
  lock : s.locked = false
  table : ∀ k, s.downloads k = false
  threads : ∀ t k, ¬ Transfers s t k

/-- The lock and the table record exactly the transfer that is under way. -/
structure DLLock (s : DLState) : Prop where
  one : ∀ t t' k k', Transfers s t k → Transfers s t' k' → t = t'
  lock : s.locked = true ↔ ∃ t k, Transfers s t k
  table : ∀ k, s.downloads k = true ↔ ∃ t, Transfers s t k

theorem DLIdle.inv {s : DLState} (h : DLIdle s) : DLLock s := by
  refine ⟨fun t t' k k' h1 _ => absurd h1 (h.threads t k), ?_, ?_⟩
  · rw [h.lock]; exact ⟨fun h => (by cases h), fun ⟨t, k, h1⟩ => absurd h1 (h.threads t k)⟩
  · intro k; rw [h.table]; exact ⟨fun h => (by cases h), fun ⟨t, h1⟩ => absurd h1 (h.threads t k)⟩

theorem Transfers.unique {s : DLState} {t : Nat} {k k' : DLKey} (h : Transfers s t k) (h' : Transfers s t k') : k = k' := by
  obtain ⟨th, h1, h2⟩ := h
  obtain ⟨th', h3, h4⟩ := h'
  rw [h1] at h3; cases h3
  rw [h2] at h4; exact Option.some.inj h4

/-- A step that takes no part in transfers. -/
theorem DLLock.same {s s2 : DLState} (h : DLLock s) (h1 : s2.locked = s.locked) (h2 : s2.downloads = s.downloads) (h3 : ∀ t k, Transfers s2 t k ↔ Transfers s t k) : DLLock s2 := by
  refine ⟨?_, ?_, ?_⟩
  · intro t t' k k' a b; exact h.one t t' k k' ((h3 t k).1 a) ((h3 t' k').1 b)
  · rw [h1, h.lock]; simp only [h3]
  · intro k; rw [h2, h.table]; simp only [h3]

theorem transfers_upd (s s2 : DLState) (t : Nat) (th : DLThread) (h2 : s2.threads = upd s.threads t (some th)) (hn : th.transfer = none)
    (h : ∀ k, ¬ Transfers s t k) (t' : Nat) (k : DLKey) : Transfers s2 t' k ↔ Transfers s t' k := by
  unfold Transfers
  rw [h2]
  unfold upd
  by_cases e : t' = t
  · subst e
    rw [if_pos rfl]
    constructor
    · rintro ⟨th', h3, h4⟩
      cases h3; rw [hn] at h4; cases h4
    · intro h3; exact absurd h3 (h k)
  · rw [if_neg e]

theorem not_transfers (s : DLState) (t : Nat) (th : DLThread) (h : s.threads t = some th) (hn : th.transfer = none) (k : DLKey) : ¬ Transfers s t k := by
  rintro ⟨th', h3, h4⟩
  rw [h] at h3; cases h3; rw [hn] at h4; cases h4

/-- The transfer ends. -/
theorem DLLock.release {s s2 : DLState} (h : DLLock s) (t : Nat) (k : DLKey) (th : DLThread) (hk : Transfers s t k) (h1 : s2.locked = false)
    (h2 : s2.downloads = upd s.downloads k false) (h3 : s2.threads = upd s.threads t (some th)) (hn : th.transfer = none) : DLLock s2 := by
  have none' : ∀ t' k', ¬ Transfers s2 t' k' := by
    rintro t' k' ⟨th', h4, h5⟩
    rw [h3] at h4
    unfold upd at h4
    split at h4
    · cases h4; rw [hn] at h5; cases h5
    · rename_i hne
      exact hne (h.one t' t k' k ⟨th', h4, h5⟩ hk)
  refine DLIdle.inv ⟨h1, ?_, none'⟩
  intro k'
  rw [h2]
  unfold upd
  split
  · rfl
  · rename_i hne
    cases hd : s.downloads k' with
    | false => rfl
    | true =>
      obtain ⟨t', ht'⟩ := (h.table k').1 hd
      have := h.one t' t k' k ht' hk
      subst this
      exact absurd (Transfers.unique ht' hk) hne

section
variable {env : Env} {d dl : Path}

theorem DLLock.step {a : Actor} {s s2 : DLState} (h : DLLock s) (hst : DLStep env d a s (.alive s2)) : DLLock s2 := by
  generalize hx : DLSys.alive s2 = x at hst
  cases hst with
  | checkDies | setupDies | testDies | wantNone | wantDies | searchDies | dialDies | fetchDies | callDies => cases hx
  | start t hash _ ht =>
    cases hx
    exact h.same rfl rfl (transfers_upd _ _ t _ rfl rfl (by rintro k ⟨th, h1, -⟩; rw [ht] at h1; cases h1))
  | call | user => cases hx; exact h.same rfl rfl (fun _ _ => Iff.rfl)
  | check t _ th fl b s' ht hp hrun | setup t _ th fl w b own s' ht hp hrun | refuse t _ th fl w b e s' ht hp hrun
  | want t _ th fl own r rest s' ht hp hrun | search t _ th own c rs ht hp | again t _ th own c ht hp | skip t _ th own c r todo ht hp hl hk =>
    cases hx
    refine h.same rfl rfl (transfers_upd _ _ t _ rfl rfl (not_transfers s t th ht ?_))
    unfold DLThread.transfer; rw [hp]
  | test t _ th fl own v s' ht hp hrun =>
    cases hx
    refine h.same rfl rfl (transfers_upd _ _ t _ rfl ?_ (not_transfers s t th ht ?_))
    · cases v <;> rfl
    · unfold DLThread.transfer; rw [hp]
  | dial t _ th own c r todo ht hp hl hk =>
    cases hx
    have hno : ∀ t' k', ¬ Transfers s t' k' := by
      intro t' k' ht'
      have := h.lock.2 ⟨t', k', ht'⟩
      rw [hl] at this; cases this
    have key : ∀ t' k', Transfers ({ s with locked := true, downloads := upd s.downloads (th.hash, r.addr) true }.move t th (.fetching own c r todo)) t' k' ↔
        t' = t ∧ k' = (th.hash, r.addr) := by
      intro t' k'
      unfold Transfers DLState.move upd
      simp only
      by_cases e : t' = t
      · subst e
        rw [if_pos rfl]
        constructor
        · rintro ⟨th', h1, h2⟩
          cases h1
          exact ⟨rfl, (Option.some.inj h2).symm⟩
        · rintro ⟨-, rfl⟩
          exact ⟨_, rfl, rfl⟩
      · rw [if_neg e]
        constructor
        · intro h1; exact absurd h1 (hno t' k')
        · rintro ⟨h1, -⟩; exact absurd h1 e
    refine ⟨?_, ?_, ?_⟩
    · intro t1 t2 k1 k2 h1 h2
      rw [((key _ _).1 h1).1, ((key _ _).1 h2).1]
    · exact ⟨fun _ => ⟨t, _, (key _ _).2 ⟨rfl, rfl⟩⟩, fun _ => rfl⟩
    · intro k'
      simp only [key]
      show upd s.downloads (th.hash, r.addr) true k' = true ↔ _
      unfold upd
      split
      · rename_i e; exact ⟨fun _ => ⟨t, rfl, e⟩, fun _ => rfl⟩
      · rename_i e
        constructor
        · intro hd; obtain ⟨t', ht'⟩ := (h.table k').1 hd; exact absurd ht' (hno t' k')
        · rintro ⟨t', -, h2⟩; exact absurd h2 e
  | fetched t _ th fl own c r todo queue ok s' ht hp hsafe hrun =>
    cases hx
    exact h.release t (th.hash, r.addr) { { th with rounds := delivered th.rounds } with pos := .hosts own c todo }
      ⟨th, ht, by unfold DLThread.transfer; rw [hp]⟩ rfl rfl rfl rfl
  | gaveUp t _ th fl own c r todo queue s' ht hp hrun =>
    cases hx
    exact h.release t (th.hash, r.addr) { th with pos := .hosts own c todo } ⟨th, ht, by unfold DLThread.transfer; rw [hp]⟩ rfl rfl rfl rfl

/-- C70: in every execution with any number of downloads and other calls, under arbitrary disk faults, at most one transfer is under way; the lock is held exactly
while one is, and the table of transfers contains exactly that one. -/
theorem C70_one {ok : Actor → DLSys → Prop} {s0 : DLState} (h0 : DLIdle s0) {s : DLState} (hrun : DLRun env d ok s0 (.alive s)) :
    (∀ t t' k k', Transfers s t k → Transfers s t' k' → t = t') ∧ (s.locked = true ↔ ∃ t k, Transfers s t k) ∧
      ∀ k, s.downloads k = true ↔ ∃ t, Transfers s t k := by
  suffices ∀ x, DLRun env d ok s0 x → ∀ s, x = .alive s → DLLock s from
    ⟨(this _ hrun s rfl).one, (this _ hrun s rfl).lock, (this _ hrun s rfl).table⟩
  intro x hx
  induction hx with
  | refl => intro s hs; cases hs; exact h0.inv
  | step a hr hst hok ih => intro s2 hs; subst hs; exact (ih _ rfl).step hst

/-- C70: a host is never passed over because of an earlier transfer, finished or failed: when a download comes to a host, what it does next is to fetch the chunk
from that host. -/
theorem C70_every_host {ok : Actor → DLSys → Prop} {s0 : DLState} (h0 : DLIdle s0) {s s2 : DLState} (hrun : DLRun env d ok s0 (.alive s)) (t : Nat) (th : DLThread)
    (own : ByteArr 4) (c : UInt16) (r : HostResp) (todo : List HostResp) (ht : s.threads t = some th) (hp : th.pos = .hosts own c (r :: todo))
    (hst : DLStep env d (.thread t) s (.alive s2)) :
    s.locked = false ∧ s2.threads t = some { th with pos := .fetching own c r todo } ∧ s2.cat = s.cat ∧ s2.fs = s.fs := by
  obtain ⟨h1, h2, h3⟩ := C70_one h0 hrun
  generalize hx : DLSys.alive s2 = x at hst
  have no : ∀ {th' : DLThread} {pos : DLPos}, s.threads t = some th' → th'.pos = pos → pos = .hosts own c (r :: todo) := by
    intro th' pos h4 h5
    rw [ht] at h4; cases h4; rw [← h5, hp]
  cases hst with
  | checkDies | setupDies | testDies | wantNone | wantDies | searchDies | dialDies | fetchDies => cases hx
  | start _ hash _ ht' => rw [ht'] at ht; cases ht
  | check _ _ th' fl b s' ht' hp' | setup _ _ th' fl w b own' s' ht' hp' | refuse _ _ th' fl w b e s' ht' hp'
  | want _ _ th' fl own' r' rest s' ht' hp' | search _ _ th' own' c' rs ht' hp' | again _ _ th' own' c' ht' hp' | test _ _ th' fl own' v s' ht' hp'
  | fetched _ _ th' fl own' c' r' todo' queue ok s' ht' hp' | gaveUp _ _ th' fl own' c' r' todo' queue s' ht' hp' =>
    cases no ht' hp'
  | skip _ _ th' own' c' r' todo' ht' hp' hl hk =>
    exfalso
    obtain ⟨t', ht''⟩ := (h3 _).1 hk
    have := h2.2 ⟨t', _, ht''⟩
    rw [hl] at this; cases this
  | dial _ _ th' own' c' r' todo' ht' hp' hl hk =>
    cases hx
    cases no ht' hp'
    rw [ht] at ht'; cases ht'
    exact ⟨hl, upd_self _ _ _, rfl, rfl⟩

/-- The call of the catalogue that a thread makes next returns or kills the daemon, so a thread that is not waiting for the lock can go on. -/
theorem DLStep.enabled (s : DLState) (t : Nat) (th : DLThread) (ht : s.threads t = some th) (hb : th.pos.Busy) (hfree : s.locked = false ∨ th.transfer ≠ none) :
    ∃ x, DLStep env d (.thread t) s x := by
  rcases hpos : th.pos with _ | b | _ | own | own | ⟨own, c⟩ | ⟨own, c, todo⟩ | ⟨own, c, r, todo⟩ | _
  · rcases hrun : startCheck th.hash ⟨s.cat, s.fs, []⟩ with ⟨r, s'⟩
    cases r with
    | ok b => exact ⟨_, .check t s th [] b s' ht hpos hrun⟩
    | _ => exact ⟨_, .checkDies t s th [] ht hpos (by rw [hrun]; intro b hb; cases hb)⟩
  · let w : DLWire := ⟨none, none, fun _ => .silence⟩
    rcases hrun : startSetup env w th.hash b ⟨s.cat, s.fs, []⟩ with ⟨r, s'⟩
    cases r with
    | ok own => exact ⟨_, .setup t s th [] w b own s' ht hpos hrun⟩
    | err e => exact ⟨_, .refuse t s th [] w b e s' ht hpos hrun⟩
    | _ => exact ⟨_, .setupDies t s th [] w b ht hpos (by rw [hrun]; rfl)⟩
  · rw [hpos] at hb; exact hb.elim
  · rcases hrun : fileComplete th.hash ⟨s.cat, s.fs, []⟩ with ⟨r, s'⟩
    cases r with
    | ok v => exact ⟨_, .test t s th [] own v s' ht hpos hrun⟩
    | _ => exact ⟨_, .testDies t s th [] own ht hpos (by rw [hrun]; intro b hb; cases hb)⟩
  · rcases hrun : missingChunks th.hash ⟨s.cat, s.fs, []⟩ with ⟨r, s'⟩
    cases r with
    | ok v =>
      rcases v with _ | ⟨r, rest⟩
      · exact ⟨_, .wantNone t s th [] own s' ht hpos hrun⟩
      · exact ⟨_, .want t s th [] own r rest s' ht hpos hrun⟩
    | _ => exact ⟨_, .wantDies t s th [] own ht hpos (by rw [hrun]; intro b hb; cases hb)⟩
  · exact ⟨_, .search t s th own c [] ht hpos⟩
  · have hl : s.locked = false := by
      rcases hfree with h | h
      · exact h
      · unfold DLThread.transfer at h; rw [hpos] at h; exact absurd rfl h
    rcases todo with _ | ⟨r, todo⟩
    · exact ⟨_, .again t s th own c ht hpos⟩
    · cases hk : s.downloads (th.hash, r.addr) with
      | false => exact ⟨_, .dial t s th own c r todo ht hpos hl hk⟩
      | true => exact ⟨_, .skip t s th own c r todo ht hpos hl hk⟩
  · exact ⟨_, .gaveUp t s th [] own c r todo [none] _ ht hpos rfl⟩
  · rw [hpos] at hb; exact hb.elim

/-- C70: no deadlock.  In every execution, a download that is not over can go on at once, unless it waits for the lock; then exactly one other download holds the
lock, that one gives it back when its peer is silent for five seconds, and the waiting download can go on.  (Transfers do not wait for anything but their peer.) -/
theorem C70_progress {ok : Actor → DLSys → Prop} {s0 : DLState} (h0 : DLIdle s0) {s : DLState} (hrun : DLRun env d ok s0 (.alive s)) (t : Nat) (th : DLThread)
    (ht : s.threads t = some th) (hb : th.pos.Busy) :
    (∃ x, DLStep env d (.thread t) s x) ∨
      ∃ t' k s1 x, t' ≠ t ∧ Transfers s t' k ∧ DLStep env d (.thread t') s (.alive s1) ∧ s1.cat = s.cat ∧ s1.fs = s.fs ∧ s1.threads t = some th ∧
        DLStep env d (.thread t) s1 x := by
  obtain ⟨h1, h2, h3⟩ := C70_one h0 hrun
  cases hl : s.locked with
  | false => exact .inl (DLStep.enabled s t th ht hb (.inl hl))
  | true =>
    by_cases htr : th.transfer = none
    · obtain ⟨t', k, hk⟩ := h2.1 hl
      have hne : t' ≠ t := by
        rintro rfl
        exact not_transfers s t' th ht htr k hk
      have hk0 := hk
      obtain ⟨th', ht', htr'⟩ := hk
      rcases hpos : th'.pos with _ | b | _ | own | own | ⟨own, c⟩ | ⟨own, c, todo⟩ | ⟨own, c, r, todo⟩ | _
      case fetching =>
        let s1 : DLState := ⟨s.cat, s.fs, false, upd s.downloads (th'.hash, r.addr) false, upd s.threads t' (some { th' with pos := .hosts own c todo })⟩
        have hst : DLStep env d (.thread t') s (.alive s1) := .gaveUp t' s th' [] own c r todo [none] ⟨s.cat, s.fs, []⟩ ht' hpos rfl
        have hthr : (upd s.threads t' (some { th' with pos := .hosts own c todo })) t = some th := by
          unfold upd; rw [if_neg (fun e => hne e.symm), ht]
        obtain ⟨x, hx⟩ := DLStep.enabled (env := env) (d := d) s1 t th hthr hb (.inl rfl)
        exact .inr ⟨t', k, _, x, hne, hk0, hst, rfl, rfl, hthr, hx⟩
      all_goals (unfold DLThread.transfer at htr'; rw [hpos] at htr'; cases htr')
    · exact .inl (DLStep.enabled s t th ht hb (.inr htr))

/-- C71, the blocking: while a transfer is under way, no other download can begin to fetch anything. -/
theorem C71_blocks {ok : Actor → DLSys → Prop} {s0 : DLState} (h0 : DLIdle s0) {s : DLState} (hrun : DLRun env d ok s0 (.alive s)) (t t' : Nat) (k : DLKey)
    (hk : Transfers s t k) (th : DLThread) (own : ByteArr 4) (c : UInt16) (r : HostResp) (todo : List HostResp) (ht : s.threads t' = some th)
    (hp : th.pos = .hosts own c (r :: todo)) : ∀ s2, ¬ DLStep env d (.thread t') s (.alive s2) := by
  intro s2 hst
  have hl := (C70_every_host h0 hrun t' th own c r todo ht hp hst).1
  have := (C70_one h0 hrun).2.1.2 ⟨t, k, hk⟩
  rw [hl] at this; cases this

end

/-! ### How long a transfer takes -/

/-- The claim in full: a peer cannot keep a transfer, and with it all other downloads, waiting for ever: there is a bound on the number of datagrams. -/
def C71_statement : Prop :=
  ∀ (env : Env) (h : Sha1Hash) (c : UInt16) (s : St), ∃ N, ∀ queue : List (Option Bytes), N ≤ queue.length → (downloadChunk env h c queue s).1 ≠ .ok .waiting

theorem recvLoop_none (sha1 : Bytes → Sha1Hash) (queue : List (Option Bytes)) (hn : none ∈ queue) : ∀ (rc : RConn) acks rc', recvLoop sha1 rc queue ≠ .ok (acks, .waiting rc') := by
  induction queue with
  | nil => cases hn
  | cons q rest ih =>
    intro rc acks rc' h
    rcases q with _ | dg
    · cases h
    · have hn' : none ∈ rest := by rcases List.mem_cons.1 hn with h | h; cases h; exact h
      simp only [recvLoop] at h
      obtain ⟨p, -, h⟩ := (Res.bind_ok_iff _ _ _).1 h
      obtain ⟨⟨c', act⟩, -, h⟩ := (Res.bind_ok_iff _ _ _).1 h
      rcases act with o | ⟨b, ok⟩
      · simp only at h
        obtain ⟨⟨acks', out⟩, h1, h⟩ := (Res.bind_ok_iff _ _ _).1 h
        cases h
        exact ih hn' _ _ _ h1
      · cases h

/-- What of C71 is true: a peer that is silent for five seconds ends the transfer, whatever it sent before.  Missing: a peer that keeps sending. -/
theorem C71_partial (env : Env) (h : Sha1Hash) (c : UInt16) (s : St) (queue : List (Option Bytes)) (hn : none ∈ queue) : (downloadChunk env h c queue s).1 ≠ .ok .waiting := by
  intro hw
  rcases hr : downloadChunk env h c queue s with ⟨r, s'⟩
  rw [hr] at hw
  simp only at hw
  subst hw
  unfold downloadChunk at hr
  rcases IOM.lift_bind_inv _ _ _ _ _ hr rfl with ⟨⟨acks, out⟩, h1, h2⟩ | ⟨e, -, h2, -⟩
  · rcases out with rc | _ | ⟨b, ok⟩
    · exact recvLoop_none _ _ hn _ _ _ h1
    · cases h2
    · obtain ⟨_, _, -, h3⟩ := (IOM.bind_ok_iff _ _ _ _ _).1 h2
      cases h3
  · cases h2

/-- A first packet without any data, announcing an empty chunk; sent again and again it keeps the transfer alive. -/
def idlePacket : Packet := ⟨0, List.replicate 24 0⟩

theorem recvLoop_idle (sha1 : Bytes → Sha1Hash) (n : Nat) : ∀ rc, ∃ acks rc', recvLoop sha1 rc (List.replicate n (some idlePacket.bytes)) = .ok (acks, .waiting rc') := by
  induction n with
  | zero => exact fun rc => ⟨_, _, rfl⟩
  | succ n ih =>
    intro rc
    have h1 : readPacket idlePacket.bytes = .ok idlePacket := readPacket_bytes _ (by decide)
    have h2 : ∃ rc', onPacket sha1 rc idlePacket = .ok (rc', .ack 0) := ⟨_, rfl⟩
    obtain ⟨rc', h2⟩ := h2
    obtain ⟨acks, rc'', h3⟩ := ih rc'
    refine ⟨0 :: acks, rc'', ?_⟩
    rw [List.replicate_succ]
    simp only [recvLoop, h1, h2, h3, Res.bind_ok]
    rfl

/-- C71 fails for every file and chunk: a peer that keeps sending its first packet, at least every five seconds, keeps the transfer going for as long as it likes. -/
theorem C71_forever (env : Env) (h : Sha1Hash) (c : UInt16) (s : St) (n : Nat) :
    downloadChunk env h c (List.replicate n (some idlePacket.bytes)) s = (.ok .waiting, s) := by
  obtain ⟨acks, rc', h1⟩ := recvLoop_idle env.sha1 n .fresh
  unfold downloadChunk
  rw [IOM.bind_apply, h1]
  rfl

/-- C71 is false of the code. -/
theorem C71_refuted : ¬ C71_statement := by
  intro hst
  obtain ⟨N, hN⟩ := hst (exEnv (fun _ => ⟨List.replicate 20 0, by simp⟩) goJson) ⟨List.replicate 20 0, by simp⟩ 0 ⟨⟨[], [], none⟩, fun _ => none, []⟩
  exact hN (List.replicate N (some idlePacket.bytes)) (by simp) (by rw [C71_forever])

/-! ### Examples -/

/-- An idle state with two downloads, both about to take the lock. -/
def exTwo (c : Cat) (fs : FS) (h : Sha1Hash) : DLState :=
  ⟨c, fs, false, fun _ => false, fun t => if t < 2 then some ⟨h, .hosts exOwn 0 [exPeer], [(0, false)]⟩ else none⟩

theorem exTwo_idle (c : Cat) (fs : FS) (h : Sha1Hash) : DLIdle (exTwo c fs h) := by
  refine ⟨rfl, fun _ => rfl, ?_⟩
  rintro t k ⟨th, h1, h2⟩
  unfold exTwo at h1
  simp only at h1
  split at h1
  · cases h1; cases h2
  · cases h1

/-- `C70_one`, `C70_progress`, `C71_blocks`: a run after which one of them transfers and the other waits. -/
example (env : Env) (d : Path) (c : Cat) (fs : FS) (h : Sha1Hash) : ∃ s, DLIdle (exTwo c fs h) ∧ DLRun env d (fun _ _ => True) (exTwo c fs h) (.alive s) ∧
    Transfers s 0 (h, exPeer.addr) ∧ s.threads 1 = some ⟨h, .hosts exOwn 0 [exPeer], [(0, false)]⟩ := by
  refine ⟨_, exTwo_idle c fs h, .step (.thread 0) .refl (.dial 0 _ ⟨h, .hosts exOwn 0 [exPeer], [(0, false)]⟩ exOwn 0 exPeer [] rfl rfl rfl rfl) trivial, ?_, rfl⟩
  exact ⟨_, rfl, rfl⟩

/-- `C70_every_host`: the step that begins a transfer. -/
example (env : Env) (d : Path) (c : Cat) (fs : FS) (h : Sha1Hash) : ∃ s2, DLStep env d (.thread 0) (exTwo c fs h) (.alive s2) :=
  ⟨_, .dial 0 _ ⟨h, .hosts exOwn 0 [exPeer], [(0, false)]⟩ exOwn 0 exPeer [] rfl rfl rfl rfl⟩

/-- `C71_partial`: a packet followed by silence. -/
example : none ∈ [some idlePacket.bytes, none] := by simp

end Flu
