import Verif.Props.DownloadLoop
/-!
# C90: a download whose lowest missing chunk nobody has
-/
namespace Flu
open Spec
variable {env : Env} {d dl : Path}

/-- The chunk ranges of a response (first and last chunk, alternating) contain chunk `i`. -/
def Spec.Offers : List UInt16 → Nat → Prop
  | a :: b :: rest, i => (a.toNat ≤ i ∧ i ≤ b.toNat) ∨ Spec.Offers rest i
  | _, _ => False

/-- Runs in which nobody else touches the file `h`, and in which downloads of `h` obtain chunk `c` only if `can c`. -/
def Spec.Supplied (h : Sha1Hash) (can : Nat → Prop) (a : Actor) (x : DLSys) : Prop :=
  (∀ o, a = .call o → ¬ o.Touches h) ∧ ∀ s, x = .alive s → ∀ t th, s.threads t = some th → th.hash = h → ∀ c, (c, true) ∈ th.rounds → can c.toNat

/-- A download that is in the middle of a round asks for chunk `m`. -/
def Spec.AsksFor (m : UInt16) (th : DLThread) : Prop :=
  match th.pos with
  | .search _ c | .hosts _ c _ | .fetching _ c _ _ => c = m ∧ ∃ b rest, th.rounds = (m, b) :: rest
  | _ => True

/-- The end of a transfer: the chunk was delivered, or nothing happened. -/
theorem DLStep.fetch {t : Nat} {s s2 : DLState} (hst : DLStep env d (.thread t) s (.alive s2)) {th : DLThread} {own : ByteArr 4} {c : UInt16} {r : HostResp}
    {todo : List HostResp} (ht : s.threads t = some th) (hp : th.pos = .fetching own c r todo) :
    s2.threads t = some { th with pos := .hosts own c todo, rounds := delivered th.rounds } ∨ (s2.cat = s.cat ∧ s2.fs = s.fs) := by
  have hself : ∀ th0, s.threads t = some th0 → th0 = th := fun th0 h0 => by rw [ht] at h0; exact (Option.some.inj h0).symm
  cases hst with
  | start _ h' _ ht' => exact .inr ⟨rfl, rfl⟩
  | check _ _ th0 fl b s' ht' hp' hrun => rw [hself _ ht', hp] at hp'; cases hp'
  | setup _ _ th0 fl w b own s' ht' hp' hrun => rw [hself _ ht', hp] at hp'; cases hp'
  | refuse _ _ th0 fl w b e s' ht' hp' hrun => rw [hself _ ht', hp] at hp'; cases hp'
  | test _ _ th0 fl own v s' ht' hp' hrun => rw [hself _ ht', hp] at hp'; cases hp'
  | want _ _ th0 fl own' r rest s' ht' hp' hrun => rw [hself _ ht', hp] at hp'; cases hp'
  | search _ _ th0 own c rs ht' hp' => exact .inr ⟨rfl, rfl⟩
  | again _ _ th0 own c ht' hp' => exact .inr ⟨rfl, rfl⟩
  | skip _ _ th0 own c r todo ht' hp' hl hk => exact .inr ⟨rfl, rfl⟩
  | dial _ _ th0 own c r todo ht' hp' hl hk => exact .inr ⟨rfl, rfl⟩
  | fetched _ _ th0 fl own c r todo queue ok s' ht' hp' hsafe hrun =>
    obtain rfl := hself _ ht'
    rw [hp] at hp'; cases hp'
    exact .inl (upd_self _ _ _)
  | gaveUp _ _ th0 fl own c r todo queue s' ht' hp' hrun =>
    right
    rw [downloadChunk_eq] at hrun
    rcases hr : recvLoop env.sha1 .fresh queue with ⟨x, out⟩ | e | _ | _ | _
    · rw [hr] at hrun
      rcases out with c | _ | ⟨b, ok⟩
      · cases hrun
      · cases hrun; exact ⟨rfl, rfl⟩
      · obtain ⟨_, s1, h1, h2⟩ := (IOM.bind_ok_iff _ _ _ _ _).1 hrun
        cases h2
    all_goals (rw [hr] at hrun; cases hrun)

/-- A download does not forget what it obtained. -/
theorem DLStep.remembers {a : Actor} {s s2 : DLState} (hst : DLStep env d a s (.alive s2)) {t : Nat} {th : DLThread} (ht : s.threads t = some th) :
    ∃ th2, s2.threads t = some th2 ∧ th2.hash = th.hash ∧ ∀ c, (c, true) ∈ th.rounds → (c, true) ∈ th2.rounds := by
  by_cases hat : a = .thread t
  rotate_left
  · exact ⟨th, by rw [hst.effect.2 t hat]; exact ht, rfl, fun _ h => h⟩
  subst hat
  have hself : ∀ th0, s.threads t = some th0 → th0 = th := fun th0 h0 => by rw [ht] at h0; exact (Option.some.inj h0).symm
  cases hst with
  | start _ h' _ ht' => rw [ht] at ht'; cases ht'
  | check _ _ th0 fl b s' ht' hp' hrun => obtain rfl := hself _ ht'; exact ⟨_, upd_self _ _ _, rfl, fun _ h => h⟩
  | setup _ _ th0 fl w b own s' ht' hp' hrun => obtain rfl := hself _ ht'; exact ⟨_, upd_self _ _ _, rfl, fun _ h => h⟩
  | refuse _ _ th0 fl w b e s' ht' hp' hrun => obtain rfl := hself _ ht'; exact ⟨_, upd_self _ _ _, rfl, fun _ h => h⟩
  | test _ _ th0 fl own v s' ht' hp' hrun => obtain rfl := hself _ ht'; exact ⟨_, upd_self _ _ _, rfl, fun _ h => h⟩
  | want _ _ th0 fl own' r rest s' ht' hp' hrun => obtain rfl := hself _ ht'; exact ⟨_, upd_self _ _ _, rfl, fun _ h => List.mem_cons_of_mem _ h⟩
  | search _ _ th0 own c rs ht' hp' => obtain rfl := hself _ ht'; exact ⟨_, upd_self _ _ _, rfl, fun _ h => h⟩
  | again _ _ th0 own c ht' hp' => obtain rfl := hself _ ht'; exact ⟨_, upd_self _ _ _, rfl, fun _ h => h⟩
  | skip _ _ th0 own c r todo ht' hp' hl hk => obtain rfl := hself _ ht'; exact ⟨_, upd_self _ _ _, rfl, fun _ h => h⟩
  | dial _ _ th0 own c r todo ht' hp' hl hk => obtain rfl := hself _ ht'; exact ⟨_, upd_self _ _ _, rfl, fun _ h => h⟩
  | gaveUp _ _ th0 fl own c r todo queue s' ht' hp' hrun => obtain rfl := hself _ ht'; exact ⟨_, upd_self _ _ _, rfl, fun _ h => h⟩
  | fetched _ _ th0 fl own c r todo queue ok s' ht' hp' hsafe hrun =>
    obtain rfl := hself _ ht'
    refine ⟨_, upd_self _ _ _, rfl, ?_⟩
    intro c hc
    show (c, true) ∈ delivered th0.rounds
    rcases hr : th0.rounds with _ | ⟨⟨c1, b1⟩, rest⟩
    · rw [hr] at hc; cases hc
    · rw [hr] at hc
      rcases List.mem_cons.1 hc with hc | hc
      · cases hc; exact List.mem_cons_self
      · exact List.mem_cons_of_mem _ hc

/-- What was obtained in a run can be seen at its end. -/
theorem DLRun.supplied {t0 : Nat} {h : Sha1Hash} {can : Nat → Prop} {s0 : DLState} {x : DLSys} (hrun : DLRun env d (fun a _ => a = .thread t0) s0 x) :
    ∀ s, x = .alive s → (∀ t th, s.threads t = some th → th.hash = h → ∀ c, (c, true) ∈ th.rounds → can c.toNat) → DLRun env d (Supplied h can) s0 x := by
  induction hrun with
  | refl => intro _ _ _; exact .refl
  | @step s x a hr hst hok ih =>
    intro s2 hs hcan
    subst hs
    refine .step a (ih s rfl ?_) hst ⟨fun o ho => (by rw [hok] at ho; cases ho), fun s' hs' => by cases hs'; exact hcan⟩
    intro t th ht hth c hc
    obtain ⟨th2, g1, g2, g3⟩ := hst.remembers ht
    exact hcan t th2 g1 (g2.trans hth) c (g3 c hc)

/-- C90, the limit: as long as nobody delivers the lowest missing chunk of a file, its downloads obtain nothing at all, however many there are and whatever other chunks the
hosts have: the record of the file stays as it is, and every round asks for the same chunk. -/
theorem C90_stuck (hh : Healthy env d) (h : Sha1Hash) (s0 : DLState) (hreach : Reach env d dl (.running s0.cat s0.fs)) (e : Export)
    (ho : observe s0.cat s0.fs h = .ok e) (hsize : e.progress.sizeOf ≤ 65536) (m : UInt16) (hm : (missingList e).head? = some m.toNat)
    (h0 : ∀ t th, s0.threads t = some th → th.hash = h → AsksFor m th) (x : DLSys) (hrun : DLRun env d (Supplied h (· ≠ m.toNat)) s0 x) :
    ∀ s, x = .alive s → observe s.cat s.fs h = .ok e ∧ ∀ t th, s.threads t = some th → th.hash = h → AsksFor m th := by
  suffices ∀ s, x = .alive s → Reach env d dl (.running s.cat s.fs) ∧ observe s.cat s.fs h = .ok e ∧
      ∀ t th, s.threads t = some th → th.hash = h → AsksFor m th from fun s hs => (this s hs).2
  induction hrun with
  | refl => intro s hs; cases hs; exact ⟨hreach, ho, h0⟩
  | @step s x a hr hst hok ih =>
    intro s2 hs; subst hs
    obtain ⟨h1, h2, h3⟩ := ih s rfl
    obtain ⟨hcall, hsup⟩ := hok
    have hsup := hsup s2 rfl
    refine ⟨hst.reach h1, ?_⟩
    have hne : observe s.cat s.fs h ≠ .err .fileNotFound := by rw [h2]; intro hx; cases hx
    -- the threads
    have keep : ∀ (t0 : Nat) (th0 : DLThread), (th0.hash = h → AsksFor m th0) → ∀ t th, upd s.threads t0 (some th0) t = some th → th.hash = h → AsksFor m th := by
      intro t0 th0 h0 t th ht hh'
      unfold upd at ht
      split at ht
      · cases ht; exact h0 hh'
      · exact h3 t th ht hh'
    -- no chunk arrives
    have hnot : ∀ t0 th0 own c r todo, s.threads t0 = some th0 → th0.hash = h → th0.pos = .fetching own c r todo →
        s2.threads t0 = some { th0 with pos := .hosts own c todo, rounds := delivered th0.rounds } → False := by
      intro t0 th0 own c r todo ht hth hp ht2
      have ha := h3 t0 th0 ht hth
      unfold AsksFor at ha
      rw [hp] at ha
      obtain ⟨-, b, rest, hrr⟩ := ha
      refine hsup t0 _ ht2 hth m ?_ rfl
      show (m, true) ∈ delivered th0.rounds
      rw [hrr]
      exact List.mem_cons_self
    have hthr : (∀ t th, s2.threads t = some th → th.hash = h → AsksFor m th) := by
      have hst' := hst
      have old : ∀ t0 th0, s.threads t0 = some th0 → th0.hash = h → AsksFor m th0 := h3
      cases hst with
      | start t0 h' _ ht => exact keep _ _ (fun _ => trivial)
      | check t0 _ th0 fl b s' ht hp hrun => exact keep _ _ (fun _ => trivial)
      | setup t0 _ th0 fl w b own s' ht hp hrun => exact keep _ _ (fun _ => trivial)
      | refuse t0 _ th0 fl w b e s' ht hp hrun => exact keep _ _ (fun _ => trivial)
      | test t0 _ th0 fl own v s' ht hp hrun => exact keep _ _ (fun _ => by cases v <;> trivial)
      | want t0 _ th0 fl own r rest s' ht hp hrun =>
        refine keep _ _ (fun hth => ?_)
        simp only [] at hth
        obtain ⟨c, k1, k2⟩ := C56_lowest hh s _ h1 t0 th0 own ht hp e (by rw [hth]; exact h2) hsize hst'
        rw [hm] at k2
        have hc := UInt16.toNat_inj.1 (Option.some.inj k2)
        have k3 := (upd_self s.threads t0 _).symm.trans k1
        injection k3 with k3
        injection k3 with _ k4 k5
        injection k4 with _ k6
        refine ⟨k6.trans hc.symm, false, th0.rounds, ?_⟩
        show (r.start, false) :: th0.rounds = _
        rw [k6, hc]
      | search t0 _ th0 own c rs ht hp => exact keep _ _ (fun hth => by have := old t0 th0 ht hth; unfold AsksFor at this; rw [hp] at this; exact this)
      | again t0 _ th0 own c ht hp => exact keep _ _ (fun _ => trivial)
      | skip t0 _ th0 own c r todo ht hp hl hk => exact keep _ _ (fun hth => by have := old t0 th0 ht hth; unfold AsksFor at this; rw [hp] at this; exact this)
      | dial t0 _ th0 own c r todo ht hp hl hk => exact keep _ _ (fun hth => by have := old t0 th0 ht hth; unfold AsksFor at this; rw [hp] at this; exact this)
      | fetched t0 _ th0 fl own c r todo queue ok s' ht hp hsafe hrun => exact keep _ _ (fun hth => (hnot t0 th0 own c r todo ht hth hp (upd_self _ _ _)).elim)
      | gaveUp t0 _ th0 fl own c r todo queue s' ht hp hrun => exact keep _ _ (fun hth => by have := old t0 th0 ht hth; unfold AsksFor at this; rw [hp] at this; exact this)
      | call o _ fl r s' hsafe hrun hret => exact h3
      | user p _ content hp => exact h3
    refine ⟨?_, hthr⟩
    by_cases hown : ∃ t th, a = .thread t ∧ s.threads t = some th ∧ th.hash = h
    rotate_left
    · rw [hst.elsewhere hh h1 h hne hcall (fun t th ha ht _ hk => hown ⟨t, th, ha, ht, hk⟩)]; exact h2
    obtain ⟨t, th, rfl, ht, hk⟩ := hown
    rcases hst.effect.1 with ⟨q1, q2⟩ | ⟨p, x, hx, -⟩ | ⟨o, fl, r, st', q1, q2, q3, q4, q5, hx | ⟨t', th', hx, ht', -, q6⟩⟩
    · rw [q1, q2]; exact h2
    · cases hx
    · cases hx
    · cases hx
      rw [ht] at ht'; cases ht'
      rcases q6 with q6 | ⟨c, b, rfl, rfl, own, host, todo, hp⟩
      · rw [q4, q5, observe_other hh h1 h hne o q1 (q6 h) fl r st' q2]; exact h2
      · rcases hst.fetch ht hp with g | ⟨g1, g2⟩
        · exact (hnot t th own c host todo ht hk hp g).elim
        · rw [g1, g2]; exact h2

/-- C90 as one would want it: if a host that answers has some chunk that is missing here (and delivers what it has), the download can go on. -/
def C90_statement (env : Env) (d dl : Path) : Prop :=
  ∀ (h : Sha1Hash) (t : Nat) (own : ByteArr 4) (r : HostResp) (F old : Bytes) (cs : Nat) (s : DLState) (e : Export),
    DLReady env d dl h t own r F old cs s e [] → (∀ t' th, s.threads t' = some th → th.hash = h → t' = t) → goodHosts own [r] = [r] →
    ∀ i ∈ missingList e, Offers r.chunks i →
      ∃ s2 e2, DLRun env d (Supplied h (Offers r.chunks)) s (.alive s2) ∧ observe s2.cat s2.fs h = .ok e2 ∧ ∃ j, j < 2 ^ 63 ∧ e2.saved j ∧ ¬ e.saved j

/-- C90: it holds when the host has the lowest missing chunk, which then arrives. -/
theorem C90_partial (hh : Healthy env d) {h : Sha1Hash} {t : Nat} {own : ByteArr 4} {r : HostResp} {F old : Bytes} {cs : Nat} {s : DLState} {e : Export}
    (hr : DLReady env d dl h t own r F old cs s e []) (halone : ∀ t' th, s.threads t' = some th → th.hash = h → t' = t) (hgood : goodHosts own [r] = [r])
    (m : UInt16) (hm : (missingList e).head? = some m.toNat) (hoff : Offers r.chunks m.toNat) :
    ∃ s2 e2, DLRun env d (Supplied h (Offers r.chunks)) s (.alive s2) ∧ observe s2.cat s2.fs h = .ok e2 ∧ e2.saved m.toNat ∧ ¬ e.saved m.toNat := by
  obtain ⟨s2, e2, c, h1, -, h3, h4, h5, -, h7, h8⟩ := hr.fetch hh hgood (by intro hx; rw [hx] at hm; cases hm)
  have hmem : m.toNat ∈ missingList e := List.mem_of_mem_head? (by rw [hm]; rfl)
  have hcan : ∀ (can : Nat → Prop), can c.toNat → ∀ t' th, s2.threads t' = some th → th.hash = h → ∀ c', (c', true) ∈ th.rounds → can c'.toNat := by
    intro can hc t' th ht' hth c' hc'
    by_cases ht : t' = t
    · subst ht
      rw [h3.thread] at ht'
      cases ht'
      cases List.mem_singleton.1 hc'
      exact hc
    · rw [h8 t' ht] at ht'
      exact absurd (halone t' th ht' hth) ht
  have hcm : c = m := by
    apply Classical.byContradiction
    intro hne
    have hne' : c.toNat ≠ m.toNat := fun hx => hne (UInt16.toNat_inj.1 hx)
    have h9 := (C90_stuck hh h s hr.clean.reach e hr.obs hr.size m hm (fun t' th ht' hth => by
      rw [halone t' th ht' hth, hr.thread] at ht'; cases ht'; trivial) _ (h1.supplied s2 rfl (hcan (· ≠ m.toNat) hne'))) s2 rfl
    have h10 := h9.1
    rw [h3.obs] at h10
    cases h10
    rw [h4, List.mem_filter] at h5
    simp at h5
  subst hcm
  refine ⟨s2, e2, h1.supplied s2 rfl (hcan _ hoff), h3.obs, ?_, ((mem_missingList _ _).1 h5).2⟩
  apply Classical.byContradiction
  intro hs
  have : c.toNat ∈ missingList e2 := (mem_missingList _ _).2 ⟨by rw [h7]; exact ((mem_missingList _ _).1 h5).1, hs⟩
  rw [h4, List.mem_filter] at this
  simp at this

/-- A host that has chunk 1 only. -/
def exPeer1 : HostResp := ⟨7, ⟨[10, 0, 0, 2], rfl⟩, 61696, [1, 1]⟩

/-- C90 is false of the code: three chunks are missing, and the host has the second. -/
theorem C90_refuted (sha1 : Bytes → Sha1Hash) (json : JsonCodec) : ¬ C90_statement (exEnv sha1 json) exDir exDown := by
  intro hall
  let h := sha1 []
  obtain ⟨s, e, h1, h2, h3⟩ := ex_ready sha1 json h (fun t => if t = 1 then some ⟨h, .test exOwn, []⟩ else none) rfl
  have halone : ∀ t' th, s.threads t' = some th → th.hash = h → t' = 1 := by
    intro t' th ht' _
    rw [h2] at ht'
    by_cases hx : t' = 1
    · exact hx
    · simp only [if_neg hx] at ht'; cases ht'
  obtain ⟨s2, e2, g1, g2, j, g3, g4, g5⟩ := hall h 1 exOwn exPeer1 _ _ _ s e ⟨h1.clean, h1.obs, h1.path, h1.size, h1.down, h1.free, h1.idle, h1.thread⟩ halone (by decide) 1
    (by rw [h3]; decide) (.inl ⟨by decide, by decide⟩)
  have hst := C90_stuck (ex_healthy sha1 json) h s h1.clean.reach e h1.obs h1.size 0 (by rw [h3]; rfl) (fun t' th ht' hth => by
      rw [halone t' th ht' hth, h1.thread] at ht'; cases ht'; trivial) _ (g1.mono (fun a x hx => ⟨hx.1, fun s hs t th ht hth c hc => by
        have := hx.2 s hs t th ht hth c hc
        intro h0
        rw [h0] at this
        rcases this with ⟨h4, -⟩ | h4
        · exact absurd h4 (by decide)
        · exact h4⟩)) s2 rfl
  rw [hst.1] at g2
  cases g2
  exact g5 g4

/-! ### Cases -/

/-- `C90_stuck`: three chunks are missing, two downloads run, and one of them has begun to ask for chunk 0. -/
example (sha1 : Bytes → Sha1Hash) (json : JsonCodec) (h : Sha1Hash) : ∃ (s : DLState) (e : Export), Reach (exEnv sha1 json) exDir exDown (.running s.cat s.fs) ∧
    observe s.cat s.fs h = .ok e ∧ e.progress.sizeOf ≤ 65536 ∧ (missingList e).head? = some (0 : UInt16).toNat ∧ s.threads 2 ≠ none ∧
    ∀ t th, s.threads t = some th → th.hash = h → AsksFor 0 th := by
  obtain ⟨s, e, h1, h2, h3⟩ := ex_ready sha1 json h (fun t => if t = 1 then some ⟨h, .test exOwn, []⟩ else if t = 2 then some ⟨h, .search exOwn 0, [(0, false)]⟩ else none) rfl
  refine ⟨s, e, h1.clean.reach, h1.obs, h1.size, by rw [h3]; rfl, by rw [h2]; simp, ?_⟩
  intro t th ht _
  rw [h2] at ht
  by_cases h4 : t = 1
  · simp only [if_pos h4] at ht; cases ht; trivial
  · by_cases h5 : t = 2
    · simp only [if_neg h4, if_pos h5] at ht; cases ht; exact ⟨rfl, false, [], rfl⟩
    · simp only [if_neg h4, if_neg h5] at ht; cases ht

/-- `C90_partial`: the host has everything. -/
example (sha1 : Bytes → Sha1Hash) (json : JsonCodec) (h : Sha1Hash) : ∃ s e, DLReady (exEnv sha1 json) exDir exDown h 1 exOwn exPeer [1, 2, 3, 4, 5] [] 2 s e [] ∧
    (∀ t' th, s.threads t' = some th → th.hash = h → t' = 1) ∧ (missingList e).head? = some (0 : UInt16).toNat ∧ Offers exPeer.chunks 0 := by
  obtain ⟨s, e, h1, h2, h3⟩ := ex_ready sha1 json h (fun t => if t = 1 then some ⟨h, .test exOwn, []⟩ else none) rfl
  refine ⟨s, e, h1, ?_, by rw [h3]; rfl, .inl ⟨by decide, by decide⟩⟩
  intro t' th ht' _
  rw [h2] at ht'
  by_cases hx : t' = 1
  · exact hx
  · simp only [if_neg hx] at ht'; cases ht'

end Flu
