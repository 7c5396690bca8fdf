import Verif.Props.Resume
/-!
# Asking for a file that is there, or on its way (C116)
-/
namespace Flu
open Spec

/-- A call of `get` that is not looking for a chunk, and not fetching one. -/
def Spec.AsksNothing (th : DLThread) : Prop :=
  match th.pos with
    | .check | .setup _ | .refused | .test _ | .finished => True
    | _ => False

section
variable {env : Env} {d dl : Path} {h : Sha1Hash}

/-- **C116**: for a file that is complete, any number of calls of `get` change nothing: the catalogue shows the same as before, and no host is asked for any chunk. -/
theorem C116_complete (hh : Healthy env d) {s0 s : DLState} (hreach : Reach env d dl (.running s0.cat s0.fs)) (e : Export) (ho : observe s0.cat s0.fs h = .ok e)
    (hall : ∀ i : Nat, (i : Int) < e.progress.sizeOf → e.saved i) (h0 : ∀ t th, s0.threads t = some th → th.hash = h → AsksNothing th)
    (hrun : DLRun env d (fun a _ => ∀ o, a = .call o → ¬ o.Touches h) s0 (.alive s)) :
    observe s.cat s.fs h = .ok e ∧ ∀ t th, s.threads t = some th → th.hash = h → AsksNothing th := by
  suffices key : ∀ x, DLRun env d (fun a _ => ∀ o, a = .call o → ¬ o.Touches h) s0 x → ∀ s, x = .alive s →
      Reach env d dl (.running s.cat s.fs) ∧ observe s.cat s.fs h = .ok e ∧ ∀ t th, s.threads t = some th → th.hash = h → AsksNothing th from (key _ hrun s rfl).2
  intro x hx
  induction hx with
  | refl => intro s hs; cases hs; exact ⟨hreach, ho, h0⟩
  | @step s1 x a _ hst hok ih =>
    rintro s rfl
    obtain ⟨i1, i2, i3⟩ := ih s1 rfl
    have hne : observe s1.cat s1.fs h ≠ .err .fileNotFound := by rw [i2]; intro hx; cases hx
    refine ⟨hst.reach i1, ?_, ?_⟩
    · rcases hst.effect.1 with ⟨h1, h2⟩ | ⟨p, x, rfl, hp, h1, h2⟩ | ⟨o, fl, r, st', h1, h2, h3, h4, h5, h6⟩
      · rw [h1, h2]; exact i2
      · rw [h1, h2, observe_user hh i1 p x hp h]; exact i2
      · rw [h4, h5]
        have key : ¬ o.Touches h → observe st'.cat st'.fs h = .ok e := fun g1 => by rw [observe_other hh i1 h hne o h1 g1 fl r st' h2, i2]
        rcases h6 with rfl | ⟨t, th, rfl, ht, -, h6⟩
        · exact key (hok o rfl)
        · rcases h6 with h6 | ⟨n, b, rfl, -, own, host, todo, hpos⟩
          · exact key (h6 h)
          · refine key (fun hx => ?_)
            have := i3 t th ht hx
            unfold AsksNothing at this
            rw [hpos] at this
            exact this
    · have mv : ∀ {s' : DLState} {t : Nat} {th th' : DLThread} {pos : DLPos}, s'.threads = s1.threads → (th'.hash = h → AsksNothing ⟨th'.hash, pos, th'.rounds⟩) →
          ∀ t2 th2, (s'.move t th' pos).threads t2 = some th2 → th2.hash = h → AsksNothing th2 := by
        intro s' t th th' pos hs hp t2 th2 ht2 hx
        have ht2 : upd s'.threads t (some ⟨th'.hash, pos, th'.rounds⟩) t2 = some th2 := ht2
        unfold upd at ht2
        split at ht2
        · cases ht2; exact hp hx
        · rw [hs] at ht2; exact i3 t2 th2 ht2 hx
      have old : ∀ {t : Nat} {th : DLThread}, s1.threads t = some th → th.hash = h → AsksNothing th := fun h1 h2 => i3 _ _ h1 h2
      have bad : ∀ {t : Nat} {th : DLThread} {P : Prop}, s1.threads t = some th → (match th.pos with | .check | .setup _ | .refused | .test _ | .finished => True | _ => False) = False → th.hash = h → P := by
        intro t th P h1 h2 h3
        exact ((h2 ▸ i3 t th h1 h3 : False)).elim
      cases hst with
      | start t k s ht =>
        intro t2 th2 ht2 hx
        have ht2 : upd s1.threads t (some ⟨k, .check, []⟩) t2 = some th2 := ht2
        unfold upd at ht2
        split at ht2
        · cases ht2; trivial
        · exact i3 t2 th2 ht2 hx
      | check t s th fl b s' ht hp hrun => exact mv (th := th) rfl (fun hx => trivial)
      | setup t s th fl w b own s' ht hp hrun => exact mv (th := th) rfl (fun hx => trivial)
      | refuse t s th fl w b er s' ht hp hrun => exact mv (th := th) rfl (fun hx => trivial)
      | test t s th fl own v s' ht hp hrun =>
        refine mv (th := th) rfl (fun hx => ?_)
        rw [hx] at hrun
        obtain ⟨e', g1, g2, -⟩ := C34_complete hh i1 h fl v s' hrun
        rw [i2] at g1; cases g1
        show AsksNothing ⟨_, if v then _ else _, _⟩
        rw [g2.2 hall]
        trivial
      | want t s th fl own r rest s' ht hp hrun => exact mv (th := th) rfl (fun hx => bad ht (by rw [hp]) hx)
      | search t s th own c rs ht hp => exact mv (th := th) rfl (fun hx => bad ht (by rw [hp]) hx)
      | again t s th own c ht hp => exact mv (th := th) rfl (fun hx => bad ht (by rw [hp]) hx)
      | skip t s th own c r todo ht hp hl hk => exact mv (th := th) rfl (fun hx => bad ht (by rw [hp]) hx)
      | dial t s th own c r todo ht hp hl hk => exact mv (th := th) rfl (fun hx => bad ht (by rw [hp]) hx)
      | fetched t s th fl own c r todo queue ok s' ht hp hsafe hrun => exact mv (th := th) rfl (fun hx => bad ht (by rw [hp]) hx)
      | gaveUp t s th fl own c r todo queue s' ht hp hrun => exact mv (th := th) rfl (fun hx => bad ht (by rw [hp]) hx)
      | call o s fl r s' hsafe hrun hret => exact i3
      | user p s content hp => exact i3

/-- C116, what holds of a download under way: whatever any number of further calls of `get` do, and whatever they meet, as long as the daemon lives the file keeps its path, its size and its chunk size,
and the chunks that are saved stay saved. -/
theorem C116_keeps_partial (hh : Healthy env d) {s0 s : DLState} (hreach : Reach env d dl (.running s0.cat s0.fs)) (e : Export) (ho : observe s0.cat s0.fs h = .ok e)
    (hrun : DLRun env d (fun a _ => ∀ o, a = .call o → ¬ o.Touches h) s0 (.alive s)) :
    ∃ e', observe s.cat s.fs h = .ok e' ∧ e'.filePath = e.filePath ∧ e'.sizeInBytes = e.sizeInBytes ∧ e'.chunkSize = e.chunkSize ∧ e.progress.sizeOf ≤ e'.progress.sizeOf ∧
      ∀ i, i < 2 ^ 63 → e.saved i → e'.saved i := by
  suffices key : ∀ x, DLRun env d (fun a _ => ∀ o, a = .call o → ¬ o.Touches h) s0 x → ∀ s, x = .alive s → Reach env d dl (.running s.cat s.fs) ∧
      ∃ e', observe s.cat s.fs h = .ok e' ∧ e'.filePath = e.filePath ∧ e'.sizeInBytes = e.sizeInBytes ∧ e'.chunkSize = e.chunkSize ∧ e.progress.sizeOf ≤ e'.progress.sizeOf ∧
      ∀ i, i < 2 ^ 63 → e.saved i → e'.saved i from (key _ hrun s rfl).2
  intro x hx
  induction hx with
  | refl => intro s hs; cases hs; exact ⟨hreach, e, ho, rfl, rfl, rfl, Int.le_refl _, fun _ _ => id⟩
  | @step s1 x a _ hst hok ih =>
    rintro s rfl
    obtain ⟨i1, e1, i2, a1, a2, a3, a4, a5⟩ := ih s1 rfl
    have hne : observe s1.cat s1.fs h ≠ .err .fileNotFound := by rw [i2]; intro hx; cases hx
    refine ⟨hst.reach i1, ?_⟩
    rcases hst.effect.1 with ⟨h1, h2⟩ | ⟨p, x, rfl, hp, h1, h2⟩ | ⟨o, fl, r, st', h1, h2, h3, h4, h5, h6⟩
    · rw [h1, h2]; exact ⟨e1, i2, a1, a2, a3, a4, a5⟩
    · rw [h1, h2, observe_user hh i1 p x hp h]; exact ⟨e1, i2, a1, a2, a3, a4, a5⟩
    · rw [h4, h5]
      have key : ¬ o.Touches h → ∃ e', observe st'.cat st'.fs h = .ok e' ∧ e'.filePath = e.filePath ∧ e'.sizeInBytes = e.sizeInBytes ∧ e'.chunkSize = e.chunkSize ∧
          e.progress.sizeOf ≤ e'.progress.sizeOf ∧ ∀ i, i < 2 ^ 63 → e.saved i → e'.saved i := fun g1 => by
        rw [observe_other hh i1 h hne o h1 g1 fl r st' h2]; exact ⟨e1, i2, a1, a2, a3, a4, a5⟩
      rcases h6 with rfl | ⟨t, th, rfl, ht, -, h6⟩
      · exact key (hok o rfl)
      · rcases h6 with h6 | ⟨n, b, rfl, rfl, own, host, todo, hpos⟩
        · exact key (h6 h)
        · by_cases hx : th.hash = h
          · rw [hx] at h1 h2
            obtain ⟨e0, e2, k1, k2, k3, k4, k5, -⟩ := saveChunk_effect hh i1 h n b fl h1 st' h2
            rw [i2] at k1; cases k1
            refine ⟨e2, k2, by rw [k3]; exact a1, by rw [k3]; exact a2, by rw [k3]; exact a3, ?_, fun i hi hs => (k5 i hi).2 (.inl (a5 i hi hs))⟩
            rw [k4]; omega
          · exact key hx

end

/-- What the documentation of `get` promises: if a transfer has already been started, `get` does not affect it. In particular a download that works, with a host that answers, does not come to its end because
`get` is called again. -/
def C116_statement (env : Env) (d dl : Path) : Prop :=
  ∀ (h : Sha1Hash) (own : ByteArr 4) (r : HostResp) (F old : Bytes) (cs : Nat) (s : DLState) (e : Export), goodHosts own [r] = [r] → DLReady env d dl h 1 own r F old cs s e [] → s.threads 2 = none →
    ∀ w, ¬ DLRun env d (fun a _ => a = .thread 1 ∨ a = .thread 2) s (.dead (.noMissing w))

/-- **C116**: it does not hold: the second call starts another download of the same file, and the daemon can die when the first one gets the last chunk. -/
theorem C116_refuted (sha1 : Bytes → Sha1Hash) (json : JsonCodec) (h : Sha1Hash) : ¬ C116_statement (exEnv sha1 json) exDir exDown := by
  intro hst
  have hh := ex_healthy sha1 json
  obtain ⟨s, e, hr, h2, h3⟩ := ex_ready sha1 json h (fun t => if t = 1 then some ⟨h, .test exOwn, []⟩ else none) rfl
  have hnone : s.threads 2 = none := by rw [h2]; rfl
  refine hst h exOwn exPeer _ _ _ s e ex_good hr hnone 2 ?_
  -- the second call comes
  have r1 : DLRun (exEnv sha1 json) exDir (fun a _ => a = .thread 1 ∨ a = .thread 2) s (.alive { s with threads := upd s.threads 2 (some ⟨h, .check, []⟩) }) :=
    .step (.thread 2) .refl (DLStep.start 2 h s hnone) (.inr rfl)
  obtain ⟨known, st1, k1, k2, k3, k4, k5, k6⟩ := startCheck_clean hh hr.clean h
  obtain ⟨c1, fs1, fl1⟩ := st1
  simp only [] at k2 k3 k4 k5
  subst k2; subst k4
  obtain rfl : known = true := by
    rcases k6 with ⟨k, -⟩ | ⟨-, k⟩
    · exact k
    · rw [hr.obs] at k; cases k
  have hsetup : startSetup (exEnv sha1 json) ⟨some [[10, 0, 0, 1]], some [exPeer], fun _ => .silence⟩ h true ⟨c1, s.fs, []⟩ = (.ok exOwn, ⟨c1, s.fs, []⟩) := by
    unfold startSetup
    rw [IOM.bind_apply, IOM.lift_apply, show ownAddress (some [[10, 0, 0, 1]]) = .ok exOwn by decide]
    simp only [ex_good]
    rfl
  have r2 := DLRun.step (.thread 2) r1 (DLStep.check 2 _ ⟨h, .check, []⟩ [] true ⟨c1, s.fs, []⟩ (upd_self s.threads 2 _) rfl k1) (.inr rfl)
  have r3 := DLRun.step (.thread 2) r2 (DLStep.setup 2 _ ⟨h, .setup true, []⟩ [] _ true exOwn ⟨c1, s.fs, []⟩ (upd_self (upd s.threads 2 (some ⟨h, .check, []⟩)) 2 _) rfl hsetup) (.inr rfl)
  refine r3.trans (C56_race (e := e) (own := exOwn) (r := exPeer) hh ex_good ⟨k3, (k5 h).trans hr.obs, hr.path, hr.size, hr.down, hr.free, hr.idle, ?_⟩
    (upd_self (upd (upd s.threads 2 (some ⟨h, .check, []⟩)) 2 (some ⟨h, .setup true, []⟩)) 2 (some ⟨h, .test exOwn, []⟩)) (by rw [h3]; decide))
  show upd (upd (upd s.threads 2 (some ⟨h, .check, []⟩)) 2 (some ⟨h, .setup true, []⟩)) 2 (some ⟨h, .test exOwn, []⟩) 1 = _
  simp only [upd]
  rw [if_neg (by decide), if_neg (by decide), if_neg (by decide)]
  exact hr.thread

/-- `C116_complete`, `C116_keeps_partial`: a download has ended, and `get` is called again. -/
example (sha1 : Bytes → Sha1Hash) (json : JsonCodec) (h : Sha1Hash) : ∃ s s' e, Reach (exEnv sha1 json) exDir exDown (.running s.cat s.fs) ∧ observe s.cat s.fs h = .ok e ∧
    (∀ i : Nat, (i : Int) < e.progress.sizeOf → e.saved i) ∧ (∀ t th, s.threads t = some th → th.hash = h → AsksNothing th) ∧ s.threads 1 ≠ none ∧
    DLRun (exEnv sha1 json) exDir (fun a _ => ∀ o, a = .call o → ¬ o.Touches h) s (.alive s') ∧ s'.threads 2 = some ⟨h, .setup true, []⟩ := by
  have hh := ex_healthy sha1 json
  obtain ⟨s, e, hr, h2, h3⟩ := ex_ready sha1 json h (fun t => if t = 1 then some ⟨h, .test exOwn, []⟩ else none) rfl
  obtain ⟨s2, e2, rounds, g1, g2, -, -, g5, g6, g7, -, g9⟩ := C56_completes hh ex_good hr (by decide) (by decide)
  have hnone : s2.threads 2 = none := by rw [g9 2 (by decide), h2]; rfl
  obtain ⟨known, st1, k1, k2, k3, k4, k5, k6⟩ := startCheck_clean hh g5 h
  obtain rfl : known = true := by
    rcases k6 with ⟨k, -⟩ | ⟨-, k⟩
    · exact k
    · rw [g6] at k; cases k
  refine ⟨s2, _, e2, g5.reach, g6, g7, ?_, by rw [g2]; simp, DLRun.step (.thread 2) (DLRun.step (.thread 2) .refl (DLStep.start 2 h s2 hnone) (by intro o ho; cases ho))
    (DLStep.check 2 _ ⟨h, .check, []⟩ [] true st1 (upd_self s2.threads 2 _) rfl k1) (by intro o ho; cases ho), upd_self (upd s2.threads 2 (some ⟨h, .check, []⟩)) 2 _⟩
  intro t th ht hx
  by_cases h1 : t = 1
  · subst h1; rw [g2] at ht; cases ht; trivial
  · rw [g9 t h1, h2] at ht
    simp only [if_neg h1] at ht
    cases ht

end Flu
