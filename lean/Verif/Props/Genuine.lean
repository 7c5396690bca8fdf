import Verif.Props.SamePath
import Verif.Props.Clean
/-!
# C91: the content of a file that is shown as complete
-/
namespace Flu
open Spec
variable {env : Env} {d dl : Path}

/-- The catalogue calls the file `h` complete, and its content is the one that `h` names. -/
def Spec.Genuine (env : Env) (h : Sha1Hash) (c : Cat) (fs : FS) : Prop :=
  ∃ e content, observe c fs h = .ok e ∧ e.progress.full = .ok true ∧ fs e.filePath = some content ∧ env.sha1 content = h

/-- What may happen without touching the file `g` at `path`: anything except removing it, downloading it, other programs writing to it, and another file with the same path. -/
def Spec.Undisturbed (g : Sha1Hash) (path : Path) (a : Actor) (x : DLSys) : Prop :=
  (∀ o, a = .call o → ¬ o.Touches g) ∧ a ≠ .user path ∧
    ∀ s, x = .alive s → (∀ t th, s.threads t = some th → th.hash ≠ g) ∧ ∀ k, k ≠ g → s.cat.pathOf k ≠ some path

theorem genuine_run (hh : Healthy env d) (g : Sha1Hash) (e : Export) (hpath : ¬ CatFile d e.filePath) (s0 : DLState) (hreach : Reach env d dl (.running s0.cat s0.fs))
    (ho : observe s0.cat s0.fs g = .ok e) (hg : Genuine env g s0.cat s0.fs) (h0 : ∀ t th, s0.threads t = some th → th.hash ≠ g)
    (hu0 : ∀ k, k ≠ g → s0.cat.pathOf k ≠ some e.filePath) (s : DLState) (hrun : DLRun env d (Undisturbed g e.filePath) s0 (.alive s)) : Genuine env g s.cat s.fs := by
  obtain ⟨h1, h2⟩ := C86_partial hh g e hpath s0 hreach ho h0 hu0 s hrun
  obtain ⟨e', content, g1, g2, g3, g4⟩ := hg
  rw [ho] at g1; cases g1
  exact ⟨e, content, h2, g2, h1.trans g3, g4⟩

/-- C91 for shared files: a file that was shared is complete and has the content its hash names, and stays so whatever else happens. -/
theorem C91_shared_partial (hh : Healthy env d) {c : Cat} {fs : FS} (hreach : Reach env d dl (.running c fs)) (file : GoString) (hfile : ¬ CatFile d (absPath env.cwd file))
    (fl : List Fault) (r : Record) (s' : St) (hshare : shareFile env file ⟨c, fs, fl⟩ = (.ok r, s')) (F : Bytes) (hF : fs (absPath env.cwd file) = some F) (hbig : F.length < 2 ^ 63)
    (locked : Bool) (downloads : DLKey → Bool) (threads : Nat → Option DLThread) (h0 : ∀ t th, threads t = some th → th.hash ≠ env.sha1 F)
    (hu0 : ∀ k, k ≠ env.sha1 F → s'.cat.pathOf k ≠ some (absPath env.cwd file)) (s : DLState)
    (hrun : DLRun env d (Undisturbed (env.sha1 F) (absPath env.cwd file)) ⟨s'.cat, s'.fs, locked, downloads, threads⟩ (.alive s)) :
    Genuine env (env.sha1 F) s.cat s.fs := by
  have hreach' := hreach.call (.share file) trivial fl s' (CM.void_ok _ _ _ _ hshare)
  obtain ⟨content, h1, -, h3, -, h5⟩ := C26_share hh hreach file fl r s' hshare
  rw [hF] at h1; cases h1
  obtain ⟨b, g1, -, g3, -⟩ := h3 hbig
  refine genuine_run (dl := dl) hh (env.sha1 F) _ hfile ⟨s'.cat, s'.fs, locked, downloads, threads⟩ hreach' g1 ⟨_, F, g1, g3, ?_, rfl⟩ h0 hu0 s hrun
  show s'.fs (absPath env.cwd file) = some F
  rw [h5 _ (fun hx => hfile (.inl hx)) (fun hx => hfile (.inr ⟨_, hx⟩))]
  exact hF

/-- C91 after `clean`: whatever the disk does, each file the catalogue then has is incomplete or genuine. -/
theorem C91_clean_partial (hh : Healthy env d) {c : Cat} {fs : FS} (hreach : Reach env d dl (.running c fs)) (order : List Sha1Hash) (ho : MapOrder c order)
    (hpaths : ∀ h e, observe c fs h = .ok e → ¬ CatFile d e.filePath) (fl : List Fault) (items : List CleanItem) (s' : St)
    (hrun : clean env order ⟨c, fs, fl⟩ = (.ok items, s')) (h : Sha1Hash) (e : Export) (hobs : observe s'.cat s'.fs h = .ok e) :
    e.progress.full = .ok true → Genuine env h s'.cat s'.fs := by
  intro hf
  obtain ⟨h1, h2, -⟩ := C39_faults hh hreach order ho hpaths fl items s' hrun
  rcases h1 h with h3 | ⟨e', h3, h4, content, h5, h6⟩
  · rw [hobs] at h3; cases h3
  rw [hobs] at h3; cases h3
  rcases h6 with h6 | h6
  · rw [hf] at h6; cases h6
  · exact ⟨e, content, hobs, hf, by rw [h2 _ (hpaths h e h4)]; exact h5, h6.trans (C27_own hh hreach h e h4)⟩

/-- C91 after `clean`: a complete file stays genuine whatever happens that does not touch it. -/
theorem C91_clean_stays_partial (hh : Healthy env d) {c : Cat} {fs : FS} (hreach : Reach env d dl (.running c fs)) (order : List Sha1Hash) (ho : MapOrder c order)
    (hpaths : ∀ h e, observe c fs h = .ok e → ¬ CatFile d e.filePath) (fl : List Fault) (items : List CleanItem) (s' : St)
    (hrun : clean env order ⟨c, fs, fl⟩ = (.ok items, s')) (h : Sha1Hash) (e : Export) (hobs : observe s'.cat s'.fs h = .ok e) (hfull : e.progress.full = .ok true)
    (locked : Bool) (downloads : DLKey → Bool) (threads : Nat → Option DLThread) (h0 : ∀ t th, threads t = some th → th.hash ≠ h)
    (hu0 : ∀ k, k ≠ h → s'.cat.pathOf k ≠ some e.filePath) (s : DLState)
    (hlater : DLRun env d (Undisturbed h e.filePath) ⟨s'.cat, s'.fs, locked, downloads, threads⟩ (.alive s)) : Genuine env h s.cat s.fs := by
  obtain ⟨h1, -, h3⟩ := C39_faults hh hreach order ho hpaths fl items s' hrun
  refine genuine_run hh h e ?_ ⟨s'.cat, s'.fs, locked, downloads, threads⟩ h3 hobs (C91_clean_partial hh hreach order ho hpaths fl items s' hrun h e hobs hfull) h0 hu0 s hlater
  rcases h1 h with hx | ⟨e', hx, hy, -⟩
  · rw [hobs] at hx; cases hx
  · rw [hobs] at hx; cases hx; exact hpaths h e hy

/-- C91 for downloads, as one would want it: when a download that nothing disturbs has finished, the file is genuine. -/
def C91_statement (env : Env) (d dl : Path) : Prop :=
  ∀ (h : Sha1Hash) (t : Nat) (own : ByteArr 4) (r : HostResp) (F old : Bytes) (cs : Nat) (s : DLState) (e : Export),
    DLReady env d dl h t own r F old cs s e [] → goodHosts own [r] = [r] →
    ∀ s2 rounds, DLRun env d (fun a _ => a = .thread t) s (.alive s2) → s2.threads t = some ⟨h, .finished, rounds⟩ → Genuine env h s2.cat s2.fs

/-- C91 fails: a host that answers can make any non-empty content out of any hash; the download finishes and the file is shown as complete. -/
theorem C91_lie (hh : Healthy env d) {h : Sha1Hash} {t : Nat} {own : ByteArr 4} {r : HostResp} {F old : Bytes} {cs : Nat} (hgood : goodHosts own [r] = [r])
    {s : DLState} {e : Export} (hr : DLReady env d dl h t own r F old cs s e []) (hF : F ≠ []) (hold : old.length ≤ F.length) (hlie : env.sha1 F ≠ h) :
    ∃ s2 rounds, DLRun env d (fun a _ => a = .thread t) s (.alive s2) ∧ s2.threads t = some ⟨h, .finished, rounds⟩ ∧ s2.fs e.filePath = some F ∧
      (∃ e2, observe s2.cat s2.fs h = .ok e2 ∧ e2.filePath = e.filePath ∧ ∀ i : Nat, (i : Int) < e2.progress.sizeOf → e2.saved i) ∧ ¬ Genuine env h s2.cat s2.fs := by
  obtain ⟨s2, e2, rounds, h1, h2, -, -, -, h6, h7, h8, -, -, h10⟩ := dl_completes hh hgood hr hF hold
  refine ⟨s2, rounds, h1, h2, h8, ⟨e2, h6, h10, h7⟩, ?_⟩
  rintro ⟨e', content, g1, -, g3, g4⟩
  rw [h6] at g1; cases g1
  rw [h10, h8] at g3; cases g3
  exact hlie g4

theorem C91_refuted (sha1 : Bytes → Sha1Hash) (json : JsonCodec) : ¬ C91_statement (exEnv sha1 json) exDir exDown := by
  intro hall
  have hex : ∃ h : Sha1Hash, sha1 [1, 2, 3, 4, 5] ≠ h := by
    by_cases hb : sha1 [1, 2, 3, 4, 5] = ⟨List.replicate 20 0, rfl⟩
    · exact ⟨Sha1Hash.blank, by rw [hb]; decide⟩
    · exact ⟨_, hb⟩
  obtain ⟨h, hlie⟩ := hex
  obtain ⟨s, e, h1, -, -⟩ := ex_ready sha1 json h (fun t => if t = 1 then some ⟨h, .test exOwn, []⟩ else none) rfl
  obtain ⟨s2, rounds, g1, g2, -, -, g5⟩ := C91_lie (ex_healthy sha1 json) ex_good h1 (by decide) (by decide) hlie
  exact g5 (hall h 1 exOwn exPeer _ _ _ s e h1 ex_good s2 rounds g1 g2)

/-! ### Cases -/

/-- `C91_shared_partial`: a file is shared, and then somebody starts to download another one. -/
example (sha1 : Bytes → Sha1Hash) (json : JsonCodec) (h : Sha1Hash) (hne : h ≠ sha1 [1, 2, 3]) : ∃ (c : Cat) (fs : FS) (r : Record) (s' : St) (s : DLState),
    Reach (exEnv sha1 json) exDir exDown (.running c fs) ∧ ¬ CatFile exDir (absPath (exEnv sha1 json).cwd [102]) ∧
    shareFile (exEnv sha1 json) [102] ⟨c, fs, []⟩ = (.ok r, s') ∧ fs (absPath (exEnv sha1 json).cwd [102]) = some [1, 2, 3] ∧
    (∀ k, k ≠ sha1 [1, 2, 3] → s'.cat.pathOf k ≠ some (absPath (exEnv sha1 json).cwd [102])) ∧
    DLRun (exEnv sha1 json) exDir (Undisturbed (sha1 [1, 2, 3]) (absPath (exEnv sha1 json).cwd [102])) ⟨s'.cat, s'.fs, false, fun _ => false, fun _ => none⟩ (.alive s) ∧
    s.threads 1 = some ⟨h, .check, []⟩ := by
  obtain ⟨r, s', hs⟩ := shareFile_total (exEnv sha1 json) [102] exDir exDown (freshIdx (exEnv sha1 json) exDir) _ [1, 2, 3] (ex_file sha1 json) rfl (by decide)
  have hu : ∀ k, k ≠ sha1 [1, 2, 3] → s'.cat.pathOf k ≠ some (absPath (exEnv sha1 json).cwd [102]) := by
    intro k hk
    obtain ⟨content, p, full, m1, g1, g2, g3, g4, g5, g6, g7, g8⟩ := shareFile_nil_ok _ _ _ _ _ _ _ _ hs
    rw [ex_file] at g1; cases g1
    have hord : MapOrder s'.cat [sha1 [1, 2, 3]] := by
      refine ⟨_, congrArg (fun s => s.cat.indexFile) g6, ?_⟩
      rw [g8]
      simp [keys_put, freshIdx, mapPut, exEnv]
    obtain ⟨ind, i1, i2⟩ := hord
    unfold Cat.pathOf
    rw [i1]
    show Option.map _ (mapGet ind.index k) ≠ _
    rw [(mapGet_eq_none ind.index k).2 ?_]
    · intro hx; cases hx
    · intro x hx hxk
      have := i2.symm.subset (List.mem_map_of_mem (f := fun y => y.1) hx)
      exact hk (hxk.symm.trans (List.mem_singleton.1 this))
  refine ⟨_, _, r, s', _, ex_reach sha1 json, ?_, hs, ex_file sha1 json, hu, .step (.thread 1) .refl (.start 1 h _ rfl) ⟨fun o ho => (by cases ho), fun ho => (by cases ho), ?_⟩, by simp [upd]⟩
  · show ¬ CatFile exDir (absPath [47] [102])
    have e : absPath [47] [102] = absOf [[102]] := by decide
    rw [e]; exact ex_not_catFile 102 (by simp)
  · intro s hs
    cases hs
    refine ⟨?_, hu⟩
    intro t th ht
    simp only [upd] at ht
    split at ht
    · cases ht; exact hne
    · cases ht

/-- `C91_clean_partial`, `C91_clean_stays_partial`: a catalogue with one shared file, which `clean` keeps (a later run as in the example before). -/
example (sha1 : Bytes → Sha1Hash) (json : JsonCodec) : ∃ (c : Cat) (fs : FS) (items : List CleanItem) (s' : St) (e : Export),
    Reach (exEnv sha1 json) exDir exDown (.running c fs) ∧ MapOrder c [sha1 [1, 2, 3]] ∧ (∀ h e, observe c fs h = .ok e → ¬ CatFile exDir e.filePath) ∧
    clean (exEnv sha1 json) [sha1 [1, 2, 3]] ⟨c, fs, []⟩ = (.ok items, s') ∧ observe s'.cat s'.fs (sha1 [1, 2, 3]) = .ok e := by
  have hh := ex_healthy sha1 json
  obtain ⟨c, fs, b, h1, h2, h3, h4, h5, h6⟩ := ex_clean sha1 json
  have hone : ∀ h e, observe c fs h = .ok e → e.filePath = absOf [[102]] := by
    intro h e he
    by_cases hk : h = sha1 [1, 2, 3]
    · subst hk; rw [h3] at he; cases he; rfl
    · exfalso
      obtain ⟨ind, i1, i2⟩ := h6
      obtain ⟨ind', hc, hw⟩ := (h1.reach.inv hh.abs hh.utf8).split
      rw [hc] at i1; cases i1
      rw [hc, observe_eq] at he
      unfold obsRec at he
      rw [(mapGet_eq_none _ h).2 ?_] at he
      · cases he
      · intro x hx hxk
        have := i2.symm.subset (List.mem_map_of_mem (f := fun y => y.1) hx)
        exact hk (hxk.symm.trans (List.mem_singleton.1 this))
  have hp : ∀ h e, observe c fs h = .ok e → ¬ CatFile exDir e.filePath := by
    intro h e he
    rw [hone h e he]; exact ex_not_catFile 102 (by simp)
  obtain ⟨items, s', g1, -⟩ := C39_total hh h1 _ h6
  obtain ⟨k1, -⟩ := C39_clean hh h1.reach _ h6 hp items s' g1
  exact ⟨c, fs, items, s', _, h1.reach, h6, hp, g1, (k1 _ _ h3).1 ⟨_, h2, .inr rfl⟩⟩

/-- `C91_lie`: a download of any hash but the hash of the five bytes that the host sends. -/
example (sha1 : Bytes → Sha1Hash) (json : JsonCodec) (h : Sha1Hash) (hlie : (exEnv sha1 json).sha1 [1, 2, 3, 4, 5] ≠ h) : ∃ (s : DLState) (e : Export),
    DLReady (exEnv sha1 json) exDir exDown h 1 exOwn exPeer [1, 2, 3, 4, 5] [] 2 s e [] ∧ goodHosts exOwn [exPeer] = [exPeer] ∧ (exEnv sha1 json).sha1 [1, 2, 3, 4, 5] ≠ h := by
  obtain ⟨s, e, h1, -, -⟩ := ex_ready sha1 json h (fun t => if t = 1 then some ⟨h, .test exOwn, []⟩ else none) rfl
  exact ⟨s, e, h1, ex_good, hlie⟩

end Flu
