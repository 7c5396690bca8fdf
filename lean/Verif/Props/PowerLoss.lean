import Verif.Lemmas.CatOwned
import Verif.Props.Resume
/-!
# The machine loses power during a download (C109)

Nothing in the code asks the operating system to write its buffers out (no `Sync`).  After a power loss each file can therefore be as it was at some earlier moment, and not all files as they
were at the same moment.
-/
namespace Flu
open Spec

section
variable {env : Env} {d dl : Path} {h : Sha1Hash} {F old : Bytes} {cs : Nat} {c : Cat} {fs : FS}

/-- The files after the chunks `ns` of `F` were saved one after the other. -/
def Spec.diskAfter (F : Bytes) (cs : Nat) (h : Sha1Hash) (c : Cat) (fs : FS) (ns : List UInt16) : FS := (saveAll F cs h ns ⟨c, fs, []⟩).2.fs

/-- What a power loss can leave after the chunks `ns` were saved: every file by itself is as it was at some moment between two calls.  (Files that are torn are left out; see C31 and C103.) -/
def Spec.PowerLoss (F : Bytes) (cs : Nat) (h : Sha1Hash) (c : Cat) (fs : FS) (ns : List UInt16) (after : FS) : Prop :=
  ∀ p, ∃ k, k ≤ ns.length ∧ after p = diskAfter F cs h c fs (ns.take k) p

/-- Chunk `i` of `F` is in the file. -/
def Spec.HasChunk (F : Bytes) (cs : Nat) (content : Option Bytes) (i : Nat) : Prop :=
  ∃ c, content = some c ∧ ∀ j, i * cs ≤ j → j < (i + 1) * cs → j < F.length → c[j]? = F[j]?

/-- C109, as it should be: after a power loss the daemon starts, and every chunk that it says is saved is there. -/
def C109_statement (env : Env) (d dl : Path) : Prop := ∀ (c : Cat) (fs : FS) (h : Sha1Hash) (F old : Bytes) (cs : Nat) (e : Export) (ns : List UInt16) (after : FS),
  CleanReach env d dl (.running c fs) → observe c fs h = .ok e → ¬ CatFile d e.filePath → env.json.fix e.filePath = e.filePath → Downloading F old cs (fs e.filePath) e →
  (∀ n ∈ ns, n.toNat < (F.length + cs - 1) / cs) → PowerLoss F cs h c fs ns after →
  ∃ c' e', Cat.init env ⟨⟨d, dl, none⟩, after, []⟩ = (.ok (), ⟨c', after, []⟩) ∧ observe c' after h = .ok e' ∧
    ∀ i, i < (F.length + cs - 1) / cs → e'.saved i → HasChunk F cs (after e'.filePath) i

theorem saveAll_frame (hh : Healthy env d) (ns : List UInt16) : ∀ (c : Cat) (fs : FS) (e : Export), CleanReach env d dl (.running c fs) → observe c fs h = .ok e → ¬ CatFile d e.filePath →
    Downloading F old cs (fs e.filePath) e → (∀ n ∈ ns, n.toNat < (F.length + cs - 1) / cs) →
    ∀ q, q ≠ e.filePath → q ≠ progressPath d h → diskAfter F cs h c fs ns q = fs q := by
  induction ns with
  | nil => intro c fs e _ _ _ _ _ q _ _; rfl
  | cons n ns ih =>
    intro c fs e hcl ho hp hd hn q hq1 hq2
    have hsafe : (Op.save h n ((F.drop (n.toNat * cs)).take cs)).Safe d c := by
      intro p hp'
      rw [observe_path hh hcl.reach h e ho] at hp'
      cases hp'; exact hp
    obtain ⟨s1, h1⟩ := saveChunk_total hh hcl.reach h n ((F.drop (n.toNat * cs)).take cs) e ho
    obtain ⟨e1, g1, g2, g3, g4⟩ := C33_step hh hcl.reach F old cs h n [] e ho hp hd (hn n (by simp)) s1 h1
    obtain ⟨e0, -, k1, -, -, -, -, -, k7⟩ := saveChunk_effect hh hcl.reach h n _ [] hsafe s1 h1
    rw [ho] at k1; cases k1
    have hfl : s1.faults = [] := by
      have := OkClean.saveChunk h n ((F.drop (n.toNat * cs)).take cs) _ _ _ h1
      rw [show (⟨c, fs, []⟩ : St).quiet = ⟨c, fs, []⟩ from rfl, h1] at this
      exact congrArg (fun x => x.2.faults) this
    have hs1 : s1 = ⟨s1.cat, s1.fs, []⟩ := by cases s1; simp only at hfl; rw [hfl]
    have hcl1 : CleanReach env d dl (.running s1.cat s1.fs) := hcl.call (.save h n ((F.drop (n.toNat * cs)).take cs)) _ _ (.ok ()) s1 hsafe h1 rfl
    have := ih s1.cat s1.fs e1 hcl1 g1 (by rw [g2]; exact hp) (by rw [g2]; exact g3) (fun m hm => hn m (by simp [hm])) q (by rw [g2]; exact hq1) hq2
    rw [← k7 q hq1 hq2, ← this]
    unfold diskAfter
    rw [saveAll, IOM.bind_apply, h1]
    simp only
    rw [← hs1]

/-- The state after some of the chunks were saved. -/
theorem at_version (hh : Healthy env d) (hcl : CleanReach env d dl (.running c fs)) (e : Export) (ho : observe c fs h = .ok e) (hp : ¬ CatFile d e.filePath)
    (hd : Downloading F old cs (fs e.filePath) e) (ns : List UInt16) (hn : ∀ n ∈ ns, n.toNat < (F.length + cs - 1) / cs) (k : Nat) :
    ∃ ck ek, CleanReach env d dl (.running ck (diskAfter F cs h c fs (ns.take k))) ∧ observe ck (diskAfter F cs h c fs (ns.take k)) h = .ok ek ∧ ek.filePath = e.filePath ∧
      Downloading F old cs (diskAfter F cs h c fs (ns.take k) e.filePath) ek ∧
      (∀ i, i < (F.length + cs - 1) / cs → (ek.saved i ↔ e.saved i ∨ ∃ n ∈ ns.take k, i = n.toNat)) ∧
      ∀ q, q ≠ e.filePath → q ≠ progressPath d h → diskAfter F cs h c fs (ns.take k) q = fs q := by
  have hn' : ∀ n ∈ ns.take k, n.toNat < (F.length + cs - 1) / cs := fun n hm => hn n (List.mem_of_mem_take hm)
  obtain ⟨s', e', k1, k2, k3, k4, k5, k6, k7⟩ := C33_any_order hh F old cs h (ns.take k) c fs e hcl.reach ho hp hd hn'
  have hfs : diskAfter F cs h c fs (ns.take k) = s'.fs := by unfold diskAfter; rw [k1]
  refine ⟨s'.cat, e', ?_, ?_, k4, ?_, k6, saveAll_frame hh _ c fs e hcl ho hp hd hn'⟩
  · rw [hfs]; exact (k7 hcl).2
  · rw [hfs]; exact k3
  · rw [hfs]; exact k5

/-- **C109, whatever is lost**: the daemon starts, still knows the download, and shows as saved the chunks that were saved before some moment: the one from which the progress file is. -/
theorem C109_starts (hh : Healthy env d) (hcl : CleanReach env d dl (.running c fs)) (e : Export) (ho : observe c fs h = .ok e) (hp : ¬ CatFile d e.filePath)
    (hutf : env.json.fix e.filePath = e.filePath) (hd : Downloading F old cs (fs e.filePath) e) (ns : List UInt16) (hn : ∀ n ∈ ns, n.toNat < (F.length + cs - 1) / cs) (after : FS)
    (hl : PowerLoss F cs h c fs ns after) (pid now : Int) (i : Nat) (hi : after (progressPath d h) = diskAfter F cs h c fs (ns.take i) (progressPath d h)) :
    ∃ c' e', Cat.init { env with pid := pid, now := now } ⟨⟨d, dl, none⟩, after, []⟩ = (.ok (), ⟨c', after, []⟩) ∧ CleanReach env d dl (.running c' after) ∧
      observe c' after h = .ok e' ∧ e'.filePath = e.filePath ∧ ∀ m, m < (F.length + cs - 1) / cs → (e'.saved m ↔ e.saved m ∨ ∃ n ∈ ns.take i, m = n.toNat) := by
  obtain ⟨ci, ei, g1, g2, g3, g4, g5, g6⟩ := at_version hh hcl e ho hp hd ns hn i
  have hafter : after = (diskAfter F cs h c fs (ns.take i)).put e.filePath (after e.filePath) := by
    funext q
    by_cases hq : q = e.filePath
    · rw [hq, FS.put_same]
    rw [FS.put_other _ _ _ _ hq]
    by_cases hq2 : q = progressPath d h
    · rw [hq2]; exact hi
    obtain ⟨k, -, hk⟩ := hl q
    obtain ⟨-, -, -, -, -, -, -, f6⟩ := at_version hh hcl e ho hp hd ns hn k
    rw [hk, f6 q hq hq2, g6 q hq hq2]
  have hr : CleanReach env d dl (.running ci after) := by
    rw [hafter]
    exact CleanReach.userRunning _ _ _ _ hp g1
  have hobs : observe ci after h = .ok ei := by
    rw [hafter, observe_user hh g1.reach _ _ hp, g2]
  obtain ⟨c', m1, m2, m3, -, -⟩ := C30_restart hh hr pid now
  exact ⟨c', _, m1, m2, m3 h ei hobs, by show env.json.fix ei.filePath = _; rw [g3, hutf], g5⟩

/-- **C109, the part that holds.**  If the file that is downloaded is at least as new as the progress file, every chunk shown as saved is there.  Missing: nothing makes sure of that order. -/
theorem C109_partial (hh : Healthy env d) (hcl : CleanReach env d dl (.running c fs)) (e : Export) (ho : observe c fs h = .ok e) (hp : ¬ CatFile d e.filePath)
    (hutf : env.json.fix e.filePath = e.filePath) (hd : Downloading F old cs (fs e.filePath) e) (ns : List UInt16) (hn : ∀ n ∈ ns, n.toNat < (F.length + cs - 1) / cs) (after : FS)
    (hl : PowerLoss F cs h c fs ns after) (pid now : Int) (i j : Nat) (hij : i ≤ j) (hi : after (progressPath d h) = diskAfter F cs h c fs (ns.take i) (progressPath d h))
    (hj : after e.filePath = diskAfter F cs h c fs (ns.take j) e.filePath) :
    ∃ c' e', Cat.init { env with pid := pid, now := now } ⟨⟨d, dl, none⟩, after, []⟩ = (.ok (), ⟨c', after, []⟩) ∧ observe c' after h = .ok e' ∧
      ∀ m, m < (F.length + cs - 1) / cs → e'.saved m → HasChunk F cs (after e'.filePath) m := by
  obtain ⟨c', e', h1, -, h3, h4, h5⟩ := C109_starts hh hcl e ho hp hutf hd ns hn after hl pid now i hi
  refine ⟨c', e', h1, h3, fun m hm hs => ?_⟩
  obtain ⟨cj, ej, -, -, -, g4, g5, -⟩ := at_version hh hcl e ho hp hd ns hn j
  rw [h4, hj]
  refine g4.right m hm ((g5 m hm).2 ?_)
  rcases (h5 m hm).1 hs with h | ⟨n, hn, e⟩
  · exact .inl h
  · refine .inr ⟨n, ?_, e⟩
    rw [show i = min i j by omega, ← List.take_take] at hn
    exact List.mem_of_mem_take hn

/-- **C109, the failure**: every chunk that is not in the file yet can, when it was saved and the call returned, be lost and be shown as saved. -/
theorem C109_loses (hh : Healthy env d) (hcl : CleanReach env d dl (.running c fs)) (e : Export) (ho : observe c fs h = .ok e) (hp : ¬ CatFile d e.filePath)
    (hutf : env.json.fix e.filePath = e.filePath) (hd : Downloading F old cs (fs e.filePath) e) (n : UInt16) (hn : n.toNat < (F.length + cs - 1) / cs)
    (hnot : ¬ HasChunk F cs (fs e.filePath) n.toNat) (pid now : Int) :
    ∃ after c' e', PowerLoss F cs h c fs [n] after ∧ Cat.init { env with pid := pid, now := now } ⟨⟨d, dl, none⟩, after, []⟩ = (.ok (), ⟨c', after, []⟩) ∧
      observe c' after h = .ok e' ∧ e'.saved n.toNat ∧ ¬ HasChunk F cs (after e'.filePath) n.toNat := by
  have hne : progressPath d h ≠ e.filePath := fun x => hp (.inr ⟨_, x.symm⟩)
  have hl : PowerLoss F cs h c fs [n] ((diskAfter F cs h c fs [n]).put e.filePath (fs e.filePath)) := by
    intro p
    by_cases hq : p = e.filePath
    · exact ⟨0, by simp, by rw [hq, FS.put_same]; rfl⟩
    · exact ⟨1, by simp, by rw [FS.put_other _ _ _ _ hq]; rfl⟩
  obtain ⟨c', e', h1, -, h3, h4, h5⟩ := C109_starts hh hcl e ho hp hutf hd [n] (by simpa using hn) _ hl pid now 1 (by rw [FS.put_other _ _ _ _ hne]; rfl)
  refine ⟨_, c', e', hl, h1, h3, (h5 _ hn).2 (.inr ⟨n, by simp, rfl⟩), ?_⟩
  rw [h4, FS.put_same]
  exact hnot

/-- **C109, the record**: after `RegisterDownload` has reported success, a power loss can leave the index without the progress file, and then no later daemon lists any file. -/
theorem C109_record (hh : Healthy env d) (hcl : CleanReach env d dl (.running c fs)) (size : UInt64) (cs : UInt32) (name : GoString) (hnew : observe c fs h = .err .fileNotFound) (e : Export) (s' : St) (hrun : registerDownload env size cs h name ⟨c, fs, []⟩ = (.ok e, s')) :
    ∃ after : FS, (∀ p, after p = fs p ∨ after p = s'.fs p) ∧ ∀ c' fs', Steps env d dl (.stopped after) (.running c' fs') → ∀ order, MapOrder c' order →
      ∀ fl es s'', listFiles order ⟨c', fs', fl⟩ ≠ (.ok es, s'') := by
  have hf : fs (progressPath d h) = none := unknown_no_progress hh.abs hh.utf8 hcl.reach hnew
  obtain ⟨r, s2, hrun2⟩ : ∃ r s2, registerDownload env size cs h name ⟨c, fs, [.none, .crash none]⟩ = (r, s2) := ⟨_, _, rfl⟩
  obtain ⟨h1, h2⟩ := C31_register_crash hh hcl.reach size cs h name hnew r s2 hrun2
  have hstop : Reach env d dl (.stopped s2.fs) := by
    apply hcl.reach.dies (.register size cs h name) trivial [.none, .crash none] (h := CM.void_dies _ _ _ _ hrun2 h1)
  refine ⟨s2.fs, ?_, fun c' fs' hs order ho fl => ((C31_forever hh hstop h2 hs fl).1 order ho).2⟩
  obtain ⟨ind, rfl, hw⟩ := (hcl.reach.inv hh.abs hh.utf8).split
  have hm := mapGet_of_unknown hf hnew hw
  have hadd := addIndexRecord_one env (downloadRecord dl size cs h name) d dl ind fs [.crash none] hm
  have hadd0 := addIndexRecord_nil env (downloadRecord dl size cs h name) d dl ind fs
  rw [show mapGet ind.index (downloadRecord dl size cs h name).sha1Hash = none from hm] at hadd0
  unfold registerDownload at hrun hrun2
  rcases newProgressFile_noErr (downloadRecord dl size cs h name) d (asInt64_lt _) (by show (0 : Int) ≤ (cs.toNat : Int); omega) with ⟨p, hp⟩ | hp
  · have hpath := newProgressFile_path _ _ _ hp
    unfold downloadRecord at hadd hadd0 hp hpath
    simp only [IOM.bind_apply, getCat_apply, hadd, IOM.lift_apply, hp] at hrun2
    simp only [IOM.bind_apply, getCat_apply, hadd0, IOM.lift_apply, hp] at hrun
    have e2 : s2.fs = fs.put (indexPath ind.dataDir) (some (env.json.enc ({ ind with index := mapPut ind.index h (downloadRecord dl size cs h name) } : IndexFile).toJSON)) := by
      cases hrun2; rfl
    have e1 : s'.fs = (fs.put (indexPath ind.dataDir) (some (env.json.enc ({ ind with index := mapPut ind.index h (downloadRecord dl size cs h name) } : IndexFile).toJSON))).put p.filePath
        (some p.progress.serialize) := by
      cases hrun; rfl
    intro q
    by_cases hq : q = p.filePath
    · left
      rw [e2, hw.dir, hq, hpath]
      exact FS.put_other _ _ _ _ (fun e => indexPath_ne_progressPath d d hh.abs hh.abs _ e.symm)
    · right
      rw [e1, FS.put_other _ _ _ _ hq, e2]
  · unfold downloadRecord at hadd0 hp
    simp only [IOM.bind_apply, getCat_apply, hadd0, IOM.lift_apply, hp] at hrun
    cases hrun

end

/-- A download of two bytes in chunks of one byte, nothing fetched yet. -/
theorem ex_power (sha1 : Bytes → Sha1Hash) (json : JsonCodec) (h : Sha1Hash) : ∃ c fs e, CleanReach (exEnv sha1 json) exDir exDown (.running c fs) ∧ observe c fs h = .ok e ∧
    ¬ CatFile exDir e.filePath ∧ json.fix e.filePath = e.filePath ∧ Downloading [10, 20] [] 1 (fs e.filePath) e ∧ fs e.filePath = none := by
  have hh := ex_healthy sha1 json
  have h0 : CleanReach (exEnv sha1 json) exDir exDown (.running ⟨exDir, exDown, some (freshIdx (exEnv sha1 json) exDir)⟩ (exFS1 sha1 json)) :=
    CleanReach.fresh (exEnv sha1 json) exDir exDown hh.utf8 exFS ex_fs_clean
  have hne : exFS1 sha1 json (joinPath [exDown, [120]]) = none := by
    unfold exFS1
    rw [FS.put_other _ _ _ _ (fun e => ex_not_catFile2 (.inl e)), ex_path]
    decide
  obtain ⟨e, s1, h1⟩ := registerDownload_total (exEnv sha1 json) (UInt64.ofNat 2) 1 h [120] exDir exDown (freshIdx (exEnv sha1 json) exDir) (exFS1 sha1 json) rfl (by decide) (by decide)
  obtain ⟨g1, g2, g3⟩ := C33_start hh h0.reach [10, 20] 1 h [120] [] e s1 (by decide) (by decide) ex_not_catFile2 h1
  obtain ⟨-, -, -, g7⟩ := C29_register hh h0.reach _ 1 h [120] [] e s1 (by decide) (by decide) h1
  have hnone : s1.fs (joinPath [exDown, [120]]) = none := by
    rw [g7 _ (fun e => ex_not_catFile2 (.inl e)) (fun e => ex_not_catFile2 (.inr ⟨_, e⟩)), hne]
  rw [hne] at g3
  refine ⟨s1.cat, s1.fs, e, CleanReach.call (.register _ 1 h [120]) _ _ (.ok ()) s1 h0 trivial (CM.void_ok _ _ _ _ h1) rfl, g2, by rw [g1]; exact ex_not_catFile2, ?_, by rw [g1]; exact g3,
    by rw [g1]; exact hnone⟩
  rw [g1]
  refine json.fix_ascii _ ?_
  rw [show joinPath [exDown, [120]] = [47, 119, 47, 120] by decide]
  intro c hc
  simp only [List.mem_cons, List.not_mem_nil, or_false] at hc
  rcases hc with rfl | rfl | rfl | rfl <;> decide

theorem C109_refuted (sha1 : Bytes → Sha1Hash) (json : JsonCodec) : ¬ C109_statement (exEnv sha1 json) exDir exDown := by
  intro hall
  obtain ⟨c, fs, e, h1, h2, h3, h4, h5, h6⟩ := ex_power sha1 json .zero
  have hnot : ¬ HasChunk [10, 20] 1 (fs e.filePath) (0 : UInt16).toNat := by
    rintro ⟨x, hx, -⟩
    rw [h6] at hx; cases hx
  obtain ⟨after, c', e', g1, g2, g3, g4, g5⟩ := C109_loses (ex_healthy sha1 json) h1 e h2 h3 h4 h5 0 (by decide) hnot (exEnv sha1 json).pid (exEnv sha1 json).now
  obtain ⟨c2, e2, k1, k2, k3⟩ := hall c fs .zero [10, 20] [] 1 e [0] after h1 h2 h3 h4 h5 (by decide) g1
  have : (Res.ok (), (⟨c', after, []⟩ : St)) = (.ok (), ⟨c2, after, []⟩) := by rw [← g2, ← k1]
  cases this
  rw [g3] at k2; cases k2
  exact g5 (k3 _ (by decide) g4)

/-- The hypotheses of `C109_starts` and `C109_partial` can be met with something lost: after two chunks were saved the progress file is one chunk behind and the file is not. -/
example (sha1 : Bytes → Sha1Hash) (json : JsonCodec) (h : Sha1Hash) : ∃ c fs e after, CleanReach (exEnv sha1 json) exDir exDown (.running c fs) ∧ observe c fs h = .ok e ∧
    ¬ CatFile exDir e.filePath ∧ json.fix e.filePath = e.filePath ∧ Downloading [10, 20] [] 1 (fs e.filePath) e ∧ PowerLoss [10, 20] 1 h c fs [1, 0] after ∧
    after (progressPath exDir h) = diskAfter [10, 20] 1 h c fs [1] (progressPath exDir h) ∧ after e.filePath = diskAfter [10, 20] 1 h c fs [1, 0] e.filePath := by
  obtain ⟨c, fs, e, h1, h2, h3, h4, h5, h6⟩ := ex_power sha1 json h
  refine ⟨c, fs, e, (diskAfter [10, 20] 1 h c fs [1]).put e.filePath (diskAfter [10, 20] 1 h c fs [1, 0] e.filePath), h1, h2, h3, h4, h5, ?_, ?_, FS.put_same _ _ _⟩
  · intro p
    by_cases hq : p = e.filePath
    · exact ⟨2, by decide, by rw [hq, FS.put_same]; rfl⟩
    · exact ⟨1, by decide, by rw [FS.put_other _ _ _ _ hq]; rfl⟩
  · exact FS.put_other _ _ _ _ (fun x => h3 (.inr ⟨_, x.symm⟩))

end Flu
