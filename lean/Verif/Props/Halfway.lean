import Verif.Props.Owned
/-!
# What a call leaves that the disk has failed

C136: all the states in which a running daemon can be after `ShareFile`, `RegisterDownload` or `UnshareFile` has returned an error, whatever operations of the disk failed.
-/
namespace Flu
open Spec

namespace Spec

/-- Nothing has changed: the same files, the same answers. -/
def Unmoved (c : Cat) (fs : FS) (s' : St) : Prop := s'.fs = fs ∧ ∀ k, observe s'.cat s'.fs k = observe c fs k

/-- The file was new and is now in the catalogue, but cannot be shown; apart from it only the file with the index can have changed. -/
structure Stump (d : Path) (c : Cat) (fs : FS) (s' : St) (h : Sha1Hash) : Prop where
  before : observe c fs h = .err .fileNotFound
  now : observe s'.cat s'.fs h = .err .io
  others : ∀ k, k ≠ h → observe s'.cat s'.fs k = observe c fs k
  files : ∀ q, q ≠ indexPath d → s'.fs q = fs q

/-- The file was new and is now shared in full, although an error was reported. -/
structure SharedAllTheSame (d : Path) (c : Cat) (fs : FS) (s' : St) (path : Path) (size : Nat) (h : Sha1Hash) : Prop where
  before : observe c fs h = .err .fileNotFound
  now : ∃ e, observe s'.cat s'.fs h = .ok e ∧ e.filePath = path ∧ e.sizeInBytes = asInt64 (UInt64.ofNat size) ∧ e.sha1Hash = h ∧ e.progress.full = .ok true
  others : ∀ k, k ≠ h → observe s'.cat s'.fs k = observe c fs k
  files : ∀ q, q ≠ indexPath d → q ≠ progressPath d h → s'.fs q = fs q

/-- The file was shown and is now forgotten, although an error was reported. -/
structure ForgottenAllTheSame (d : Path) (c : Cat) (fs : FS) (s' : St) (h : Sha1Hash) : Prop where
  before : ∃ e, observe c fs h = .ok e
  now : observe s'.cat s'.fs h = .err .fileNotFound
  gone : s'.fs (progressPath d h) = none
  others : ∀ k, k ≠ h → observe s'.cat s'.fs k = observe c fs k
  files : ∀ q, q ≠ indexPath d → q ≠ progressPath d h → s'.fs q = fs q

end Spec

theorem IOM.bind_err_iff {σ α β : Type} (x : IOM σ α) (f : α → IOM σ β) (s : σ) (e : Err) (s' : σ) :
    (x >>= f) s = (.err e, s') ↔ x s = (.err e, s') ∨ ∃ a s1, x s = (.ok a, s1) ∧ f a s1 = (.err e, s') := by
  rw [IOM.bind_apply]
  rcases x s with ⟨r, s1⟩
  cases r with
  | ok a =>
    simp only [Prod.mk.injEq, reduceCtorEq, false_and, false_or]
    constructor
    · intro h; exact ⟨a, s1, ⟨rfl, rfl⟩, h⟩
    · rintro ⟨a', s2, ⟨h1, h2⟩, h3⟩; cases h1; cases h2; exact h3
  | err e' => simp
  | panic => simp
  | exit => simp
  | crash => simp

theorem osWriteFile_err (p : Path) (data : Bytes) (s : St) (e : Err) (s' : St) (h : osWriteFile p data s = (.err e, s')) :
    e = .io ∧ s'.cat = s.cat ∧ (s'.fs = s.fs ∨ ∃ k, s'.fs = s.fs.put p (some (data.take k))) := by
  have hf := osWriteFile_frame p data s
  rw [h] at hf
  refine ⟨?_, hf⟩
  obtain ⟨c, fs, fl⟩ := s
  unfold osWriteFile at h
  rw [IOM.bind_apply] at h
  cases fl with
  | nil => cases h
  | cons f fl =>
    cases f with
    | none => cases h
    | fail eff => cases eff <;> cases h <;> rfl
    | crash eff => cases eff <;> cases h

theorem osWriteFile_ok (p : Path) (data : Bytes) (s : St) (s' : St) (h : osWriteFile p data s = (.ok (), s')) : s'.cat = s.cat ∧ s'.fs = s.fs.put p (some data) := by
  have := OkClean.osWriteFile p data s () s' h
  have e : osWriteFile p data s.quiet = (.ok (), ⟨s.cat, s.fs.put p (some data), []⟩) := rfl
  rw [e] at this
  obtain ⟨c', fs', fl'⟩ := s'
  cases this
  exact ⟨rfl, rfl⟩

theorem osRemove_err (p : Path) (s : St) (e : Err) (s' : St) (h : osRemove p s = (.err e, s')) : e = .io ∧ s'.cat = s.cat ∧ s'.fs = s.fs := by
  obtain ⟨c, fs, fl⟩ := s
  unfold osRemove at h
  rw [IOM.bind_apply] at h
  have hn : ∀ fl', (match fs p with | some _ => setFile p none | none => IOM.lift (.err .io) : CM Unit) ⟨c, fs, fl'⟩ = (.err e, s') → e = .io ∧ s'.cat = c ∧ s'.fs = fs := by
    intro fl' h
    cases hp : fs p with
    | none => rw [hp] at h; cases h; exact ⟨rfl, rfl, rfl⟩
    | some x => rw [hp] at h; cases h
  cases fl with
  | nil => exact hn [] h
  | cons f fl =>
    cases f with
    | none => exact hn fl h
    | fail eff => cases h; exact ⟨rfl, rfl, rfl⟩
    | crash eff => cases eff <;> cases h

theorem osRemove_ok (p : Path) (s : St) (s' : St) (h : osRemove p s = (.ok (), s')) : s'.cat = s.cat ∧ s'.fs = s.fs.put p none := by
  have h' := OkClean.osRemove p s () s' h
  unfold osRemove at h'
  rw [IOM.bind_apply] at h'
  have h2 : (match s.fs p with | some _ => setFile p none | none => IOM.lift (.err .io) : CM Unit) s.quiet = (.ok (), s'.quiet) := h'
  obtain ⟨c', fs', fl'⟩ := s'
  cases hp : s.fs p with
  | none => rw [hp] at h2; cases h2
  | some x => rw [hp] at h2; cases h2; exact ⟨rfl, rfl⟩

section
variable {env : Env} {d dl : Path} {ind : IndexFile} {fs : FS}

theorem addIndexRecord_err (r : Record) (fl : List Fault) (e : Err) (s' : St) (h : addIndexRecord env r ⟨⟨d, dl, some ind⟩, fs, fl⟩ = (.err e, s')) :
    (∃ x, mapGet ind.index r.sha1Hash = some x ∧ s'.cat = ⟨d, dl, some ind⟩ ∧ s'.fs = fs) ∨
    (mapGet ind.index r.sha1Hash = none ∧ e = .io ∧ s'.cat = ⟨d, dl, some { ind with index := mapPut ind.index r.sha1Hash r }⟩ ∧
      (s'.fs = fs ∨ ∃ x, s'.fs = fs.put (indexPath ind.dataDir) x)) := by
  unfold addIndexRecord at h
  rw [IOM.bind_apply, getIndex_eval] at h
  simp only at h
  cases hm : mapGet ind.index r.sha1Hash with
  | some x =>
    rw [hm] at h
    cases h
    exact .inl ⟨x, rfl, rfl, rfl⟩
  | none =>
    rw [hm] at h
    right
    have h2 : osWriteFile (indexPath ind.dataDir) (env.json.enc ({ ind with index := mapPut ind.index r.sha1Hash r } : IndexFile).toJSON)
        ⟨⟨d, dl, some { ind with index := mapPut ind.index r.sha1Hash r }⟩, fs, fl⟩ = (.err e, s') := h
    obtain ⟨h3, h4, h5⟩ := osWriteFile_err _ _ _ _ _ h2
    exact ⟨rfl, h3, h4, h5.imp id (fun ⟨k, hk⟩ => ⟨_, hk⟩)⟩

theorem addIndexRecord_ok (r : Record) (fl : List Fault) (s' : St) (h : addIndexRecord env r ⟨⟨d, dl, some ind⟩, fs, fl⟩ = (.ok (), s')) :
    mapGet ind.index r.sha1Hash = none ∧ s'.cat = ⟨d, dl, some { ind with index := mapPut ind.index r.sha1Hash r }⟩ ∧
      ∃ x, s'.fs = fs.put (indexPath ind.dataDir) x := by
  unfold addIndexRecord at h
  rw [IOM.bind_apply, getIndex_eval] at h
  simp only at h
  cases hm : mapGet ind.index r.sha1Hash with
  | some x => rw [hm] at h; cases h
  | none =>
    rw [hm] at h
    have h2 : osWriteFile (indexPath ind.dataDir) (env.json.enc ({ ind with index := mapPut ind.index r.sha1Hash r } : IndexFile).toJSON)
        ⟨⟨d, dl, some { ind with index := mapPut ind.index r.sha1Hash r }⟩, fs, fl⟩ = (.ok (), s') := h
    obtain ⟨h4, h5⟩ := osWriteFile_ok _ _ _ _ h2
    exact ⟨rfl, h4, _, h5⟩

/-- A record that is put in changes nothing about the others, if their progress files stay. -/
theorem obs_put_other (hw : WFIdx d ind) (fs' : FS) (h : Sha1Hash) (r : Record) (k : Sha1Hash) (hk : k ≠ h) (hf : fs' (progressPath d k) = fs (progressPath d k)) :
    obsRec d fs' (mapPut ind.index h r) k = obsRec d fs ind.index k := by
  rw [obsRec_congr d fs' (mapPut ind.index h r) ind.index k (by rw [mapGet_put, if_neg (Ne.symm hk)])]
  exact obsRec_fs _ _ _ _ _ hw.own hf

/-- Where adding the record failed, the daemon is as before or keeps a stump. -/
theorem stump_of_add (hh : Healthy env d) (hreach : Reach env d dl (.running ⟨d, dl, some ind⟩ fs)) (r : Record) (hr : r.progressFile = none) (fl : List Fault) (e : Err) (s' : St)
    (h : addIndexRecord env r ⟨⟨d, dl, some ind⟩, fs, fl⟩ = (.err e, s')) :
    Unmoved ⟨d, dl, some ind⟩ fs s' ∨ e = .io ∧ Stump d ⟨d, dl, some ind⟩ fs s' r.sha1Hash := by
  obtain ⟨ind', hi, hw⟩ := (hreach.inv hh.abs hh.utf8).split
  cases hi
  rcases addIndexRecord_err r fl e s' h with ⟨x, -, h2, h3⟩ | ⟨hm, he, h2, h3⟩
  · left
    exact ⟨h3, fun k => by rw [h2, h3]⟩
  · right
    have hfiles : ∀ q, q ≠ indexPath d → s'.fs q = fs q := by
      intro q hq
      rcases h3 with h3 | ⟨x, h3⟩
      · rw [h3]
      · rw [h3, hw.dir, FS.put_other _ _ _ _ hq]
    have hprog : ∀ k, s'.fs (progressPath d k) = fs (progressPath d k) := fun k => hfiles _ (fun e => indexPath_ne_progressPath d d hh.abs hh.abs k e.symm)
    have hb : observe ⟨d, dl, some ind⟩ fs r.sha1Hash = .err .fileNotFound := by
      rw [observe_eq]; exact obsRec_notFound.2 hm
    refine ⟨he, hb, ?_, ?_, hfiles⟩
    · rw [h2, observe_eq]
      unfold obsRec
      rw [mapGet_put, if_pos rfl]
      simp only
      unfold viewProgress
      rw [hr]
      simp only
      rw [hprog, unknown_no_progress hh.abs hh.utf8 hreach hb]
      rfl
    · intro k hk
      rw [h2, observe_eq, observe_eq]
      exact obs_put_other hw s'.fs _ r k hk (hprog k)

end

section
variable {env : Env} {d dl : Path} {c : Cat} {fs : FS}

/-- C136: `RegisterDownload` that fails has done nothing, or it is the index that could not be written, and a stump is left. -/
theorem C136_register (hh : Healthy env d) (hreach : Reach env d dl (.running c fs)) (size : UInt64) (cs : UInt32) (h : Sha1Hash) (name : GoString) (fl : List Fault)
    (e : Err) (s' : St) (hrun : registerDownload env size cs h name ⟨c, fs, fl⟩ = (.err e, s')) : Unmoved c fs s' ∨ e = .io ∧ Stump d c fs s' h := by
  obtain ⟨ind, rfl, hw⟩ := (hreach.inv hh.abs hh.utf8).split
  unfold registerDownload at hrun
  rw [IOM.bind_apply, getCat_apply] at hrun
  simp only at hrun
  rcases (IOM.bind_err_iff _ _ _ _ _).1 hrun with h1 | ⟨_, s1, h1, h2⟩
  · exact stump_of_add hh hreach _ rfl fl e s' h1
  · exfalso
    obtain ⟨hm, hc1, x, hf1⟩ := addIndexRecord_ok _ _ _ h1
    obtain ⟨c1, fs1, fl1⟩ := s1
    simp only at hc1 hf1
    subst hc1 hf1
    rw [IOM.bind_apply, getCat_apply] at h2
    simp only at h2
    rw [IOM.bind_apply, IOM.lift_apply] at h2
    generalize hp : newProgressFile _ d = rp at h2
    rcases rp with p | x | _ | _ | _
    rotate_left
    · exact noErr_newProgressFile _ _ x hp
    · cases h2
    · cases h2
    · cases h2
    simp only at h2
    rw [IOM.bind_apply, updateRecord_eval] at h2
    simp only at h2
    rcases (IOM.bind_err_iff _ _ _ _ _).1 h2 with h3 | ⟨_, s3, h3, h4⟩
    · unfold IOM.ignoreErr at h3
      generalize ProgressFile.save p _ = z at h3
      obtain ⟨r, t⟩ := z
      cases r <;> cases h3
    · rw [IOM.lift_apply] at h4
      simp only [Record.export] at h4
      cases h4

theorem generate_err (path : GoString) (s : St) (e : Err) (s' : St) (h : generateIndexRecordForFile env path s = (.err e, s')) : s'.cat = s.cat ∧ s'.fs = s.fs := by
  have ht : Triple (fun c fs => c = s.cat ∧ fs = s.fs) (generateIndexRecordForFile env path) (fun _ c fs => c = s.cat ∧ fs = s.fs) (fun c fs => c = s.cat ∧ fs = s.fs) := by
    refine Triple.bind (Triple.osStat _ (fun _ _ h => h)) ?_
    intro o
    cases o with
    | none => exact Triple.lift _ (fun a e => by cases e) (fun _ _ h => h.1)
    | some _ => exact Triple.bind (Triple.osHashFile _ _ (fun _ _ h => h.1)) (fun _ => Triple.pure _ (fun _ _ h => h.1.1))
  exact (ht s ⟨rfl, rfl⟩).2 _ s' h (fun a e => by cases e)

/-- C136: `ShareFile` that fails has done nothing; or the index could not be written, and a stump is left; or the progress could not be written, and the file is shared all the same. -/
theorem C136_share (hh : Healthy env d) (hreach : Reach env d dl (.running c fs)) (path : GoString) (fl : List Fault) (e : Err) (s' : St)
    (hrun : shareFile env path ⟨c, fs, fl⟩ = (.err e, s')) :
    Unmoved c fs s' ∨ e = .io ∧ ∃ content, fs (absPath env.cwd path) = some content ∧
      (Stump d c fs s' (env.sha1 content) ∨ SharedAllTheSame d c fs s' (absPath env.cwd path) content.length (env.sha1 content)) := by
  obtain ⟨ind, rfl, hw⟩ := (hreach.inv hh.abs hh.utf8).split
  unfold shareFile at hrun
  rcases (IOM.bind_err_iff _ _ _ _ _).1 hrun with h1 | ⟨rec, s0, h0, hrun⟩
  · left
    obtain ⟨h2, h3⟩ := generate_err _ _ _ _ h1
    exact ⟨h3, fun k => by rw [h2, h3]⟩
  have hq := OkClean.generate env path _ _ _ h0
  rw [St.quiet_eq, generate_nil] at hq
  simp only at hq
  rcases hf : fs (absPath env.cwd path) with _ | content
  · rw [hf] at hq; cases hq
  rw [hf] at hq
  simp only [Prod.mk.injEq, Res.ok.injEq] at hq
  obtain ⟨hq1, hq2⟩ := hq
  obtain ⟨c0, fs0, fl0⟩ := s0
  simp only [St.quiet, St.mk.injEq, and_true] at hq2
  obtain ⟨hc0, hf0⟩ := hq2
  subst hc0 hf0 hq1
  rcases (IOM.bind_err_iff _ _ _ _ _).1 hrun with h1 | ⟨_, s1, h1, h2⟩
  · rcases stump_of_add hh hreach _ rfl fl0 e s' h1 with h | ⟨h, h'⟩
    · exact .inl h
    · exact .inr ⟨h, content, rfl, .inl h'⟩
  obtain ⟨hm, hc1, x, hf1⟩ := addIndexRecord_ok _ _ _ h1
  obtain ⟨c1, fs1, fl1⟩ := s1
  simp only at hc1 hf1 hm
  subst hc1 hf1
  rw [IOM.bind_apply, getCat_apply] at h2
  simp only at h2
  rw [IOM.bind_apply, IOM.lift_apply] at h2
  generalize hp : newProgressFile _ d = rp at h2
  rcases rp with p | x | _ | _ | _
  rotate_left
  · exact absurd hp (noErr_newProgressFile _ _ x)
  · cases h2
  · cases h2
  · cases h2
  obtain ⟨hpp, hpw, hpc, hpn⟩ := newProgressFile_ok _ (asInt64_lt _) (by show (0 : Int) ≤ 4194304; omega) p hp
  obtain ⟨dd, hfill, w, hfl⟩ := Bitset.fill_eq p.progress hpw
  simp only at h2
  rw [IOM.bind_apply, updateRecord_eval] at h2
  simp only at h2
  rw [IOM.bind_apply, IOM.lift_apply, hfill] at h2
  simp only at h2
  rw [IOM.bind_apply, updateRecord_eval] at h2
  simp only at h2
  rcases (IOM.bind_err_iff _ _ _ _ _).1 h2 with h3 | ⟨_, s3, h3, h4⟩
  rotate_left
  · cases h4
  obtain ⟨he, hc, hfs⟩ := osWriteFile_err _ _ _ _ _ h3
  simp only at hc hfs hpp
  have hfiles : ∀ q, q ≠ indexPath d → q ≠ progressPath d (env.sha1 content) → s'.fs q = fs q := by
    intro q hq1 hq2
    rcases hfs with hfs | ⟨k, hfs⟩
    · rw [hfs, hw.dir, FS.put_other _ _ _ _ hq1]
    · rw [hfs, hw.dir, hpp, FS.put_other _ _ _ _ hq2, FS.put_other _ _ _ _ hq1]
  refine .inr ⟨he, content, rfl, .inr ⟨?_, ?_, ?_, hfiles⟩⟩
  · rw [observe_eq]; exact obsRec_notFound.2 hm
  · refine ⟨⟨absPath env.cwd path, asInt64 (UInt64.ofNat content.length), env.sha1 content, ⟨dd, p.progress.size⟩, 4194304⟩, ?_, rfl, rfl, rfl, ?_⟩
    · rw [hc, observe_eq]
      unfold obsRec
      simp only
      rw [mapGet_put, if_pos rfl]
      rfl
    · show Bitset.full _ = _
      rw [Bitset.full_eq _ w]
      congr 1
      apply decide_eq_true
      intro i hi; rw [hfl]; exact decide_eq_true hi
  · intro k hk
    rw [hc, observe_eq, observe_eq]
    simp only
    have e : mapGet (mapPut (mapPut (mapPut ind.index (env.sha1 content) ⟨absPath env.cwd path, asInt64 (UInt64.ofNat content.length), env.sha1 content, none, defaultChunkSize⟩) (env.sha1 content) ⟨absPath env.cwd path, asInt64 (UInt64.ofNat content.length), env.sha1 content, some p, defaultChunkSize⟩) (env.sha1 content)
        ⟨absPath env.cwd path, asInt64 (UInt64.ofNat content.length), env.sha1 content, some ⟨⟨dd, p.progress.size⟩, p.filePath⟩, defaultChunkSize⟩) k = mapGet ind.index k := by
      rw [mapGet_put, if_neg (Ne.symm hk), mapGet_put, if_neg (Ne.symm hk), mapGet_put, if_neg (Ne.symm hk)]
    refine (obsRec_congr d s'.fs _ _ k e).trans ?_
    exact obsRec_fs d fs s'.fs ind.index k hw.own (hfiles _ (fun e => indexPath_ne_progressPath d d hh.abs hh.abs k e.symm) (fun e => hk (progressPath_inj d hh.abs _ _ e)))

/-- C136: `UnshareFile` that fails has done nothing, or it is the index that could not be written, and the file is forgotten all the same. -/
theorem C136_unshare (hh : Healthy env d) (hreach : Reach env d dl (.running c fs)) (h : Sha1Hash) (fl : List Fault) (e : Err) (s' : St)
    (hrun : unshareFile env h ⟨c, fs, fl⟩ = (.err e, s')) : Unmoved c fs s' ∨ e = .io ∧ ForgottenAllTheSame d c fs s' h := by
  obtain ⟨ind, rfl, hw⟩ := (hreach.inv hh.abs hh.utf8).split
  have hown : Own ind.index := fun k r hr => hw.own k r (mapGet_mem _ _ _ hr)
  unfold unshareFile at hrun
  rcases (IOM.bind_err_iff _ _ _ _ _).1 hrun with h1 | ⟨r, s1, h1, h2⟩
  · exact .inl (RO.same ((ro_getIndexRecord hown h _ (RO.init d dl ind fs)).2 _ _ h1 (fun a e => by cases e)))
  obtain ⟨hro, r0, p, hm, hv, rfl⟩ := (ro_getIndexRecord hown h _ (RO.init d dl ind fs)).1 _ _ h1
  simp only at h2
  rcases (IOM.bind_err_iff _ _ _ _ _).1 h2 with h3 | ⟨_, s2, h3, h4⟩
  · left
    obtain ⟨-, hc, hf⟩ := osRemove_err _ _ _ _ h3
    refine RO.same (ind := ind) (dl := dl) ?_
    rw [hc, hf]
    exact hro
  right
  obtain ⟨hc2, hf2⟩ := osRemove_ok _ _ _ h3
  obtain ⟨hf1, m', hc1, hmore⟩ := hro
  obtain ⟨c2, fs2, fl2⟩ := s2
  simp only at hc2 hf2
  rw [hc1] at hc2
  rw [hf1] at hf2
  subst hc2 hf2
  unfold removeIndexRecord at h4
  rw [IOM.bind_apply, getIndex_eval] at h4
  have hk : r0.sha1Hash = h := hown _ _ hm
  have hpp : p.filePath = progressPath d h := by
    rw [viewProgress_path (hw.recs _ _ (mapGet_mem _ _ _ hm)) hv, hk]
  have h5 : osWriteFile (indexPath ind.dataDir) (env.json.enc ({ ind with index := mapDel m' r0.sha1Hash } : IndexFile).toJSON)
      ⟨⟨d, dl, some { ind with index := mapDel m' r0.sha1Hash }⟩, fs.put p.filePath none, fl2⟩ = (.err e, s') := h4
  obtain ⟨he, hc, hfs⟩ := osWriteFile_err _ _ _ _ _ h5
  simp only at hc hfs
  rw [hk] at hc
  rw [hw.dir, hpp] at hfs
  have hfiles : ∀ q, q ≠ indexPath d → s'.fs q = if q = progressPath d h then none else fs q := by
    intro q hq
    have : s'.fs q = (fs.put (progressPath d h) none) q := by
      rcases hfs with hfs | ⟨k, hfs⟩
      · rw [hfs]
      · rw [hfs, FS.put_other _ _ _ _ hq]
    rw [this]
    by_cases e : q = progressPath d h
    · rw [if_pos e, e, FS.put_same]
    · rw [if_neg e, FS.put_other _ _ _ _ e]
  have hnp : ∀ k, progressPath d k ≠ indexPath d := fun k e => indexPath_ne_progressPath d d hh.abs hh.abs k e.symm
  refine ⟨he, ⟨r0.exportWith p, ?_⟩, ?_, ?_, ?_, ?_⟩
  · rw [observe_eq]; unfold obsRec; rw [hm]; simp only; rw [hv]; rfl
  · rw [hc, observe_eq]; exact obsRec_notFound.2 (by simp only; rw [mapGet_del, if_pos rfl])
  · rw [hfiles _ (hnp h), if_pos rfl]
  · intro k hkh
    rw [hc, observe_eq, observe_eq]
    simp only
    rw [obsRec_congr d s'.fs _ m' k (by rw [mapGet_del, if_neg (Ne.symm hkh)]), ← hmore.obs k]
    have ho' := hmore.own hown
    unfold obsRec
    rcases hmk : mapGet m' k with _ | rk
    · rfl
    · simp only
      rw [viewProgress_fs d fs s'.fs rk (by rw [ho' _ _ hmk, hfiles _ (hnp k), if_neg (fun e => hkh (progressPath_inj d hh.abs _ _ e))])]
  · intro q hq1 hq2
    rw [hfiles q hq1, if_neg hq2]

/-- C136: a stump stays as long as the daemon runs: no call that returns changes what the catalogue answers about it. -/
theorem C136_stays (hh : Healthy env d) (hreach : Reach env d dl (.running c fs)) (h : Sha1Hash) (hst : observe c fs h = .err .io) (o : Op) (hsafe : o.Safe d c)
    (fl : List Fault) (r : Res Unit) (s' : St) (hrun : o.run env ⟨c, fs, fl⟩ = (r, s')) (hr : r.returns = true) : observe s'.cat s'.fs h = .err .io := by
  by_cases ht : o.Touches h
  rotate_left
  · rw [observe_other hh hreach h (by rw [hst]; intro e; cases e) o hsafe ht fl r s' hrun, hst]
  cases o with
  | unshare k =>
    cases ht
    cases r with
    | ok a =>
      obtain ⟨⟨e, he⟩, -⟩ := C28_unshare hh hreach h fl s' hrun
      rw [hst] at he; cases he
    | err e =>
      rcases C136_unshare hh hreach h fl e s' hrun with hu | ⟨-, hf⟩
      · rw [hu.2, hst]
      · obtain ⟨e, he⟩ := hf.before
        rw [hst] at he; cases he
    | panic => cases hr
    | exit => cases hr
    | crash => cases hr
  | save k n data =>
    cases ht
    exfalso
    obtain ⟨ind, rfl, hw⟩ := (hreach.inv hh.abs hh.utf8).split
    have hown : Own ind.index := fun k r hr => hw.own k r (mapGet_mem _ _ _ hr)
    have hrun : saveChunk h n data ⟨⟨d, dl, some ind⟩, fs, fl⟩ = (r, s') := hrun
    unfold saveChunk at hrun
    rw [IOM.bind_apply] at hrun
    unfold IOM.orPanic at hrun
    have hg := ro_getIndexRecord hown h ⟨⟨d, dl, some ind⟩, fs, fl⟩ (RO.init d dl ind fs)
    rcases hx : getIndexRecord h ⟨⟨d, dl, some ind⟩, fs, fl⟩ with ⟨q, t⟩
    rw [hx] at hrun hg
    cases q with
    | ok a =>
      obtain ⟨-, r0, p, hm, hv, -⟩ := hg.1 a t rfl
      rw [observe_eq] at hst
      unfold obsRec at hst
      rw [hm] at hst
      simp only at hst
      rw [hv] at hst
      cases hst
    | err e => cases hrun; cases hr
    | panic => cases hrun; cases hr
    | exit => cases hrun; cases hr
    | crash => cases hrun; cases hr
  | _ => cases ht

/-- C136: as long as there is a stump the list of files cannot be had, and the file can be neither registered nor unshared. -/
theorem C136_stuck (hh : Healthy env d) (hreach : Reach env d dl (.running c fs)) (h : Sha1Hash) (hst : observe c fs h = .err .io) (fl : List Fault) (s' : St) :
    (∀ order es, MapOrder c order → listFiles order ⟨c, fs, fl⟩ ≠ (.ok es, s')) ∧
    (∀ size cs name, ∃ p, registerDownload env size cs h name ⟨c, fs, fl⟩ = (.err (.alreadyShared p), ⟨c, fs, fl⟩)) ∧
    unshareFile env h ⟨c, fs, fl⟩ ≠ (.ok (), s') := by
  have hk : observe c fs h ≠ .err .fileNotFound := by rw [hst]; intro e; cases e
  refine ⟨?_, ?_, ?_⟩
  · intro order es ho hrun
    obtain ⟨h1, -, h3, -⟩ := C38_list hh hreach order ho fl es s' hrun
    have hm : observe c fs h ∈ order.map (observe c fs) := List.mem_map.2 ⟨h, (h3 h).2 hk, rfl⟩
    rw [h1, hst] at hm
    obtain ⟨x, -, hx⟩ := List.mem_map.1 hm
    cases hx
  · intro size cs name
    obtain ⟨p, hp, -⟩ := C27_register_again hh hreach size cs h name fl hk
    exact ⟨p, hp⟩
  · intro hrun
    obtain ⟨⟨e, he⟩, -⟩ := C28_unshare hh hreach h fl s' hrun
    rw [hst] at he; cases he

/-- C136: the stump is possible for every new file that is registered. -/
theorem C136_register_possible (hh : Healthy env d) (hreach : Reach env d dl (.running c fs)) (size : UInt64) (cs : UInt32) (h : Sha1Hash) (name : GoString)
    (hnew : observe c fs h = .err .fileNotFound) : ∃ s', registerDownload env size cs h name ⟨c, fs, [.fail none]⟩ = (.err .io, s') ∧ Stump d c fs s' h := by
  obtain ⟨ind, rfl, hw⟩ := (hreach.inv hh.abs hh.utf8).split
  have hm : mapGet ind.index h = none := by rw [observe_eq] at hnew; exact obsRec_notFound.1 hnew
  have hadd : addIndexRecord env (downloadRecord dl size cs h name) ⟨⟨d, dl, some ind⟩, fs, [.fail none]⟩ =
      (.err .io, ⟨⟨d, dl, some { ind with index := mapPut ind.index h (downloadRecord dl size cs h name) }⟩, fs, []⟩) := by
    unfold addIndexRecord
    rw [IOM.bind_apply, getIndex_eval]
    simp only
    rw [show mapGet ind.index (downloadRecord dl size cs h name).sha1Hash = none from hm]
    rfl
  have hrun : registerDownload env size cs h name ⟨⟨d, dl, some ind⟩, fs, [.fail none]⟩ =
      (.err .io, ⟨⟨d, dl, some { ind with index := mapPut ind.index h (downloadRecord dl size cs h name) }⟩, fs, []⟩) := by
    unfold registerDownload
    rw [IOM.bind_apply, getCat_apply]
    simp only
    unfold downloadRecord at hadd ⊢
    rw [IOM.bind_apply, hadd]
  refine ⟨_, hrun, ?_⟩
  rcases C136_register hh hreach size cs h name _ _ _ hrun with hu | hs
  · exfalso
    have := hu.2 h
    rw [hnew, observe_eq, obsRec_notFound] at this
    simp only at this
    rw [mapGet_put, if_pos rfl] at this
    cases this
  · exact hs.2

/-- C136: that a file is shared although an error is reported is possible for every new file. -/
theorem C136_share_possible (hh : Healthy env d) (hreach : Reach env d dl (.running c fs)) (path : GoString) (content : Bytes) (hc : fs (absPath env.cwd path) = some content)
    (hl : content.length < 2 ^ 63) (hnew : observe c fs (env.sha1 content) = .err .fileNotFound) :
    ∃ s', shareFile env path ⟨c, fs, [.none, .none, .none, .fail none]⟩ = (.err .io, s') ∧
      SharedAllTheSame d c fs s' (absPath env.cwd path) content.length (env.sha1 content) := by
  obtain ⟨ind, rfl, hw⟩ := (hreach.inv hh.abs hh.utf8).split
  have hm : mapGet ind.index (env.sha1 content) = none := by rw [observe_eq] at hnew; exact obsRec_notFound.1 hnew
  let r0 : Record := { filePath := absPath env.cwd path, sizeInBytes := asInt64 (UInt64.ofNat content.length), sha1Hash := env.sha1 content, progressFile := none, chunkSize := defaultChunkSize }
  have hgen : generateIndexRecordForFile env path ⟨⟨d, dl, some ind⟩, fs, [.none, .none, .none, .fail none]⟩ = (.ok r0, ⟨⟨d, dl, some ind⟩, fs, [.none, .fail none]⟩) := by
    unfold generateIndexRecordForFile osStat osHashFile osReadFile
    simp only [IOM.bind_apply, nextFault, getFS_apply, IOM.pure_apply, hc, Option.map_some]
    rfl
  have hadd : addIndexRecord env r0 ⟨⟨d, dl, some ind⟩, fs, [.none, .fail none]⟩ =
      (.ok (), ⟨⟨d, dl, some { ind with index := mapPut ind.index (env.sha1 content) r0 }⟩,
        fs.put (indexPath ind.dataDir) (some (env.json.enc ({ ind with index := mapPut ind.index (env.sha1 content) r0 } : IndexFile).toJSON)), [.fail none]⟩) := by
    unfold addIndexRecord
    rw [IOM.bind_apply, getIndex_eval]
    simp only
    rw [show mapGet ind.index r0.sha1Hash = none from hm]
    rfl
  obtain ⟨p, hp⟩ := newProgressFile_total r0 d content.length defaultChunkSize.toNat (asInt64_ofNat _ hl) rfl hl (by decide)
  obtain ⟨-, hpw, -⟩ := newProgressFile_ok r0 (asInt64_lt _) (by show (0 : Int) ≤ 4194304; omega) p hp
  obtain ⟨dd, hfill, -⟩ := Bitset.fill_eq p.progress hpw
  have hrun : ∃ s', shareFile env path ⟨⟨d, dl, some ind⟩, fs, [.none, .none, .none, .fail none]⟩ = (.err .io, s') ∧ s'.cat.indexFile.bind (fun i => (mapGet i.index (env.sha1 content)).bind (·.progressFile)) ≠ none := by
    unfold shareFile
    rw [IOM.bind_apply, hgen]
    simp only
    rw [IOM.bind_apply, hadd]
    simp only [IOM.bind_apply, getCat_apply, IOM.lift_apply, hp, updateRecord_eval, hfill]
    refine ⟨_, rfl, ?_⟩
    simp only [Option.bind_some]
    rw [mapGet_put, if_pos rfl]
    simp
  obtain ⟨s', hrun, hsome⟩ := hrun
  refine ⟨s', hrun, ?_⟩
  have hno : ∀ x, observe s'.cat s'.fs (env.sha1 content) ≠ .err x := by
    intro x hx
    obtain ⟨ind', e, -⟩ := ((hreach.returns (.share path) trivial _ s' (.inr ⟨.io, by show CM.void (shareFile env path) _ = _; unfold CM.void; rw [IOM.bind_apply, hrun]⟩)).inv hh.abs hh.utf8).split
    rw [e] at hsome
    rw [e, observe_eq] at hx
    simp only [Option.bind_some] at hsome
    unfold obsRec at hx
    rcases hg : mapGet ind'.index (env.sha1 content) with _ | r
    · rw [hg] at hsome; exact hsome rfl
    rw [hg] at hsome hx
    simp only [Option.bind_some] at hsome hx
    unfold viewProgress at hx
    rcases hpf : r.progressFile with _ | q
    · exact hsome hpf
    · rw [hpf] at hx; cases hx
  rcases C136_share hh hreach path _ _ _ hrun with hu | ⟨-, content', hc', hs | hs⟩
  · exact absurd ((hu.2 _).trans hnew) (hno _)
  · rw [hc] at hc'; cases hc'
    exact absurd hs.now (hno _)
  · rw [hc] at hc'; cases hc'
    exact hs

/-- C136: that a file is forgotten although an error is reported is possible for every file that is shown and has its progress file. -/
theorem C136_unshare_possible (hh : Healthy env d) (hreach : Reach env d dl (.running c fs)) (h : Sha1Hash) (x : Export) (hx : observe c fs h = .ok x)
    (hp : fs (progressPath d h) ≠ none) : ∃ fl s', unshareFile env h ⟨c, fs, fl⟩ = (.err .io, s') ∧ ForgottenAllTheSame d c fs s' h := by
  obtain ⟨ind, rfl, hw⟩ := (hreach.inv hh.abs hh.utf8).split
  have hx0 := hx
  rw [observe_eq] at hx
  unfold obsRec at hx
  rcases hm : mapGet ind.index h with _ | r
  · rw [hm] at hx; cases hx
  rw [hm] at hx
  simp only at hx
  obtain ⟨p, hv, -⟩ := (Res.bind_ok_iff _ _ _).1 hx
  have hk : r.sha1Hash = h := hw.own _ _ (mapGet_mem _ _ _ hm)
  have hpp : p.filePath = progressPath d h := by
    rw [viewProgress_path (hw.recs _ _ (mapGet_mem _ _ _ hm)) hv, hk]
  have hget : ∃ fl m', getIndexRecord h ⟨⟨d, dl, some ind⟩, fs, fl⟩ = (.ok { r with progressFile := some p }, ⟨⟨d, dl, some { ind with index := m' }⟩, fs, [.none, .fail none]⟩) := by
    rcases viewProgress_own hv with hpf | ⟨hpf, -, data, hd1, hd2⟩
    · refine ⟨[.none, .fail none], ind.index, ?_⟩
      unfold getIndexRecord
      rw [IOM.bind_apply, getIndex_eval]
      simp only [hm]
      unfold fillRecord
      rw [hpf]
      cases r
      cases hpf
      rfl
    · refine ⟨[.none, .none, .fail none], mapPut ind.index r.sha1Hash { r with progressFile := some p }, ?_⟩
      have hpe : p = ⟨p.progress, progressPath d r.sha1Hash⟩ := by rw [hk, ← hpp]
      have hrd : osReadFile (progressPath d r.sha1Hash) ⟨⟨d, dl, some ind⟩, fs, [.none, .none, .fail none]⟩ = (.ok data, ⟨⟨d, dl, some ind⟩, fs, [.none, .fail none]⟩) := by
        unfold osReadFile
        rw [IOM.bind_apply]
        simp only [nextFault]
        rw [IOM.bind_apply, getFS_apply]
        simp only [hd1]
        rfl
      unfold getIndexRecord
      rw [IOM.bind_apply, getIndex_eval]
      simp only [hm]
      unfold fillRecord
      rw [hpf]
      simp only
      unfold deserializeProgressFile
      simp only [IOM.bind_apply, getCat_apply, hrd, IOM.lift_apply, hd2, IOM.pure_apply, updateRecord_eval]
      rw [← hpe]
  obtain ⟨fl, m', hget⟩ := hget
  have hrm : osRemove p.filePath ⟨⟨d, dl, some { ind with index := m' }⟩, fs, [.none, .fail none]⟩ = (.ok (), ⟨⟨d, dl, some { ind with index := m' }⟩, fs.put p.filePath none, [.fail none]⟩) := by
    rcases hfp : fs p.filePath with _ | y
    · rw [hpp] at hfp; exact absurd hfp hp
    unfold osRemove
    rw [IOM.bind_apply]
    simp only [nextFault]
    rw [IOM.bind_apply, getFS_apply]
    simp only [hfp]
    rfl
  have hrun : ∃ s', unshareFile env h ⟨⟨d, dl, some ind⟩, fs, fl⟩ = (.err .io, s') ∧ s'.fs (progressPath d h) = none := by
    unfold unshareFile
    rw [IOM.bind_apply, hget]
    simp only
    rw [IOM.bind_apply]
    unfold ProgressFile.delete
    rw [hrm]
    refine ⟨_, rfl, ?_⟩
    simp only
    rw [hpp, FS.put_same]
  obtain ⟨s', hrun, hgone⟩ := hrun
  refine ⟨fl, s', hrun, ?_⟩
  rcases C136_unshare hh hreach h _ _ _ hrun with hu | hs
  · rw [hu.1] at hgone; exact absurd hgone hp
  · exact hs.2

end

/-- The hypotheses of `C136_register_possible` and `C136_share_possible` hold after the first start; with them those of `C136_register`, `C136_share`, `C136_stays` and `C136_stuck`. -/
example (sha1 : Bytes → Sha1Hash) (json : JsonCodec) (h : Sha1Hash) : ∃ c fs, Healthy (exEnv sha1 json) exDir ∧ Reach (exEnv sha1 json) exDir exDown (.running c fs) ∧
    observe c fs h = .err .fileNotFound ∧ (∃ s', registerDownload (exEnv sha1 json) 10 4 h [120] ⟨c, fs, [.fail none]⟩ = (.err .io, s') ∧ Stump exDir c fs s' h) ∧
    fs (absPath (exEnv sha1 json).cwd [102]) = some [1, 2, 3] ∧
    ∃ s', shareFile (exEnv sha1 json) [102] ⟨c, fs, [.none, .none, .none, .fail none]⟩ = (.err .io, s') ∧
      SharedAllTheSame exDir c fs s' (absPath (exEnv sha1 json).cwd [102]) 3 (sha1 [1, 2, 3]) :=
  ⟨_, _, ex_healthy sha1 json, ex_reach sha1 json, rfl, C136_register_possible (ex_healthy sha1 json) (ex_reach sha1 json) _ _ _ _ rfl, ex_file sha1 json,
    C136_share_possible (ex_healthy sha1 json) (ex_reach sha1 json) [102] [1, 2, 3] (ex_file sha1 json) (by decide) rfl⟩

/-- Those of `C136_unshare` and `C136_unshare_possible` hold once a file is shared. -/
example (sha1 : Bytes → Sha1Hash) (json : JsonCodec) : ∃ c fs, Reach (exEnv sha1 json) exDir exDown (.running c fs) ∧
    ∃ fl s', unshareFile (exEnv sha1 json) (sha1 [1, 2, 3]) ⟨c, fs, fl⟩ = (.err .io, s') ∧ ForgottenAllTheSame exDir c fs s' (sha1 [1, 2, 3]) := by
  obtain ⟨c, fs, e, h1, -, h3, h4, -⟩ := ex_shared sha1 json
  exact ⟨c, fs, h1, C136_unshare_possible (ex_healthy sha1 json) h1 _ e h4 h3⟩

end Flu
