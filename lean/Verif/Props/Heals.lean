import Verif.Props.Halfway
import Verif.Props.DeathPoints
import Verif.Props.Success
/-!
# Restarting after the disk has failed a call

C138: whether the next daemon works after a call that returned an error depends on what was written of the index, and on whether the index has been written since.
-/
namespace Flu
open Spec

namespace Spec

/-- The calls that write the index. -/
def WritesIndex : Op → Prop
  | .share _ => True
  | .register _ _ _ _ => True
  | .unshare _ => True
  | _ => False

/-- Every file in the catalogue has a progress file of whole words. -/
def AllReadable (d : Path) (c : Cat) (fs : FS) : Prop := ∀ h, observe c fs h ≠ .err .fileNotFound → WholeWords (fs (progressPath d h))

end Spec

section
variable {env : Env} {d dl : Path} {c : Cat} {fs : FS}

theorem Reach.killed (h : Reach env d dl (.running c fs)) : Reach env d dl (.stopped fs) := by
  obtain ⟨fs0, h1, h2⟩ := h
  exact ⟨fs0, h1, h2.step (.kill c fs)⟩

/-- A call that writes the index and succeeds leaves it whole on the disk, with the files that are in memory. -/
theorem index_written (hh : Healthy env d) (hreach : Reach env d dl (.running c fs)) (o : Op) (ho : WritesIndex o) (fl : List Fault) (s' : St) (hrun : o.run env ⟨c, fs, fl⟩ = (.ok (), s')) :
    ∃ ind0 ind1, WFIdx d ind0 ∧ s'.fs (indexPath d) = some (env.json.enc ind0.toJSON) ∧ s'.cat = ⟨d, dl, some ind1⟩ ∧ ∀ h, mapGet ind0.index h = none ↔ mapGet ind1.index h = none := by
  obtain ⟨ind, rfl, hw⟩ := (hreach.inv hh.abs hh.utf8).split
  have hne : ∀ h, indexPath d ≠ progressPath d h := fun h => indexPath_ne_progressPath d d hh.abs hh.abs h
  cases o with
  | share path =>
    rcases CM.void_inv _ _ _ _ hrun rfl with ⟨r, h1, -⟩ | ⟨_, _, e⟩
    rotate_left
    · cases e
    have hq := OkClean.shareFile env path _ _ _ h1
    rw [St.quiet_eq] at hq
    obtain ⟨content, p, full, m1, -, -, h4, -, h6, h7, -, h9⟩ := shareFile_nil_ok env path d dl ind fs r _ hq
    have hrec : RecOK d ({ r with progressFile := none } : Record) := by
      rw [h6]; exact ⟨by show (0 : Int) ≤ 4194304; decide, by show (4194304 : Int) < 2 ^ 32; decide, fun p hp => (by cases hp)⟩
    have hsha : r.sha1Hash = env.sha1 content := by rw [h6]
    obtain ⟨hpp, -, -, -⟩ := newProgressFile_ok _ (asInt64_lt _) (by show (0 : Int) ≤ 4194304; omega) p h4
    have hput := hw.put ({ r with progressFile := none } : Record) hrec
    simp only [hsha] at hput
    have hc := congrArg St.cat h7
    have hf := congrArg St.fs h7
    simp only [St.quiet] at hc hf
    refine ⟨_, _, hput, ?_, hc, fun h => ?_⟩
    · rw [hf, hpp, FS.put_other _ _ _ _ (hne _), hw.dir, FS.put_same, hsha]
    · simp only [h9, mapGet_put]
      by_cases e : env.sha1 content = h <;> simp [e]
  | register size cs h name =>
    rcases CM.void_inv _ _ _ _ hrun rfl with ⟨r, h1, -⟩ | ⟨_, _, e⟩
    rotate_left
    · cases e
    obtain ⟨p, m1, fs1, -, h2, h3, h4, h5, h6, -⟩ := registerDownload_ok env size cs h name d dl ind fs fl r s' h1
    have hrec : RecOK d (downloadRecord dl size cs h name) :=
      ⟨by show (0 : Int) ≤ (cs.toNat : Int); omega, by show (cs.toNat : Int) < 2 ^ 32; have := cs.toNat_lt; omega, fun p hp => (by cases hp)⟩
    obtain ⟨hpp, -⟩ := newProgressFile_ok _ (asInt64_lt _) hrec.1 p h2
    refine ⟨_, _, hw.put _ hrec, ?_, h5, fun k => ?_⟩
    · have e : s'.fs (indexPath d) = fs1 (indexPath d) := by
        rcases h6 with h6 | ⟨k, h6⟩
        · rw [h6]
        · rw [h6, hpp, FS.put_other _ _ _ _ (hne _)]
      rw [e, h4, hw.dir, FS.put_same, h3]; rfl
    · simp only [h3, mapGet_put]
      rw [show (downloadRecord dl size cs h name).sha1Hash = h from rfl]
      by_cases e : h = k <;> simp [e]
  | unshare h =>
    have hq := OkClean.unshareFile env h _ _ _ hrun
    rw [St.quiet_eq] at hq
    obtain ⟨r, p, m, -, -, -, -, h5⟩ := unshareFile_nil_ok env h d dl ind fs _ hq
    have hc := congrArg St.cat h5
    have hf := congrArg St.fs h5
    simp only [St.quiet] at hc hf
    have hr : Reach env d dl (.running s'.cat s'.fs) := hreach.op (.unshare h) trivial fl _ s' hrun rfl
    obtain ⟨ind1, e1, hw1⟩ := (hr.inv hh.abs hh.utf8).split
    rw [hc] at e1
    simp only [Cat.mk.injEq, Option.some.injEq, true_and] at e1
    subst e1
    exact ⟨_, _, hw1, by rw [hf, hw.dir, FS.put_same], hc, fun _ => Iff.rfl⟩
  | _ => exact ho.elim

/-- C138: after a call that has written the index and succeeded, whatever failed before, the next daemon works if and only if every file in the catalogue has a progress file of whole words. -/
theorem C138_written (hh : Healthy env d) (hreach : Reach env d dl (.running c fs)) (o : Op) (ho : WritesIndex o) (fl : List Fault) (s' : St) (hrun : o.run env ⟨c, fs, fl⟩ = (.ok (), s')) :
    Usable env d dl s'.fs ↔ AllReadable d s'.cat s'.fs := by
  have hsafe : o.Safe d c := by cases o <;> first | trivial | exact ho.elim
  have hr : Reach env d dl (.running s'.cat s'.fs) := hreach.op o hsafe fl _ s' hrun rfl
  obtain ⟨ind0, ind1, h1, h2, h3, h4⟩ := index_written hh hreach o ho fl s' hrun
  rw [C120_usable_iff hh hr.killed, restartable_whole h1 h2]
  unfold AllReadable
  refine forall_congr' fun h => ?_
  rw [h3, observe_eq, ne_eq, ne_eq, h4 h, obsRec_notFound]

theorem missing_of_io (hh : Healthy env d) (hreach : Reach env d dl (.running c fs)) {h : Sha1Hash} (ho : observe c fs h = .err .io) : fs (progressPath d h) = none := by
  obtain ⟨ind, rfl, hw⟩ := (hreach.inv hh.abs hh.utf8).split
  rw [observe_eq] at ho
  unfold obsRec at ho
  rcases hm : mapGet ind.index h with _ | r
  · rw [hm] at ho; cases ho
  rw [hm] at ho
  simp only at ho
  have hk : r.sha1Hash = h := hw.ownGet _ _ hm
  unfold viewProgress at ho
  rcases hp : r.progressFile with _ | p
  · rw [hp] at ho
    simp only [hk] at ho
    rcases hf : fs (progressPath d h) with _ | x
    · rfl
    · rw [hf] at ho
      simp only at ho
      unfold Bitset.deserialize at ho
      split at ho
      · cases ho
      · simp only at ho
        split at ho <;> cases ho
  · rw [hp] at ho; cases ho

/-- C138: while a file that the disk has failed is in the catalogue without progress, the next such call makes it permanent: no later daemon lists its files. -/
theorem C138_permanent (hh : Healthy env d) (hreach : Reach env d dl (.running c fs)) (h : Sha1Hash) (hst : observe c fs h = .err .io) (o : Op) (ho : WritesIndex o) (fl : List Fault) (s' : St)
    (hrun : o.run env ⟨c, fs, fl⟩ = (.ok (), s')) :
    ¬ Usable env d dl s'.fs ∧ ∀ c' fs', Steps env d dl (.stopped s'.fs) (.running c' fs') → ∀ order, MapOrder c' order → ∀ fl es s2, listFiles order ⟨c', fs', fl⟩ ≠ (.ok es, s2) := by
  have hsafe : o.Safe d c := by cases o <;> first | trivial | exact ho.elim
  have hr : Reach env d dl (.running s'.cat s'.fs) := hreach.op o hsafe fl _ s' hrun rfl
  have hst' := C136_stays hh hreach h hst o hsafe fl _ s' hrun rfl
  have hbad : ¬ Usable env d dl s'.fs := by
    rw [C138_written hh hreach o ho fl s' hrun]
    intro hall
    obtain ⟨p, hp, -⟩ := hall h (by rw [hst']; intro e; cases e)
    rw [missing_of_io hh hr hst'] at hp
    cases hp
  exact ⟨hbad, fun c' fs' hs order hm fl es s2 => C120_forever hh hr.killed hbad hs order hm fl es s2⟩

theorem FS.put_none (fs : FS) (p : Path) (h : fs p = none) : fs.put p none = fs := by
  funext q
  by_cases e : q = p
  · rw [e, FS.put_same, h]
  · rw [FS.put_other _ _ _ _ e]

theorem addIndexRecord_torn {ind : IndexFile} (r : Record) (fl : List Fault) (e : Err) (s' : St) (h : addIndexRecord env r ⟨⟨d, dl, some ind⟩, fs, fl⟩ = (.err e, s')) :
    s'.fs = fs ∨ mapGet ind.index r.sha1Hash = none ∧
      ∃ k, s'.fs = fs.put (indexPath ind.dataDir) (some ((env.json.enc ({ ind with index := mapPut ind.index r.sha1Hash r } : IndexFile).toJSON).take k)) := by
  unfold addIndexRecord at h
  rw [IOM.bind_apply, getIndex_eval] at h
  simp only at h
  cases hm : mapGet ind.index r.sha1Hash with
  | some x => rw [hm] at h; cases h; exact .inl rfl
  | none =>
    rw [hm] at h
    have h2 : osWriteFile (indexPath ind.dataDir) (env.json.enc ({ ind with index := mapPut ind.index r.sha1Hash r } : IndexFile).toJSON)
        ⟨⟨d, dl, some { ind with index := mapPut ind.index r.sha1Hash r }⟩, fs, fl⟩ = (.err e, s') := h
    exact (osWriteFile_err _ _ _ _ _ h2).2.2.imp id (fun h => ⟨rfl, h⟩)

theorem torn_unusable (hh : Healthy env d) {ind : IndexFile} (hclean : CleanReach env d dl (.running ⟨d, dl, some ind⟩ fs)) (r : Record) (hr : RecOK d r) (fl : List Fault) (e : Err) (s' : St)
    (h : addIndexRecord env r ⟨⟨d, dl, some ind⟩, fs, fl⟩ = (.err e, s')) : s'.fs = fs ∨ ¬ Restartable env d s'.fs := by
  obtain ⟨_, e1, hw⟩ := (hclean.reach.inv hh.abs hh.utf8).split
  cases e1
  rcases addIndexRecord_torn r fl e s' h with h | ⟨hm, k, h⟩
  · exact .inl h
  · right
    rw [h]
    exact not_restartable_added hh hw r hr (unknown_no_progress hh.abs hh.utf8 hclean.reach (by rw [observe_eq]; exact obsRec_notFound.2 hm)) k

/-- C138: after a registration that returned an error, the next daemon works if and only if the disk is as it was. -/
theorem C138_register (hh : Healthy env d) (hclean : CleanReach env d dl (.running c fs)) (size : UInt64) (cs : UInt32) (h : Sha1Hash) (name : GoString) (fl : List Fault)
    (e : Err) (s' : St) (hrun : registerDownload env size cs h name ⟨c, fs, fl⟩ = (.err e, s')) : Usable env d dl s'.fs ↔ s'.fs = fs := by
  have hreach := hclean.reach
  have hr : Reach env d dl (.running s'.cat s'.fs) := hreach.op (.register size cs h name) trivial fl _ s' (CM.void_err _ _ _ _ hrun) rfl
  rw [C120_usable_iff hh hr.killed]
  refine ⟨fun hx => ?_, fun e => e ▸ restartable_now hh hclean⟩
  obtain ⟨ind, rfl, hw⟩ := (hreach.inv hh.abs hh.utf8).split
  unfold registerDownload at hrun
  rw [IOM.bind_apply, getCat_apply] at hrun
  simp only at hrun
  rcases (IOM.bind_err_iff _ _ _ _ _).1 hrun with h1 | ⟨_, s1, h1, h2⟩
  · exact (torn_unusable hh hclean _ ⟨by show (0 : Int) ≤ (cs.toNat : Int); omega, by show (cs.toNat : Int) < 2 ^ 32; have := cs.toNat_lt; omega, fun p hp => (by cases hp)⟩ fl e s' h1).elim id (absurd hx)
  · exfalso
    obtain ⟨hm, hc1, x, hf1⟩ := addIndexRecord_ok _ _ _ h1
    obtain ⟨c1, fs1, fl1⟩ := s1
    simp only at hc1 hf1
    subst hc1 hf1
    rw [IOM.bind_apply, getCat_apply] at h2
    simp only at h2
    rw [IOM.bind_apply, IOM.lift_apply] at h2
    generalize hp : newProgressFile _ d = rp at h2
    rcases rp with p | x | _ | _ | _
    rotate_left
    · exact noErr_newProgressFile _ _ x hp
    · cases h2
    · cases h2
    · cases h2
    simp only at h2
    rw [IOM.bind_apply, updateRecord_eval] at h2
    simp only at h2
    rcases (IOM.bind_err_iff _ _ _ _ _).1 h2 with h3 | ⟨_, s3, h3, h4⟩
    · unfold IOM.ignoreErr at h3
      generalize ProgressFile.save p _ = z at h3
      obtain ⟨r, t⟩ := z
      cases r <;> cases h3
    · rw [IOM.lift_apply] at h4
      simp only [Record.export] at h4
      cases h4

/-- C138: after sharing a file has returned an error, the next daemon works if and only if the disk is as it was, or the file was new and its progress file was written in whole words. -/
theorem C138_share (hh : Healthy env d) (hclean : CleanReach env d dl (.running c fs)) (path : GoString) (fl : List Fault) (e : Err) (s' : St)
    (hrun : shareFile env path ⟨c, fs, fl⟩ = (.err e, s')) :
    Usable env d dl s'.fs ↔ s'.fs = fs ∨ ∃ content, fs (absPath env.cwd path) = some content ∧ fs (progressPath d (env.sha1 content)) = none ∧ WholeWords (s'.fs (progressPath d (env.sha1 content))) := by
  have hreach := hclean.reach
  have hr : Reach env d dl (.running s'.cat s'.fs) := hreach.op (.share path) trivial fl _ s' (CM.void_err _ _ _ _ hrun) rfl
  rw [C120_usable_iff hh hr.killed]
  obtain ⟨ind, rfl, hw⟩ := (hreach.inv hh.abs hh.utf8).split
  have hnp : ∀ k, progressPath d k ≠ indexPath d := fun k e => indexPath_ne_progressPath d d hh.abs hh.abs k e.symm
  unfold shareFile at hrun
  rcases (IOM.bind_err_iff _ _ _ _ _).1 hrun with h1 | ⟨rec, s0, h0, hrun⟩
  · obtain ⟨-, h3⟩ := generate_err _ _ _ _ h1
    simp only at h3
    exact ⟨fun _ => .inl h3, fun _ => h3 ▸ restartable_now hh hclean⟩
  have hq := OkClean.generate env path _ _ _ h0
  rw [St.quiet_eq, generate_nil] at hq
  simp only at hq
  rcases hf : fs (absPath env.cwd path) with _ | content
  · rw [hf] at hq; cases hq
  rw [hf] at hq
  simp only [Prod.mk.injEq, Res.ok.injEq] at hq
  obtain ⟨hq1, hq2⟩ := hq
  obtain ⟨c0, fs0, fl0⟩ := s0
  simp only [St.quiet, St.mk.injEq, and_true] at hq2
  obtain ⟨hc0, hf0⟩ := hq2
  subst hc0 hf0 hq1
  have hrec : RecOK d (⟨absPath env.cwd path, asInt64 (UInt64.ofNat content.length), env.sha1 content, none, defaultChunkSize⟩ : Record) :=
    ⟨by show (0 : Int) ≤ 4194304; decide, by show (4194304 : Int) < 2 ^ 32; decide, fun p hp => (by cases hp)⟩
  rcases (IOM.bind_err_iff _ _ _ _ _).1 hrun with h1 | ⟨_, s1, h1, h2⟩
  · constructor
    · intro hx
      exact .inl ((torn_unusable hh hclean _ hrec fl0 e s' h1).elim id (absurd hx))
    · rintro (e | ⟨content', hcon, hno, p, hp, -⟩)
      · exact e ▸ restartable_now hh hclean
      · exfalso
        have : s'.fs (progressPath d (env.sha1 content')) = fs (progressPath d (env.sha1 content')) := by
          rcases addIndexRecord_torn _ fl0 e s' h1 with h | ⟨-, k, h⟩
          · rw [h]
          · rw [h, hw.dir, FS.put_other _ _ _ _ (hnp _)]
        rw [this, hno] at hp
        cases hp
  have hq := OkClean.addIndexRecord env _ _ _ _ h1
  rw [St.quiet_eq, addIndexRecord_nil] at hq
  simp only at hq
  have hm := (addIndexRecord_ok _ _ _ h1).1
  simp only at hm
  rw [hm] at hq
  simp only [Prod.mk.injEq, true_and] at hq
  obtain ⟨c1, fs1, fl1⟩ := s1
  simp only [St.quiet, St.mk.injEq, and_true] at hq
  obtain ⟨hc1, hf1⟩ := hq
  subst hc1 hf1
  have hno : fs (progressPath d (env.sha1 content)) = none := unknown_no_progress hh.abs hh.utf8 hreach (by rw [observe_eq]; exact obsRec_notFound.2 hm)
  rw [IOM.bind_apply, getCat_apply] at h2
  simp only at h2
  rw [IOM.bind_apply, IOM.lift_apply] at h2
  generalize hp : newProgressFile _ d = rp at h2
  rcases rp with p | x | _ | _ | _
  rotate_left
  · exact absurd hp (noErr_newProgressFile _ _ x)
  · cases h2
  · cases h2
  · cases h2
  obtain ⟨hpp, hpw, hpc, hpn⟩ := newProgressFile_ok _ (asInt64_lt _) (by show (0 : Int) ≤ 4194304; omega) p hp
  obtain ⟨dd, hfill, w, hfl⟩ := Bitset.fill_eq p.progress hpw
  simp only at h2
  rw [IOM.bind_apply, updateRecord_eval] at h2
  simp only at h2
  rw [IOM.bind_apply, IOM.lift_apply, hfill] at h2
  simp only at h2
  rw [IOM.bind_apply, updateRecord_eval] at h2
  simp only at h2
  rcases (IOM.bind_err_iff _ _ _ _ _).1 h2 with h3 | ⟨_, s3, h3, h4⟩
  rotate_left
  · cases h4
  obtain ⟨he, hc, hfs⟩ := osWriteFile_err _ _ _ _ _ h3
  simp only at hc hfs hpp
  have key : Restartable env d s'.fs ↔ WholeWords (s'.fs (progressPath d (env.sha1 content))) := by
    rcases hfs with hfs | ⟨k, hfs⟩
    · have := restartable_added hh hw (whole_now hh hclean) _ hrec none
      simp only at this
      rw [FS.put_none _ _ (by rw [hw.dir, FS.put_other _ _ _ _ (hnp _)]; exact hno)] at this
      rw [hfs, hw.dir, FS.put_other _ _ _ _ (hnp _), hno]
      rw [hw.dir] at this
      exact this
    · rw [hfs, hpp, FS.put_same]
      exact restartable_added hh hw (whole_now hh hclean) _ hrec _
  constructor
  · intro hx
    exact .inr ⟨content, rfl, hno, key.1 hx⟩
  · rintro (e | ⟨content', hcon, -, hx⟩)
    · exact e ▸ restartable_now hh hclean
    · cases hcon; exact key.2 hx

/-- C138: after unsharing has returned an error, the next daemon works if and only if the disk is as it was, or the index can be read and names the file no more. -/
theorem C138_unshare (hh : Healthy env d) (hclean : CleanReach env d dl (.running c fs)) (h : Sha1Hash) (fl : List Fault) (e : Err) (s' : St)
    (hrun : unshareFile env h ⟨c, fs, fl⟩ = (.err e, s')) :
    Usable env d dl s'.fs ↔ s'.fs = fs ∨ ∃ b, s'.fs (indexPath d) = some b ∧ env.json.dec b ≠ none ∧ ¬ Named env b h := by
  have hreach := hclean.reach
  have hr : Reach env d dl (.running s'.cat s'.fs) := hreach.op (.unshare h) trivial fl _ s' hrun rfl
  rw [C120_usable_iff hh hr.killed]
  obtain ⟨ind, rfl, hw⟩ := (hreach.inv hh.abs hh.utf8).split
  have hown : Own ind.index := fun k r hr => hw.own k r (mapGet_mem _ _ _ hr)
  have hnow := restartable_now hh hclean
  obtain ⟨_, e1, hs⟩ := hclean.sync hh.abs hh.utf8
  cases e1
  obtain ⟨ind0, g1, g2, g3⟩ := hs.index
  have hold : ∀ k, Named env (env.json.enc ind0.toJSON) k ↔ mapGet ind.index k ≠ none := by
    intro k
    rw [(dec_whole (env := env) g1).2 k]
    have h3 := g3 k
    constructor
    · intro q q'
      rw [q'] at h3
      exact q (Option.map_eq_none_iff.1 h3)
    · intro q q'
      rw [q'] at h3
      exact q (Option.map_eq_none_iff.1 h3.symm)
  have same : s'.fs = fs → (Restartable env d s'.fs ↔ s'.fs = fs ∨ ∃ b, s'.fs (indexPath d) = some b ∧ env.json.dec b ≠ none ∧ ¬ Named env b h) :=
    fun e => ⟨fun _ => .inl e, fun _ => e ▸ hnow⟩
  unfold unshareFile at hrun
  rcases (IOM.bind_err_iff _ _ _ _ _).1 hrun with h1 | ⟨r, s1, h1, h2⟩
  · exact same (RO.same ((ro_getIndexRecord hown h _ (RO.init d dl ind fs)).2 _ _ h1 (fun a e => by cases e))).1
  obtain ⟨hro, r0, p, hm, hv, rfl⟩ := (ro_getIndexRecord hown h _ (RO.init d dl ind fs)).1 _ _ h1
  simp only at h2
  rcases (IOM.bind_err_iff _ _ _ _ _).1 h2 with h3 | ⟨_, s2, h3, h4⟩
  · obtain ⟨-, hc, hf⟩ := osRemove_err _ _ _ _ h3
    refine same (RO.same (ind := ind) (dl := dl) (d := d) ?_).1
    rw [hc, hf]
    exact hro
  obtain ⟨hc2, hf2⟩ := osRemove_ok _ _ _ h3
  obtain ⟨hf1, m', hc1, hmore⟩ := hro
  obtain ⟨c2, fs2, fl2⟩ := s2
  simp only at hc2 hf2
  rw [hc1] at hc2
  rw [hf1] at hf2
  subst hc2 hf2
  unfold removeIndexRecord at h4
  rw [IOM.bind_apply, getIndex_eval] at h4
  have hk : r0.sha1Hash = h := hown _ _ hm
  have hpp : p.filePath = progressPath d h := by
    rw [viewProgress_path (hw.recs _ _ (mapGet_mem _ _ _ hm)) hv, hk]
  have h5 : osWriteFile (indexPath ind.dataDir) (env.json.enc ({ ind with index := mapDel m' r0.sha1Hash } : IndexFile).toJSON)
      ⟨⟨d, dl, some { ind with index := mapDel m' r0.sha1Hash }⟩, fs.put p.filePath none, fl2⟩ = (.err e, s') := h4
  obtain ⟨he, hc, hfs⟩ := osWriteFile_err _ _ _ _ _ h5
  simp only at hc hfs
  rw [hk] at hc hfs
  rw [hw.dir, hpp] at hfs
  have hnp : ∀ k, progressPath d k ≠ indexPath d := fun k e => indexPath_ne_progressPath d d hh.abs hh.abs k e.symm
  have hw1 : WFIdx d { ind with index := mapDel m' h, dataDir := d } := by
    obtain ⟨ind1, e1, hw1⟩ := (hr.inv hh.abs hh.utf8).split
    rw [hc] at e1
    simp only [Cat.mk.injEq, Option.some.injEq, true_and] at e1
    subst e1
    rw [hw.dir] at hw1
    exact hw1
  have hgone : s'.fs (progressPath d h) = none := by
    rcases hfs with hfs | ⟨k, hfs⟩
    · rw [hfs, FS.put_same]
    · rw [hfs, FS.put_other _ _ _ _ (hnp _), FS.put_same]
  have hindex : ∃ b, s'.fs (indexPath d) = some b := by
    rcases hfs with hfs | ⟨k, hfs⟩
    · exact ⟨_, by rw [hfs, FS.put_other _ _ _ _ (Ne.symm (hnp h))]; exact g2⟩
    · exact ⟨_, by rw [hfs, FS.put_same]⟩
  constructor
  · intro hx
    obtain ⟨b, hb⟩ := hindex
    obtain ⟨x1, x2⟩ := hx b hb
    refine .inr ⟨b, hb, x1, fun hn => ?_⟩
    obtain ⟨q, hq, -⟩ := x2 h hn
    rw [hgone] at hq
    cases hq
  · rintro (e | ⟨b, hb, x1, x2⟩)
    · exact e ▸ hnow
    rcases hfs with hfs | ⟨k, hfs⟩
    · exfalso
      rw [hfs, FS.put_other _ _ _ _ (Ne.symm (hnp h)), g2] at hb
      cases hb
      exact x2 ((hold h).2 (by rw [hm]; exact Option.some_ne_none _))
    · have hb' := hb
      rw [hfs, FS.put_same] at hb'
      cases hb'
      by_cases hfull : (env.json.enc ({ ind with index := mapDel m' h, dataDir := d } : IndexFile).toJSON).take k = env.json.enc ({ ind with index := mapDel m' h, dataDir := d } : IndexFile).toJSON
      · rw [hfull] at hb
        refine (restartable_whole hw1 hb).2 (fun k' hk' => ?_)
        simp only at hk'
        rw [mapGet_del] at hk'
        by_cases hkk : h = k'
        · rw [if_pos hkk] at hk'; exact absurd rfl hk'
        rw [if_neg hkk] at hk'
        have hne : mapGet ind.index k' ≠ none := by
          intro q
          rcases hr' : mapGet m' k' with _ | r'
          · exact hk' hr'
          · obtain ⟨r1, e1, -⟩ := hmore.get hr'
            rw [q] at e1
            cases e1
        rw [hfs, FS.put_other _ _ _ _ (hnp _), FS.put_other _ _ _ _ (fun e => hkk (progressPath_inj d hh.abs _ _ e).symm)]
        exact whole_now hh hclean k' hne
      · exact absurd (env.json.dec_prefix _ _ (List.take_prefix _ _) hfull) x1

theorem readable_now (hh : Healthy env d) (hclean : CleanReach env d dl (.running c fs)) : AllReadable d c fs := by
  obtain ⟨ind, rfl, hw⟩ := (hclean.reach.inv hh.abs hh.utf8).split
  intro h hn
  rw [observe_eq, ne_eq, obsRec_notFound] at hn
  exact whole_now hh hclean h hn

/-- C138: unsharing that returned an error leaves every file that is still in the catalogue with a progress file of whole words. -/
theorem C138_unshare_leaves (hh : Healthy env d) (hclean : CleanReach env d dl (.running c fs)) (h : Sha1Hash) (fl : List Fault) (e : Err) (s' : St)
    (hrun : unshareFile env h ⟨c, fs, fl⟩ = (.err e, s')) : AllReadable d s'.cat s'.fs := by
  have hA := readable_now hh hclean
  rcases C136_unshare hh hclean.reach h fl e s' hrun with ⟨h1, h2⟩ | ⟨-, h2⟩
  · intro k hk
    rw [h2] at hk
    rw [h1]
    exact hA k hk
  · intro k hk
    by_cases hkh : k = h
    · rw [hkh, h2.now] at hk
      exact absurd rfl hk
    · rw [h2.others k hkh] at hk
      rw [h2.files _ (fun e => indexPath_ne_progressPath d d hh.abs hh.abs k e.symm) (fun e => hkh (progressPath_inj d hh.abs _ _ e))]
      exact hA k hk

/-- C138: while every file in the catalogue has a progress file of whole words, sharing or unsharing with success makes the next daemon work, whatever is on the disk for an index. -/
theorem C138_heals (hh : Healthy env d) (hreach : Reach env d dl (.running c fs)) (hA : AllReadable d c fs) (o : Op) (ho : WritesIndex o) (hnr : NotRegister o) (fl : List Fault) (s' : St)
    (hrun : o.run env ⟨c, fs, fl⟩ = (.ok (), s')) : Usable env d dl s'.fs := by
  rw [C138_written hh hreach o ho fl s' hrun]
  obtain ⟨ind, rfl, hw⟩ := (hreach.inv hh.abs hh.utf8).split
  have hnp : ∀ k, progressPath d k ≠ indexPath d := fun k e => indexPath_ne_progressPath d d hh.abs hh.abs k e.symm
  have hA' : ∀ k, mapGet ind.index k ≠ none → WholeWords (fs (progressPath d k)) := by
    intro k hk
    refine hA k ?_
    rw [observe_eq, ne_eq, obsRec_notFound]
    exact hk
  intro k hk
  cases o with
  | share path =>
    rcases CM.void_inv _ _ _ _ hrun rfl with ⟨r, h1, -⟩ | ⟨_, _, e⟩
    rotate_left
    · cases e
    have hq := OkClean.shareFile env path _ _ _ h1
    rw [St.quiet_eq] at hq
    obtain ⟨content, p, full, m1, -, -, h4, -, h6, h7, h8, h9⟩ := shareFile_nil_ok env path d dl ind fs r _ hq
    obtain ⟨hpp, -, -, -⟩ := newProgressFile_ok _ (asInt64_lt _) (by show (0 : Int) ≤ 4194304; omega) p h4
    have hc := congrArg St.cat h7
    have hf := congrArg St.fs h7
    simp only [St.quiet] at hc hf
    simp only at hpp
    rw [hc, observe_eq, ne_eq, obsRec_notFound] at hk
    simp only at hk
    rw [mapGet_put] at hk
    by_cases hkk : env.sha1 content = k
    · rw [hf, hpp, hkk, FS.put_same]
      exact ⟨_, rfl, by rw [Bitset.serialize_length]; omega, by rw [Bitset.serialize_length]; omega⟩
    · rw [if_neg hkk, h8 k hkk] at hk
      rw [hf, hpp, FS.put_other _ _ _ _ (fun e => hkk (progressPath_inj d hh.abs _ _ e).symm), hw.dir, FS.put_other _ _ _ _ (hnp _)]
      exact hA' k hk
  | unshare h =>
    have hq := OkClean.unshareFile env h _ _ _ hrun
    rw [St.quiet_eq] at hq
    obtain ⟨r, p, m, h1, h2, -, h3, h5⟩ := unshareFile_nil_ok env h d dl ind fs _ hq
    have hc := congrArg St.cat h5
    have hf := congrArg St.fs h5
    simp only [St.quiet] at hc hf
    have hkr : r.sha1Hash = h := hw.ownGet _ _ h1
    have hpp : p.filePath = progressPath d h := by
      rw [viewProgress_path (hw.recs _ _ (mapGet_mem _ _ _ h1)) h2, hkr]
    rw [hc, observe_eq, ne_eq, obsRec_notFound] at hk
    simp only at hk
    rw [h3, mapGet_del, hkr] at hk
    by_cases hkk : h = k
    · rw [if_pos hkk] at hk; exact absurd rfl hk
    · rw [if_neg hkk] at hk
      rw [hf, hw.dir, FS.put_other _ _ _ _ (hnp _), hpp, FS.put_other _ _ _ _ (fun e => hkk (progressPath_inj d hh.abs _ _ e).symm)]
      refine hA' k (fun q => ?_)
      rcases hr' : mapGet (loadInto ind.index r p) k with _ | r'
      · exact hk hr'
      · obtain ⟨r1, e1, -⟩ := (More.loadInto hw.ownGet h1 h2).get hr'
        rw [q] at e1
        cases e1
  | register => exact hnr.elim
  | _ => exact ho.elim

theorem share_works (hh : Healthy env d) (hreach : Reach env d dl (.running c fs)) (path : GoString) (content : Bytes) (hf : fs (absPath env.cwd path) = some content)
    (hl : content.length < 2 ^ 63) (hn : observe c fs (env.sha1 content) = .err .fileNotFound) : ∃ s', (Op.share path).run env ⟨c, fs, []⟩ = (.ok (), s') := by
  obtain ⟨ind, rfl, hw⟩ := (hreach.inv hh.abs hh.utf8).split
  rw [observe_eq, obsRec_notFound] at hn
  obtain ⟨r, s', h⟩ := shareFile_total env path d dl ind fs content hf hn hl
  exact ⟨s', CM.void_ok _ _ _ _ h⟩

end

/-! ### Examples -/

theorem ex_f_index : absPath [47] [102] ≠ indexPath exDir := by
  have e : absPath [47] [102] = absOf [[102]] := by decide
  rw [e]; exact fun h => ex_not_catFile 102 (by simp) (.inl h)

theorem ex_f_progress (h : Sha1Hash) : absPath [47] [102] ≠ progressPath exDir h := by
  have e : absPath [47] [102] = absOf [[102]] := by decide
  rw [e]; exact fun q => ex_not_catFile 102 (by simp) (.inr ⟨_, q⟩)

/-- The hypotheses of `C138_register`, `C138_permanent` and `C138_written` hold: asking for a file fails on the disk and then another file is shared. No daemon works after that. -/
example (sha1 : Bytes → Sha1Hash) (json : JsonCodec) (h : Sha1Hash) (hne : h ≠ sha1 [1, 2, 3]) : ∃ c fs s1 s2, CleanReach (exEnv sha1 json) exDir exDown (.running c fs) ∧
    registerDownload (exEnv sha1 json) 10 4 h [120] ⟨c, fs, [.fail none]⟩ = (.err .io, s1) ∧ Reach (exEnv sha1 json) exDir exDown (.running s1.cat s1.fs) ∧
    observe s1.cat s1.fs h = .err .io ∧ (Op.share [102]).run (exEnv sha1 json) ⟨s1.cat, s1.fs, []⟩ = (.ok (), s2) ∧ ¬ Usable (exEnv sha1 json) exDir exDown s2.fs := by
  have hh := ex_healthy sha1 json
  have h0 : CleanReach (exEnv sha1 json) exDir exDown (.running ⟨exDir, exDown, some (freshIdx (exEnv sha1 json) exDir)⟩ (exFS1 sha1 json)) :=
    CleanReach.fresh (exEnv sha1 json) exDir exDown hh.utf8 exFS ex_fs_clean
  obtain ⟨s1, h1, h2⟩ := C136_register_possible hh h0.reach 10 4 h [120] rfl
  have hr1 : Reach (exEnv sha1 json) exDir exDown (.running s1.cat s1.fs) := h0.reach.op (.register 10 4 h [120]) trivial _ _ s1 (CM.void_err _ _ _ _ h1) rfl
  obtain ⟨s2, h3⟩ := share_works hh hr1 [102] [1, 2, 3] ((h2.files _ ex_f_index).trans (ex_file sha1 json)) (by decide)
    ((h2.others _ (Ne.symm hne)).trans rfl)
  exact ⟨_, _, s1, s2, h0, h1, hr1, h2.now, h3, (C138_permanent hh hr1 h h2.now (.share [102]) trivial _ _ h3).1⟩

/-- Those of `C138_unshare`, `C138_unshare_leaves` and `C138_heals` hold: unsharing fails on the disk and then the file is shared again, which repairs it. -/
example (sha1 : Bytes → Sha1Hash) (json : JsonCodec) : ∃ c fs fl s1 s2, CleanReach (exEnv sha1 json) exDir exDown (.running c fs) ∧
    unshareFile (exEnv sha1 json) (sha1 [1, 2, 3]) ⟨c, fs, fl⟩ = (.err .io, s1) ∧ Reach (exEnv sha1 json) exDir exDown (.running s1.cat s1.fs) ∧ AllReadable exDir s1.cat s1.fs ∧
    (Op.share [102]).run (exEnv sha1 json) ⟨s1.cat, s1.fs, []⟩ = (.ok (), s2) ∧ Usable (exEnv sha1 json) exDir exDown s2.fs := by
  have hh := ex_healthy sha1 json
  have h0 : CleanReach (exEnv sha1 json) exDir exDown (.running ⟨exDir, exDown, some (freshIdx (exEnv sha1 json) exDir)⟩ (exFS1 sha1 json)) :=
    CleanReach.fresh (exEnv sha1 json) exDir exDown hh.utf8 exFS ex_fs_clean
  obtain ⟨r, s', h⟩ := shareFile_total (exEnv sha1 json) [102] exDir exDown (freshIdx (exEnv sha1 json) exDir) _ [1, 2, 3] (ex_file sha1 json) rfl (by decide)
  have hc := h0.call (.share [102]) _ _ _ s' trivial (CM.void_ok _ _ _ _ h) rfl
  obtain ⟨content, g1, g2, g3, -, g5⟩ := C26_share hh h0.reach [102] [] r s' h
  rw [ex_file] at g1; cases g1
  obtain ⟨b, hb, -⟩ := g3 (by decide)
  have hp : s'.fs (progressPath exDir (sha1 [1, 2, 3])) ≠ none := by
    obtain ⟨x, hx, -⟩ := readable_now hh hc (sha1 [1, 2, 3]) (by intro q; rw [show observe s'.cat s'.fs (sha1 [1, 2, 3]) = _ from hb] at q; cases q)
    rw [hx]
    exact Option.some_ne_none _
  obtain ⟨fl, s1, h1, h2⟩ := C136_unshare_possible hh hc.reach _ _ hb hp
  have hr1 : Reach (exEnv sha1 json) exDir exDown (.running s1.cat s1.fs) := hc.reach.op (.unshare _) trivial _ _ s1 h1 rfl
  have hA := C138_unshare_leaves hh hc _ fl _ s1 h1
  obtain ⟨s2, h3⟩ := share_works hh hr1 [102] [1, 2, 3]
    ((h2.files _ ex_f_index (ex_f_progress _)).trans ((g5 _ ex_f_index (ex_f_progress _)).trans (ex_file sha1 json))) (by decide) h2.now
  exact ⟨_, _, fl, s1, s2, hc, h1, hr1, hA, h3, C138_heals hh hr1 hA (.share [102]) trivial trivial _ _ h3⟩

end Flu
