import Verif.Lemmas.CatKeep
/-!
# Where the recorded paths come from

`Kn env d dl N`: every path recorded in memory, and every path in the index on disk (which may be cut short), satisfies `N`.  Every call preserves this, whatever it meets, if the
paths it records satisfy `N`, provided paths with `N` are not the catalogue's own files and stay so when stored as JSON.
-/
namespace Flu
open Spec

/-- All recorded paths satisfy `N`. -/
def AllPaths (N : Path → Prop) (m : List (Sha1Hash × Record)) : Prop := ∀ k r, mapGet m k = some r → N r.filePath

/-- The index on disk is one with such paths, perhaps cut short. -/
def DiskPaths (env : Env) (d : Path) (N : Path → Prop) (fs : FS) : Prop :=
  ∀ data, fs (indexPath d) = some data → ∃ ind : IndexFile, (ind.index.map (·.1)).Nodup ∧ AllPaths N ind.index ∧ data <+: env.json.enc ind.toJSON

structure KnIdx (d : Path) (N : Path → Prop) (ind : IndexFile) : Prop where
  dir : ind.dataDir = d
  wp : WP d ind.index
  nodup : (ind.index.map (·.1)).Nodup
  paths : AllPaths N ind.index

def Kn (env : Env) (d dl : Path) (N : Path → Prop) : Assn := fun c fs => ∃ ind, c = ⟨d, dl, some ind⟩ ∧ KnIdx d N ind ∧ DiskPaths env d N fs

theorem AllPaths.put {N : Path → Prop} {m : List (Sha1Hash × Record)} (h : AllPaths N m) (r : Record) (k : Sha1Hash) (hr : N r.filePath) : AllPaths N (mapPut m k r) := by
  intro k' r' hk
  rw [mapGet_put] at hk
  split at hk
  · cases hk; exact hr
  · exact h k' r' hk

theorem AllPaths.del {N : Path → Prop} {m : List (Sha1Hash × Record)} (h : AllPaths N m) (k : Sha1Hash) : AllPaths N (mapDel m k) := by
  intro k' r' hk
  rw [mapGet_del] at hk
  split at hk
  · cases hk
  · exact h k' r' hk

theorem KnIdx.put {d : Path} {N : Path → Prop} {ind : IndexFile} (h : KnIdx d N ind) (r : Record) (hr : ∀ p, r.progressFile = some p → p.filePath = progressPath d r.sha1Hash)
    (hN : N r.filePath) : KnIdx d N { ind with index := mapPut ind.index r.sha1Hash r } :=
  ⟨h.dir, h.wp.put r hr, nodup_put _ _ _ h.nodup, h.paths.put r _ hN⟩

theorem KnIdx.del {d : Path} {N : Path → Prop} {ind : IndexFile} (h : KnIdx d N ind) (k : Sha1Hash) : KnIdx d N { ind with index := mapDel ind.index k } :=
  ⟨h.dir, h.wp.del k, nodup_del _ _ h.nodup, h.paths.del k⟩

theorem KnIdx.more {d : Path} {N : Path → Prop} {ind : IndexFile} (h : KnIdx d N ind) {fs : FS} {m' : List (Sha1Hash × Record)} (hm : More d fs ind.index m') :
    KnIdx d N { ind with index := m' } := by
  refine ⟨h.dir, hm.wp h.wp, ?_, ?_⟩
  · show (m'.map (·.1)).Nodup
    rw [hm.1]; exact h.nodup
  · intro k r hr
    obtain ⟨r0, h1, -, h2⟩ := hm.view hr
    rw [h2]; exact h.paths k r0 h1

theorem DiskPaths.putOther {env : Env} {d : Path} {N : Path → Prop} {fs : FS} (h : DiskPaths env d N fs) (p : Path) (hp : p ≠ indexPath d) (x : Option Bytes) :
    DiskPaths env d N (fs.put p x) := by
  intro data hd
  rw [FS.put_other _ _ _ _ (fun e => hp e.symm)] at hd
  exact h data hd

section
variable {env : Env} {d dl : Path} {N : Path → Prop}

theorem kn_of_ro {ind : IndexFile} {fs0 : FS} (hk : KnIdx d N ind) (hd : DiskPaths env d N fs0) {c : Cat} {fs : FS} (h : RO d dl ind fs0 c fs) : Kn env d dl N c fs := by
  obtain ⟨rfl, m', rfl, hm⟩ := h
  exact ⟨_, rfl, hk.more hm, hd⟩

theorem kn_updateRecord (r : Record) (hr : ∀ p, r.progressFile = some p → p.filePath = progressPath d r.sha1Hash) (hN : N r.filePath) :
    Triple (Kn env d dl N) (updateRecord r) (fun _ => Kn env d dl N) (Kn env d dl N) := by
  refine Triple.bind (Triple.getIndex (fun _ _ h => h)) ?_
  intro ind
  apply Triple.setIndex
  rintro c fs ⟨⟨ind', rfl, h1, h2⟩, hc⟩
  cases hc
  exact ⟨_, rfl, h1.put r hr hN, h2⟩

theorem kn_saveIndex : Triple (Kn env d dl N) (saveIndex env) (fun _ => Kn env d dl N) (Kn env d dl N) := by
  refine Triple.bind (Triple.getIndex (fun _ _ h => h)) ?_
  intro ind
  have key : ∀ c fs (data : Bytes), Kn env d dl N c fs ∧ c.indexFile = some ind → data <+: env.json.enc ind.toJSON → Kn env d dl N c (fs.put (indexPath ind.dataDir) (some data)) := by
    rintro c fs data ⟨⟨ind', rfl, h1, h2⟩, hc⟩ hp
    cases hc
    refine ⟨ind, rfl, h1, ?_⟩
    intro x hx
    rw [h1.dir, FS.put_same] at hx
    cases hx
    exact ⟨ind, h1.nodup, h1.paths, hp⟩
  exact Triple.osWriteFile _ _ (fun c fs h => key c fs _ h (List.prefix_refl _)) (fun c fs h => h.1) (fun c fs k h => key c fs _ h (List.take_prefix _ _))

theorem kn_put (p : Path) (hp : p ≠ indexPath d) (c : Cat) (fs : FS) (x : Option Bytes) (h : Kn env d dl N c fs) : Kn env d dl N c (fs.put p x) := by
  obtain ⟨ind, rfl, h1, h2⟩ := h
  exact ⟨ind, rfl, h1, h2.putOther p hp x⟩

theorem kn_removeIndexRecord (r : Record) : Triple (Kn env d dl N) (removeIndexRecord env r) (fun _ => Kn env d dl N) (Kn env d dl N) := by
  refine Triple.bind (Triple.getIndex (fun _ _ h => h)) ?_
  intro ind
  refine Triple.bind (Q := fun _ => Kn env d dl N) ?_ (fun _ => kn_saveIndex)
  apply Triple.setIndex
  rintro c fs ⟨⟨ind', rfl, h1, h2⟩, hc⟩
  cases hc
  exact ⟨_, rfl, h1.del _, h2⟩

theorem kn_addIndexRecord (r : Record) (hr : r.progressFile = none) (hN : N r.filePath) :
    Triple (Kn env d dl N) (addIndexRecord env r) (fun _ => Kn env d dl N) (Kn env d dl N) := by
  refine Triple.bind (Triple.getIndex (fun _ _ h => h)) ?_
  intro ind
  split
  · exact Triple.lift _ (fun a e => by cases e) (fun c fs h => h.1)
  · refine Triple.bind (Q := fun _ => Kn env d dl N) ?_ (fun _ => kn_saveIndex)
    apply Triple.setIndex
    rintro c fs ⟨⟨ind', rfl, h1, h2⟩, hc⟩
    cases hc
    exact ⟨_, rfl, h1.put r (fun p hp => by rw [hr] at hp; cases hp) hN, h2⟩

theorem kn_newProgress (r : Record) (cat : Cat) :
    Triple (fun c fs => Kn env d dl N c fs ∧ cat = c) (IOM.lift (newProgressFile r cat.dataDir)) (fun p c fs => Kn env d dl N c fs ∧ p.filePath = progressPath d r.sha1Hash)
      (Kn env d dl N) := by
  refine Triple.lift _ ?_ (fun c fs h => h.1)
  rintro p hp c fs ⟨hI, rfl⟩
  refine ⟨hI, ?_⟩
  obtain ⟨ind, rfl, -⟩ := hI
  exact newProgressFile_path _ _ p hp

variable (hd : AbsClean d)
include hd

theorem kn_saveProgress (p : ProgressFile) (k : Sha1Hash) (hp : p.filePath = progressPath d k) :
    Triple (Kn env d dl N) p.save (fun _ => Kn env d dl N) (Kn env d dl N) := by
  unfold ProgressFile.save
  rw [hp]
  have hne : progressPath d k ≠ indexPath d := fun e => indexPath_ne_progressPath d d hd hd k e.symm
  exact Triple.osWriteFile _ _ (fun c fs h => kn_put _ hne c fs _ h) (fun c fs h => h) (fun c fs _ h => kn_put _ hne c fs _ h)

theorem kn_shareFile (path : GoString) (hN : N (absPath env.cwd path)) : Triple (Kn env d dl N) (shareFile env path) (fun _ => Kn env d dl N) (Kn env d dl N) := by
  refine Triple.bind (Q := fun r c fs => Kn env d dl N c fs ∧ (r.progressFile = none ∧ N r.filePath)) ?_ ?_
  · refine Triple.bind (Triple.osStat _ (fun _ _ h => h)) ?_
    intro x
    cases x with
    | none => exact Triple.lift _ (fun a e => by cases e) (fun c fs h => h.1)
    | some n =>
      refine Triple.bind (Triple.osHashFile _ _ (fun _ _ h => h.1)) ?_
      intro hash
      exact Triple.pure _ (fun c fs h => ⟨h.1.1, rfl, hN⟩)
  · intro r
    apply Triple.facts
    rintro ⟨hrn, hrN⟩
    refine Triple.bind (kn_addIndexRecord r hrn hrN) ?_
    intro _
    refine Triple.bind Triple.getCat ?_
    intro cat
    refine Triple.bind (kn_newProgress r cat) ?_
    intro p
    apply Triple.facts
    intro hp
    refine Triple.bind (kn_updateRecord _ (fun q hq => by cases hq; exact hp) hrN) ?_
    intro _
    refine Triple.bind (Q := fun _ => Kn env d dl N) (Triple.lift _ (fun _ _ c fs h => h) (fun c fs h => h)) ?_
    intro b
    refine Triple.bind (kn_updateRecord _ (fun q hq => by cases hq; exact hp) hrN) ?_
    intro _
    refine Triple.bind (kn_saveProgress hd _ r.sha1Hash hp) ?_
    intro _
    exact Triple.pure _ (fun c fs h => h)

theorem kn_registerDownload (size : UInt64) (cs : UInt32) (h : Sha1Hash) (name : GoString) (hN : N (joinPath [dl, name])) :
    Triple (Kn env d dl N) (registerDownload env size cs h name) (fun _ => Kn env d dl N) (Kn env d dl N) := by
  refine Triple.bind Triple.getCat ?_
  intro cat
  refine Triple.pre (P := fun c fs => Kn env d dl N c fs ∧ N (joinPath [cat.downloadsDir, name])) ?_ ?_
  · apply Triple.facts
    intro hN'
    refine Triple.bind (kn_addIndexRecord _ rfl hN') ?_
    intro _
    refine Triple.bind Triple.getCat ?_
    intro cat'
    refine Triple.bind (kn_newProgress _ cat') ?_
    intro p
    apply Triple.facts
    intro hp
    refine Triple.bind (kn_updateRecord _ (fun q hq => by cases hq; exact hp) hN') ?_
    intro _
    refine Triple.bind (Q := fun _ => Kn env d dl N) (Triple.ignoreErr (kn_saveProgress hd p h hp) (fun _ _ h => h)) ?_
    intro _
    exact Triple.lift _ (fun _ _ c fs h => h) (fun c fs h => h)
  · rintro c fs ⟨hI, rfl⟩
    refine ⟨hI, ?_⟩
    obtain ⟨ind, rfl, -⟩ := hI
    exact hN

theorem kn_unshareFile {ind : IndexFile} {fs : FS} (hk : KnIdx d N ind) (hdisk : DiskPaths env d N fs) (h : Sha1Hash) :
    Triple (RO d dl ind fs) (unshareFile env h) (fun _ => Kn env d dl N) (Kn env d dl N) := by
  have weak : ∀ c' fs', RO d dl ind fs c' fs' → Kn env d dl N c' fs' := fun c' fs' h => kn_of_ro hk hdisk h
  refine Triple.bind ((ro_getIndexRecord hk.wp.own h).conseq (fun _ _ h => h) (fun _ _ _ h => h) weak) ?_
  intro r
  apply Triple.facts
  rintro ⟨r0, p0, h1, h2, rfl⟩
  have hp0 := view_path hk.wp h1 h2
  simp only []
  refine Triple.bind (Q := fun _ => Kn env d dl N) ?_ (fun _ => kn_removeIndexRecord _)
  have key : ∀ c fs', Kn env d dl N c fs' → Kn env d dl N c (fs'.put p0.filePath none) := by
    intro c fs' hI
    rw [hp0]
    exact kn_put _ (fun e => indexPath_ne_progressPath d d hd hd h e.symm) c fs' _ hI
  exact Triple.osRemove _ (fun c fs _ hI _ => key c fs (weak _ _ hI)) (fun _ _ h => weak _ _ h) (fun c fs hI => key c fs (weak _ _ hI))

theorem kn_saveChunk (hNo : ∀ p, N p → ¬ CatFile d p) {ind : IndexFile} {fs : FS} (hk : KnIdx d N ind) (hdisk : DiskPaths env d N fs) (h : Sha1Hash) (n : UInt16) (data : Bytes) :
    Triple (RO d dl ind fs) (saveChunk h n data) (fun _ => Kn env d dl N) (Kn env d dl N) := by
  have weak : ∀ c' fs', RO d dl ind fs c' fs' → Kn env d dl N c' fs' := fun c' fs' h => kn_of_ro hk hdisk h
  refine Triple.bind ((Triple.orPanic (ro_getIndexRecord hk.wp.own h)).conseq (fun _ _ h => h) (fun _ _ _ h => h) weak) ?_
  intro r
  apply Triple.facts
  rintro ⟨r0, p0, h1, h2, rfl⟩
  have hkey := (hk.wp _ _ h1).1
  have hp0 := view_path hk.wp h1 h2
  have hN := hk.paths _ _ h1
  have hne : r0.filePath ≠ indexPath d := fun e => hNo _ hN (.inl e)
  simp only []
  refine Triple.bind (Q := fun _ => Kn env d dl N) ?_ ?_
  · refine Triple.bind (Q := fun _ => Kn env d dl N) ?_ ?_
    · exact Triple.osOpenCreate _ (fun c fs h => kn_put _ hne c fs _ (weak _ _ h)) (fun _ _ h => weak _ _ h) (fun c fs h => kn_put _ hne c fs _ (weak _ _ h))
    · intro _
      exact Triple.osWriteAt _ _ _ (fun c fs h _ => kn_put _ hne c fs _ h) (fun _ _ h => h) (fun c fs k h => kn_put _ hne c fs _ h)
  · intro _
    refine Triple.bind (Q := fun _ => Kn env d dl N) (Triple.lift _ (fun _ _ c fs h => h) (fun c fs h => h)) ?_
    intro b
    refine Triple.bind (kn_updateRecord _ (fun q hq => by cases hq; show p0.filePath = progressPath d r0.sha1Hash; rw [hp0, hkey]) hN) ?_
    intro _
    exact kn_saveProgress hd _ h hp0

/-- What the paths that a call records must satisfy. -/
def Op.Records (env : Env) (dl : Path) (N : Path → Prop) : Op → Prop
  | .share p => N (absPath env.cwd p)
  | .register _ _ _ name => N (joinPath [dl, name])
  | _ => True

/-- Every call. -/
theorem kn_op (hNo : ∀ p, N p → ¬ CatFile d p) (o : Op) (ho : o.Records env dl N) {c : Cat} {fs : FS} (hp : Kn env d dl N c fs)
    (fl : List Fault) (r : Res Unit) (s' : St) (hrun : o.run env ⟨c, fs, fl⟩ = (r, s')) : Kn env d dl N s'.cat s'.fs := by
  obtain ⟨ind, rfl, hk, hdisk⟩ := hp
  have start : Kn env d dl N ⟨d, dl, some ind⟩ fs := ⟨ind, rfl, hk, hdisk⟩
  have always : ∀ {P : Assn} {x : CM Unit} {E : Assn}, Triple P x (fun _ => E) E → P ⟨d, dl, some ind⟩ fs → x ⟨⟨d, dl, some ind⟩, fs, fl⟩ = (r, s') → E s'.cat s'.fs := by
    intro P x E ht hP hx
    cases r with
    | ok a => exact (ht _ hP).1 a s' hx
    | err e => exact (ht _ hP).2 _ s' hx (fun a e => by cases e)
    | panic => exact (ht _ hP).2 _ s' hx (fun a e => by cases e)
    | exit => exact (ht _ hP).2 _ s' hx (fun a e => by cases e)
    | crash => exact (ht _ hP).2 _ s' hx (fun a e => by cases e)
  by_cases hro : o.readOnly = true
  · exact kn_of_ro hk hdisk (always (ro_op (d := d) (dl := dl) (ind := ind) (fs0 := fs) env hk.wp.own o hro) (RO.init _ _ _ _) hrun)
  cases o with
  | share p => exact always (Triple.void (kn_shareFile hd p ho)) start hrun
  | register s cs h n => exact always (Triple.void (kn_registerDownload hd s cs h n ho)) start hrun
  | unshare h => exact always (kn_unshareFile (env := env) (dl := dl) hd hk hdisk h) (RO.init _ _ _ _) hrun
  | save h n data => exact always (kn_saveChunk (env := env) (dl := dl) hd hNo hk hdisk h n data) (RO.init _ _ _ _) hrun
  | list o => exact absurd rfl hro
  | rehash h => exact absurd rfl hro
  | contains h => exact absurd rfl hro
  | get h => exact absurd rfl hro
  | complete h => exact absurd rfl hro
  | missing h => exact absurd rfl hro
  | reader h n ch => exact absurd rfl hro

end

/-- Start-up. -/
theorem kn_init {env : Env} {d : Path} {N : Path → Prop} (hfix : ∀ p, N p → N (env.json.fix p)) :
    Triple (fun c fs => c.dataDir = d ∧ DiskPaths env d N fs) (Cat.init env)
      (fun _ c fs => (∃ ind, c.indexFile = some ind ∧ AllPaths N ind.index) ∧ DiskPaths env d N fs) (fun _ fs => DiskPaths env d N fs) := by
  refine Triple.bind Triple.getCat ?_
  intro cat
  refine Triple.pre (P := fun c fs => (c.dataDir = d ∧ DiskPaths env d N fs) ∧ cat.dataDir = d) ?_ (fun c fs h => ⟨h.1, by rw [h.2]; exact h.1.1⟩)
  apply Triple.facts
  intro hcat
  rw [hcat]
  refine Triple.bind (Q := fun _ _ fs => DiskPaths env d N fs) (Triple.setIndex _ (fun _ _ h => h.2)) ?_
  intro _
  refine Triple.bind (Triple.osTouch (fun _ _ h => h)) ?_
  intro _
  refine Triple.bind (Triple.osTouch (fun _ _ h => h)) ?_
  intro _
  refine Triple.bind ((Triple.osStat _ (fun _ _ h => h)).post (Q' := fun _ _ fs => DiskPaths env d N fs) (fun _ _ _ h => h.1)) ?_
  intro x
  have tail : Triple (fun _ fs => DiskPaths env d N fs) (do
      let data ← osReadFile (indexPath d)
      let ind ← IOM.lift (unmarshalIndex env data)
      setIndex ind) (fun _ c fs => (∃ ind, c.indexFile = some ind ∧ AllPaths N ind.index) ∧ DiskPaths env d N fs) (fun _ fs => DiskPaths env d N fs) := by
    refine Triple.bind (Triple.osReadFile _ (fun _ _ h => h)) ?_
    intro data
    refine Triple.bind (Q := fun ind _ fs => DiskPaths env d N fs ∧ AllPaths N ind.index) ?_ ?_
    · refine Triple.lift _ ?_ (fun c fs h => h.1)
      rintro ind hu c fs ⟨h, hf⟩
      refine ⟨h, ?_⟩
      obtain ⟨ind0, hn0, hN, hp⟩ := h data hf
      have hwhole : data = env.json.enc ind0.toJSON := by
        apply Classical.byContradiction
        intro hne
        have := env.json.dec_prefix _ _ hp hne
        unfold unmarshalIndex at hu
        rw [this] at hu; cases hu
      rw [hwhole] at hu
      obtain ⟨m, hm, hn, hg⟩ := unmarshal_marshal env ind0 hn0
      rw [hm] at hu; cases hu
      intro k r hkr
      have : mapGet m k = some r := hkr
      rw [hg] at this
      obtain ⟨r0, h0, rfl⟩ := Option.map_eq_some_iff.1 this
      exact hfix _ (hN k r0 h0)
    · intro ind
      exact Triple.setIndex _ (fun _ _ h => ⟨⟨_, rfl, h.2⟩, h.1⟩)
  cases x with
  | some n => exact tail
  | none =>
    refine Triple.bind (Q := fun _ c fs => DiskPaths env d N fs ∧ c.indexFile = some ⟨env.pid, env.now, [], d⟩) (Triple.setIndex _ (fun _ _ h => ⟨h, rfl⟩)) ?_
    intro _
    refine Triple.bind (Q := fun _ _ fs => DiskPaths env d N fs) ?_ (fun _ => tail)
    refine Triple.bind (Triple.getIndex (fun _ _ h => h.1)) ?_
    intro ind
    have key : ∀ (c : Cat) (fs : FS) (y : Bytes), (DiskPaths env d N fs ∧ c.indexFile = some ⟨env.pid, env.now, [], d⟩) ∧ c.indexFile = some ind →
        y <+: env.json.enc ind.toJSON → DiskPaths env d N (fs.put (indexPath ind.dataDir) (some y)) := by
      rintro c fs y ⟨⟨h1, h2⟩, h3⟩ hy
      rw [h2] at h3
      cases h3
      intro data hdata
      rw [FS.put_same] at hdata
      cases hdata
      exact ⟨_, by simp, fun k r h => (by cases h), hy⟩
    exact Triple.osWriteFile _ _ (fun c fs h => key c fs _ h (List.prefix_refl _)) (fun _ _ h => h.1.1) (fun c fs k h => key c fs _ h (List.take_prefix _ _))

end Flu
