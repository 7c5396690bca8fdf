import Verif.Lemmas.CatIso
/-!
# A fact about one record and its progress file survives calls about other files

`Pt d dl g φ`: the catalogue in memory is well formed and `φ` holds of the record of `g` and of the content of its progress file.  Any call that does not concern `g`
preserves this, whatever it meets, provided `φ` implies that the record exists and survives loading the progress from the file.
-/
namespace Flu
open Spec

/-- Records are stored under their own hash and know where their progress file is. -/
def WP (d : Path) (m : List (Sha1Hash × Record)) : Prop :=
  ∀ k r, mapGet m k = some r → r.sha1Hash = k ∧ ∀ p, r.progressFile = some p → p.filePath = progressPath d k

def Pt (d dl : Path) (g : Sha1Hash) (φ : Option Record → Option Bytes → Prop) : Assn := fun c fs =>
  ∃ ind, c = ⟨d, dl, some ind⟩ ∧ ind.dataDir = d ∧ WP d ind.index ∧ φ (mapGet ind.index g) (fs (progressPath d g))

/-- What `φ` must satisfy. -/
structure Frame (d : Path) (g : Sha1Hash) (φ : Option Record → Option Bytes → Prop) : Prop where
  none : ∀ x, ¬ φ none x
  load : ∀ r data b, φ (some r) (some data) → r.progressFile = .none → Bitset.deserialize data = .ok b →
    φ (some { r with progressFile := some ⟨b, progressPath d g⟩ }) (some data)

theorem WP.own {d : Path} {m : List (Sha1Hash × Record)} (h : WP d m) : Own m := fun k r hr => (h k r hr).1

theorem WP.put {d : Path} {m : List (Sha1Hash × Record)} (h : WP d m) (r : Record) (hr : ∀ p, r.progressFile = some p → p.filePath = progressPath d r.sha1Hash) :
    WP d (mapPut m r.sha1Hash r) := by
  intro k r' hk
  rw [mapGet_put] at hk
  split at hk
  · rename_i e; cases hk; exact ⟨e, by rw [← e]; exact hr⟩
  · exact h k r' hk

theorem WP.del {d : Path} {m : List (Sha1Hash × Record)} (h : WP d m) (k : Sha1Hash) : WP d (mapDel m k) := by
  intro k' r' hk
  rw [mapGet_del] at hk
  split at hk
  · cases hk
  · exact h k' r' hk

theorem view_path {d : Path} {m : List (Sha1Hash × Record)} (h : WP d m) {fs : FS} {k : Sha1Hash} {r : Record} {p : ProgressFile} (hr : mapGet m k = some r)
    (hv : viewProgress d fs r = .ok p) : p.filePath = progressPath d k := by
  obtain ⟨h1, h2⟩ := h k r hr
  rcases viewProgress_own hv with h' | h'
  · exact h2 p h'
  · rw [h'.2.1, h1]

theorem More.wp {d : Path} {fs : FS} {m m' : List (Sha1Hash × Record)} (hm : More d fs m m') (h : WP d m) : WP d m' := by
  intro k r hr
  obtain ⟨r0, h1, h2 | ⟨p, h2, h3, h4⟩⟩ := hm.get hr
  · subst h2; exact h k r h1
  · subst h4
    refine ⟨(h k r0 h1).1, ?_⟩
    intro q hq
    cases hq
    exact view_path h h1 h3

theorem WFIdx.wp {d : Path} {ind : IndexFile} (w : WFIdx d ind) : WP d ind.index := by
  intro k r hr
  have h1 := w.ownGet k r hr
  refine ⟨h1, ?_⟩
  intro p hp
  rw [← h1]
  exact ((w.recs k r (mapGet_mem _ _ _ hr)).file p hp).1

section
variable {env : Env} {d dl : Path} {g : Sha1Hash} {φ : Option Record → Option Bytes → Prop} (hf : Frame d g φ)

include hf in
/-- Calls that only read. -/
theorem pt_of_ro {ind : IndexFile} {fs0 : FS} (hdir : ind.dataDir = d) (hw : WP d ind.index) (hφ : φ (mapGet ind.index g) (fs0 (progressPath d g))) {c : Cat} {fs : FS}
    (h : RO d dl ind fs0 c fs) : Pt d dl g φ c fs := by
  obtain ⟨rfl, m', rfl, hm⟩ := h
  refine ⟨_, rfl, hdir, hm.wp hw, ?_⟩
  show φ (mapGet m' g) _
  rcases hm.2 g with h1 | ⟨r, p, h1, h2, h3, h4⟩
  · rw [h1]; exact hφ
  · rw [h4]
    rw [h1] at hφ
    have hk := (hw g r h1).1
    unfold viewProgress at h3
    rw [h2] at h3
    simp only [hk] at h3
    rcases hx : fs (progressPath d g) with _ | data
    · rw [hx] at h3; cases h3
    · rw [hx] at h3 hφ
      obtain ⟨b, hb, h3⟩ := (Res.bind_ok_iff _ _ _).1 h3
      cases h3
      exact hf.load r data b hφ h2 hb

theorem pt_updateRecord (r : Record) (hne : r.sha1Hash ≠ g) (hr : ∀ p, r.progressFile = some p → p.filePath = progressPath d r.sha1Hash) :
    Triple (Pt d dl g φ) (updateRecord r) (fun _ => Pt d dl g φ) (Pt d dl g φ) := by
  refine Triple.bind (Triple.getIndex (fun _ _ h => h)) ?_
  intro ind
  apply Triple.setIndex
  rintro c fs ⟨⟨ind', rfl, h1, h2, h3⟩, hc⟩
  cases hc
  exact ⟨_, rfl, h1, h2.put r hr, by show φ (mapGet (mapPut _ _ _) g) _; rw [mapGet_put, if_neg hne]; exact h3⟩

variable (hd : AbsClean d)
include hd

theorem pt_fs (p : Path) (hp : p ≠ progressPath d g) (c : Cat) (fs : FS) (x : Option Bytes) (h : Pt d dl g φ c fs) : Pt d dl g φ c (fs.put p x) := by
  obtain ⟨ind, rfl, h1, h2, h3⟩ := h
  exact ⟨_, rfl, h1, h2, by rw [FS.put_other _ _ _ _ hp.symm]; exact h3⟩

theorem pt_progress (k : Sha1Hash) (hk : k ≠ g) (c : Cat) (fs : FS) (x : Option Bytes) (h : Pt d dl g φ c fs) : Pt d dl g φ c (fs.put (progressPath d k) x) :=
  pt_fs hd _ (fun e => hk (progressPath_inj d hd _ _ e)) c fs x h

theorem pt_saveIndex : Triple (Pt d dl g φ) (saveIndex env) (fun _ => Pt d dl g φ) (Pt d dl g φ) := by
  refine Triple.bind (Triple.getIndex (fun _ _ h => h)) ?_
  intro ind
  have key : ∀ c fs (x : Option Bytes), Pt d dl g φ c fs ∧ c.indexFile = some ind → Pt d dl g φ c (fs.put (indexPath ind.dataDir) x) := by
    rintro c fs x ⟨h, hc⟩
    have hdir : ind.dataDir = d := by
      obtain ⟨ind', rfl, h1, -⟩ := h
      cases hc; exact h1
    rw [hdir]
    exact pt_fs hd _ (indexPath_ne_progressPath d d hd hd g) c fs x h
  exact Triple.osWriteFile _ _ (fun c fs h => key c fs _ h) (fun c fs h => h.1) (fun c fs k h => key c fs _ h)

theorem pt_saveProgress (p : ProgressFile) (k : Sha1Hash) (hk : k ≠ g) (hp : p.filePath = progressPath d k) :
    Triple (Pt d dl g φ) p.save (fun _ => Pt d dl g φ) (Pt d dl g φ) := by
  unfold ProgressFile.save
  rw [hp]
  exact Triple.osWriteFile _ _ (fun c fs h => pt_progress hd k hk c fs _ h) (fun c fs h => h) (fun c fs _ h => pt_progress hd k hk c fs _ h)

theorem pt_removeIndexRecord (r : Record) (hne : r.sha1Hash ≠ g) :
    Triple (Pt d dl g φ) (removeIndexRecord env r) (fun _ => Pt d dl g φ) (Pt d dl g φ) := by
  refine Triple.bind (Triple.getIndex (fun _ _ h => h)) ?_
  intro ind
  refine Triple.bind (Q := fun _ => Pt d dl g φ) ?_ (fun _ => pt_saveIndex hd)
  apply Triple.setIndex
  rintro c fs ⟨⟨ind', rfl, h1, h2, h3⟩, hc⟩
  cases hc
  exact ⟨_, rfl, h1, h2.del _, by show φ (mapGet (mapDel _ _) g) _; rw [mapGet_del, if_neg hne]; exact h3⟩

include hf

theorem pt_addIndexRecord (r : Record) (hr : r.progressFile = none) :
    Triple (Pt d dl g φ) (addIndexRecord env r) (fun _ c fs => Pt d dl g φ c fs ∧ r.sha1Hash ≠ g) (Pt d dl g φ) := by
  refine Triple.bind (Triple.getIndex (fun _ _ h => h)) ?_
  intro ind
  split
  · exact Triple.lift _ (fun a e => by cases e) (fun c fs h => h.1)
  · rename_i hnone
    refine Triple.pre (P := fun c fs => (Pt d dl g φ c fs ∧ c.indexFile = some ind) ∧ r.sha1Hash ≠ g) ?_ ?_
    · apply Triple.facts
      intro hne
      refine Triple.bind (Q := fun _ => Pt d dl g φ) ?_ (fun _ => (pt_saveIndex hd).post (fun _ _ _ h => ⟨h, hne⟩))
      apply Triple.setIndex
      rintro c fs ⟨⟨ind', rfl, h1, h2, h3⟩, hc⟩
      cases hc
      exact ⟨_, rfl, h1, h2.put r (fun p hp => by rw [hr] at hp; cases hp), by show φ (mapGet (mapPut _ _ _) g) _; rw [mapGet_put, if_neg hne]; exact h3⟩
    · rintro c fs ⟨⟨ind', rfl, h1, h2, h3⟩, hc⟩
      cases hc
      refine ⟨⟨⟨_, rfl, h1, h2, h3⟩, rfl⟩, ?_⟩
      intro e
      rw [e] at hnone
      rw [hnone] at h3
      exact hf.none _ h3

theorem pt_shareFile (path : GoString) : Triple (Pt d dl g φ) (shareFile env path) (fun _ => Pt d dl g φ) (Pt d dl g φ) := by
  refine Triple.bind (Q := fun r c fs => Pt d dl g φ c fs ∧ r.progressFile = none) ?_ ?_
  · refine Triple.bind (Triple.osStat _ (fun _ _ h => h)) ?_
    intro x
    cases x with
    | none => exact Triple.lift _ (fun a e => by cases e) (fun c fs h => h.1)
    | some n =>
      refine Triple.bind (Triple.osHashFile _ _ (fun _ _ h => h.1)) ?_
      intro hash
      exact Triple.pure _ (fun c fs h => ⟨h.1.1, rfl⟩)
  · intro r
    apply Triple.facts
    intro hrn
    refine Triple.bind (pt_addIndexRecord hf hd r hrn) ?_
    intro _
    apply Triple.facts
    intro hne
    refine Triple.bind Triple.getCat ?_
    intro cat
    refine Triple.bind (Q := fun p c fs => Pt d dl g φ c fs ∧ p.filePath = progressPath d r.sha1Hash) ?_ ?_
    · refine Triple.lift _ ?_ (fun c fs h => h.1)
      rintro p hp c fs ⟨hI, rfl⟩
      refine ⟨hI, ?_⟩
      obtain ⟨ind, rfl, -⟩ := hI
      exact newProgressFile_path _ _ p hp
    · intro p
      apply Triple.facts
      intro hp
      refine Triple.bind (pt_updateRecord _ hne (fun q hq => by cases hq; exact hp)) ?_
      intro _
      refine Triple.bind (Q := fun _ => Pt d dl g φ) (Triple.lift _ (fun _ _ c fs h => h) (fun c fs h => h)) ?_
      intro b
      refine Triple.bind (pt_updateRecord _ hne (fun q hq => by cases hq; exact hp)) ?_
      intro _
      refine Triple.bind (pt_saveProgress hd _ r.sha1Hash hne hp) ?_
      intro _
      exact Triple.pure _ (fun c fs h => h)

theorem pt_registerDownload (size : UInt64) (cs : UInt32) (h : Sha1Hash) (name : GoString) :
    Triple (Pt d dl g φ) (registerDownload env size cs h name) (fun _ => Pt d dl g φ) (Pt d dl g φ) := by
  refine Triple.bind Triple.getCat ?_
  intro cat
  refine Triple.bind ((pt_addIndexRecord hf hd _ rfl).pre (fun _ _ h => h.1)) ?_
  intro _
  apply Triple.facts
  intro hne
  refine Triple.bind Triple.getCat ?_
  intro cat'
  refine Triple.bind (Q := fun p c fs => Pt d dl g φ c fs ∧ p.filePath = progressPath d h) ?_ ?_
  · refine Triple.lift _ ?_ (fun c fs h => h.1)
    rintro p hp c fs ⟨hI, rfl⟩
    refine ⟨hI, ?_⟩
    obtain ⟨ind, rfl, -⟩ := hI
    exact newProgressFile_path _ _ p hp
  · intro p
    apply Triple.facts
    intro hp
    refine Triple.bind (pt_updateRecord _ hne (fun q hq => by cases hq; exact hp)) ?_
    intro _
    refine Triple.bind (Q := fun _ => Pt d dl g φ) (Triple.ignoreErr (pt_saveProgress hd p h hne hp) (fun _ _ h => h)) ?_
    intro _
    exact Triple.lift _ (fun _ _ c fs h => h) (fun c fs h => h)

theorem pt_unshareFile {ind : IndexFile} {fs : FS} (hdir : ind.dataDir = d) (hw : WP d ind.index) (hφ : φ (mapGet ind.index g) (fs (progressPath d g)))
    (h : Sha1Hash) (hne : h ≠ g) : Triple (RO d dl ind fs) (unshareFile env h) (fun _ => Pt d dl g φ) (Pt d dl g φ) := by
  have weak : ∀ c' fs', RO d dl ind fs c' fs' → Pt d dl g φ c' fs' := fun c' fs' h => pt_of_ro hf hdir hw hφ h
  refine Triple.bind ((ro_getIndexRecord hw.own h).conseq (fun _ _ h => h) (fun _ _ _ h => h) weak) ?_
  intro r
  apply Triple.facts
  rintro ⟨r0, p0, h1, h2, rfl⟩
  have hk := (hw _ _ h1).1
  have hp0 := view_path hw h1 h2
  simp only []
  refine Triple.bind (Q := fun _ => Pt d dl g φ) ?_ (fun _ => pt_removeIndexRecord hd _ (by show r0.sha1Hash ≠ g; rw [hk]; exact hne))
  have key : ∀ c fs', Pt d dl g φ c fs' → Pt d dl g φ c (fs'.put p0.filePath none) := by
    intro c fs' hI
    rw [hp0]
    exact pt_progress hd _ hne c fs' _ hI
  exact Triple.osRemove _ (fun c fs _ hI _ => key c fs (weak _ _ hI)) (fun _ _ h => weak _ _ h) (fun c fs hI => key c fs (weak _ _ hI))

theorem pt_saveChunk {ind : IndexFile} {fs : FS} (hdir : ind.dataDir = d) (hw : WP d ind.index) (hφ : φ (mapGet ind.index g) (fs (progressPath d g)))
    (h : Sha1Hash) (hne : h ≠ g) (n : UInt16) (data : Bytes) (hs : ∀ r, mapGet ind.index h = some r → ¬ CatFile d r.filePath) :
    Triple (RO d dl ind fs) (saveChunk h n data) (fun _ => Pt d dl g φ) (Pt d dl g φ) := by
  have weak : ∀ c' fs', RO d dl ind fs c' fs' → Pt d dl g φ c' fs' := fun c' fs' h => pt_of_ro hf hdir hw hφ h
  refine Triple.bind ((Triple.orPanic (ro_getIndexRecord hw.own h)).conseq (fun _ _ h => h) (fun _ _ _ h => h) weak) ?_
  intro r
  apply Triple.facts
  rintro ⟨r0, p0, h1, h2, rfl⟩
  have hk := (hw _ _ h1).1
  have hp0 := view_path hw h1 h2
  have hsafe : r0.filePath ≠ progressPath d g := fun e => hs r0 h1 (.inr ⟨g, e⟩)
  simp only []
  refine Triple.bind (Q := fun _ => Pt d dl g φ) ?_ ?_
  · refine Triple.bind (Q := fun _ => Pt d dl g φ) ?_ ?_
    · exact Triple.osOpenCreate _ (fun c fs h => pt_fs hd _ hsafe c fs _ (weak _ _ h)) (fun _ _ h => weak _ _ h) (fun c fs h => pt_fs hd _ hsafe c fs _ (weak _ _ h))
    · intro _
      exact Triple.osWriteAt _ _ _ (fun c fs h _ => pt_fs hd _ hsafe c fs _ h) (fun _ _ h => h) (fun c fs k h => pt_fs hd _ hsafe c fs _ h)
  · intro _
    refine Triple.bind (Q := fun _ => Pt d dl g φ) (Triple.lift _ (fun _ _ c fs h => h) (fun c fs h => h)) ?_
    intro b
    refine Triple.bind (pt_updateRecord _ (by show r0.sha1Hash ≠ g; rw [hk]; exact hne) (fun q hq => by cases hq; show p0.filePath = progressPath d r0.sha1Hash; rw [hp0, hk])) ?_
    intro _
    exact pt_saveProgress hd _ h hne hp0

/-- Every call that does not concern `g`. -/
theorem pt_op (o : Op) (hne : ¬ o.Touches g) {c : Cat} {fs : FS} (hsafe : o.Safe d c) (hp : Pt d dl g φ c fs) (fl : List Fault) (r : Res Unit) (s' : St)
    (hrun : o.run env ⟨c, fs, fl⟩ = (r, s')) : Pt d dl g φ s'.cat s'.fs := by
  obtain ⟨ind, rfl, hdir, hw, hφ⟩ := hp
  have start : Pt d dl g φ ⟨d, dl, some ind⟩ fs := ⟨ind, rfl, hdir, hw, hφ⟩
  have always : ∀ {P : Assn} {x : CM Unit} {E : Assn}, Triple P x (fun _ => E) E → P ⟨d, dl, some ind⟩ fs → x ⟨⟨d, dl, some ind⟩, fs, fl⟩ = (r, s') → E s'.cat s'.fs := by
    intro P x E ht hP hx
    cases r with
    | ok a => exact (ht _ hP).1 a s' hx
    | err e => exact (ht _ hP).2 _ s' hx (fun a e => by cases e)
    | panic => exact (ht _ hP).2 _ s' hx (fun a e => by cases e)
    | exit => exact (ht _ hP).2 _ s' hx (fun a e => by cases e)
    | crash => exact (ht _ hP).2 _ s' hx (fun a e => by cases e)
  by_cases hro : o.readOnly = true
  · exact pt_of_ro hf hdir hw hφ (always (ro_op (d := d) (dl := dl) (ind := ind) (fs0 := fs) env hw.own o hro) (RO.init _ _ _ _) hrun)
  cases o with
  | share p => exact always (Triple.void (pt_shareFile hf hd p)) start hrun
  | register s cs h n => exact always (Triple.void (pt_registerDownload hf hd s cs h n)) start hrun
  | unshare h => exact always (pt_unshareFile (env := env) (dl := dl) (fs := fs) hf hd hdir hw hφ h hne) (RO.init _ _ _ _) hrun
  | save h n data =>
    refine always (pt_saveChunk (dl := dl) (fs := fs) hf hd hdir hw hφ h hne n data ?_) (RO.init _ _ _ _) hrun
    intro r hr
    exact hsafe _ (by simp [Cat.pathOf, hr])
  | list o => exact absurd rfl hro
  | rehash h => exact absurd rfl hro
  | contains h => exact absurd rfl hro
  | get h => exact absurd rfl hro
  | complete h => exact absurd rfl hro
  | missing h => exact absurd rfl hro
  | reader h n ch => exact absurd rfl hro

end

end Flu
