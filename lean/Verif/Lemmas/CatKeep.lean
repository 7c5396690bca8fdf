import Verif.Lemmas.CatPoint
import Verif.Model.Unlocked
/-!
# What calls do to files that are not the catalogue's own

`Kp d dl ψ`: the catalogue in memory is well formed and `ψ` holds of the files.  Every call preserves this, whatever it meets, if `ψ` does not care about the catalogue's own files;
for `SaveChunk`, `ψ` must also survive the writes to the file of the hash.
-/
namespace Flu
open Spec

def Kp (d dl : Path) (ψ : FS → Prop) : Assn := fun c fs => ∃ ind, c = ⟨d, dl, some ind⟩ ∧ ind.dataDir = d ∧ WP d ind.index ∧ ψ fs

/-- `ψ` does not depend on the catalogue's own files. -/
def Blind (d : Path) (ψ : FS → Prop) : Prop := ∀ fs p x, CatFile d p → ψ fs → ψ (fs.put p x)

/-- `ψ` survives the writing of (a prefix of) `data` at `start` of the file `p`. -/
def Survives (ψ : FS → Prop) (p : Path) (start : Nat) (data : Bytes) : Prop :=
  (∀ fs, ψ fs → ψ (fs.put p (some ((fs p).getD [])))) ∧
  ∀ fs k, ψ fs → ψ (fs.put p (some (overlay ((fs p).getD []) start (data.take k))))

section
variable {env : Env} {d dl : Path} {ψ : FS → Prop} (hb : Blind d ψ)

theorem kp_of_ro {ind : IndexFile} {fs0 : FS} (hdir : ind.dataDir = d) (hw : WP d ind.index) (hψ : ψ fs0) {c : Cat} {fs : FS} (h : RO d dl ind fs0 c fs) : Kp d dl ψ c fs := by
  obtain ⟨rfl, m', rfl, hm⟩ := h
  exact ⟨_, rfl, hdir, hm.wp hw, hψ⟩

theorem kp_updateRecord (r : Record) (hr : ∀ p, r.progressFile = some p → p.filePath = progressPath d r.sha1Hash) :
    Triple (Kp d dl ψ) (updateRecord r) (fun _ => Kp d dl ψ) (Kp d dl ψ) := by
  refine Triple.bind (Triple.getIndex (fun _ _ h => h)) ?_
  intro ind
  apply Triple.setIndex
  rintro c fs ⟨⟨ind', rfl, h1, h2, h3⟩, hc⟩
  cases hc
  exact ⟨_, rfl, h1, h2.put r hr, h3⟩

include hb

theorem kp_fs (p : Path) (hp : CatFile d p) (c : Cat) (fs : FS) (x : Option Bytes) (h : Kp d dl ψ c fs) : Kp d dl ψ c (fs.put p x) := by
  obtain ⟨ind, rfl, h1, h2, h3⟩ := h
  exact ⟨_, rfl, h1, h2, hb _ _ _ hp h3⟩

theorem kp_saveIndex : Triple (Kp d dl ψ) (saveIndex env) (fun _ => Kp d dl ψ) (Kp d dl ψ) := by
  refine Triple.bind (Triple.getIndex (fun _ _ h => h)) ?_
  intro ind
  have key : ∀ c fs (x : Option Bytes), Kp d dl ψ c fs ∧ c.indexFile = some ind → Kp d dl ψ c (fs.put (indexPath ind.dataDir) x) := by
    rintro c fs x ⟨h, hc⟩
    have hdir : ind.dataDir = d := by
      obtain ⟨ind', rfl, h1, -⟩ := h
      cases hc; exact h1
    rw [hdir]
    exact kp_fs hb _ (.inl rfl) c fs x h
  exact Triple.osWriteFile _ _ (fun c fs h => key c fs _ h) (fun c fs h => h.1) (fun c fs k h => key c fs _ h)

theorem kp_saveProgress (p : ProgressFile) (k : Sha1Hash) (hp : p.filePath = progressPath d k) :
    Triple (Kp d dl ψ) p.save (fun _ => Kp d dl ψ) (Kp d dl ψ) := by
  unfold ProgressFile.save
  rw [hp]
  exact Triple.osWriteFile _ _ (fun c fs h => kp_fs hb _ (.inr ⟨k, rfl⟩) c fs _ h) (fun c fs h => h) (fun c fs _ h => kp_fs hb _ (.inr ⟨k, rfl⟩) c fs _ h)

theorem kp_removeIndexRecord (r : Record) : Triple (Kp d dl ψ) (removeIndexRecord env r) (fun _ => Kp d dl ψ) (Kp d dl ψ) := by
  refine Triple.bind (Triple.getIndex (fun _ _ h => h)) ?_
  intro ind
  refine Triple.bind (Q := fun _ => Kp d dl ψ) ?_ (fun _ => kp_saveIndex hb)
  apply Triple.setIndex
  rintro c fs ⟨⟨ind', rfl, h1, h2, h3⟩, hc⟩
  cases hc
  exact ⟨_, rfl, h1, h2.del _, h3⟩

theorem kp_addIndexRecord (r : Record) (hr : r.progressFile = none) : Triple (Kp d dl ψ) (addIndexRecord env r) (fun _ => Kp d dl ψ) (Kp d dl ψ) := by
  refine Triple.bind (Triple.getIndex (fun _ _ h => h)) ?_
  intro ind
  split
  · exact Triple.lift _ (fun a e => by cases e) (fun c fs h => h.1)
  · refine Triple.bind (Q := fun _ => Kp d dl ψ) ?_ (fun _ => kp_saveIndex hb)
    apply Triple.setIndex
    rintro c fs ⟨⟨ind', rfl, h1, h2, h3⟩, hc⟩
    cases hc
    exact ⟨_, rfl, h1, h2.put r (fun p hp => by rw [hr] at hp; cases hp), h3⟩

theorem kp_newProgress (r : Record) (cat : Cat) :
    Triple (fun c fs => Kp d dl ψ c fs ∧ cat = c) (IOM.lift (newProgressFile r cat.dataDir)) (fun p c fs => Kp d dl ψ c fs ∧ p.filePath = progressPath d r.sha1Hash) (Kp d dl ψ) := by
  refine Triple.lift _ ?_ (fun c fs h => h.1)
  rintro p hp c fs ⟨hI, rfl⟩
  refine ⟨hI, ?_⟩
  obtain ⟨ind, rfl, -⟩ := hI
  exact newProgressFile_path _ _ p hp

theorem kp_shareFile (path : GoString) : Triple (Kp d dl ψ) (shareFile env path) (fun _ => Kp d dl ψ) (Kp d dl ψ) := by
  refine Triple.bind (Q := fun r c fs => Kp d dl ψ c fs ∧ r.progressFile = none) ?_ ?_
  · refine Triple.bind (Triple.osStat _ (fun _ _ h => h)) ?_
    intro x
    cases x with
    | none => exact Triple.lift _ (fun a e => by cases e) (fun c fs h => h.1)
    | some n =>
      refine Triple.bind (Triple.osHashFile _ _ (fun _ _ h => h.1)) ?_
      intro hash
      exact Triple.pure _ (fun c fs h => ⟨h.1.1, rfl⟩)
  · intro r
    apply Triple.facts
    intro hrn
    refine Triple.bind (kp_addIndexRecord hb r hrn) ?_
    intro _
    refine Triple.bind Triple.getCat ?_
    intro cat
    refine Triple.bind (kp_newProgress hb r cat) ?_
    intro p
    apply Triple.facts
    intro hp
    refine Triple.bind (kp_updateRecord _ (fun q hq => by cases hq; exact hp)) ?_
    intro _
    refine Triple.bind (Q := fun _ => Kp d dl ψ) (Triple.lift _ (fun _ _ c fs h => h) (fun c fs h => h)) ?_
    intro b
    refine Triple.bind (kp_updateRecord _ (fun q hq => by cases hq; exact hp)) ?_
    intro _
    refine Triple.bind (kp_saveProgress hb _ r.sha1Hash hp) ?_
    intro _
    exact Triple.pure _ (fun c fs h => h)

theorem kp_registerDownload (size : UInt64) (cs : UInt32) (h : Sha1Hash) (name : GoString) :
    Triple (Kp d dl ψ) (registerDownload env size cs h name) (fun _ => Kp d dl ψ) (Kp d dl ψ) := by
  refine Triple.bind Triple.getCat ?_
  intro cat
  refine Triple.bind ((kp_addIndexRecord hb _ rfl).pre (fun _ _ h => h.1)) ?_
  intro _
  refine Triple.bind Triple.getCat ?_
  intro cat'
  refine Triple.bind (kp_newProgress hb _ cat') ?_
  intro p
  apply Triple.facts
  intro hp
  refine Triple.bind (kp_updateRecord _ (fun q hq => by cases hq; exact hp)) ?_
  intro _
  refine Triple.bind (Q := fun _ => Kp d dl ψ) (Triple.ignoreErr (kp_saveProgress hb p h hp) (fun _ _ h => h)) ?_
  intro _
  exact Triple.lift _ (fun _ _ c fs h => h) (fun c fs h => h)

theorem kp_unshareFile {ind : IndexFile} {fs : FS} (hdir : ind.dataDir = d) (hw : WP d ind.index) (hψ : ψ fs) (h : Sha1Hash) :
    Triple (RO d dl ind fs) (unshareFile env h) (fun _ => Kp d dl ψ) (Kp d dl ψ) := by
  have weak : ∀ c' fs', RO d dl ind fs c' fs' → Kp d dl ψ c' fs' := fun c' fs' h => kp_of_ro hdir hw hψ h
  refine Triple.bind ((ro_getIndexRecord hw.own h).conseq (fun _ _ h => h) (fun _ _ _ h => h) weak) ?_
  intro r
  apply Triple.facts
  rintro ⟨r0, p0, h1, h2, rfl⟩
  have hp0 := view_path hw h1 h2
  simp only []
  refine Triple.bind (Q := fun _ => Kp d dl ψ) ?_ (fun _ => kp_removeIndexRecord hb _)
  have key : ∀ c fs', Kp d dl ψ c fs' → Kp d dl ψ c (fs'.put p0.filePath none) := by
    intro c fs' hI
    rw [hp0]
    exact kp_fs hb _ (.inr ⟨h, rfl⟩) c fs' _ hI
  exact Triple.osRemove _ (fun c fs _ hI _ => key c fs (weak _ _ hI)) (fun _ _ h => weak _ _ h) (fun c fs hI => key c fs (weak _ _ hI))

theorem kp_saveChunk {ind : IndexFile} {fs : FS} (hdir : ind.dataDir = d) (hw : WP d ind.index) (hψ : ψ fs)
    (h : Sha1Hash) (n : UInt16) (data : Bytes) (hs : ∀ r, mapGet ind.index h = some r → Survives ψ r.filePath ((n.toNat : Int) * r.chunkSize).toNat data) :
    Triple (RO d dl ind fs) (saveChunk h n data) (fun _ => Kp d dl ψ) (Kp d dl ψ) := by
  have weak : ∀ c' fs', RO d dl ind fs c' fs' → Kp d dl ψ c' fs' := fun c' fs' h => kp_of_ro hdir hw hψ h
  refine Triple.bind ((Triple.orPanic (ro_getIndexRecord hw.own h)).conseq (fun _ _ h => h) (fun _ _ _ h => h) weak) ?_
  intro r
  apply Triple.facts
  rintro ⟨r0, p0, h1, h2, rfl⟩
  have hk := (hw _ _ h1).1
  have hp0 := view_path hw h1 h2
  obtain ⟨hs1, hs2⟩ := hs r0 h1
  have create : ∀ c fs', Kp d dl ψ c fs' → Kp d dl ψ c (fs'.put r0.filePath (some ((fs' r0.filePath).getD []))) := by
    rintro c fs' ⟨i, rfl, a, b, x⟩
    exact ⟨i, rfl, a, b, hs1 _ x⟩
  have write : ∀ c fs' k, Kp d dl ψ c fs' → Kp d dl ψ c (fs'.put r0.filePath (some (overlay ((fs' r0.filePath).getD []) ((n.toNat : Int) * r0.chunkSize).toNat (data.take k)))) := by
    rintro c fs' k ⟨i, rfl, a, b, x⟩
    exact ⟨i, rfl, a, b, hs2 _ k x⟩
  simp only []
  refine Triple.bind (Q := fun _ => Kp d dl ψ) ?_ ?_
  · refine Triple.bind (Q := fun _ => Kp d dl ψ) ?_ ?_
    · exact Triple.osOpenCreate _ (fun c fs h => create c fs (weak _ _ h)) (fun _ _ h => weak _ _ h) (fun c fs h => create c fs (weak _ _ h))
    · intro _
      refine Triple.osWriteAt _ _ _ (fun c fs h _ => ?_) (fun _ _ h => h) (fun c fs k h => write c fs k h)
      have := write c fs data.length h
      rw [List.take_length] at this
      exact this
  · intro _
    refine Triple.bind (Q := fun _ => Kp d dl ψ) (Triple.lift _ (fun _ _ c fs h => h) (fun c fs h => h)) ?_
    intro b
    refine Triple.bind (kp_updateRecord _ (fun q hq => by cases hq; show p0.filePath = progressPath d r0.sha1Hash; rw [hp0, hk])) ?_
    intro _
    exact kp_saveProgress hb _ h hp0

/-- Every call. -/
theorem kp_op (o : Op) {c : Cat} {fs : FS} (hp : Kp d dl ψ c fs)
    (hs : ∀ h n data, o = .save h n data → ∀ r, c.record h = some r → Survives ψ r.filePath ((n.toNat : Int) * r.chunkSize).toNat data)
    (fl : List Fault) (r : Res Unit) (s' : St) (hrun : o.run env ⟨c, fs, fl⟩ = (r, s')) : Kp d dl ψ s'.cat s'.fs := by
  obtain ⟨ind, rfl, hdir, hw, hψ⟩ := hp
  have start : Kp d dl ψ ⟨d, dl, some ind⟩ fs := ⟨ind, rfl, hdir, hw, hψ⟩
  have always : ∀ {P : Assn} {x : CM Unit} {E : Assn}, Triple P x (fun _ => E) E → P ⟨d, dl, some ind⟩ fs → x ⟨⟨d, dl, some ind⟩, fs, fl⟩ = (r, s') → E s'.cat s'.fs := by
    intro P x E ht hP hx
    cases r with
    | ok a => exact (ht _ hP).1 a s' hx
    | err e => exact (ht _ hP).2 _ s' hx (fun a e => by cases e)
    | panic => exact (ht _ hP).2 _ s' hx (fun a e => by cases e)
    | exit => exact (ht _ hP).2 _ s' hx (fun a e => by cases e)
    | crash => exact (ht _ hP).2 _ s' hx (fun a e => by cases e)
  by_cases hro : o.readOnly = true
  · exact kp_of_ro hdir hw hψ (always (ro_op (d := d) (dl := dl) (ind := ind) (fs0 := fs) env hw.own o hro) (RO.init _ _ _ _) hrun)
  cases o with
  | share p => exact always (Triple.void (kp_shareFile hb p)) start hrun
  | register s cs h n => exact always (Triple.void (kp_registerDownload hb s cs h n)) start hrun
  | unshare h => exact always (kp_unshareFile (env := env) (dl := dl) (fs := fs) hb hdir hw hψ h) (RO.init _ _ _ _) hrun
  | save h n data =>
    exact always (kp_saveChunk (dl := dl) (fs := fs) hb hdir hw hψ h n data (fun r hr => hs h n data rfl r hr)) (RO.init _ _ _ _) hrun
  | list o => exact absurd rfl hro
  | rehash h => exact absurd rfl hro
  | contains h => exact absurd rfl hro
  | get h => exact absurd rfl hro
  | complete h => exact absurd rfl hro
  | missing h => exact absurd rfl hro
  | reader h n ch => exact absurd rfl hro

/-- Start-up. -/
theorem kp_init : Triple (fun c fs => c.dataDir = d ∧ ψ fs) (Cat.init env) (fun _ _ fs => ψ fs) (fun _ fs => ψ fs) := by
  refine Triple.bind Triple.getCat ?_
  intro cat
  refine Triple.pre (P := fun c fs => (c.dataDir = d ∧ ψ fs) ∧ cat.dataDir = d) ?_ (fun c fs h => ⟨h.1, by rw [h.2]; exact h.1.1⟩)
  apply Triple.facts
  intro hcat
  refine Triple.bind (Q := fun _ _ fs => ψ fs) (Triple.setIndex _ (fun _ _ h => h.2)) ?_
  intro _
  refine Triple.bind (Triple.osTouch (fun _ _ h => h)) ?_
  intro _
  refine Triple.bind (Triple.osTouch (fun _ _ h => h)) ?_
  intro _
  refine Triple.bind ((Triple.osStat _ (fun _ _ h => h)).post (Q' := fun _ _ fs => ψ fs) (fun _ _ _ h => h.1)) ?_
  intro x
  have tail : Triple (fun _ fs => ψ fs) (do
      let data ← osReadFile (indexPath cat.dataDir)
      let ind ← IOM.lift (unmarshalIndex env data)
      setIndex ind) (fun _ _ fs => ψ fs) (fun _ fs => ψ fs) := by
    refine Triple.bind ((Triple.osReadFile _ (fun _ _ h => h)).post (Q' := fun _ _ fs => ψ fs) (fun _ _ _ h => h.1)) ?_
    intro data
    refine Triple.bind (Q := fun _ _ fs => ψ fs) (Triple.lift _ (fun _ _ c fs h => h) (fun c fs h => h)) ?_
    intro ind
    exact Triple.setIndex _ (fun _ _ h => h)
  cases x with
  | some n => exact tail
  | none =>
    refine Triple.bind (Q := fun _ c fs => ψ fs ∧ c.indexFile = some ⟨env.pid, env.now, [], cat.dataDir⟩) (Triple.setIndex _ (fun _ _ h => ⟨h, rfl⟩)) ?_
    intro _
    refine Triple.bind (Q := fun _ _ fs => ψ fs) ?_ (fun _ => tail)
    refine Triple.bind (Triple.getIndex (fun _ _ h => h.1)) ?_
    intro ind
    have key : ∀ (c : Cat) (fs : FS) (y : Option Bytes), (ψ fs ∧ c.indexFile = some ⟨env.pid, env.now, [], cat.dataDir⟩) ∧ c.indexFile = some ind → ψ (fs.put (indexPath ind.dataDir) y) := by
      rintro c fs y ⟨⟨h1, h2⟩, h3⟩
      rw [h2] at h3
      cases h3
      exact hb _ _ _ (.inl (by rw [hcat])) h1
    exact Triple.osWriteFile _ _ (fun c fs h => key c fs _ h) (fun _ _ h => h.1.1) (fun c fs k h => key c fs _ h)

end

end Flu
