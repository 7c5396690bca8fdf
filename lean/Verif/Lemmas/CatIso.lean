import Verif.Props.CatSave
/-!
# Calls about one file leave the others alone

`Iso d dl g o`: the catalogue in memory is well formed and shows `o` for the hash `g`.  Whatever happens during a call that does not concern `g` — success, an error or
the death of the process at any system call — this is preserved.
-/
namespace Flu
open Spec

def Iso (d dl : Path) (g : Sha1Hash) (o : Res Export) : Assn := fun c fs =>
  ∃ ind, c = ⟨d, dl, some ind⟩ ∧ ind.dataDir = d ∧ Own ind.index ∧ obsRec d fs ind.index g = o

theorem Own.put {m : List (Sha1Hash × Record)} (ho : Own m) (r : Record) : Own (mapPut m r.sha1Hash r) := by
  intro k r' h
  rw [mapGet_put] at h
  split at h
  · rename_i e; cases h; exact e
  · exact ho k r' h

theorem Own.del {m : List (Sha1Hash × Record)} (ho : Own m) (k : Sha1Hash) : Own (mapDel m k) := by
  intro k' r' h
  rw [mapGet_del] at h
  split at h
  · cases h
  · exact ho k' r' h

section
variable {env : Env} {d dl : Path} {g : Sha1Hash} {o : Res Export} (hd : AbsClean d)

theorem iso_updateRecord (r : Record) (hne : r.sha1Hash ≠ g) : Triple (Iso d dl g o) (updateRecord r) (fun _ => Iso d dl g o) (Iso d dl g o) := by
  refine Triple.bind (Triple.getIndex (fun _ _ h => h)) ?_
  intro ind
  apply Triple.setIndex
  rintro c fs ⟨⟨ind', rfl, h1, h2, h3⟩, hc⟩
  cases hc
  exact ⟨_, rfl, h1, h2.put r, by rw [← h3]; exact obsRec_congr _ _ _ _ _ (by rw [mapGet_put, if_neg hne])⟩

include hd

theorem iso_saveIndex : Triple (Iso d dl g o) (saveIndex env) (fun _ => Iso d dl g o) (Iso d dl g o) := by
  refine Triple.bind (Triple.getIndex (fun _ _ h => h)) ?_
  intro ind
  have key : ∀ c fs (x : Option Bytes), Iso d dl g o c fs ∧ c.indexFile = some ind → Iso d dl g o c (fs.put (indexPath ind.dataDir) x) := by
    rintro c fs x ⟨⟨ind', rfl, h1, h2, h3⟩, hc⟩
    cases hc
    refine ⟨_, rfl, h1, h2, ?_⟩
    rw [← h3]
    exact obsRec_fs_own _ _ _ _ _ h2 (by rw [h1]; exact FS.put_other _ _ _ _ (fun e => indexPath_ne_progressPath d d hd hd g e.symm))
  exact Triple.osWriteFile _ _ (fun c fs h => key c fs _ h) (fun c fs h => h.1) (fun c fs k h => key c fs _ h)

theorem iso_progress (k : Sha1Hash) (hk : k ≠ g) (c : Cat) (fs : FS) (x : Option Bytes) (h : Iso d dl g o c fs) : Iso d dl g o c (fs.put (progressPath d k) x) := by
  obtain ⟨ind, rfl, h1, h2, h3⟩ := h
  refine ⟨_, rfl, h1, h2, ?_⟩
  rw [← h3]
  exact obsRec_fs_own _ _ _ _ _ h2 (FS.put_other _ _ _ _ (fun e => hk (progressPath_inj d hd _ _ e).symm))

theorem iso_saveProgress (p : ProgressFile) (k : Sha1Hash) (hk : k ≠ g) (hp : p.filePath = progressPath d k) :
    Triple (Iso d dl g o) p.save (fun _ => Iso d dl g o) (Iso d dl g o) := by
  unfold ProgressFile.save
  rw [hp]
  exact Triple.osWriteFile _ _ (fun c fs h => iso_progress hd k hk c fs _ h) (fun c fs h => h) (fun c fs _ h => iso_progress hd k hk c fs _ h)

theorem iso_addIndexRecord (ho : o ≠ .err .fileNotFound) (r : Record) :
    Triple (Iso d dl g o) (addIndexRecord env r) (fun _ c fs => Iso d dl g o c fs ∧ r.sha1Hash ≠ g) (Iso d dl g o) := by
  refine Triple.bind (Triple.getIndex (fun _ _ h => h)) ?_
  intro ind
  split
  · exact Triple.lift _ (fun a e => by cases e) (fun c fs h => h.1)
  · rename_i hnone
    refine Triple.pre (P := fun c fs => (Iso d dl g o c fs ∧ c.indexFile = some ind) ∧ r.sha1Hash ≠ g) ?_ ?_
    · apply Triple.facts
      intro hne
      refine Triple.bind (Q := fun _ => Iso d dl g o) ?_ (fun _ => (iso_saveIndex hd).post (fun _ _ _ h => ⟨h, hne⟩))
      apply Triple.setIndex
      rintro c fs ⟨⟨ind', rfl, h1, h2, h3⟩, hc⟩
      cases hc
      exact ⟨_, rfl, h1, h2.put r, by rw [← h3]; exact obsRec_congr _ _ _ _ _ (by rw [mapGet_put, if_neg hne])⟩
    · rintro c fs ⟨⟨ind', rfl, h1, h2, h3⟩, hc⟩
      cases hc
      refine ⟨⟨⟨_, rfl, h1, h2, h3⟩, rfl⟩, ?_⟩
      intro e
      rw [e] at hnone
      exact ho (h3.symm.trans (obsRec_notFound.2 hnone))

theorem iso_removeIndexRecord (r : Record) (hne : r.sha1Hash ≠ g) :
    Triple (Iso d dl g o) (removeIndexRecord env r) (fun _ => Iso d dl g o) (Iso d dl g o) := by
  refine Triple.bind (Triple.getIndex (fun _ _ h => h)) ?_
  intro ind
  refine Triple.bind (Q := fun _ => Iso d dl g o) ?_ (fun _ => iso_saveIndex hd)
  apply Triple.setIndex
  rintro c fs ⟨⟨ind', rfl, h1, h2, h3⟩, hc⟩
  cases hc
  exact ⟨_, rfl, h1, h2.del _, by rw [← h3]; exact obsRec_congr _ _ _ _ _ (by rw [mapGet_del, if_neg hne])⟩

theorem iso_shareFile (ho : o ≠ .err .fileNotFound) (path : GoString) : Triple (Iso d dl g o) (shareFile env path) (fun _ => Iso d dl g o) (Iso d dl g o) := by
  refine Triple.bind (Q := fun _ => Iso d dl g o) ?_ ?_
  · refine Triple.bind (Triple.osStat _ (fun _ _ h => h)) ?_
    intro x
    cases x with
    | none => exact Triple.lift _ (fun a e => by cases e) (fun c fs h => h.1)
    | some n =>
      refine Triple.bind (Triple.osHashFile _ _ (fun _ _ h => h.1)) ?_
      intro hash
      exact Triple.pure _ (fun c fs h => h.1.1)
  · intro r
    refine Triple.bind (iso_addIndexRecord hd ho r) ?_
    intro _
    apply Triple.facts
    intro hne
    refine Triple.bind Triple.getCat ?_
    intro cat
    refine Triple.bind (Q := fun p c fs => Iso d dl g o c fs ∧ p.filePath = progressPath d r.sha1Hash) ?_ ?_
    · refine Triple.lift _ ?_ (fun c fs h => h.1)
      rintro p hp c fs ⟨hI, rfl⟩
      refine ⟨hI, ?_⟩
      obtain ⟨ind, rfl, -⟩ := hI
      exact newProgressFile_path _ _ p hp
    · intro p
      apply Triple.facts
      intro hp
      refine Triple.bind (iso_updateRecord _ hne) ?_
      intro _
      refine Triple.bind (Q := fun _ => Iso d dl g o) (Triple.lift _ (fun _ _ c fs h => h) (fun c fs h => h)) ?_
      intro b
      refine Triple.bind (iso_updateRecord _ hne) ?_
      intro _
      refine Triple.bind (iso_saveProgress hd _ r.sha1Hash hne hp) ?_
      intro _
      exact Triple.pure _ (fun c fs h => h)

theorem iso_registerDownload (ho : o ≠ .err .fileNotFound) (size : UInt64) (cs : UInt32) (h : Sha1Hash) (name : GoString) :
    Triple (Iso d dl g o) (registerDownload env size cs h name) (fun _ => Iso d dl g o) (Iso d dl g o) := by
  refine Triple.bind Triple.getCat ?_
  intro cat
  refine Triple.bind ((iso_addIndexRecord hd ho _).pre (fun _ _ h => h.1)) ?_
  intro _
  apply Triple.facts
  intro hne
  refine Triple.bind Triple.getCat ?_
  intro cat'
  refine Triple.bind (Q := fun p c fs => Iso d dl g o c fs ∧ p.filePath = progressPath d h) ?_ ?_
  · refine Triple.lift _ ?_ (fun c fs h => h.1)
    rintro p hp c fs ⟨hI, rfl⟩
    refine ⟨hI, ?_⟩
    obtain ⟨ind, rfl, -⟩ := hI
    exact newProgressFile_path _ _ p hp
  · intro p
    apply Triple.facts
    intro hp
    refine Triple.bind (iso_updateRecord _ hne) ?_
    intro _
    refine Triple.bind (Q := fun _ => Iso d dl g o) (Triple.ignoreErr (iso_saveProgress hd p h hne hp) (fun _ _ h => h)) ?_
    intro _
    exact Triple.lift _ (fun _ _ c fs h => h) (fun c fs h => h)

end

theorem viewProgress_path {d : Path} {fs : FS} {r : Record} {p : ProgressFile} (hr : RecOK d r) (h : viewProgress d fs r = .ok p) :
    p.filePath = progressPath d r.sha1Hash := by
  rcases viewProgress_own h with h | h
  · exact (hr.file p h).1
  · exact h.2.1

section
variable {env : Env} {d dl : Path} {c : Cat} {fs : FS}

/-- `UnshareFile` of another file, whatever it meets. -/
theorem iso_unshareFile (hd : AbsClean d) {ind : IndexFile} (hw : WFIdx d ind) (h g : Sha1Hash) (hne : h ≠ g) :
    Triple (RO d dl ind fs) (unshareFile env h) (fun _ => Iso d dl g (obsRec d fs ind.index g)) (Iso d dl g (obsRec d fs ind.index g)) := by
  have weak : ∀ c' fs', RO d dl ind fs c' fs' → Iso d dl g (obsRec d fs ind.index g) c' fs' := by
    rintro c' fs' ⟨rfl, m', rfl, hm⟩
    exact ⟨_, rfl, hw.dir, hm.own hw.ownGet, hm.obs g⟩
  refine Triple.bind ((ro_getIndexRecord hw.ownGet h).conseq (fun _ _ h => h) (fun _ _ _ h => h) weak) ?_
  intro r
  apply Triple.facts
  rintro ⟨r0, p0, h1, h2, rfl⟩
  have hk := hw.ownGet _ _ h1
  have hp0 := viewProgress_path (hw.recs _ _ (mapGet_mem _ _ _ h1)) h2
  simp only []
  have hne' : ({ r0 with progressFile := some p0 } : Record).sha1Hash ≠ g := by show r0.sha1Hash ≠ g; rw [hk]; exact hne
  refine Triple.bind (Q := fun _ => Iso d dl g (obsRec d fs ind.index g)) ?_ (fun _ => iso_removeIndexRecord hd _ hne')
  have key : ∀ c fs', Iso d dl g (obsRec d fs ind.index g) c fs' → Iso d dl g (obsRec d fs ind.index g) c (fs'.put p0.filePath none) := by
    intro c fs' hI
    rw [hp0]
    exact iso_progress hd _ hne' c fs' _ hI
  exact Triple.osRemove _ (fun c fs _ hI _ => key c fs (weak _ _ hI)) (fun _ _ h => weak _ _ h) (fun c fs hI => key c fs (weak _ _ hI))

/-- A call that takes a file out of the catalogue or changes its progress. -/
def Op.Touches (h : Sha1Hash) : Op → Prop
  | .unshare k => k = h
  | .save k _ _ => k = h
  | _ => False

/-- Calls that concern other files leave what the catalogue shows about a known file as it was, whatever they meet. -/
theorem observe_other (hh : Healthy env d) (hreach : Reach env d dl (.running c fs)) (g : Sha1Hash) (hk : observe c fs g ≠ .err .fileNotFound) (o : Op)
    (hsafe : o.Safe d c) (hne : ¬ o.Touches g) (fl : List Fault) (r : Res Unit) (s' : St) (hrun : o.run env ⟨c, fs, fl⟩ = (r, s')) :
    observe s'.cat s'.fs g = observe c fs g := by
  have hI : Inv env d dl c fs := hreach.inv hh.abs hh.utf8
  obtain ⟨ind, rfl, hw⟩ := hI.split
  have always : ∀ {P : Assn} {x : CM Unit} {E : Assn}, Triple P x (fun _ => E) E → P ⟨d, dl, some ind⟩ fs → x ⟨⟨d, dl, some ind⟩, fs, fl⟩ = (r, s') → E s'.cat s'.fs := by
    intro P x E ht hP hx
    cases r with
    | ok a => exact (ht _ hP).1 a s' hx
    | err e => exact (ht _ hP).2 _ s' hx (fun a e => by cases e)
    | panic => exact (ht _ hP).2 _ s' hx (fun a e => by cases e)
    | exit => exact (ht _ hP).2 _ s' hx (fun a e => by cases e)
    | crash => exact (ht _ hP).2 _ s' hx (fun a e => by cases e)
  have start : Iso d dl g (observe ⟨d, dl, some ind⟩ fs g) ⟨d, dl, some ind⟩ fs := ⟨ind, rfl, hw.dir, hw.ownGet, (observe_eq _ _ _ _ _).symm⟩
  have finish : Iso d dl g (observe ⟨d, dl, some ind⟩ fs g) s'.cat s'.fs → observe s'.cat s'.fs g = observe ⟨d, dl, some ind⟩ fs g := by
    rintro ⟨ind', h1, h2, h3, h4⟩
    rw [h1, observe_eq]; exact h4
  by_cases hro : o.readOnly = true
  · exact (RO.same (always (ro_op (d := d) (dl := dl) (ind := ind) (fs0 := fs) env hw.ownGet o hro) (RO.init _ _ _ _) hrun)).2 g
  cases o with
  | share p => exact finish (always (Triple.void (iso_shareFile hh.abs hk p)) start hrun)
  | register s cs h n => exact finish (always (Triple.void (iso_registerDownload hh.abs hk s cs h n)) start hrun)
  | unshare h =>
    apply finish
    have := always (iso_unshareFile (env := env) (dl := dl) (fs := fs) hh.abs hw h g hne) (RO.init _ _ _ _) hrun
    rw [observe_eq]; exact this
  | save h n data => exact ((C32_save hh hreach h n data fl hsafe r s' hrun).others g (fun e => hne e.symm)).2
  | list o => exact absurd rfl hro
  | rehash h => exact absurd rfl hro
  | contains h => exact absurd rfl hro
  | get h => exact absurd rfl hro
  | complete h => exact absurd rfl hro
  | missing h => exact absurd rfl hro
  | reader h n ch => exact absurd rfl hro

end

end Flu
