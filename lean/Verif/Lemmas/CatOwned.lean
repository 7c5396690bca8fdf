import Verif.Lemmas.CatApart
/-!
# A progress file always belongs to a file in the index

`Td env d dl g`: if there is a progress file of `g`, on disk or in memory, then `g` is in the index in memory, and the index on disk (which may be cut short) names it.  Every
call preserves this, whatever operations of the disk fail and wherever the process is killed.
-/
namespace Flu
open Spec

/-- The index on disk names `g`, or is the beginning of one that does. -/
def DiskHas (env : Env) (d : Path) (g : Sha1Hash) (fs : FS) : Prop :=
  ∃ data, ∃ ind : IndexFile, fs (indexPath d) = some data ∧ (ind.index.map (·.1)).Nodup ∧ mapGet ind.index g ≠ none ∧ data <+: env.json.enc ind.toJSON

/-- The record of `g` holds its progress. -/
def MemReal (m : List (Sha1Hash × Record)) (g : Sha1Hash) : Prop := ∃ r p, mapGet m g = some r ∧ r.progressFile = some p

abbrev Idx (d : Path) (ind : IndexFile) : Prop := KnIdx d (fun _ => True) ind

def Td (env : Env) (d dl : Path) (g : Sha1Hash) : Assn := fun c fs =>
  ∃ ind, c = ⟨d, dl, some ind⟩ ∧ Idx d ind ∧ (MemReal ind.index g ∨ fs (progressPath d g) ≠ none → mapGet ind.index g ≠ none ∧ DiskHas env d g fs)

/-- In memory and on disk `g` is known. -/
def Tk (env : Env) (d dl : Path) (g : Sha1Hash) : Assn := fun c fs => ∃ ind, c = ⟨d, dl, some ind⟩ ∧ Idx d ind ∧ mapGet ind.index g ≠ none ∧ DiskHas env d g fs

theorem Tk.td {env : Env} {d dl : Path} {g : Sha1Hash} {c : Cat} {fs : FS} (h : Tk env d dl g c fs) : Td env d dl g c fs := by
  obtain ⟨ind, h1, h2, h3, h4⟩ := h
  exact ⟨ind, h1, h2, fun _ => ⟨h3, h4⟩⟩

theorem DiskHas.putOther {env : Env} {d : Path} {g : Sha1Hash} {fs : FS} (h : DiskHas env d g fs) (p : Path) (hp : p ≠ indexPath d) (x : Option Bytes) :
    DiskHas env d g (fs.put p x) := by
  obtain ⟨data, ind, h1, h2⟩ := h
  exact ⟨data, ind, by rw [FS.put_other _ _ _ _ (fun e => hp e.symm)]; exact h1, h2⟩

/-- Which of the two holds while the progress of the file `k` is written. -/
def At (env : Env) (d dl : Path) (g k : Sha1Hash) : Assn := if k = g then Tk env d dl g else Td env d dl g

theorem At.td {env : Env} {d dl : Path} {g k : Sha1Hash} {c : Cat} {fs : FS} (h : At env d dl g k c fs) : Td env d dl g c fs := by
  unfold At at h
  split at h
  · exact Tk.td h
  · exact h

section
variable {env : Env} {d dl : Path} {g : Sha1Hash}

theorem More.real {fs : FS} {m m' : List (Sha1Hash × Record)} (hm : More d fs m m') (ho : Own m) (h : MemReal m' g) : MemReal m g ∨ fs (progressPath d g) ≠ none := by
  obtain ⟨r, p, h1, h2⟩ := h
  rcases hm.2 g with e | ⟨r0, p0, e1, e2, e3, e4⟩
  · exact .inl ⟨r, p, by rw [← e]; exact h1, h2⟩
  · right
    rcases viewProgress_own e3 with h' | ⟨-, -, data, h', -⟩
    · rw [e2] at h'; cases h'
    · rw [ho g r0 e1] at h'
      rw [h']; simp

theorem td_of_ro {ind : IndexFile} {fs0 : FS} (hk : Idx d ind)
    (h0 : MemReal ind.index g ∨ fs0 (progressPath d g) ≠ none → mapGet ind.index g ≠ none ∧ DiskHas env d g fs0) {c : Cat} {fs : FS} (h : RO d dl ind fs0 c fs) :
    Td env d dl g c fs := by
  obtain ⟨rfl, m', rfl, hm⟩ := h
  refine ⟨_, rfl, hk.more hm, ?_⟩
  intro hr
  have : MemReal ind.index g ∨ fs (progressPath d g) ≠ none := by
    rcases hr with hr | hr
    · exact hm.real hk.wp.own hr
    · exact .inr hr
  obtain ⟨h1, h2⟩ := h0 this
  refine ⟨?_, h2⟩
  rcases hm.2 g with e | ⟨r0, p0, -, -, -, e⟩
  · show mapGet m' g ≠ none
    rw [e]; exact h1
  · show mapGet m' g ≠ none
    rw [e]; simp

theorem td_updateRecord (r : Record) (hr : ∀ p, r.progressFile = some p → p.filePath = progressPath d r.sha1Hash) :
    Triple (At env d dl g r.sha1Hash) (updateRecord r) (fun _ => At env d dl g r.sha1Hash) (Td env d dl g) := by
  unfold At
  by_cases hg : r.sha1Hash = g
  · rw [if_pos hg]
    refine Triple.bind (Triple.getIndex (fun _ _ h => h.td)) ?_
    intro ind
    apply Triple.setIndex
    rintro c fs ⟨⟨ind', rfl, h1, h2, h3⟩, hc⟩
    cases hc
    refine ⟨_, rfl, h1.put r hr trivial, ?_, h3⟩
    show mapGet (mapPut ind.index r.sha1Hash r) g ≠ none
    rw [mapGet_put, if_pos hg]
    simp
  · rw [if_neg hg]
    refine Triple.bind (Triple.getIndex (fun _ _ h => h)) ?_
    intro ind
    apply Triple.setIndex
    rintro c fs ⟨⟨ind', rfl, h1, h2⟩, hc⟩
    cases hc
    refine ⟨_, rfl, h1.put r hr trivial, ?_⟩
    have e : mapGet (mapPut ind.index r.sha1Hash r) g = mapGet ind.index g := by rw [mapGet_put, if_neg hg]
    unfold MemReal
    simp only [e]
    exact h2

theorem indexFromJSON_bare (l : List (GoString × RecordJSON)) (m m' : List (Sha1Hash × Record)) (hm : ∀ g, ¬ MemReal m g) (h : indexFromJSON l m = .ok m') :
    ∀ g, ¬ MemReal m' g := by
  induction l generalizing m with
  | nil => cases h; exact hm
  | cons e l ih =>
    obtain ⟨str, rec⟩ := e
    rw [indexFromJSON] at h
    split at h
    · obtain ⟨r, h1, h2⟩ := (Res.bind_ok_iff _ _ _).1 h
      refine ih _ ?_ h2
      rintro g ⟨r', p, h3, h4⟩
      rw [mapGet_put] at h3
      split at h3
      · cases h3
        unfold RecordJSON.fromJSON at h1
        split at h1
        · cases h1; cases h4
        · cases h1
      · exact hm g ⟨r', p, h3, h4⟩
    · cases h

theorem unmarshalIndex_bare (env : Env) (data : Bytes) (ind : IndexFile) (h : unmarshalIndex env data = .ok ind) (g : Sha1Hash) : ¬ MemReal ind.index g := by
  unfold unmarshalIndex at h
  split at h
  · cases h
  · obtain ⟨m, h1, h2⟩ := (Res.bind_ok_iff _ _ _).1 h
    cases h2
    exact indexFromJSON_bare _ _ _ (by rintro g ⟨r, p, h, -⟩; cases h) h1 g

theorem put_index (hd : AbsClean d) (fs : FS) (x : Option Bytes) : fs.put (indexPath d) x (progressPath d g) = fs (progressPath d g) :=
  FS.put_other _ _ _ _ (fun e => indexPath_ne_progressPath d d hd hd g e.symm)

variable (hd : AbsClean d)
include hd

theorem td_saveIndex : Triple (Td env d dl g) (saveIndex env) (fun _ => Td env d dl g) (Td env d dl g) := by
  refine Triple.bind (Triple.getIndex (fun _ _ h => h)) ?_
  intro ind
  have key : ∀ c fs (data : Bytes), Td env d dl g c fs ∧ c.indexFile = some ind → data <+: env.json.enc ind.toJSON → Td env d dl g c (fs.put (indexPath ind.dataDir) (some data)) := by
    rintro c fs data ⟨⟨ind', rfl, h1, h2⟩, hc⟩ hp
    cases hc
    refine ⟨ind, rfl, h1, ?_⟩
    rw [h1.dir, put_index hd]
    intro hr
    obtain ⟨h3, -⟩ := h2 hr
    exact ⟨h3, data, ind, FS.put_same _ _ _, h1.nodup, h3, hp⟩
  exact Triple.osWriteFile _ _ (fun c fs h => key c fs _ h (List.prefix_refl _)) (fun c fs h => h.1) (fun c fs k h => key c fs _ h (List.take_prefix _ _))

/-- When `g` is known in memory, saving the index makes it known on disk. -/
theorem tk_saveIndex : Triple (fun c fs => Td env d dl g c fs ∧ ∃ ind, c.indexFile = some ind ∧ mapGet ind.index g ≠ none) (saveIndex env) (fun _ => Tk env d dl g)
    (Td env d dl g) := by
  refine Triple.bind (Triple.getIndex (fun _ _ h => h.1)) ?_
  intro ind
  have key : ∀ c fs (data : Bytes), (Td env d dl g c fs ∧ ∃ ind, c.indexFile = some ind ∧ mapGet ind.index g ≠ none) ∧ c.indexFile = some ind →
      data <+: env.json.enc ind.toJSON → Tk env d dl g c (fs.put (indexPath ind.dataDir) (some data)) := by
    rintro c fs data ⟨⟨⟨ind', rfl, h1, h2⟩, ind2, hc2, h3⟩, hc⟩ hp
    cases hc
    cases hc2
    refine ⟨ind, rfl, h1, h3, ?_⟩
    rw [h1.dir]
    exact ⟨data, ind, FS.put_same _ _ _, h1.nodup, h3, hp⟩
  exact Triple.osWriteFile _ _ (fun c fs h => key c fs _ h (List.prefix_refl _)) (fun c fs h => h.1.1) (fun c fs k h => (key c fs _ h (List.take_prefix _ _)).td)

theorem td_addIndexRecord (r : Record) (hr : r.progressFile = none) :
    Triple (Td env d dl g) (addIndexRecord env r) (fun _ => At env d dl g r.sha1Hash) (Td env d dl g) := by
  unfold At
  refine Triple.bind (Triple.getIndex (fun _ _ h => h)) ?_
  intro ind
  split
  · exact Triple.lift _ (fun a e => by cases e) (fun c fs h => h.1)
  · rename_i hnone
    by_cases hg : r.sha1Hash = g
    · rw [if_pos hg]
      refine Triple.bind (Q := fun _ c fs => Td env d dl g c fs ∧ ∃ ind, c.indexFile = some ind ∧ mapGet ind.index g ≠ none) ?_ (fun _ => tk_saveIndex hd)
      apply Triple.setIndex
      rintro c fs ⟨⟨ind', rfl, h1, h2⟩, hc⟩
      cases hc
      have hget : mapGet (mapPut ind.index r.sha1Hash r) g = some r := by rw [mapGet_put, if_pos hg]
      refine ⟨⟨_, rfl, h1.put r (fun p hp => by rw [hr] at hp; cases hp) trivial, ?_⟩, _, rfl, by show mapGet (mapPut ind.index r.sha1Hash r) g ≠ none; rw [hget]; simp⟩
      rintro (⟨r', p, h3, h4⟩ | h3)
      · have h3 : mapGet (mapPut ind.index r.sha1Hash r) g = some r' := h3
        rw [hget] at h3; cases h3
        rw [hr] at h4; cases h4
      · exact absurd (hg ▸ hnone) (h2 (.inr h3)).1
    · rw [if_neg hg]
      refine Triple.bind (Q := fun _ => Td env d dl g) ?_ (fun _ => td_saveIndex hd)
      apply Triple.setIndex
      rintro c fs ⟨⟨ind', rfl, h1, h2⟩, hc⟩
      cases hc
      refine ⟨_, rfl, h1.put r (fun p hp => by rw [hr] at hp; cases hp) trivial, ?_⟩
      have e : mapGet (mapPut ind.index r.sha1Hash r) g = mapGet ind.index g := by rw [mapGet_put, if_neg hg]
      unfold MemReal
      simp only [e]
      exact h2

theorem at_put (k : Sha1Hash) (c : Cat) (fs : FS) (x : Option Bytes) (h : At env d dl g k c fs) : At env d dl g k c (fs.put (progressPath d k) x) := by
  have hne : progressPath d k ≠ indexPath d := fun e => indexPath_ne_progressPath d d hd hd k e.symm
  unfold At at h ⊢
  split at h
  · rename_i hg
    rw [if_pos hg]
    obtain ⟨ind, rfl, h1, h2, h3⟩ := h
    exact ⟨ind, rfl, h1, h2, h3.putOther _ hne x⟩
  · rename_i hg
    rw [if_neg hg]
    obtain ⟨ind, rfl, h1, h2⟩ := h
    refine ⟨ind, rfl, h1, ?_⟩
    rw [FS.put_other _ _ _ _ (fun e => hg (progressPath_inj d hd _ _ e).symm)]
    intro hr
    exact ⟨(h2 hr).1, (h2 hr).2.putOther _ hne x⟩

theorem at_file (k : Sha1Hash) (p : Path) (hp : ¬ CatFile d p) (c : Cat) (fs : FS) (x : Option Bytes) (h : At env d dl g k c fs) : At env d dl g k c (fs.put p x) := by
  have hne : p ≠ indexPath d := fun e => hp (.inl e)
  unfold At at h ⊢
  split at h
  · rename_i hg
    rw [if_pos hg]
    obtain ⟨ind, rfl, h1, h2, h3⟩ := h
    exact ⟨ind, rfl, h1, h2, h3.putOther _ hne x⟩
  · rename_i hg
    rw [if_neg hg]
    obtain ⟨ind, rfl, h1, h2⟩ := h
    refine ⟨ind, rfl, h1, ?_⟩
    rw [FS.put_other _ _ _ _ (fun e => hp (.inr ⟨g, e.symm⟩))]
    intro hr
    exact ⟨(h2 hr).1, (h2 hr).2.putOther _ hne x⟩

theorem td_saveProgress (p : ProgressFile) (k : Sha1Hash) (hp : p.filePath = progressPath d k) :
    Triple (At env d dl g k) p.save (fun _ => At env d dl g k) (Td env d dl g) := by
  unfold ProgressFile.save
  rw [hp]
  exact Triple.osWriteFile _ _ (fun c fs h => at_put hd k c fs _ h) (fun c fs h => h.td) (fun c fs _ h => (at_put hd k c fs _ h).td)

omit hd in
theorem td_newProgress (r : Record) (cat : Cat) :
    Triple (fun c fs => At env d dl g r.sha1Hash c fs ∧ cat = c) (IOM.lift (newProgressFile r cat.dataDir))
      (fun p c fs => At env d dl g r.sha1Hash c fs ∧ p.filePath = progressPath d r.sha1Hash) (Td env d dl g) := by
  refine Triple.lift _ ?_ (fun c fs h => h.1.td)
  rintro p hp c fs ⟨hI, rfl⟩
  refine ⟨hI, ?_⟩
  obtain ⟨ind, rfl, -⟩ := hI.td
  exact newProgressFile_path _ _ p hp

theorem td_shareFile (path : GoString) : Triple (Td env d dl g) (shareFile env path) (fun _ => Td env d dl g) (Td env d dl g) := by
  refine Triple.bind (Q := fun r c fs => Td env d dl g c fs ∧ r.progressFile = none) ?_ ?_
  · refine Triple.bind (Triple.osStat _ (fun _ _ h => h)) ?_
    intro x
    cases x with
    | none => exact Triple.lift _ (fun a e => by cases e) (fun c fs h => h.1)
    | some n =>
      refine Triple.bind (Triple.osHashFile _ _ (fun _ _ h => h.1)) ?_
      intro hash
      exact Triple.pure _ (fun c fs h => ⟨h.1.1, rfl⟩)
  · intro r
    apply Triple.facts
    intro hrn
    refine Triple.bind (td_addIndexRecord hd r hrn) ?_
    intro _
    refine Triple.bind Triple.getCat ?_
    intro cat
    refine Triple.bind (td_newProgress r cat) ?_
    intro p
    apply Triple.facts
    intro hp
    refine Triple.bind (td_updateRecord { r with progressFile := some p } (fun q hq => by cases hq; exact hp)) ?_
    intro _
    refine Triple.bind (Q := fun _ => At env d dl g r.sha1Hash) (Triple.lift _ (fun _ _ c fs h => h) (fun c fs h => h.td)) ?_
    intro b
    refine Triple.bind (td_updateRecord { r with progressFile := some { p with progress := b } } (fun q hq => by cases hq; exact hp)) ?_
    intro _
    refine Triple.bind (td_saveProgress hd _ r.sha1Hash hp) ?_
    intro _
    exact Triple.pure _ (fun c fs h => At.td h)

theorem td_registerDownload (size : UInt64) (cs : UInt32) (h : Sha1Hash) (name : GoString) :
    Triple (Td env d dl g) (registerDownload env size cs h name) (fun _ => Td env d dl g) (Td env d dl g) := by
  refine Triple.bind Triple.getCat ?_
  intro cat
  refine Triple.pre (P := Td env d dl g) ?_ (fun _ _ h => h.1)
  refine Triple.bind (td_addIndexRecord hd _ rfl) ?_
  intro _
  refine Triple.bind Triple.getCat ?_
  intro cat'
  refine Triple.bind (td_newProgress _ cat') ?_
  intro p
  apply Triple.facts
  intro hp
  refine Triple.bind (td_updateRecord
    { filePath := joinPath [cat.downloadsDir, name], sizeInBytes := asInt64 size, sha1Hash := h, progressFile := some p, chunkSize := cs.toNat }
    (fun q hq => by cases hq; exact hp)) ?_
  intro _
  refine Triple.bind (Q := fun _ => Td env d dl g) (Triple.ignoreErr ((td_saveProgress hd p h hp).post (fun _ _ _ h => h.td)) (fun _ _ h => h)) ?_
  intro _
  exact Triple.lift _ (fun _ _ c fs h => h) (fun c fs h => h)

theorem td_unshareFile {ind : IndexFile} {fs : FS} (hk : Idx d ind)
    (h0 : MemReal ind.index g ∨ fs (progressPath d g) ≠ none → mapGet ind.index g ≠ none ∧ DiskHas env d g fs) (h : Sha1Hash) :
    Triple (RO d dl ind fs) (unshareFile env h) (fun _ => Td env d dl g) (Td env d dl g) := by
  have weak : ∀ c' fs', RO d dl ind fs c' fs' → Td env d dl g c' fs' := fun c' fs' h => td_of_ro hk h0 h
  refine Triple.bind ((ro_getIndexRecord hk.wp.own h).conseq (fun _ _ h => h) (fun _ _ _ h => h) weak) ?_
  intro r
  apply Triple.facts
  rintro ⟨r0, p0, h1, h2, rfl⟩
  have hp0 := view_path hk.wp h1 h2
  have hkey := hk.wp.own _ _ h1
  have hne : progressPath d h ≠ indexPath d := fun e => indexPath_ne_progressPath d d hd hd h e.symm
  have key : ∀ c fs', Td env d dl g c fs' → Td env d dl g c (fs'.put p0.filePath none) ∧ (h = g → fs'.put p0.filePath none (progressPath d g) = none) := by
    rintro c fs' ⟨ind', rfl, g1, g2⟩
    rw [hp0]
    by_cases hg : h = g
    · subst hg
      refine ⟨⟨ind', rfl, g1, ?_⟩, fun _ => FS.put_same _ _ _⟩
      rw [FS.put_same]
      intro hr
      have hr' : MemReal ind'.index h ∨ fs' (progressPath d h) ≠ none := .inl (hr.resolve_right (fun e => e rfl))
      exact ⟨(g2 hr').1, (g2 hr').2.putOther _ hne _⟩
    · refine ⟨⟨ind', rfl, g1, ?_⟩, fun e => absurd e hg⟩
      rw [FS.put_other _ _ _ _ (fun e => hg (progressPath_inj d hd _ _ e).symm)]
      intro hr
      exact ⟨(g2 hr).1, (g2 hr).2.putOther _ hne _⟩
  simp only []
  refine Triple.bind (Q := fun _ c fs => Td env d dl g c fs ∧ (h = g → fs (progressPath d g) = none)) ?_ ?_
  · exact Triple.osRemove _ (fun c fs _ hI _ => key c fs (weak _ _ hI)) (fun _ _ h => weak _ _ h) (fun c fs hI => (key c fs (weak _ _ hI)).1)
  · intro _
    refine Triple.bind (Triple.getIndex (fun _ _ h => h.1)) ?_
    intro ind'
    refine Triple.bind (Q := fun _ => Td env d dl g) ?_ (fun _ => td_saveIndex hd)
    apply Triple.setIndex
    rintro c fs ⟨⟨⟨ind2, rfl, g1, g2⟩, g3⟩, hc⟩
    cases hc
    refine ⟨_, rfl, g1.del _, ?_⟩
    have e : mapGet (mapDel ind'.index r0.sha1Hash) g = if h = g then none else mapGet ind'.index g := by rw [mapGet_del, hkey]
    unfold MemReal
    simp only [e]
    by_cases hg : h = g
    · rw [g3 hg]
      simp only [if_pos hg]
      rintro (⟨_, _, h', _⟩ | h')
      · cases h'
      · exact absurd rfl h'
    · simp only [if_neg hg]
      exact g2

theorem td_saveChunk {ind : IndexFile} {fs : FS} (hk : Idx d ind)
    (h0 : MemReal ind.index g ∨ fs (progressPath d g) ≠ none → mapGet ind.index g ≠ none ∧ DiskHas env d g fs) (h : Sha1Hash) (n : UInt16) (data : Bytes)
    (hs : ∀ r, mapGet ind.index h = some r → ¬ CatFile d r.filePath) :
    Triple (RO d dl ind fs) (saveChunk h n data) (fun _ => Td env d dl g) (Td env d dl g) := by
  have weak : ∀ c' fs', RO d dl ind fs c' fs' → Td env d dl g c' fs' := fun c' fs' h => td_of_ro hk h0 h
  refine Triple.bind ((Triple.orPanic (ro_getIndexRecord hk.wp.own h)).conseq (fun _ _ h => h) (fun _ _ _ h => h) weak) ?_
  intro r
  apply Triple.facts
  rintro ⟨r0, p0, h1, h2, rfl⟩
  have hkey := (hk.wp _ _ h1).1
  have hp0 := view_path hk.wp h1 h2
  have hcat := hs _ h1
  have weak' : ∀ c' fs', RO d dl ind fs c' fs' → At env d dl g h c' fs' := by
    intro c' fs' hro
    unfold At
    split
    · rename_i hg
      subst hg
      have hreal : MemReal ind.index h ∨ fs (progressPath d h) ≠ none := by
        rcases viewProgress_own h2 with e | ⟨-, -, dat, e, -⟩
        · exact .inl ⟨r0, p0, h1, e⟩
        · right; rw [hkey] at e; rw [e]; simp
      obtain ⟨rfl, m', rfl, hm⟩ := hro
      refine ⟨_, rfl, hk.more hm, ?_, (h0 hreal).2⟩
      show mapGet m' h ≠ none
      rcases hm.2 h with e | ⟨_, _, -, -, -, e⟩
      · rw [e, h1]; simp
      · rw [e]; simp
    · exact weak _ _ hro
  simp only []
  refine Triple.bind (Q := fun _ => At env d dl g h) ?_ ?_
  · refine Triple.bind (Q := fun _ => At env d dl g h) ?_ ?_
    · exact Triple.osOpenCreate _ (fun c fs hr => at_file hd h _ hcat c fs _ (weak' _ _ hr)) (fun _ _ h => weak _ _ h) (fun c fs hr => (at_file hd h _ hcat c fs _ (weak' _ _ hr)).td)
    · intro _
      exact Triple.osWriteAt _ _ _ (fun c fs hr _ => at_file hd h _ hcat c fs _ hr) (fun _ _ h => h.td) (fun c fs k hr => (at_file hd h _ hcat c fs _ hr).td)
  · intro _
    refine Triple.bind (Q := fun _ => At env d dl g h) (Triple.lift _ (fun _ _ c fs h => h) (fun c fs h => h.td)) ?_
    intro b
    refine Triple.bind (Q := fun _ => At env d dl g h) ?_ ?_
    · subst hkey
      exact td_updateRecord { r0 with progressFile := some { p0 with progress := b } } (fun q hq => by cases hq; exact hp0)
    · intro _
      exact (td_saveProgress hd { p0 with progress := b } h hp0).post (fun _ _ _ h => h.td)

/-- Every call. -/
theorem td_op (o : Op) {c : Cat} {fs : FS} (hsafe : o.Safe d c) (hp : Td env d dl g c fs)
    (fl : List Fault) (r : Res Unit) (s' : St) (hrun : o.run env ⟨c, fs, fl⟩ = (r, s')) : Td env d dl g s'.cat s'.fs := by
  obtain ⟨ind, rfl, hk, h0⟩ := hp
  have start : Td env d dl g ⟨d, dl, some ind⟩ fs := ⟨ind, rfl, hk, h0⟩
  have always : ∀ {P : Assn} {x : CM Unit} {E : Assn}, Triple P x (fun _ => E) E → P ⟨d, dl, some ind⟩ fs → x ⟨⟨d, dl, some ind⟩, fs, fl⟩ = (r, s') → E s'.cat s'.fs := by
    intro P x E ht hP hx
    cases r with
    | ok a => exact (ht _ hP).1 a s' hx
    | err e => exact (ht _ hP).2 _ s' hx (fun a e => by cases e)
    | panic => exact (ht _ hP).2 _ s' hx (fun a e => by cases e)
    | exit => exact (ht _ hP).2 _ s' hx (fun a e => by cases e)
    | crash => exact (ht _ hP).2 _ s' hx (fun a e => by cases e)
  by_cases hro : o.readOnly = true
  · exact td_of_ro hk h0 (always (ro_op (d := d) (dl := dl) (ind := ind) (fs0 := fs) env hk.wp.own o hro) (RO.init _ _ _ _) hrun)
  cases o with
  | share p => exact always (Triple.void (td_shareFile hd p)) start hrun
  | register s cs h n => exact always (Triple.void (td_registerDownload hd s cs h n)) start hrun
  | unshare h => exact always (td_unshareFile (env := env) (dl := dl) hd hk h0 h) (RO.init _ _ _ _) hrun
  | save h n data =>
    refine always (td_saveChunk (env := env) (dl := dl) hd hk h0 h n data ?_) (RO.init _ _ _ _) hrun
    intro r hr
    exact hsafe _ (by simp [Cat.pathOf, hr])
  | list o => exact absurd rfl hro
  | rehash h => exact absurd rfl hro
  | contains h => exact absurd rfl hro
  | get h => exact absurd rfl hro
  | complete h => exact absurd rfl hro
  | missing h => exact absurd rfl hro
  | reader h n ch => exact absurd rfl hro

/-- Start-up. -/
theorem td_init :
    Triple (fun c fs => c.dataDir = d ∧ (fs (progressPath d g) ≠ none → DiskHas env d g fs)) (Cat.init env)
      (fun _ c fs => ∃ ind, c.indexFile = some ind ∧ (MemReal ind.index g ∨ fs (progressPath d g) ≠ none → mapGet ind.index g ≠ none ∧ DiskHas env d g fs))
      (fun _ fs => fs (progressPath d g) ≠ none → DiskHas env d g fs) := by
  refine Triple.bind Triple.getCat ?_
  intro cat
  refine Triple.pre (P := fun c fs => (c.dataDir = d ∧ (fs (progressPath d g) ≠ none → DiskHas env d g fs)) ∧ cat.dataDir = d) ?_
    (fun c fs h => ⟨h.1, by rw [h.2]; exact h.1.1⟩)
  apply Triple.facts
  intro hcat
  rw [hcat]
  refine Triple.bind (Q := fun _ _ fs => fs (progressPath d g) ≠ none → DiskHas env d g fs) (Triple.setIndex _ (fun _ _ h => h.2)) ?_
  intro _
  refine Triple.bind (Triple.osTouch (fun _ _ h => h)) ?_
  intro _
  refine Triple.bind (Triple.osTouch (fun _ _ h => h)) ?_
  intro _
  refine Triple.bind (Triple.osStat _ (fun _ _ h => h)) ?_
  intro x
  have tail : Triple (fun _ fs => fs (progressPath d g) ≠ none → DiskHas env d g fs) (do
      let data ← osReadFile (indexPath d)
      let ind ← IOM.lift (unmarshalIndex env data)
      setIndex ind)
      (fun _ c fs => ∃ ind, c.indexFile = some ind ∧ (MemReal ind.index g ∨ fs (progressPath d g) ≠ none → mapGet ind.index g ≠ none ∧ DiskHas env d g fs))
      (fun _ fs => fs (progressPath d g) ≠ none → DiskHas env d g fs) := by
    refine Triple.bind (Triple.osReadFile _ (fun _ _ h => h)) ?_
    intro data
    refine Triple.bind (Q := fun ind _ fs => (fs (progressPath d g) ≠ none → DiskHas env d g fs) ∧
        (MemReal ind.index g ∨ fs (progressPath d g) ≠ none → mapGet ind.index g ≠ none ∧ DiskHas env d g fs)) ?_ ?_
    · refine Triple.lift _ ?_ (fun c fs h => h.1)
      rintro ind hu c fs ⟨h, hf⟩
      refine ⟨h, ?_⟩
      have hnr : ¬ MemReal ind.index g := unmarshalIndex_bare env data ind hu g
      intro hr
      have hr' := hr.resolve_left hnr
      obtain ⟨data', ind0, h1, h2, h3, h4⟩ := h hr'
      rw [hf] at h1; cases h1
      refine ⟨?_, data, ind0, hf, h2, h3, h4⟩
      have hwhole : data = env.json.enc ind0.toJSON := by
        apply Classical.byContradiction
        intro hne
        have := env.json.dec_prefix _ _ h4 hne
        unfold unmarshalIndex at hu
        rw [this] at hu; cases hu
      rw [hwhole] at hu
      obtain ⟨m, hm, hn, hg⟩ := unmarshal_marshal env ind0 h2
      rw [hm] at hu; cases hu
      show mapGet m g ≠ none
      rw [hg]
      intro e
      exact h3 (Option.map_eq_none_iff.1 e)
    · intro ind
      exact Triple.setIndex _ (fun _ _ h => ⟨_, rfl, h.2⟩)
  cases x with
  | some n => exact tail.pre (fun _ _ h => h.1)
  | none =>
    refine Triple.bind (Q := fun _ c fs => fs (progressPath d g) = none ∧ c.indexFile = some ⟨env.pid, env.now, [], d⟩) (Triple.setIndex _ ?_) ?_
    · rintro c fs ⟨h, hx⟩
      refine ⟨?_, rfl⟩
      apply Classical.byContradiction
      intro hne
      obtain ⟨data, ind, h1, -⟩ := h hne
      rw [h1] at hx; cases hx
    intro _
    refine Triple.bind (Q := fun _ _ fs => fs (progressPath d g) ≠ none → DiskHas env d g fs) ?_ (fun _ => tail)
    refine Triple.bind (Triple.getIndex (fun _ _ h e => absurd h.1 e)) ?_
    intro ind
    have key : ∀ (c : Cat) (fs : FS) (y : Bytes), (fs (progressPath d g) = none ∧ c.indexFile = some ⟨env.pid, env.now, [], d⟩) ∧ c.indexFile = some ind →
        fs.put (indexPath ind.dataDir) (some y) (progressPath d g) ≠ none → DiskHas env d g (fs.put (indexPath ind.dataDir) (some y)) := by
      rintro c fs y ⟨⟨h1, h2⟩, h3⟩ hy
      rw [h2] at h3
      cases h3
      rw [put_index hd] at hy
      exact absurd h1 hy
    exact Triple.osWriteFile _ _ (fun c fs h => key c fs _ h) (fun _ _ h e => absurd h.1.1 e) (fun c fs k h => key c fs _ h)

end

/-- Running and stopped. -/
def TdSys (env : Env) (d dl : Path) (g : Sha1Hash) : Sys → Prop
  | .running c fs => Td env d dl g c fs
  | .stopped fs => fs (progressPath d g) ≠ none → DiskHas env d g fs

theorem Td.stopped {env : Env} {d dl : Path} {g : Sha1Hash} {c : Cat} {fs : FS} (h : Td env d dl g c fs) : fs (progressPath d g) ≠ none → DiskHas env d g fs := by
  obtain ⟨ind, rfl, -, h⟩ := h
  exact fun hne => (h (.inr hne)).2

/-- At all times, whatever fails. -/
theorem Reach.td {env : Env} {d dl : Path} (hd : AbsClean d) (hfix : env.json.fix d = d) {s : Sys} (h : Reach env d dl s) (g : Sha1Hash) : TdSys env d dl g s := by
  obtain ⟨fs0, h0, hs⟩ := h
  have : Reach env d dl s ∧ TdSys env d dl g s := by
    induction hs with
    | refl => exact ⟨⟨fs0, h0, Steps.refl _⟩, fun hne => absurd (h0 _ (.inr ⟨g, rfl⟩)) hne⟩
    | step hs h' ih =>
      obtain ⟨-, hp⟩ := ih
      have hreach : Reach env d dl _ := ⟨fs0, h0, Steps.step hs h'⟩
      refine ⟨hreach, ?_⟩
      cases h' with
      | call o fl c fs hsafe =>
        rcases hr : o.run env ⟨c, fs, fl⟩ with ⟨r, s'⟩
        have := td_op hd o hsafe hp fl r s' hr
        cases r with
        | ok a => exact this
        | err e => exact this
        | panic => exact this.stopped
        | exit => exact this.stopped
        | crash => exact this.stopped
      | kill c fs => exact Td.stopped hp
      | start pid now fl fs =>
        rcases hr : Cat.init { env with pid := pid, now := now } ⟨⟨d, dl, none⟩, fs, fl⟩ with ⟨r, s'⟩
        obtain ⟨h1, h2⟩ := td_init (env := { env with pid := pid, now := now }) (g := g) hd ⟨⟨d, dl, none⟩, fs, fl⟩ ⟨rfl, hp⟩
        rw [hr] at hreach
        cases r with
        | ok a =>
          obtain ⟨ind, hi, h3⟩ := h1 a s' hr
          obtain ⟨ind', hc, hw⟩ := (Reach.inv hd hfix hreach).split
          rw [hc] at hi
          cases hi
          exact ⟨ind, hc, ⟨hw.dir, hw.wp, hw.nodup, fun _ _ _ => trivial⟩, h3⟩
        | err e => exact h2 _ s' hr (by intro _ h; cases h)
        | panic => exact h2 _ s' hr (by intro _ h; cases h)
        | exit => exact h2 _ s' hr (by intro _ h; cases h)
        | crash => exact h2 _ s' hr (by intro _ h; cases h)
      | userRunning c fs p content hn =>
        obtain ⟨ind, rfl, h1, h2⟩ := hp
        refine ⟨ind, rfl, h1, ?_⟩
        rw [FS.put_other _ _ _ _ (fun e => hn (.inr ⟨g, e.symm⟩))]
        intro hr
        exact ⟨(h2 hr).1, (h2 hr).2.putOther _ (fun e => hn (.inl e)) _⟩
      | userStopped fs p content hn =>
        intro hr
        rw [FS.put_other _ _ _ _ (fun e => hn (.inr ⟨g, e.symm⟩))] at hr
        exact DiskHas.putOther (hp hr) _ (fun e => hn (.inl e)) _
  exact this.2

/-- A file that is not in the catalogue has no progress file. -/
theorem unknown_no_progress {env : Env} {d dl : Path} {c : Cat} {fs : FS} (hd : AbsClean d) (hfix : env.json.fix d = d) (hreach : Reach env d dl (.running c fs)) {h : Sha1Hash}
    (hnew : observe c fs h = .err .fileNotFound) : fs (progressPath d h) = none := by
  obtain ⟨ind, rfl, -, ht⟩ := hreach.td hd hfix h
  rw [observe_eq] at hnew
  exact Classical.byContradiction (fun hne => (ht (.inr hne)).1 (obsRec_notFound.1 hnew))

end Flu
