import Verif.Props.Catalogue2
/-!
# A record without its progress file stays that way

If the index names a hash whose progress file is missing or cannot be decoded, no operation can repair it: loading the record fails, and sharing or registering the hash
again is refused because the index already has it.
-/
namespace Flu

/-- A progress file that is missing, or whose content is not that of a bitset. -/
def Unloadable (o : Option Bytes) : Prop := ∀ x, o = some x → ∀ b, Bitset.deserialize x ≠ .ok b

theorem Unloadable.missing {o : Option Bytes} (h : o = none) : Unloadable o := by
  intro x hx; rw [h] at hx; cases hx

/-- On disk: the index names `h`, and there is no progress file that can be read. -/
structure StuckDisk (env : Env) (d : Path) (h : Sha1Hash) (fs : FS) : Prop where
  file : Unloadable (fs (progressPath d h))
  index : ∃ data ind0, fs (indexPath d) = some data ∧ WFIdx d ind0 ∧ data <+: env.json.enc ind0.toJSON ∧ mapGet ind0.index h ≠ none

/-- In a running daemon: the same, and the index in memory has the record too, without progress. -/
structure Stuck (env : Env) (d dl : Path) (h : Sha1Hash) (c : Cat) (fs : FS) : Prop where
  inv : Inv env d dl c fs
  disk : StuckDisk env d h fs
  mem : ∀ ind, c.indexFile = some ind → ∃ r, mapGet ind.index h = some r ∧ r.progressFile = none

section
variable {env : Env} {d dl : Path} {g : Sha1Hash} (hd : AbsClean d)

theorem StuckDisk.putOther {fs : FS} (w : StuckDisk env d g fs) (p : Path) (hp : ¬ CatFile d p) (o : Option Bytes) : StuckDisk env d g (fs.put p o) := by
  obtain ⟨data, ind0, h1, h2⟩ := w.index
  exact ⟨by rw [FS.put_other _ _ _ _ (fun e => hp (.inr ⟨_, e.symm⟩))]; exact w.file,
    data, ind0, by rw [FS.put_other _ _ _ _ (fun e => hp (.inl e.symm))]; exact h1, h2⟩

include hd

theorem StuckDisk.putProgress {fs : FS} (w : StuckDisk env d g fs) (k : Sha1Hash) (hk : k ≠ g) (o : Option Bytes) : StuckDisk env d g (fs.put (progressPath d k) o) := by
  obtain ⟨data, ind0, h1, h2⟩ := w.index
  refine ⟨?_, data, ind0, ?_, h2⟩
  · rw [FS.put_other _ _ _ _ (fun e => hk (progressPath_inj d hd _ _ e).symm)]; exact w.file
  · rw [FS.put_other _ _ _ _ (indexPath_ne_progressPath d d hd hd k)]; exact h1

theorem StuckDisk.putIndex {fs : FS} (w : StuckDisk env d g fs) (ind : IndexFile) (hi : WFIdx d ind) (data : Bytes)
    (hp : data <+: env.json.enc ind.toJSON) (hm : mapGet ind.index g ≠ none) : StuckDisk env d g (fs.put (indexPath d) (some data)) := by
  refine ⟨?_, data, ind, FS.put_same _ _ _, hi, hp, hm⟩
  rw [FS.put_other _ _ _ _ (fun e => indexPath_ne_progressPath d d hd hd g e.symm)]; exact w.file

theorem s_updateRecord (r : Record) (hr : RecOK d r) (hne : r.sha1Hash ≠ g) :
    Triple (Stuck env d dl g) (updateRecord r) (fun _ => Stuck env d dl g) (Stuck env d dl g) := by
  refine Triple.bind (Triple.getIndex (fun _ _ h => h)) ?_
  intro ind
  apply Triple.setIndex
  rintro c fs ⟨hS, hc⟩
  obtain ⟨ind', hi, hw⟩ := hS.inv.mem
  rw [hc] at hi; cases hi
  refine ⟨⟨hS.inv.dataDir, hS.inv.downloadsDir, ⟨_, rfl, hw.put r hr⟩, hS.inv.disk⟩, hS.disk, ?_⟩
  intro ind' hi
  cases hi
  obtain ⟨r0, h1, h2⟩ := hS.mem ind hc
  exact ⟨r0, by rw [mapGet_put, if_neg hne]; exact h1, h2⟩

theorem s_saveIndex : Triple (Stuck env d dl g) (saveIndex env) (fun _ => Stuck env d dl g) (Stuck env d dl g) := by
  refine Triple.bind (Triple.getIndex (fun _ _ h => h)) ?_
  intro ind
  have key : ∀ c fs (data : Bytes), Stuck env d dl g c fs ∧ c.indexFile = some ind → data <+: env.json.enc ind.toJSON →
      Stuck env d dl g c (fs.put (indexPath ind.dataDir) (some data)) := by
    rintro c fs data ⟨hS, hc⟩ hp
    obtain ⟨ind', hi, hw⟩ := hS.inv.mem
    rw [hc] at hi; cases hi
    rw [hw.dir]
    refine ⟨⟨hS.inv.dataDir, hS.inv.downloadsDir, ⟨ind, hc, hw⟩, hS.inv.disk.putIndex hd ind hw data hp⟩, hS.disk.putIndex hd ind hw data hp ?_, hS.mem⟩
    obtain ⟨r0, h1, -⟩ := hS.mem ind hc
    rw [h1]; simp
  exact Triple.osWriteFile _ _ (fun c fs h => key c fs _ h (List.prefix_refl _)) (fun c fs h => h.1)
    (fun c fs k h => key c fs _ h (List.take_prefix _ _))

theorem s_saveProgress (p : ProgressFile) (k : Sha1Hash) (hk : k ≠ g) (hp : p.filePath = progressPath d k) (hb : Loaded p.progress) :
    Triple (Stuck env d dl g) p.save (fun _ => Stuck env d dl g) (Stuck env d dl g) := by
  unfold ProgressFile.save
  rw [hp]
  have key : ∀ c fs (data : Bytes), Stuck env d dl g c fs → data <+: p.progress.serialize →
      Stuck env d dl g c (fs.put (progressPath d k) (some data)) := by
    intro c fs data hS hpre
    refine ⟨⟨hS.inv.dataDir, hS.inv.downloadsDir, hS.inv.mem, hS.inv.disk.putProgress hd k _ ?_⟩, hS.disk.putProgress hd k hk _, hS.mem⟩
    intro x hx; cases hx; exact ⟨_, hb, hpre⟩
  exact Triple.osWriteFile _ _ (fun c fs h => key c fs _ h (List.prefix_refl _)) (fun c fs h => h)
    (fun c fs k h => key c fs _ h (List.take_prefix _ _))

theorem s_fillRecord (r : Record) (hr : RecOK d r) (hn : r.sha1Hash = g → r.progressFile = none) : Triple (Stuck env d dl g) (fillRecord r)
    (fun r' c fs => Stuck env d dl g c fs ∧ RecOK d r' ∧ r'.sha1Hash = r.sha1Hash ∧ r'.filePath = r.filePath ∧ r.sha1Hash ≠ g) (Stuck env d dl g) := by
  unfold fillRecord
  split
  · rename_i p hp
    exact Triple.pure _ (fun c fs h => ⟨h, hr, rfl, rfl, fun e => by rw [hn e] at hp; cases hp⟩)
  · refine Triple.bind Triple.getCat ?_
    intro cat
    refine Triple.bind (Q := fun p c fs => Stuck env d dl g c fs ∧ (p.filePath = progressPath d r.sha1Hash ∧ Loaded p.progress ∧ r.sha1Hash ≠ g)) ?_ ?_
    · refine Triple.bind (Triple.osReadFile _ (fun _ _ h => h.1)) ?_
      intro data
      refine Triple.bind (Q := fun b c fs => (Stuck env d dl g c fs ∧ cat = c) ∧ Loaded b ∧ r.sha1Hash ≠ g) ?_ ?_
      · refine Triple.lift _ ?_ (fun c fs h => h.1.1)
        rintro b hb c fs ⟨⟨hS, rfl⟩, hf⟩
        refine ⟨⟨hS, rfl⟩, ?_⟩
        rw [hS.inv.dataDir] at hf
        obtain ⟨b0, hb0, hpre⟩ := hS.inv.disk.progress _ _ hf
        refine ⟨hb0.torn data hpre hb, ?_⟩
        intro e
        rw [e] at hf; exact hS.disk.file _ hf _ hb
      · intro b
        refine Triple.pure _ ?_
        rintro c fs ⟨⟨hS, rfl⟩, hb, hne⟩
        exact ⟨hS, by rw [hS.inv.dataDir], hb, hne⟩
    · intro p
      apply Triple.facts
      rintro ⟨hp, hb, hne⟩
      have hr' : RecOK d { r with progressFile := some p } := by
        exact ⟨hr.1, hr.2, fun q hq => by cases hq; exact ⟨hp, hb⟩⟩
      refine Triple.bind (s_updateRecord hd _ hr' hne) ?_
      intro _
      exact Triple.pure _ (fun c fs h => ⟨h, hr', rfl, rfl, hne⟩)

theorem s_getIndexRecord (φ : Path → Prop) (k : Sha1Hash) :
    Triple (fun c fs => Stuck env d dl g c fs ∧ ∀ p, c.pathOf k = some p → φ p) (getIndexRecord k)
      (fun r c fs => Stuck env d dl g c fs ∧ (RecOK d r ∧ r.sha1Hash = k ∧ φ r.filePath ∧ k ≠ g)) (Stuck env d dl g) := by
  refine Triple.bind (Triple.getIndex (fun _ _ h => h.1)) ?_
  intro ind
  split
  · rename_i r hr
    refine Triple.pre (P := fun c fs => Stuck env d dl g c fs ∧ (RecOK d r ∧ r.sha1Hash = k ∧ φ r.filePath ∧ (r.sha1Hash = g → r.progressFile = none))) ?_ ?_
    · apply Triple.facts
      rintro ⟨h1, h2, h3, h4⟩
      refine Triple.post (s_fillRecord hd r h1 h4) ?_
      rintro r' c fs ⟨hI, h1', h2', h3', h5'⟩
      exact ⟨hI, h1', h2'.trans h2, h3' ▸ h3, h2 ▸ h5'⟩
    · rintro c fs ⟨⟨hS, hφ⟩, hc⟩
      obtain ⟨ind', hi, hw⟩ := hS.inv.mem
      rw [hc] at hi; cases hi
      have hm := mapGet_mem _ _ _ hr
      refine ⟨hS, hw.recs k r hm, hw.own k r hm, hφ _ ?_, ?_⟩
      · unfold Cat.pathOf
        rw [hc, Option.bind_some, hr]; rfl
      · intro e
        rw [hw.own k r hm] at e
        obtain ⟨r0, h1, h2⟩ := hS.mem ind hc
        rw [e, h1] at hr; cases hr
        exact h2
  · exact Triple.lift _ (fun a e => by cases e) (fun c fs h => h.1.1)

theorem s_getIndexRecord' (k : Sha1Hash) :
    Triple (Stuck env d dl g) (getIndexRecord k) (fun r c fs => Stuck env d dl g c fs ∧ (RecOK d r ∧ r.sha1Hash = k ∧ k ≠ g)) (Stuck env d dl g) :=
  (s_getIndexRecord hd (fun _ => True) k).conseq (fun _ _ h => ⟨h, fun _ _ => trivial⟩) (fun _ _ _ h => ⟨h.1, h.2.1, h.2.2.1, h.2.2.2.2⟩) (fun _ _ h => h)

theorem s_addIndexRecord (r : Record) (hr : RecOK d r) :
    Triple (Stuck env d dl g) (addIndexRecord env r) (fun _ c fs => Stuck env d dl g c fs ∧ r.sha1Hash ≠ g) (Stuck env d dl g) := by
  refine Triple.bind (Triple.getIndex (fun _ _ h => h)) ?_
  intro ind
  split
  · exact Triple.lift _ (fun a e => by cases e) (fun c fs h => h.1)
  · rename_i hnone
    refine Triple.pre (P := fun c fs => (Stuck env d dl g c fs ∧ c.indexFile = some ind) ∧ r.sha1Hash ≠ g) ?_ ?_
    · apply Triple.facts
      intro hne
      refine Triple.bind (Q := fun _ => Stuck env d dl g) ?_ (fun _ => (s_saveIndex hd).post (fun _ _ _ h => ⟨h, hne⟩))
      apply Triple.setIndex
      rintro c fs ⟨hS, hc⟩
      obtain ⟨ind', hi, hw⟩ := hS.inv.mem
      rw [hc] at hi; cases hi
      refine ⟨⟨hS.inv.dataDir, hS.inv.downloadsDir, ⟨_, rfl, hw.put r hr⟩, hS.inv.disk⟩, hS.disk, ?_⟩
      intro ind' hi
      cases hi
      obtain ⟨r0, h1, h2⟩ := hS.mem ind hc
      exact ⟨r0, by rw [mapGet_put, if_neg hne]; exact h1, h2⟩
    · rintro c fs ⟨hS, hc⟩
      refine ⟨⟨hS, hc⟩, ?_⟩
      intro e
      obtain ⟨r0, h1, -⟩ := hS.mem ind hc
      rw [e, h1] at hnone; cases hnone

theorem s_removeIndexRecord (r : Record) (hne : r.sha1Hash ≠ g) :
    Triple (Stuck env d dl g) (removeIndexRecord env r) (fun _ => Stuck env d dl g) (Stuck env d dl g) := by
  refine Triple.bind (Triple.getIndex (fun _ _ h => h)) ?_
  intro ind
  refine Triple.bind (Q := fun _ => Stuck env d dl g) ?_ (fun _ => s_saveIndex hd)
  apply Triple.setIndex
  rintro c fs ⟨hS, hc⟩
  obtain ⟨ind', hi, hw⟩ := hS.inv.mem
  rw [hc] at hi; cases hi
  refine ⟨⟨hS.inv.dataDir, hS.inv.downloadsDir, ⟨_, rfl, hw.del _⟩, hS.inv.disk⟩, hS.disk, ?_⟩
  intro ind' hi
  cases hi
  obtain ⟨r0, h1, h2⟩ := hS.mem ind hc
  exact ⟨r0, by rw [mapGet_del, if_neg hne]; exact h1, h2⟩

theorem s_shareFile (path : GoString) : Triple (Stuck env d dl g) (shareFile env path) (fun _ => Stuck env d dl g) (Stuck env d dl g) := by
  refine Triple.bind (Q := fun r c fs => Stuck env d dl g c fs ∧ (r.progressFile = none ∧ r.sizeInBytes < 2 ^ 63 ∧ r.chunkSize = defaultChunkSize)) ?_ ?_
  · refine Triple.bind (Triple.osStat _ (fun _ _ h => h)) ?_
    intro o
    cases o with
    | none => exact Triple.lift _ (fun a e => by cases e) (fun c fs h => h.1)
    | some n =>
      refine Triple.bind (Triple.osHashFile _ _ (fun _ _ h => h.1)) ?_
      intro hash
      exact Triple.pure _ (fun c fs h => ⟨h.1.1, rfl, asInt64_lt _, rfl⟩)
  · intro r
    apply Triple.facts
    rintro ⟨h1, h2, h3⟩
    have hr0 : RecOK d r := ⟨by rw [h3]; decide, by rw [h3]; decide, fun p hp => by rw [h1] at hp; cases hp⟩
    refine Triple.bind (s_addIndexRecord hd r hr0) ?_
    intro _
    apply Triple.facts
    intro hne
    refine Triple.bind Triple.getCat ?_
    intro cat
    refine Triple.bind (Q := fun p c fs => Stuck env d dl g c fs ∧ (p.filePath = progressPath d r.sha1Hash ∧ p.progress.Wf)) ?_ ?_
    · refine Triple.lift _ ?_ (fun c fs h => h.1)
      rintro p hp c fs ⟨hI, rfl⟩
      rw [hI.inv.dataDir] at hp
      obtain ⟨a, b, _, _⟩ := newProgressFile_ok r h2 (by rw [h3]; decide) p hp
      exact ⟨hI, a, b⟩
    · intro p
      apply Triple.facts
      rintro ⟨hp, hw⟩
      refine Triple.bind (s_updateRecord hd _ ⟨hr0.1, hr0.2, fun q hq => by cases hq; exact ⟨hp, hw.loaded⟩⟩ hne) ?_
      intro _
      refine Triple.bind (Q := fun b c fs => Stuck env d dl g c fs ∧ b.Wf) ?_ ?_
      · refine Triple.lift _ ?_ (fun c fs h => h)
        intro b hb c fs hI
        obtain ⟨dd, e, w, _⟩ := Bitset.fill_eq p.progress hw
        rw [e] at hb; cases hb
        exact ⟨hI, w⟩
      · intro b
        apply Triple.facts
        intro hb
        refine Triple.bind (s_updateRecord hd _ ⟨hr0.1, hr0.2, fun q hq => by cases hq; exact ⟨hp, hb.loaded⟩⟩ hne) ?_
        intro _
        refine Triple.bind (s_saveProgress hd _ r.sha1Hash hne hp hb.loaded) ?_
        intro _
        exact Triple.pure _ (fun c fs h => h)

theorem s_unshareFile (h : Sha1Hash) : Triple (Stuck env d dl g) (unshareFile env h) (fun _ => Stuck env d dl g) (Stuck env d dl g) := by
  refine Triple.bind (s_getIndexRecord' hd h) ?_
  intro r
  apply Triple.facts
  rintro ⟨h1, h2, hne⟩
  replace hne : r.sha1Hash ≠ g := by rw [h2]; exact hne
  split
  · exact Triple.lift _ (fun a e => by cases e) (fun c fs h => h)
  · rename_i p hp
    refine Triple.bind (Q := fun _ => Stuck env d dl g) ?_ (fun _ => s_removeIndexRecord hd r hne)
    have key : ∀ c fs, Stuck env d dl g c fs → Stuck env d dl g c (fs.put p.filePath none) := by
      intro c fs hI
      rw [(h1.file p hp).1]
      exact ⟨⟨hI.inv.dataDir, hI.inv.downloadsDir, hI.inv.mem, hI.inv.disk.putProgress hd _ _ (fun x hx => by cases hx)⟩, hI.disk.putProgress hd _ hne _, hI.mem⟩
    exact Triple.osRemove _ (fun c fs _ hI _ => key c fs hI) (fun _ _ h => h) key

theorem s_registerDownload (size : UInt64) (cs : UInt32) (h : Sha1Hash) (name : GoString) :
    Triple (Stuck env d dl g) (registerDownload env size cs h name) (fun _ => Stuck env d dl g) (Stuck env d dl g) := by
  refine Triple.bind Triple.getCat ?_
  intro cat
  refine Triple.bind ((s_addIndexRecord hd _ ⟨by show (0 : Int) ≤ (cs.toNat : Int); omega, by show (cs.toNat : Int) < 2 ^ 32; have := cs.toNat_lt; omega, fun p hp => by cases hp⟩).pre (fun _ _ h => h.1)) ?_
  intro _
  apply Triple.facts
  intro hne
  refine Triple.bind Triple.getCat ?_
  intro cat'
  refine Triple.bind (Q := fun p c fs => Stuck env d dl g c fs ∧ (p.filePath = progressPath d h ∧ p.progress.Wf)) ?_ ?_
  · refine Triple.lift _ ?_ (fun c fs h => h.1)
    rintro p hp c fs ⟨hI, rfl⟩
    rw [hI.inv.dataDir] at hp
    obtain ⟨a, b, _, _⟩ := newProgressFile_ok _ (asInt64_lt size) (by show (0 : Int) ≤ (cs.toNat : Int); omega) p hp
    exact ⟨hI, a, b⟩
  · intro p
    apply Triple.facts
    rintro ⟨hp, hw⟩
    refine Triple.bind (s_updateRecord hd _ ⟨by show (0 : Int) ≤ (cs.toNat : Int); omega, by show (cs.toNat : Int) < 2 ^ 32; have := cs.toNat_lt; omega, fun q hq => by cases hq; exact ⟨hp, hw.loaded⟩⟩ hne) ?_
    intro _
    refine Triple.bind (Q := fun _ => Stuck env d dl g) (Triple.ignoreErr (s_saveProgress hd p h hne hp hw.loaded) (fun _ _ h => h)) ?_
    intro _
    exact Triple.lift _ (fun _ _ c fs h => h) (fun c fs h => h)

theorem s_listLoop (order : List Sha1Hash) : Triple (Stuck env d dl g) (listLoop order) (fun _ => Stuck env d dl g) (Stuck env d dl g) := by
  induction order with
  | nil => exact Triple.pure _ (fun _ _ h => h)
  | cons h rest ih =>
    refine Triple.bind (Triple.getIndex (fun _ _ h => h)) ?_
    intro ind
    split
    · exact ih.pre (fun _ _ h => h.1)
    · rename_i r hr
      refine Triple.pre (P := fun c fs => Stuck env d dl g c fs ∧ (RecOK d r ∧ (r.sha1Hash = g → r.progressFile = none))) ?_ ?_
      · apply Triple.facts
        rintro ⟨hr', hn⟩
        refine Triple.bind (Q := fun _ => Stuck env d dl g) ((s_fillRecord hd r hr' hn).post (fun _ _ _ h => h.1)) ?_
        intro r'
        refine Triple.bind (Q := fun _ => Stuck env d dl g) (Triple.lift _ (fun _ _ c fs h => h) (fun c fs h => h)) ?_
        intro e
        exact Triple.bind ih (fun _ => Triple.pure _ (fun _ _ h => h))
      · rintro c fs ⟨hI, hc⟩
        obtain ⟨ind', hi, hw⟩ := hI.inv.mem
        rw [hc] at hi; cases hi
        have hm := mapGet_mem _ _ _ hr
        refine ⟨hI, hw.recs h r hm, ?_⟩
        intro e
        rw [hw.own h r hm] at e
        obtain ⟨r0, h1, h2⟩ := hI.mem ind hc
        rw [e, h1] at hr; cases hr
        exact h2

theorem s_saveChunk (h : Sha1Hash) (n : UInt16) (data : Bytes) :
    Triple (fun c fs => Stuck env d dl g c fs ∧ ∀ p, c.pathOf h = some p → ¬ CatFile d p) (saveChunk h n data) (fun _ => Stuck env d dl g) (Stuck env d dl g) := by
  refine Triple.bind (Triple.orPanic (s_getIndexRecord hd (fun p => ¬ CatFile d p) h)) ?_
  intro r
  apply Triple.facts
  rintro ⟨h1, h2, h3, hne⟩
  replace hne : r.sha1Hash ≠ g := by rw [h2]; exact hne
  have key : ∀ c fs o, Stuck env d dl g c fs → Stuck env d dl g c (fs.put r.filePath o) := by
    intro c fs o hI
    exact ⟨⟨hI.inv.dataDir, hI.inv.downloadsDir, hI.inv.mem, hI.inv.disk.putOther _ h3 o⟩, hI.disk.putOther _ h3 o, hI.mem⟩
  refine Triple.bind (Q := fun _ => Stuck env d dl g) ?_ ?_
  · refine Triple.bind (Q := fun _ => Stuck env d dl g) ?_ ?_
    · exact Triple.osOpenCreate _ (fun c fs h => key c fs _ h) (fun _ _ h => h) (fun c fs h => key c fs _ h)
    · intro _
      exact Triple.osWriteAt _ _ _ (fun c fs h _ => key c fs _ h) (fun _ _ h => h) (fun c fs k h => key c fs _ h)
  · intro _
    split
    · exact Triple.lift _ (fun a e => by cases e) (fun c fs h => h)
    · rename_i p hp
      refine Triple.bind (Q := fun b c fs => Stuck env d dl g c fs ∧ Loaded b) ?_ ?_
      · refine Triple.lift _ ?_ (fun c fs h => h)
        intro b hb c fs hI
        refine ⟨hI, (h1.file p hp).2.set _ ?_ hb⟩
        have := n.toNat_lt
        simp only [BitVec.toNat_ofNat]; omega
      · intro b
        apply Triple.facts
        intro hb
        refine Triple.bind (s_updateRecord hd _ ⟨h1.1, h1.2, fun q hq => by cases hq; exact ⟨(h1.file p hp).1, hb⟩⟩ hne) ?_
        intro _
        exact s_saveProgress hd _ r.sha1Hash hne (h1.file p hp).1 hb

/-- Every call preserves the invariant, whatever it meets. -/
theorem s_op (o : Op) : Triple (fun c fs => Stuck env d dl g c fs ∧ o.Safe d c) (o.run env) (fun _ => Stuck env d dl g) (Stuck env d dl g) := by
  cases o with
  | share p => exact Triple.void ((s_shareFile hd p).pre (fun _ _ h => h.1))
  | unshare h => exact (s_unshareFile hd h).pre (fun _ _ h => h.1)
  | register s cs h n => exact Triple.void ((s_registerDownload hd s cs h n).pre (fun _ _ h => h.1))
  | list o => exact Triple.void (Triple.bind (Triple.getIndex (fun _ _ h => h.1)) (fun _ => (s_listLoop hd o).pre (fun _ _ h => h.1.1)))
  | rehash h =>
    exact Triple.void (Triple.bind ((s_getIndexRecord' hd h).pre (fun _ _ h => h.1))
      (fun _ => (Triple.osHashFile env _ (fun _ _ h => h.1)).post (fun _ _ _ h => h.1.1)))
  | contains h =>
    exact Triple.void (Triple.bind ((s_getIndexRecord' hd h).pre (fun _ _ h => h.1)) (fun _ => Triple.lift _ (fun _ _ c fs h => h.1) (fun _ _ h => h.1)))
  | get h =>
    exact Triple.void (Triple.orPanic (Triple.bind ((s_getIndexRecord' hd h).pre (fun _ _ h => h.1))
      (fun _ => Triple.lift _ (fun _ _ c fs h => h.1) (fun _ _ h => h.1))))
  | complete h =>
    refine Triple.void (Triple.bind (Triple.orPanic ((s_getIndexRecord' hd h).pre (fun _ _ h => h.1))) ?_)
    intro r; split
    · exact Triple.lift _ (fun _ _ c fs h => h.1) (fun _ _ h => h.1)
    · exact Triple.lift _ (fun _ _ c fs h => h.1) (fun _ _ h => h.1)
  | missing h =>
    refine Triple.void (Triple.bind (Triple.orPanic ((s_getIndexRecord' hd h).pre (fun _ _ h => h.1))) ?_)
    intro r; split
    · exact Triple.lift _ (fun _ _ c fs h => h.1) (fun _ _ h => h.1)
    · exact Triple.lift _ (fun _ _ c fs h => h.1) (fun _ _ h => h.1)
  | save h n data => exact s_saveChunk hd h n data
  | reader h n ch =>
    refine Triple.void (Triple.bind ((s_getIndexRecord' hd h).pre (fun _ _ h => h.1)) ?_)
    intro r
    apply Triple.facts
    intro _
    split
    · exact Triple.lift _ (fun _ _ c fs h => h) (fun _ _ h => h)
    · refine Triple.bind (Q := fun _ => Stuck env d dl g) (Triple.lift _ (fun _ _ c fs h => h) (fun _ _ h => h)) ?_
      intro b; split
      · exact Triple.lift _ (fun _ _ c fs h => h) (fun _ _ h => h)
      · refine Triple.bind (Triple.osTouch (fun _ _ h => h)) ?_
        intro _
        refine Triple.bind Triple.getFS ?_
        intro fs; split
        · exact Triple.lift _ (fun _ _ c fs h => h.1) (fun _ _ h => h.1)
        · exact Triple.pure _ (fun _ _ h => h.1)


/-- Starting the daemon does not help. -/
theorem s_init (hfix : env.json.fix d = d) :
    Triple (fun c fs => c.dataDir = d ∧ c.downloadsDir = dl ∧ DiskOK env d fs ∧ StuckDisk env d g fs) (Cat.init env) (fun _ => Stuck env d dl g)
      (fun _ fs => DiskOK env d fs ∧ StuckDisk env d g fs) := by
  have base : ∀ (c : Cat) (fs : FS), (c.dataDir = d ∧ c.downloadsDir = dl ∧ DiskOK env d fs ∧ StuckDisk env d g fs) → DiskOK env d fs ∧ StuckDisk env d g fs :=
    fun _ _ h => h.2.2
  refine Triple.bind Triple.getCat ?_
  intro cat
  refine Triple.bind (Q := fun _ c fs => (c.dataDir = d ∧ c.downloadsDir = dl ∧ DiskOK env d fs ∧ StuckDisk env d g fs) ∧ cat.dataDir = d) (Triple.setIndex _ ?_) ?_
  · rintro c fs ⟨⟨h1, h2, h3⟩, rfl⟩; exact ⟨⟨h1, h2, h3⟩, h1⟩
  intro _
  apply Triple.facts
  intro hcd
  rw [hcd]
  refine Triple.bind (Triple.osTouch base) ?_
  intro _
  refine Triple.bind (Triple.osTouch base) ?_
  intro _
  refine Triple.bind (Triple.osStat _ base) ?_
  intro o
  have tail : Triple (fun c fs => c.dataDir = d ∧ c.downloadsDir = dl ∧ DiskOK env d fs ∧ StuckDisk env d g fs) (do
      let data ← osReadFile (indexPath d)
      let ind ← IOM.lift (unmarshalIndex env data)
      setIndex ind) (fun _ => Stuck env d dl g) (fun _ fs => DiskOK env d fs ∧ StuckDisk env d g fs) := by
    refine Triple.bind (Triple.osReadFile _ base) ?_
    intro data
    refine Triple.bind (Q := fun ind c fs => (c.dataDir = d ∧ c.downloadsDir = dl ∧ DiskOK env d fs ∧ StuckDisk env d g fs) ∧
      (WFIdx d ind ∧ ∃ r, mapGet ind.index g = some r ∧ r.progressFile = none)) ?_ ?_
    · refine Triple.lift _ ?_ (fun c fs h => h.1.2.2)
      rintro ind hu c fs ⟨h, hf⟩
      refine ⟨h, ?_⟩
      obtain ⟨data', ind0, hf', hw, hp, hm0⟩ := h.2.2.2.index
      rw [hf] at hf'; cases hf'
      have hwhole : data = env.json.enc ind0.toJSON := by
        apply Classical.byContradiction
        intro hne
        have := env.json.dec_prefix _ _ hp hne
        unfold unmarshalIndex at hu
        rw [this] at hu; cases hu
      rw [hwhole] at hu
      obtain ⟨m, hm, hn, hg⟩ := unmarshal_marshal env ind0 hw.nodup
      rw [hm] at hu; cases hu
      have hk : ∀ k r, (k, r) ∈ m → r.sha1Hash = k ∧ r.progressFile = none ∧ 0 ≤ r.chunkSize ∧ r.chunkSize < 2 ^ 32 := by
        intro k r hkr
        have := mapGet_of_mem m k r hn hkr
        rw [hg] at this
        obtain ⟨r0, h0, rfl⟩ := Option.map_eq_some_iff.1 this
        have := hw.recs k r0 (mapGet_mem _ _ _ h0)
        exact ⟨hw.own k r0 (mapGet_mem _ _ _ h0), rfl, this.1, this.2⟩
      refine ⟨⟨?_, hn, fun k r h => (hk k r h).1, ?_⟩, ?_⟩
      · show env.json.fix ind0.dataDir = d; rw [hw.dir, hfix]
      · intro k r hkr
        exact ⟨(hk k r hkr).2.2.1, (hk k r hkr).2.2.2, fun p hp => by rw [(hk k r hkr).2.1] at hp; cases hp⟩
      · rcases hx : mapGet ind0.index g with _ | r0
        · exact absurd hx hm0
        · exact ⟨r0.reloaded env.json.fix, by rw [hg, hx]; rfl, rfl⟩
    · intro ind
      apply Triple.facts
      rintro ⟨hw, hm⟩
      apply Triple.setIndex
      rintro c fs ⟨h1, h2, h3, h4⟩
      exact ⟨⟨h1, h2, ⟨ind, rfl, hw⟩, h3⟩, h4, fun ind' hi => by cases hi; exact hm⟩
  cases o with
  | some _ => exact tail.pre (fun _ _ h => h.1)
  | none =>
    intro s hs
    exfalso
    obtain ⟨⟨-, -, -, hs1⟩, hs2⟩ := hs
    obtain ⟨data, _, hx, -⟩ := hs1.index
    rw [hx] at hs2
    cases hs2

end

/-- The daemon, running or not, with a record it cannot load. -/
def StuckSys (env : Env) (d dl : Path) (g : Sha1Hash) : Sys → Prop
  | .running c fs => Stuck env d dl g c fs
  | .stopped fs => DiskOK env d fs ∧ StuckDisk env d g fs

theorem StuckSys.step {env : Env} {d dl : Path} {g : Sha1Hash} (hd : AbsClean d) (hfix : env.json.fix d = d) {s t : Sys} (h : StuckSys env d dl g s)
    (hs : Step env d dl s t) : StuckSys env d dl g t := by
  cases hs with
  | call o fl c fs hsafe =>
    obtain ⟨h1, h2⟩ := s_op hd o ⟨c, fs, fl⟩ ⟨h, hsafe⟩
    rcases hr : o.run env ⟨c, fs, fl⟩ with ⟨r, s'⟩
    cases r with
    | ok a => exact h1 a s' hr
    | err e => exact h2 _ s' hr (by intro a; simp)
    | panic => have := h2 _ s' hr (by intro a; simp); exact ⟨this.inv.disk, this.disk⟩
    | exit => have := h2 _ s' hr (by intro a; simp); exact ⟨this.inv.disk, this.disk⟩
    | crash => have := h2 _ s' hr (by intro a; simp); exact ⟨this.inv.disk, this.disk⟩
  | kill c fs => exact ⟨h.inv.disk, h.disk⟩
  | start pid now fl fs =>
    have h' : DiskOK { env with pid := pid, now := now } d fs := ⟨h.1.index, h.1.progress⟩
    have h'' : StuckDisk { env with pid := pid, now := now } d g fs := ⟨h.2.file, h.2.index⟩
    obtain ⟨h1, h2⟩ := s_init (env := { env with pid := pid, now := now }) (dl := dl) hd hfix ⟨⟨d, dl, none⟩, fs, fl⟩ ⟨rfl, rfl, h', h''⟩
    rcases hr : Cat.init { env with pid := pid, now := now } ⟨⟨d, dl, none⟩, fs, fl⟩ with ⟨r, s'⟩
    have back : ∀ fs, DiskOK { env with pid := pid, now := now } d fs → DiskOK env d fs := fun _ h => ⟨h.index, h.progress⟩
    have back' : ∀ fs, StuckDisk { env with pid := pid, now := now } d g fs → StuckDisk env d g fs := fun _ h => ⟨h.file, h.index⟩
    have stop : ∀ fs, DiskOK { env with pid := pid, now := now } d fs ∧ StuckDisk { env with pid := pid, now := now } d g fs → DiskOK env d fs ∧ StuckDisk env d g fs :=
      fun _ h => ⟨back _ h.1, back' _ h.2⟩
    cases r with
    | ok a =>
      have := h1 a s' hr
      exact ⟨⟨this.inv.dataDir, this.inv.downloadsDir, this.inv.mem, back _ this.inv.disk⟩, back' _ this.disk, this.mem⟩
    | err e => exact stop _ (h2 _ s' hr (by intro a; simp))
    | panic => exact stop _ (h2 _ s' hr (by intro a; simp))
    | exit => exact stop _ (h2 _ s' hr (by intro a; simp))
    | crash => exact stop _ (h2 _ s' hr (by intro a; simp))
  | userRunning c fs p content hp =>
    exact ⟨⟨h.inv.dataDir, h.inv.downloadsDir, h.inv.mem, h.inv.disk.putOther p hp content⟩, h.disk.putOther p hp content, h.mem⟩
  | userStopped fs p content hp => exact ⟨DiskOK.putOther h.1 p hp content, h.2.putOther p hp content⟩

theorem StuckSys.steps {env : Env} {d dl : Path} {g : Sha1Hash} (hd : AbsClean d) (hfix : env.json.fix d = d) {s t : Sys} (hs : Steps env d dl s t)
    (h : StuckSys env d dl g s) : StuckSys env d dl g t := by
  induction hs with
  | refl => exact h
  | step _ h' ih => exact ih.step hd hfix h'

/-- Listing fails as soon as the loop meets the record. -/
theorem s_listLoop_fails {env : Env} {d dl : Path} {g : Sha1Hash} (hd : AbsClean d) (order : List Sha1Hash) (ho : g ∈ order) :
    Triple (Stuck env d dl g) (listLoop order) (fun _ _ _ => False) (Stuck env d dl g) := by
  induction order with
  | nil => cases ho
  | cons h rest ih =>
    refine Triple.bind (Triple.getIndex (fun _ _ h => h)) ?_
    intro ind
    split
    · rename_i hnone
      refine Triple.pre (P := fun c fs => Stuck env d dl g c fs ∧ g ∈ rest) (Triple.facts ih) ?_
      rintro c fs ⟨hS, hc⟩
      refine ⟨hS, (List.mem_cons.1 ho).resolve_left ?_⟩
      rintro rfl
      obtain ⟨r0, h1, -⟩ := hS.mem ind hc
      rw [h1] at hnone; cases hnone
    · rename_i r hr
      refine Triple.pre (P := fun c fs => Stuck env d dl g c fs ∧ (RecOK d r ∧ (r.sha1Hash = g → r.progressFile = none) ∧ r.sha1Hash = h)) ?_ ?_
      · apply Triple.facts
        rintro ⟨hr', hn, hk⟩
        refine Triple.bind (Q := fun _ c fs => Stuck env d dl g c fs ∧ r.sha1Hash ≠ g) ((s_fillRecord hd r hr' hn).post (fun _ _ _ h => ⟨h.1, h.2.2.2.2⟩)) ?_
        intro r'
        apply Triple.facts
        intro hne
        refine Triple.bind (Q := fun _ => Stuck env d dl g) (Triple.lift _ (fun _ _ c fs h => h) (fun c fs h => h)) ?_
        intro e
        refine Triple.bind (ih ((List.mem_cons.1 ho).resolve_left ?_)) (fun _ => Triple.pure _ (fun _ _ h => h))
        rw [← hk]; exact Ne.symm hne
      · rintro c fs ⟨hI, hc⟩
        obtain ⟨ind', hi, hw⟩ := hI.inv.mem
        rw [hc] at hi; cases hi
        have hm := mapGet_mem _ _ _ hr
        refine ⟨hI, hw.recs h r hm, ?_, hw.own h r hm⟩
        intro e
        rw [hw.own h r hm] at e
        obtain ⟨r0, h1, h2⟩ := hI.mem ind hc
        rw [e, h1] at hr; cases hr
        exact h2

end Flu
