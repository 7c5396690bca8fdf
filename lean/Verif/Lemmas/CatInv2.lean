import Verif.Lemmas.CatInv
/-!
# The invariant is preserved by every step
-/
namespace Flu

theorem Triple.facts {α : Type} {P : Assn} {φ : Prop} {x : CM α} {Q : α → Assn} {E : Assn} (h : φ → Triple P x Q E) :
    Triple (fun c fs => P c fs ∧ φ) x Q E := fun s hs => h hs.2 s hs.1

section
variable {env : Env} {d dl : Path} (hd : AbsClean d)
include hd

theorem t_updateRecord (r : Record) (hr : RecOK d r) : Triple (Inv env d dl) (updateRecord r) (fun _ => Inv env d dl) (Inv env d dl) := by
  refine Triple.bind (Triple.getIndex (fun _ _ h => h)) ?_
  intro ind
  apply Triple.setIndex
  rintro c fs ⟨hI, hc⟩
  obtain ⟨ind', hi, hw⟩ := hI.mem
  rw [hc] at hi; cases hi
  exact ⟨hI.dataDir, hI.downloadsDir, ⟨_, rfl, hw.put r hr⟩, hI.disk⟩

theorem t_saveIndex : Triple (Inv env d dl) (saveIndex env) (fun _ => Inv env d dl) (Inv env d dl) := by
  refine Triple.bind (Triple.getIndex (fun _ _ h => h)) ?_
  intro ind
  have key : ∀ c fs (data : Bytes), Inv env d dl c fs ∧ c.indexFile = some ind → data <+: env.json.enc ind.toJSON →
      Inv env d dl c (fs.put (indexPath ind.dataDir) (some data)) := by
    rintro c fs data ⟨hI, hc⟩ hp
    obtain ⟨ind', hi, hw⟩ := hI.mem
    rw [hc] at hi; cases hi
    refine ⟨hI.dataDir, hI.downloadsDir, ⟨ind, hc, hw⟩, ?_⟩
    rw [hw.dir]
    exact hI.disk.putIndex hd ind hw data hp
  exact Triple.osWriteFile _ _ (fun c fs h => key c fs _ h (List.prefix_refl _)) (fun c fs h => h.1)
    (fun c fs k h => key c fs _ h (List.take_prefix _ _))

theorem t_saveProgress (p : ProgressFile) (h : Sha1Hash) (hp : p.filePath = progressPath d h) (hb : Loaded p.progress) :
    Triple (Inv env d dl) p.save (fun _ => Inv env d dl) (Inv env d dl) := by
  unfold ProgressFile.save
  rw [hp]
  have key : ∀ c fs (data : Bytes), Inv env d dl c fs → data <+: p.progress.serialize →
      Inv env d dl c (fs.put (progressPath d h) (some data)) := by
    intro c fs data hI hpre
    refine ⟨hI.dataDir, hI.downloadsDir, hI.mem, hI.disk.putProgress hd h _ ?_⟩
    intro x hx; cases hx; exact ⟨_, hb, hpre⟩
  exact Triple.osWriteFile _ _ (fun c fs h => key c fs _ h (List.prefix_refl _)) (fun c fs h => h)
    (fun c fs k h => key c fs _ h (List.take_prefix _ _))

theorem t_fillRecord (r : Record) (hr : RecOK d r) : Triple (Inv env d dl) (fillRecord r)
    (fun r' c fs => Inv env d dl c fs ∧ RecOK d r' ∧ r'.sha1Hash = r.sha1Hash ∧ r'.filePath = r.filePath ∧ r'.chunkSize = r.chunkSize) (Inv env d dl) := by
  unfold fillRecord
  split
  · exact Triple.pure _ (fun c fs h => ⟨h, hr, rfl, rfl, rfl⟩)
  · refine Triple.bind Triple.getCat ?_
    intro cat
    refine Triple.bind (Q := fun p c fs => Inv env d dl c fs ∧ (p.filePath = progressPath d r.sha1Hash ∧ Loaded p.progress)) ?_ ?_
    · refine Triple.bind (Triple.osReadFile _ (fun _ _ h => h.1)) ?_
      intro data
      refine Triple.bind (Q := fun b c fs => (Inv env d dl c fs ∧ cat = c) ∧ Loaded b) ?_ ?_
      · refine Triple.lift _ ?_ (fun c fs h => h.1.1)
        rintro b hb c fs ⟨⟨hI, rfl⟩, hf⟩
        refine ⟨⟨hI, rfl⟩, ?_⟩
        rw [hI.dataDir] at hf
        obtain ⟨b0, hb0, hpre⟩ := hI.disk.progress _ _ hf
        exact hb0.torn data hpre hb
      · intro b
        refine Triple.pure _ ?_
        rintro c fs ⟨⟨hI, rfl⟩, hb⟩
        exact ⟨hI, by rw [hI.dataDir], hb⟩
    · intro p
      apply Triple.facts
      rintro ⟨hp, hb⟩
      have hr' : RecOK d { r with progressFile := some p } := by
        exact ⟨hr.1, hr.2, fun q hq => by cases hq; exact ⟨hp, hb⟩⟩
      refine Triple.bind (t_updateRecord hd _ hr') ?_
      intro _
      exact Triple.pure _ (fun c fs h => ⟨h, hr', rfl, rfl, rfl⟩)

theorem t_getIndexRecord (φ : Path → Prop) (h : Sha1Hash) :
    Triple (fun c fs => Inv env d dl c fs ∧ ∀ p, c.pathOf h = some p → φ p) (getIndexRecord h)
      (fun r c fs => Inv env d dl c fs ∧ (RecOK d r ∧ r.sha1Hash = h ∧ φ r.filePath)) (Inv env d dl) := by
  refine Triple.bind (Triple.getIndex (fun _ _ h => h.1)) ?_
  intro ind
  split
  · rename_i r hr
    refine Triple.pre (P := fun c fs => Inv env d dl c fs ∧ (RecOK d r ∧ r.sha1Hash = h ∧ φ r.filePath)) ?_ ?_
    · apply Triple.facts
      rintro ⟨h1, h2, h3⟩
      refine Triple.post (t_fillRecord hd r h1) ?_
      rintro r' c fs ⟨hI, h1', h2', h3', _⟩
      exact ⟨hI, h1', h2'.trans h2, h3' ▸ h3⟩
    · rintro c fs ⟨⟨hI, hφ⟩, hc⟩
      obtain ⟨ind', hi, hw⟩ := hI.mem
      rw [hc] at hi; cases hi
      have hm := mapGet_mem _ _ _ hr
      refine ⟨hI, hw.recs h r hm, hw.own h r hm, hφ _ ?_⟩
      unfold Cat.pathOf
      rw [hc, Option.bind_some, hr]; rfl
  · exact Triple.lift _ (fun a e => by cases e) (fun c fs h => h.1.1)

theorem t_getIndexRecord' (h : Sha1Hash) :
    Triple (Inv env d dl) (getIndexRecord h) (fun r c fs => Inv env d dl c fs ∧ (RecOK d r ∧ r.sha1Hash = h)) (Inv env d dl) :=
  (t_getIndexRecord hd (fun _ => True) h).conseq (fun _ _ h => ⟨h, fun _ _ => trivial⟩) (fun _ _ _ h => ⟨h.1, h.2.1, h.2.2.1⟩) (fun _ _ h => h)

theorem t_addIndexRecord (r : Record) (hr : RecOK d r) : Triple (Inv env d dl) (addIndexRecord env r) (fun _ => Inv env d dl) (Inv env d dl) := by
  refine Triple.bind (Triple.getIndex (fun _ _ h => h)) ?_
  intro ind
  split
  · exact Triple.lift _ (fun a e => by cases e) (fun c fs h => h.1)
  · refine Triple.bind (Q := fun _ => Inv env d dl) ?_ (fun _ => t_saveIndex hd)
    apply Triple.setIndex
    rintro c fs ⟨hI, hc⟩
    obtain ⟨ind', hi, hw⟩ := hI.mem
    rw [hc] at hi; cases hi
    exact ⟨hI.dataDir, hI.downloadsDir, ⟨_, rfl, hw.put r hr⟩, hI.disk⟩

theorem t_removeIndexRecord (r : Record) : Triple (Inv env d dl) (removeIndexRecord env r) (fun _ => Inv env d dl) (Inv env d dl) := by
  refine Triple.bind (Triple.getIndex (fun _ _ h => h)) ?_
  intro ind
  refine Triple.bind (Q := fun _ => Inv env d dl) ?_ (fun _ => t_saveIndex hd)
  apply Triple.setIndex
  rintro c fs ⟨hI, hc⟩
  obtain ⟨ind', hi, hw⟩ := hI.mem
  rw [hc] at hi; cases hi
  exact ⟨hI.dataDir, hI.downloadsDir, ⟨_, rfl, hw.del _⟩, hI.disk⟩

omit hd in
theorem newProgressFile_ok (r : Record) (hs : r.sizeInBytes < 2 ^ 63) (hc : 0 ≤ r.chunkSize) (p : ProgressFile) (e : newProgressFile r d = .ok p) :
    p.filePath = progressPath d r.sha1Hash ∧ p.progress.Wf ∧ chunkCountOf r.sizeInBytes r.chunkSize = .ok p.progress.size ∧ ∀ i, p.progress.has i = false := by
  unfold newProgressFile at e
  cases h1 : chunkCountOf r.sizeInBytes r.chunkSize with
  | ok n =>
    rw [h1, Res.bind_ok] at e
    cases h2 : Bitset.newBitset n with
    | ok b =>
      rw [h2, Res.bind_ok] at e
      cases e
      obtain ⟨w, _, hsz, hh⟩ := newBitset_ok n (chunkCountOf_lt _ _ hs hc n h1) b h2
      exact ⟨rfl, w, by rw [hsz], hh⟩
    | err e' => rw [h2] at e; cases e
    | panic => rw [h2] at e; cases e
    | exit => rw [h2] at e; cases e
    | crash => rw [h2] at e; cases e
  | err e' => rw [h1] at e; cases e
  | panic => rw [h1] at e; cases e
  | exit => rw [h1] at e; cases e
  | crash => rw [h1] at e; cases e

theorem t_shareFile (path : GoString) : Triple (Inv env d dl) (shareFile env path) (fun _ => Inv env d dl) (Inv env d dl) := by
  refine Triple.bind (Q := fun r c fs => Inv env d dl c fs ∧ (r.progressFile = none ∧ r.sizeInBytes < 2 ^ 63 ∧ r.chunkSize = defaultChunkSize)) ?_ ?_
  · refine Triple.bind (Triple.osStat _ (fun _ _ h => h)) ?_
    intro o
    cases o with
    | none => exact Triple.lift _ (fun a e => by cases e) (fun c fs h => h.1)
    | some n =>
      refine Triple.bind (Triple.osHashFile _ _ (fun _ _ h => h.1)) ?_
      intro hash
      exact Triple.pure _ (fun c fs h => ⟨h.1.1, rfl, asInt64_lt _, rfl⟩)
  · intro r
    apply Triple.facts
    rintro ⟨h1, h2, h3⟩
    have hr0 : RecOK d r := ⟨by rw [h3]; decide, by rw [h3]; decide, fun p hp => by rw [h1] at hp; cases hp⟩
    refine Triple.bind (t_addIndexRecord hd r hr0) ?_
    intro _
    refine Triple.bind Triple.getCat ?_
    intro cat
    refine Triple.bind (Q := fun p c fs => Inv env d dl c fs ∧ (p.filePath = progressPath d r.sha1Hash ∧ p.progress.Wf)) ?_ ?_
    · refine Triple.lift _ ?_ (fun c fs h => h.1)
      rintro p hp c fs ⟨hI, rfl⟩
      rw [hI.dataDir] at hp
      obtain ⟨a, b, _, _⟩ := newProgressFile_ok r h2 (by rw [h3]; decide) p hp
      exact ⟨hI, a, b⟩
    · intro p
      apply Triple.facts
      rintro ⟨hp, hw⟩
      refine Triple.bind (t_updateRecord hd _ ⟨hr0.1, hr0.2, fun q hq => by cases hq; exact ⟨hp, hw.loaded⟩⟩) ?_
      intro _
      refine Triple.bind (Q := fun b c fs => Inv env d dl c fs ∧ b.Wf) ?_ ?_
      · refine Triple.lift _ ?_ (fun c fs h => h)
        intro b hb c fs hI
        obtain ⟨dd, e, w, _⟩ := Bitset.fill_eq p.progress hw
        rw [e] at hb; cases hb
        exact ⟨hI, w⟩
      · intro b
        apply Triple.facts
        intro hb
        refine Triple.bind (t_updateRecord hd _ ⟨hr0.1, hr0.2, fun q hq => by cases hq; exact ⟨hp, hb.loaded⟩⟩) ?_
        intro _
        refine Triple.bind (t_saveProgress hd _ r.sha1Hash hp hb.loaded) ?_
        intro _
        exact Triple.pure _ (fun c fs h => h)

theorem t_unshareFile (h : Sha1Hash) : Triple (Inv env d dl) (unshareFile env h) (fun _ => Inv env d dl) (Inv env d dl) := by
  refine Triple.bind (t_getIndexRecord' hd h) ?_
  intro r
  apply Triple.facts
  rintro ⟨h1, h2⟩
  split
  · exact Triple.lift _ (fun a e => by cases e) (fun c fs h => h)
  · rename_i p hp
    refine Triple.bind (Q := fun _ => Inv env d dl) ?_ (fun _ => t_removeIndexRecord hd r)
    have key : ∀ c fs, Inv env d dl c fs → Inv env d dl c (fs.put p.filePath none) := by
      intro c fs hI
      rw [(h1.file p hp).1]
      exact ⟨hI.dataDir, hI.downloadsDir, hI.mem, hI.disk.putProgress hd _ _ (fun x hx => by cases hx)⟩
    exact Triple.osRemove _ (fun c fs _ hI _ => key c fs hI) (fun _ _ h => h) key

theorem t_registerDownload (size : UInt64) (cs : UInt32) (h : Sha1Hash) (name : GoString) :
    Triple (Inv env d dl) (registerDownload env size cs h name) (fun _ => Inv env d dl) (Inv env d dl) := by
  refine Triple.bind Triple.getCat ?_
  intro cat
  refine Triple.bind ((t_addIndexRecord hd _ ⟨by show (0 : Int) ≤ (cs.toNat : Int); omega, by show (cs.toNat : Int) < 2 ^ 32; have := cs.toNat_lt; omega, fun p hp => by cases hp⟩).pre (fun _ _ h => h.1)) ?_
  intro _
  refine Triple.bind Triple.getCat ?_
  intro cat'
  refine Triple.bind (Q := fun p c fs => Inv env d dl c fs ∧ (p.filePath = progressPath d h ∧ p.progress.Wf)) ?_ ?_
  · refine Triple.lift _ ?_ (fun c fs h => h.1)
    rintro p hp c fs ⟨hI, rfl⟩
    rw [hI.dataDir] at hp
    obtain ⟨a, b, _, _⟩ := newProgressFile_ok _ (asInt64_lt size) (by show (0 : Int) ≤ (cs.toNat : Int); omega) p hp
    exact ⟨hI, a, b⟩
  · intro p
    apply Triple.facts
    rintro ⟨hp, hw⟩
    refine Triple.bind (t_updateRecord hd _ ⟨by show (0 : Int) ≤ (cs.toNat : Int); omega, by show (cs.toNat : Int) < 2 ^ 32; have := cs.toNat_lt; omega, fun q hq => by cases hq; exact ⟨hp, hw.loaded⟩⟩) ?_
    intro _
    refine Triple.bind (Q := fun _ => Inv env d dl) (Triple.ignoreErr (t_saveProgress hd p h hp hw.loaded) (fun _ _ h => h)) ?_
    intro _
    exact Triple.lift _ (fun _ _ c fs h => h) (fun c fs h => h)

theorem t_listLoop (order : List Sha1Hash) : Triple (Inv env d dl) (listLoop order) (fun _ => Inv env d dl) (Inv env d dl) := by
  induction order with
  | nil => exact Triple.pure _ (fun _ _ h => h)
  | cons h rest ih =>
    refine Triple.bind (Triple.getIndex (fun _ _ h => h)) ?_
    intro ind
    split
    · exact ih.pre (fun _ _ h => h.1)
    · rename_i r hr
      refine Triple.pre (P := fun c fs => Inv env d dl c fs ∧ RecOK d r) ?_ ?_
      · apply Triple.facts
        intro hr'
        refine Triple.bind (Q := fun _ => Inv env d dl) ((t_fillRecord hd r hr').post (fun _ _ _ h => h.1)) ?_
        intro r'
        refine Triple.bind (Q := fun _ => Inv env d dl) (Triple.lift _ (fun _ _ c fs h => h) (fun c fs h => h)) ?_
        intro e
        exact Triple.bind ih (fun _ => Triple.pure _ (fun _ _ h => h))
      · rintro c fs ⟨hI, hc⟩
        obtain ⟨ind', hi, hw⟩ := hI.mem
        rw [hc] at hi; cases hi
        exact ⟨hI, hw.recs h r (mapGet_mem _ _ _ hr)⟩

theorem t_saveChunk (h : Sha1Hash) (n : UInt16) (data : Bytes) :
    Triple (fun c fs => Inv env d dl c fs ∧ ∀ p, c.pathOf h = some p → ¬ CatFile d p) (saveChunk h n data) (fun _ => Inv env d dl) (Inv env d dl) := by
  refine Triple.bind (Triple.orPanic (t_getIndexRecord hd (fun p => ¬ CatFile d p) h)) ?_
  intro r
  apply Triple.facts
  rintro ⟨h1, h2, h3⟩
  have key : ∀ c fs o, Inv env d dl c fs → Inv env d dl c (fs.put r.filePath o) := by
    intro c fs o hI
    exact ⟨hI.dataDir, hI.downloadsDir, hI.mem, hI.disk.putOther _ h3 o⟩
  refine Triple.bind (Q := fun _ => Inv env d dl) ?_ ?_
  · refine Triple.bind (Q := fun _ => Inv env d dl) ?_ ?_
    · exact Triple.osOpenCreate _ (fun c fs h => key c fs _ h) (fun _ _ h => h) (fun c fs h => key c fs _ h)
    · intro _
      exact Triple.osWriteAt _ _ _ (fun c fs h _ => key c fs _ h) (fun _ _ h => h) (fun c fs k h => key c fs _ h)
  · intro _
    split
    · exact Triple.lift _ (fun a e => by cases e) (fun c fs h => h)
    · rename_i p hp
      refine Triple.bind (Q := fun b c fs => Inv env d dl c fs ∧ Loaded b) ?_ ?_
      · refine Triple.lift _ ?_ (fun c fs h => h)
        intro b hb c fs hI
        refine ⟨hI, (h1.file p hp).2.set _ ?_ hb⟩
        have := n.toNat_lt
        simp only [BitVec.toNat_ofNat]; omega
      · intro b
        apply Triple.facts
        intro hb
        refine Triple.bind (t_updateRecord hd _ ⟨h1.1, h1.2, fun q hq => by cases hq; exact ⟨(h1.file p hp).1, hb⟩⟩) ?_
        intro _
        exact t_saveProgress hd _ r.sha1Hash (h1.file p hp).1 hb

omit hd in
theorem Triple.void {α : Type} {P : Assn} {x : CM α} {E : Assn} (h : Triple P x (fun _ => E) E) : Triple P (CM.void x) (fun _ => E) E :=
  Triple.bind h (fun _ => Triple.pure _ (fun _ _ h => h))

/-- Every call preserves the invariant, whatever it meets. -/
theorem t_op (o : Op) : Triple (fun c fs => Inv env d dl c fs ∧ o.Safe d c) (o.run env) (fun _ => Inv env d dl) (Inv env d dl) := by
  cases o with
  | share p => exact Triple.void ((t_shareFile hd p).pre (fun _ _ h => h.1))
  | unshare h => exact (t_unshareFile hd h).pre (fun _ _ h => h.1)
  | register s cs h n => exact Triple.void ((t_registerDownload hd s cs h n).pre (fun _ _ h => h.1))
  | list o => exact Triple.void (Triple.bind (Triple.getIndex (fun _ _ h => h.1)) (fun _ => (t_listLoop hd o).pre (fun _ _ h => h.1.1)))
  | rehash h =>
    exact Triple.void (Triple.bind ((t_getIndexRecord' hd h).pre (fun _ _ h => h.1))
      (fun _ => (Triple.osHashFile env _ (fun _ _ h => h.1)).post (fun _ _ _ h => h.1.1)))
  | contains h =>
    exact Triple.void (Triple.bind ((t_getIndexRecord' hd h).pre (fun _ _ h => h.1)) (fun _ => Triple.lift _ (fun _ _ c fs h => h.1) (fun _ _ h => h.1)))
  | get h =>
    exact Triple.void (Triple.orPanic (Triple.bind ((t_getIndexRecord' hd h).pre (fun _ _ h => h.1))
      (fun _ => Triple.lift _ (fun _ _ c fs h => h.1) (fun _ _ h => h.1))))
  | complete h =>
    refine Triple.void (Triple.bind (Triple.orPanic ((t_getIndexRecord' hd h).pre (fun _ _ h => h.1))) ?_)
    intro r; split
    · exact Triple.lift _ (fun _ _ c fs h => h.1) (fun _ _ h => h.1)
    · exact Triple.lift _ (fun _ _ c fs h => h.1) (fun _ _ h => h.1)
  | missing h =>
    refine Triple.void (Triple.bind (Triple.orPanic ((t_getIndexRecord' hd h).pre (fun _ _ h => h.1))) ?_)
    intro r; split
    · exact Triple.lift _ (fun _ _ c fs h => h.1) (fun _ _ h => h.1)
    · exact Triple.lift _ (fun _ _ c fs h => h.1) (fun _ _ h => h.1)
  | save h n data => exact t_saveChunk hd h n data
  | reader h n ch =>
    refine Triple.void (Triple.bind ((t_getIndexRecord' hd h).pre (fun _ _ h => h.1)) ?_)
    intro r
    apply Triple.facts
    intro _
    split
    · exact Triple.lift _ (fun _ _ c fs h => h) (fun _ _ h => h)
    · refine Triple.bind (Q := fun _ => Inv env d dl) (Triple.lift _ (fun _ _ c fs h => h) (fun _ _ h => h)) ?_
      intro b; split
      · exact Triple.lift _ (fun _ _ c fs h => h) (fun _ _ h => h)
      · refine Triple.bind (Triple.osTouch (fun _ _ h => h)) ?_
        intro _
        refine Triple.bind Triple.getFS ?_
        intro fs; split
        · exact Triple.lift _ (fun _ _ c fs h => h.1) (fun _ _ h => h.1)
        · exact Triple.pure _ (fun _ _ h => h.1)

/-- Starting the daemon establishes the invariant, or leaves the disk as it may be. -/
theorem t_init (hfix : env.json.fix d = d) :
    Triple (fun c fs => c.dataDir = d ∧ c.downloadsDir = dl ∧ DiskOK env d fs) (Cat.init env) (fun _ => Inv env d dl) (fun _ fs => DiskOK env d fs) := by
  have base : ∀ (c : Cat) (fs : FS), (c.dataDir = d ∧ c.downloadsDir = dl ∧ DiskOK env d fs) → DiskOK env d fs := fun _ _ h => h.2.2
  refine Triple.bind Triple.getCat ?_
  intro cat
  refine Triple.bind (Q := fun _ c fs => (c.dataDir = d ∧ c.downloadsDir = dl ∧ DiskOK env d fs) ∧ cat.dataDir = d) (Triple.setIndex _ ?_) ?_
  · rintro c fs ⟨⟨h1, h2, h3⟩, rfl⟩; exact ⟨⟨h1, h2, h3⟩, h1⟩
  intro _
  apply Triple.facts
  intro hcd
  rw [hcd]
  refine Triple.bind (Triple.osTouch base) ?_
  intro _
  refine Triple.bind (Triple.osTouch base) ?_
  intro _
  refine Triple.bind (Triple.osStat _ base) ?_
  intro o
  have tail : Triple (fun c fs => c.dataDir = d ∧ c.downloadsDir = dl ∧ DiskOK env d fs) (do
      let data ← osReadFile (indexPath d)
      let ind ← IOM.lift (unmarshalIndex env data)
      setIndex ind) (fun _ => Inv env d dl) (fun _ fs => DiskOK env d fs) := by
    refine Triple.bind (Triple.osReadFile _ base) ?_
    intro data
    refine Triple.bind (Q := fun ind c fs => (c.dataDir = d ∧ c.downloadsDir = dl ∧ DiskOK env d fs) ∧ WFIdx d ind) ?_ ?_
    · refine Triple.lift _ ?_ (fun c fs h => h.1.2.2)
      rintro ind hu c fs ⟨h, hf⟩
      refine ⟨h, ?_⟩
      obtain ⟨ind0, hw, hp⟩ := h.2.2.index data hf
      have hwhole : data = env.json.enc ind0.toJSON := by
        apply Classical.byContradiction
        intro hne
        have := env.json.dec_prefix _ _ hp hne
        unfold unmarshalIndex at hu
        rw [this] at hu; cases hu
      rw [hwhole] at hu
      obtain ⟨m, hm, hn, hg⟩ := unmarshal_marshal env ind0 hw.nodup
      rw [hm] at hu; cases hu
      have hk : ∀ k r, (k, r) ∈ m → r.sha1Hash = k ∧ r.progressFile = none ∧ 0 ≤ r.chunkSize ∧ r.chunkSize < 2 ^ 32 := by
        intro k r hkr
        have := mapGet_of_mem m k r hn hkr
        rw [hg] at this
        obtain ⟨r0, h0, rfl⟩ := Option.map_eq_some_iff.1 this
        have := hw.recs k r0 (mapGet_mem _ _ _ h0)
        exact ⟨hw.own k r0 (mapGet_mem _ _ _ h0), rfl, this.1, this.2⟩
      refine ⟨?_, hn, fun k r h => (hk k r h).1, ?_⟩
      · show env.json.fix ind0.dataDir = d; rw [hw.dir, hfix]
      · intro k r hkr
        exact ⟨(hk k r hkr).2.2.1, (hk k r hkr).2.2.2, fun p hp => by rw [(hk k r hkr).2.1] at hp; cases hp⟩
    · intro ind
      apply Triple.facts
      intro hw
      apply Triple.setIndex
      rintro c fs ⟨h1, h2, h3⟩
      exact ⟨h1, h2, ⟨ind, rfl, hw⟩, h3⟩
  cases o with
  | some _ => exact tail.pre (fun _ _ h => h.1)
  | none =>
    have hempty : WFIdx d { pid := env.pid, lastTouched := env.now, index := [], dataDir := d } :=
      ⟨rfl, by simp, fun k r h => (by cases h), fun k r h => (by cases h)⟩
    refine Triple.bind (Q := fun _ => Inv env d dl) (Triple.setIndex _ ?_) ?_
    · rintro c fs ⟨⟨h1, h2, h3⟩, _⟩
      exact ⟨h1, h2, ⟨_, rfl, hempty⟩, h3⟩
    intro _
    refine Triple.bind ((t_saveIndex hd).conseq (fun _ _ h => h) (fun _ _ _ h => h) (fun _ _ h => h.disk)) ?_
    intro _
    exact tail.pre (fun _ _ h => ⟨h.dataDir, h.downloadsDir, h.disk⟩)

end

/-- The invariant of the daemon, running or not. -/
def SysInv (env : Env) (d dl : Path) : Sys → Prop
  | .running c fs => Inv env d dl c fs
  | .stopped fs => DiskOK env d fs

theorem SysInv.step {env : Env} {d dl : Path} (hd : AbsClean d) (hfix : env.json.fix d = d) {s t : Sys} (h : SysInv env d dl s) (hs : Step env d dl s t) :
    SysInv env d dl t := by
  cases hs with
  | call o fl c fs hsafe =>
    obtain ⟨h1, h2⟩ := t_op hd o ⟨c, fs, fl⟩ ⟨h, hsafe⟩
    rcases hr : o.run env ⟨c, fs, fl⟩ with ⟨r, s'⟩
    cases r with
    | ok a => exact h1 a s' hr
    | err e => exact h2 _ s' hr (by intro a; simp)
    | panic => exact (h2 _ s' hr (by intro a; simp)).disk
    | exit => exact (h2 _ s' hr (by intro a; simp)).disk
    | crash => exact (h2 _ s' hr (by intro a; simp)).disk
  | kill c fs => exact h.disk
  | start pid now fl fs =>
    have h' : DiskOK { env with pid := pid, now := now } d fs := ⟨h.index, h.progress⟩
    obtain ⟨h1, h2⟩ := t_init (env := { env with pid := pid, now := now }) (dl := dl) hd hfix ⟨⟨d, dl, none⟩, fs, fl⟩ ⟨rfl, rfl, h'⟩
    rcases hr : Cat.init { env with pid := pid, now := now } ⟨⟨d, dl, none⟩, fs, fl⟩ with ⟨r, s'⟩
    have back : ∀ fs, DiskOK { env with pid := pid, now := now } d fs → DiskOK env d fs := fun _ h => ⟨h.index, h.progress⟩
    cases r with
    | ok a =>
      have := h1 a s' hr
      exact ⟨this.dataDir, this.downloadsDir, this.mem, back _ this.disk⟩
    | err e => exact back _ (h2 _ s' hr (by intro a; simp))
    | panic => exact back _ (h2 _ s' hr (by intro a; simp))
    | exit => exact back _ (h2 _ s' hr (by intro a; simp))
    | crash => exact back _ (h2 _ s' hr (by intro a; simp))
  | userRunning c fs p content hp => exact ⟨h.dataDir, h.downloadsDir, h.mem, h.disk.putOther p hp content⟩
  | userStopped fs p content hp => exact DiskOK.putOther h p hp content

theorem SysInv.steps {env : Env} {d dl : Path} (hd : AbsClean d) (hfix : env.json.fix d = d) {s t : Sys} (hs : Steps env d dl s t)
    (h : SysInv env d dl s) : SysInv env d dl t := by
  induction hs with
  | refl => exact h
  | step _ h' ih => exact ih.step hd hfix h'

theorem Reach.inv {env : Env} {d dl : Path} (hd : AbsClean d) (hfix : env.json.fix d = d) {s : Sys} (h : Reach env d dl s) : SysInv env d dl s := by
  obtain ⟨fs, hfs, hs⟩ := h
  refine SysInv.steps hd hfix hs ⟨?_, ?_⟩
  · intro data hdata; rw [hfs _ (.inl rfl)] at hdata; cases hdata
  · intro h data hdata; rw [hfs _ (.inr ⟨h, rfl⟩)] at hdata; cases hdata

end Flu
