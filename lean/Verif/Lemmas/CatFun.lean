import Verif.Lemmas.CatInv2
/-!
# What the catalogue calls compute
-/
namespace Flu

theorem IOM.bind_ok_iff {σ α β : Type} (x : IOM σ α) (f : α → IOM σ β) (s : σ) (b : β) (s' : σ) :
    (x >>= f) s = (.ok b, s') ↔ ∃ a s1, x s = (.ok a, s1) ∧ f a s1 = (.ok b, s') := by
  rw [IOM.bind_apply]
  rcases x s with ⟨r, s1⟩
  cases r with
  | ok a =>
    constructor
    · intro h; exact ⟨a, s1, rfl, h⟩
    · rintro ⟨a', s1', h1, h2⟩; cases h1; exact h2
  | err e => simp
  | panic => simp
  | exit => simp
  | crash => simp

/-- The progress of a record: from memory, or else from its file. -/
def viewProgress (d : Path) (fs : FS) (r : Record) : Res ProgressFile :=
  match r.progressFile with
  | some p => .ok p
  | none =>
    match fs (progressPath d r.sha1Hash) with
    | none => .err .io
    | some data => do
      let b ← Bitset.deserialize data
      return { progress := b, filePath := progressPath d r.sha1Hash }

/-- The record as the API shows it. -/
def Record.exportWith (r : Record) (p : ProgressFile) : Export :=
  { filePath := r.filePath, sizeInBytes := r.sizeInBytes, sha1Hash := r.sha1Hash, progress := p.progress, chunkSize := r.chunkSize }

/-- What `Contains` shows, in terms of the index. -/
def obsRec (d : Path) (fs : FS) (m : List (Sha1Hash × Record)) (h : Sha1Hash) : Res Export :=
  match mapGet m h with
  | none => .err .fileNotFound
  | some r => do
    let p ← viewProgress d fs r
    return r.exportWith p

/-- The index after the progress of a record was loaded. -/
def loadInto (m : List (Sha1Hash × Record)) (r : Record) (p : ProgressFile) : List (Sha1Hash × Record) :=
  match r.progressFile with
  | some _ => m
  | none => mapPut m r.sha1Hash { r with progressFile := some p }

theorem fillRecord_nil (d dl : Path) (ind : IndexFile) (fs : FS) (r : Record) :
    fillRecord r ⟨⟨d, dl, some ind⟩, fs, []⟩ =
      match viewProgress d fs r with
      | .ok p => (.ok { r with progressFile := some p }, ⟨⟨d, dl, some { ind with index := loadInto ind.index r p }⟩, fs, []⟩)
      | .err e => (.err e, ⟨⟨d, dl, some ind⟩, fs, []⟩)
      | .panic => (.panic, ⟨⟨d, dl, some ind⟩, fs, []⟩)
      | .exit => (.exit, ⟨⟨d, dl, some ind⟩, fs, []⟩)
      | .crash => (.crash, ⟨⟨d, dl, some ind⟩, fs, []⟩) := by
  unfold fillRecord viewProgress loadInto
  rcases hp : r.progressFile with _ | p
  · simp only [IOM.bind_apply, getCat_apply, deserializeProgressFile, osReadFile_nil, IOM.lift_apply]
    rcases hf : fs (progressPath d r.sha1Hash) with _ | data
    · rfl
    · simp only
      rcases hb : Bitset.deserialize data with b | e | _ | _ | _ <;> rfl
  · simp only [IOM.pure_apply]
    cases r; cases hp; rfl

theorem getIndexRecord_nil (d dl : Path) (ind : IndexFile) (fs : FS) (h : Sha1Hash) :
    getIndexRecord h ⟨⟨d, dl, some ind⟩, fs, []⟩ =
      match mapGet ind.index h with
      | none => (.err .fileNotFound, ⟨⟨d, dl, some ind⟩, fs, []⟩)
      | some r =>
        match viewProgress d fs r with
        | .ok p => (.ok { r with progressFile := some p }, ⟨⟨d, dl, some { ind with index := loadInto ind.index r p }⟩, fs, []⟩)
        | .err e => (.err e, ⟨⟨d, dl, some ind⟩, fs, []⟩)
        | .panic => (.panic, ⟨⟨d, dl, some ind⟩, fs, []⟩)
        | .exit => (.exit, ⟨⟨d, dl, some ind⟩, fs, []⟩)
        | .crash => (.crash, ⟨⟨d, dl, some ind⟩, fs, []⟩) := by
  unfold getIndexRecord
  rw [IOM.bind_apply, getIndex_eval]
  simp only
  rcases mapGet ind.index h with _ | r
  · rfl
  · simp only; rw [fillRecord_nil]

theorem observe_eq (d dl : Path) (ind : IndexFile) (fs : FS) (h : Sha1Hash) : observe ⟨d, dl, some ind⟩ fs h = obsRec d fs ind.index h := by
  unfold observe contains obsRec
  rw [IOM.bind_apply, getIndexRecord_nil]
  rcases mapGet ind.index h with _ | r
  · rfl
  · simp only
    rcases viewProgress d fs r with p | e | _ | _ | _ <;> rfl

theorem viewProgress_own {d : Path} {fs : FS} {r : Record} {p : ProgressFile} (h : viewProgress d fs r = .ok p) :
    (r.progressFile = some p) ∨ (r.progressFile = none ∧ p.filePath = progressPath d r.sha1Hash ∧
      ∃ data, fs (progressPath d r.sha1Hash) = some data ∧ Bitset.deserialize data = .ok p.progress) := by
  unfold viewProgress at h
  split at h
  · left; cases h; assumption
  · rename_i hn
    right
    split at h
    · cases h
    · rename_i data hdata
      rcases hb : Bitset.deserialize data with b | e | _ | _ | _ <;> rw [hb] at h
      · cases h; exact ⟨hn, rfl, data, hdata, hb⟩
      all_goals cases h

theorem mapGet_loadInto (m : List (Sha1Hash × Record)) (r : Record) (p : ProgressFile) (h : Sha1Hash) (hm : mapGet m r.sha1Hash = some r)
    (hp : r.progressFile = some p ∨ r.progressFile = none) :
    mapGet (loadInto m r p) h = if r.sha1Hash = h then some { r with progressFile := some p } else mapGet m h := by
  unfold loadInto
  split
  · rename_i q hq
    have hpq : q = p := by rcases hp with hp | hp <;> rw [hq] at hp <;> simp_all
    subst hpq
    split
    · rename_i e; rw [← e, hm]; congr 1; cases r; cases hq; rfl
    · rfl
  · rw [mapGet_put]

/-- Looking at a record changes nothing that can be observed. -/
theorem obsRec_loadInto (d : Path) (fs : FS) (m : List (Sha1Hash × Record)) (r : Record) (p : ProgressFile) (hm : mapGet m r.sha1Hash = some r)
    (hp : viewProgress d fs r = .ok p) (h : Sha1Hash) : obsRec d fs (loadInto m r p) h = obsRec d fs m h := by
  have hp' : r.progressFile = some p ∨ r.progressFile = none := by
    rcases viewProgress_own hp with h | h
    · exact .inl h
    · exact .inr h.1
  unfold obsRec
  rw [mapGet_loadInto m r p h hm hp']
  by_cases e : r.sha1Hash = h
  · subst e
    rw [if_pos rfl, hm]
    simp only
    rw [hp]; rfl
  · rw [if_neg e]

/-- Changing files other than the progress files of records changes no observation. -/
theorem obsRec_fs (d : Path) (fs fs' : FS) (m : List (Sha1Hash × Record)) (h : Sha1Hash) (hown : ∀ k r, (k, r) ∈ m → r.sha1Hash = k)
    (hf : fs' (progressPath d h) = fs (progressPath d h)) : obsRec d fs' m h = obsRec d fs m h := by
  unfold obsRec
  rcases hm : mapGet m h with _ | r
  · rfl
  · have hk := hown h r (mapGet_mem _ _ _ hm)
    simp only
    have : viewProgress d fs' r = viewProgress d fs r := by
      unfold viewProgress
      rw [hk, hf]
    rw [this]

theorem obsRec_congr (d : Path) (fs : FS) (m m' : List (Sha1Hash × Record)) (h : Sha1Hash) (e : mapGet m h = mapGet m' h) :
    obsRec d fs m h = obsRec d fs m' h := by unfold obsRec; rw [e]

/-- The state of a running daemon, taken apart. -/
theorem Inv.split {env : Env} {d dl : Path} {c : Cat} {fs : FS} (h : Inv env d dl c fs) :
    ∃ ind, c = ⟨d, dl, some ind⟩ ∧ WFIdx d ind := by
  obtain ⟨ind, hi, hw⟩ := h.mem
  refine ⟨ind, ?_, hw⟩
  have h1 := h.dataDir; have h2 := h.downloadsDir
  cases c; simp only at *; rw [h1, h2, hi]

/-! ### Sharing -/

theorem generate_nil (env : Env) (path : GoString) (c : Cat) (fs : FS) :
    generateIndexRecordForFile env path ⟨c, fs, []⟩ =
      match fs (absPath env.cwd path) with
      | none => (.err .io, ⟨c, fs, []⟩)
      | some content => (.ok { filePath := absPath env.cwd path, sizeInBytes := asInt64 (UInt64.ofNat content.length), sha1Hash := env.sha1 content,
                               progressFile := none, chunkSize := defaultChunkSize }, ⟨c, fs, []⟩) := by
  unfold generateIndexRecordForFile
  simp only [IOM.bind_apply, osStat_nil]
  rcases hf : fs (absPath env.cwd path) with _ | content
  · rfl
  · simp only [Option.map_some, IOM.bind_apply, osHashFile_nil, hf]
    rfl

theorem addIndexRecord_nil (env : Env) (r : Record) (d dl : Path) (ind : IndexFile) (fs : FS) :
    addIndexRecord env r ⟨⟨d, dl, some ind⟩, fs, []⟩ =
      match mapGet ind.index r.sha1Hash with
      | some extant => (.err (.alreadyShared extant.filePath), ⟨⟨d, dl, some ind⟩, fs, []⟩)
      | none => (.ok (), ⟨⟨d, dl, some { ind with index := mapPut ind.index r.sha1Hash r }⟩,
          fs.put (indexPath ind.dataDir) (some (env.json.enc ({ ind with index := mapPut ind.index r.sha1Hash r } : IndexFile).toJSON)), []⟩) := by
  unfold addIndexRecord
  rw [IOM.bind_apply, getIndex_eval]
  simp only
  rcases mapGet ind.index r.sha1Hash with _ | ext
  · rfl
  · rfl

theorem asInt64_ofNat (n : Nat) (h : n < 2 ^ 63) : asInt64 (UInt64.ofNat n) = n := by
  unfold asInt64
  rw [BitVec.toInt_eq_toNat_of_lt]
  · have : (UInt64.ofNat n).toBitVec.toNat = n := by
      show (UInt64.ofNat n).toNat = n
      simp only [UInt64.toNat_ofNat']; omega
    rw [this]
  · show 2 * (UInt64.ofNat n).toNat < _
    simp only [UInt64.toNat_ofNat']; omega

/-- A run of `ShareFile` that succeeded, without faults. -/
theorem shareFile_nil_ok (env : Env) (path : GoString) (d dl : Path) (ind : IndexFile) (fs : FS) (r : Record) (s' : St)
    (h : shareFile env path ⟨⟨d, dl, some ind⟩, fs, []⟩ = (.ok r, s')) :
    ∃ content p full m1,
      fs (absPath env.cwd path) = some content ∧ mapGet ind.index (env.sha1 content) = none ∧
      newProgressFile { filePath := absPath env.cwd path, sizeInBytes := asInt64 (UInt64.ofNat content.length), sha1Hash := env.sha1 content,
                        progressFile := none, chunkSize := defaultChunkSize } d = .ok p ∧
      p.progress.fill = .ok full ∧
      r = { filePath := absPath env.cwd path, sizeInBytes := asInt64 (UInt64.ofNat content.length), sha1Hash := env.sha1 content,
            progressFile := some { p with progress := full }, chunkSize := defaultChunkSize } ∧
      s' = ⟨⟨d, dl, some { ind with index := mapPut m1 (env.sha1 content) r }⟩,
        (fs.put (indexPath ind.dataDir) (some (env.json.enc ({ ind with index := mapPut ind.index (env.sha1 content) { r with progressFile := none } } : IndexFile).toJSON))).put
          p.filePath (some full.serialize), []⟩ ∧
      (∀ k, env.sha1 content ≠ k → mapGet m1 k = mapGet ind.index k) ∧
      m1 = mapPut (mapPut ind.index (env.sha1 content) { r with progressFile := none }) (env.sha1 content) { r with progressFile := some p } := by
  unfold shareFile at h
  simp only [IOM.bind_apply, generate_nil] at h
  rcases hf : fs (absPath env.cwd path) with _ | content
  · rw [hf] at h; cases h
  rw [hf] at h
  simp only at h
  rw [addIndexRecord_nil] at h
  simp only at h
  rcases hm : mapGet ind.index (env.sha1 content) with _ | ext
  rotate_left
  · rw [hm] at h; cases h
  rw [hm] at h
  simp only [getCat_apply, IOM.lift_apply] at h
  generalize hp : newProgressFile _ d = rp at h
  rcases rp with p | e | _ | _ | _
  rotate_left
  · cases h
  · cases h
  · cases h
  · cases h
  simp only [updateRecord_eval] at h
  rcases hfull : p.progress.fill with full | e | _ | _ | _
  all_goals rw [hfull] at h
  rotate_left
  · cases h
  · cases h
  · cases h
  · cases h
  simp only [updateRecord_eval, ProgressFile.save, osWriteFile_nil, IOM.pure_apply] at h
  cases h
  refine ⟨content, p, full, _, rfl, hm, hp, hfull, rfl, rfl, ?_, rfl⟩
  intro k hk
  rw [mapGet_put, if_neg hk, mapGet_put, if_neg hk]

/-! ### Unsharing -/

theorem unshareFile_nil_ok (env : Env) (h : Sha1Hash) (d dl : Path) (ind : IndexFile) (fs : FS) (s' : St)
    (hrun : unshareFile env h ⟨⟨d, dl, some ind⟩, fs, []⟩ = (.ok (), s')) :
    ∃ r p m, mapGet ind.index h = some r ∧ viewProgress d fs r = .ok p ∧ fs p.filePath ≠ none ∧ m = mapDel (loadInto ind.index r p) r.sha1Hash ∧
      s' = ⟨⟨d, dl, some { ind with index := m }⟩,
        (fs.put p.filePath none).put (indexPath ind.dataDir) (some (env.json.enc ({ ind with index := m } : IndexFile).toJSON)), []⟩ := by
  unfold unshareFile at hrun
  rw [IOM.bind_apply, getIndexRecord_nil] at hrun
  rcases hm : mapGet ind.index h with _ | r
  · rw [hm] at hrun; cases hrun
  rw [hm] at hrun
  simp only at hrun
  rcases hv : viewProgress d fs r with p | e | _ | _ | _
  all_goals rw [hv] at hrun
  rotate_left
  · cases hrun
  · cases hrun
  · cases hrun
  · cases hrun
  simp only [ProgressFile.delete] at hrun
  rw [IOM.bind_apply, osRemove_nil] at hrun
  rcases hf : fs p.filePath with _ | data
  · rw [hf] at hrun; cases hrun
  rw [hf] at hrun
  simp only [removeIndexRecord] at hrun
  rw [IOM.bind_apply, getIndex_eval] at hrun
  simp only at hrun
  rw [IOM.bind_apply, setIndex_eval] at hrun
  simp only at hrun
  rw [saveIndex_nil] at hrun
  cases hrun
  exact ⟨r, p, _, rfl, hv, by rw [hf]; simp, rfl, rfl⟩

theorem obsRec_notFound {d : Path} {fs : FS} {m : List (Sha1Hash × Record)} {h : Sha1Hash} :
    obsRec d fs m h = .err .fileNotFound ↔ mapGet m h = none := by
  unfold obsRec
  rcases mapGet m h with _ | r
  · simp
  · simp only [reduceCtorEq, iff_false]
    unfold viewProgress
    split
    · intro e; cases e
    · split
      · intro e; cases e
      · rename_i data _
        unfold Bitset.deserialize
        split
        · intro e; cases e
        · simp only
          split
          · intro e; cases e
          · intro e; cases e

/-! ### Registering -/

theorem ignoreErr_ok {σ : Type} (x : IOM σ Unit) (s s' : σ) (h : IOM.ignoreErr x s = (.ok (), s')) : x s = (.ok (), s') ∨ ∃ e, x s = (.err e, s') := by
  unfold IOM.ignoreErr at h
  rcases hx : x s with ⟨r, s1⟩
  rw [hx] at h
  cases r with
  | ok a => cases h; exact .inl rfl
  | err e => cases h; exact .inr ⟨e, rfl⟩
  | panic => cases h
  | exit => cases h
  | crash => cases h

/-- What writing a file can leave behind. -/
theorem osWriteFile_frame (p : Path) (data : Bytes) (s : St) :
    (osWriteFile p data s).2.cat = s.cat ∧ ((osWriteFile p data s).2.fs = s.fs ∨ ∃ k, (osWriteFile p data s).2.fs = s.fs.put p (some (data.take k))) := by
  have h : Triple (fun c fs => c = s.cat ∧ fs = s.fs) (osWriteFile p data)
      (fun _ c fs => c = s.cat ∧ (fs = s.fs ∨ ∃ k, fs = s.fs.put p (some (data.take k))))
      (fun c fs => c = s.cat ∧ (fs = s.fs ∨ ∃ k, fs = s.fs.put p (some (data.take k)))) := by
    apply Triple.osWriteFile
    · rintro c fs ⟨rfl, rfl⟩
      exact ⟨rfl, .inr ⟨data.length, by rw [List.take_length]⟩⟩
    · rintro c fs ⟨rfl, rfl⟩; exact ⟨rfl, .inl rfl⟩
    · rintro c fs k ⟨rfl, rfl⟩; exact ⟨rfl, .inr ⟨k, rfl⟩⟩
  obtain ⟨h1, h2⟩ := h s ⟨rfl, rfl⟩
  rcases hr : osWriteFile p data s with ⟨r, s'⟩
  cases r with
  | ok a => exact h1 a s' hr
  | err e => exact h2 _ s' hr (by intro a; simp)
  | panic => exact h2 _ s' hr (by intro a; simp)
  | exit => exact h2 _ s' hr (by intro a; simp)
  | crash => exact h2 _ s' hr (by intro a; simp)

/-- The record `RegisterDownload` creates. -/
def downloadRecord (dl : Path) (size : UInt64) (cs : UInt32) (h : Sha1Hash) (name : GoString) : Record :=
  { filePath := joinPath [dl, name], sizeInBytes := asInt64 size, sha1Hash := h, progressFile := none, chunkSize := cs.toNat }

theorem registerDownload_ok (env : Env) (size : UInt64) (cs : UInt32) (h : Sha1Hash) (name : GoString) (d dl : Path) (ind : IndexFile) (fs : FS)
    (fl : List Fault) (e : Export) (s' : St) (hrun : registerDownload env size cs h name ⟨⟨d, dl, some ind⟩, fs, fl⟩ = (.ok e, s')) :
    ∃ p m1 fs1, mapGet ind.index h = none ∧ newProgressFile (downloadRecord dl size cs h name) d = .ok p ∧
      m1 = mapPut ind.index h (downloadRecord dl size cs h name) ∧
      fs1 = fs.put (indexPath ind.dataDir) (some (env.json.enc ({ ind with index := m1 } : IndexFile).toJSON)) ∧
      s'.cat = ⟨d, dl, some { ind with index := mapPut m1 h { downloadRecord dl size cs h name with progressFile := some p } }⟩ ∧
      (s'.fs = fs1 ∨ ∃ k, s'.fs = fs1.put p.filePath (some (p.progress.serialize.take k))) ∧
      (fl = [] → s'.fs = fs1.put p.filePath (some p.progress.serialize)) ∧
      e = (downloadRecord dl size cs h name).exportWith p := by
  unfold registerDownload at hrun
  rw [IOM.bind_apply, getCat_apply] at hrun
  simp only at hrun
  obtain ⟨_, s1, h1, hrun⟩ := (IOM.bind_ok_iff _ _ _ _ _).1 hrun
  have hq := OkClean.addIndexRecord env _ _ _ _ h1
  rw [St.quiet_eq, addIndexRecord_nil] at hq
  simp only at hq
  rcases hm : mapGet ind.index h with _ | ext
  rotate_left
  · rw [hm] at hq; cases hq
  rw [hm] at hq
  simp only [Prod.mk.injEq, Res.ok.injEq, true_and] at hq
  obtain ⟨c1, fs1, fl1⟩ := s1
  simp only [St.quiet, St.mk.injEq, and_true] at hq
  obtain ⟨hq1, hq2⟩ := hq
  subst hq1
  rw [IOM.bind_apply, getCat_apply] at hrun
  simp only at hrun
  rw [IOM.bind_apply, IOM.lift_apply] at hrun
  generalize hp : newProgressFile _ d = rp at hrun
  rcases rp with p | x | _ | _ | _
  rotate_left
  · cases hrun
  · cases hrun
  · cases hrun
  · cases hrun
  simp only at hrun
  rw [IOM.bind_apply, updateRecord_eval] at hrun
  simp only at hrun
  obtain ⟨_, s2, h2, hrun⟩ := (IOM.bind_ok_iff _ _ _ _ _).1 hrun
  rw [IOM.lift_apply] at hrun
  simp only [Record.export] at hrun
  simp only [Prod.mk.injEq, Res.ok.injEq] at hrun
  obtain ⟨he, hs⟩ := hrun
  subst hs
  have hfr := osWriteFile_frame p.filePath p.progress.serialize
    ⟨⟨d, dl, some { ind with index := mapPut (mapPut ind.index h (downloadRecord dl size cs h name)) h { downloadRecord dl size cs h name with progressFile := some p } }⟩, fs1, fl1⟩
  have hres : (osWriteFile p.filePath p.progress.serialize
    ⟨⟨d, dl, some { ind with index := mapPut (mapPut ind.index h (downloadRecord dl size cs h name)) h { downloadRecord dl size cs h name with progressFile := some p } }⟩, fs1, fl1⟩).2 = s2 := by
    rcases ignoreErr_ok _ _ _ h2 with h2 | ⟨x, h2⟩
    · exact congrArg Prod.snd h2
    · exact congrArg Prod.snd h2
  rw [hres] at hfr
  refine ⟨p, _, fs1, rfl, hp, rfl, hq2.symm, hfr.1, hfr.2, ?_, he.symm⟩
  intro hfl
  subst hfl
  have hfl1 : fl1 = [] := by
    have := addIndexRecord_nil env (downloadRecord dl size cs h name) d dl ind fs
    have hm' : mapGet ind.index (downloadRecord dl size cs h name).sha1Hash = none := hm
    rw [hm'] at this
    have h1' : addIndexRecord env (downloadRecord dl size cs h name) ⟨⟨d, dl, some ind⟩, fs, []⟩ = _ := h1
    rw [this] at h1'
    simp only [Prod.mk.injEq, St.mk.injEq, true_and] at h1'
    exact h1'.2.2.symm
  subst hfl1
  rw [← hres]
  rfl

theorem unchanged_of_triple {α : Type} {x : CM α} {c : Cat} {fs : FS} {fl : List Fault}
    (h : Triple (fun c' fs' => c' = c ∧ fs' = fs) x (fun _ _ _ => False) (fun c' fs' => c' = c ∧ fs' = fs)) :
    (∀ a, (x ⟨c, fs, fl⟩).1 ≠ .ok a) ∧ (x ⟨c, fs, fl⟩).2.cat = c ∧ (x ⟨c, fs, fl⟩).2.fs = fs := by
  obtain ⟨h1, h2⟩ := h ⟨c, fs, fl⟩ ⟨rfl, rfl⟩
  rcases hr : x ⟨c, fs, fl⟩ with ⟨r, s'⟩
  have hn : ∀ a, r ≠ .ok a := by
    intro a e; subst e; exact h1 a s' hr
  exact ⟨hn, h2 r s' hr hn⟩

/-! ### Listing -/

theorem keys_loadInto (m : List (Sha1Hash × Record)) (r : Record) (p : ProgressFile) (hm : mapGet m r.sha1Hash = some r) :
    (loadInto m r p).map (·.1) = m.map (·.1) := by
  unfold loadInto
  split
  · rfl
  · rw [keys_put, if_pos]
    rw [any_key, hm]; simp

theorem WFIdx.loadInto {d : Path} {fs : FS} {ind : IndexFile} (w : WFIdx d ind) {r : Record} {p : ProgressFile} (hr : RecOK d r)
    (hl : Loaded p.progress) (hp : viewProgress d fs r = .ok p) : WFIdx d { ind with index := Flu.loadInto ind.index r p } := by
  unfold Flu.loadInto
  split
  · exact w
  · rename_i hn
    have := w.put { r with progressFile := some p } ⟨hr.1, hr.2, by
      intro q hq; cases hq
      rcases viewProgress_own hp with h | h
      · rw [hn] at h; cases h
      · exact ⟨h.2.1, hl⟩⟩
    exact this

/-- Progress read from a disk the daemon wrote is well formed. -/
theorem viewProgress_loaded {env : Env} {d : Path} {fs : FS} (hdisk : DiskOK env d fs) {r : Record} {p : ProgressFile} (hr : RecOK d r)
    (hp : viewProgress d fs r = .ok p) : p.filePath = progressPath d r.sha1Hash ∧ Loaded p.progress := by
  rcases viewProgress_own hp with h | ⟨_, h2, data, h3, h4⟩
  · exact hr.file p h
  · obtain ⟨b0, hb0, hpre⟩ := hdisk.progress _ _ h3
    exact ⟨h2, hb0.torn data hpre h4⟩

theorem listLoop_nil_ok {env : Env} {d dl : Path} {fs : FS} (hdisk : DiskOK env d fs) (order : List Sha1Hash) (ind : IndexFile) (w : WFIdx d ind)
    (hsub : ∀ h ∈ order, mapGet ind.index h ≠ none) (es : List Export) (s' : St)
    (hrun : listLoop order ⟨⟨d, dl, some ind⟩, fs, []⟩ = (.ok es, s')) :
    order.map (obsRec d fs ind.index) = es.map Res.ok ∧
    ∃ m, s' = ⟨⟨d, dl, some { ind with index := m }⟩, fs, []⟩ ∧ WFIdx d { ind with index := m } ∧ m.map (·.1) = ind.index.map (·.1) ∧
      ∀ h, obsRec d fs m h = obsRec d fs ind.index h := by
  induction order generalizing ind es s' with
  | nil => cases hrun; exact ⟨rfl, ind.index, rfl, w, rfl, fun _ => rfl⟩
  | cons h rest ih =>
    unfold listLoop at hrun
    rw [IOM.bind_apply, getIndex_eval] at hrun
    simp only at hrun
    rcases hm : mapGet ind.index h with _ | r
    · exact absurd hm (hsub h (by simp))
    rw [hm] at hrun
    simp only at hrun
    rw [IOM.bind_apply, fillRecord_nil] at hrun
    have hmem := mapGet_mem _ _ _ hm
    have hk := w.own _ _ hmem
    rcases hv : viewProgress d fs r with p | e | _ | _ | _
    all_goals rw [hv] at hrun
    rotate_left
    · cases hrun
    · cases hrun
    · cases hrun
    · cases hrun
    simp only [Record.export] at hrun
    rw [IOM.bind_apply, IOM.lift_apply] at hrun
    simp only at hrun
    obtain ⟨es', s1, h1, hrun⟩ := (IOM.bind_ok_iff _ _ _ _ _).1 hrun
    have hpl := viewProgress_loaded hdisk (w.recs _ _ hmem) hv
    have w' := w.loadInto (w.recs _ _ hmem) hpl.2 hv
    have hobs := obsRec_loadInto d fs ind.index r p (by rw [hk]; exact hm) hv
    obtain ⟨hf, m, e1, e2, e3, e4⟩ := ih { ind with index := loadInto ind.index r p } w' (by
      intro h' hh'
      have := hsub h' (by simp [hh'])
      have hnf := obsRec_notFound (d := d) (fs := fs) (m := loadInto ind.index r p) (h := h')
      rw [hobs h', obsRec_notFound] at hnf
      exact fun e => this (hnf.2 e)) es' s1 h1
    cases hrun
    refine ⟨?_, m, e1, e2, ?_, ?_⟩
    · rw [List.map_cons, List.map_cons]
      congr 1
      · unfold obsRec; rw [hm]; simp only; rw [hv]; rfl
      · rw [← hf]; apply List.map_congr_left; intro h' _; exact (hobs h').symm
    · rw [e3]; exact keys_loadInto _ _ _ (by rw [hk]; exact hm)
    · intro h'; rw [e4]; exact hobs h'

/-- If every record can be shown, listing succeeds. -/
theorem listLoop_nil_total {env : Env} {d dl : Path} {fs : FS} (hdisk : DiskOK env d fs) (order : List Sha1Hash) (ind : IndexFile) (w : WFIdx d ind)
    (hsub : ∀ h ∈ order, ∃ e, obsRec d fs ind.index h = .ok e) : ∃ es s', listLoop order ⟨⟨d, dl, some ind⟩, fs, []⟩ = (.ok es, s') := by
  induction order generalizing ind with
  | nil => exact ⟨[], _, rfl⟩
  | cons h rest ih =>
    obtain ⟨e, he⟩ := hsub h (by simp)
    unfold listLoop
    rw [IOM.bind_apply, getIndex_eval]
    simp only
    unfold obsRec at he
    rcases hm : mapGet ind.index h with _ | r
    · rw [hm] at he; cases he
    rw [hm] at he
    simp only at he ⊢
    have hmem := mapGet_mem _ _ _ hm
    have hk := w.own _ _ hmem
    rcases hv : viewProgress d fs r with p | e' | _ | _ | _
    all_goals rw [hv] at he
    rotate_left
    · cases he
    · cases he
    · cases he
    · cases he
    rw [IOM.bind_apply, fillRecord_nil, hv]
    simp only [Record.export]
    rw [IOM.bind_apply, IOM.lift_apply]
    simp only
    have hpl := viewProgress_loaded hdisk (w.recs _ _ hmem) hv
    have w' := w.loadInto (w.recs _ _ hmem) hpl.2 hv
    have hobs := obsRec_loadInto d fs ind.index r p (by rw [hk]; exact hm) hv
    obtain ⟨es, s', h1⟩ := ih { ind with index := loadInto ind.index r p } w' (by
      intro h' hh'
      obtain ⟨x, hx⟩ := hsub h' (by simp [hh'])
      exact ⟨x, by rw [hobs h']; exact hx⟩)
    rw [IOM.bind_apply, h1]
    exact ⟨_, _, rfl⟩

end Flu
