import Verif.Lemmas.CatFun
import Verif.Lemmas.CatRun
/-!
# Properties of the catalogue (C26–C29)

`Reach env d dl (.running c fs)`: a daemon with data directory `d` is running with memory `c` and files `fs`, after any history of calls, crashes
and restarts.  `Healthy`: the data directory is an absolute clean path whose name survives JSON (valid UTF-8).
-/
namespace Flu

/-- What is assumed about the data directory (`NewCat` makes it absolute and clean). -/
structure Healthy (env : Env) (d : Path) : Prop where
  abs : AbsClean d
  utf8 : env.json.fix d = d

/-- `NewCat` produces absolute clean directories. -/
theorem newCat_abs (cwd dir dls : GoString) (hcwd : AbsClean cwd) : AbsClean (newCat cwd dir dls).dataDir ∧ AbsClean (newCat cwd dir dls).downloadsDir := by
  have h : isAbs cwd = true := by obtain ⟨ds, hds, rfl⟩ := hcwd; rfl
  exact ⟨absPath_clean cwd dir h, absPath_clean cwd dls h⟩

theorem ceil_count (n : Nat) : chunkCountOf (n : Int) defaultChunkSize = .ok ((n + 4194303) / 4194304 : Nat) := by
  obtain ⟨k, hk⟩ : ∃ k : Nat, k = 4194304 := ⟨_, rfl⟩
  have := C25_count n k (by omega)
  have e1 : (k : Int) = defaultChunkSize := by rw [hk]; rfl
  have e2 : n + k - 1 = n + 4194303 := by omega
  rw [e1, e2, hk] at this
  exact this

section
variable {env : Env} {d dl : Path} {c : Cat} {fs : FS}

/-- C26: a successful `ShareFile` (whatever else happened before, and whatever faults were possible) publishes the file: the record shows its
path, size, sha1 and chunk size, and every chunk is present; nothing else the API shows changes, and no file outside the catalogue changes. -/
theorem C26_share (hh : Healthy env d) (hreach : Reach env d dl (.running c fs)) (path : GoString) (fl : List Fault) (r : Record) (s' : St)
    (hrun : shareFile env path ⟨c, fs, fl⟩ = (.ok r, s')) :
    ∃ content, fs (absPath env.cwd path) = some content ∧
      observe c fs (env.sha1 content) = .err .fileNotFound ∧
      (content.length < 2 ^ 63 → ∃ b,
        observe s'.cat s'.fs (env.sha1 content) = .ok ⟨absPath env.cwd path, content.length, env.sha1 content, b, 4194304⟩ ∧
        b.sizeOf = ((content.length + 4194303) / 4194304 : Nat) ∧ b.full = .ok true ∧
        ∀ i : Nat, (i : Int) < b.sizeOf → b.get (BitVec.ofNat 64 i) = .ok true) ∧
      (∀ h, h ≠ env.sha1 content → observe s'.cat s'.fs h = observe c fs h) ∧
      (∀ q, q ≠ indexPath d → q ≠ progressPath d (env.sha1 content) → s'.fs q = fs q) := by
  have hI : Inv env d dl c fs := hreach.inv hh.abs hh.utf8
  obtain ⟨ind, rfl, hw⟩ := hI.split
  have hq := OkClean.shareFile env path _ _ _ hrun
  obtain ⟨content, p, full, m1, h1, h2, h3, h4, h5, h6, h7, -⟩ := shareFile_nil_ok env path d dl ind fs r s'.quiet hq
  have hc : s'.cat = ⟨d, dl, some { ind with index := mapPut m1 (env.sha1 content) r }⟩ := congrArg St.cat h6
  have hfs : s'.fs = (fs.put (indexPath ind.dataDir) (some (env.json.enc ({ ind with index := mapPut ind.index (env.sha1 content) { r with progressFile := none } } : IndexFile).toJSON))).put
          p.filePath (some full.serialize) := congrArg St.fs h6
  obtain ⟨hpp, hpw, hpc, hpn⟩ := newProgressFile_ok _ (asInt64_lt _) (by show (0 : Int) ≤ 4194304; omega) p h3
  simp only at hpp hpc
  rw [hw.dir, hpp] at hfs
  refine ⟨content, h1, ?_, ?_, ?_, ?_⟩
  · rw [observe_eq]; unfold obsRec; rw [h2]
  · intro hlt
    obtain ⟨dd, e, w, hf⟩ := Bitset.fill_eq p.progress hpw
    rw [e] at h4; cases h4
    refine ⟨⟨dd, p.progress.size⟩, ?_, ?_, ?_, ?_⟩
    · rw [hc, observe_eq]
      unfold obsRec
      simp only
      rw [mapGet_put, if_pos rfl, h5]
      simp only [viewProgress, Res.bind_ok, Record.exportWith, asInt64_ofNat _ hlt]
      rfl
    · rw [asInt64_ofNat _ hlt, ceil_count] at hpc
      injection hpc with hpc
      exact hpc.symm
    · rw [Bitset.full_eq _ w]
      congr 1
      apply decide_eq_true
      intro i hi; rw [hf]; exact decide_eq_true hi
    · intro i hi
      have hs := w.size_lt
      have hi' : (i : Int) < p.progress.size := hi
      simp only at hs
      have e2 : (BitVec.ofNat 64 i).toNat = i := by simp only [BitVec.toNat_ofNat]; omega
      rw [Bitset.get_eq _ _ (by omega), hf, e2]
      congr 1
      apply decide_eq_true; omega
  · intro h hne
    rw [hc, observe_eq, observe_eq]
    simp only
    have e : mapGet (mapPut m1 (env.sha1 content) r) h = mapGet ind.index h := by
      rw [mapGet_put, if_neg (Ne.symm hne), h7 h (Ne.symm hne)]
    rw [obsRec_congr d s'.fs _ _ h e]
    apply obsRec_fs d fs s'.fs ind.index h hw.own
    rw [hfs, FS.put_other _ _ _ _ (fun e => hne (progressPath_inj d hh.abs _ _ e)),
      FS.put_other _ _ _ _ (fun e => indexPath_ne_progressPath d d hh.abs hh.abs h e.symm)]
  · intro q hq1 hq2
    rw [hfs, FS.put_other _ _ _ _ hq2, FS.put_other _ _ _ _ hq1]

/-- C28: a successful `UnshareFile` removes exactly that record: the API no longer shows it, its progress file is gone, nothing else the API
shows changes and no file outside the catalogue changes. -/
theorem C28_unshare (hh : Healthy env d) (hreach : Reach env d dl (.running c fs)) (h : Sha1Hash) (fl : List Fault) (s' : St)
    (hrun : unshareFile env h ⟨c, fs, fl⟩ = (.ok (), s')) :
    (∃ e, observe c fs h = .ok e) ∧ observe s'.cat s'.fs h = .err .fileNotFound ∧ s'.fs (progressPath d h) = none ∧
      (∀ h', h' ≠ h → observe s'.cat s'.fs h' = observe c fs h') ∧
      (∀ q, q ≠ indexPath d → q ≠ progressPath d h → s'.fs q = fs q) := by
  have hI : Inv env d dl c fs := hreach.inv hh.abs hh.utf8
  obtain ⟨ind, rfl, hw⟩ := hI.split
  have hq := OkClean.unshareFile env h _ _ _ hrun
  obtain ⟨r, p, m, h1, h2, h3, h4, h5⟩ := unshareFile_nil_ok env h d dl ind fs s'.quiet hq
  have hc : s'.cat = ⟨d, dl, some { ind with index := m }⟩ := congrArg St.cat h5
  have hfs : s'.fs = (fs.put p.filePath none).put (indexPath ind.dataDir) (some (env.json.enc ({ ind with index := m } : IndexFile).toJSON)) :=
    congrArg St.fs h5
  have hm := mapGet_mem _ _ _ h1
  have hk := hw.own _ _ hm
  have hpp : p.filePath = progressPath d h := by
    rcases viewProgress_own h2 with hp | hp
    · rw [((hw.recs _ _ hm).file p hp).1, hk]
    · rw [hp.2.1, hk]
  have hp' : r.progressFile = some p ∨ r.progressFile = none := by
    rcases viewProgress_own h2 with hp | hp
    · exact .inl hp
    · exact .inr hp.1
  have hget : ∀ k, mapGet m k = if h = k then none else mapGet ind.index k := by
    intro k
    rw [h4, mapGet_del, hk, mapGet_loadInto _ _ _ _ (by rw [hk]; exact h1) hp', hk]
    by_cases e : h = k <;> simp [e]
  rw [hw.dir, hpp] at hfs
  refine ⟨?_, ?_, ?_, ?_, ?_⟩
  · refine ⟨r.exportWith p, ?_⟩
    rw [observe_eq]; unfold obsRec; rw [h1]; simp only; rw [h2]; rfl
  · rw [hc, observe_eq]; unfold obsRec; simp only; rw [hget, if_pos rfl]
  · rw [hfs, FS.put_other _ _ _ _ (fun e => indexPath_ne_progressPath d d hh.abs hh.abs h e.symm), FS.put_same]
  · intro h' hne
    rw [hc, observe_eq, observe_eq]
    simp only
    rw [obsRec_congr d s'.fs m ind.index h' (by rw [hget, if_neg (Ne.symm hne)])]
    apply obsRec_fs d fs s'.fs ind.index h' hw.own
    rw [hfs, FS.put_other _ _ _ _ (fun e => indexPath_ne_progressPath d d hh.abs hh.abs h' e.symm),
      FS.put_other _ _ _ _ (fun e => hne (progressPath_inj d hh.abs _ _ e))]
  · intro q hq1 hq2
    rw [hfs, FS.put_other _ _ _ _ hq1, FS.put_other _ _ _ _ hq2]

/-- C28: unsharing an unknown hash is an error and changes nothing at all. -/
theorem C28_unknown (hh : Healthy env d) (hreach : Reach env d dl (.running c fs)) (h : Sha1Hash) (fl : List Fault)
    (hobs : observe c fs h = .err .fileNotFound) : unshareFile env h ⟨c, fs, fl⟩ = (.err .fileNotFound, ⟨c, fs, fl⟩) := by
  have hI : Inv env d dl c fs := hreach.inv hh.abs hh.utf8
  obtain ⟨ind, rfl, hw⟩ := hI.split
  rw [observe_eq] at hobs
  have hnone := obsRec_notFound.1 hobs
  unfold unshareFile getIndexRecord
  rw [IOM.bind_apply, IOM.bind_apply, getIndex_eval]
  simp only
  rw [hnone]; rfl

/-! ## C27 -/

/-- `order` is an order in which Go may iterate over the index map. -/
def MapOrder (c : Cat) (order : List Sha1Hash) : Prop := ∃ ind, c.indexFile = some ind ∧ order.Perm (ind.index.map (·.1))

/-- C27: each record is stored under its own hash. -/
theorem C27_own (hh : Healthy env d) (hreach : Reach env d dl (.running c fs)) (h : Sha1Hash) (e : Export) (ho : observe c fs h = .ok e) :
    e.sha1Hash = h := by
  have hI : Inv env d dl c fs := hreach.inv hh.abs hh.utf8
  obtain ⟨ind, rfl, hw⟩ := hI.split
  rw [observe_eq] at ho
  unfold obsRec at ho
  rcases hm : mapGet ind.index h with _ | r
  · rw [hm] at ho; cases ho
  rw [hm] at ho
  simp only at ho
  rcases hv : viewProgress d fs r with p | e' | _ | _ | _
  all_goals rw [hv] at ho
  · cases ho; exact hw.own _ _ (mapGet_mem _ _ _ hm)
  all_goals cases ho

/-- C38: a successful `ListFiles` returns, for every record of the catalogue and in the order the map is iterated, what `Contains` shows for it;
it changes no file and nothing that can be observed. -/
theorem C38_list (hh : Healthy env d) (hreach : Reach env d dl (.running c fs)) (order : List Sha1Hash) (ho : MapOrder c order) (fl : List Fault)
    (es : List Export) (s' : St) (hrun : listFiles order ⟨c, fs, fl⟩ = (.ok es, s')) :
    order.map (observe c fs) = es.map Res.ok ∧ order.Nodup ∧
      (∀ h, h ∈ order ↔ observe c fs h ≠ .err .fileNotFound) ∧
      s'.fs = fs ∧ (∀ h, observe s'.cat s'.fs h = observe c fs h) := by
  have hI : Inv env d dl c fs := hreach.inv hh.abs hh.utf8
  obtain ⟨ind, rfl, hw⟩ := hI.split
  obtain ⟨ind', hi, hperm⟩ := ho
  cases hi
  have hmem : ∀ h, h ∈ order ↔ mapGet ind.index h ≠ none := by
    intro h
    rw [hperm.mem_iff, ← any_key, List.any_eq_true]
    simp only [List.mem_map, decide_eq_true_eq]
  have hq := OkClean.listFiles order _ _ _ hrun
  rw [listFiles, IOM.bind_apply, St.quiet_eq, getIndex_eval] at hq
  simp only at hq
  obtain ⟨h1, m, h2, h3, h4, h5⟩ := listLoop_nil_ok hI.disk order ind hw (fun h hh => (hmem h).1 hh) es s'.quiet hq
  have hc : s'.cat = ⟨d, dl, some { ind with index := m }⟩ := congrArg St.cat h2
  have hfs : s'.fs = fs := congrArg St.fs h2
  refine ⟨by rw [← h1]; apply List.map_congr_left; intro h _; rw [observe_eq], ?_, ?_, hfs, ?_⟩
  · exact hperm.nodup_iff.2 hw.nodup
  · intro h; rw [hmem, observe_eq, Ne, Ne, obsRec_notFound]
  · intro h; rw [hfs, hc, observe_eq, observe_eq]; exact h5 h

/-- C38: without faults, `ListFiles` succeeds whenever every record can be shown. -/
theorem C38_total (hh : Healthy env d) (hreach : Reach env d dl (.running c fs)) (order : List Sha1Hash) (ho : MapOrder c order)
    (hall : ∀ h, observe c fs h ≠ .err .fileNotFound → ∃ e, observe c fs h = .ok e) : ∃ es s', listFiles order ⟨c, fs, []⟩ = (.ok es, s') := by
  have hI : Inv env d dl c fs := hreach.inv hh.abs hh.utf8
  obtain ⟨ind, rfl, hw⟩ := hI.split
  obtain ⟨ind', hi, hperm⟩ := ho
  cases hi
  rw [listFiles, IOM.bind_apply, getIndex_eval]
  simp only
  apply listLoop_nil_total hI.disk order ind hw
  intro h hmem
  have : mapGet ind.index h ≠ none := by
    rw [← any_key, List.any_eq_true]
    have := hperm.mem_iff.1 hmem
    simp only [List.mem_map] at this
    obtain ⟨e, he, rfl⟩ := this
    exact ⟨e, he, by simp⟩
  have h2 := hall h (by rw [observe_eq, Ne, obsRec_notFound]; exact this)
  rw [observe_eq] at h2
  exact h2

/-- C27: no two entries of a listing have the same hash. -/
theorem C27_distinct (hh : Healthy env d) (hreach : Reach env d dl (.running c fs)) (order : List Sha1Hash) (ho : MapOrder c order) (fl : List Fault)
    (es : List Export) (s' : St) (hrun : listFiles order ⟨c, fs, fl⟩ = (.ok es, s')) : (es.map (·.sha1Hash)).Nodup := by
  obtain ⟨h1, h2, -⟩ := C38_list hh hreach order ho fl es s' hrun
  have : es.map (·.sha1Hash) = order := by
    clear hrun ho h2
    induction order generalizing es with
    | nil => cases es <;> simp_all
    | cons h order ih =>
      cases es with
      | nil => simp at h1
      | cons e es =>
        simp only [List.map_cons, List.cons.injEq] at h1
        rw [List.map_cons, ih es h1.2, C27_own hh hreach _ _ h1.1]
  rw [this]; exact h2

/-- C27: sharing a file whose content is already in the catalogue fails and changes neither memory nor disk, whatever faults occur. -/
theorem C27_share_again (hh : Healthy env d) (hreach : Reach env d dl (.running c fs)) (path : GoString) (content : Bytes)
    (hf : fs (absPath env.cwd path) = some content) (hobs : observe c fs (env.sha1 content) ≠ .err .fileNotFound) (fl : List Fault) :
    (∀ r, (shareFile env path ⟨c, fs, fl⟩).1 ≠ .ok r) ∧ (shareFile env path ⟨c, fs, fl⟩).2.cat = c ∧ (shareFile env path ⟨c, fs, fl⟩).2.fs = fs := by
  have hI : Inv env d dl c fs := hreach.inv hh.abs hh.utf8
  obtain ⟨ind, rfl, hw⟩ := hI.split
  rw [observe_eq, Ne, obsRec_notFound] at hobs
  apply unchanged_of_triple
  refine Triple.bind (Q := fun r c' fs' => (c' = ⟨d, dl, some ind⟩ ∧ fs' = fs) ∧ r.sha1Hash = env.sha1 content) ?_ ?_
  · refine Triple.bind (Triple.osStat _ (fun _ _ h => h)) ?_
    intro o
    cases o with
    | none => exact Triple.lift _ (fun a e => by cases e) (fun _ _ h => h.1)
    | some n =>
      refine Triple.bind (Triple.osHashFile _ _ (fun _ _ h => h.1)) ?_
      intro hash
      refine Triple.pure _ ?_
      rintro c' fs' ⟨⟨⟨rfl, rfl⟩, _⟩, h2⟩
      rw [hf] at h2
      exact ⟨⟨rfl, rfl⟩, (Option.some.inj h2).symm⟩
  · intro r
    apply Triple.facts
    intro hr
    refine Triple.bind (Q := fun _ _ _ => False) ?_ ?_
    · refine Triple.bind (Triple.getIndex (fun _ _ h => h)) ?_
      intro ind'
      split
      · exact Triple.lift _ (fun a e => by cases e) (fun _ _ h => h.1)
      · rename_i hn
        intro s hs
        obtain ⟨⟨hc, _⟩, hs2⟩ := hs
        rw [hc] at hs2; cases hs2
        rw [hr] at hn
        exact absurd hn hobs
    · intro a s hs; exact hs.elim

/-- C27: without faults, the error names the file that is already shared. -/
theorem C27_share_again_error (hh : Healthy env d) (hreach : Reach env d dl (.running c fs)) (path : GoString) (content : Bytes)
    (hf : fs (absPath env.cwd path) = some content) (e : Export) (hobs : observe c fs (env.sha1 content) = .ok e) :
    shareFile env path ⟨c, fs, []⟩ = (.err (.alreadyShared e.filePath), ⟨c, fs, []⟩) := by
  have hI : Inv env d dl c fs := hreach.inv hh.abs hh.utf8
  obtain ⟨ind, rfl, hw⟩ := hI.split
  rw [observe_eq] at hobs
  unfold shareFile
  rw [IOM.bind_apply, generate_nil, hf]
  simp only
  rw [IOM.bind_apply, addIndexRecord_nil]
  simp only
  unfold obsRec at hobs
  rcases hm : mapGet ind.index (env.sha1 content) with _ | r
  · rw [hm] at hobs; cases hobs
  rw [hm] at hobs
  simp only at hobs
  rcases hv : viewProgress d fs r with p | e' | _ | _ | _
  all_goals rw [hv] at hobs
  · cases hobs; rfl
  all_goals cases hobs

/-- C27, C29: registering a download for a hash that is already in the catalogue fails and changes nothing, whatever faults occur. -/
theorem C27_register_again (hh : Healthy env d) (hreach : Reach env d dl (.running c fs)) (size : UInt64) (cs : UInt32) (h : Sha1Hash)
    (name : GoString) (fl : List Fault) (hobs : observe c fs h ≠ .err .fileNotFound) :
    ∃ p, registerDownload env size cs h name ⟨c, fs, fl⟩ = (.err (.alreadyShared p), ⟨c, fs, fl⟩) ∧
      ∀ e, observe c fs h = .ok e → p = e.filePath := by
  have hI : Inv env d dl c fs := hreach.inv hh.abs hh.utf8
  obtain ⟨ind, rfl, hw⟩ := hI.split
  rw [observe_eq] at hobs ⊢
  rw [Ne, obsRec_notFound] at hobs
  rcases hm : mapGet ind.index h with _ | r
  · exact absurd hm hobs
  refine ⟨r.filePath, ?_, ?_⟩
  · unfold registerDownload
    rw [IOM.bind_apply, getCat_apply]
    simp only
    rw [IOM.bind_apply]
    unfold addIndexRecord
    rw [IOM.bind_apply, getIndex_eval]
    simp only
    rw [hm]; rfl
  · intro e he
    unfold obsRec at he
    rw [hm] at he
    simp only at he
    rcases hv : viewProgress d fs r with p | e' | _ | _ | _
    all_goals rw [hv] at he
    · cases he; rfl
    all_goals cases he

/-! ## C29 -/

/-- C29: a successful `RegisterDownload` with a positive chunk size and a size below 2^63: the catalogue shows the file under the downloads
directory with the given size and chunk size and with `ceil(size/chunkSize)` chunks, none of them present (also if the disk failed); nothing
else the API shows changes, and no file outside the catalogue changes. -/
theorem C29_register (hh : Healthy env d) (hreach : Reach env d dl (.running c fs)) (size : UInt64) (cs : UInt32) (h : Sha1Hash)
    (name : GoString) (fl : List Fault) (e : Export) (s' : St) (hsize : size.toNat < 2 ^ 63) (hcs : 0 < cs.toNat)
    (hrun : registerDownload env size cs h name ⟨c, fs, fl⟩ = (.ok e, s')) :
    observe c fs h = .err .fileNotFound ∧
      (∃ b, e = ⟨joinPath [dl, name], size.toNat, h, b, cs.toNat⟩ ∧ observe s'.cat s'.fs h = .ok e ∧
        b.sizeOf = ((size.toNat + cs.toNat - 1) / cs.toNat : Nat) ∧ b.count = 0 ∧
        ∀ i : Nat, i < 2 ^ 63 → b.get (BitVec.ofNat 64 i) = .ok false) ∧
      (∀ h', h' ≠ h → observe s'.cat s'.fs h' = observe c fs h') ∧
      (∀ q, q ≠ indexPath d → q ≠ progressPath d h → s'.fs q = fs q) := by
  have hI : Inv env d dl c fs := hreach.inv hh.abs hh.utf8
  obtain ⟨ind, rfl, hw⟩ := hI.split
  obtain ⟨p, m1, fs1, h1, h2, h3, h4, h5, h6, -, h7⟩ := registerDownload_ok env size cs h name d dl ind fs fl e s' hrun
  obtain ⟨hpp, hpw, hpc, hpn⟩ := newProgressFile_ok _ (asInt64_lt _) (by show (0 : Int) ≤ (cs.toNat : Int); omega) p h2
  replace hpp : p.filePath = progressPath d h := hpp
  have hsz : asInt64 size = size.toNat := by
    have := asInt64_ofNat size.toNat hsize
    rwa [UInt64.ofNat_toNat] at this
  have hfs' : ∀ q, q ≠ indexPath d → q ≠ progressPath d h → s'.fs q = fs q := by
    intro q hq1 hq2
    have : fs1 q = fs q := by rw [h4, hw.dir, FS.put_other _ _ _ _ hq1]
    rcases h6 with h6 | ⟨k, h6⟩
    · rw [h6, this]
    · rw [h6, hpp, FS.put_other _ _ _ _ hq2, this]
  refine ⟨?_, ⟨p.progress, ?_, ?_, ?_, ?_, ?_⟩, ?_, hfs'⟩
  · rw [observe_eq, obsRec_notFound, h1]
  · rw [h7]; simp only [Record.exportWith, downloadRecord, hsz]
  · rw [h5, observe_eq]
    unfold obsRec
    simp only
    rw [mapGet_put, if_pos rfl, h7]
    rfl
  · simp only [downloadRecord, hsz] at hpc
    rw [C25_count _ _ hcs] at hpc
    injection hpc with hpc
    exact hpc.symm
  · rw [Bitset.count_eq _ hpw, List.countP_eq_zero.2]
    intro i _; rw [hpn i]; simp
  · intro i hi
    have e2 : (BitVec.ofNat 64 i).toNat = i := by simp only [BitVec.toNat_ofNat]; omega
    rw [Bitset.get_eq _ _ (by omega), hpn]
  · intro h' hne
    rw [h5, observe_eq, observe_eq]
    simp only
    rw [obsRec_congr d s'.fs _ ind.index h' (by rw [mapGet_put, if_neg (Ne.symm hne), h3, mapGet_put, if_neg (Ne.symm hne)])]
    apply obsRec_fs d fs s'.fs ind.index h' hw.own
    exact hfs' _ (fun e => indexPath_ne_progressPath d d hh.abs hh.abs h' e.symm) (fun e => hne (progressPath_inj d hh.abs _ _ e))

end

/-! ## The hypotheses are met

A daemon with data directory `/d`, downloads directory `/w`, working directory `/`, one user file `/f` with three bytes; any hash function and any JSON
codec. -/

/-- The environment of the examples. -/
def exEnv (sha1 : Bytes → Sha1Hash) (json : JsonCodec) : Env := { sha1 := sha1, json := json, pid := 1, now := 0, cwd := absOf [] }
/-- `/d`. -/
def exDir : Path := absOf [[100]]
/-- `/w`. -/
def exDown : Path := absOf [[119]]
/-- `/f` with three bytes and nothing else. -/
def exFS : FS := fun p => if p = absOf [[102]] then some [1, 2, 3] else none

theorem ex_plain (b : UInt8) (h : b = 100 ∨ b = 102 ∨ b = 119) : ∀ e ∈ ([[b]] : List GoString), Plain e := by
  intro e he
  simp only [List.mem_singleton] at he
  subst he
  rcases h with rfl | rfl | rfl <;> exact ⟨by decide, by decide, by decide, by decide⟩

theorem ex_healthy (sha1 : Bytes → Sha1Hash) (json : JsonCodec) : Healthy (exEnv sha1 json) exDir := by
  refine ⟨⟨_, ex_plain 100 (by simp), rfl⟩, json.fix_ascii _ ?_⟩
  intro c hc
  have : exDir = [47, 100] := rfl
  rw [this] at hc
  simp only [List.mem_cons, List.not_mem_nil, or_false] at hc
  rcases hc with rfl | rfl <;> decide

/-- A path directly under the root is not a file of a catalogue in `/d`. -/
theorem ex_not_catFile (b : UInt8) (h : b = 100 ∨ b = 102 ∨ b = 119) : ¬ CatFile exDir (absOf [[b]]) := by
  have hd := ex_plain 100 (by simp)
  rintro (e | ⟨x, e⟩)
  · rw [exDir, indexPath_abs _ hd] at e
    have := absOf_inj _ _ (ex_plain b h) (plain_snoc hd plain_indexFileName) e
    simp at this
  · rw [exDir, progressPath_abs _ hd] at e
    have := absOf_inj _ _ (ex_plain b h) (plain_snoc hd (plain_hash x)) e
    simp at this

theorem ex_fs_clean : ∀ p, CatFile exDir p → exFS p = none := by
  intro p hp
  unfold exFS
  rw [if_neg]
  rintro rfl
  exact ex_not_catFile 102 (by simp) hp

/-- The files after the first start. -/
def exFS1 (sha1 : Bytes → Sha1Hash) (json : JsonCodec) : FS :=
  exFS.put (indexPath exDir) (some (json.enc (freshIdx (exEnv sha1 json) exDir).toJSON))

theorem ex_reach (sha1 : Bytes → Sha1Hash) (json : JsonCodec) :
    Reach (exEnv sha1 json) exDir exDown (.running ⟨exDir, exDown, some (freshIdx (exEnv sha1 json) exDir)⟩ (exFS1 sha1 json)) :=
  reach_fresh (exEnv sha1 json) exDir exDown (ex_healthy sha1 json).utf8 exFS ex_fs_clean

theorem ex_file (sha1 : Bytes → Sha1Hash) (json : JsonCodec) : exFS1 sha1 json (absPath (exEnv sha1 json).cwd [102]) = some [1, 2, 3] := by
  have e : absPath (exEnv sha1 json).cwd [102] = absOf [[102]] := by
    show absPath [47] [102] = [47, 102]
    decide
  rw [e]
  unfold exFS1
  rw [FS.put_other _ _ _ _ (fun h => ex_not_catFile 102 (by simp) (.inl h))]
  simp [exFS]

/-- `C26_share`: sharing `f` succeeds. -/
example (sha1 : Bytes → Sha1Hash) (json : JsonCodec) : ∃ c fs r s', Healthy (exEnv sha1 json) exDir ∧
    Reach (exEnv sha1 json) exDir exDown (.running c fs) ∧ shareFile (exEnv sha1 json) [102] ⟨c, fs, []⟩ = (.ok r, s') := by
  obtain ⟨r, s', h⟩ := shareFile_total (exEnv sha1 json) [102] exDir exDown (freshIdx (exEnv sha1 json) exDir) _ [1, 2, 3] (ex_file sha1 json) rfl (by decide)
  exact ⟨_, _, r, s', ex_healthy sha1 json, ex_reach sha1 json, h⟩

/-- `C29_register`: registering a 10-byte file with chunks of 4 succeeds. -/
example (sha1 : Bytes → Sha1Hash) (json : JsonCodec) (h : Sha1Hash) : ∃ c fs e s', Reach (exEnv sha1 json) exDir exDown (.running c fs) ∧
    registerDownload (exEnv sha1 json) 10 4 h [120] ⟨c, fs, []⟩ = (.ok e, s') := by
  obtain ⟨r, s', h⟩ := registerDownload_total (exEnv sha1 json) 10 4 h [120] exDir exDown (freshIdx (exEnv sha1 json) exDir) (exFS1 sha1 json) rfl (by decide) (by decide)
  exact ⟨_, _, r, s', ex_reach sha1 json, h⟩

/-- After sharing `f`. -/
theorem ex_shared (sha1 : Bytes → Sha1Hash) (json : JsonCodec) : ∃ c fs e, Reach (exEnv sha1 json) exDir exDown (.running c fs) ∧
    fs (absPath (exEnv sha1 json).cwd [102]) = some [1, 2, 3] ∧ fs (progressPath exDir (sha1 [1, 2, 3])) ≠ none ∧
    observe c fs (sha1 [1, 2, 3]) = .ok e ∧ MapOrder c [sha1 [1, 2, 3]] := by
  obtain ⟨r, s', h⟩ := shareFile_total (exEnv sha1 json) [102] exDir exDown (freshIdx (exEnv sha1 json) exDir) _ [1, 2, 3] (ex_file sha1 json) rfl (by decide)
  have hreach := (ex_reach sha1 json).call (.share [102]) trivial [] s' (CM.void_ok _ _ _ _ h)
  obtain ⟨content, h1, h2, h3, -, h5⟩ := C26_share (ex_healthy sha1 json) (ex_reach sha1 json) [102] [] r s' h
  rw [ex_file] at h1; cases h1
  obtain ⟨b, hb, -⟩ := h3 (by decide)
  refine ⟨s'.cat, s'.fs, _, hreach, ?_, ?_, hb, ?_⟩
  · rw [h5, ex_file]
    · show absPath [47] [102] ≠ _
      have e : absPath [47] [102] = absOf [[102]] := by decide
      rw [e]; exact fun h => ex_not_catFile 102 (by simp) (.inl h)
    · show absPath [47] [102] ≠ _
      have e : absPath [47] [102] = absOf [[102]] := by decide
      rw [e]; exact fun h => ex_not_catFile 102 (by simp) (.inr ⟨_, h⟩)
  · obtain ⟨content, p, full, m1, g1, g2, g3, g4, g5, g6, g7, g8⟩ := shareFile_nil_ok _ _ _ _ _ _ _ _ h
    rw [ex_file] at g1; cases g1
    have hp := newProgressFile_path _ _ p g3
    rw [g6]
    show FS.put _ p.filePath _ _ ≠ none
    rw [hp]
    show FS.put _ (progressPath exDir (sha1 [1, 2, 3])) _ _ ≠ none
    rw [FS.put_same]; simp
  · obtain ⟨content, p, full, m1, g1, g2, g3, g4, g5, g6, g7, g8⟩ := shareFile_nil_ok _ _ _ _ _ _ _ _ h
    rw [ex_file] at g1; cases g1
    refine ⟨_, congrArg (fun s => s.cat.indexFile) g6, ?_⟩
    rw [g8]
    simp [keys_put, freshIdx, mapPut, exEnv]

/-- `C28_unshare`: unsharing it again succeeds. -/
example (sha1 : Bytes → Sha1Hash) (json : JsonCodec) : ∃ c fs s', Reach (exEnv sha1 json) exDir exDown (.running c fs) ∧
    unshareFile (exEnv sha1 json) (sha1 [1, 2, 3]) ⟨c, fs, []⟩ = (.ok (), s') := by
  obtain ⟨c, fs, e, h1, h2, h3, h4, h5⟩ := ex_shared sha1 json
  refine ⟨c, fs, (unshareFile (exEnv sha1 json) (sha1 [1, 2, 3]) ⟨c, fs, []⟩).2, h1, ?_⟩
  have hh := ex_healthy sha1 json
  have hI : Inv _ _ _ c fs := h1.inv hh.abs hh.utf8
  obtain ⟨ind, rfl, hw⟩ := hI.split
  rw [observe_eq] at h4
  unfold obsRec at h4
  rcases hm : mapGet ind.index (sha1 [1, 2, 3]) with _ | r
  · rw [hm] at h4; cases h4
  rw [hm] at h4
  simp only at h4
  rcases hv : viewProgress exDir fs r with p | e' | _ | _ | _
  all_goals rw [hv] at h4
  rotate_left
  · cases h4
  · cases h4
  · cases h4
  · cases h4
  have hr := hw.recs _ _ (mapGet_mem _ _ _ hm)
  have hk := hw.own _ _ (mapGet_mem _ _ _ hm)
  have hpp := (viewProgress_loaded hI.disk hr hv).1
  rw [hk] at hpp
  unfold unshareFile
  simp only [IOM.bind_apply, getIndexRecord_nil, hm, hv, ProgressFile.delete, osRemove_nil, hpp]
  rcases hp : fs (progressPath exDir (sha1 [1, 2, 3])) with _ | x
  · exact absurd hp h3
  · rfl

/-- `C27_*`, `C38_*`: a listing with one file. -/
example (sha1 : Bytes → Sha1Hash) (json : JsonCodec) : ∃ c fs e s', Reach (exEnv sha1 json) exDir exDown (.running c fs) ∧
    listFiles [sha1 [1, 2, 3]] ⟨c, fs, []⟩ = (.ok [e], s') ∧ MapOrder c [sha1 [1, 2, 3]] ∧
    fs (absPath (exEnv sha1 json).cwd [102]) = some [1, 2, 3] ∧ observe c fs (sha1 [1, 2, 3]) = .ok e := by
  obtain ⟨c, fs, e, h1, h2, h3, h4, h5⟩ := ex_shared sha1 json
  have hh := ex_healthy sha1 json
  have hI : Inv _ _ _ c fs := h1.inv hh.abs hh.utf8
  obtain ⟨ind, rfl, hw⟩ := hI.split
  obtain ⟨es, s', h6⟩ := listLoop_nil_total (dl := exDown) hI.disk [sha1 [1, 2, 3]] ind hw (by
    intro h hmem
    simp only [List.mem_singleton] at hmem
    subst hmem
    rw [observe_eq] at h4
    exact ⟨e, h4⟩)
  have h7 : listFiles [sha1 [1, 2, 3]] ⟨⟨exDir, exDown, some ind⟩, fs, []⟩ = (.ok es, s') := h6
  have h8 := (C38_list hh h1 _ h5 [] es s' h7).1
  simp only [List.map_cons, List.map_nil, h4] at h8
  have : es = [e] := by
    cases es with
    | nil => simp at h8
    | cons x es => cases es with
      | nil => simp at h8; rw [h8]
      | cons => simp at h8
  subst this
  exact ⟨_, _, e, s', h1, h7, h5, h2, h4⟩

end Flu
