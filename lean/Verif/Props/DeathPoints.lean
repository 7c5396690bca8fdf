import Verif.Lemmas.CatOwned
import Verif.Props.CutProgress
import Verif.Spec.Restart
/-!
# C120: after which deaths the next daemon works
-/
namespace Flu

open Spec

section
variable {env : Env} {d dl : Path} {c : Cat} {fs : FS}

theorem wholeWords_iff (o : Option Bytes) : WholeWords o ↔ ∃ p b, o = some p ∧ Bitset.deserialize p = .ok b := by
  constructor
  · rintro ⟨p, h1, h2, h3⟩
    rcases C07_total p with ⟨h, -⟩ | ⟨-, h, -⟩ | ⟨-, -, b, h, -⟩
    · omega
    · exact absurd h3 h
    · exact ⟨p, b, h1, h⟩
  · rintro ⟨p, b, h1, h2⟩
    rcases C07_total p with ⟨-, h⟩ | ⟨-, -, e, h⟩ | ⟨h3, h4, -⟩
    · rw [h] at h2; cases h2
    · rw [h] at h2; cases h2
    · exact ⟨p, h1, h3, h4⟩

theorem not_wholeWords {o : Option Bytes} (h : ¬ WholeWords o) : Unloadable o :=
  fun x hx b hb => h ((wholeWords_iff o).2 ⟨x, b, hx, hb⟩)

/-- What a whole index names. -/
theorem dec_whole {ind : IndexFile} (hw : WFIdx d ind) : env.json.dec (env.json.enc ind.toJSON) ≠ none ∧
    ∀ h, Named env (env.json.enc ind.toJSON) h ↔ mapGet ind.index h ≠ none := by
  obtain ⟨l, h1, h2⟩ := env.json.dec_enc ind.toJSON
    (by
      intro e he
      simp only [IndexFile.toJSON, List.mem_map] at he
      obtain ⟨x, _, rfl⟩ := he
      exact isAscii_toString _)
    (by
      have : ind.toJSON.index.map (·.1) = (ind.index.map (·.1)).map Sha1Hash.toString := by
        simp [IndexFile.toJSON, List.map_map, Function.comp_def]
      rw [this]
      have hn := hw.nodup
      unfold List.Nodup at hn ⊢
      rw [List.pairwise_map]
      exact hn.imp (fun hab e => hab (toString_inj _ _ e)))
  refine ⟨(by rw [h1]; exact Option.some_ne_none _), fun h => ⟨?_, ?_⟩⟩
  · rintro ⟨j, hj, e, he, hk⟩
    rw [h1] at hj; cases hj
    obtain ⟨e1, he1, rfl⟩ := List.mem_map.1 (h2.mem_iff.1 he)
    simp only [IndexFile.toJSON, List.mem_map] at he1
    obtain ⟨x, hx, rfl⟩ := he1
    have : x.1 = h := toString_inj _ _ hk
    subst this
    rw [mapGet_of_mem ind.index x.1 x.2 hw.nodup hx]
    exact fun h => by cases h
  · intro hm
    obtain ⟨r, hr⟩ := Option.ne_none_iff_exists'.1 hm
    have hx := mapGet_mem _ _ _ hr
    refine ⟨_, h1, (h.toString, r.toJSON.fixed env.json.fix), h2.mem_iff.2 (List.mem_map.2 ⟨(h.toString, r.toJSON), ?_, rfl⟩), rfl⟩
    exact List.mem_map.2 ⟨(h, r), hx, rfl⟩

theorem restartable_whole {ind : IndexFile} (hw : WFIdx d ind) (hf : fs (indexPath d) = some (env.json.enc ind.toJSON)) :
    Restartable env d fs ↔ ∀ h, mapGet ind.index h ≠ none → WholeWords (fs (progressPath d h)) := by
  obtain ⟨h1, h2⟩ := dec_whole (env := env) hw
  constructor
  · intro hr h hm
    exact (hr _ hf).2 h ((h2 h).2 hm)
  · intro hr b hb
    rw [hf] at hb; cases hb
    exact ⟨h1, fun h hn => hr h ((h2 h).1 hn)⟩

theorem restartable_torn {ind : IndexFile} {data : Bytes} (hp : data <+: env.json.enc ind.toJSON) (hne : data ≠ env.json.enc ind.toJSON)
    (hf : fs (indexPath d) = some data) : ¬ Restartable env d fs :=
  fun hr => (hr _ hf).1 (env.json.dec_prefix _ _ hp hne)

/-- C120: after any history and any death, the next daemon starts and can list its files if and only if there is no index file, or it can be read and every file that it names has a
progress file of whole words. -/
theorem C120_usable_iff (hh : Healthy env d) (hreach : Reach env d dl (.stopped fs)) : Usable env d dl fs ↔ Restartable env d fs := by
  have hD : DiskOK env d fs := hreach.inv hh.abs hh.utf8
  constructor
  · rintro ⟨s2, h5, h6⟩ b hb
    obtain ⟨ind, hw, hp⟩ := hD.index b hb
    have hwhole : b = env.json.enc ind.toJSON := by
      apply Classical.byContradiction
      intro hne
      have hdec := env.json.dec_prefix _ _ hp hne
      unfold Cat.init at h5
      simp only [IOM.bind_apply, getCat_apply, setIndex_eval, osTouch_nil, osStat_nil, hb, Option.map_some, IOM.pure_apply, osReadFile_nil, IOM.lift_apply, unmarshalIndex, hdec] at h5
      cases h5
    subst hwhole
    obtain ⟨g1, g2⟩ := dec_whole (env := env) hw
    refine ⟨g1, fun h hn => ?_⟩
    apply Classical.byContradiction
    intro hbad
    have hst : StuckDisk env d h fs := ⟨not_wholeWords hbad, _, ind, hb, hw, List.prefix_refl _, (g2 h).1 hn⟩
    have hsteps : Steps env d dl (.stopped fs) (.running s2.cat s2.fs) := by
      have := Step.start (env := env) (d := d) (dl := dl) env.pid env.now [] fs
      have e : ({ env with pid := env.pid, now := env.now } : Env) = env := rfl
      rw [e, h5] at this
      exact (Steps.refl _).step this
    obtain ⟨h7, -⟩ := C31_forever hh hreach hst hsteps []
    obtain ⟨ind', h8, -⟩ := (hreach.trans hsteps).inv hh.abs hh.utf8 |>.mem
    have ho : MapOrder s2.cat (ind'.index.map (·.1)) := ⟨ind', h8, List.Perm.refl _⟩
    obtain ⟨es, s3, h9⟩ := h6 _ ho
    exact (h7 _ ho).2 es s3 h9
  · intro hr
    rcases hf : fs (indexPath d) with _ | b
    · refine ⟨_, init_nil_fresh env d dl none fs hh.utf8 hf, fun order ho => ?_⟩
      obtain ⟨ind, h1, h2⟩ := ho
      cases h1
      have : order = [] := by
        have := h2.length_eq
        exact List.length_eq_zero_iff.1 (by rw [this]; rfl)
      subst this
      exact ⟨[], _, rfl⟩
    · obtain ⟨ind, hw, hp⟩ := hD.index b hf
      have hwhole : b = env.json.enc ind.toJSON := by
        apply Classical.byContradiction
        intro hne
        exact restartable_torn hp hne hf hr
      subst hwhole
      have hall := (restartable_whole hw hf).1 hr
      obtain ⟨m, h1, h2, h3⟩ := init_nil_old env d dl none fs ind hw.nodup hf
      have hI : Inv env d dl ⟨d, dl, some ⟨ind.pid, ind.lastTouched, m, env.json.fix ind.dataDir⟩⟩ fs := by
        have := Step.start (env := env) (d := d) (dl := dl) env.pid env.now [] fs
        have e : ({ env with pid := env.pid, now := env.now } : Env) = env := rfl
        rw [e, h1] at this
        exact (hreach.trans ((Steps.refl _).step this)).inv hh.abs hh.utf8
      obtain ⟨_, e1, hw'⟩ := hI.split
      cases e1
      refine ⟨_, h1, fun order ho => ?_⟩
      obtain ⟨_, e2, hperm⟩ := ho
      cases e2
      unfold listFiles
      rw [IOM.bind_apply, getIndex_eval]
      refine listLoop_nil_total hD order _ hw' (fun h hmem => ?_)
      obtain ⟨x, hx, rfl⟩ := List.mem_map.1 (hperm.mem_iff.1 hmem)
      have hg := mapGet_of_mem m x.1 x.2 h2 hx
      have h4 := h3 x.1
      rw [hg] at h4
      obtain ⟨r0, h5, h6⟩ := Option.map_eq_some_iff.1 h4.symm
      obtain ⟨p, b, hp1, hp2⟩ := (wholeWords_iff _).1 (hall x.1 (by rw [h5]; exact fun h => by cases h))
      refine ⟨x.2.exportWith ⟨b, progressPath d x.1⟩, ?_⟩
      have hown := hw'.own x.1 x.2 hx
      unfold obsRec
      simp only [hg]
      unfold viewProgress
      rw [← h6] at hown ⊢
      simp only [Record.reloaded] at hown ⊢
      rw [hown, hp1]
      simp only [hp2]
      rfl

theorem restartable_now (hh : Healthy env d) (hclean : CleanReach env d dl (.running c fs)) : Restartable env d fs := by
  obtain ⟨ind, rfl, hs⟩ := hclean.sync hh.abs hh.utf8
  obtain ⟨ind0, g1, g2, g3⟩ := hs.index
  refine (restartable_whole g1 g2).2 (fun h hm => ?_)
  obtain ⟨r0, hr0⟩ := Option.ne_none_iff_exists'.1 hm
  have h3 := g3 h
  rw [hr0] at h3
  obtain ⟨r, hr, -⟩ := Option.map_eq_some_iff.1 h3.symm
  obtain ⟨p, -, h5, -⟩ := hs.prog h r hr
  have hk : r.sha1Hash = h := by
    obtain ⟨_, e1, hw⟩ := (hclean.reach.inv hh.abs hh.utf8 : Inv env d dl _ fs).split
    cases e1
    exact hw.ownGet _ _ hr
  rw [wholeWords_iff]
  unfold viewProgress at h5
  simp only [hk] at h5
  rcases hf : fs (progressPath d h) with _ | x
  · rw [hf] at h5; cases h5
  · rw [hf] at h5
    simp only at h5
    obtain ⟨b, hb1, -⟩ := (Res.bind_ok_iff _ _ _).1 h5
    exact ⟨x, b, rfl, hb1⟩

/-- `AddIndexRecord` dying in the write of the index. -/
theorem addIndexRecord_dies (env : Env) (r : Record) (d dl : Path) (ind : IndexFile) (fs : FS) (eff : Option Nat) (fl : List Fault) (hm : mapGet ind.index r.sha1Hash = none) :
    ∃ s', addIndexRecord env r ⟨⟨d, dl, some ind⟩, fs, .crash eff :: fl⟩ = (.crash, s') ∧
      s'.fs = match eff with
        | none => fs
        | some k => fs.put (indexPath ind.dataDir) (some ((env.json.enc ({ ind with index := mapPut ind.index r.sha1Hash r } : IndexFile).toJSON).take k)) := by
  unfold addIndexRecord
  rw [IOM.bind_apply, getIndex_eval]
  simp only
  rw [hm]
  cases eff with
  | none => exact ⟨_, rfl, rfl⟩
  | some k => exact ⟨_, rfl, rfl⟩

/-- The index is cut short or names a file without progress. -/
theorem not_restartable_added (hh : Healthy env d) {ind : IndexFile} (hw : WFIdx d ind) (r : Record) (hr : RecOK d r) (hf : fs (progressPath d r.sha1Hash) = none) (k : Nat) :
    ¬ Restartable env d (fs.put (indexPath ind.dataDir) (some ((env.json.enc ({ ind with index := mapPut ind.index r.sha1Hash r } : IndexFile).toJSON).take k))) := by
  have hp : indexPath ind.dataDir = indexPath d := by rw [hw.dir]
  rw [hp]
  by_cases hk : (env.json.enc ({ ind with index := mapPut ind.index r.sha1Hash r } : IndexFile).toJSON).take k = env.json.enc ({ ind with index := mapPut ind.index r.sha1Hash r } : IndexFile).toJSON
  · rw [hk, restartable_whole (hw.put r hr) (FS.put_same _ _ _)]
    intro hall
    obtain ⟨p, hp, -⟩ := hall r.sha1Hash (by simp only; rw [mapGet_put, if_pos rfl]; simp)
    rw [FS.put_other _ _ _ _ (fun e => indexPath_ne_progressPath d d hh.abs hh.abs _ e.symm), hf] at hp
    cases hp
  · exact restartable_torn (List.take_prefix _ _) hk (FS.put_same _ _ _)

/-- The index is whole and everything depends on the progress file of the new record. -/
theorem restartable_added (hh : Healthy env d) {ind : IndexFile} (hw : WFIdx d ind) (hold : ∀ h, mapGet ind.index h ≠ none → WholeWords (fs (progressPath d h))) (r : Record) (hr : RecOK d r)
    (o : Option Bytes) :
    Restartable env d ((fs.put (indexPath ind.dataDir) (some (env.json.enc ({ ind with index := mapPut ind.index r.sha1Hash r } : IndexFile).toJSON))).put (progressPath d r.sha1Hash) o) ↔ WholeWords o := by
  have hp : indexPath ind.dataDir = indexPath d := by rw [hw.dir]
  rw [hp, restartable_whole (hw.put r hr) (by
    rw [FS.put_other _ _ _ _ (indexPath_ne_progressPath d d hh.abs hh.abs _), FS.put_same])]
  constructor
  · intro hall
    have := hall r.sha1Hash (by simp only; rw [mapGet_put, if_pos rfl]; simp)
    rw [FS.put_same] at this
    exact this
  · intro ho h hne
    simp only at hne
    rw [mapGet_put] at hne
    by_cases hk : r.sha1Hash = h
    · subst hk; rw [FS.put_same]; exact ho
    · rw [FS.put_other _ _ _ _ (fun e => hk (progressPath_inj d hh.abs _ _ e).symm), FS.put_other _ _ _ _ (fun e => indexPath_ne_progressPath d d hh.abs hh.abs _ e.symm)]
      rw [if_neg hk] at hne
      exact hold h hne

theorem whole_now (hh : Healthy env d) {ind : IndexFile} (hclean : CleanReach env d dl (.running ⟨d, dl, some ind⟩ fs)) (h : Sha1Hash) (hm : mapGet ind.index h ≠ none) :
    WholeWords (fs (progressPath d h)) := by
  obtain ⟨_, e1, hs⟩ := hclean.sync hh.abs hh.utf8
  cases e1
  obtain ⟨ind0, g1, g2, g3⟩ := hs.index
  refine (restartable_whole g1 g2).1 (restartable_now hh hclean) h (fun hn => hm ?_)
  have h3 := g3 h
  rw [hn] at h3
  exact Option.map_eq_none_iff.1 h3.symm

/-- The first `k` bytes of a progress file. -/
theorem wholeWords_cut (b : Bitset) (hb : b.Wf) (k : Nat) : WholeWords (some (b.serialize.take k)) ↔ 8 ≤ k ∧ (k % 8 = 0 ∨ 8 + 8 * ((b.size.toNat + 63) / 64) ≤ k) := by
  have hl := Bitset.serialize_length b
  rw [hb.len] at hl
  unfold WholeWords
  constructor
  · rintro ⟨p, e, h1, h2⟩
    cases e
    rw [List.length_take, hl] at h1 h2
    refine ⟨by omega, ?_⟩
    by_cases hk : 8 + 8 * ((b.size.toNat + 63) / 64) ≤ k
    · exact .inr hk
    · exact .inl (by omega)
  · rintro ⟨h1, h2⟩
    refine ⟨_, rfl, ?_, ?_⟩
    · rw [List.length_take, hl]; omega
    · rw [List.length_take, hl]; omega

/-- C120: the two operations of `RegisterDownload`, for any honest description of a new file.  Dying at the write of the index is harmless only if nothing was written.  Dying at the write of the
progress file is harmless only if whole words, one at least, were written. -/
theorem C120_register (hh : Healthy env d) (hclean : CleanReach env d dl (.running c fs)) (size : UInt64) (cs : UInt32) (h : Sha1Hash) (name : GoString) (hsize : size.toNat < 2 ^ 63)
    (hcs : 0 < cs.toNat) (hnew : observe c fs h = .err .fileNotFound) (eff : Option Nat) :
    (∃ s', registerDownload env size cs h name ⟨c, fs, [.crash eff]⟩ = (.crash, s') ∧ (Usable env d dl s'.fs ↔ eff = none)) ∧
    (∃ s', registerDownload env size cs h name ⟨c, fs, [.none, .crash eff]⟩ = (.crash, s') ∧
      (Usable env d dl s'.fs ↔ ∃ k, eff = some k ∧ 8 ≤ k ∧ (k % 8 = 0 ∨ 8 + 8 * (((size.toNat + cs.toNat - 1) / cs.toNat + 63) / 64) ≤ k))) := by
  have hf : fs (progressPath d h) = none := unknown_no_progress hh.abs hh.utf8 hclean.reach hnew
  have hI : Inv env d dl c fs := hclean.reach.inv hh.abs hh.utf8
  obtain ⟨ind, rfl, hw⟩ := hI.split
  have hm := mapGet_of_unknown hf hnew hw
  have hrec : RecOK d (downloadRecord dl size cs h name) :=
    ⟨by show (0 : Int) ≤ (cs.toNat : Int); omega, by show (cs.toNat : Int) < 2 ^ 32; have := cs.toNat_lt; omega, fun p hp => (by cases hp)⟩
  constructor
  · obtain ⟨s', h1, h2⟩ := addIndexRecord_dies env (downloadRecord dl size cs h name) d dl ind fs eff [] hm
    have hrun : registerDownload env size cs h name ⟨⟨d, dl, some ind⟩, fs, [.crash eff]⟩ = (.crash, s') := by
      unfold registerDownload
      rw [IOM.bind_apply, getCat_apply]
      simp only
      rw [IOM.bind_apply]
      unfold downloadRecord at h1
      rw [h1]
    have hstop : Reach env d dl (.stopped s'.fs) := hclean.reach.dies (.register size cs h name) trivial [.crash eff] (h := CM.void_dies _ _ _ _ hrun (.inl rfl))
    refine ⟨s', hrun, (C120_usable_iff hh hstop).trans ?_⟩
    rw [h2]
    cases eff with
    | none => exact ⟨fun _ => rfl, fun _ => restartable_now hh hclean⟩
    | some k => exact ⟨fun hr => absurd hr (not_restartable_added hh hw _ hrec hf k), fun e => by cases e⟩
  · have hsz : (downloadRecord dl size cs h name).sizeInBytes = size.toNat := by
      have := asInt64_ofNat size.toNat hsize
      rw [UInt64.ofNat_toNat] at this
      exact this
    obtain ⟨p, hp⟩ := newProgressFile_total (downloadRecord dl size cs h name) d size.toNat cs.toNat hsz rfl hsize hcs
    obtain ⟨hpp, hpw, hcount, -⟩ := newProgressFile_ok _ (asInt64_lt _) hrec.1 p hp
    rw [hsz, show (downloadRecord dl size cs h name).chunkSize = (cs.toNat : Int) from rfl, C25_count _ _ hcs] at hcount
    have hn : p.progress.size.toNat = (size.toNat + cs.toNat - 1) / cs.toNat := by
      rw [← Res.ok.inj hcount]; exact Int.toNat_natCast _
    obtain ⟨s', hrun, hfs⟩ : ∃ s', registerDownload env size cs h name ⟨⟨d, dl, some ind⟩, fs, [.none, .crash eff]⟩ = (.crash, s') ∧
        s'.fs = match eff with
          | none => fs.put (indexPath ind.dataDir) (some (env.json.enc ({ ind with index := mapPut ind.index h (downloadRecord dl size cs h name) } : IndexFile).toJSON))
          | some k => (fs.put (indexPath ind.dataDir) (some (env.json.enc ({ ind with index := mapPut ind.index h (downloadRecord dl size cs h name) } : IndexFile).toJSON))).put
              p.filePath (some (p.progress.serialize.take k)) := by
      have hadd := addIndexRecord_one env (downloadRecord dl size cs h name) d dl ind fs [.crash eff] hm
      unfold registerDownload
      rw [IOM.bind_apply, getCat_apply]
      simp only
      rw [IOM.bind_apply]
      unfold downloadRecord at hadd hp ⊢
      rw [hadd]
      simp only
      rw [IOM.bind_apply, getCat_apply]
      simp only
      rw [IOM.bind_apply, IOM.lift_apply, hp]
      cases eff with
      | none => exact ⟨_, rfl, rfl⟩
      | some k => exact ⟨_, rfl, rfl⟩
    have hstop : Reach env d dl (.stopped s'.fs) := hclean.reach.dies (.register size cs h name) trivial _ (h := CM.void_dies _ _ _ _ hrun (.inl rfl))
    refine ⟨s', hrun, (C120_usable_iff hh hstop).trans ?_⟩
    rw [hfs]
    cases eff with
    | none =>
      have := not_restartable_added hh hw _ hrec hf (env.json.enc ({ ind with index := mapPut ind.index h (downloadRecord dl size cs h name) } : IndexFile).toJSON).length
      refine ⟨fun hr => absurd hr ?_, fun ⟨_, e, _⟩ => by cases e⟩
      have e : (downloadRecord dl size cs h name).sha1Hash = h := rfl
      rw [e, List.take_length] at this
      exact this
    | some k =>
      simp only
      rw [show p.filePath = progressPath d (downloadRecord dl size cs h name).sha1Hash from hpp]
      refine (restartable_added hh hw (whole_now hh hclean) _ hrec _).trans ((wholeWords_cut _ hpw k).trans ?_)
      rw [hn]
      exact ⟨fun hx => ⟨k, rfl, hx⟩, fun ⟨_, e, hx⟩ => by cases e; exact hx⟩

/-- C120: the four operations of `ShareFile` of a new file: finding it, reading it, the write of the index, the write of the progress file. -/
theorem C120_share (hh : Healthy env d) (hclean : CleanReach env d dl (.running c fs)) (path : GoString) (content : Bytes) (hc : fs (absPath env.cwd path) = some content)
    (hsz : content.length < 2 ^ 63) (hnew : observe c fs (env.sha1 content) = .err .fileNotFound) (eff : Option Nat) :
    (∃ s', shareFile env path ⟨c, fs, [.crash eff]⟩ = (.crash, s') ∧ Usable env d dl s'.fs) ∧
    (∃ s', shareFile env path ⟨c, fs, [.none, .crash eff]⟩ = (.crash, s') ∧ Usable env d dl s'.fs) ∧
    (∃ s', shareFile env path ⟨c, fs, [.none, .none, .crash eff]⟩ = (.crash, s') ∧ (Usable env d dl s'.fs ↔ eff = none)) ∧
    (∃ s', shareFile env path ⟨c, fs, [.none, .none, .none, .crash eff]⟩ = (.crash, s') ∧
      (Usable env d dl s'.fs ↔ ∃ k, eff = some k ∧ 8 ≤ k ∧ (k % 8 = 0 ∨ 8 + 8 * (((content.length + 4194303) / 4194304 + 63) / 64) ≤ k))) := by
  have hf : fs (progressPath d (env.sha1 content)) = none := unknown_no_progress hh.abs hh.utf8 hclean.reach hnew
  have hI : Inv env d dl c fs := hclean.reach.inv hh.abs hh.utf8
  obtain ⟨ind, rfl, hw⟩ := hI.split
  have hm := mapGet_of_unknown hf hnew hw
  have hu : Usable env d dl fs := (C31_partial hh hclean).1
  let rec0 : Record := { filePath := absPath env.cwd path, sizeInBytes := asInt64 (UInt64.ofNat content.length), sha1Hash := env.sha1 content, progressFile := none, chunkSize := defaultChunkSize }
  have hrec : RecOK d rec0 := ⟨by show (0 : Int) ≤ 4194304; decide, by show (4194304 : Int) < 2 ^ 32; decide, fun p hp => (by cases hp)⟩
  have hgen : ∀ fl, generateIndexRecordForFile env path ⟨⟨d, dl, some ind⟩, fs, .none :: .none :: fl⟩ = (.ok rec0, ⟨⟨d, dl, some ind⟩, fs, fl⟩) := by
    intro fl
    unfold generateIndexRecordForFile osStat osHashFile osReadFile
    simp only [IOM.bind_apply, nextFault, getFS_apply, IOM.pure_apply, hc, Option.map_some]
    rfl
  refine ⟨?_, ?_, ?_, ?_⟩
  · refine ⟨⟨⟨d, dl, some ind⟩, fs, []⟩, ?_, hu⟩
    unfold shareFile generateIndexRecordForFile osStat
    simp only [IOM.bind_apply, nextFault, IOM.lift_apply]
  · refine ⟨⟨⟨d, dl, some ind⟩, fs, []⟩, ?_, hu⟩
    unfold shareFile generateIndexRecordForFile osStat osHashFile osReadFile
    simp only [IOM.bind_apply, nextFault, IOM.lift_apply, getFS_apply, IOM.pure_apply, hc, Option.map_some]
  · obtain ⟨s', h1, h2⟩ := addIndexRecord_dies env rec0 d dl ind fs eff [] hm
    have hrun : shareFile env path ⟨⟨d, dl, some ind⟩, fs, [.none, .none, .crash eff]⟩ = (.crash, s') := by
      unfold shareFile
      rw [IOM.bind_apply, hgen]
      simp only
      rw [IOM.bind_apply, h1]
    have hstop : Reach env d dl (.stopped s'.fs) := hclean.reach.dies (.share path) trivial _ (h := CM.void_dies _ _ _ _ hrun (.inl rfl))
    refine ⟨s', hrun, (C120_usable_iff hh hstop).trans ?_⟩
    rw [h2]
    cases eff with
    | none => exact ⟨fun _ => rfl, fun _ => restartable_now hh hclean⟩
    | some k => exact ⟨fun hr => absurd hr (not_restartable_added hh hw _ hrec hf k), fun e => by cases e⟩
  · obtain ⟨p, hp⟩ := newProgressFile_total rec0 d content.length 4194304 (asInt64_ofNat _ hsz) rfl hsz (by decide)
    obtain ⟨hpp, hpw, hcount, -⟩ := newProgressFile_ok _ (asInt64_lt _) (by show (0 : Int) ≤ 4194304; decide) p hp
    rw [show rec0.sizeInBytes = (content.length : Int) from asInt64_ofNat _ hsz, show rec0.chunkSize = ((4194304 : Nat) : Int) from rfl, C25_count _ _ (by decide)] at hcount
    have hn : p.progress.size.toNat = (content.length + 4194303) / 4194304 := by
      rw [← Res.ok.inj hcount, Int.toNat_natCast, show content.length + 4194304 - 1 = content.length + 4194303 by omega]
    obtain ⟨dd, e1, hlen, -⟩ := Bitset.fill_eq p.progress hpw
    have hfl : ∀ k, WholeWords (some ((⟨dd, p.progress.size⟩ : Bitset).serialize.take k)) ↔ 8 ≤ k ∧ (k % 8 = 0 ∨ 8 + 8 * ((p.progress.size.toNat + 63) / 64) ≤ k) :=
      fun k => wholeWords_cut ⟨dd, p.progress.size⟩ hlen k
    obtain ⟨s', hrun, hfs⟩ : ∃ s', shareFile env path ⟨⟨d, dl, some ind⟩, fs, [.none, .none, .none, .crash eff]⟩ = (.crash, s') ∧
        s'.fs = match eff with
          | none => fs.put (indexPath ind.dataDir) (some (env.json.enc ({ ind with index := mapPut ind.index (env.sha1 content) rec0 } : IndexFile).toJSON))
          | some k => (fs.put (indexPath ind.dataDir) (some (env.json.enc ({ ind with index := mapPut ind.index (env.sha1 content) rec0 } : IndexFile).toJSON))).put
              p.filePath (some ((⟨dd, p.progress.size⟩ : Bitset).serialize.take k)) := by
      unfold shareFile
      rw [IOM.bind_apply, hgen]
      simp only
      rw [IOM.bind_apply, addIndexRecord_one env rec0 d dl ind fs [.crash eff] hm]
      simp only
      rw [IOM.bind_apply, getCat_apply]
      simp only
      rw [IOM.bind_apply, IOM.lift_apply, hp]
      simp only
      rw [IOM.bind_apply, updateRecord_eval]
      simp only
      rw [IOM.bind_apply, IOM.lift_apply, e1]
      cases eff with
      | none => exact ⟨_, rfl, rfl⟩
      | some k => exact ⟨_, rfl, rfl⟩
    have hstop : Reach env d dl (.stopped s'.fs) := hclean.reach.dies (.share path) trivial _ (h := CM.void_dies _ _ _ _ hrun (.inl rfl))
    refine ⟨s', hrun, (C120_usable_iff hh hstop).trans ?_⟩
    rw [hfs]
    cases eff with
    | none =>
      have := not_restartable_added hh hw _ hrec hf (env.json.enc ({ ind with index := mapPut ind.index (env.sha1 content) rec0 } : IndexFile).toJSON).length
      refine ⟨fun hr => absurd hr ?_, fun ⟨_, e, _⟩ => by cases e⟩
      have e : rec0.sha1Hash = env.sha1 content := rfl
      rw [e, List.take_length] at this
      exact this
    | some k =>
      simp only
      rw [show p.filePath = progressPath d rec0.sha1Hash from hpp]
      refine (restartable_added hh hw (whole_now hh hclean) rec0 hrec _).trans ((hfl k).trans ?_)
      rw [hn]
      exact ⟨fun hx => ⟨k, rfl, hx⟩, fun ⟨_, e, hx⟩ => by cases e; exact hx⟩

/-- Replacing the progress file of one file that the index names. -/
theorem restartable_progress (hh : Healthy env d) (hclean : CleanReach env d dl (.running c fs)) {h : Sha1Hash} {e : Export} (ho : observe c fs h = .ok e) (o : Option Bytes) :
    Restartable env d (fs.put (progressPath d h) o) ↔ WholeWords o := by
  have hnow := restartable_now hh hclean
  obtain ⟨ind, rfl, hs⟩ := hclean.sync hh.abs hh.utf8
  obtain ⟨ind0, g1, g2, g3⟩ := hs.index
  rw [restartable_whole g1 (by rw [FS.put_other _ _ _ _ (indexPath_ne_progressPath d d hh.abs hh.abs _)]; exact g2)]
  have hin : mapGet ind0.index h ≠ none := by
    intro hx
    have h3 := g3 h
    rw [hx] at h3
    rw [observe_eq] at ho
    unfold obsRec at ho
    rw [Option.map_eq_none_iff.1 h3.symm] at ho
    cases ho
  constructor
  · intro hall
    have := hall h hin
    rw [FS.put_same] at this
    exact this
  · intro hw h' hne
    by_cases hk : h' = h
    · rw [hk, FS.put_same]; exact hw
    · rw [FS.put_other _ _ _ _ (fun e => hk (progressPath_inj d hh.abs _ _ e))]
      exact (restartable_whole g1 g2).1 hnow h' hne

/-- C120: `SaveChunk` of a known file, however it fails and wherever the process ends in it: the next daemon works if and only if the progress file of this file consists of whole words. -/
theorem C120_save (hh : Healthy env d) (hclean : CleanReach env d dl (.running c fs)) (h : Sha1Hash) (e : Export) (ho : observe c fs h = .ok e) (hpath : ¬ CatFile d e.filePath) (n : UInt16)
    (hn : (n.toNat : Int) < e.progress.sizeOf) (data : Bytes) (fl : List Fault) (r : Res Unit) (s' : St) (hrun : saveChunk h n data ⟨c, fs, fl⟩ = (r, s')) (hr : ∀ x, r ≠ .ok x) :
    Usable env d dl s'.fs ↔ WholeWords (s'.fs (progressPath d h)) := by
  have hsafe : (Op.save h n data).Safe d c := by
    intro p hp
    rw [observe_path hh hclean.reach h e ho] at hp
    cases hp; exact hpath
  rw [C120_usable_iff hh (save_stops hclean.reach hsafe hrun)]
  obtain ⟨b, -, -, -, k, -, hout, -⟩ := save_disk (data := data) hh hclean ho hpath hn
  have hput : ∀ y, CleanReach env d dl (.running c (fs.put e.filePath (some y))) := fun y => CleanReach.userRunning _ _ _ _ hpath hclean
  have hobs : ∀ y, observe c (fs.put e.filePath (some y)) h = .ok e := fun y => by rw [observe_user hh hclean.reach _ _ hpath]; exact ho
  have hsame : ∀ f, CleanReach env d dl (.running c f) → observe c f h = .ok e → (Restartable env d f ↔ WholeWords (f (progressPath d h))) := by
    intro f hc hobs
    have := restartable_progress hh hc hobs (f (progressPath d h))
    rwa [show f.put (progressPath d h) (f (progressPath d h)) = f from funext fun q => by rw [FS.put_apply]; split <;> simp_all] at this
  rcases hout fl r s' hrun hr with (h1 | ⟨y, h1⟩) | ⟨j, y, h1⟩
  · rw [h1]; exact hsame _ hclean ho
  · rw [h1]; exact hsame _ (hput y) (hobs y)
  · rw [h1, FS.put_same]
    exact restartable_progress hh (hput y) (hobs y) _

/-- Loading the record of a known file takes no operation or one. -/
theorem getIndexRecord_pre (hh : Healthy env d) {ind : IndexFile} (hclean : CleanReach env d dl (.running ⟨d, dl, some ind⟩ fs)) (hw : WFIdx d ind) {h : Sha1Hash} {r : Record}
    (hm : mapGet ind.index h = some r) : ∃ pre p ind', (pre = [] ∨ pre = [Fault.none]) ∧ p.filePath = progressPath d h ∧ WFIdx d ind' ∧
      (∀ k, mapGet ind'.index k = none ↔ mapGet ind.index k = none) ∧
      (∀ fl, getIndexRecord h ⟨⟨d, dl, some ind⟩, fs, pre ++ fl⟩ = (.ok { r with progressFile := some p }, ⟨⟨d, dl, some ind'⟩, fs, fl⟩)) ∧
      getIndexRecord h ⟨⟨d, dl, some ind⟩, fs, []⟩ = (.ok { r with progressFile := some p }, ⟨⟨d, dl, some ind'⟩, fs, []⟩) ∧
      (pre ≠ [] → ∀ eff, getIndexRecord h ⟨⟨d, dl, some ind⟩, fs, [.crash eff]⟩ = (.crash, ⟨⟨d, dl, some ind⟩, fs, []⟩)) := by
  obtain ⟨_, e1, hs⟩ := hclean.sync hh.abs hh.utf8
  cases e1
  have hI : Inv env d dl _ fs := hclean.reach.inv hh.abs hh.utf8
  obtain ⟨p, h4, h5, h6⟩ := hs.prog h r hm
  have hk : r.sha1Hash = h := hw.ownGet _ _ hm
  have hrec := hw.recs _ _ (mapGet_mem _ _ _ hm)
  obtain ⟨hpp, hpl⟩ := viewProgress_loaded hI.disk hrec h4
  rw [hk] at hpp
  cases hpf : r.progressFile with
  | some q =>
    have hq : q = p := by unfold viewProgress at h4; rw [hpf] at h4; cases h4; rfl
    subst hq
    have key : ∀ fl, getIndexRecord h ⟨⟨d, dl, some ind⟩, fs, fl⟩ = (.ok { r with progressFile := some q }, ⟨⟨d, dl, some ind⟩, fs, fl⟩) := by
      intro fl
      unfold getIndexRecord
      rw [IOM.bind_apply, getIndex_eval]
      simp only
      rw [hm]
      simp only
      unfold fillRecord
      rw [hpf]
      cases r; simp only at hpf; subst hpf; rfl
    exact ⟨[], q, ind, .inl rfl, hpp, hw, fun _ => Iff.rfl, key, key [], fun hx => absurd rfl hx⟩
  | none =>
    obtain ⟨bytes, hb⟩ : ∃ bytes, fs (progressPath d h) = some bytes := by
      obtain ⟨x, hx, -⟩ := whole_now hh hclean h (by rw [hm]; exact Option.some_ne_none _)
      exact ⟨x, hx⟩
    have hv : Bitset.deserialize bytes = .ok p.progress := by
      unfold viewProgress at h4
      rw [hpf, hk, hb] at h4
      simp only at h4
      obtain ⟨b, hb1, hb2⟩ := (Res.bind_ok_iff _ _ _).1 h4
      cases hb2; exact hb1
    have hpe : p = ⟨p.progress, progressPath d h⟩ := by rw [← hpp]
    have key : ∀ fl fl', (fl = .none :: fl' ∨ fl = [] ∧ fl' = []) → getIndexRecord h ⟨⟨d, dl, some ind⟩, fs, fl⟩ =
        (.ok { r with progressFile := some p }, ⟨⟨d, dl, some { ind with index := mapPut ind.index h { r with progressFile := some p } }⟩, fs, fl'⟩) := by
      intro fl fl' hfl
      unfold getIndexRecord
      rw [IOM.bind_apply, getIndex_eval]
      simp only
      rw [hm]
      simp only
      unfold fillRecord
      rw [hpf]
      simp only
      rw [IOM.bind_apply, getCat_apply]
      simp only
      unfold deserializeProgressFile osReadFile
      rcases hfl with rfl | ⟨rfl, rfl⟩
      · simp only [IOM.bind_apply, nextFault, getFS_apply, hk, hb, IOM.pure_apply, IOM.lift_apply, hv, updateRecord_eval]
        rw [← hpe]
      · simp only [IOM.bind_apply, nextFault, getFS_apply, hk, hb, IOM.pure_apply, IOM.lift_apply, hv, updateRecord_eval]
        rw [← hpe]
    refine ⟨[.none], p, { ind with index := mapPut ind.index h { r with progressFile := some p } }, .inr rfl, hpp, ?_, ?_, fun fl => key _ fl (.inl rfl), key _ _ (.inr ⟨rfl, rfl⟩), ?_⟩
    · have := hw.put { r with progressFile := some p } ⟨hrec.1, hrec.2, fun q hq => by cases hq; exact ⟨by rw [hpp]; exact congrArg _ hk.symm, hpl⟩⟩
      rwa [show mapPut ind.index ({ r with progressFile := some p } : Record).sha1Hash = mapPut ind.index h from congrArg _ hk] at this
    · intro k
      simp only
      rw [mapGet_put]
      by_cases hkk : h = k
      · rw [if_pos hkk, ← hkk, hm]; simp
      · rw [if_neg hkk]
    · intro _ eff
      unfold getIndexRecord
      rw [IOM.bind_apply, getIndex_eval]
      simp only
      rw [hm]
      simp only
      unfold fillRecord
      rw [hpf]
      simp only
      rw [IOM.bind_apply, getCat_apply]
      simp only
      unfold deserializeProgressFile osReadFile
      simp only [IOM.bind_apply, nextFault, IOM.lift_apply]

/-- C120: the operations of `UnshareFile` of a known file: reading its progress if it is not in memory yet, the removal of the progress file, the write of the index.  Dying is harmless only before
the removal and if the index was written as a completed call writes it. -/
theorem C120_unshare (hh : Healthy env d) (hclean : CleanReach env d dl (.running c fs)) (h : Sha1Hash) (e : Export) (ho : observe c fs h = .ok e) :
    ∃ pre : List Fault, (pre = [] ∨ pre = [.none]) ∧ ∀ eff,
      (pre ≠ [] → ∃ s', unshareFile env h ⟨c, fs, [.crash eff]⟩ = (.crash, s') ∧ Usable env d dl s'.fs) ∧
      (∃ s', unshareFile env h ⟨c, fs, pre ++ [.crash eff]⟩ = (.crash, s') ∧ (Usable env d dl s'.fs ↔ eff = none)) ∧
      (∃ s', unshareFile env h ⟨c, fs, pre ++ [.none, .crash eff]⟩ = (.crash, s') ∧
        (Usable env d dl s'.fs ↔ s'.fs (indexPath d) = (unshareFile env h ⟨c, fs, []⟩).2.fs (indexPath d))) := by
  have hu : Usable env d dl fs := (C31_partial hh hclean).1
  have hnow := restartable_now hh hclean
  have hI : Inv env d dl c fs := hclean.reach.inv hh.abs hh.utf8
  have hprog := restartable_progress hh hclean ho none
  have hnone : ¬ Restartable env d (fs.put (progressPath d h) none) := fun hr => by
    obtain ⟨_, hx, -⟩ := hprog.1 hr; cases hx
  obtain ⟨ind, rfl, hw⟩ := hI.split
  rw [observe_eq] at ho
  unfold obsRec at ho
  rcases hm : mapGet ind.index h with _ | r
  · rw [hm] at ho; cases ho
  have hk : r.sha1Hash = h := hw.ownGet _ _ hm
  obtain ⟨bytes, hb, -⟩ := whole_now hh hclean h (by rw [hm]; exact Option.some_ne_none _)
  obtain ⟨pre, p, ind', hpre, hpp, hw', hkeys, hget, hget0, hgetc⟩ := getIndexRecord_pre hh hclean hw hm
  have stop : ∀ fl s', unshareFile env h ⟨⟨d, dl, some ind⟩, fs, fl⟩ = (.crash, s') → Reach env d dl (.stopped s'.fs) :=
    fun fl s' hrun => hclean.reach.dies (.unshare h) trivial fl (h := .inl hrun)
  have hdone : (unshareFile env h ⟨⟨d, dl, some ind⟩, fs, []⟩).2.fs (indexPath d) = some (env.json.enc ({ ind' with index := mapDel ind'.index h } : IndexFile).toJSON) := by
    unfold unshareFile
    rw [IOM.bind_apply, hget0]
    simp only [ProgressFile.delete, osRemove, IOM.bind_apply, nextFault, getFS_apply, hpp, hb, setFile, IOM.modify, removeIndexRecord, getIndex_eval, setIndex_eval, hk, saveIndex_nil]
    rw [hw'.dir, FS.put_same]
  refine ⟨pre, hpre, fun eff => ⟨fun hne => ?_, ?_, ?_⟩⟩
  · refine ⟨⟨⟨d, dl, some ind⟩, fs, []⟩, ?_, hu⟩
    unfold unshareFile
    rw [IOM.bind_apply, hgetc hne]
  · obtain ⟨s', hrun, hfs⟩ : ∃ s', unshareFile env h ⟨⟨d, dl, some ind⟩, fs, pre ++ [.crash eff]⟩ = (.crash, s') ∧
        s'.fs = match eff with | none => fs | some _ => fs.put (progressPath d h) none := by
      unfold unshareFile
      rw [IOM.bind_apply, hget, ← hpp]
      cases eff with
      | none => exact ⟨_, rfl, rfl⟩
      | some k => exact ⟨_, rfl, rfl⟩
    refine ⟨s', hrun, (C120_usable_iff hh (stop _ _ hrun)).trans ?_⟩
    rw [hfs]
    cases eff with
    | none => exact ⟨fun _ => rfl, fun _ => hnow⟩
    | some k => exact ⟨fun hr => absurd hr hnone, fun e => by cases e⟩
  · obtain ⟨s', hrun, hfs⟩ : ∃ s', unshareFile env h ⟨⟨d, dl, some ind⟩, fs, pre ++ [.none, .crash eff]⟩ = (.crash, s') ∧
        s'.fs = match eff with
          | none => fs.put (progressPath d h) none
          | some k => (fs.put (progressPath d h) none).put (indexPath d) (some ((env.json.enc ({ ind' with index := mapDel ind'.index h } : IndexFile).toJSON).take k)) := by
      unfold unshareFile
      rw [IOM.bind_apply, hget]
      cases eff with
      | none =>
        refine ⟨⟨⟨d, dl, some { ind' with index := mapDel ind'.index h }⟩, fs.put (progressPath d h) none, []⟩, ?_, rfl⟩
        simp only [ProgressFile.delete, osRemove, IOM.bind_apply, nextFault, getFS_apply, hpp, hb, setFile, IOM.modify, removeIndexRecord, getIndex_eval, setIndex_eval, hk, saveIndex, osWriteFile,
          IOM.lift_apply, IOM.pure_apply]
      | some k =>
        refine ⟨⟨⟨d, dl, some { ind' with index := mapDel ind'.index h }⟩,
          (fs.put (progressPath d h) none).put (indexPath d) (some ((env.json.enc ({ ind' with index := mapDel ind'.index h } : IndexFile).toJSON).take k)), []⟩, ?_, rfl⟩
        simp only [ProgressFile.delete, osRemove, IOM.bind_apply, nextFault, getFS_apply, hpp, hb, setFile, IOM.modify, removeIndexRecord, getIndex_eval, setIndex_eval, hk, saveIndex, osWriteFile,
          IOM.lift_apply, hw'.dir]
    refine ⟨s', hrun, (C120_usable_iff hh (stop _ _ hrun)).trans ?_⟩
    rw [hfs, hdone]
    cases eff with
    | none =>
      refine ⟨fun hr => absurd hr hnone, fun hx => ?_⟩
      simp only at hx
      rw [FS.put_other _ _ _ _ (indexPath_ne_progressPath d d hh.abs hh.abs _)] at hx
      obtain ⟨_, e1, hs⟩ := hclean.sync hh.abs hh.utf8
      cases e1
      obtain ⟨ind0, g1, g2, g3⟩ := hs.index
      rw [g2] at hx
      have hN := ((dec_whole (env := env) g1).2 h).2 (fun hx' => by
        have h3 := g3 h
        rw [hx', hm] at h3
        cases h3)
      rw [Option.some.inj hx, (dec_whole (env := env) (hw'.del h)).2 h] at hN
      refine absurd ?_ hN
      simp only
      rw [mapGet_del, if_pos rfl]
    | some k =>
      simp only
      rw [FS.put_same]
      constructor
      · intro hr
        apply Classical.byContradiction
        intro hne
        exact restartable_torn (List.take_prefix _ _) (fun e => hne (congrArg some e)) (FS.put_same _ _ _) hr
      · intro hx
        rw [hx, restartable_whole (hw'.del h) (FS.put_same _ _ _)]
        intro k' hk'
        simp only at hk'
        rw [mapGet_del] at hk'
        by_cases hkk : h = k'
        · rw [if_pos hkk] at hk'; exact absurd rfl hk'
        · rw [if_neg hkk] at hk'
          rw [FS.put_other _ _ _ _ (fun e => indexPath_ne_progressPath d d hh.abs hh.abs _ e.symm), FS.put_other _ _ _ _ (fun e => hkk (progressPath_inj d hh.abs _ _ e).symm)]
          exact whole_now hh hclean k' (fun hx => hk' ((hkeys k').2 hx))

/-- C120: dying in the first start, at the write of the empty index: harmless only if nothing or all of it was written. -/
theorem C120_start (hh : Healthy env d) (hreach : Reach env d dl (.stopped fs)) (hf : fs (indexPath d) = none) (eff : Option Nat) :
    ∃ s', Cat.init env ⟨⟨d, dl, none⟩, fs, [.none, .none, .none, .crash eff]⟩ = (.crash, s') ∧
      (Usable env d dl s'.fs ↔ s'.fs (indexPath d) = none ∨ s'.fs (indexPath d) = (Cat.init env ⟨⟨d, dl, none⟩, fs, []⟩).2.fs (indexPath d)) := by
  have hw : WFIdx d (freshIdx env d) := ⟨rfl, by simp [freshIdx], fun _ _ h => (by cases h), fun _ _ h => (by cases h)⟩
  obtain ⟨s', hrun, hfs⟩ : ∃ s', Cat.init env ⟨⟨d, dl, none⟩, fs, [.none, .none, .none, .crash eff]⟩ = (.crash, s') ∧
      s'.fs = match eff with
        | none => fs
        | some k => fs.put (indexPath d) (some ((env.json.enc (freshIdx env d).toJSON).take k)) := by
    cases eff with
    | none =>
      refine ⟨⟨⟨d, dl, some (freshIdx env d)⟩, fs, []⟩, ?_, rfl⟩
      unfold Cat.init
      simp only [IOM.bind_apply, getCat_apply, setIndex_eval, osTouch, osStat, nextFault, getFS_apply, IOM.pure_apply, hf, Option.map_none, saveIndex, getIndex_eval, osWriteFile, IOM.lift_apply,
        freshIdx]
    | some k =>
      refine ⟨⟨⟨d, dl, some (freshIdx env d)⟩, fs.put (indexPath d) (some ((env.json.enc (freshIdx env d).toJSON).take k)), []⟩, ?_, rfl⟩
      unfold Cat.init
      simp only [IOM.bind_apply, getCat_apply, setIndex_eval, osTouch, osStat, nextFault, getFS_apply, IOM.pure_apply, hf, Option.map_none, saveIndex, getIndex_eval, osWriteFile, IOM.lift_apply,
        setFile, IOM.modify, freshIdx]
  have hstop : Reach env d dl (.stopped s'.fs) := by
    have := Step.start (env := env) (d := d) (dl := dl) env.pid env.now [.none, .none, .none, .crash eff] fs
    have e : ({ env with pid := env.pid, now := env.now } : Env) = env := rfl
    rw [e, hrun] at this
    exact hreach.trans ((Steps.refl _).step this)
  refine ⟨s', hrun, (C120_usable_iff hh hstop).trans ?_⟩
  rw [hfs, init_nil_fresh env d dl none fs hh.utf8 hf]
  cases eff with
  | none =>
    simp only
    exact ⟨fun _ => .inl hf, fun _ b hb => by rw [hf] at hb; cases hb⟩
  | some k =>
    simp only
    rw [FS.put_same, FS.put_same]
    constructor
    · intro hr
      apply Classical.byContradiction
      intro hne
      exact restartable_torn (List.take_prefix _ _) (fun e => hne (.inr (congrArg some e))) (FS.put_same _ _ _) hr
    · rintro (hx | hx)
      · cases hx
      · rw [hx, restartable_whole hw (FS.put_same _ _ _)]
        intro h hm
        exact absurd rfl hm

/-- An index that cannot be read stays: the start fails and writes nothing, whatever the disk does. -/
theorem s_init_torn {b : Bytes} {fs0 : FS} (hb : fs0 (indexPath d) = some b) (hdec : env.json.dec b = none) :
    Triple (fun c fs => c.dataDir = d ∧ fs = fs0) (Cat.init env) (fun _ _ _ => False) (fun _ fs => fs = fs0) := by
  have base : ∀ (c : Cat) (fs : FS), (c.dataDir = d ∧ fs = fs0) → fs = fs0 := fun _ _ h => h.2
  refine Triple.bind Triple.getCat ?_
  intro cat
  refine Triple.bind (Q := fun _ c fs => (c.dataDir = d ∧ fs = fs0) ∧ cat.dataDir = d) (Triple.setIndex _ ?_) ?_
  · rintro c fs ⟨⟨h1, h2⟩, rfl⟩; exact ⟨⟨h1, h2⟩, h1⟩
  intro _
  apply Triple.facts
  intro hcd
  rw [hcd]
  refine Triple.bind (Triple.osTouch base) ?_
  intro _
  refine Triple.bind (Triple.osTouch base) ?_
  intro _
  refine Triple.bind (Triple.osStat _ base) ?_
  intro o
  cases o with
  | some _ =>
    refine (Triple.bind (Triple.osReadFile _ base) ?_ : Triple (fun c fs => c.dataDir = d ∧ fs = fs0) (do
      let data ← osReadFile (indexPath d)
      let ind ← IOM.lift (unmarshalIndex env data)
      setIndex ind) (fun _ _ _ => False) (fun _ fs => fs = fs0)).pre (fun _ _ h => h.1)
    intro data
    refine Triple.bind (Q := fun _ _ _ => False) (Triple.lift _ ?_ (fun c fs h => h.1.2)) (fun _ s hs => hs.elim)
    rintro ind hu c fs ⟨⟨-, rfl⟩, hf⟩
    rw [hb] at hf; cases hf
    unfold unmarshalIndex at hu
    rw [hdec] at hu; cases hu
  | none =>
    rintro s ⟨⟨-, h1⟩, h2⟩
    rw [h1, hb] at h2
    cases h2

theorem init_torn {pid now : Int} {b : Bytes} (hb : fs (indexPath d) = some b) (hdec : env.json.dec b = none) (fl : List Fault) :
    afterInit (Cat.init { env with pid := pid, now := now } ⟨⟨d, dl, none⟩, fs, fl⟩).1 (Cat.init { env with pid := pid, now := now } ⟨⟨d, dl, none⟩, fs, fl⟩).2 = .stopped fs := by
  obtain ⟨h1, h2⟩ := s_init_torn (env := { env with pid := pid, now := now }) hb hdec ⟨⟨d, dl, none⟩, fs, fl⟩ ⟨rfl, rfl⟩
  rcases hrun : Cat.init { env with pid := pid, now := now } ⟨⟨d, dl, none⟩, fs, fl⟩ with ⟨r, s'⟩
  cases r with
  | ok x => exact (h1 x s' hrun).elim
  | _ =>
    have := h2 _ s' hrun (fun _ h => by cases h)
    rw [← this]
    rfl

/-- C120: otherwise the damage is for ever: whatever happens later, no daemon lists its files. -/
theorem C120_forever (hh : Healthy env d) (hreach : Reach env d dl (.stopped fs)) (hbad : ¬ Usable env d dl fs) {c' : Cat} {fs' : FS}
    (hsteps : Steps env d dl (.stopped fs) (.running c' fs')) (order : List Sha1Hash) (ho : MapOrder c' order) (fl : List Fault) (es : List Export) (s' : St) :
    listFiles order ⟨c', fs', fl⟩ ≠ (.ok es, s') := by
  rw [C120_usable_iff hh hreach] at hbad
  obtain ⟨b, hb, hx⟩ : ∃ b, fs (indexPath d) = some b ∧ ¬ (env.json.dec b ≠ none ∧ ∀ h, Named env b h → WholeWords (fs (progressPath d h))) := by
    apply Classical.byContradiction
    intro hno
    exact hbad (fun b hb => Classical.byContradiction (fun hn => hno ⟨b, hb, hn⟩))
  cases hdec : env.json.dec b with
  | none =>
    have key : ∀ t, Steps env d dl (.stopped fs) t → ∃ fs1, t = .stopped fs1 ∧ fs1 (indexPath d) = some b := by
      intro t ht
      induction ht with
      | refl => exact ⟨fs, rfl, hb⟩
      | step _ hst ih =>
        obtain ⟨fs1, rfl, h1⟩ := ih
        generalize hx : Sys.stopped fs1 = t1 at hst
        cases hst with
        | call => cases hx
        | kill => cases hx
        | start pid now fl fs2 =>
          cases hx
          exact ⟨_, init_torn h1 hdec fl, h1⟩
        | userRunning => cases hx
        | userStopped fs2 p content hp =>
          cases hx
          exact ⟨_, rfl, by rw [FS.put_other _ _ _ _ (fun e => hp (.inl e.symm))]; exact h1⟩
    obtain ⟨_, h, -⟩ := key _ hsteps
    cases h
  | some j =>
    obtain ⟨h, hn, hw⟩ : ∃ h, Named env b h ∧ ¬ WholeWords (fs (progressPath d h)) := by
      apply Classical.byContradiction
      intro hno
      refine hx ⟨by rw [hdec]; exact Option.some_ne_none _, fun h hn => Classical.byContradiction (fun hc => hno ⟨h, hn, hc⟩)⟩
    have hD : DiskOK env d fs := hreach.inv hh.abs hh.utf8
    obtain ⟨ind, hi, hp⟩ := hD.index b hb
    have hwhole : b = env.json.enc ind.toJSON := by
      apply Classical.byContradiction
      intro hne
      rw [env.json.dec_prefix _ _ hp hne] at hdec
      cases hdec
    subst hwhole
    have hst : StuckDisk env d h fs := ⟨not_wholeWords hw, _, ind, hb, hi, List.prefix_refl _, ((dec_whole hi).2 h).1 hn⟩
    exact ((C31_forever hh hreach hst hsteps fl).1 order ho).2 es s'

/-! ### Examples -/

/-- `C120_usable_iff`: a reachable disk on which it can be started. -/
example (sha1 : Bytes → Sha1Hash) (json : JsonCodec) : ∃ fs b, Reach (exEnv sha1 json) exDir exDown (.stopped fs) ∧ fs (indexPath exDir) = some b ∧ Restartable (exEnv sha1 json) exDir fs ∧
    Named (exEnv sha1 json) b (sha1 [1, 2, 3]) := by
  have hh := ex_healthy sha1 json
  obtain ⟨c, fs, b, h1, h2, h3, h4, h5, h6⟩ := ex_clean sha1 json
  have hstop : Reach (exEnv sha1 json) exDir exDown (.stopped fs) := by
    obtain ⟨fs0, k1, k2⟩ := h1.reach
    exact ⟨fs0, k1, k2.step (Step.kill _ _)⟩
  have hr := restartable_now hh h1
  obtain ⟨ind, rfl, hs⟩ := h1.sync hh.abs hh.utf8
  obtain ⟨ind0, g1, g2, g3⟩ := hs.index
  refine ⟨fs, _, hstop, g2, hr, ((dec_whole g1).2 _).2 (fun hx => ?_)⟩
  have h7 := g3 (sha1 [1, 2, 3])
  rw [hx] at h7
  rw [observe_eq] at h3
  unfold obsRec at h3
  rw [Option.map_eq_none_iff.1 h7.symm] at h3
  cases h3

/-- `C120_forever`: a registration that died before its progress file was written, and the daemon started after it. -/
example (sha1 : Bytes → Sha1Hash) (json : JsonCodec) (h : Sha1Hash) : ∃ fs c' fs', Reach (exEnv sha1 json) exDir exDown (.stopped fs) ∧ ¬ Usable (exEnv sha1 json) exDir exDown fs ∧
    Steps (exEnv sha1 json) exDir exDown (.stopped fs) (.running c' fs') := by
  obtain ⟨-, -, s', c', fs', hh, -, -, -, -, h1, h2, h3⟩ := ex_stuck sha1 json h
  refine ⟨s'.fs, c', fs', h1, ?_, h3⟩
  rw [C120_usable_iff hh h1]
  intro hr
  obtain ⟨b, ind, g1, g2, g3, g4⟩ := h2.index
  have hb : b = (exEnv sha1 json).json.enc ind.toJSON := Classical.byContradiction (fun hne => (hr _ g1).1 ((exEnv sha1 json).json.dec_prefix _ _ g3 hne))
  subst hb
  obtain ⟨p, q, h5, h6⟩ := (wholeWords_iff _).1 ((hr _ g1).2 h (((dec_whole g2).2 h).2 g4))
  exact h2.file p h5 q h6

/-- `C120_register`, `C120_share`: an empty catalogue, a description of ten bytes, the file `/f`. -/
example (sha1 : Bytes → Sha1Hash) (json : JsonCodec) (h : Sha1Hash) : ∃ c fs, CleanReach (exEnv sha1 json) exDir exDown (.running c fs) ∧ (10 : UInt64).toNat < 2 ^ 63 ∧ 0 < (4 : UInt32).toNat ∧
    observe c fs h = .err .fileNotFound ∧ fs (progressPath exDir h) = none ∧ fs (absPath (exEnv sha1 json).cwd [102]) = some [1, 2, 3] := by
  have hh := ex_healthy sha1 json
  refine ⟨_, _, CleanReach.fresh (exEnv sha1 json) exDir exDown hh.utf8 exFS ex_fs_clean, by decide, by decide, rfl, ?_, ex_file sha1 json⟩
  rw [FS.put_other _ _ _ _ (fun e => indexPath_ne_progressPath _ _ hh.abs hh.abs h e.symm)]
  exact ex_fs_clean _ (.inr ⟨h, rfl⟩)

/-- `C120_save`, `C120_unshare`: a registered download of three chunks, a save of the last one that dies at its first operation. -/
example (sha1 : Bytes → Sha1Hash) (json : JsonCodec) (h : Sha1Hash) : ∃ c fs e r s', CleanReach (exEnv sha1 json) exDir exDown (.running c fs) ∧ observe c fs h = .ok e ∧ ¬ CatFile exDir e.filePath ∧
    ((2 : UInt16).toNat : Int) < e.progress.sizeOf ∧ saveChunk h 2 [50] ⟨c, fs, [.crash none]⟩ = (r, s') ∧ ∀ x, r ≠ .ok x := by
  have hh := ex_healthy sha1 json
  obtain ⟨c, fs, e, s1, h1, h2, h3, h4, h5, h6, h7, h8, h9⟩ := ex_registered sha1 json h
  obtain ⟨-, ⟨b, hb, -, hc, -⟩, -⟩ := C29_register hh h1.reach 5 2 h [120] [] e s1 (by decide) (by decide) h2
  have hn : ((2 : UInt16).toNat : Int) < e.progress.sizeOf := by rw [hb]; show _ < b.sizeOf; rw [hc]; decide
  rcases hrun : saveChunk h 2 [50] ⟨s1.cat, s1.fs, [.crash none]⟩ with ⟨r, s'⟩
  refine ⟨s1.cat, s1.fs, e, r, s', h9, h7, h6, hn, hrun, ?_⟩
  rintro x rfl
  obtain ⟨c1, fs1, fl1⟩ := s1
  obtain ⟨ind, hci, hw⟩ := (h9.reach.inv hh.abs hh.utf8).split
  cases hci
  cases hm : mapGet ind.index h with
  | none => rw [observe_eq] at h7; unfold obsRec at h7; rw [hm] at h7; cases h7
  | some r0 =>
    obtain ⟨pre, p, ind', hpre, -, -, -, hg, -, hg3⟩ := getIndexRecord_pre hh h9 hw hm
    unfold saveChunk at hrun
    rw [IOM.bind_apply] at hrun
    unfold IOM.orPanic at hrun
    rcases hpre with rfl | rfl
    · have hg' := hg [.crash none]
      rw [List.nil_append] at hg'
      simp only [hg', IOM.bind_apply, Record.saveChunk, osOpenCreate, nextFault, IOM.lift_apply, IOM.pure_apply] at hrun
      cases hrun
    · simp only [hg3 (by simp) none] at hrun
      cases hrun

end
end Flu
