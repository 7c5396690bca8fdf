import Verif.Lemmas.CatOwned
import Verif.Lemmas.CatStuck
import Verif.Props.CatSave
/-!
# What a crash leaves behind (C31)
-/
namespace Flu

section
variable {env : Env} {d dl : Path} {c : Cat} {fs : FS}

/-- After a start with a well-behaved operating system, the daemon runs and `ListFiles` works, whatever the iteration order. -/
def Usable (env : Env) (d dl : Path) (fs : FS) : Prop :=
  ∃ s', Cat.init env ⟨⟨d, dl, none⟩, fs, []⟩ = (.ok (), s') ∧
    ∀ order, MapOrder s'.cat order → ∃ es s'', listFiles order ⟨s'.cat, s'.fs, []⟩ = (.ok es, s'')

/-- C31 in full: whatever happened before the daemon stopped, the catalogue is usable afterwards. -/
def C31_statement (env : Env) (d dl : Path) : Prop := ∀ fs, Reach env d dl (.stopped fs) → Usable env d dl fs

theorem Stuck.order {g : Sha1Hash} (hs : Stuck env d dl g c fs) (order : List Sha1Hash) (ho : MapOrder c order) : g ∈ order := by
  obtain ⟨ind, h1, h2⟩ := ho
  obtain ⟨r, h3, -⟩ := hs.mem ind h1
  exact h2.mem_iff.2 (List.mem_map.2 ⟨_, mapGet_mem _ _ _ h3, rfl⟩)

theorem Steps.trans {s t u : Sys} (h : Steps env d dl s t) (h' : Steps env d dl t u) : Steps env d dl s u := by
  induction h' with
  | refl => exact h
  | step _ h2 ih => exact .step ih h2

theorem Reach.trans {s t : Sys} (h : Reach env d dl s) (h' : Steps env d dl s t) : Reach env d dl t := by
  obtain ⟨fs0, h0, h1⟩ := h
  exact ⟨fs0, h0, h1.trans h'⟩

/-- A call that ends the process. -/
theorem Reach.dies (hreach : Reach env d dl (.running c fs)) (o : Op) (hsafe : o.Safe d c) (fl : List Fault) {s' : St}
    (h : o.run env ⟨c, fs, fl⟩ = (.crash, s') ∨ o.run env ⟨c, fs, fl⟩ = (.panic, s')) : Reach env d dl (.stopped s'.fs) := by
  obtain ⟨fs0, h3, h4⟩ := hreach
  have hstep := Step.call (env := env) (dl := dl) o fl c fs hsafe
  rcases h with h | h
  · rw [h] at hstep; exact ⟨fs0, h3, h4.step hstep⟩
  · rw [h] at hstep; exact ⟨fs0, h3, h4.step hstep⟩

theorem CM.void_dies {α : Type} (x : CM α) (s s' : St) (r : Res α) (hrun : x s = (r, s')) (h : r = .crash ∨ r = .panic) :
    CM.void x s = (.crash, s') ∨ CM.void x s = (.panic, s') := by
  unfold CM.void
  rw [IOM.bind_apply, hrun]
  rcases h with rfl | rfl
  · exact .inl rfl
  · exact .inr rfl

/-- C31: once the index on disk names a hash without a progress file that can be read, then in every later state of the daemon — whatever calls, restarts, faults and
changes to other files happen — the index still names it, and `ListFiles`, `Contains`, `UnshareFile`, `Rehash` and `RegisterDownload` of that hash and `ShareFile` of a file with that
hash never succeed. -/
theorem C31_forever (hh : Healthy env d) {g : Sha1Hash} (hreach : Reach env d dl (.stopped fs)) (hs : StuckDisk env d g fs)
    {c' : Cat} {fs' : FS} (hsteps : Steps env d dl (.stopped fs) (.running c' fs')) (fl : List Fault) :
    (∀ order, MapOrder c' order → g ∈ order ∧ ∀ es s', listFiles order ⟨c', fs', fl⟩ ≠ (.ok es, s')) ∧
      (∀ e s', contains g ⟨c', fs', fl⟩ ≠ (.ok e, s')) ∧
      (∀ s', unshareFile env g ⟨c', fs', fl⟩ ≠ (.ok (), s')) ∧
      (∀ x s', rehash env g ⟨c', fs', fl⟩ ≠ (.ok x, s')) ∧
      (∀ size cs name e s', registerDownload env size cs g name ⟨c', fs', fl⟩ ≠ (.ok e, s')) ∧
      (∀ path r s', shareFile env path ⟨c', fs', fl⟩ = (.ok r, s') → r.sha1Hash ≠ g) := by
  have hst : Stuck env d dl g c' fs' := StuckSys.steps hh.abs hh.utf8 hsteps ⟨hreach.inv hh.abs hh.utf8, hs⟩
  have hI := hst.inv
  have hget : Triple (Stuck env d dl g) (getIndexRecord g) (fun _ _ _ => False) (Stuck env d dl g) :=
    (s_getIndexRecord' hh.abs g).post (fun _ _ _ h => absurd rfl h.2.2.2)
  have hno : ∀ {α : Type} (x : CM α), Triple (Stuck env d dl g) x (fun _ _ _ => False) (Stuck env d dl g) → ∀ a s', x ⟨c', fs', fl⟩ ≠ (.ok a, s') :=
    fun x ht a s' e => (ht ⟨c', fs', fl⟩ hst).1 a s' e
  have habs : ∀ {α β : Type} (f : α → CM β), ∀ a, Triple (fun _ _ => False) (f a) (fun _ _ _ => False) (Stuck env d dl g) := by
    intro α β f a s hs; exact hs.elim
  refine ⟨fun order ho => ⟨hst.order order ho, hno _ ?_⟩, hno _ (Triple.bind hget (habs _)), fun s' => hno _ (Triple.bind hget (habs _)) () s',
    hno _ (Triple.bind hget (habs _)), ?_, ?_⟩
  · exact Triple.bind (Triple.getIndex (fun _ _ h => h)) (fun _ => (s_listLoop_fails hh.abs order (hst.order order ho)).pre (fun _ _ h => h.1))
  · intro size cs name
    apply hno
    refine Triple.bind Triple.getCat ?_
    intro cat
    refine Triple.bind (Q := fun _ _ _ => False) ?_ (habs _)
    refine ((s_addIndexRecord hh.abs _ ⟨by show (0 : Int) ≤ (cs.toNat : Int); omega, by show (cs.toNat : Int) < 2 ^ 32; have := cs.toNat_lt; omega,
      fun p hp => (by cases hp)⟩).pre (fun _ _ h => h.1)).post (fun _ _ _ h => absurd rfl h.2)
  · intro path r s' hrun
    obtain ⟨ind, rfl, hw⟩ := hI.split
    obtain ⟨r0, h1, h2⟩ := hst.mem ind rfl
    intro hr
    have hq := OkClean.shareFile env path _ _ _ hrun
    rw [St.quiet_eq] at hq
    obtain ⟨content, p, full, m1, g1, g2, g3, g4, g5, g6, g7, g8⟩ := shareFile_nil_ok _ _ _ _ _ _ _ _ hq
    rw [g5] at hr
    replace hr : env.sha1 content = g := hr
    rw [hr, h1] at g2; cases g2

/-- `AddIndexRecord` when the operating system behaves on the first call. -/
theorem addIndexRecord_one (env : Env) (r : Record) (d dl : Path) (ind : IndexFile) (fs : FS) (fl : List Fault) (hm : mapGet ind.index r.sha1Hash = none) :
    addIndexRecord env r ⟨⟨d, dl, some ind⟩, fs, .none :: fl⟩ =
      (.ok (), ⟨⟨d, dl, some { ind with index := mapPut ind.index r.sha1Hash r }⟩,
          fs.put (indexPath ind.dataDir) (some (env.json.enc ({ ind with index := mapPut ind.index r.sha1Hash r } : IndexFile).toJSON)), fl⟩) := by
  unfold addIndexRecord
  rw [IOM.bind_apply, getIndex_eval]
  simp only
  rw [hm]
  rfl

/-- What is on disk right after `AddIndexRecord` is stuck. -/
theorem stuck_after_add (hh : Healthy env d) {ind : IndexFile} (hw : WFIdx d ind) (r : Record) (hr : RecOK d r) (hf : fs (progressPath d r.sha1Hash) = none) :
    StuckDisk env d r.sha1Hash (fs.put (indexPath ind.dataDir) (some (env.json.enc ({ ind with index := mapPut ind.index r.sha1Hash r } : IndexFile).toJSON))) := by
  have hp : indexPath ind.dataDir = indexPath d := by rw [hw.dir]
  rw [hp]
  refine ⟨?_, _, _, FS.put_same _ _ _, hw.put r hr, List.prefix_refl _, ?_⟩
  · rw [FS.put_other _ _ _ _ (fun e => indexPath_ne_progressPath d d hh.abs hh.abs _ e.symm)]; exact .missing hf
  · simp only
    rw [mapGet_put, if_pos rfl]; simp

theorem mapGet_of_unknown {ind : IndexFile} {h : Sha1Hash} (hf : fs (progressPath d h) = none)
    (hx : observe ⟨d, dl, some ind⟩ fs h = .err .fileNotFound) (hw : WFIdx d ind) : mapGet ind.index h = none := by
  rw [observe_eq] at hx
  unfold obsRec at hx
  rcases hm : mapGet ind.index h with _ | r
  · rfl
  · rw [hm] at hx
    simp only at hx
    unfold viewProgress at hx
    rw [hw.ownGet _ _ hm, hf] at hx
    cases hp : r.progressFile with
    | some p => rw [hp] at hx; cases hx
    | none => rw [hp] at hx; cases hx

theorem Triple.always {α : Type} {P : Assn} {x : CM α} {Q : α → Assn} {E : Assn} (h : Triple P x Q E) {s : St} (hP : P s.cat s.fs) {r : Res α} {s' : St}
    (hrun : x s = (r, s')) (hQ : ∀ a c fs, Q a c fs → E c fs) : E s'.cat s'.fs := by
  cases r with
  | ok a => exact hQ _ _ _ ((h s hP).1 a s' hrun)
  | err e => exact (h s hP).2 _ s' hrun (fun a e => by cases e)
  | panic => exact (h s hP).2 _ s' hrun (fun a e => by cases e)
  | exit => exact (h s hP).2 _ s' hrun (fun a e => by cases e)
  | crash => exact (h s hP).2 _ s' hrun (fun a e => by cases e)

/-- C31: `RegisterDownload` of any unknown hash, with any metadata: if the daemon dies between the write of the index and the write of the progress file, the catalogue is stuck. -/
theorem C31_register_crash (hh : Healthy env d) (hreach : Reach env d dl (.running c fs)) (size : UInt64) (cs : UInt32) (h : Sha1Hash) (name : GoString)
    (hnew : observe c fs h = .err .fileNotFound) (r : Res Export) (s' : St)
    (hrun : registerDownload env size cs h name ⟨c, fs, [.none, .crash none]⟩ = (r, s')) :
    (r = .crash ∨ r = .panic) ∧ StuckDisk env d h s'.fs := by
  have hf : fs (progressPath d h) = none := unknown_no_progress hh.abs hh.utf8 hreach hnew
  have hI : Inv env d dl c fs := hreach.inv hh.abs hh.utf8
  obtain ⟨ind, rfl, hw⟩ := hI.split
  have hm := mapGet_of_unknown hf hnew hw
  have hst := stuck_after_add (fs := fs) hh hw (downloadRecord dl size cs h name)
    ⟨by show (0 : Int) ≤ (cs.toNat : Int); omega, by show (cs.toNat : Int) < 2 ^ 32; have := cs.toNat_lt; omega, fun p hp => (by cases hp)⟩ hf
  unfold registerDownload at hrun
  rw [IOM.bind_apply, getCat_apply] at hrun
  simp only at hrun
  rw [IOM.bind_apply] at hrun
  have hadd := addIndexRecord_one env (downloadRecord dl size cs h name) d dl ind fs [.crash none] hm
  unfold downloadRecord at hadd hst
  rw [hadd] at hrun
  simp only at hrun
  rw [IOM.bind_apply, getCat_apply] at hrun
  simp only at hrun
  rw [IOM.bind_apply, IOM.lift_apply] at hrun
  rcases newProgressFile_noErr (downloadRecord dl size cs h name) d (asInt64_lt _) (by show (0 : Int) ≤ (cs.toNat : Int); omega) with ⟨p, hp⟩ | hp
  · unfold downloadRecord at hp
    rw [hp] at hrun
    cases hrun
    exact ⟨.inl rfl, hst⟩
  · unfold downloadRecord at hp
    rw [hp] at hrun
    cases hrun
    exact ⟨.inr rfl, hst⟩

/-- C31: the same for `ShareFile` of any file. -/
theorem C31_share_crash (hh : Healthy env d) (hreach : Reach env d dl (.running c fs)) (path : GoString) (content : Bytes)
    (hc : fs (absPath env.cwd path) = some content) (hsz : content.length < 2 ^ 63)
    (hnew : observe c fs (env.sha1 content) = .err .fileNotFound) :
    ∃ s', shareFile env path ⟨c, fs, [.none, .none, .none, .crash none]⟩ = (.crash, s') ∧ StuckDisk env d (env.sha1 content) s'.fs := by
  have hf : fs (progressPath d (env.sha1 content)) = none := unknown_no_progress hh.abs hh.utf8 hreach hnew
  have hI : Inv env d dl c fs := hreach.inv hh.abs hh.utf8
  obtain ⟨ind, rfl, hw⟩ := hI.split
  have hm := mapGet_of_unknown hf hnew hw
  let rec0 : Record := { filePath := absPath env.cwd path, sizeInBytes := asInt64 (UInt64.ofNat content.length), sha1Hash := env.sha1 content, progressFile := none, chunkSize := defaultChunkSize }
  have hst := stuck_after_add (fs := fs) hh hw rec0 ⟨by show (0 : Int) ≤ 4194304; decide, by show (4194304 : Int) < 2 ^ 32; decide, fun p hp => (by cases hp)⟩ hf
  have hgen : generateIndexRecordForFile env path ⟨⟨d, dl, some ind⟩, fs, [.none, .none, .none, .crash none]⟩ =
      (.ok rec0, ⟨⟨d, dl, some ind⟩, fs, [.none, .crash none]⟩) := by
    unfold generateIndexRecordForFile osStat osHashFile osReadFile
    simp only [IOM.bind_apply, nextFault, getFS_apply, IOM.pure_apply, hc, Option.map_some]
    rfl
  obtain ⟨p, hp⟩ := newProgressFile_total rec0 d content.length 4194304 (asInt64_ofNat _ hsz) rfl hsz (by decide)
  obtain ⟨-, hpw, -⟩ := newProgressFile_ok _ (asInt64_lt _) (by show (0 : Int) ≤ 4194304; decide) p hp
  obtain ⟨dd, e1, -⟩ := Bitset.fill_eq p.progress hpw
  refine ⟨_, Prod.ext ?_ rfl, ?_⟩
  · unfold shareFile
    rw [IOM.bind_apply, hgen]
    simp only
    rw [IOM.bind_apply, addIndexRecord_one env rec0 d dl ind fs [.crash none] hm]
    simp only
    rw [IOM.bind_apply, getCat_apply]
    simp only
    rw [IOM.bind_apply, IOM.lift_apply, hp]
    simp only
    rw [IOM.bind_apply, updateRecord_eval]
    simp only
    rw [IOM.bind_apply, IOM.lift_apply, e1]
    rfl
  · have : (shareFile env path ⟨⟨d, dl, some ind⟩, fs, [.none, .none, .none, .crash none]⟩).2.fs =
        fs.put (indexPath ind.dataDir) (some (env.json.enc ({ ind with index := mapPut ind.index rec0.sha1Hash rec0 } : IndexFile).toJSON)) := by
      unfold shareFile
      rw [IOM.bind_apply, hgen]
      simp only
      rw [IOM.bind_apply, addIndexRecord_one env rec0 d dl ind fs [.crash none] hm]
      simp only
      rw [IOM.bind_apply, getCat_apply]
      simp only
      rw [IOM.bind_apply, IOM.lift_apply, hp]
      simp only
      rw [IOM.bind_apply, updateRecord_eval]
      simp only
      rw [IOM.bind_apply, IOM.lift_apply, e1]
      rfl
    rw [this]
    exact hst

/-- C31: `UnshareFile` of any known file in a fault-free history: there is a crash point that leaves the catalogue stuck. -/
theorem C31_unshare_crash (hh : Healthy env d) (hclean : CleanReach env d dl (.running c fs)) (h : Sha1Hash) (e : Export) (ho : observe c fs h = .ok e)
    (hf : fs (progressPath d h) ≠ none) :
    ∃ fl s', unshareFile env h ⟨c, fs, fl⟩ = (.crash, s') ∧ StuckDisk env d h s'.fs := by
  obtain ⟨ind, rfl, hs⟩ := hclean.sync hh.abs hh.utf8
  have hI : Inv env d dl _ fs := hclean.reach.inv hh.abs hh.utf8
  obtain ⟨_, e1, hw⟩ := hI.split
  cases e1
  rw [observe_eq] at ho
  unfold obsRec at ho
  rcases hm : mapGet ind.index h with _ | r
  · rw [hm] at ho; cases ho
  obtain ⟨p, h4, h5, h6⟩ := hs.prog h r hm
  have hk : r.sha1Hash = h := hw.ownGet _ _ hm
  have hrec := hw.recs _ _ (mapGet_mem _ _ _ hm)
  obtain ⟨bytes, hb⟩ := Option.ne_none_iff_exists'.1 hf
  obtain ⟨ind0, g1, g2, g3⟩ := hs.index
  have hst : StuckDisk env d h (fs.put (progressPath d h) none) := by
    refine ⟨.missing (FS.put_same _ _ _), _, ind0, ?_, g1, List.prefix_refl _, ?_⟩
    · rw [FS.put_other _ _ _ _ (indexPath_ne_progressPath d d hh.abs hh.abs _)]; exact g2
    · intro hx
      have := g3 h
      rw [hx, hm] at this
      cases this
  have hcore : ∀ (fl : List Fault) (ind' : IndexFile), getIndexRecord h ⟨⟨d, dl, some ind⟩, fs, fl⟩ = (.ok { r with progressFile := some p }, ⟨⟨d, dl, some ind'⟩, fs, [.crash (some 0)]⟩) →
      ∃ s', unshareFile env h ⟨⟨d, dl, some ind⟩, fs, fl⟩ = (.crash, s') ∧ s'.fs = fs.put p.filePath none := by
    intro fl ind' hg
    refine ⟨_, Prod.ext ?_ rfl, ?_⟩
    · unfold unshareFile
      rw [IOM.bind_apply, hg]
      rfl
    · unfold unshareFile
      rw [IOM.bind_apply, hg]
      rfl
  have hpp : p.filePath = progressPath d h := by rw [← hk]; exact (viewProgress_loaded hI.disk hrec h4).1
  cases hpf : r.progressFile with
  | some q =>
    have : q = p := by unfold viewProgress at h4; rw [hpf] at h4; cases h4; rfl
    subst this
    obtain ⟨s', k1, k2⟩ := hcore [.crash (some 0)] ind (by
      unfold getIndexRecord
      rw [IOM.bind_apply, getIndex_eval]
      simp only
      rw [hm]
      simp only
      unfold fillRecord
      rw [hpf]
      cases r; simp only at hpf; subst hpf; rfl)
    exact ⟨_, s', k1, by rw [k2, hpp]; exact hst⟩
  | none =>
    have hv : Bitset.deserialize bytes = .ok p.progress := by
      unfold viewProgress at h4
      rw [hpf, hk, hb] at h4
      simp only at h4
      obtain ⟨b, hb1, hb2⟩ := (Res.bind_ok_iff _ _ _).1 h4
      cases hb2; exact hb1
    have hpe : p = ⟨p.progress, progressPath d h⟩ := by rw [← hpp]
    obtain ⟨s', k1, k2⟩ := hcore [.none, .crash (some 0)] { ind with index := mapPut ind.index h { r with progressFile := some p } } (by
      unfold getIndexRecord
      rw [IOM.bind_apply, getIndex_eval]
      simp only
      rw [hm]
      simp only
      unfold fillRecord
      rw [hpf]
      simp only
      rw [IOM.bind_apply, getCat_apply]
      simp only
      unfold deserializeProgressFile osReadFile
      simp only [IOM.bind_apply, nextFault, getFS_apply, hk, hb, IOM.pure_apply, IOM.lift_apply, hv, updateRecord_eval]
      rw [← hpe])
    exact ⟨_, s', k1, by rw [k2, hpp]; exact hst⟩

/-! ### An index cut short -/

/-- No valid index is empty. -/
theorem JsonCodec.dec_nil (json : JsonCodec) : json.dec [] = none := by
  apply Classical.byContradiction
  intro hne
  have hall : ∀ j, json.enc j = [] := by
    intro j
    apply Classical.byContradiction
    intro he
    exact hne (json.dec_prefix j [] (List.nil_prefix) (Ne.symm he))
  obtain ⟨l1, h1, -⟩ := json.dec_enc ⟨0, 0, [], []⟩ (fun e he => (by cases he)) (by simp)
  obtain ⟨l2, h2, -⟩ := json.dec_enc ⟨1, 0, [], []⟩ (fun e he => (by cases he)) (by simp)
  rw [hall] at h1 h2
  rw [h1] at h2
  simp at h2

/-- `Init` with an unreadable index never succeeds and changes nothing on disk. -/
theorem t_init_torn (data : Bytes) (hdec : env.json.dec data = none) :
    Triple (fun c fs' => c.dataDir = d ∧ fs' = fs ∧ fs (indexPath d) = some data) (Cat.init env) (fun _ _ _ => False) (fun _ fs' => fs' = fs) := by
  have base : ∀ (c : Cat) (fs' : FS), (c.dataDir = d ∧ fs' = fs ∧ fs (indexPath d) = some data) → fs' = fs := fun _ _ h => h.2.1
  refine Triple.bind Triple.getCat ?_
  intro cat
  refine Triple.bind (Q := fun _ c fs' => (c.dataDir = d ∧ fs' = fs ∧ fs (indexPath d) = some data) ∧ cat.dataDir = d) (Triple.setIndex _ ?_) ?_
  · rintro c fs ⟨⟨h1, h2⟩, rfl⟩; exact ⟨⟨h1, h2⟩, h1⟩
  intro _
  apply Triple.facts
  intro hcd
  rw [hcd]
  refine Triple.bind (Triple.osTouch base) ?_
  intro _
  refine Triple.bind (Triple.osTouch base) ?_
  intro _
  refine Triple.bind (Triple.osStat _ base) ?_
  intro o
  cases o with
  | none =>
    intro s hs
    exfalso
    obtain ⟨⟨-, hs1, hs2⟩, hs3⟩ := hs
    rw [hs1, hs2] at hs3
    cases hs3
  | some _ =>
    refine Triple.pre (P := fun c fs' => c.dataDir = d ∧ fs' = fs ∧ fs (indexPath d) = some data) ?_ (fun _ _ h => h.1)
    refine Triple.bind (Triple.osReadFile _ base) ?_
    intro data'
    refine Triple.bind (Q := fun _ _ _ => False) ?_ (fun _ s hs => hs.elim)
    refine Triple.lift _ ?_ (fun c fs h => h.1.2.1)
    rintro ind hu c fs' ⟨⟨-, rfl, h2⟩, h3⟩
    rw [h2] at h3; cases h3
    unfold unmarshalIndex at hu
    rw [hdec] at hu
    cases hu

/-- C31: if `index.json` is not valid JSON — `os.WriteFile` truncates it before writing — the daemon never starts again. -/
theorem C31_torn_forever (data : Bytes) (hdec : env.json.dec data = none) (hf : fs (indexPath d) = some data) (t : Sys)
    (hsteps : Steps env d dl (.stopped fs) t) : ∃ fs', t = .stopped fs' ∧ fs' (indexPath d) = some data := by
  generalize hx : Sys.stopped fs = x at hsteps
  induction hsteps with
  | refl => exact ⟨fs, hx.symm, hf⟩
  | step _ hstep ih =>
    obtain ⟨fs1, rfl, hf1⟩ := ih
    cases hstep with
    | start pid now fl _ =>
      have := t_init_torn (env := { env with pid := pid, now := now }) (d := d) (fs := fs1) data hdec ⟨⟨d, dl, none⟩, fs1, fl⟩ ⟨rfl, rfl, hf1⟩
      rcases hr : Cat.init { env with pid := pid, now := now } ⟨⟨d, dl, none⟩, fs1, fl⟩ with ⟨r, s'⟩
      cases r with
      | ok a => exact (this.1 a s' hr).elim
      | err e => exact ⟨_, rfl, by rw [this.2 _ s' hr (by intro a; simp)]; exact hf1⟩
      | panic => exact ⟨_, rfl, by rw [this.2 _ s' hr (by intro a; simp)]; exact hf1⟩
      | exit => exact ⟨_, rfl, by rw [this.2 _ s' hr (by intro a; simp)]; exact hf1⟩
      | crash => exact ⟨_, rfl, by rw [this.2 _ s' hr (by intro a; simp)]; exact hf1⟩
    | userStopped _ p content hp =>
      exact ⟨_, rfl, by rw [FS.put_other _ _ _ _ (fun e => hp (.inl e.symm))]; exact hf1⟩

/-- C31: dying in the middle of a write of the index, for instance during `RegisterDownload`, leaves such a file. -/
theorem C31_torn_crash (hh : Healthy env d) (hreach : Reach env d dl (.running c fs)) (size : UInt64) (cs : UInt32) (h : Sha1Hash) (name : GoString) (hnew : observe c fs h = .err .fileNotFound) :
    ∃ s', registerDownload env size cs h name ⟨c, fs, [.crash (some 0)]⟩ = (.crash, s') ∧ s'.fs (indexPath d) = some [] ∧ env.json.dec [] = none := by
  have hf : fs (progressPath d h) = none := unknown_no_progress hh.abs hh.utf8 hreach hnew
  have hI : Inv env d dl c fs := hreach.inv hh.abs hh.utf8
  obtain ⟨ind, rfl, hw⟩ := hI.split
  have hm := mapGet_of_unknown hf hnew hw
  have hadd : addIndexRecord env (downloadRecord dl size cs h name) ⟨⟨d, dl, some ind⟩, fs, [.crash (some 0)]⟩ =
      (.crash, ⟨⟨d, dl, some { ind with index := mapPut ind.index h (downloadRecord dl size cs h name) }⟩, fs.put (indexPath ind.dataDir) (some []), []⟩) := by
    unfold addIndexRecord
    rw [IOM.bind_apply, getIndex_eval]
    simp only
    rw [show mapGet ind.index (downloadRecord dl size cs h name).sha1Hash = none from hm]
    rfl
  have hreg : registerDownload env size cs h name ⟨⟨d, dl, some ind⟩, fs, [.crash (some 0)]⟩ =
      (.crash, ⟨⟨d, dl, some { ind with index := mapPut ind.index h (downloadRecord dl size cs h name) }⟩, fs.put (indexPath ind.dataDir) (some []), []⟩) := by
    unfold registerDownload
    rw [IOM.bind_apply, getCat_apply]
    simp only
    rw [IOM.bind_apply]
    unfold downloadRecord at hadd ⊢
    rw [hadd]
  exact ⟨_, hreg, by rw [hw.dir]; exact FS.put_same _ _ _, env.json.dec_nil⟩

/-- C31 is false, for every environment: the first download ever registered can leave the catalogue unusable. -/
theorem C31_refuted (hh : Healthy env d) : ¬ C31_statement env d dl := by
  intro hall
  have hclean := CleanReach.fresh env d dl hh.utf8 (fun _ => none) (fun _ _ => rfl)
  obtain ⟨r, s', hrun⟩ : ∃ r s', registerDownload env 0 1 Sha1Hash.zero [] ⟨⟨d, dl, some (freshIdx env d)⟩,
    FS.put (fun _ => none) (indexPath d) (some (env.json.enc (freshIdx env d).toJSON)), [.none, .crash none]⟩ = (r, s') := ⟨_, _, rfl⟩
  obtain ⟨h1, h2⟩ := C31_register_crash hh hclean.reach 0 1 Sha1Hash.zero [] rfl r s' hrun
  have hstop : Reach env d dl (.stopped s'.fs) := by
    apply hclean.reach.dies (.register 0 1 Sha1Hash.zero []) trivial [.none, .crash none] (h := CM.void_dies _ _ _ _ hrun h1)
  obtain ⟨s2, h5, h6⟩ := hall s'.fs hstop
  have hst : Steps env d dl (.stopped s'.fs) (.running s2.cat s2.fs) := by
    have := Step.start (env := env) (d := d) (dl := dl) env.pid env.now [] s'.fs
    have e : ({ env with pid := env.pid, now := env.now } : Env) = env := rfl
    rw [e, h5] at this
    exact (Steps.refl _).step this
  obtain ⟨h7, -⟩ := C31_forever hh hstop h2 hst []
  obtain ⟨ind, h8, -⟩ := (hstop.trans hst).inv hh.abs hh.utf8 |>.mem
  have ho : MapOrder s2.cat (ind.index.map (·.1)) := ⟨ind, h8, List.Perm.refl _⟩
  obtain ⟨es, s3, h9⟩ := h6 _ ho
  exact (h7 _ ho).2 es s3 h9

/-- What of C31 is true: in a fault-free history, the daemon may be killed between any two calls, may fail or die at any point of a call that only reads, and at any point of `SaveChunk`
at which the progress file has not been touched; the catalogue is usable afterwards.  Missing from the full statement: deaths during `ShareFile`, `RegisterDownload`, `UnshareFile` and during the write of
a progress file or of the index. -/
theorem C31_partial (hh : Healthy env d) (hclean : CleanReach env d dl (.running c fs)) :
    Usable env d dl fs ∧
      (∀ o fl r s', Op.readOnly o = true → o.run env ⟨c, fs, fl⟩ = (r, s') → s'.fs = fs) ∧
      (∀ h n data fl r s', (Op.save h n data).Safe d c → saveChunk h n data ⟨c, fs, fl⟩ = (r, s') → s'.fs (progressPath d h) = fs (progressPath d h) →
        Usable env d dl s'.fs) := by
  have use : ∀ {c fs}, CleanReach env d dl (.running c fs) → Usable env d dl fs := by
    intro c fs hcl
    obtain ⟨c', h1, h2, -⟩ := C30_restart hh hcl env.pid env.now
    refine ⟨⟨c', fs, []⟩, h1, fun order ho => ?_⟩
    obtain ⟨es, s', h3, -⟩ := C30_list hh h2 order ho
    exact ⟨es, s', h3⟩
  refine ⟨use hclean, ?_, ?_⟩
  · intro o fl r s' hro hrun
    have hI : Inv env d dl c fs := hclean.reach.inv hh.abs hh.utf8
    obtain ⟨ind, rfl, hw⟩ := hI.split
    exact ((ro_op (dl := dl) (fs0 := fs) env hw.ownGet o hro).always (RO.init d dl ind fs) hrun (fun _ _ _ h => h)).1
  · intro h n data fl r s' hsafe hrun hprog
    have hI : Inv env d dl c fs := hclean.reach.inv hh.abs hh.utf8
    obtain ⟨ind, rfl, hw⟩ := hI.split
    by_cases hfound : ∃ r0 p, mapGet ind.index h = some r0 ∧ viewProgress d fs r0 = .ok p
    rotate_left
    · have hT : Triple (RO d dl ind fs) (saveChunk h n data) (fun _ _ _ => False) (RO d dl ind fs) := by
        refine Triple.bind (Triple.orPanic (ro_getIndexRecord hw.ownGet h)) ?_
        intro r'
        apply Triple.facts
        rintro ⟨r0, p, h1, h2, -⟩
        exact absurd ⟨r0, p, h1, h2⟩ hfound
      have := hT.always (RO.init d dl ind fs) hrun (fun _ _ _ h => h.elim)
      rw [this.1]; exact use hclean
    obtain ⟨r0, p, hm, hv⟩ := hfound
    have hrec := hw.recs _ _ (mapGet_mem _ _ _ hm)
    obtain ⟨hpp, hpl⟩ := viewProgress_loaded hI.disk hrec hv
    rw [hw.ownGet _ _ hm] at hpp
    have hncat : ¬ CatFile d r0.filePath := hsafe r0.filePath (by
      show Option.map _ (mapGet ind.index h) = _
      rw [hm]; rfl)
    have hT := (t_saveChunk_full (d := d) (dl := dl) (fs0 := fs) hw.ownGet h n data r0 p hm hv)
    have hx : ∃ x, ∀ q, q ≠ progressPath d h → s'.fs q = fs.put r0.filePath x q := by
      refine (hT.conseq (P' := RO d dl ind fs) (Q' := fun _ _ fs' => ∃ x, ∀ q, q ≠ progressPath d h → fs' q = fs.put r0.filePath x q)
        (E' := fun _ fs' => ∃ x, ∀ q, q ≠ progressPath d h → fs' q = fs.put r0.filePath x q) (fun _ _ h => h) ?_ ?_).always (RO.init d dl ind fs) hrun (fun _ _ _ h => h)
      · rintro _ c fs' ⟨b, -, -, h1, -⟩
        refine ⟨some (overlay ((fs r0.filePath).getD []) ((n.toNat : Int) * r0.chunkSize).toNat data), fun q hq => ?_⟩
        rw [h1, hpp, FS.put_other _ _ _ _ hq]; rfl
      · rintro c fs' (h1 | ⟨x, h1⟩ | ⟨b, hb, -, h1 | ⟨k, h1⟩⟩)
        · refine ⟨fs r0.filePath, fun q hq => ?_⟩
          rw [h1.1, FS.put_apply]
          split
          · rename_i e; rw [e]
          · rfl
        · exact ⟨_, fun q hq => by rw [h1.1]; rfl⟩
        · exact ⟨some (overlay ((fs r0.filePath).getD []) ((n.toNat : Int) * r0.chunkSize).toNat data), fun q hq => by rw [h1.1]; rfl⟩
        · exact ⟨some (overlay ((fs r0.filePath).getD []) ((n.toNat : Int) * r0.chunkSize).toNat data), fun q hq => by rw [h1.1, hpp, FS.put_other _ _ _ _ hq]; rfl⟩
    obtain ⟨x, hx⟩ := hx
    have : s'.fs = fs.put r0.filePath x := by
      funext q
      by_cases hq : q = progressPath d h
      · rw [hq, hprog, FS.put_other _ _ _ _ (fun e => hncat (.inr ⟨h, e.symm⟩))]
      · exact hx q hq
    rw [this]
    exact use (CleanReach.userRunning _ _ _ _ hncat hclean)

/-! ### Examples -/

/-- `C31_forever`, `C31_register_crash`: a first download is registered, the daemon dies after writing the index, is started again and runs. -/
theorem ex_stuck (sha1 : Bytes → Sha1Hash) (json : JsonCodec) (h : Sha1Hash) : ∃ c fs s' c' fs', Healthy (exEnv sha1 json) exDir ∧
    Reach (exEnv sha1 json) exDir exDown (.running c fs) ∧ observe c fs h = .err .fileNotFound ∧ fs (progressPath exDir h) = none ∧
    registerDownload (exEnv sha1 json) 10 4 h [120] ⟨c, fs, [.none, .crash none]⟩ = (.crash, s') ∧
    Reach (exEnv sha1 json) exDir exDown (.stopped s'.fs) ∧ StuckDisk (exEnv sha1 json) exDir h s'.fs ∧
    Steps (exEnv sha1 json) exDir exDown (.stopped s'.fs) (.running c' fs') := by
  have hh := ex_healthy sha1 json
  have hf : exFS1 sha1 json (progressPath exDir h) = none := by
    unfold exFS1
    rw [FS.put_other _ _ _ _ (fun e => indexPath_ne_progressPath _ _ hh.abs hh.abs h e.symm)]
    exact ex_fs_clean _ (.inr ⟨h, rfl⟩)
  rcases hrun : registerDownload (exEnv sha1 json) 10 4 h [120] ⟨⟨exDir, exDown, some (freshIdx (exEnv sha1 json) exDir)⟩, exFS1 sha1 json, [.none, .crash none]⟩ with ⟨r, s'⟩
  obtain ⟨h1, h2⟩ := C31_register_crash hh (ex_reach sha1 json) 10 4 h [120] rfl r s' hrun
  have hr : r = .crash ∧ s'.fs (indexPath exDir) = some ((exEnv sha1 json).json.enc ({ freshIdx (exEnv sha1 json) exDir with
      index := mapPut [] h (downloadRecord exDown 10 4 h [120]) } : IndexFile).toJSON) := by
    obtain ⟨p, hp⟩ := newProgressFile_total (downloadRecord exDown 10 4 h [120]) exDir 10 4 rfl rfl (by decide) (by decide)
    have hadd := addIndexRecord_one (exEnv sha1 json) (downloadRecord exDown 10 4 h [120]) exDir exDown (freshIdx (exEnv sha1 json) exDir) (exFS1 sha1 json) [.crash none] rfl
    unfold registerDownload at hrun
    rw [IOM.bind_apply, getCat_apply] at hrun
    simp only at hrun
    rw [IOM.bind_apply] at hrun
    unfold downloadRecord at hadd hp
    rw [hadd] at hrun
    simp only at hrun
    rw [IOM.bind_apply, getCat_apply] at hrun
    simp only at hrun
    rw [IOM.bind_apply, IOM.lift_apply, hp] at hrun
    cases hrun
    refine ⟨rfl, ?_⟩
    show FS.put (exFS1 sha1 json) (indexPath exDir) _ (indexPath exDir) = _
    rw [FS.put_same]
    rfl
  obtain ⟨rfl, hidx⟩ := hr
  have hstop : Reach (exEnv sha1 json) exDir exDown (.stopped s'.fs) :=
    (ex_reach sha1 json).dies (.register 10 4 h [120]) trivial [.none, .crash none] (h := CM.void_dies _ _ _ _ hrun h1)
  obtain ⟨m, hini, -⟩ := init_nil_old (exEnv sha1 json) exDir exDown none s'.fs _ (by simp [mapPut]) hidx
  have hst := Step.start (env := exEnv sha1 json) (d := exDir) (dl := exDown) (exEnv sha1 json).pid (exEnv sha1 json).now [] s'.fs
  rw [show ({ exEnv sha1 json with pid := (exEnv sha1 json).pid, now := (exEnv sha1 json).now } : Env) = exEnv sha1 json from rfl, hini] at hst
  exact ⟨_, _, s', _, _, hh, ex_reach sha1 json, rfl, hf, hrun, hstop, h2, (Steps.refl _).step hst⟩

/-- `C31_share_crash`: the file `/f`, not yet shared. -/
example (sha1 : Bytes → Sha1Hash) (json : JsonCodec) : ∃ c fs, Reach (exEnv sha1 json) exDir exDown (.running c fs) ∧
    fs (absPath (exEnv sha1 json).cwd [102]) = some [1, 2, 3] ∧ observe c fs (sha1 [1, 2, 3]) = .err .fileNotFound ∧
    fs (progressPath exDir (sha1 [1, 2, 3])) = none := by
  have hh := ex_healthy sha1 json
  refine ⟨_, _, ex_reach sha1 json, ex_file sha1 json, rfl, ?_⟩
  unfold exFS1
  rw [FS.put_other _ _ _ _ (fun e => indexPath_ne_progressPath _ _ hh.abs hh.abs _ e.symm)]
  exact ex_fs_clean _ (.inr ⟨_, rfl⟩)

/-- `C31_unshare_crash`, `C31_partial`: a shared file in a fault-free history. -/
example (sha1 : Bytes → Sha1Hash) (json : JsonCodec) : ∃ c fs e, CleanReach (exEnv sha1 json) exDir exDown (.running c fs) ∧
    observe c fs (sha1 [1, 2, 3]) = .ok e ∧ fs (progressPath exDir (sha1 [1, 2, 3])) ≠ none := by
  obtain ⟨c, fs, b, h1, h2, h3, h4, h5, h6⟩ := ex_clean sha1 json
  refine ⟨c, fs, _, h1, h3, ?_⟩
  have hh := ex_healthy sha1 json
  obtain ⟨ind, rfl, hs⟩ := h1.sync hh.abs hh.utf8
  obtain ⟨_, e1, hw⟩ := (h1.reach.inv hh.abs hh.utf8).split
  cases e1
  rw [observe_eq] at h3
  unfold obsRec at h3
  rcases hm : mapGet ind.index (sha1 [1, 2, 3]) with _ | r
  · rw [hm] at h3; cases h3
  obtain ⟨p, -, g, -⟩ := hs.prog _ r hm
  unfold viewProgress at g
  simp only at g
  rw [hw.ownGet _ _ hm] at g
  intro hn
  rw [hn] at g
  cases g

end
end Flu
