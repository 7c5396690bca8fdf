import Verif.Lemmas.CatRead
/-!
# Histories without faults: memory and disk agree
-/
namespace Flu

/-- States reached without faults, crashes or panics: any calls that return (with a result or an error), changes by the user to other files, stops
between calls, and restarts. -/
inductive CleanReach (env : Env) (d dl : Path) : Sys → Prop
  | empty (fs : FS) (hfs : ∀ p, CatFile d p → fs p = none) : CleanReach env d dl (.stopped fs)
  | call (o : Op) (c : Cat) (fs : FS) (r : Res Unit) (s' : St) (h : CleanReach env d dl (.running c fs)) (hsafe : o.Safe d c)
      (hrun : o.run env ⟨c, fs, []⟩ = (r, s')) (hret : r.returns = true) : CleanReach env d dl (.running s'.cat s'.fs)
  | kill (c : Cat) (fs : FS) (h : CleanReach env d dl (.running c fs)) : CleanReach env d dl (.stopped fs)
  | start (pid now : Int) (fs : FS) (s' : St) (h : CleanReach env d dl (.stopped fs))
      (hrun : Cat.init { env with pid := pid, now := now } ⟨⟨d, dl, none⟩, fs, []⟩ = (.ok (), s')) : CleanReach env d dl (.running s'.cat s'.fs)
  | userRunning (c : Cat) (fs : FS) (p : Path) (content : Option Bytes) (hp : ¬ CatFile d p) (h : CleanReach env d dl (.running c fs)) :
      CleanReach env d dl (.running c (fs.put p content))
  | userStopped (fs : FS) (p : Path) (content : Option Bytes) (hp : ¬ CatFile d p) (h : CleanReach env d dl (.stopped fs)) :
      CleanReach env d dl (.stopped (fs.put p content))

theorem Res.returns_cases {r : Res Unit} (h : r.returns = true) : r = .ok () ∨ ∃ e, r = .err e := by
  cases r with
  | ok a => exact .inl rfl
  | err e => exact .inr ⟨e, rfl⟩
  | panic => cases h
  | exit => cases h
  | crash => cases h

theorem CleanReach.reach {env : Env} {d dl : Path} {s : Sys} (h : CleanReach env d dl s) : Reach env d dl s := by
  induction h with
  | empty fs hfs => exact ⟨fs, hfs, Steps.refl _⟩
  | call o c fs r s' h hsafe hrun hret ih =>
    obtain ⟨fs0, h0, h1⟩ := ih
    refine ⟨fs0, h0, Steps.step h1 ?_⟩
    have := Step.call (env := env) (d := d) (dl := dl) o [] c fs hsafe
    rw [hrun] at this
    rcases Res.returns_cases hret with rfl | ⟨e, rfl⟩ <;> exact this
  | kill c fs h ih =>
    obtain ⟨fs0, h0, h1⟩ := ih
    exact ⟨fs0, h0, Steps.step h1 (Step.kill c fs)⟩
  | start pid now fs s' h hrun ih =>
    obtain ⟨fs0, h0, h1⟩ := ih
    refine ⟨fs0, h0, Steps.step h1 ?_⟩
    have := Step.start (env := env) (d := d) (dl := dl) pid now [] fs
    rw [hrun] at this
    exact this
  | userRunning c fs p content hp h ih =>
    obtain ⟨fs0, h0, h1⟩ := ih
    exact ⟨fs0, h0, Steps.step h1 (Step.userRunning c fs p content hp)⟩
  | userStopped fs p content hp h ih =>
    obtain ⟨fs0, h0, h1⟩ := ih
    exact ⟨fs0, h0, Steps.step h1 (Step.userStopped fs p content hp)⟩

theorem CleanReach.fresh (env : Env) (d dl : Path) (hfix : env.json.fix d = d) (fs : FS) (hf : ∀ p, CatFile d p → fs p = none) :
    CleanReach env d dl (.running ⟨d, dl, some (freshIdx env d)⟩ (fs.put (indexPath d) (some (env.json.enc (freshIdx env d).toJSON)))) := by
  have h := init_nil_fresh env d dl none fs hfix (hf _ (.inl rfl))
  exact CleanReach.start env.pid env.now fs _ (CleanReach.empty fs hf) h

/-- Memory and disk agree. -/
structure Sync (env : Env) (d : Path) (ind : IndexFile) (fs : FS) : Prop where
  index : ∃ ind0, WFIdx d ind0 ∧ fs (indexPath d) = some (env.json.enc ind0.toJSON) ∧
    ∀ h, (mapGet ind0.index h).map (Record.reloaded env.json.fix) = (mapGet ind.index h).map (Record.reloaded env.json.fix)
  prog : ∀ h r, mapGet ind.index h = some r → ∃ p, viewProgress d fs r = .ok p ∧ viewProgress d fs { r with progressFile := none } = .ok p ∧ p.progress.Wf

theorem viewProgress_fs (d : Path) (fs fs' : FS) (r : Record) (h : fs' (progressPath d r.sha1Hash) = fs (progressPath d r.sha1Hash)) :
    viewProgress d fs' r = viewProgress d fs r := by unfold viewProgress; rw [h]

theorem viewProgress_saved (d : Path) (fs : FS) (r : Record) (b : Bitset) (hw : b.Wf) (hn : r.progressFile = none)
    (h : fs (progressPath d r.sha1Hash) = some b.serialize) : viewProgress d fs r = .ok ⟨b, progressPath d r.sha1Hash⟩ := by
  unfold viewProgress
  rw [hn, h]
  simp only
  rw [Bitset.deserialize_serialize b (by have := hw.size_nonneg; omega) hw.size_lt]
  rfl

section
variable {env : Env} {d dl : Path} {ind : IndexFile} {fs : FS}

/-- Changing files outside the catalogue keeps memory and disk in agreement. -/
theorem Sync.putOther (s : Sync env d ind fs) (p : Path) (hp : ¬ CatFile d p) (o : Option Bytes) : Sync env d ind (fs.put p o) := by
  refine ⟨?_, ?_⟩
  · obtain ⟨ind0, h1, h2, h3⟩ := s.index
    exact ⟨ind0, h1, by rw [FS.put_other _ _ _ _ (fun e => hp (.inl e.symm))]; exact h2, h3⟩
  · intro h r hr
    obtain ⟨q, h1, h2, h3⟩ := s.prog h r hr
    have : ∀ r : Record, viewProgress d (fs.put p o) r = viewProgress d fs r :=
      fun r => viewProgress_fs _ _ _ _ (FS.put_other _ _ _ _ (fun e => hp (.inr ⟨_, e.symm⟩)))
    exact ⟨q, by rw [this]; exact h1, by rw [this]; exact h2, h3⟩

/-- Loading progress keeps memory and disk in agreement. -/
theorem Sync.more (s : Sync env d ind fs) {m' : List (Sha1Hash × Record)} (hm : More d fs ind.index m') : Sync env d { ind with index := m' } fs := by
  refine ⟨?_, ?_⟩
  · obtain ⟨ind0, h1, h2, h3⟩ := s.index
    refine ⟨ind0, h1, h2, ?_⟩
    intro h
    rw [h3]
    rcases hm.2 h with e | ⟨r, p, e1, _, _, e2⟩
    · rw [← e]
    · rw [e1, e2]; rfl
  · intro h r hr
    obtain ⟨r0, h1, h2, h3⟩ := hm.view hr
    obtain ⟨p, h4, h5, h6⟩ := s.prog h r0 h1
    refine ⟨p, by rw [h2, h4], ?_, h6⟩
    rw [h3]; exact h5

/-- Replacing one record (keeping what is on disk about it up to date) keeps memory and disk in agreement. -/
theorem Sync.put (s : Sync env d ind fs) (hw : WFIdx d ind) {m : List (Sha1Hash × Record)} {fs' : FS} (r : Record) (p : ProgressFile)
    (hm : ∀ h, mapGet m h = if r.sha1Hash = h then some r else mapGet ind.index h)
    (hr : r.progressFile = some p) (hp : p.filePath = progressPath d r.sha1Hash) (hpw : p.progress.Wf)
    (hi : fs' (indexPath d) = fs (indexPath d) ∧ (mapGet ind.index r.sha1Hash).map (Record.reloaded env.json.fix) = some (r.reloaded env.json.fix) ∨
      ∃ ind0, WFIdx d ind0 ∧ fs' (indexPath d) = some (env.json.enc ind0.toJSON) ∧
        ∀ h, mapGet ind0.index h = if r.sha1Hash = h then some { r with progressFile := none } else mapGet ind.index h)
    (hf : fs' (progressPath d r.sha1Hash) = some p.progress.serialize)
    (ho : ∀ h, h ≠ r.sha1Hash → fs' (progressPath d h) = fs (progressPath d h)) : Sync env d { ind with index := m } fs' := by
  refine ⟨?_, ?_⟩
  · rcases hi with ⟨h1, h2⟩ | ⟨ind0, h1, h2, h3⟩
    · obtain ⟨ind0, g1, g2, g3⟩ := s.index
      refine ⟨ind0, g1, by rw [h1]; exact g2, ?_⟩
      intro h
      simp only
      rw [g3, hm]
      split
      · rename_i e; subst e; rw [h2]; rfl
      · rfl
    · refine ⟨ind0, h1, h2, ?_⟩
      intro h
      simp only
      rw [h3, hm]
      split
      · rfl
      · rfl
  · intro h r' hr'
    simp only at hr'
    rw [hm] at hr'
    split at hr'
    · rename_i e; subst e; cases hr'
      refine ⟨p, ?_, ?_, hpw⟩
      · unfold viewProgress; rw [hr]
      · rw [viewProgress_saved d fs' { r with progressFile := none } p.progress hpw rfl hf]
        simp only
        rw [← hp]
    · rename_i hne
      obtain ⟨q, h1, h2, h3⟩ := s.prog h r' hr'
      have hk := hw.ownGet h r' hr'
      have : ∀ r'' : Record, r''.sha1Hash = h → viewProgress d fs' r'' = viewProgress d fs r'' :=
        fun r'' e => viewProgress_fs _ _ _ _ (by rw [e]; exact ho h (Ne.symm hne))
      exact ⟨q, (this r' hk).trans h1, (this { r' with progressFile := none } hk).trans h2, h3⟩

/-- Removing one record. -/
theorem Sync.del (s : Sync env d ind fs) (hw : WFIdx d ind) {m : List (Sha1Hash × Record)} {fs' : FS} (k : Sha1Hash)
    (hm : ∀ h, mapGet m h = if k = h then none else mapGet ind.index h) (hwm : WFIdx d { ind with index := m })
    (hi : fs' (indexPath d) = some (env.json.enc ({ ind with index := m } : IndexFile).toJSON))
    (ho : ∀ h, h ≠ k → fs' (progressPath d h) = fs (progressPath d h)) : Sync env d { ind with index := m } fs' := by
  refine ⟨⟨_, hwm, hi, fun _ => rfl⟩, ?_⟩
  intro h r hr
  simp only at hr
  rw [hm] at hr
  split at hr
  · cases hr
  · rename_i hne
    obtain ⟨q, h1, h2, h3⟩ := s.prog h r hr
    have hk := hw.ownGet h r hr
    have : ∀ r'' : Record, r''.sha1Hash = h → viewProgress d fs' r'' = viewProgress d fs r'' :=
      fun r'' e => viewProgress_fs _ _ _ _ (by rw [e]; exact ho h (Ne.symm hne))
    exact ⟨q, (this r hk).trans h1, (this { r with progressFile := none } hk).trans h2, h3⟩

end

theorem FS.put_put (fs : FS) (p : Path) (a b : Option Bytes) : (fs.put p a).put p b = fs.put p b := by
  funext q; unfold FS.put; split <;> rfl

/-- A fault-free `SaveChunk` that returns. -/
theorem saveChunk_nil (h : Sha1Hash) (n : UInt16) (data : Bytes) (d dl : Path) (ind : IndexFile) (fs : FS) (r : Res Unit) (s' : St)
    (hrun : saveChunk h n data ⟨⟨d, dl, some ind⟩, fs, []⟩ = (r, s')) (hret : r.returns = true) :
    ∃ rec p, mapGet ind.index h = some rec ∧ viewProgress d fs rec = .ok p ∧
      ((r = .err .io ∧ (n.toNat : Int) * rec.chunkSize < 0 ∧ ∃ x, s' = ⟨⟨d, dl, some { ind with index := loadInto ind.index rec p }⟩, fs.put rec.filePath x, []⟩) ∨
       (r = .ok () ∧ 0 ≤ (n.toNat : Int) * rec.chunkSize ∧ ∃ b, p.progress.set (BitVec.ofNat 64 n.toNat) = .ok b ∧
          s' = ⟨⟨d, dl, some { ind with index := mapPut (loadInto ind.index rec p) rec.sha1Hash { rec with progressFile := some { p with progress := b } } }⟩,
            (fs.put rec.filePath (some (overlay ((fs rec.filePath).getD []) ((n.toNat : Int) * rec.chunkSize).toNat data))).put p.filePath (some b.serialize), []⟩)) := by
  unfold saveChunk at hrun
  rw [IOM.bind_apply] at hrun
  unfold IOM.orPanic at hrun
  rw [getIndexRecord_nil] at hrun
  rcases hm : mapGet ind.index h with _ | rec
  · rw [hm] at hrun; cases hrun; cases hret
  rw [hm] at hrun
  simp only at hrun
  rcases hv : viewProgress d fs rec with p | e | _ | _ | _
  all_goals rw [hv] at hrun
  rotate_left
  · cases hrun; cases hret
  · cases hrun; cases hret
  · cases hrun; cases hret
  · cases hrun; cases hret
  refine ⟨rec, p, rfl, hv, ?_⟩
  simp only [Record.saveChunk, IOM.bind_apply, osOpenCreate_nil] at hrun
  by_cases hneg : (n.toNat : Int) * rec.chunkSize < 0
  · left
    unfold osWriteAt at hrun
    rw [if_pos hneg, IOM.lift_apply] at hrun
    cases hrun
    exact ⟨rfl, hneg, _, rfl⟩
  · right
    obtain ⟨k, hk⟩ : ∃ k : Nat, (n.toNat : Int) * rec.chunkSize = k := ⟨((n.toNat : Int) * rec.chunkSize).toNat, by omega⟩
    rw [hk, osWriteAt_nil] at hrun
    obtain ⟨dd, e1, -⟩ := Bitset.set_eq p.progress (BitVec.ofNat 64 n.toNat) (by
      have := n.toNat_lt
      simp only [BitVec.toNat_ofNat]; omega)
    simp only [IOM.lift_apply, e1, updateRecord_eval, ProgressFile.save, osWriteFile_nil, FS.put_put, FS.put_same, Option.getD_some] at hrun
    cases hrun
    refine ⟨rfl, by omega, _, e1, ?_⟩
    rw [hk]; rfl

theorem More.loadInto {d : Path} {fs : FS} {m : List (Sha1Hash × Record)} (ho : Own m) {h : Sha1Hash} {r : Record} {p : ProgressFile}
    (hr : mapGet m h = some r) (hv : viewProgress d fs r = .ok p) : More d fs m (Flu.loadInto m r p) := by
  unfold Flu.loadInto
  split
  · exact More.refl _ _ _
  · rename_i hn; exact (More.refl d fs m).load ho hr hn hv

theorem newProgressFile_noErr (r : Record) (d : Path) (hs : r.sizeInBytes < 2 ^ 63) (hc : 0 ≤ r.chunkSize) :
    (∃ p, newProgressFile r d = .ok p) ∨ newProgressFile r d = .panic := by
  unfold newProgressFile
  rcases hcc : chunkCountOf r.sizeInBytes r.chunkSize with n | _ | _ | _ | _
  · rw [Res.bind_ok]
    by_cases hn : n < 0
    · right
      unfold Bitset.newBitset
      rw [if_pos hn]; rfl
    · have hlt := chunkCountOf_lt _ _ hs hc n hcc
      obtain ⟨b, hb, -⟩ := Bitset.newBitset_spec n.toNat (by omega)
      rw [show ((n.toNat : Nat) : Int) = n by omega] at hb
      rw [hb]
      exact .inl ⟨_, rfl⟩
  · unfold chunkCountOf at hcc; split at hcc <;> cases hcc
  · exact .inr rfl
  · unfold chunkCountOf at hcc; split at hcc <;> cases hcc
  · unfold chunkCountOf at hcc; split at hcc <;> cases hcc

/-- A fault-free `ShareFile` that returns an error changed nothing. -/
theorem shareFile_nil_err (env : Env) (path : GoString) (d dl : Path) (ind : IndexFile) (fs : FS) (e : Err) (s' : St)
    (h : shareFile env path ⟨⟨d, dl, some ind⟩, fs, []⟩ = (.err e, s')) : s' = ⟨⟨d, dl, some ind⟩, fs, []⟩ := by
  unfold shareFile at h
  simp only [IOM.bind_apply, generate_nil] at h
  rcases hf : fs (absPath env.cwd path) with _ | content
  · rw [hf] at h; cases h; rfl
  rw [hf] at h
  simp only at h
  rw [addIndexRecord_nil] at h
  simp only at h
  rcases hm : mapGet ind.index (env.sha1 content) with _ | ext
  rotate_left
  · rw [hm] at h; cases h; rfl
  rw [hm] at h
  simp only [getCat_apply, IOM.lift_apply] at h
  generalize hr : (Record.mk (absPath env.cwd path) (asInt64 (UInt64.ofNat content.length)) (env.sha1 content) none defaultChunkSize) = r at h
  rcases newProgressFile_noErr r d (by rw [← hr]; exact asInt64_lt _) (by rw [← hr]; show (0 : Int) ≤ 4194304; omega) with ⟨p, hp⟩ | hp
  · rw [hp] at h
    simp only [updateRecord_eval] at h
    have hpw := (newProgressFile_ok (d := d) r (by rw [← hr]; exact asInt64_lt _) (by rw [← hr]; show (0 : Int) ≤ 4194304; omega) p hp).2.1
    obtain ⟨dd, e1, -⟩ := Bitset.fill_eq p.progress hpw
    rw [e1] at h
    simp only [updateRecord_eval, ProgressFile.save, osWriteFile_nil, IOM.pure_apply] at h
    cases h
  · rw [hp] at h; cases h

/-- A fault-free `RegisterDownload` that returns an error changed nothing. -/
theorem registerDownload_nil_err (env : Env) (size : UInt64) (cs : UInt32) (h : Sha1Hash) (name : GoString) (d dl : Path) (ind : IndexFile) (fs : FS)
    (e : Err) (s' : St) (hrun : registerDownload env size cs h name ⟨⟨d, dl, some ind⟩, fs, []⟩ = (.err e, s')) : s' = ⟨⟨d, dl, some ind⟩, fs, []⟩ := by
  unfold registerDownload at hrun
  simp only [IOM.bind_apply, getCat_apply, addIndexRecord_nil] at hrun
  rcases hm : mapGet ind.index h with _ | ext
  rotate_left
  · rw [hm] at hrun; cases hrun; rfl
  rw [hm] at hrun
  simp only [IOM.lift_apply] at hrun
  generalize hr : (Record.mk (joinPath [dl, name]) (asInt64 size) h none cs.toNat) = r at hrun
  rcases newProgressFile_noErr r d (by rw [← hr]; exact asInt64_lt _) (by rw [← hr]; show (0 : Int) ≤ (cs.toNat : Int); omega) with ⟨p, hp⟩ | hp
  · rw [hp] at hrun
    simp only [updateRecord_eval, ProgressFile.save, IOM.ignoreErr, osWriteFile_nil, Record.export] at hrun
    cases hrun
  · rw [hp] at hrun; cases hrun

/-- A fault-free `UnshareFile` that returns an error at most loaded a progress file. -/
theorem unshareFile_nil_err (env : Env) (h : Sha1Hash) (d dl : Path) (ind : IndexFile) (fs : FS) (ho : Own ind.index) (e : Err) (s' : St)
    (hrun : unshareFile env h ⟨⟨d, dl, some ind⟩, fs, []⟩ = (.err e, s')) : RO d dl ind fs s'.cat s'.fs := by
  unfold unshareFile at hrun
  rw [IOM.bind_apply, getIndexRecord_nil] at hrun
  rcases hm : mapGet ind.index h with _ | r
  · rw [hm] at hrun; cases hrun; exact RO.init _ _ _ _
  rw [hm] at hrun
  simp only at hrun
  rcases hv : viewProgress d fs r with p | e | _ | _ | _
  all_goals rw [hv] at hrun
  · simp only [ProgressFile.delete, IOM.bind_apply, osRemove_nil] at hrun
    rcases hp : fs p.filePath with _ | x
    · rw [hp] at hrun; cases hrun
      exact ⟨rfl, _, rfl, More.loadInto ho hm hv⟩
    · rw [hp] at hrun
      cases hrun
  · cases hrun; exact RO.init _ _ _ _
  all_goals cases hrun

/-- The invariant of a fault-free life. -/
def SyncSys (env : Env) (d dl : Path) : Sys → Prop
  | .running c fs => ∃ ind, c = ⟨d, dl, some ind⟩ ∧ Sync env d ind fs
  | .stopped fs => (∀ p, CatFile d p → fs p = none) ∨ ∃ ind, WFIdx d ind ∧ Sync env d ind fs

theorem CM.void_inv {α : Type} (x : CM α) (s s' : St) (r : Res Unit) (h : CM.void x s = (r, s')) (hret : r.returns = true) :
    (∃ a, x s = (.ok a, s') ∧ r = .ok ()) ∨ ∃ e, x s = (.err e, s') ∧ r = .err e := by
  unfold CM.void at h
  rw [IOM.bind_apply] at h
  rcases hx : x s with ⟨a, s1⟩
  rw [hx] at h
  cases a with
  | ok a => cases h; exact .inl ⟨a, rfl, rfl⟩
  | err e => cases h; exact .inr ⟨e, rfl, rfl⟩
  | panic => cases h; cases hret
  | exit => cases h; cases hret
  | crash => cases h; cases hret

section
variable {env : Env} {d dl : Path} {ind : IndexFile} {fs : FS}

theorem Sync.ro (s : Sync env d ind fs) {c' : Cat} {fs' : FS} (h : RO d dl ind fs c' fs') : ∃ ind', c' = ⟨d, dl, some ind'⟩ ∧ Sync env d ind' fs' := by
  obtain ⟨rfl, m', rfl, hm⟩ := h
  exact ⟨_, rfl, s.more hm⟩

theorem Sync.call (s : Sync env d ind fs) (hd : AbsClean d) (hw : WFIdx d ind) (hdisk : DiskOK env d fs) (o : Op)
    (hsafe : o.Safe d ⟨d, dl, some ind⟩) (r : Res Unit) (s' : St)
    (hrun : o.run env ⟨⟨d, dl, some ind⟩, fs, []⟩ = (r, s')) (hret : r.returns = true) :
    ∃ ind', s'.cat = ⟨d, dl, some ind'⟩ ∧ Sync env d ind' s'.fs := by
  by_cases hro : o.readOnly = true
  · obtain ⟨h1, h2⟩ := ro_op (d := d) (dl := dl) (ind := ind) (fs0 := fs) env hw.ownGet o hro ⟨⟨d, dl, some ind⟩, fs, []⟩ (RO.init _ _ _ _)
    rcases Res.returns_cases hret with rfl | ⟨e, rfl⟩
    · exact s.ro (h1 () s' hrun)
    · exact s.ro (h2 _ s' hrun (by intro a e; cases e))
  cases o with
  | share path =>
    rcases CM.void_inv _ _ _ _ hrun hret with ⟨a, hx, rfl⟩ | ⟨e, hx, rfl⟩
    · obtain ⟨content, p, full, m1, h1, h2, h3, h4, h5, h6, h7, h8⟩ := shareFile_nil_ok env path d dl ind fs a s' hx
      have hpp := newProgressFile_path _ _ p h3
      have hpw := (newProgressFile_ok _ (asInt64_lt _) (by show (0 : Int) ≤ 4194304; omega) p h3).2.1
      have hah : a.sha1Hash = env.sha1 content := by rw [h5]
      obtain ⟨dd, e1, w1, -⟩ := Bitset.fill_eq p.progress hpw
      rw [e1] at h4; cases h4
      subst h6
      refine ⟨_, rfl, Sync.put s hw a { p with progress := ⟨dd, p.progress.size⟩ } ?_ (by rw [h5]) (by rw [hah]; exact hpp) w1 ?_ ?_ ?_⟩
      · intro h
        rw [hah, mapGet_put]
        split
        · rfl
        · rename_i hne; exact h7 h hne
      · right
        refine ⟨{ ind with index := mapPut ind.index (env.sha1 content) { a with progressFile := none } }, ?_, ?_, ?_⟩
        · have := hw.put { a with progressFile := none } ⟨by rw [h5]; show (0 : Int) ≤ 4194304; decide, by rw [h5]; show (4194304 : Int) < 2 ^ 32; decide, fun q hq => by cases hq⟩
          rw [← hah]
          exact this
        · simp only
          rw [FS.put_other _ _ _ _ (by rw [hpp]; exact indexPath_ne_progressPath d d hd hd _), hw.dir, FS.put_same]
        · intro h
          simp only
          rw [mapGet_put, hah]
      · simp only
        rw [hah, hpp]; exact FS.put_same _ _ _
      · intro h hne
        simp only
        rw [hah] at hne
        rw [FS.put_other _ _ _ _ (by rw [hpp]; exact fun e => hne (progressPath_inj d hd _ _ e)), hw.dir,
          FS.put_other _ _ _ _ (fun e => indexPath_ne_progressPath d d hd hd h e.symm)]
    · rw [shareFile_nil_err env path d dl ind fs e s' hx]
      exact ⟨ind, rfl, s⟩
  | unshare h =>
    rcases Res.returns_cases hret with rfl | ⟨e, rfl⟩
    · obtain ⟨rec, p, m, h1, h2, h3, h4, h5⟩ := unshareFile_nil_ok env h d dl ind fs s' hrun
      have hk := hw.ownGet _ _ h1
      have hrec := hw.recs _ _ (mapGet_mem _ _ _ h1)
      obtain ⟨hpp, hpl⟩ := viewProgress_loaded hdisk hrec h2
      subst h5
      have hwl := hw.loadInto hrec hpl h2
      have hget : ∀ k, mapGet m k = if h = k then none else mapGet ind.index k := by
        intro k
        have hp' : rec.progressFile = some p ∨ rec.progressFile = none := by
          rcases viewProgress_own h2 with hp | hp
          · exact .inl hp
          · exact .inr hp.1
        rw [h4, mapGet_del, hk, mapGet_loadInto _ _ _ _ (by rw [hk]; exact h1) hp', hk]
        by_cases e : h = k <;> simp [e]
      refine ⟨_, rfl, Sync.del s hw h hget ?_ ?_ ?_⟩
      · rw [h4]; exact hwl.del _
      · simp only
        rw [hw.dir, FS.put_same]
      · intro k hne
        simp only
        rw [hw.dir, FS.put_other _ _ _ _ (fun e => indexPath_ne_progressPath d d hd hd k e.symm),
          FS.put_other _ _ _ _ (by rw [hpp, hk]; exact fun e => hne (progressPath_inj d hd _ _ e))]
    · exact s.ro (unshareFile_nil_err env h d dl ind fs hw.ownGet e s' hrun)
  | register size cs h name =>
    rcases CM.void_inv _ _ _ _ hrun hret with ⟨a, hx, rfl⟩ | ⟨e, hx, rfl⟩
    · obtain ⟨p, m1, fs1, h1, h2, h3, h4, h5, h6, h7, h8⟩ := registerDownload_ok env size cs h name d dl ind fs [] a s' hx
      have hfs := h7 rfl
      have hpp := newProgressFile_path _ _ p h2
      have hpw := (newProgressFile_ok _ (asInt64_lt _) (by show (0 : Int) ≤ (cs.toNat : Int); omega) p h2).2.1
      refine ⟨_, h5, ?_⟩
      refine Sync.put s hw { downloadRecord dl size cs h name with progressFile := some p } p ?_ rfl hpp hpw ?_ ?_ ?_
      · intro k
        show _ = if h = k then _ else _
        rw [mapGet_put, h3, mapGet_put]
        split <;> rfl
      · right
        refine ⟨{ ind with index := m1 }, ?_, ?_, ?_⟩
        · rw [h3]
          exact hw.put (downloadRecord dl size cs h name) ⟨by show (0 : Int) ≤ (cs.toNat : Int); omega, by show (cs.toNat : Int) < 2 ^ 32; have := cs.toNat_lt; omega, fun q hq => by cases hq⟩
        · rw [hfs, FS.put_other _ _ _ _ (by rw [hpp]; exact indexPath_ne_progressPath d d hd hd _), h4, hw.dir, FS.put_same]
        · intro k
          show mapGet m1 k = if h = k then _ else _
          rw [h3, mapGet_put]; rfl
      · rw [hfs, hpp]; exact FS.put_same _ _ _
      · intro k hne
        rw [hfs, FS.put_other _ _ _ _ (by rw [hpp]; exact fun e => hne (progressPath_inj d hd _ _ e)), h4, hw.dir,
          FS.put_other _ _ _ _ (fun e => indexPath_ne_progressPath d d hd hd k e.symm)]
    · rw [registerDownload_nil_err env size cs h name d dl ind fs e s' hx]
      exact ⟨ind, rfl, s⟩
  | save h n data =>
    obtain ⟨rec, p, h1, h2, h3⟩ := saveChunk_nil h n data d dl ind fs r s' hrun hret
    have hk := hw.ownGet _ _ h1
    have hrec := hw.recs _ _ (mapGet_mem _ _ _ h1)
    have hpp := (viewProgress_loaded hdisk hrec h2).1
    have hncat : ¬ CatFile d rec.filePath := hsafe rec.filePath (by
      show Option.map _ (mapGet ind.index h) = _
      rw [h1]; rfl)
    have hmore := More.loadInto (fs := fs) hw.ownGet h1 h2
    rcases h3 with ⟨rfl, -, x, rfl⟩ | ⟨rfl, -, b, hb, rfl⟩
    · exact ⟨_, rfl, (s.more hmore).putOther _ hncat _⟩
    · obtain ⟨q, g1, g2, g3⟩ := s.prog h rec h1
      rw [h2] at g1; cases g1
      have hbw : b.Wf := Bitset.set_wf _ _ _ (by
        have := n.toNat_lt
        simp only [BitVec.toNat_ofNat]; omega) g3 hb
      have hp' : rec.progressFile = some p ∨ rec.progressFile = none := by
        rcases viewProgress_own h2 with hp | hp
        · exact .inl hp
        · exact .inr hp.1
      have s2 := s.putOther rec.filePath hncat (some (overlay ((fs rec.filePath).getD []) ((n.toNat : Int) * rec.chunkSize).toNat data))
      refine ⟨_, rfl, Sync.put s2 hw { rec with progressFile := some { p with progress := b } } { p with progress := b } ?_ rfl hpp hbw ?_ ?_ ?_⟩
      · intro k
        rw [mapGet_put]
        show (if rec.sha1Hash = k then _ else _) = if rec.sha1Hash = k then _ else _
        split
        · rfl
        · rename_i hne
          rw [mapGet_loadInto _ _ _ _ (by rw [hk]; exact h1) hp', if_neg hne]
      · left
        refine ⟨?_, ?_⟩
        · exact FS.put_other _ _ _ _ (by rw [hpp]; exact indexPath_ne_progressPath d d hd hd _)
        · show Option.map _ (mapGet ind.index rec.sha1Hash) = _
          rw [show mapGet ind.index rec.sha1Hash = some rec from hk ▸ h1]; rfl
      · simp only
        rw [← hpp]; exact FS.put_same _ _ _
      · intro k hne
        exact FS.put_other _ _ _ _ (by rw [hpp]; exact fun e => hne (progressPath_inj d hd _ _ e))
  | list o => exact absurd rfl hro
  | rehash h => exact absurd rfl hro
  | contains h => exact absurd rfl hro
  | get h => exact absurd rfl hro
  | complete h => exact absurd rfl hro
  | missing h => exact absurd rfl hro
  | reader h n ch => exact absurd rfl hro

/-- Starting on files that agree with some memory restores it. -/
theorem Sync.start (s : Sync env d ind fs) :
    ∃ ind', Cat.init env ⟨⟨d, dl, none⟩, fs, []⟩ = (.ok (), ⟨⟨d, dl, some ind'⟩, fs, []⟩) ∧ Sync env d ind' fs ∧
      ∀ h, mapGet ind'.index h = (mapGet ind.index h).map (Record.reloaded env.json.fix) := by
  obtain ⟨ind0, h1, h2, h3⟩ := s.index
  obtain ⟨m, g1, g2, g3⟩ := init_nil_old env d dl none fs ind0 h1.nodup h2
  have hget : ∀ h, mapGet m h = (mapGet ind.index h).map (Record.reloaded env.json.fix) := fun h => by rw [g3, h3]
  refine ⟨_, g1, ⟨⟨ind0, h1, h2, ?_⟩, ?_⟩, hget⟩
  · intro h
    simp only
    rw [g3]
    rcases mapGet ind0.index h with _ | r
    · rfl
    · simp only [Option.map_some, Record.reloaded, env.json.fix_idem]
  · intro h r hr
    simp only at hr
    rw [hget] at hr
    rcases hm : mapGet ind.index h with _ | r0
    · rw [hm] at hr; cases hr
    rw [hm] at hr; cases hr
    obtain ⟨p, h4, h5, h6⟩ := s.prog h r0 hm
    exact ⟨p, h5, h5, h6⟩

end

theorem CleanReach.sync {env : Env} {d dl : Path} (hd : AbsClean d) (hfix : env.json.fix d = d) {s : Sys} (h : CleanReach env d dl s) : SyncSys env d dl s := by
  induction h with
  | empty fs hfs => exact .inl hfs
  | call o c fs r s' h hsafe hrun hret ih =>
    obtain ⟨ind, rfl, hs⟩ := ih
    have hI : Inv env d dl ⟨d, dl, some ind⟩ fs := h.reach.inv hd hfix
    obtain ⟨ind', hi, hw⟩ := hI.mem
    cases hi
    exact hs.call hd hw hI.disk o hsafe r s' hrun hret
  | kill c fs h ih =>
    obtain ⟨ind, rfl, hs⟩ := ih
    have hI : Inv env d dl ⟨d, dl, some ind⟩ fs := h.reach.inv hd hfix
    obtain ⟨ind', hi, hw⟩ := hI.mem
    cases hi
    exact .inr ⟨ind, hw, hs⟩
  | start pid now fs s' h hrun ih =>
    rcases ih with hemp | ⟨ind, hw, hs⟩
    · rw [init_nil_fresh { env with pid := pid, now := now } d dl none fs hfix (hemp _ (.inl rfl))] at hrun
      cases hrun
      refine ⟨_, rfl, ⟨⟨freshIdx { env with pid := pid, now := now } d, ⟨rfl, by simp [freshIdx], ?_, ?_⟩, FS.put_same _ _ _, fun _ => rfl⟩, ?_⟩⟩
      · intro k r hk; cases hk
      · intro k r hk; cases hk
      · intro k r hk; cases hk
    · obtain ⟨ind', h1, h2, -⟩ := Sync.start (env := { env with pid := pid, now := now }) (dl := dl) ⟨hs.index, hs.prog⟩
      rw [h1] at hrun
      cases hrun
      exact ⟨ind', rfl, ⟨h2.index, h2.prog⟩⟩
  | userRunning c fs p content hp h ih =>
    obtain ⟨ind, rfl, hs⟩ := ih
    exact ⟨ind, rfl, hs.putOther p hp content⟩
  | userStopped fs p content hp h ih =>
    rcases ih with hemp | ⟨ind, hw, hs⟩
    · left
      intro q hq
      rw [FS.put_other _ _ _ _ (fun e => hp (by rw [← e]; exact hq))]
      exact hemp q hq
    · exact .inr ⟨ind, hw, hs.putOther p hp content⟩

end Flu
