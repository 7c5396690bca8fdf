import Verif.Lemmas.CatOwned
import Verif.Props.CatCrash
import Verif.Props.CatSave
import Verif.Props.CatHostile
/-!
# A call that reports success (C102)

What a call does when operations of the disk fail under it, and it nevertheless returns without an error.
-/
namespace Flu

namespace Spec

/-- If the call returns success, whatever operations of the disk failed, then its result and its effect are those that it has on a disk that works. -/
def Truthful {α : Type} (x : CM α) : Prop := ∀ c fs fl a s', x ⟨c, fs, fl⟩ = (.ok a, s') → x ⟨c, fs, []⟩ = (.ok a, ⟨s'.cat, s'.fs, []⟩)

/-- What a daemon shows is on its disk: if it is ended now, whatever it is started as then, it shows every file with the same data and progress (its path as JSON preserves it), and no other file. -/
def Kept (env : Env) (d dl : Path) (c : Cat) (fs : FS) : Prop := ∀ pid now : Int,
  ∃ c', Cat.init { env with pid := pid, now := now } ⟨⟨d, dl, none⟩, fs, []⟩ = (.ok (), ⟨c', fs, []⟩) ∧
    (∀ h e, observe c fs h = .ok e → observe c' fs h = .ok (e.refix env.json.fix)) ∧
    (∀ h, observe c fs h = .err .fileNotFound → observe c' fs h = .err .fileNotFound)

/-- The calls other than `RegisterDownload`. -/
def NotRegister : Op → Prop
  | .register .. => False
  | _ => True

end Spec
open Spec

theorem Truthful.bind {α β : Type} {x : CM α} {f : α → CM β} (hx : Truthful x) (hf : ∀ a, Truthful (f a)) : Truthful (x >>= f) := by
  intro c fs fl b s' h
  rw [IOM.bind_apply] at h ⊢
  rcases hr : x ⟨c, fs, fl⟩ with ⟨r, s1⟩
  rw [hr] at h
  cases r with
  | ok a =>
    rw [hx _ _ _ _ _ hr]
    exact hf a _ _ s1.faults _ _ h
  | err e => cases h
  | panic => cases h
  | exit => cases h
  | crash => cases h

theorem Truthful.lift {α : Type} (r : Res α) : Truthful (IOM.lift r : CM α) := by
  intro c fs fl a s' h
  cases h; rfl

theorem Truthful.pure {α : Type} (a : α) : Truthful (Pure.pure a : CM α) := Truthful.lift (.ok a)

theorem Truthful.getCat : Truthful getCat := by
  intro c fs fl a s' h
  cases h; rfl

theorem Truthful.getFS : Truthful getFS := by
  intro c fs fl a s' h
  cases h; rfl

theorem Truthful.modify {f : St → St} (hf : ∀ c fs fl, f ⟨c, fs, []⟩ = ⟨(f ⟨c, fs, fl⟩).cat, (f ⟨c, fs, fl⟩).fs, []⟩) : Truthful (IOM.modify f) := by
  intro c fs fl a s' h
  cases h
  show (Res.ok (), _) = _
  rw [hf c fs fl]

theorem Truthful.setFile (p : Path) (x : Option Bytes) : Truthful (setFile p x) := Truthful.modify (fun _ _ _ => rfl)

theorem Truthful.setIndex (ind : IndexFile) : Truthful (setIndex ind) := Truthful.modify (fun _ _ _ => rfl)

theorem Truthful.orPanic {α : Type} {x : CM α} (hx : Truthful x) : Truthful (IOM.orPanic x) := by
  intro c fs fl a s' h
  unfold IOM.orPanic at h ⊢
  rcases hr : x ⟨c, fs, fl⟩ with ⟨r, s1⟩
  rw [hr] at h
  cases r with
  | ok b =>
    cases h
    rw [hx _ _ _ _ _ hr]
  | err e => cases h
  | panic => cases h
  | exit => cases h
  | crash => cases h

/-- An operation of the disk: it may fail, but then it says so. -/
theorem Truthful.fault {α : Type} {k : Fault → CM α} (h0 : Truthful (k .none)) (hbad : ∀ f, f ≠ .none → ∀ s a s', k f s ≠ (.ok a, s')) : Truthful (nextFault >>= k) := by
  intro c fs fl a s' h
  rw [IOM.bind_apply] at h ⊢
  cases fl with
  | nil => exact h0 _ _ _ _ _ h
  | cons f fl =>
    by_cases hf : f = .none
    · subst hf; exact h0 _ _ fl _ _ h
    · exact absurd h (hbad f hf _ _ _)

theorem Truthful.osWriteFile (p : Path) (x : Bytes) : Truthful (osWriteFile p x) := by
  refine Truthful.fault (Truthful.setFile p _) ?_
  intro f hf s a s' h
  rcases f with _ | _ | _
  · exact hf rfl
  · rename_i eff; cases eff <;> cases h
  · rename_i eff; cases eff <;> cases h

theorem Truthful.osReadFile (p : Path) : Truthful (osReadFile p) := by
  refine Truthful.fault (Truthful.bind Truthful.getFS (fun x => ?_)) ?_
  · split
    · exact Truthful.pure _
    · exact Truthful.lift _
  · intro f hf s a s' h
    rcases f with _ | _ | _
    · exact hf rfl
    · cases h
    · cases h

theorem Truthful.osStat (p : Path) : Truthful (osStat p) := by
  refine Truthful.fault (Truthful.bind Truthful.getFS (fun x => Truthful.pure _)) ?_
  intro f hf s a s' h
  rcases f with _ | _ | _
  · exact hf rfl
  · cases h
  · cases h

theorem Truthful.osTouch : Truthful osTouch := by
  refine Truthful.fault (Truthful.pure _) ?_
  intro f hf s a s' h
  rcases f with _ | _ | _
  · exact hf rfl
  · cases h
  · cases h

theorem Truthful.osRemove (p : Path) : Truthful (osRemove p) := by
  refine Truthful.fault (Truthful.bind Truthful.getFS (fun x => ?_)) ?_
  · split
    · exact Truthful.setFile _ _
    · exact Truthful.lift _
  · intro f hf s a s' h
    rcases f with _ | _ | _
    · exact hf rfl
    · cases h
    · rename_i eff; cases eff <;> cases h

theorem Truthful.osOpenCreate (p : Path) : Truthful (osOpenCreate p) := by
  refine Truthful.fault (Truthful.modify (fun _ _ _ => rfl)) ?_
  intro f hf s a s' h
  rcases f with _ | _ | _
  · exact hf rfl
  · cases h
  · rename_i eff; cases eff <;> cases h

theorem Truthful.osWriteAt (p : Path) (x : Bytes) (start : Int) : Truthful (osWriteAt p x start) := by
  unfold Flu.osWriteAt
  split
  · exact Truthful.lift _
  · refine Truthful.fault (Truthful.modify (fun _ _ _ => rfl)) ?_
    intro f hf s a s' h
    rcases f with _ | _ | _
    · exact hf rfl
    · rename_i eff; cases eff <;> cases h
    · rename_i eff; cases eff <;> cases h

theorem Truthful.osHashFile (env : Env) (p : Path) : Truthful (osHashFile env p) := Truthful.bind (Truthful.osReadFile p) (fun _ => Truthful.pure _)

theorem Truthful.getIndex : Truthful getIndex := by
  refine Truthful.bind Truthful.getCat (fun x => ?_)
  split
  · exact Truthful.pure _
  · exact Truthful.lift _

theorem Truthful.saveIndex (env : Env) : Truthful (saveIndex env) := Truthful.bind Truthful.getIndex (fun _ => Truthful.osWriteFile _ _)

theorem Truthful.updateRecord (r : Record) : Truthful (updateRecord r) := Truthful.bind Truthful.getIndex (fun _ => Truthful.setIndex _)

theorem Truthful.addIndexRecord (env : Env) (r : Record) : Truthful (addIndexRecord env r) := by
  refine Truthful.bind Truthful.getIndex (fun ind => ?_)
  split
  · exact Truthful.lift _
  · exact Truthful.bind (Truthful.setIndex _) (fun _ => Truthful.saveIndex env)

theorem Truthful.removeIndexRecord (env : Env) (r : Record) : Truthful (removeIndexRecord env r) :=
  Truthful.bind Truthful.getIndex (fun _ => Truthful.bind (Truthful.setIndex _) (fun _ => Truthful.saveIndex env))

theorem Truthful.fillRecord (r : Record) : Truthful (fillRecord r) := by
  unfold Flu.fillRecord
  split
  · exact Truthful.pure _
  · refine Truthful.bind Truthful.getCat (fun c => Truthful.bind ?_ (fun p => Truthful.bind (Truthful.updateRecord _) (fun _ => Truthful.pure _)))
    exact Truthful.bind (Truthful.osReadFile _) (fun x => Truthful.bind (Truthful.lift _) (fun _ => Truthful.pure _))

theorem Truthful.getIndexRecord (h : Sha1Hash) : Truthful (getIndexRecord h) := by
  refine Truthful.bind Truthful.getIndex (fun ind => ?_)
  split
  · exact Truthful.fillRecord _
  · exact Truthful.lift _

theorem Truthful.init (env : Env) : Truthful (Cat.init env) := by
  refine Truthful.bind Truthful.getCat (fun c => Truthful.bind (Truthful.setIndex _) (fun _ => Truthful.bind Truthful.osTouch (fun _ => Truthful.bind Truthful.osTouch (fun _ =>
    Truthful.bind (Truthful.osStat _) (fun x => ?_)))))
  have rest : Truthful (do
      let data ← Flu.osReadFile (indexPath c.dataDir)
      let ind ← IOM.lift (unmarshalIndex env data)
      Flu.setIndex ind) := Truthful.bind (Truthful.osReadFile _) (fun data => Truthful.bind (Truthful.lift _) (fun ind => Truthful.setIndex _))
  cases x with
  | some _ => exact rest
  | none => exact Truthful.bind (Truthful.setIndex _) (fun _ => Truthful.bind (Truthful.saveIndex env) (fun _ => rest))

theorem Truthful.shareFile (env : Env) (path : GoString) : Truthful (shareFile env path) := by
  refine Truthful.bind ?_ (fun record => Truthful.bind (Truthful.addIndexRecord env _) (fun _ => Truthful.bind Truthful.getCat (fun c => Truthful.bind (Truthful.lift _) (fun p =>
    Truthful.bind (Truthful.updateRecord _) (fun _ => Truthful.bind (Truthful.lift _) (fun full => Truthful.bind (Truthful.updateRecord _) (fun _ =>
      Truthful.bind (Truthful.osWriteFile _ _) (fun _ => Truthful.pure _))))))))
  refine Truthful.bind (Truthful.osStat _) (fun x => ?_)
  split
  · exact Truthful.lift _
  · exact Truthful.bind (Truthful.osHashFile env _) (fun _ => Truthful.pure _)

theorem Truthful.unshareFile (env : Env) (h : Sha1Hash) : Truthful (unshareFile env h) := by
  refine Truthful.bind (Truthful.getIndexRecord h) (fun r => ?_)
  split
  · exact Truthful.lift _
  · exact Truthful.bind (Truthful.osRemove _) (fun _ => Truthful.removeIndexRecord env r)

theorem Truthful.listLoop : ∀ order : List Sha1Hash, Truthful (listLoop order)
  | [] => Truthful.pure _
  | h :: rest => by
    unfold Flu.listLoop
    refine Truthful.bind Truthful.getIndex (fun ind => ?_)
    split
    · exact Truthful.listLoop rest
    · exact Truthful.bind (Truthful.fillRecord _) (fun r => Truthful.bind (Truthful.lift _) (fun e => Truthful.bind (Truthful.listLoop rest) (fun es => Truthful.pure _)))

theorem Truthful.saveChunk (h : Sha1Hash) (n : UInt16) (data : Bytes) : Truthful (saveChunk h n data) := by
  refine Truthful.bind (Truthful.orPanic (Truthful.getIndexRecord h)) (fun r => Truthful.bind (Truthful.bind (Truthful.osOpenCreate _) (fun _ => Truthful.osWriteAt _ _ _)) (fun _ => ?_))
  split
  · exact Truthful.lift _
  · exact Truthful.bind (Truthful.lift _) (fun b => Truthful.bind (Truthful.updateRecord _) (fun _ => Truthful.osWriteFile _ _))

theorem Truthful.contains (h : Sha1Hash) : Truthful (contains h) := Truthful.bind (Truthful.getIndexRecord h) (fun _ => Truthful.lift _)

theorem Truthful.looks {α : Type} (h : Sha1Hash) (f : ProgressFile → Res α) : Truthful (do
    let r ← IOM.orPanic (Flu.getIndexRecord h)
    match r.progressFile with
    | none => IOM.lift .panic
    | some p => IOM.lift (f p)) := by
  refine Truthful.bind (Truthful.orPanic (Truthful.getIndexRecord h)) (fun r => ?_)
  split <;> exact Truthful.lift _

theorem Truthful.getChunkReader (env : Env) (h : Sha1Hash) (n : Nat) (ch : List AtChoice) : Truthful (getChunkReader env h n ch) := by
  refine Truthful.bind (Truthful.getIndexRecord h) (fun r => ?_)
  split
  · exact Truthful.lift _
  · refine Truthful.bind (Truthful.lift _) (fun b => ?_)
    split
    · exact Truthful.lift _
    · refine Truthful.bind Truthful.osTouch (fun _ => Truthful.bind Truthful.getFS (fun fs => ?_))
      split
      · exact Truthful.lift _
      · exact Truthful.pure _

theorem Truthful.rehash (env : Env) (h : Sha1Hash) : Truthful (rehash env h) := Truthful.bind (Truthful.getIndexRecord h) (fun _ => Truthful.osHashFile env _)

theorem Truthful.void {α : Type} {x : CM α} (hx : Truthful x) : Truthful (CM.void x) := Truthful.bind hx (fun _ => Truthful.pure _)

theorem Truthful.op (env : Env) : ∀ o : Op, NotRegister o → Truthful (o.run env)
  | .share p, _ => Truthful.void (Truthful.shareFile env p)
  | .unshare h, _ => Truthful.unshareFile env h
  | .list o, _ => Truthful.void (Truthful.bind Truthful.getIndex (fun _ => Truthful.listLoop o))
  | .rehash h, _ => Truthful.void (Truthful.rehash env h)
  | .contains h, _ => Truthful.void (Truthful.contains h)
  | .get h, _ => Truthful.void (Truthful.orPanic (Truthful.contains h))
  | .complete h, _ => Truthful.void (Truthful.looks h _)
  | .missing h, _ => Truthful.void (Truthful.looks h _)
  | .save h n x, _ => Truthful.saveChunk h n x
  | .reader h n ch, _ => Truthful.void (Truthful.getChunkReader env h n ch)

variable {env : Env} {d dl : Path} {c : Cat} {fs : FS}

theorem CleanReach.kept (hh : Healthy env d) (hclean : CleanReach env d dl (.running c fs)) : Kept env d dl c fs := by
  intro pid now
  obtain ⟨c', h1, -, h2, h3, -⟩ := C30_restart hh hclean pid now
  exact ⟨c', h1, h2, h3⟩

/-- The full claim: whichever operations of the disk fail during a call, if the call reports success then what the daemon shows afterwards is on its disk. -/
def C102_statement (env : Env) (d dl : Path) : Prop := ∀ c fs, CleanReach env d dl (.running c fs) → ∀ o : Op, o.Safe d c → ∀ fl s', o.run env ⟨c, fs, fl⟩ = (.ok (), s') →
  Kept env d dl s'.cat s'.fs

/-- What of C102 is true: it holds of every call other than `RegisterDownload`.  A success is that of the same call on a disk on which nothing fails, with the same effect; and the daemon is afterwards
in a state that a daemon on such a disk can be in, so that the claim holds of the next call too.  Missing from the full statement: `RegisterDownload`. -/
theorem C102_partial (hh : Healthy env d) (hclean : CleanReach env d dl (.running c fs)) (o : Op) (ho : NotRegister o) (hsafe : o.Safe d c) (fl : List Fault) (s' : St)
    (hrun : o.run env ⟨c, fs, fl⟩ = (.ok (), s')) :
    o.run env ⟨c, fs, []⟩ = (.ok (), ⟨s'.cat, s'.fs, []⟩) ∧ CleanReach env d dl (.running s'.cat s'.fs) ∧ Kept env d dl s'.cat s'.fs := by
  have h := Truthful.op env o ho _ _ _ _ _ hrun
  have hc : CleanReach env d dl (.running s'.cat s'.fs) := CleanReach.call o c fs (.ok ()) ⟨s'.cat, s'.fs, []⟩ hclean hsafe h rfl
  exact ⟨h, hc, hc.kept hh⟩

/-- The same for the answers of the calls, and for the start of the daemon. -/
theorem C102_answers (env : Env) :
    Truthful (Cat.init env) ∧ (∀ path, Truthful (shareFile env path)) ∧ (∀ h, Truthful (unshareFile env h)) ∧ (∀ order, Truthful (listFiles order)) ∧ (∀ h, Truthful (rehash env h)) ∧
      (∀ h, Truthful (contains h)) ∧ (∀ h, Truthful (catGet h)) ∧ (∀ h, Truthful (fileComplete h)) ∧ (∀ h, Truthful (missingChunks h)) ∧ (∀ h n data, Truthful (saveChunk h n data)) ∧
      (∀ h n reads, Truthful (getChunkReader env h n reads)) :=
  ⟨Truthful.init env, Truthful.shareFile env, Truthful.unshareFile env, fun o => Truthful.bind Truthful.getIndex (fun _ => Truthful.listLoop o), Truthful.rehash env, Truthful.contains,
    fun h => Truthful.orPanic (Truthful.contains h), fun h => Truthful.looks h _, fun h => Truthful.looks h _, Truthful.saveChunk, Truthful.getChunkReader env⟩

theorem osWriteFile_ends (p : Path) (x : Bytes) (s : St) (s' : St) (h : IOM.ignoreErr (osWriteFile p x) s = (.ok (), s')) :
    s'.cat = s.cat ∧ (∀ q, q ≠ p → s'.fs q = s.fs q) ∧ (s'.fs p = some x ∨ s'.fs p = s.fs p ∨ ∃ y, s'.fs p = some y ∧ y <+: x) := by
  obtain ⟨c, fs, fl⟩ := s
  cases fl with
  | nil => cases h; exact ⟨rfl, fun q hq => FS.put_other _ _ _ _ hq, .inl (FS.put_same _ _ _)⟩
  | cons f fl =>
    rcases f with _ | eff | eff
    · cases h; exact ⟨rfl, fun q hq => FS.put_other _ _ _ _ hq, .inl (FS.put_same _ _ _)⟩
    · cases eff with
      | none => cases h; exact ⟨rfl, fun _ _ => rfl, .inr (.inl rfl)⟩
      | some k => cases h; exact ⟨rfl, fun q hq => FS.put_other _ _ _ _ hq, .inr (.inr ⟨_, FS.put_same _ _ _, List.take_prefix _ _⟩)⟩
    · cases eff <;> cases h

/-- `RegisterDownload`, whichever operations of the disk failed: if it reports success, then so it does when nothing fails, with the same answer and the same effect, except on the file that keeps the
progress of the download.  That file may be as it was, or cut short. -/
theorem C102_register (hh : Healthy env d) (hreach : Reach env d dl (.running c fs)) (size : UInt64) (cs : UInt32) (h : Sha1Hash) (name : GoString) (fl : List Fault) (e : Export) (s' : St)
    (hrun : registerDownload env size cs h name ⟨c, fs, fl⟩ = (.ok e, s')) :
    ∃ fs0, registerDownload env size cs h name ⟨c, fs, []⟩ = (.ok e, ⟨s'.cat, fs0, []⟩) ∧ (∀ q, q ≠ progressPath d h → s'.fs q = fs0 q) ∧
      (s'.fs (progressPath d h) = fs0 (progressPath d h) ∨ s'.fs (progressPath d h) = fs (progressPath d h) ∨
        ∃ x y, s'.fs (progressPath d h) = some x ∧ fs0 (progressPath d h) = some y ∧ x <+: y) := by
  obtain ⟨ind, rfl, hw⟩ := (hreach.inv hh.abs hh.utf8).split
  unfold registerDownload at hrun ⊢
  rw [IOM.bind_apply, getCat_apply] at hrun ⊢
  simp only at hrun ⊢
  obtain ⟨_, s1, h1, hrun⟩ := (IOM.bind_ok_iff _ _ _ _ _).1 hrun
  have k1 := Truthful.addIndexRecord env _ _ _ _ _ _ h1
  have k0 := k1
  rw [addIndexRecord_nil] at k0
  rcases hm : mapGet ind.index h with _ | r
  · simp only [hm] at k0
    have hs1 : s1.cat = ⟨d, dl, some { ind with index := mapPut ind.index h (downloadRecord dl size cs h name) }⟩ := by cases s1; cases k0; rfl
    have hs2 : s1.fs (progressPath d h) = fs (progressPath d h) := by
      cases s1; cases k0
      exact FS.put_other _ _ _ _ (fun e => indexPath_ne_progressPath d d hh.abs hh.abs _ (by rw [hw.dir] at e; exact e.symm))
    clear k0
    rw [IOM.bind_apply, k1]
    simp only
    rw [IOM.bind_apply, getCat_apply] at hrun ⊢
    simp only at hrun ⊢
    obtain ⟨p, s2, h2, hrun⟩ := (IOM.bind_ok_iff _ _ _ _ _).1 hrun
    rw [IOM.lift_apply, Prod.mk.injEq] at h2
    obtain ⟨hp, rfl⟩ := h2
    rw [IOM.bind_apply, IOM.lift_apply, hp]
    simp only
    obtain ⟨_, s3, h3, hrun⟩ := (IOM.bind_ok_iff _ _ _ _ _).1 hrun
    have k3 := Truthful.updateRecord _ _ _ _ _ _ h3
    have hs3 : s3.fs = s1.fs := by
      obtain ⟨c1, fs1, fl1⟩ := s1
      simp only at hs1
      subst hs1
      cases h3; rfl
    rw [IOM.bind_apply, k3]
    simp only
    obtain ⟨_, s4, h4, hrun⟩ := (IOM.bind_ok_iff _ _ _ _ _).1 hrun
    obtain ⟨k4, k5, k6⟩ := osWriteFile_ends _ _ _ _ h4
    cases hrun
    have hpath : p.filePath = progressPath d h := by
      have := newProgressFile_path _ _ p hp
      rw [hs1] at this; exact this
    rw [hpath] at k5 k6
    refine ⟨s3.fs.put (progressPath d h) (some p.progress.serialize), ?_, ?_, ?_⟩
    · rw [← hpath, k4]; rfl
    · intro q hq
      rw [FS.put_other _ _ _ _ hq]; exact k5 q hq
    · rw [FS.put_same]
      rcases k6 with k | k | ⟨y, k, l⟩
      · exact .inl k
      · exact .inr (.inl (by rw [k, hs3, hs2]))
      · exact .inr (.inr ⟨y, _, k, rfl, l⟩)
  · simp only [hm] at k0
    cases k0
/-- A new download: if the disk is full by the time its progress is written, `RegisterDownload` reports success and the daemon shows the download, but after its end no daemon can show or list it, or forget it. -/
theorem C102_lost (hh : Healthy env d) (hreach : Reach env d dl (.running c fs)) (size : UInt64) (cs : UInt32) (h : Sha1Hash) (name : GoString)
    (hnew : observe c fs h = .err .fileNotFound) (e : Export) (s0 : St)
    (hrun : registerDownload env size cs h name ⟨c, fs, []⟩ = (.ok e, s0)) :
    ∃ s', registerDownload env size cs h name ⟨c, fs, [.none, .fail none]⟩ = (.ok e, s') ∧ observe s'.cat s'.fs h = .ok e ∧
      ∀ c' fs', Steps env d dl (.stopped s'.fs) (.running c' fs') → ∀ fl,
        (∀ order, MapOrder c' order → h ∈ order ∧ ∀ es s', listFiles order ⟨c', fs', fl⟩ ≠ (.ok es, s')) ∧ (∀ e s', contains h ⟨c', fs', fl⟩ ≠ (.ok e, s')) ∧
          ∀ s', unshareFile env h ⟨c', fs', fl⟩ ≠ (.ok (), s') := by
  have hf : fs (progressPath d h) = none := unknown_no_progress hh.abs hh.utf8 hreach hnew
  have hI : Inv env d dl c fs := hreach.inv hh.abs hh.utf8
  obtain ⟨ind, rfl, hw⟩ := hI.split
  have hm := mapGet_of_unknown hf hnew hw
  have hst := stuck_after_add (fs := fs) hh hw (downloadRecord dl size cs h name)
    ⟨by show (0 : Int) ≤ (cs.toNat : Int); omega, by show (cs.toNat : Int) < 2 ^ 32; have := cs.toNat_lt; omega, fun p hp => (by cases hp)⟩ hf
  have hadd := addIndexRecord_one env (downloadRecord dl size cs h name) d dl ind fs [.fail none] hm
  obtain ⟨p, hp, he⟩ : ∃ p, newProgressFile (downloadRecord dl size cs h name) d = .ok p ∧ ({ downloadRecord dl size cs h name with progressFile := some p } : Record).export = .ok e := by
    unfold registerDownload at hrun
    rw [IOM.bind_apply, getCat_apply] at hrun
    simp only at hrun
    obtain ⟨_, s1, h1, hrun⟩ := (IOM.bind_ok_iff _ _ _ _ _).1 hrun
    have h1' : addIndexRecord env (downloadRecord dl size cs h name) ⟨⟨d, dl, some ind⟩, fs, []⟩ = (.ok (), s1) := h1
    rw [addIndexRecord_nil, show mapGet ind.index (downloadRecord dl size cs h name).sha1Hash = none from hm] at h1'
    cases h1'
    rw [IOM.bind_apply, getCat_apply] at hrun
    simp only at hrun
    obtain ⟨p, s2, h2, hrun⟩ := (IOM.bind_ok_iff _ _ _ _ _).1 hrun
    rw [IOM.lift_apply, Prod.mk.injEq] at h2
    obtain ⟨hp, rfl⟩ := h2
    refine ⟨p, hp, ?_⟩
    cases hrun
    rfl
  have hreg : registerDownload env size cs h name ⟨⟨d, dl, some ind⟩, fs, [.none, .fail none]⟩ = (.ok e,
      ⟨⟨d, dl, some { ind with index := mapPut (mapPut ind.index h (downloadRecord dl size cs h name)) h { downloadRecord dl size cs h name with progressFile := some p } }⟩,
        fs.put (indexPath ind.dataDir) (some (env.json.enc ({ ind with index := mapPut ind.index h (downloadRecord dl size cs h name) } : IndexFile).toJSON)), []⟩) := by
    unfold registerDownload
    rw [IOM.bind_apply, getCat_apply]
    simp only
    unfold downloadRecord at hadd hp he
    rw [IOM.bind_apply, hadd]
    simp only
    rw [IOM.bind_apply, getCat_apply]
    simp only
    rw [IOM.bind_apply, IOM.lift_apply, hp]
    cases he
    rfl
  refine ⟨_, hreg, ?_, ?_⟩
  · rw [observe_eq]
    unfold obsRec
    rw [mapGet_put, if_pos rfl]
    cases he; rfl
  · intro c' fs' hsteps fl
    have hstop : Reach env d dl (.stopped (fs.put (indexPath ind.dataDir) (some (env.json.enc ({ ind with index := mapPut ind.index h (downloadRecord dl size cs h name) } : IndexFile).toJSON)))) := by
      have h1 := hreach.call (.register size cs h name) trivial [.none, .fail none] _ (CM.void_ok _ _ _ _ hreg)
      obtain ⟨fs0, h2, h3⟩ := h1
      exact ⟨fs0, h2, h3.step (Step.kill _ _)⟩
    obtain ⟨h1, h2, h3, -⟩ := C31_forever hh hstop hst hsteps fl
    exact ⟨h1, h2, h3⟩

/-- C102 is false, for every environment. -/
theorem C102_refuted (hh : Healthy env d) : ¬ C102_statement env d dl := by
  intro hall
  have hclean := CleanReach.fresh env d dl hh.utf8 (fun _ => none) (fun _ _ => rfl)
  obtain ⟨e, s0, h0⟩ := registerDownload_total env 1 1 Sha1Hash.zero [] d dl (freshIdx env d) (FS.put (fun _ => none) (indexPath d) (some (env.json.enc (freshIdx env d).toJSON))) rfl (by decide) (by decide)
  obtain ⟨s', h1, h2, h3⟩ := C102_lost hh hclean.reach 1 1 Sha1Hash.zero [] rfl e s0 h0
  obtain ⟨c', h4, h5, -⟩ := hall _ _ hclean (.register 1 1 Sha1Hash.zero []) trivial [.none, .fail none] s' (CM.void_ok _ _ _ _ h1) env.pid env.now
  have hst : Steps env d dl (.stopped s'.fs) (.running c' s'.fs) := by
    have := Step.start (env := env) (d := d) (dl := dl) env.pid env.now [] s'.fs
    rw [h4] at this
    exact (Steps.refl _).step this
  obtain ⟨-, h6, -⟩ := h3 _ _ hst []
  have h7 := h5 _ _ h2
  unfold observe at h7
  rcases hc : contains Sha1Hash.zero ⟨c', s'.fs, []⟩ with ⟨r, s2⟩
  rw [hc] at h7
  simp only at h7
  subst h7
  exact h6 _ _ hc

/-! ### Examples -/

/-- `C102_partial`: the disk fails right after the last operation that sharing `/f` needs. -/
example (sha1 : Bytes → Sha1Hash) (json : JsonCodec) : ∃ c fs s', CleanReach (exEnv sha1 json) exDir exDown (.running c fs) ∧ NotRegister (.share [102]) ∧ (Op.share [102]).Safe exDir c ∧
    (Op.share [102]).run (exEnv sha1 json) ⟨c, fs, [.none, .none, .none, .none, .fail none]⟩ = (.ok (), s') ∧ s'.faults = [.fail none] := by
  have h0 : CleanReach (exEnv sha1 json) exDir exDown (.running ⟨exDir, exDown, some (freshIdx (exEnv sha1 json) exDir)⟩ (exFS1 sha1 json)) :=
    CleanReach.fresh (exEnv sha1 json) exDir exDown (ex_healthy sha1 json).utf8 exFS ex_fs_clean
  let rec0 : Record := { filePath := absPath (exEnv sha1 json).cwd [102], sizeInBytes := asInt64 (UInt64.ofNat 3), sha1Hash := sha1 [1, 2, 3], progressFile := none, chunkSize := defaultChunkSize }
  have hgen : generateIndexRecordForFile (exEnv sha1 json) [102] ⟨⟨exDir, exDown, some (freshIdx (exEnv sha1 json) exDir)⟩, exFS1 sha1 json, [.none, .none, .none, .none, .fail none]⟩ =
      (.ok rec0, ⟨⟨exDir, exDown, some (freshIdx (exEnv sha1 json) exDir)⟩, exFS1 sha1 json, [.none, .none, .fail none]⟩) := by
    unfold generateIndexRecordForFile osStat osHashFile osReadFile
    simp only [IOM.bind_apply, nextFault, getFS_apply, IOM.pure_apply, ex_file, Option.map_some]
    rfl
  obtain ⟨p, hp⟩ := newProgressFile_total rec0 exDir 3 4194304 (asInt64_ofNat 3 (by decide)) rfl (by decide) (by decide)
  obtain ⟨-, hpw, -⟩ := newProgressFile_ok _ (asInt64_lt (UInt64.ofNat 3)) (by show (0 : Int) ≤ 4194304; decide) p hp
  obtain ⟨dd, e1, -⟩ := Bitset.fill_eq p.progress hpw
  have hrun : ∃ r s', shareFile (exEnv sha1 json) [102] ⟨⟨exDir, exDown, some (freshIdx (exEnv sha1 json) exDir)⟩, exFS1 sha1 json, [.none, .none, .none, .none, .fail none]⟩ = (.ok r, s') ∧
      s'.faults = [.fail none] := by
    unfold shareFile
    rw [IOM.bind_apply, hgen]
    simp only
    rw [IOM.bind_apply, addIndexRecord_one _ rec0 exDir exDown _ _ [.none, .fail none] rfl]
    simp only
    rw [IOM.bind_apply, getCat_apply]
    simp only
    rw [IOM.bind_apply, IOM.lift_apply, hp]
    simp only
    rw [IOM.bind_apply, updateRecord_eval]
    simp only
    rw [IOM.bind_apply, IOM.lift_apply, e1]
    exact ⟨_, _, rfl, rfl⟩
  obtain ⟨r, s', h1, h2⟩ := hrun
  exact ⟨_, _, s', h0, trivial, trivial, CM.void_ok _ _ _ _ h1, h2⟩

/-- `C102_register`, `C102_lost`: a download of five bytes registered in a fresh catalogue, by a call during which the disk becomes full. -/
example (sha1 : Bytes → Sha1Hash) (json : JsonCodec) (h : Sha1Hash) : ∃ c fs e s0 s', Reach (exEnv sha1 json) exDir exDown (.running c fs) ∧ observe c fs h = .err .fileNotFound ∧
    fs (progressPath exDir h) = none ∧ registerDownload (exEnv sha1 json) 5 2 h [120] ⟨c, fs, []⟩ = (.ok e, s0) ∧
    registerDownload (exEnv sha1 json) 5 2 h [120] ⟨c, fs, [.none, .fail none]⟩ = (.ok e, s') := by
  have hf : exFS1 sha1 json (progressPath exDir h) = none := by
    unfold exFS1
    rw [FS.put_other _ _ _ _ (fun e => indexPath_ne_progressPath exDir exDir (ex_healthy sha1 json).abs (ex_healthy sha1 json).abs _ e.symm)]
    exact ex_fs_clean _ (.inr ⟨h, rfl⟩)
  obtain ⟨e, s0, h0⟩ := registerDownload_total (exEnv sha1 json) 5 2 h [120] exDir exDown (freshIdx (exEnv sha1 json) exDir) (exFS1 sha1 json) rfl (by decide) (by decide)
  obtain ⟨s', h1, h2, h3⟩ := C102_lost (ex_healthy sha1 json) (ex_reach sha1 json) 5 2 h [120] rfl e s0 h0
  exact ⟨_, _, e, s0, s', ex_reach sha1 json, rfl, hf, h0, h1⟩

end Flu
