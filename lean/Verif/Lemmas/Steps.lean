import Verif.Model.Steps
/-!
# The step-by-step calls run alone are the calls of `Model/Catalogue`
-/
namespace Flu
namespace Prog
variable {α β : Type}

theorem run_done (r : Res α) : (done r).run = (IOM.lift r : CM α) := rfl
theorem run_pure (a : α) : (pure a : Prog α).run = (pure a : CM α) := rfl

theorem run_bind (p : Prog α) (f : α → Prog β) : (p >>= f).run = (p.run >>= fun a => (f a).run : CM β) := by
  show (p.bind f).run = IOM.bind p.run (fun a => (f a).run)
  induction p with
  | done r => cases r <;> rfl
  | step act next ih =>
    funext s
    have := congrFun (ih s) (act s)
    exact this

theorem run_atom (x : CM α) : (atom x).run = x := rfl

theorem run_ignoreErr (p : Prog Unit) : p.ignoreErr.run = IOM.ignoreErr p.run := by
  induction p with
  | done r => cases r <;> rfl
  | step act next ih => funext s; exact congrFun (ih s) (act s)

theorem run_orPanic (p : Prog α) : p.orPanic.run = IOM.orPanic p.run := by
  induction p with
  | done r => cases r <;> rfl
  | step act next ih => funext s; exact congrFun (ih s) (act s)

theorem FS_put_put (fs : FS) (p : Path) (a b : Option Bytes) : (fs.put p a).put p b = fs.put p b := by
  funext q; unfold FS.put; split <;> rfl

theorem run_writeUpTo (p : Path) (f : Nat → Bytes) (n : Nat) : (writeUpTo p f n).run = setFile p (some (f n)) := by
  induction n with
  | zero => rfl
  | succ n ih =>
    unfold writeUpTo
    rw [run_bind, ih]
    funext s
    show (Res.ok (), ({ s with fs := (s.fs.put p (some (f n))).put p (some (f (n + 1))) } : St)) = _
    rw [FS_put_put]; rfl

theorem run_writeFile (p : Path) (data : Bytes) : (writeFile p data).run = osWriteFile p data := by
  unfold writeFile osWriteFile
  rw [run_bind, run_atom]
  congr 1
  funext f
  cases f with
  | none =>
    show (writeUpTo p data.take data.length).run = setFile p (some data)
    rw [run_writeUpTo, List.take_length]
  | fail eff =>
    cases eff with
    | none => rfl
    | some k =>
      show (writeUpTo p data.take (min k data.length) >>= fun _ => done (.err .io)).run = (setFile p (some (data.take k)) >>= fun _ => IOM.lift (.err .io))
      rw [run_bind, run_writeUpTo, show data.take (min k data.length) = data.take k by simp [List.take_eq_take_iff]]; rfl
  | crash eff =>
    cases eff with
    | none => rfl
    | some k =>
      show (writeUpTo p data.take (min k data.length) >>= fun _ => done .crash).run = (setFile p (some (data.take k)) >>= fun _ => IOM.lift .crash)
      rw [run_bind, run_writeUpTo, show data.take (min k data.length) = data.take k by simp [List.take_eq_take_iff]]; rfl

theorem run_putAt (p : Path) (start : Nat) (d : Bytes) :
    (atom getFS >>= fun fs => writeUpTo p (fun k => overlay ((fs p).getD []) start (d.take k)) d.length).run
      = IOM.modify (fun s => { s with fs := s.fs.put p (some (overlay ((s.fs p).getD []) start d)) }) := by
  rw [run_bind, run_atom]
  funext s
  show (writeUpTo p (fun k => overlay ((s.fs p).getD []) start (d.take k)) d.length).run s = _
  rw [run_writeUpTo]
  simp only [List.take_length]; rfl

theorem run_writeAt (p : Path) (data : Bytes) (start : Int) : (writeAt p data start).run = osWriteAt p data start := by
  unfold writeAt osWriteAt
  split
  · rfl
  · rw [run_bind, run_atom]
    congr 1
    funext f
    cases f with
    | none => exact run_putAt p _ _
    | fail eff =>
      cases eff with
      | none => rfl
      | some k =>
        refine (run_bind _ _).trans ?_
        rw [run_putAt]; rfl
    | crash eff =>
      cases eff with
      | none => rfl
      | some k =>
        refine (run_bind _ _).trans ?_
        rw [run_putAt]; rfl

theorem run_saveIndex (env : Env) : (saveIndex env).run = Flu.saveIndex env := by
  unfold saveIndex Flu.saveIndex
  simp only [run_bind, run_atom, run_writeFile]

theorem run_addIndexRecord (env : Env) (r : Record) : (addIndexRecord env r).run = Flu.addIndexRecord env r := by
  unfold addIndexRecord Flu.addIndexRecord
  simp only [run_bind, run_atom]
  congr 1; funext ind
  cases e : mapGet ind.index r.sha1Hash with
  | some x => rfl
  | none => simp only [run_bind, run_atom, run_saveIndex]

theorem run_removeIndexRecord (env : Env) (r : Record) : (removeIndexRecord env r).run = Flu.removeIndexRecord env r := by
  unfold removeIndexRecord Flu.removeIndexRecord
  simp only [run_bind, run_atom, run_saveIndex]

theorem run_updateRecord (r : Record) : (updateRecord r).run = Flu.updateRecord r := by
  unfold updateRecord Flu.updateRecord
  simp only [run_bind, run_atom]

theorem run_deserializeProgressFile (r : Record) (dataDir : Path) : (deserializeProgressFile r dataDir).run = Flu.deserializeProgressFile r dataDir := by
  unfold deserializeProgressFile Flu.deserializeProgressFile
  simp only [run_bind, run_atom, run_done, run_pure]

theorem run_fillRecord (r : Record) : (fillRecord r).run = Flu.fillRecord r := by
  unfold fillRecord Flu.fillRecord
  cases e : r.progressFile with
  | some x => rfl
  | none => simp only [run_bind, run_atom, run_deserializeProgressFile, run_updateRecord, run_pure]

theorem run_getIndexRecord (h : Sha1Hash) : (getIndexRecord h).run = Flu.getIndexRecord h := by
  unfold getIndexRecord Flu.getIndexRecord
  simp only [run_bind, run_atom]
  congr 1; funext ind
  cases e : mapGet ind.index h with
  | some r => exact run_fillRecord _
  | none => rfl

theorem run_generateIndexRecordForFile (env : Env) (path : GoString) :
    (generateIndexRecordForFile env path).run = Flu.generateIndexRecordForFile env path := by
  unfold generateIndexRecordForFile Flu.generateIndexRecordForFile
  simp only [run_bind, run_atom]
  congr 1; funext x
  cases x with
  | none => rfl
  | some x => simp only [run_bind, run_atom, run_pure]

theorem run_shareFile (env : Env) (path : GoString) : (shareFile env path).run = Flu.shareFile env path := by
  unfold shareFile Flu.shareFile ProgressFile.save
  simp only [run_bind, run_atom, run_done, run_pure, run_generateIndexRecordForFile, run_addIndexRecord, run_updateRecord, run_writeFile]

theorem run_unshareFile (env : Env) (h : Sha1Hash) : (unshareFile env h).run = Flu.unshareFile env h := by
  unfold unshareFile Flu.unshareFile ProgressFile.delete
  simp only [run_bind, run_getIndexRecord]
  congr 1; funext r
  cases e : r.progressFile with
  | none => rfl
  | some x => simp only [run_bind, run_atom, run_removeIndexRecord]

theorem run_registerDownload (env : Env) (s : UInt64) (cs : UInt32) (h : Sha1Hash) (n : GoString) :
    (registerDownload env s cs h n).run = Flu.registerDownload env s cs h n := by
  unfold registerDownload Flu.registerDownload ProgressFile.save
  simp only [run_bind, run_atom, run_done, run_addIndexRecord, run_updateRecord, run_writeFile, run_ignoreErr]

theorem run_listLoop (hs : List Sha1Hash) : (listLoop hs).run = Flu.listLoop hs := by
  induction hs with
  | nil => rfl
  | cons h rest ih =>
    unfold listLoop Flu.listLoop
    simp only [run_bind, run_atom]
    congr 1; funext ind
    cases e : mapGet ind.index h with
    | none => exact ih
    | some x => simp only [run_bind, run_done, run_pure, run_fillRecord, ih]

theorem run_listFiles (hs : List Sha1Hash) : (listFiles hs).run = Flu.listFiles hs := by
  unfold listFiles Flu.listFiles
  simp only [run_bind, run_atom, run_listLoop]

theorem run_catGet (h : Sha1Hash) : (catGet h).run = Flu.catGet h := by
  unfold catGet Flu.catGet Flu.contains
  simp only [run_orPanic, run_bind, run_getIndexRecord, run_done]

theorem run_fileComplete (h : Sha1Hash) : (fileComplete h).run = Flu.fileComplete h := by
  unfold fileComplete Flu.fileComplete
  simp only [run_orPanic, run_bind, run_getIndexRecord]
  congr 1; funext r
  cases e : r.progressFile <;> rfl

theorem run_missingChunks (h : Sha1Hash) : (missingChunks h).run = Flu.missingChunks h := by
  unfold missingChunks Flu.missingChunks
  simp only [run_orPanic, run_bind, run_getIndexRecord]
  congr 1; funext r
  cases e : r.progressFile <;> rfl

theorem run_recordSaveChunk (r : Record) (c : Nat) (data : Bytes) : (recordSaveChunk r c data).run = r.saveChunk c data := by
  unfold recordSaveChunk Record.saveChunk
  simp only [run_bind, run_atom, run_writeAt]

theorem run_saveChunk (h : Sha1Hash) (c : UInt16) (data : Bytes) : (saveChunk h c data).run = Flu.saveChunk h c data := by
  unfold saveChunk Flu.saveChunk ProgressFile.save
  simp only [run_orPanic, run_bind, run_getIndexRecord, run_recordSaveChunk]
  congr 1; funext r
  congr 1; funext _
  cases e : r.progressFile with
  | none => rfl
  | some x => simp only [run_bind, run_done, run_updateRecord, run_writeFile]

theorem run_getChunkReader (env : Env) (h : Sha1Hash) (c : Nat) (ch : List AtChoice) :
    (getChunkReader env h c ch).run = Flu.getChunkReader env h c ch := by
  unfold getChunkReader Flu.getChunkReader
  simp only [run_bind, run_getIndexRecord]
  congr 1; funext r
  cases e : r.progressFile with
  | none => rfl
  | some x =>
    simp only [run_bind, run_done]
    congr 1; funext b
    cases b with
    | false => rfl
    | true =>
      simp only [Bool.not_true, Bool.false_eq_true, if_false, run_bind, run_atom]
      congr 1; funext _
      congr 1; funext fs
      cases fs r.filePath <;> rfl

end Prog
end Flu
