import Verif.Model.CatSystem
/-!
# Model of the `clean` command (cli/cliMethodsClean.go)
-/
namespace Flu

/-- Run `x` and look at the error it returns, as Go code does with `v, err := x()`. -/
def IOM.attempt {σ α : Type} (x : IOM σ α) : IOM σ (Except Err α) := fun s =>
  match x s with
  | (.ok a, s') => (.ok (.ok a), s')
  | (.err e, s') => (.ok (.error e), s')
  | (.panic, s') => (.panic, s')
  | (.exit, s') => (.exit, s')
  | (.crash, s') => (.crash, s')

/-- Both results of `Rehash` (catalogue.go:170-180): the hash pointer, nil if the record could not be loaded and pointing to the blank hash if the file could not be
hashed, and the error. -/
def rehashCall (env : Env) (h : Sha1Hash) : CM (Option Sha1Hash × Option Err) := do
  match ← IOM.attempt (getIndexRecord h) with
  | .error e => return (none, some e)
  | .ok r => do
    match ← IOM.attempt (osHashFile env r.filePath) with
    | .error e => return (some Sha1Hash.blank, some e)
    | .ok x => return (some x, none)

/-- The four texts of `ActionTaken` (cliMethodsClean.go:50-66). -/
inductive Action where
  | missing
  | inProgress
  | changed
  | fine
  deriving DecidableEq, Repr

/-- `CleanResponseItem` (cliMethodsClean.go:12-17), the text of the action reduced to its case. -/
structure CleanItem where
  filePath : Path
  indexedHash : Sha1Hash
  currentHash : Sha1Hash
  action : Action
  deriving DecidableEq

/-- The body of the loop of `Clean` (cliMethodsClean.go:47-79). -/
def cleanOne (env : Env) (f : Export) : CM CleanItem := do
  let (currentHash, err) ← rehashCall env f.sha1Hash
  let action ← (do
    match err with
    | some _ => do
      unshareFile env f.sha1Hash
      return Action.missing
    | none => do
      if !(← IOM.lift f.progress.full) then return Action.inProgress
      else if currentHash ≠ some f.sha1Hash then do
        unshareFile env f.sha1Hash
        return Action.changed
      else return Action.fine : CM Action)
  match currentHash with
  | none => IOM.lift .panic
  | some x => return { filePath := f.filePath, indexedHash := f.sha1Hash, currentHash := x, action := action }

/-- The loop of `Clean` over the listing. -/
def cleanLoop (env : Env) : List Export → CM (List CleanItem)
  | [] => return []
  | f :: rest => do
    let item ← cleanOne env f
    let items ← cleanLoop env rest
    return item :: items

/-- `Clean` (cliMethodsClean.go:40-82); `order` is the iteration order of the index map in `ListFiles`. -/
def clean (env : Env) (order : List Sha1Hash) : CM (List CleanItem) := do
  let files ← listFiles order
  cleanLoop env files

end Flu
