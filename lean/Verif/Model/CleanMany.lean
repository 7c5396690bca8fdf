import Verif.Model.Clean
import Verif.Model.DownloadLoop
/-!
# Model of `clean` commands that run while other commands run (cli/cliMethodsClean.go, catalogue/catalogue.go)

Every rpc request is answered in its own goroutine, and `Clean` takes the lock of the catalogue in each call anew: between two of its calls any other command may run, another
`clean` too, and any other program may change a file.  Each call to the catalogue is one step here.  The disk works: no call meets a failure.
-/
namespace Flu

/-- Where a running `Clean` (cliMethodsClean.go:40-82) is. -/
inductive ClPos where
  /-- At the head of the loop (:46), with the files left to look at and the answer so far. -/
  | loop (todo : List Export) (items : List CleanItem)
  /-- About to call `UnshareFile` (:55 or :61), with the results of `Rehash`. -/
  | removing (f : Export) (found : Option Sha1Hash) (act : Action) (todo : List Export) (items : List CleanItem)
  /-- Returned. -/
  | over (result : Except Err (List CleanItem))

/-- `ListFiles` and its error (cliMethodsClean.go:41-44). -/
def clBegin (order : List Sha1Hash) : CM ClPos := do
  match ← IOM.attempt (listFiles order) with
  | .error e => return .over (.error e)
  | .ok files => return .loop files []

/-- Add to the answer (cliMethodsClean.go:74-79); `currentHash.Data` dereferences the pointer. -/
def clAnswer (f : Export) (found : Option Sha1Hash) (act : Action) (todo : List Export) (items : List CleanItem) : CM ClPos :=
  match found with
  | none => IOM.lift .panic
  | some x => return .loop todo (items ++ [{ filePath := f.filePath, indexedHash := f.sha1Hash, currentHash := x, action := act }])

/-- What `Clean` does with the lock of the catalogue taken once, and up to the next time it takes it (cliMethodsClean.go:46-79). -/
def clStep (env : Env) : ClPos → CM ClPos
  | .loop [] items => return .over (.ok items)
  | .loop (f :: todo) items => do
    let (found, err) ← rehashCall env f.sha1Hash
    match err with
    | some _ => return .removing f found .missing todo items
    | none =>
      if !(← IOM.lift f.progress.full) then clAnswer f found .inProgress todo items
      else if found ≠ some f.sha1Hash then return .removing f found .changed todo items
      else clAnswer f found .fine todo items
  | .removing f found act todo items => do
    match ← IOM.attempt (unshareFile env f.sha1Hash) with
    | .error e => return .over (.error e)
    | .ok () => clAnswer f found act todo items
  | .over r => return .over r

/-- The catalogue, the files and the running `clean` commands. -/
structure CmState where
  cat : Cat
  fs : FS
  threads : Nat → Option ClPos

/-- A daemon that runs, or the files it left. -/
inductive CmSys where
  | alive (s : CmState)
  | dead (fs : FS)

/-- Who takes a step. -/
inductive CmAct where
  | clean (t : Nat)
  | call (o : Op)
  | user (p : Path)

/-- One step of the daemon.  Calls other than those of `clean` are all those that other commands, downloads and uploads make: all but `UnshareFile`, which has no other caller. -/
inductive CmStep (env : Env) (d : Path) : CmAct → CmState → CmSys → Prop
  | begin (t : Nat) (order : List Sha1Hash) (s : CmState) (pos : ClPos) (s' : St) (ht : s.threads t = none) (ho : ∃ ind, s.cat.indexFile = some ind ∧ order.Perm (ind.index.map (·.1)))
      (hrun : clBegin order ⟨s.cat, s.fs, []⟩ = (.ok pos, s')) : CmStep env d (.clean t) s (.alive ⟨s'.cat, s'.fs, upd s.threads t (some pos)⟩)
  | beginDies (t : Nat) (order : List Sha1Hash) (s : CmState) (r : Res ClPos) (s' : St) (ht : s.threads t = none) (ho : ∃ ind, s.cat.indexFile = some ind ∧ order.Perm (ind.index.map (·.1)))
      (hrun : clBegin order ⟨s.cat, s.fs, []⟩ = (r, s')) (hr : r.returns = false) : CmStep env d (.clean t) s (.dead s'.fs)
  | work (t : Nat) (s : CmState) (pos pos' : ClPos) (s' : St) (ht : s.threads t = some pos) (hrun : clStep env pos ⟨s.cat, s.fs, []⟩ = (.ok pos', s')) :
      CmStep env d (.clean t) s (.alive ⟨s'.cat, s'.fs, upd s.threads t (some pos')⟩)
  | workDies (t : Nat) (s : CmState) (pos : ClPos) (r : Res ClPos) (s' : St) (ht : s.threads t = some pos) (hrun : clStep env pos ⟨s.cat, s.fs, []⟩ = (r, s'))
      (hr : r.returns = false) : CmStep env d (.clean t) s (.dead s'.fs)
  | call (o : Op) (s : CmState) (r : Res Unit) (s' : St) (hno : ∀ h, o ≠ .unshare h) (hsafe : o.Safe d s.cat) (hrun : o.run env ⟨s.cat, s.fs, []⟩ = (r, s'))
      (hr : r.returns = true) : CmStep env d (.call o) s (.alive ⟨s'.cat, s'.fs, s.threads⟩)
  | callDies (o : Op) (s : CmState) (r : Res Unit) (s' : St) (hno : ∀ h, o ≠ .unshare h) (hsafe : o.Safe d s.cat) (hrun : o.run env ⟨s.cat, s.fs, []⟩ = (r, s'))
      (hr : r.returns = false) : CmStep env d (.call o) s (.dead s'.fs)
  | user (p : Path) (x : Option Bytes) (s : CmState) (hp : ¬ CatFile d p) : CmStep env d (.user p) s (.alive { s with fs := s.fs.put p x })

/-- Any number of steps, each allowed by `G` in the state it starts from. -/
inductive CmRun (env : Env) (d : Path) (G : CmState → CmAct → Prop) (s0 : CmState) : CmSys → Prop
  | refl : CmRun env d G s0 (.alive s0)
  | step {s : CmState} {a : CmAct} {x : CmSys} (h : CmRun env d G s0 (.alive s)) (hG : G s a) (h' : CmStep env d a s x) : CmRun env d G s0 x

end Flu
