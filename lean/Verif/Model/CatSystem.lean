import Verif.Model.Catalogue
/-!
# The daemon's catalogue over time

A daemon is started on a data directory (`main.go`: `NewCat`, then `Init`, and the process exits if `Init` fails), executes calls of the
`Cat` API one at a time (the API takes a lock), and stops when a call panics, exits or crashes, or when it is killed between calls.  It may be
started again, any number of times.  Each call and each start meets arbitrary faults.  At any time somebody else may change, create or delete
any file that is not one of the catalogue's own.
-/
namespace Flu

/-- The catalogue's own files: the index and the progress files. -/
def CatFile (d : Path) (p : Path) : Prop := p = indexPath d ∨ ∃ h, p = progressPath d h

/-- Calls of the `Cat` API. -/
inductive Op where
  | share (path : GoString)
  | unshare (h : Sha1Hash)
  | register (size : UInt64) (chunkSize : UInt32) (h : Sha1Hash) (name : GoString)
  | list (order : List Sha1Hash)
  | rehash (h : Sha1Hash)
  | contains (h : Sha1Hash)
  | get (h : Sha1Hash)
  | complete (h : Sha1Hash)
  | missing (h : Sha1Hash)
  | save (h : Sha1Hash) (chunk : UInt16) (data : Bytes)
  | reader (h : Sha1Hash) (chunk : Nat) (choices : List AtChoice)

/-- Forget the result. -/
def CM.void {α : Type} (x : CM α) : CM Unit := do
  let _ ← x
  return ()

/-- Run one call, forgetting its result. -/
def Op.run (env : Env) : Op → CM Unit
  | .share p => CM.void (shareFile env p)
  | .unshare h => unshareFile env h
  | .register s cs h n => CM.void (registerDownload env s cs h n)
  | .list o => CM.void (listFiles o)
  | .rehash h => CM.void (Flu.rehash env h)
  | .contains h => CM.void (Flu.contains h)
  | .get h => CM.void (catGet h)
  | .complete h => CM.void (fileComplete h)
  | .missing h => CM.void (missingChunks h)
  | .save h c d => saveChunk h c d
  | .reader h c ch => CM.void (getChunkReader env h c ch)

/-- The path recorded for a hash in memory. -/
def Cat.pathOf (c : Cat) (h : Sha1Hash) : Option Path := c.indexFile.bind (fun ind => (mapGet ind.index h).map (·.filePath))

/-- Saving a chunk must not be aimed at one of the catalogue's own files (an assumption that the code does not enforce; see C36 and C87: a peer can cause that). -/
def Op.Safe (d : Path) (c : Cat) : Op → Prop
  | .save h _ _ => ∀ p, c.pathOf h = some p → ¬ CatFile d p
  | _ => True

/-- The daemon process: running with its memory, or not running. -/
inductive Sys where
  | running (c : Cat) (fs : FS)
  | stopped (fs : FS)

/-- The state after a call returned `r`: returning an error keeps the daemon running, anything else ends it. -/
def afterCall : Res Unit → St → Sys
  | .ok _, s => .running s.cat s.fs
  | .err _, s => .running s.cat s.fs
  | .panic, s => .stopped s.fs
  | .exit, s => .stopped s.fs
  | .crash, s => .stopped s.fs

/-- The state after `Init` returned `r` (main.go exits on an error). -/
def afterInit : Res Unit → St → Sys
  | .ok _, s => .running s.cat s.fs
  | _, s => .stopped s.fs

/-- One step in the life of the catalogue with data directory `d` and downloads directory `dl`. -/
inductive Step (env : Env) (d dl : Path) : Sys → Sys → Prop
  | call (o : Op) (faults : List Fault) (c : Cat) (fs : FS) (hsafe : o.Safe d c) :
      Step env d dl (.running c fs) (afterCall (o.run env ⟨c, fs, faults⟩).1 (o.run env ⟨c, fs, faults⟩).2)
  | kill (c : Cat) (fs : FS) : Step env d dl (.running c fs) (.stopped fs)
  | start (pid now : Int) (faults : List Fault) (fs : FS) :
      Step env d dl (.stopped fs)
        (afterInit (Cat.init { env with pid := pid, now := now } ⟨⟨d, dl, none⟩, fs, faults⟩).1
          (Cat.init { env with pid := pid, now := now } ⟨⟨d, dl, none⟩, fs, faults⟩).2)
  | userRunning (c : Cat) (fs : FS) (p : Path) (content : Option Bytes) (hp : ¬ CatFile d p) :
      Step env d dl (.running c fs) (.running c (fs.put p content))
  | userStopped (fs : FS) (p : Path) (content : Option Bytes) (hp : ¬ CatFile d p) :
      Step env d dl (.stopped fs) (.stopped (fs.put p content))

/-- Any number of steps. -/
inductive Steps (env : Env) (d dl : Path) : Sys → Sys → Prop
  | refl (s : Sys) : Steps env d dl s s
  | step {s t u : Sys} (h : Steps env d dl s t) (h' : Step env d dl t u) : Steps env d dl s u

/-- States of a catalogue that started from an empty data directory. -/
def Reach (env : Env) (d dl : Path) (s : Sys) : Prop :=
  ∃ fs, (∀ p, CatFile d p → fs p = none) ∧ Steps env d dl (.stopped fs) s

/-- What a `Contains` call for a hash would return now. -/
def observe (c : Cat) (fs : FS) (h : Sha1Hash) : Res Export := (contains h ⟨c, fs, []⟩).1

end Flu
