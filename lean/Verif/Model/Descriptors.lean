import Verif.Model.Server
import Verif.Model.CatSystem
/-!
# Open files

`GetChunkReader` opens the file (catalogue/indexRecord.go:77) and nothing closes it: `StartUpload` keeps the reader in the table of uploads (flu/serverStartUpload.go:42-44),
from which nothing is ever removed.  The operating system lets a process have a limited number of files open; when they are used up, every `os.Open` fails.

Simplifications: `limit` is what the other descriptors of the process leave for uploads; a reader that does not get into the table (a further request from a known address)
is closed at once by its finalizer, which in reality happens at some later time.
-/
namespace Flu

/-- There are (at least) `n` uploads in the table. -/
def uploadsHeld (s : Srv) (n : Nat) : Prop := ∃ l : List UpKey, l.Nodup ∧ l.length = n ∧ ∀ k ∈ l, (s.uploads k).isSome

/-- What happens to the disk operations of one handler: they fail if all descriptors are in use and succeed otherwise.  (A handler for a chunk request has at most two:
reading the progress file and opening the file.) -/
def OpensFiles (limit : Nat) (s : Srv) (fl : List Fault) : Prop :=
  (uploadsHeld s limit → 2 ≤ fl.length ∧ ∀ f ∈ fl, ∃ eff, f = .fail eff) ∧ (¬ uploadsHeld s limit → fl = [])

/-- One step of a daemon with a limited number of descriptors: a datagram is handled (with the result shown), or something else happens to the catalogue and to files. -/
inductive FdStep (env : Env) (d dl : Path) (port limit : Nat) : Srv → Option (Bytes × Addr × Res Done) → Srv → Prop
  | serve (s : Srv) (w : Wire) (dg : Bytes) (ret : Addr) (fl : List Fault) (r : Res Done) (s' : Srv) (hopen : OpensFiles limit s fl)
      (hrun : serveDatagram env port w dg ret ⟨{ s.st with faults := fl }, s.uploads⟩ = (r, s')) (hret : r.returns = true) :
      FdStep env d dl port limit s (some (dg, ret, r)) ⟨{ s'.st with faults := [] }, s'.uploads⟩
  | other (s : Srv) (c : Cat) (fs : FS) (hreach : Reach env d dl (.running c fs)) : FdStep env d dl port limit s none ⟨⟨c, fs, []⟩, s.uploads⟩

/-- Any number of steps. -/
inductive FdRun (env : Env) (d dl : Path) (port limit : Nat) : Srv → List (Option (Bytes × Addr × Res Done)) → Srv → Prop
  | refl (s : Srv) : FdRun env d dl port limit s [] s
  | step {s t u : Srv} {tr : List (Option (Bytes × Addr × Res Done))} {e : Option (Bytes × Addr × Res Done)} (h : FdRun env d dl port limit s tr t)
      (h' : FdStep env d dl port limit t e u) : FdRun env d dl port limit s (tr ++ [e]) u

end Flu
