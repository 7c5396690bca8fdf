import Verif.Model.Catalogue
/-!
# Which disks a daemon can be started on
-/
namespace Flu.Spec

/-- The index file `b` can be read and has an entry for `h`. -/
def Named (env : Env) (b : Bytes) (h : Sha1Hash) : Prop := ∃ j, env.json.dec b = some j ∧ ∃ e ∈ j.index, e.1 = h.toString

/-- A progress file of whole words: the size and any number of words of eight bytes. -/
def WholeWords (o : Option Bytes) : Prop := ∃ p, o = some p ∧ 8 ≤ p.length ∧ p.length % 8 = 0

/-- No index file yet, or one that can be read, every file of which has a progress file of whole words. -/
def Restartable (env : Env) (d : Path) (fs : FS) : Prop :=
  ∀ b, fs (indexPath d) = some b → env.json.dec b ≠ none ∧ ∀ h, Named env b h → WholeWords (fs (progressPath d h))

end Flu.Spec
