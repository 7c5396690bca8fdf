import Verif.Model.Disk
import Verif.Spec.Paths
/-!
# Directories
-/
namespace Flu.Spec

/-- `p` is an entry of the directory `D`. -/
def InDir (D p : Path) : Prop := ∃ n, IsName n ∧ ((D ≠ [] ∧ p = D ++ 47 :: n) ∨ (D = [47] ∧ p = 47 :: n))

/-- What every file system guarantees: a file is in a directory that exists. -/
def Housed (dirs : Path → Prop) (fs : FS) : Prop := ∀ p, fs p ≠ none → ∃ D, dirs D ∧ InDir D p

/-- There is no directory that `p` could be a file of. -/
def Homeless (dirs : Path → Prop) (p : Path) : Prop := ∀ D, dirs D → ¬ InDir D p

end Flu.Spec
