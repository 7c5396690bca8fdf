import Verif.Model.Json
import Verif.Model.Catalogue
/-!
# The start of the daemon (`main.go`) and directories

The rest of the model has no directories: failures they cause are faults.  Here is what the code does to directories: the daemon creates the directory of the catalogue
with everything above it (`os.MkdirAll`, indexFile.go:33) and no other (there is no other call that creates one).  A set of directories that exist restricts which
outcomes the operating system can produce: `Spec.Housed` in `Verif.Spec.Dirs`.
-/
namespace Flu

/-- `catalogueDirSuffix` (main.go:23). -/
def catalogueSuffix : GoString := Json.ascii "/.flu-network/catalogue"
/-- `downloadsDirSuffix` (main.go:22). -/
def downloadsSuffix : GoString := Json.ascii "/.flu-network/downloads"

/-- `startDaemon` (main.go:47-53): the catalogue for a home directory, not yet initialised. -/
def daemonCat (cwd home : GoString) : Cat := newCat cwd (joinPath [home, catalogueSuffix]) (joinPath [home, downloadsSuffix])

/-- The directories that exist. -/
abbrev Dirs := Path → Prop

/-- `os.MkdirAll(p)` for a clean absolute path: `p` and every directory above it exist afterwards. -/
def mkdirAll (p : Path) (dirs : Dirs) : Dirs := fun q => dirs q ∨ q = p ∨ q = [slash] ∨ ∃ r, p = q ++ slash :: r

/-- The directories after a successful start (indexFile.go:32-35, called from main.go:55). -/
def daemonDirs (cwd home : GoString) (dirs : Dirs) : Dirs := mkdirAll (daemonCat cwd home).dataDir dirs

end Flu
