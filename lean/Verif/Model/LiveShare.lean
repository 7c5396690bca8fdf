import Verif.Model.Catalogue
import Verif.Model.Readers
/-!
# Sharing a file that another program is changing

`ShareFile` looks at the file several times: `os.Stat` for the size, `os.Open`, and one `read` for every 4096 bytes or less.  In `Model/Catalogue` nothing happens in between.  Here another
program may change the file between any two of these: every look finds its own content.

Simplification: other programs leave the other files alone during the call; the catalogue's own steps after the hash (which do not look at the file) are as in `Model/Catalogue`.
-/
namespace Flu

/-- What the calls on the file find: its content at `os.Stat` (`none`: `os.Stat` fails), whether `os.Open` succeeds, and the content of the opened file at every `read` together with what the
operating system does at that `read`. -/
structure LiveFile where
  stat : Option Bytes
  opens : Bool
  reads : List (Bytes × ReadChoice)

/-- The loop of `HashFile` (utils.go:23-41) on a file whose content may be another one at every `read`; `none`: not finished yet. -/
def hashLiveLoop (sha1 : Bytes → Sha1Hash) : (pos : Nat) → (acc : Bytes) → List (Bytes × ReadChoice) → Option (Res Sha1Hash)
  | _, _, [] => none
  | pos, acc, (content, c) :: cs =>
    let (bytes, err, pos') := osRead content pos 4096 c
    let acc' := if bytes.length > 0 then acc ++ bytes else acc
    match err with
    | some .eof => some (.ok (Sha1Hash.zero.fromSlice (sha1 acc').1))
    | some .other => some (.err .io)
    | none => hashLiveLoop sha1 pos' acc' cs

/-- `HashFile` (utils.go:13-44). -/
def hashLive (sha1 : Bytes → Sha1Hash) (w : LiveFile) : Option (Res Sha1Hash) :=
  if w.opens then hashLiveLoop sha1 0 [] w.reads else some (.err .io)

/-- `generateIndexRecordForFile` (indexRecord.go:90-114). -/
def generateLive (env : Env) (path : GoString) (w : LiveFile) : Option (Res Record) :=
  let cleanPath := absPath env.cwd path
  match w.stat with
  | none => some (.err .io)
  | some now =>
    match hashLive env.sha1 w with
    | none => none
    | some r => some (r >>= fun hash =>
        .ok { filePath := cleanPath, sizeInBytes := asInt64 (UInt64.ofNat now.length), sha1Hash := hash, progressFile := none, chunkSize := defaultChunkSize })

/-- `ShareFile` once the record has been made (catalogue.go:72-84). -/
def shareRecord (env : Env) (record : Record) : CM Record := do
  addIndexRecord env record
  let p ← IOM.lift (newProgressFile record (← getCat).dataDir)
  updateRecord { record with progressFile := some p }
  let full ← IOM.lift p.progress.fill
  let p := { p with progress := full }
  updateRecord { record with progressFile := some p }
  p.save
  return { record with progressFile := some p }

/-- `ShareFile` (catalogue.go:63-85); `none`: not finished yet. -/
def shareFileLive (env : Env) (path : GoString) (w : LiveFile) (s : St) : Option (Res Record × St) :=
  match generateLive env path w with
  | none => none
  | some r => some ((IOM.lift r >>= fun record => shareRecord env record : CM Record) s)

/-- The two models of `ShareFile` have the same second half. -/
theorem shareFile_eq (env : Env) (path : GoString) : shareFile env path = (generateIndexRecordForFile env path >>= fun record => shareRecord env record) := rfl

end Flu
