import Verif.Model.Cli
import Verif.Model.Clean
import Verif.Model.Server
import Verif.Model.Json
/-!
# What the client prints

The `Sprintf` methods of `cli/cliMethodsShare.go`, `cliMethodsList.go`, `cliMethodsChims.go` and `cliMethodsClean.go`, byte for byte, and the part of `Methods.List` and
`Methods.Share` that fills in the items.  `%s` copies the bytes of a string, `%d` is the decimal numeral (`Json.encInt`, which is `strconv.AppendInt`).
-/
namespace Flu
open Json (ascii encInt)

/-- `ListItem` (cliMethodsShare.go:17-25). -/
structure ListItem where
  filePath : GoString
  sizeInBytes : Int
  hash : Sha1Hash
  chunkCount : Int
  chunkSize : Int
  chunksDownloaded : Int
  deriving DecidableEq

/-- `ListItem.Sprintf` (cliMethodsShare.go:28-46); the last line divides by the chunk count. -/
def ListItem.text (li : ListItem) : Res Bytes := do
  let pc ← integrity li.chunksDownloaded li.chunkCount
  return splitFile li.filePath ++ ascii "\n" ++
    (ascii "\tPath: " ++ li.filePath ++ ascii "\n") ++
    (ascii "\tSize (bytes): " ++ encInt li.sizeInBytes ++ ascii "\n") ++
    (ascii "\tSha1 Hash: " ++ Hex.encode li.hash.1 ++ ascii "\n") ++
    (ascii "\tChunk Count: " ++ encInt li.chunkCount ++ ascii "\n") ++
    (ascii "\tChunks Downloaded: " ++ encInt li.chunksDownloaded ++ ascii "\n") ++
    (ascii "\tChunk Size: " ++ encInt li.chunkSize ++ ascii "\n") ++
    (ascii "\tIntegrity: " ++ encInt pc ++ ascii "%\n")

/-- `ListResponse.Sprintf` (cliMethodsList.go:25-31). -/
def listText : List ListItem → Res Bytes
  | [] => .ok []
  | li :: rest => do
    let a ← li.text
    let b ← listText rest
    return a ++ b

/-- The item for a record of the daemon's own catalogue (cliMethodsList.go:44-51; the same fields in `Share`, cliMethodsShare.go:58-63). -/
def localItem (e : Export) : ListItem :=
  { filePath := e.filePath, sizeInBytes := e.sizeInBytes, hash := e.sha1Hash, chunkCount := e.progress.sizeOf, chunkSize := e.chunkSize,
    chunksDownloaded := e.progress.count }

/-- The item for an entry sent by another host (cliMethodsList.go:63-70): `int64` of a `uint64` wraps, `int` of a `uint32` does not. -/
def remoteItem (f : ListFilesEntry) : ListItem :=
  { filePath := f.fileName, sizeInBytes := f.sizeInBytes.toBitVec.toInt, hash := f.hash, chunkCount := f.chunkCount.toNat, chunkSize := f.chunkSize.toNat,
    chunksDownloaded := f.chunksDownloaded.toNat }

/-- `Methods.List` (cliMethodsList.go:37-76): the daemon's own files, or those of the host at an address.  `order` is the order in which `range` visits the index, `raw` what comes of
asking that host. -/
def methodsList (order : List Sha1Hash) (ip : Option Bytes) (raw : Contact) : CM (List ListItem) :=
  match ip with
  | none => do
    let records ← listFiles order
    return records.map localItem
  | some ip => do
    let _ ← IOM.lift (listAddress ip)
    let r ← IOM.lift (listFilesOnHost raw)
    return r.2.map remoteItem

/-- `ChimResponse` (cliMethodsChims.go:20-24). -/
structure ChimItem where
  ip : ByteArr 4
  port : UInt16
  chunks : List UInt16
  deriving DecidableEq

/-- `%d` of an unsigned number. -/
def decText (n : Nat) : Bytes := encInt (n : Int)

/-- The loop of `ChimResponse.Sprintf` (cliMethodsChims.go:31-33): `c.Chunks[i+1]` is out of range if the number of chunks is odd. -/
def chimLines : List UInt16 → Res Bytes
  | [] => .ok []
  | [_] => .panic
  | a :: b :: rest => do
    let t ← chimLines rest
    return ascii "  " ++ decText a.toNat ++ ascii ":" ++ decText b.toNat ++ ascii "\n" ++ t

/-- `ChimResponse.Sprintf` (cliMethodsChims.go:27-35). -/
def ChimItem.text (c : ChimItem) : Res Bytes := do
  let lines ← chimLines c.chunks
  return ascii "IP: " ++ decText (c.ip.1.getD 0 0).toNat ++ ascii "." ++ decText (c.ip.1.getD 1 0).toNat ++ ascii "." ++ decText (c.ip.1.getD 2 0).toNat ++ ascii "." ++
    decText (c.ip.1.getD 3 0).toNat ++ ascii ":" ++ decText c.port.toNat ++ ascii "\n" ++ lines

/-- `ChimResponseList.Sprintf` (cliMethodsChims.go:43-49). -/
def chimsText : List ChimItem → Res Bytes
  | [] => .ok []
  | c :: rest => do
    let a ← c.text
    let b ← chimsText rest
    return a ++ b

/-- The items of `Methods.Chims` (cliMethodsChims.go:53-65). -/
def chimItem (r : HostResp) : ChimItem := { ip := r.addr, port := r.port, chunks := r.chunks }

/-- `ActionTaken` (cliMethodsClean.go:47-70) and `CleanResponseItem.Sprintf` (20-22), with the text of the error of `Rehash` in the case that reports one. -/
def cleanItemText (errText : Bytes) (i : CleanItem) : Bytes :=
  i.filePath ++ ascii "\n" ++
  match i.action with
  | .missing => ascii "  - File is missing. Removed from index" ++ ascii "\n" ++ (ascii "  - " ++ errText ++ ascii "\n")
  | .inProgress => ascii "  - Download in progress. Ignored" ++ ascii "\n"
  | .changed => ascii "  - File has changed since indexing. Removed from Index" ++ ascii "\n" ++ (ascii "    Indexed Hash: " ++ i.indexedHash.toString ++ ascii "\n") ++
      (ascii "    Current Hash: " ++ i.currentHash.toString ++ ascii "\n")
  | .fine => ascii "  - Download complete & Hashes match. Ignored" ++ ascii "\n"

/-- `CleanResponse.Sprintf` (cliMethodsClean.go:30-36), each item with the text of its error. -/
def cleanText : List (CleanItem × Bytes) → Bytes
  | [] => []
  | (i, e) :: rest => cleanItemText e i ++ cleanText rest

end Flu
