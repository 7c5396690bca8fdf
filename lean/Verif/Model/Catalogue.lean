import Verif.Model.Disk
import Verif.Model.Paths
import Verif.Model.Bitset
/-!
# Model of the `catalogue` package

Every public method of `Cat` is modelled as one atomic computation on the in-memory catalogue and the file system: the methods hold
`c.lock` throughout (`Contains` and `Rehash` do not take the lock; they are modelled as if they did).  Pointers in the index map are
modelled by the records themselves, mutations by replacing the record in the map.

The JSON encoding of the index is a parameter with the laws of `JsonCodec`; the map iteration order is a parameter of the functions that
iterate.
-/

namespace Flu

/-! ### JSON form of the index -/

/-- `indexRecordJSON` (catalogue/indexRecord.go:145-150). -/
structure RecordJSON where
  filePath : GoString
  sizeInBytes : Int
  sha1Hash : GoString
  chunkSize : Int
  deriving DecidableEq

/-- `indexFileJSON` (catalogue/indexFile.go:179-184); the map as a list of entries. -/
structure IndexJSON where
  pid : Int
  lastTouched : Int
  index : List (GoString × RecordJSON)
  dataDir : GoString
  deriving DecidableEq

/-- A byte string of ASCII characters. -/
def isAscii (s : GoString) : Prop := ∀ c ∈ s, c.toNat < 128

/-- What a marshalled index looks like when read back: every string passes through `fix`. -/
def RecordJSON.fixed (fix : GoString → GoString) (r : RecordJSON) : RecordJSON :=
  { r with filePath := fix r.filePath, sha1Hash := fix r.sha1Hash }

/-- `encoding/json` as far as the index needs it.  `fix` is what marshalling does to a string (invalid UTF-8 is replaced).  The
laws: reading back gives the same record set with all strings fixed (in some order: Go maps are unordered); no proper prefix of a
marshalled index is valid. -/
structure JsonCodec where
  enc : IndexJSON → Bytes
  dec : Bytes → Option IndexJSON
  fix : GoString → GoString
  fix_ascii : ∀ s, isAscii s → fix s = s
  fix_idem : ∀ s, fix (fix s) = fix s
  dec_enc : ∀ j : IndexJSON, (∀ e ∈ j.index, isAscii e.1) → (j.index.map (·.1)).Nodup →
    ∃ l, dec (enc j) = some { j with index := l, dataDir := fix j.dataDir } ∧
      l.Perm (j.index.map (fun e => (e.1, e.2.fixed fix)))
  dec_prefix : ∀ (j : IndexJSON) (p : Bytes), p <+: enc j → p ≠ enc j → dec p = none

/-- Everything the catalogue code takes from outside: the hash function, JSON, the process id, the clock, the working directory. -/
structure Env where
  sha1 : Bytes → Sha1Hash
  json : JsonCodec
  pid : Int
  now : Int
  cwd : GoString

/-! ### In-memory state -/

/-- `progressFile` (progressFile.go:15-19) without its mutex. -/
structure ProgressFile where
  progress : Bitset
  filePath : Path
  deriving DecidableEq

/-- `indexRecord` (indexRecord.go:20-26). -/
structure Record where
  filePath : Path
  sizeInBytes : Int
  sha1Hash : Sha1Hash
  progressFile : Option ProgressFile
  chunkSize : Int
  deriving DecidableEq

/-- `indexFile` (indexFile.go:19-27); the map as a list of entries with distinct keys. -/
structure IndexFile where
  pid : Int
  lastTouched : Int
  index : List (Sha1Hash × Record)
  dataDir : Path
  deriving DecidableEq

/-- `Cat` (catalogue.go:17-22) without its mutex. -/
structure Cat where
  dataDir : Path
  downloadsDir : Path
  indexFile : Option IndexFile
  deriving DecidableEq

/-- `IndexRecordExport` (indexRecord.go:33-39). -/
structure Export where
  filePath : Path
  sizeInBytes : Int
  sha1Hash : Sha1Hash
  progress : Bitset
  chunkSize : Int
  deriving DecidableEq

/-- The state of a running daemon's catalogue: memory, disk, and the faults to come. -/
structure St where
  cat : Cat
  fs : FS
  faults : List Fault

abbrev CM := IOM St

/-! ### Operating-system calls -/

/-- The fault for the next call. -/
def nextFault : CM Fault := fun s =>
  match s.faults with
  | [] => (.ok .none, s)
  | f :: fs => (.ok f, { s with faults := fs })

/-- The current files. -/
def getFS : CM FS := fun s => (.ok s.fs, s)
/-- The current in-memory catalogue. -/
def getCat : CM Cat := fun s => (.ok s.cat, s)

/-- Replace a file's content. -/
def setFile (p : Path) (c : Option Bytes) : CM Unit := IOM.modify (fun s => { s with fs := s.fs.put p c })

/-- `os.WriteFile(p, data)`: truncates, then writes; a fault leaves the old content or a prefix of the new one. -/
def osWriteFile (p : Path) (data : Bytes) : CM Unit := do
  match ← nextFault with
  | .none => setFile p (some data)
  | .fail eff => do
    match eff with | .none => pure () | .some k => setFile p (some (data.take k))
    IOM.lift (.err .io)
  | .crash eff => do
    match eff with | .none => pure () | .some k => setFile p (some (data.take k))
    IOM.lift .crash

/-- `os.ReadFile(p)`. -/
def osReadFile (p : Path) : CM Bytes := do
  match ← nextFault with
  | .none => do
    match (← getFS) p with
    | some c => return c
    | none => IOM.lift (.err .io)
  | .fail _ => IOM.lift (.err .io)
  | .crash _ => IOM.lift .crash

/-- `os.Stat(p)` of a file: its size, or `none` if it does not exist. -/
def osStat (p : Path) : CM (Option Nat) := do
  match ← nextFault with
  | .none => return ((← getFS) p).map List.length
  | .fail _ => IOM.lift (.err .io)
  | .crash _ => IOM.lift .crash

/-- `os.MkdirAll`, `os.Stat` of a directory, `os.Open`: no effect on file contents. -/
def osTouch : CM Unit := do
  match ← nextFault with
  | .none => return ()
  | .fail _ => IOM.lift (.err .io)
  | .crash _ => IOM.lift .crash

/-- `os.Remove(p)`. -/
def osRemove (p : Path) : CM Unit := do
  match ← nextFault with
  | .none => do
    match (← getFS) p with
    | some _ => setFile p none
    | none => IOM.lift (.err .io)
  | .fail _ => IOM.lift (.err .io)
  | .crash eff => do
    match eff with | .none => pure () | .some _ => setFile p none
    IOM.lift .crash

/-- `os.OpenFile(p, os.O_RDWR|os.O_CREATE)`. -/
def osOpenCreate (p : Path) : CM Unit := do
  match ← nextFault with
  | .none => IOM.modify (fun s => { s with fs := s.fs.put p (some ((s.fs p).getD [])) })
  | .fail _ => IOM.lift (.err .io)
  | .crash eff => do
    match eff with
    | .none => pure ()
    | .some _ => IOM.modify (fun s => { s with fs := s.fs.put p (some ((s.fs p).getD [])) })
    IOM.lift .crash

/-- `fd.WriteAt(data, start)` on the open file `p`; a fault leaves a prefix of the data written.  A negative offset is an error. -/
def osWriteAt (p : Path) (data : Bytes) (start : Int) : CM Unit := do
  if start < 0 then IOM.lift (.err .io)
  else
    let write (d : Bytes) : CM Unit :=
      IOM.modify (fun s => { s with fs := s.fs.put p (some (overlay ((s.fs p).getD []) start.toNat d)) })
    match ← nextFault with
    | .none => write data
    | .fail eff => do
      match eff with | .none => pure () | .some k => write (data.take k)
      IOM.lift (.err .io)
    | .crash eff => do
      match eff with | .none => pure () | .some k => write (data.take k)
      IOM.lift .crash

/-- `common.HashFile(p)` (common/utils.go:13-44): by `C22_sound`, `C22_complete` and `C22_error` its read loop returns the sha1 of the
content or an error. -/
def osHashFile (env : Env) (p : Path) : CM Sha1Hash := do
  let c ← osReadFile p
  return env.sha1 c

/-! ### `indexFile` -/

/-- `const indexFileName = "index.json"` (indexFile.go:14). -/
def indexFileName : GoString := [105, 110, 100, 101, 120, 46, 106, 115, 111, 110]

/-- `filepath.Join(dataDir, indexFileName)` (indexFile.go:47, 83). -/
def indexPath (dataDir : Path) : Path := joinPath [dataDir, indexFileName]

/-- `filepath.Join(dataDir, hash.String())` (progressFile.go:88, 109). -/
def progressPath (dataDir : Path) (h : Sha1Hash) : Path := joinPath [dataDir, h.toString]

/-- `toJSON` (indexRecord.go:117-124). -/
def Record.toJSON (r : Record) : RecordJSON :=
  { filePath := r.filePath, sizeInBytes := r.sizeInBytes, sha1Hash := r.sha1Hash.toString, chunkSize := r.chunkSize }

/-- `fromJSON` (indexRecord.go:127-141). -/
def RecordJSON.fromJSON (j : RecordJSON) : Res Record :=
  match Sha1Hash.zero.fromStringSafe j.sha1Hash with
  | (.ok _, h) => .ok { filePath := j.filePath, sizeInBytes := j.sizeInBytes, sha1Hash := h, progressFile := none, chunkSize := j.chunkSize }
  | _ => .err .badHex

/-- `MarshalJSON` (indexFile.go:111-124), before the bytes are produced. -/
def IndexFile.toJSON (ind : IndexFile) : IndexJSON :=
  { pid := ind.pid, lastTouched := ind.lastTouched, index := ind.index.map (fun e => (e.1.toString, e.2.toJSON)), dataDir := ind.dataDir }

/-- Insert or replace an entry of a Go map. -/
def mapPut (m : List (Sha1Hash × α)) (k : Sha1Hash) (v : α) : List (Sha1Hash × α) :=
  if m.any (fun e => decide (e.1 = k)) then m.map (fun e => if e.1 = k then (k, v) else e) else m ++ [(k, v)]

/-- Look up a Go map. -/
def mapGet (m : List (Sha1Hash × α)) (k : Sha1Hash) : Option α := (m.find? (fun e => decide (e.1 = k))).map (·.2)

/-- Delete from a Go map. -/
def mapDel (m : List (Sha1Hash × α)) (k : Sha1Hash) : List (Sha1Hash × α) := m.filter (fun e => decide (e.1 ≠ k))

/-- The loop of `UnmarshalJSON` (indexFile.go:140-152) over the decoded entries. -/
def indexFromJSON : List (GoString × RecordJSON) → List (Sha1Hash × Record) → Res (List (Sha1Hash × Record))
  | [], m => .ok m
  | (str, rec) :: rest, m =>
    match Sha1Hash.zero.fromStringSafe str with
    | (.ok _, h) => do
      let decoded ← rec.fromJSON
      indexFromJSON rest (mapPut m h decoded)
    | _ => .err .badHex

/-- `UnmarshalJSON` (indexFile.go:128-155). -/
def unmarshalIndex (env : Env) (data : Bytes) : Res IndexFile :=
  match env.json.dec data with
  | none => .err .json
  | some j => do
    let m ← indexFromJSON j.index []
    return { pid := j.pid, lastTouched := j.lastTouched, index := m, dataDir := j.dataDir }

/-- The in-memory index; using it before `Init` is a nil dereference. -/
def getIndex : CM IndexFile := do
  match (← getCat).indexFile with
  | some ind => return ind
  | none => IOM.lift .panic

/-- Replace the in-memory index. -/
def setIndex (ind : IndexFile) : CM Unit := IOM.modify (fun s => { s with cat := { s.cat with indexFile := some ind } })

/-- `indexFile.save` (indexFile.go:77-90): writes to the directory recorded in the index itself. -/
def saveIndex (env : Env) : CM Unit := do
  let ind ← getIndex
  osWriteFile (indexPath ind.dataDir) (env.json.enc ind.toJSON)

/-- `indexFile.Init` (indexFile.go:31-75) and `Cat.Init` (catalogue.go:48-58). -/
def Cat.init (env : Env) : CM Unit := do
  let dataDir := (← getCat).dataDir
  setIndex { pid := 0, lastTouched := 0, index := [], dataDir := [] }
  osTouch
  osTouch
  match ← osStat (indexPath dataDir) with
  | some _ => pure ()
  | none => do
    setIndex { pid := env.pid, lastTouched := env.now, index := [], dataDir := dataDir }
    saveIndex env
  let data ← osReadFile (indexPath dataDir)
  let ind ← IOM.lift (unmarshalIndex env data)
  setIndex ind

/-- `AddIndexRecord` (indexFile.go:95-101). -/
def addIndexRecord (env : Env) (r : Record) : CM Unit := do
  let ind ← getIndex
  match mapGet ind.index r.sha1Hash with
  | some extant => IOM.lift (.err (.alreadyShared extant.filePath))
  | none => do
    setIndex { ind with index := mapPut ind.index r.sha1Hash r }
    saveIndex env

/-- `RemoveIndexRecord` (indexFile.go:105-108). -/
def removeIndexRecord (env : Env) (r : Record) : CM Unit := do
  let ind ← getIndex
  setIndex { ind with index := mapDel ind.index r.sha1Hash }
  saveIndex env

/-- Assign to a record that is in the map (through its pointer). -/
def updateRecord (r : Record) : CM Unit := do
  let ind ← getIndex
  setIndex { ind with index := mapPut ind.index r.sha1Hash r }

/-! ### `progressFile` -/

/-- `newProgressFile` (progressFile.go:78-90). -/
def newProgressFile (r : Record) (dataDir : Path) : Res ProgressFile := do
  let chunkCount ← chunkCountOf r.sizeInBytes r.chunkSize
  let set ← Bitset.newBitset chunkCount
  return { progress := set, filePath := progressPath dataDir r.sha1Hash }

/-- `progressFile.save` (progressFile.go:92-101). -/
def ProgressFile.save (p : ProgressFile) : CM Unit := osWriteFile p.filePath p.progress.serialize

/-- `progressFile.delete` (progressFile.go:103-105). -/
def ProgressFile.delete (p : ProgressFile) : CM Unit := osRemove p.filePath

/-- `deserializeProgressFile` (progressFile.go:108-126). -/
def deserializeProgressFile (r : Record) (dataDir : Path) : CM ProgressFile := do
  let path := progressPath dataDir r.sha1Hash
  let data ← osReadFile path
  let set ← IOM.lift (Bitset.deserialize data)
  return { progress := set, filePath := path }

/-! ### `Cat` -/

/-- `const defaultChunkSize = int(1 << 22)` (indexRecord.go:13). -/
def defaultChunkSize : Int := 4194304

/-- `NewCat` (catalogue.go:25-41). -/
def newCat (cwd dir downloadsDir : GoString) : Cat :=
  { dataDir := absPath cwd dir, downloadsDir := absPath cwd downloadsDir, indexFile := none }

/-- `export` (indexRecord.go:42-50) of a record whose progress is loaded (a nil progress would be dereferenced). -/
def Record.export (r : Record) : Res Export :=
  match r.progressFile with
  | some p => .ok { filePath := r.filePath, sizeInBytes := r.sizeInBytes, sha1Hash := r.sha1Hash, progress := p.progress, chunkSize := r.chunkSize }
  | none => .panic

/-- `fill` (catalogue.go:259-268). -/
def fillRecord (r : Record) : CM Record := do
  match r.progressFile with
  | some _ => return r
  | none => do
    let p ← deserializeProgressFile r (← getCat).dataDir
    let r' := { r with progressFile := some p }
    updateRecord r'
    return r'

/-- `getIndexRecord` (catalogue.go:251-257). -/
def getIndexRecord (h : Sha1Hash) : CM Record := do
  let ind ← getIndex
  match mapGet ind.index h with
  | some r => fillRecord r
  | none => IOM.lift (.err .fileNotFound)

/-- `generateIndexRecordForFile` (indexRecord.go:90-114); `FileInfo.Size` is an `int64`. -/
def generateIndexRecordForFile (env : Env) (path : GoString) : CM Record := do
  let cleanPath := absPath env.cwd path
  match ← osStat cleanPath with
  | none => IOM.lift (.err .io)
  | some size => do
    let hash ← osHashFile env cleanPath
    return { filePath := cleanPath, sizeInBytes := asInt64 (UInt64.ofNat size), sha1Hash := hash, progressFile := none, chunkSize := defaultChunkSize }

/-- `ShareFile` (catalogue.go:63-85). -/
def shareFile (env : Env) (path : GoString) : CM Record := do
  let record ← generateIndexRecordForFile env path
  addIndexRecord env record
  let p ← IOM.lift (newProgressFile record (← getCat).dataDir)
  updateRecord { record with progressFile := some p }
  let full ← IOM.lift p.progress.fill
  let p := { p with progress := full }
  updateRecord { record with progressFile := some p }
  p.save
  return { record with progressFile := some p }

/-- `UnshareFile` (catalogue.go:89-109). -/
def unshareFile (env : Env) (h : Sha1Hash) : CM Unit := do
  let r ← getIndexRecord h
  match r.progressFile with
  | none => IOM.lift .panic
  | some p => do
    p.delete
    removeIndexRecord env r

/-- `RegisterDownload` (catalogue.go:113-143); the error of `save` is dropped. -/
def registerDownload (env : Env) (sizeInBytes : UInt64) (chunkSizeInBytes : UInt32) (h : Sha1Hash) (filename : GoString) : CM Export := do
  let cat := (← getCat)
  let record : Record :=
    { filePath := joinPath [cat.downloadsDir, filename], sizeInBytes := asInt64 sizeInBytes, sha1Hash := h, progressFile := none,
      chunkSize := chunkSizeInBytes.toNat }
  addIndexRecord env record
  let p ← IOM.lift (newProgressFile record (← getCat).dataDir)
  updateRecord { record with progressFile := some p }
  IOM.ignoreErr p.save
  IOM.lift ({ record with progressFile := some p } : Record).export

/-- The loop of `ListFiles` (catalogue.go:154-163) over the keys in the order the map yields them. -/
def listLoop : List Sha1Hash → CM (List Export)
  | [] => return []
  | h :: rest => do
    let ind ← getIndex
    match mapGet ind.index h with
    | none => listLoop rest
    | some r => do
      let r' ← fillRecord r
      let e ← IOM.lift r'.export
      let es ← listLoop rest
      return e :: es

/-- `ListFiles` (catalogue.go:148-166); `order` is the iteration order of the map. -/
def listFiles (order : List Sha1Hash) : CM (List Export) := do
  let _ ← getIndex
  listLoop order

/-- `Rehash` (catalogue.go:170-180); on a read error the blank hash is returned along with the error. -/
def rehash (env : Env) (h : Sha1Hash) : CM Sha1Hash := do
  let r ← getIndexRecord h
  osHashFile env r.filePath

/-- `Contains` (catalogue.go:184-190). -/
def contains (h : Sha1Hash) : CM Export := do
  let r ← getIndexRecord h
  IOM.lift r.export

/-- `Get` (catalogue.go:193-201). -/
def catGet (h : Sha1Hash) : CM Export := IOM.orPanic (contains h)

/-- `FileComplete` (catalogue.go:203-211). -/
def fileComplete (h : Sha1Hash) : CM Bool := do
  let r ← IOM.orPanic (getIndexRecord h)
  match r.progressFile with
  | none => IOM.lift .panic
  | some p => IOM.lift p.progress.full

/-- `MissingChunks` (catalogue.go:214-222); the count argument is ignored by the code. -/
def missingChunks (h : Sha1Hash) : CM (List Range) := do
  let r ← IOM.orPanic (getIndexRecord h)
  match r.progressFile with
  | none => IOM.lift .panic
  | some p => IOM.lift p.progress.unfilledRanges

/-- `indexRecord.saveChunk` (indexRecord.go:52-67). -/
def Record.saveChunk (r : Record) (chunk : Nat) (data : Bytes) : CM Unit := do
  osOpenCreate r.filePath
  osWriteAt r.filePath data (chunk * r.chunkSize)

/-- `SaveChunk` (catalogue.go:224-239). -/
def saveChunk (h : Sha1Hash) (chunk : UInt16) (data : Bytes) : CM Unit := do
  let r ← IOM.orPanic (getIndexRecord h)
  r.saveChunk chunk.toNat data
  match r.progressFile with
  | none => IOM.lift .panic
  | some p => do
    let set ← IOM.lift (p.progress.set (BitVec.ofNat 64 chunk.toNat))
    let p := { p with progress := set }
    updateRecord { r with progressFile := some p }
    p.save

/-- `GetChunkReader` (catalogue.go:241-249) and `getChunkReader` (indexRecord.go:71-88).  `choices` is what the operating system does on the
reads of `NewChunkReader`; the result `none` means the call has not returned (see C24).  The file content is the one at the time of the
call. -/
def getChunkReader (env : Env) (h : Sha1Hash) (chunk : Nat) (choices : List AtChoice) : CM (Option ChunkReader) := do
  let r ← getIndexRecord h
  match r.progressFile with
  | none => IOM.lift .panic
  | some p => do
    if !(← IOM.lift (p.progress.get (BitVec.ofNat 64 chunk))) then IOM.lift (.err (.missingChunk chunk))
    else
      osTouch
      match (← getFS) r.filePath with
      | none => IOM.lift (.err .io)
      | some content => return newChunkReader env.sha1 content (chunk * r.chunkSize.toNat) r.chunkSize.toNat choices

end Flu
