import Verif.Model.CatSystem
/-!
# The calls of the catalogue, step by step

In the other models a call of the catalogue is one indivisible step.  Here the calls that take the catalogue's lock are sequences of single accesses to memory and of single operations on
the files; writing a file takes a step for every byte.  Any number of goroutines make such calls at the same time, and only the lock (catalogue.go:20) orders them.

Simplification: other programs change files only while nobody holds the lock.  `Contains` and `Rehash`, which do not take the lock, are not part of this model; see `Model/Unlocked`.
-/
namespace Flu

/-- A computation in single steps: it is done, or it changes the state and goes on in a way that depends on the state it found. -/
inductive Prog (α : Type) where
  | done (r : Res α)
  | step (act : St → St) (next : St → Prog α)

namespace Prog
variable {α β : Type}

/-- All steps one after the other with nothing in between. -/
def run : Prog α → CM α
  | done r => fun s => (r, s)
  | step act next => fun s => (next s).run (act s)

/-- Sequencing. -/
def bind : Prog α → (α → Prog β) → Prog β
  | done (.ok a), f => f a
  | done (.err e), _ => done (.err e)
  | done .panic, _ => done .panic
  | done .exit, _ => done .exit
  | done .crash, _ => done .crash
  | step act next, f => step act (fun s => (next s).bind f)

instance : Monad Prog where
  pure a := done (.ok a)
  bind := bind

/-- One indivisible action. -/
def atom (x : CM α) : Prog α := step (fun s => (x s).2) (fun s => done (x s).1)

/-- Drop an error, as `IOM.ignoreErr`. -/
def ignoreErr : Prog Unit → Prog Unit
  | done (.err _) => done (.ok ())
  | done r => done r
  | step act next => step act (fun s => (next s).ignoreErr)

/-- Turn an error return into a panic, as `IOM.orPanic`. -/
def orPanic : Prog α → Prog α
  | done (.err _) => done .panic
  | done r => done r
  | step act next => step act (fun s => (next s).orPanic)

/-- Give a file the contents `f 0`, `f 1`, …, `f n` one after the other. -/
def writeUpTo (p : Path) (f : Nat → Bytes) : Nat → Prog Unit
  | 0 => atom (setFile p (some (f 0)))
  | n + 1 => writeUpTo p f n >>= fun _ => atom (setFile p (some (f (n + 1))))

/-- `os.WriteFile` (as `osWriteFile`): the file is cut to nothing and then gets byte after byte. -/
def writeFile (p : Path) (data : Bytes) : Prog Unit := do
  match ← atom nextFault with
  | .none => writeUpTo p data.take data.length
  | .fail eff => do
    match eff with | .none => pure () | .some k => writeUpTo p data.take (min k data.length)
    done (.err .io)
  | .crash eff => do
    match eff with | .none => pure () | .some k => writeUpTo p data.take (min k data.length)
    done .crash

/-- `fd.WriteAt` (as `osWriteAt`), byte after byte. -/
def writeAt (p : Path) (data : Bytes) (start : Int) : Prog Unit := do
  if start < 0 then done (.err .io)
  else
    let write (d : Bytes) : Prog Unit := do
      let fs ← atom getFS
      writeUpTo p (fun k => overlay ((fs p).getD []) start.toNat (d.take k)) d.length
    match ← atom nextFault with
    | .none => write data
    | .fail eff => do
      match eff with | .none => pure () | .some k => write (data.take k)
      done (.err .io)
    | .crash eff => do
      match eff with | .none => pure () | .some k => write (data.take k)
      done .crash

/-- `indexFile.save` (indexFile.go:77-90). -/
def saveIndex (env : Env) : Prog Unit := do
  let ind ← atom getIndex
  writeFile (indexPath ind.dataDir) (env.json.enc ind.toJSON)

/-- `AddIndexRecord` (indexFile.go:95-101). -/
def addIndexRecord (env : Env) (r : Record) : Prog Unit := do
  let ind ← atom getIndex
  match mapGet ind.index r.sha1Hash with
  | some extant => done (.err (.alreadyShared extant.filePath))
  | none => do
    atom (setIndex { ind with index := mapPut ind.index r.sha1Hash r })
    saveIndex env

/-- `RemoveIndexRecord` (indexFile.go:105-108). -/
def removeIndexRecord (env : Env) (r : Record) : Prog Unit := do
  let ind ← atom getIndex
  atom (setIndex { ind with index := mapDel ind.index r.sha1Hash })
  saveIndex env

/-- Assign to a record that is in the map (through its pointer). -/
def updateRecord (r : Record) : Prog Unit := do
  let ind ← atom getIndex
  atom (setIndex { ind with index := mapPut ind.index r.sha1Hash r })

/-- `deserializeProgressFile` (progressFile.go:108-126). -/
def deserializeProgressFile (r : Record) (dataDir : Path) : Prog ProgressFile := do
  let path := progressPath dataDir r.sha1Hash
  let data ← atom (osReadFile path)
  let set ← done (Bitset.deserialize data)
  return { progress := set, filePath := path }

/-- `fill` (catalogue.go:259-268). -/
def fillRecord (r : Record) : Prog Record := do
  match r.progressFile with
  | some _ => return r
  | none => do
    let p ← deserializeProgressFile r (← atom getCat).dataDir
    let r' := { r with progressFile := some p }
    updateRecord r'
    return r'

/-- `getIndexRecord` (catalogue.go:251-257). -/
def getIndexRecord (h : Sha1Hash) : Prog Record := do
  let ind ← atom getIndex
  match mapGet ind.index h with
  | some r => fillRecord r
  | none => done (.err .fileNotFound)

/-- `generateIndexRecordForFile` (indexRecord.go:90-114). -/
def generateIndexRecordForFile (env : Env) (path : GoString) : Prog Record := do
  let cleanPath := absPath env.cwd path
  match ← atom (osStat cleanPath) with
  | none => done (.err .io)
  | some size => do
    let hash ← atom (osHashFile env cleanPath)
    return { filePath := cleanPath, sizeInBytes := asInt64 (UInt64.ofNat size), sha1Hash := hash, progressFile := none, chunkSize := defaultChunkSize }

/-- `ShareFile` (catalogue.go:63-85). -/
def shareFile (env : Env) (path : GoString) : Prog Record := do
  let record ← generateIndexRecordForFile env path
  addIndexRecord env record
  let p ← done (newProgressFile record (← atom getCat).dataDir)
  updateRecord { record with progressFile := some p }
  let full ← done p.progress.fill
  let p := { p with progress := full }
  updateRecord { record with progressFile := some p }
  writeFile p.filePath p.progress.serialize
  return { record with progressFile := some p }

/-- `UnshareFile` (catalogue.go:89-109). -/
def unshareFile (env : Env) (h : Sha1Hash) : Prog Unit := do
  let r ← getIndexRecord h
  match r.progressFile with
  | none => done .panic
  | some p => do
    atom (osRemove p.filePath)
    removeIndexRecord env r

/-- `RegisterDownload` (catalogue.go:113-143). -/
def registerDownload (env : Env) (sizeInBytes : UInt64) (chunkSizeInBytes : UInt32) (h : Sha1Hash) (filename : GoString) : Prog Export := do
  let cat := (← atom getCat)
  let record : Record :=
    { filePath := joinPath [cat.downloadsDir, filename], sizeInBytes := asInt64 sizeInBytes, sha1Hash := h, progressFile := none,
      chunkSize := chunkSizeInBytes.toNat }
  addIndexRecord env record
  let p ← done (newProgressFile record (← atom getCat).dataDir)
  updateRecord { record with progressFile := some p }
  ignoreErr (writeFile p.filePath p.progress.serialize)
  done ({ record with progressFile := some p } : Record).export

/-- The loop of `ListFiles` (catalogue.go:154-163). -/
def listLoop : List Sha1Hash → Prog (List Export)
  | [] => return []
  | h :: rest => do
    let ind ← atom getIndex
    match mapGet ind.index h with
    | none => listLoop rest
    | some r => do
      let r' ← fillRecord r
      let e ← done r'.export
      let es ← listLoop rest
      return e :: es

/-- `ListFiles` (catalogue.go:148-166). -/
def listFiles (order : List Sha1Hash) : Prog (List Export) := do
  let _ ← atom getIndex
  listLoop order

/-- `Get` (catalogue.go:193-201). -/
def catGet (h : Sha1Hash) : Prog Export := orPanic (do
  let r ← getIndexRecord h
  done r.export)

/-- `FileComplete` (catalogue.go:203-211). -/
def fileComplete (h : Sha1Hash) : Prog Bool := do
  let r ← orPanic (getIndexRecord h)
  match r.progressFile with
  | none => done .panic
  | some p => done p.progress.full

/-- `MissingChunks` (catalogue.go:214-222). -/
def missingChunks (h : Sha1Hash) : Prog (List Range) := do
  let r ← orPanic (getIndexRecord h)
  match r.progressFile with
  | none => done .panic
  | some p => done p.progress.unfilledRanges

/-- `indexRecord.saveChunk` (indexRecord.go:52-67). -/
def recordSaveChunk (r : Record) (chunk : Nat) (data : Bytes) : Prog Unit := do
  atom (osOpenCreate r.filePath)
  writeAt r.filePath data (chunk * r.chunkSize)

/-- `SaveChunk` (catalogue.go:224-239). -/
def saveChunk (h : Sha1Hash) (chunk : UInt16) (data : Bytes) : Prog Unit := do
  let r ← orPanic (getIndexRecord h)
  recordSaveChunk r chunk.toNat data
  match r.progressFile with
  | none => done .panic
  | some p => do
    let set ← done (p.progress.set (BitVec.ofNat 64 chunk.toNat))
    let p := { p with progress := set }
    updateRecord { r with progressFile := some p }
    writeFile p.filePath p.progress.serialize

/-- `GetChunkReader` (catalogue.go:241-249) and `getChunkReader` (indexRecord.go:71-88). -/
def getChunkReader (env : Env) (h : Sha1Hash) (chunk : Nat) (choices : List AtChoice) : Prog (Option ChunkReader) := do
  let r ← getIndexRecord h
  match r.progressFile with
  | none => done .panic
  | some p => do
    if !(← done (p.progress.get (BitVec.ofNat 64 chunk))) then done (.err (.missingChunk chunk))
    else
      atom osTouch
      match (← atom getFS) r.filePath with
      | none => done (.err .io)
      | some content => return newChunkReader env.sha1 content (chunk * r.chunkSize.toNat) r.chunkSize.toNat choices

end Prog

/-- What a call that takes the lock gives back. -/
inductive Answer where
  | nothing
  | record (r : Record)
  | entry (e : Export)
  | entries (es : List Export)
  | truth (b : Bool)
  | ranges (rs : List Range)
  | reader (r : Option ChunkReader)

/-- The calls that take the catalogue's lock for as long as they run (`c.lock.Lock(); defer c.lock.Unlock()`: catalogue.go:64, 90, 120, 149, 194, 204, 215, 225, 242). -/
inductive LCall where
  | share (path : GoString)
  | unshare (h : Sha1Hash)
  | register (size : UInt64) (chunkSize : UInt32) (h : Sha1Hash) (name : GoString)
  | list (order : List Sha1Hash)
  | get (h : Sha1Hash)
  | complete (h : Sha1Hash)
  | missing (h : Sha1Hash)
  | save (h : Sha1Hash) (chunk : UInt16) (data : Bytes)
  | reader (h : Sha1Hash) (chunk : Nat) (choices : List AtChoice)

/-- The call as one of the calls of `Model/CatSystem`. -/
def LCall.op : LCall → Op
  | .share p => .share p
  | .unshare h => .unshare h
  | .register s cs h n => .register s cs h n
  | .list o => .list o
  | .get h => .get h
  | .complete h => .complete h
  | .missing h => .missing h
  | .save h c d => .save h c d
  | .reader h c ch => .reader h c ch

/-- The body of a call in single steps. -/
def LCall.prog (env : Env) : LCall → Prog Answer
  | .share p => do return .record (← Prog.shareFile env p)
  | .unshare h => do Prog.unshareFile env h; return .nothing
  | .register s cs h n => do return .entry (← Prog.registerDownload env s cs h n)
  | .list o => do return .entries (← Prog.listFiles o)
  | .get h => do return .entry (← Prog.catGet h)
  | .complete h => do return .truth (← Prog.fileComplete h)
  | .missing h => do return .ranges (← Prog.missingChunks h)
  | .save h c d => do Prog.saveChunk h c d; return .nothing
  | .reader h c ch => do return .reader (← Prog.getChunkReader env h c ch)

/-- Where a goroutine is: it makes no call, it waits for the lock, or it holds the lock and has this left to do. -/
inductive Phase where
  | idle
  | waiting (o : LCall)
  | inside (o : LCall) (p : Prog Answer)

/-- Memory, disk, the lock, and the goroutines. -/
structure CSys where
  st : St
  holder : Option Nat
  phase : Nat → Phase

/-- One goroutine goes on. -/
def CSys.to (s : CSys) (t : Nat) (x : Phase) : CSys := { s with phase := fun u => if u = t then x else s.phase u }

/-- What can be seen from outside: a call is made, a call returns, another program changes a file. -/
inductive CEv where
  | made (t : Nat) (o : LCall)
  | returned (t : Nat) (o : LCall) (r : Res Answer)
  | user (p : Path) (x : Option Bytes)

/-- One step of one goroutine or of another program. -/
inductive CStep (env : Env) (d : Path) : CSys → List CEv → CSys → Prop
  | make (s : CSys) (t : Nat) (o : LCall) (h : s.phase t = .idle) : CStep env d s [.made t o] (s.to t (.waiting o))
  | lock (s : CSys) (t : Nat) (o : LCall) (h : s.phase t = .waiting o) (hfree : s.holder = none) (hsafe : o.op.Safe d s.st.cat) :
      CStep env d s [] { s.to t (.inside o (o.prog env)) with holder := some t }
  | go (s : CSys) (t : Nat) (o : LCall) (act : St → St) (next : St → Prog Answer) (h : s.phase t = .inside o (.step act next)) :
      CStep env d s [] { s.to t (.inside o (next s.st)) with st := act s.st }
  | unlock (s : CSys) (t : Nat) (o : LCall) (r : Res Answer) (h : s.phase t = .inside o (.done r)) (hr : r.returns = true) :
      CStep env d s [.returned t o r] { s.to t .idle with holder := none }
  | user (s : CSys) (p : Path) (x : Option Bytes) (hp : ¬ CatFile d p) (hfree : s.holder = none) :
      CStep env d s [.user p x] { s with st := { s.st with fs := s.st.fs.put p x } }

/-- Executions, with what can be seen of them. -/
inductive CRun (env : Env) (d : Path) (s0 : CSys) : List CEv → CSys → Prop
  | refl : CRun env d s0 [] s0
  | step {tr ev : List CEv} {s s' : CSys} (h : CRun env d s0 tr s) (h' : CStep env d s ev s') : CRun env d s0 (tr ++ ev) s'

/-- A daemon in which nobody makes a call. -/
def CSys.quiet (st : St) : CSys := ⟨st, none, fun _ => .idle⟩

end Flu
