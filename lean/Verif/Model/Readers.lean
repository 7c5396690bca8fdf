import Verif.Model.Sha1
/-!
# Model of `common/utils.go` (`HashFile`) and `common/chunkReader.go`

The sha1 function is a parameter.  `hash.Write` accumulates bytes and `hash.Sum` applies the function to everything written
(Go's documented contract of `hash.Hash`; its `Write` never fails).

What the operating system does on each read is an arbitrary choice, given as a list: one element per system call.  A loop whose
list of choices runs out has not finished yet (`none`); so "for every list" ranges over all behaviours, finite and infinite.
-/

namespace Flu

/-- The two kinds of error a read can report. -/
inductive ReadErr where
  | eof
  | other
  deriving DecidableEq, Repr

/-- What the operating system does on one `read`: deliver some number of bytes (at least one, at most what was asked for and what is
left; end of file when nothing is left), or fail. -/
inductive ReadChoice where
  | deliver (n : Nat)
  | fail
  deriving DecidableEq, Repr

/-- `(*os.File).Read(buf)` on a regular file with the given content and position: at least one byte unless at the end of the
file; `0, io.EOF` at the end; `0, err` on failure.  Returns the bytes, the error, and the new position. -/
def osRead (content : Bytes) (pos buflen : Nat) : ReadChoice → Bytes × Option ReadErr × Nat
  | .fail => ([], some .other, pos)
  | .deliver n =>
    let rest := content.drop pos
    let got := rest.take (min buflen (max 1 n))
    if rest = [] then ([], some .eof, pos) else (got, none, pos + got.length)

/-- The loop of `HashFile` (utils.go:23-41); `acc` is what has been written to the hash. -/
def hashFileLoop (sha1 : Bytes → Sha1Hash) (content : Bytes) : (pos : Nat) → (acc : Bytes) → List ReadChoice → Option (Res Sha1Hash)
  | _, _, [] => none
  | pos, acc, c :: cs =>
    let (bytes, err, pos') := osRead content pos 4096 c
    let acc' := if bytes.length > 0 then acc ++ bytes else acc
    match err with
    | some .eof => some (.ok (Sha1Hash.zero.fromSlice (sha1 acc').1))
    | some .other => some (.err .io)
    | none => hashFileLoop sha1 content pos' acc' cs

/-- `HashFile` (utils.go:13-44) for a file that could be opened. -/
def hashFile (sha1 : Bytes → Sha1Hash) (content : Bytes) (choices : List ReadChoice) : Option (Res Sha1Hash) :=
  hashFileLoop sha1 content 0 [] choices

/-! ### `io.SectionReader` and `ChunkReader` -/

/-- What the operating system does on one `(*os.File).ReadAt`: read everything it can, or fail after `n` bytes. -/
inductive AtChoice where
  | good
  | fail (n : Nat)
  deriving DecidableEq, Repr

/-- `(*os.File).ReadAt(p, off)` with `len(p) = want`: all the bytes there are up to `want`, `io.EOF` if fewer than `want`; or an
error after some of them. -/
def osReadAt (content : Bytes) (off want : Nat) : AtChoice → Bytes × Option ReadErr
  | .good =>
    let got := (content.drop off).take want
    (got, if got.length < want then some .eof else none)
  | .fail n => ((content.drop off).take (min n want), some .other)

/-- `io.SectionReader`: base offset, current offset, limit. -/
structure SectionReader where
  base : Nat
  off : Nat
  limit : Nat
  deriving DecidableEq, Repr

/-- `io.NewSectionReader(r, off, n)`.  Simplification: `off + n` does not exceed the `int64` range (chunk numbers are 16 bits and
chunk sizes 32 bits wherever this is called). -/
def newSectionReader (off n : Nat) : SectionReader := ⟨off, off, off + n⟩

/-- `(*io.SectionReader).Read(p)` with `len(p) = buflen`. -/
def SectionReader.read (content : Bytes) (r : SectionReader) (buflen : Nat) (c : AtChoice) :
    Bytes × Option ReadErr × SectionReader :=
  if r.off ≥ r.limit then ([], some .eof, r)
  else
    let want := min buflen (r.limit - r.off)
    let (got, err) := osReadAt content r.off want c
    (got, err, { r with off := r.off + got.length })

/-- `type ChunkReader struct` (chunkReader.go:12-16). -/
structure ChunkReader where
  reader : SectionReader
  hash : Sha1Hash
  size : Nat
  deriving DecidableEq

/-- The loop of `NewChunkReader` (chunkReader.go:61-80): only end of file ends it. -/
def newChunkReaderLoop (sha1 : Bytes → Sha1Hash) (content : Bytes) :
    SectionReader → (size : Nat) → (acc : Bytes) → List AtChoice → Option ChunkReader
  | _, _, _, [] => none
  | r, size, acc, c :: cs =>
    let (bytes, err, r') := r.read content 4096 c
    let size' := if bytes.length > 0 then size + bytes.length else size
    let acc' := if bytes.length > 0 then acc ++ bytes else acc
    if err = some .eof then
      some { reader := { r' with off := r'.base }, hash := Sha1Hash.zero.fromSlice (sha1 acc').1, size := size' }
    else newChunkReaderLoop sha1 content r' size' acc' cs

/-- `NewChunkReader(io.NewSectionReader(fd, start, n))` (chunkReader.go:55-89; the section as at indexRecord.go:82-88). -/
def newChunkReader (sha1 : Bytes → Sha1Hash) (content : Bytes) (start n : Nat) (choices : List AtChoice) : Option ChunkReader :=
  newChunkReaderLoop sha1 content (newSectionReader start n) 0 [] choices

namespace ChunkReader

/-- `Offset` (chunkReader.go:18-33): the position within the section; panics above 2^32-1.  (`Seek(0, io.SeekCurrent)` cannot
fail.) -/
def offset (cr : ChunkReader) : Res UInt32 :=
  let o := cr.reader.off - cr.reader.base
  if o > 4294967295 then .panic else .ok (UInt32.ofNat o)

/-- `Read` (chunkReader.go:35-39): the bytes, the offset before reading, the error. -/
def read (content : Bytes) (cr : ChunkReader) (buflen : Nat) (c : AtChoice) :
    Res (Bytes × UInt32 × Option ReadErr × ChunkReader) := do
  let off ← cr.offset
  let (got, err, r') := cr.reader.read content buflen c
  return (got, off, err, { cr with reader := r' })

/-- `Reset` (chunkReader.go:41-53): seeks to the start of the section (the error branches are unreachable). -/
def reset (cr : ChunkReader) : ChunkReader := { cr with reader := { cr.reader with off := cr.reader.base } }

/-- Successive `Read`s with the given buffer sizes: what each returned, and the reader afterwards. -/
def reads (content : Bytes) (cr : ChunkReader) : List Nat → Res (List (Bytes × UInt32 × Option ReadErr) × ChunkReader)
  | [] => .ok ([], cr)
  | n :: ns => do
    let (got, off, err, cr') ← cr.read content n .good
    let (rest, cr'') ← reads content cr' ns
    return ((got, off, err) :: rest, cr'')

end ChunkReader

/-- The chunk count computed by `newProgressFile` (progressFile.go:80-84): Go `int` division truncates and panics on a zero
divisor. -/
def chunkCountOf (sizeInBytes chunkSize : Int) : Res Int :=
  if chunkSize = 0 then .panic
  else
    let c := sizeInBytes.tdiv chunkSize
    .ok (if sizeInBytes.tmod chunkSize ≠ 0 then c + 1 else c)

end Flu
