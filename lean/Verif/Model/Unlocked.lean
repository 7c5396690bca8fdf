import Verif.Model.CatSystem
/-!
# Look-ups that do not take the catalogue's lock

`Contains` (catalogue.go:184-190) and `Rehash` (catalogue.go:170-180) call `getIndexRecord` and `fill` (catalogue.go:251-268) without taking `c.lock`, while all other
methods hold it.  They are used by the handlers of discovery, listing and upload requests, by `StartDownload` and by `clean`.  A look-up that finds a record whose
progress is not loaded reads the progress file and then stores the result in the record: three steps, between which other calls can run.

The calls that take the lock are single steps, except that a look-up may read a progress file while `SaveChunk` is writing it: `os.WriteFile` first truncates the file, so
any beginning of the new content may be seen (`readDuring`; it also allows a beginning of the old content when the write failed, which is more than can happen).  (`SaveChunk` is the only call that writes the progress file of a record that is already in the index.)
Simplifications: look-ups begin and store between calls; reads and writes of the same word are atomic; a look-up whose record has been removed from the index meanwhile only
changes an object nobody else sees, so it is forgotten.
-/
namespace Flu

/-- A goroutine inside `Contains` or `Rehash`. -/
inductive Look where
  | idle
  | looking (h : Sha1Hash)                      -- found a record without progress (catalogue.go:260), about to read its file
  | holding (h : Sha1Hash) (p : ProgressFile)   -- has read the file (catalogue.go:261), about to store it (catalogue.go:265)

/-- The hash being looked up. -/
def Look.hash? : Look → Option Sha1Hash
  | .idle => none
  | .looking h => some h
  | .holding h _ => some h

/-- The record of a hash in memory. -/
def Cat.record (c : Cat) (h : Sha1Hash) : Option Record := c.indexFile.bind (fun ind => mapGet ind.index h)

/-- Forget the look-up if its record is no longer in the index. -/
def Look.keep (c : Cat) (l : Look) : Look :=
  match l.hash? with
  | none => .idle
  | some h => if (c.record h).isSome then l else .idle

/-- A running daemon: catalogue, files, look-ups in progress. -/
structure USt where
  cat : Cat
  fs : FS
  look : Nat → Look

inductive USys where
  | alive (s : USt)
  | dead (fs : FS)

/-- Change what one goroutine does. -/
def USt.setLook (s : USt) (t : Nat) (l : Look) : USt := { s with look := fun t' => if t' = t then l else s.look t' }

/-- `rec.ProgressFile = p` (catalogue.go:265). -/
def Cat.storeProgress (c : Cat) (h : Sha1Hash) (p : ProgressFile) : Cat :=
  match c.indexFile with
  | none => c
  | some ind =>
    match mapGet ind.index h with
    | none => c
    | some r => { c with indexFile := some { ind with index := mapPut ind.index h { r with progressFile := some p } } }

/-- After a call: returning keeps the daemon running, anything else ends it. -/
def afterUCall (look : Nat → Look) (r : Res Unit) (s : St) : USys :=
  match r with
  | .ok _ => .alive ⟨s.cat, s.fs, fun t => (look t).keep s.cat⟩
  | .err _ => .alive ⟨s.cat, s.fs, fun t => (look t).keep s.cat⟩
  | _ => .dead s.fs

/-- The rest of `deserializeProgressFile` (progressFile.go:108-126) once the file was read: go on, give up with an error, or panic. -/
def afterRead (s : USt) (t : Nat) (d : Path) (h : Sha1Hash) (data : Option Bytes) : USys :=
  match data with
  | none => .alive (s.setLook t .idle)
  | some data =>
    match Bitset.deserialize data with
    | .ok b => .alive (s.setLook t (.holding h ⟨b, progressPath d h⟩))
    | .err _ => .alive (s.setLook t .idle)
    | _ => .dead s.fs

/-- What happens in a step. -/
inductive UAct where
  | call (o : Op) (fl : List Fault)
  | begin (t : Nat) (h : Sha1Hash)
  | read (t : Nat)
  | readDuring (t : Nat) (h : Sha1Hash) (n : UInt16) (data : Bytes) (fl : List Fault) (k : Nat)
  | store (t : Nat)
  | user (p : Path) (x : Option Bytes)

/-- One step. -/
inductive UStep (env : Env) (d : Path) : USt → UAct → USys → Prop
  | call (s : USt) (o : Op) (fl : List Fault) (hsafe : o.Safe d s.cat) :
      UStep env d s (.call o fl) (afterUCall s.look (o.run env ⟨s.cat, s.fs, fl⟩).1 (o.run env ⟨s.cat, s.fs, fl⟩).2)
  | begin (s : USt) (t : Nat) (h : Sha1Hash) (r : Record) (hidle : s.look t = .idle) (hr : s.cat.record h = some r) (hn : r.progressFile = none) :
      UStep env d s (.begin t h) (.alive (s.setLook t (.looking h)))
  | read (s : USt) (t : Nat) (h : Sha1Hash) (hl : s.look t = .looking h) :
      UStep env d s (.read t) (afterRead s t d h (s.fs (progressPath d h)))
  | readFails (s : USt) (t : Nat) (h : Sha1Hash) (hl : s.look t = .looking h) :
      UStep env d s (.read t) (.alive (s.setLook t .idle))
  | readDuring (s : USt) (t : Nat) (h : Sha1Hash) (n : UInt16) (data : Bytes) (fl : List Fault) (k : Nat) (s1 : USt) (new : Bytes)
      (hl : s.look t = .looking h) (hsafe : (Op.save h n data).Safe d s.cat)
      (hcall : afterUCall s.look (saveChunk h n data ⟨s.cat, s.fs, fl⟩).1 (saveChunk h n data ⟨s.cat, s.fs, fl⟩).2 = .alive s1)
      (hnew : s1.fs (progressPath d h) = some new) :
      UStep env d s (.readDuring t h n data fl k) (afterRead s1 t d h (some (new.take k)))
  | store (s : USt) (t : Nat) (h : Sha1Hash) (p : ProgressFile) (hl : s.look t = .holding h p) :
      UStep env d s (.store t) (.alive { s.setLook t .idle with cat := s.cat.storeProgress h p })
  | user (s : USt) (p : Path) (x : Option Bytes) (hp : ¬ CatFile d p) : UStep env d s (.user p x) (.alive { s with fs := s.fs.put p x })

/-- Any number of steps, with what happened. -/
inductive URun (env : Env) (d : Path) (s0 : USt) : List UAct → USys → Prop
  | refl : URun env d s0 [] (.alive s0)
  | step {as : List UAct} {s : USt} {a : UAct} {x : USys} (h : URun env d s0 as (.alive s)) (hs : UStep env d s a x) : URun env d s0 (as ++ [a]) x

/-- No look-up in progress. -/
def noLook : Nat → Look := fun _ => .idle

end Flu
