/-!
# Go run-time basics used by every part of the model

Outcomes of a Go call, big-endian integers, and bounds-checked indexing.
-/

namespace Flu

/-- A Go `[]byte` (content only) or a Go `string` (which is a byte string). -/
abbrev Bytes := List UInt8
abbrev GoString := List UInt8

/-- The error values the modelled code returns.  Go errors are opaque strings; the model keeps the cause and
the data a caller can see in the message. -/
inductive Err where
  | unknownType (t : UInt8)            -- flu/messages/parse.go:75
  | payloadNotMultiple (l : Nat)       -- common/bitset/bitset.go:260
  | badHex                             -- encoding/hex errors (common/sha1Hash.go:56-58)
  | badLength (n : Nat)                -- common/sha1Hash.go:61, 80
  | io                                 -- any error returned by the operating system
  | json                               -- encoding/json errors
  | fileNotFound                       -- catalogue/catalogue.go:256
  | alreadyShared (path : GoString)    -- catalogue/indexFile.go:97
  | missingChunk (c : Int)             -- catalogue/indexRecord.go:73
  | notIPv4                            -- flu/ipv4.go:14
  | noUpload                           -- flu/serverContinueUpload.go:27
  | chunkTooLarge                      -- flu/serverStartUpload.go:28
  | expired (reqID : UInt16)           -- flu/server.go:108
  | wrongResponse                      -- flu/serverListFilesOnHost.go:59
  | toldNothing                        -- flu/serverStartDownload.go:91
  | noGoodHosts                        -- flu/serverStartDownload.go:27
  deriving DecidableEq, Repr

/-- What a Go call does: return normally, return an `error`, panic (which, with no `recover` anywhere in the
repository, kills the daemon), call `log.Fatal` (exit), or be cut short because the machine/process dies. -/
inductive Res (α : Type u) where
  | ok (a : α)
  | err (e : Err)
  | panic
  | exit
  | crash
  deriving DecidableEq, Repr

namespace Res
/-- Sequencing: anything but `ok` ends the call (Go's `if err != nil { return err }`, and unwinding). -/
@[inline] def bind (x : Res α) (f : α → Res β) : Res β :=
  match x with
  | ok a => f a
  | err e => err e
  | panic => panic
  | exit => exit
  | crash => crash

instance : Monad Res where
  pure := ok
  bind := bind

@[simp] theorem bind_ok (a : α) (f : α → Res β) : (ok a >>= f) = f a := rfl
@[simp] theorem bind_err (e : Err) (f : α → Res β) : ((err e : Res α) >>= f) = err e := rfl
@[simp] theorem bind_panic (f : α → Res β) : ((panic : Res α) >>= f) = panic := rfl
@[simp] theorem bind_exit (f : α → Res β) : ((exit : Res α) >>= f) = exit := rfl
@[simp] theorem bind_crash (f : α → Res β) : ((crash : Res α) >>= f) = crash := rfl
@[simp] theorem pure_eq (a : α) : (pure a : Res α) = ok a := rfl

instance : LawfulMonad Res := LawfulMonad.mk'
  (id_map := by intro α x; cases x <;> rfl)
  (pure_bind := by intros; rfl)
  (bind_assoc := by intro α β γ x f g; cases x <;> rfl)

/-- The call returned to its caller (with a value or an error) instead of killing the process. -/
def returns : Res α → Bool
  | ok _ => true
  | err _ => true
  | _ => false
end Res

/-- `s[i]` with Go's bounds check (index may be any `int`). -/
def indexAt (l : List α) (i : Int) : Res α :=
  if i < 0 then .panic else
  match l[i.toNat]? with
  | some a => .ok a
  | none => .panic

/-- `s[i] = v` with Go's bounds check. -/
def storeAt (l : List α) (i : Int) (v : α) : Res (List α) :=
  if i < 0 then .panic else
  if i.toNat < l.length then .ok (l.set i.toNat v) else .panic

/-- `encoding/binary.BigEndian.PutUintN`: the `n` low bytes of `v`, most significant first
(Go stdlib: `b[0] = byte(v >> 8*(n-1)) … b[n-1] = byte(v)`). -/
def beBytes : (n : Nat) → (v : Nat) → Bytes
  | 0, _ => []
  | n + 1, v => UInt8.ofNat (v / 256 ^ n) :: beBytes n v

/-- `encoding/binary.BigEndian.UintN`: big-endian value of a byte string. -/
def beNat (bs : Bytes) : Nat := bs.foldl (fun acc b => acc * 256 + b.toNat) 0

end Flu
