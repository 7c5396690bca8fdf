import Verif.Model.Go
import Verif.Model.Sha1
import Verif.Model.Disk
/-!
# Model of the command line client and of IP addresses

`cli/cliClient.go`, the display code of `cli/cliMethodsShare.go` and `cli/cliMethodsChims.go`, the address handling of `cli/cliMethodsList.go`, and `flu/ipv4.go`.
The whole text that is printed is in `Model/Text`.  Not modelled: `net/rpc` itself (a request is delivered or the call fails).
-/
namespace Flu

/-! ### Addresses -/

/-- A Go `net.IP`: a slice, that is a length and the bytes from its start up to its capacity. -/
structure NetIP where
  arr : Bytes
  len : Nat
  len_le : len ≤ arr.length

namespace NetIP
/-- The bytes of the slice. -/
def bytes (ip : NetIP) : Bytes := ip.arr.take ip.len
/-- `cap`. -/
def cap (ip : NetIP) : Nat := ip.arr.length
/-- A slice without spare capacity. -/
def exact (b : Bytes) : NetIP := ⟨b, b.length, Nat.le_refl _⟩
end NetIP

/-- `net.IP.To4` (Go standard library): 4-byte addresses as they are, the last four bytes of an IPv4-mapped 16-byte address, otherwise nil. -/
def to4 (ip : Bytes) : Option Bytes :=
  if ip.length = 4 then some ip
  else if ip.length = 16 ∧ ip.take 10 = List.replicate 10 0 ∧ ip[10]? = some 255 ∧ ip[11]? = some 255 then some (ip.drop 12)
  else none

/-- `copy(result[:], src)` into a zeroed array of four bytes. -/
def copy4 (src : Bytes) : ByteArr 4 := ⟨src.take 4 ++ List.replicate (4 - (src.take 4).length) 0, by simp; omega⟩

/-- `newIpv4` (ipv4.go:10-27): note that it looks at the capacity of the slice, and slices up to the capacity. -/
def newIpv4 (ip : NetIP) : Res (ByteArr 4) :=
  match to4 ip.bytes with
  | none => .err .notIPv4
  | some _ =>
    if ip.cap = 4 then .ok (copy4 (ip.arr.take 4))
    else if ip.cap = 16 then .ok (copy4 ((ip.arr.take 16).drop 12))
    else .panic

/-- The address part of `Methods.List` (cliMethodsList.go:54-55): `addr := req.IP.To4()` and `addr[0] … addr[3]`, where indexing nil panics. -/
def listAddress (ip : Bytes) : Res (ByteArr 4) :=
  let addr := (to4 ip).getD []
  do
    let a ← indexAt addr 0
    let b ← indexAt addr 1
    let c ← indexAt addr 2
    let d ← indexAt addr 3
    return ⟨[a, b, c, d], rfl⟩

/-! ### Display -/

/-- The value of a Go `int` expression: wrapped to 64 bits. -/
def wrapInt (x : Int) : Int := (BitVec.ofInt 64 x).toInt

/-- Go integer division. -/
def goDiv (a b : Int) : Res Int := if b = 0 then .panic else .ok (wrapInt (a.tdiv b))

/-- The number printed after `Integrity:` (cliMethodsShare.go:38): `(li.ChunksDownloaded*100/li.ChunkCount*100)/100`. -/
def integrity (chunksDownloaded chunkCount : Int) : Res Int := do
  let q ← goDiv (wrapInt (chunksDownloaded * 100)) chunkCount
  goDiv (wrapInt (q * 100)) 100

/-- The ranges printed by `ChimResponse.Sprintf` (cliMethodsChims.go:27-35): `c.Chunks[i], c.Chunks[i+1]` for even `i`. -/
def chimRanges : List UInt16 → Res (List (UInt16 × UInt16))
  | [] => .ok []
  | [_] => .panic
  | a :: b :: rest => do
    let r ← chimRanges rest
    return (a, b) :: r

/-! ### The client -/

/-- What the daemon receives.  gob leaves out empty slices, so the empty address that `flu list` sends arrives as nil. -/
inductive CliReq where
  | share (path : GoString)
  | clean
  | list (ip : Option Bytes) (h : Sha1Hash)
  | get (h : Sha1Hash)
  | chims (h : Sha1Hash)
  deriving DecidableEq

/-- What the client process does. -/
inductive CliOut where
  | message                -- prints something and ends, nothing sent
  | exit2                  -- prints a usage error, exit status 2, nothing sent
  | panic                  -- dies with a Go panic
  | call (r : CliReq)      -- sends the request to the daemon
  deriving DecidableEq

/-- "share", "clean", "list", "get", "chims". -/
def cmdShare : GoString := [115, 104, 97, 114, 101]
def cmdClean : GoString := [99, 108, 101, 97, 110]
def cmdList : GoString := [108, 105, 115, 116]
def cmdGet : GoString := [103, 101, 116]
def cmdChims : GoString := [99, 104, 105, 109, 115]

/-- `FromStringSafe` on a fresh hash followed by `validate` (cliClient.go:145-151): the hash or exit status 2. -/
def hashArg (start : Sha1Hash) (s : GoString) (k : Sha1Hash → CliOut) : CliOut :=
  match start.fromStringSafe s with
  | (.ok (), h) => k h
  | _ => .exit2

/-- `Client.Run` (cliClient.go:28-126).  `parseIP` is `net.ParseIP`, `dial` says whether the daemon's socket can be reached. -/
def cliRun (parseIP : GoString → Option Bytes) (dial : Bool) : List GoString → CliOut
  | [] => .message
  | cmd :: args =>
    if !dial then .panic
    else if cmd = cmdShare then
      match args with
      | [p] => .call (.share p)
      | _ => .exit2
    else if cmd = cmdClean then
      match args with
      | [] => .call .clean
      | _ => .exit2
    else if cmd = cmdList then
      match args with
      | [] => .call (.list none Sha1Hash.blank)
      | a :: rest =>
        match parseIP a with
        | none => .message
        | some ip =>
          match rest with
          | [] => .call (.list (some ip) Sha1Hash.blank)
          | h :: _ => hashArg Sha1Hash.blank h (fun h => .call (.list (some ip) h))
    else if cmd = cmdGet then
      match args with
      | [] => .panic
      | a :: rest => hashArg Sha1Hash.zero a (fun h => if rest = [] then .call (.get h) else .exit2)
    else if cmd = cmdChims then
      match args with
      | [] => .call (.chims Sha1Hash.blank)
      | a :: _ => hashArg Sha1Hash.zero a (fun h => .call (.chims h))
    else .message

end Flu
