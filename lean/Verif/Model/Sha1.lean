import Verif.Model.Go
/-!
# Model of `common/sha1Hash.go`

A hash is 20 bytes.  `encoding/hex` is modelled byte by byte (`EncodeToString`, `DecodeString`).
The sha1 function itself is never defined: everything that computes a hash takes it as a parameter.
-/

namespace Flu

/-- A Go array of `n` bytes. -/
abbrev ByteArr (n : Nat) := { l : Bytes // l.length = n }

/-- `type Sha1Hash struct { Data [20]byte }` (sha1Hash.go:12-14). -/
abbrev Sha1Hash := ByteArr 20

namespace Hex

/-- `hextable[v]` for `v < 16` (encoding/hex: "0123456789abcdef"). -/
def digit (v : Nat) : UInt8 := UInt8.ofNat (if v < 10 then 48 + v else 87 + v)

/-- `hex.EncodeToString`. -/
def encode (bs : Bytes) : GoString := bs.flatMap (fun b => [digit (b.toNat / 16), digit (b.toNat % 16)])

/-- `fromHexChar` of encoding/hex: `none` for a byte that is not a hexadecimal digit. -/
def value (c : UInt8) : Option Nat :=
  let n := c.toNat
  if 48 ≤ n ∧ n ≤ 57 then some (n - 48)
  else if 97 ≤ n ∧ n ≤ 102 then some (n - 87)
  else if 65 ≤ n ∧ n ≤ 70 then some (n - 55)
  else none

/-- `hex.DecodeString`; which of its errors is returned is not modelled. -/
def decode : GoString → Res Bytes
  | [] => .ok []
  | [_] => .err .badHex
  | a :: b :: rest =>
    match value a, value b with
    | some x, some y => do
      let r ← decode rest
      return UInt8.ofNat (x * 16 + y) :: r
    | _, _ => .err .badHex

end Hex

namespace Sha1Hash

/-- `&Sha1Hash{}`: twenty zero bytes. -/
def zero : Sha1Hash := ⟨List.replicate 20 0, by simp⟩

/-- `String` (sha1Hash.go:22-24). -/
def toString (h : Sha1Hash) : GoString := Hex.encode h.1

/-- `copy(h.Data[:], bytes)`: overwrites a prefix of the hash. -/
def copyInto (h : Sha1Hash) (bs : Bytes) : Sha1Hash :=
  ⟨bs.take 20 ++ h.1.drop (bs.take 20).length, by have := h.2; simp; omega⟩

/-- `FromString` (sha1Hash.go:41-49): panics on invalid hexadecimal, does not check the length. -/
def fromString (h : Sha1Hash) (s : GoString) : Res Sha1Hash :=
  match Hex.decode s with
  | .ok bs => .ok (h.copyInto bs)
  | _ => .panic

/-- `FromStringSafe` (sha1Hash.go:53-66): result and the new content of the hash. -/
def fromStringSafe (h : Sha1Hash) (s : GoString) : Res Unit × Sha1Hash :=
  match Hex.decode s with
  | .ok bs => if bs.length ≠ 20 then (.err (.badLength bs.length), h) else (.ok (), h.copyInto bs)
  | _ => (.err .badHex, h)

/-- `FromSlice` (sha1Hash.go:71-74). -/
def fromSlice (h : Sha1Hash) (s : Bytes) : Sha1Hash := h.copyInto s

/-- `FromSliceSafe` (sha1Hash.go:78-85). -/
def fromSliceSafe (h : Sha1Hash) (s : Bytes) : Res Unit × Sha1Hash :=
  if s.length ≠ 20 then (.err (.badLength s.length), h) else (.ok (), h.copyInto s)

/-- `Blank` (sha1Hash.go:89-94). -/
def blank : Sha1Hash := ⟨List.replicate 20 255, by simp⟩

/-- `IsBlank` (sha1Hash.go:98-103). -/
def isBlank (h : Sha1Hash) : Bool :=
  let c1 := beNat (h.1.take 8)
  let c2 := beNat ((h.1.take 16).drop 8)
  let c3 := beNat ((h.1.take 20).drop 16)
  c1 == 2 ^ 64 - 1 && c1 == c2 && c3 == 2 ^ 32 - 1

end Sha1Hash
end Flu
