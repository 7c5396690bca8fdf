import Verif.Model.Sha1
/-!
# Model of the `flu/messages` package

Messages are values of `Msg`; `serialize` gives the wire bytes and `parse` models `Parse` on a Go slice with its
capacity.  Serialisers in the Go code fill a pre-sized buffer field by field; here the same fields are concatenated in
order (the buffer positions are the ones cited).
-/

namespace Flu

/-- `ListFilesEntry` (flu/messages/msgListFiles.go:44-52). -/
structure ListFilesEntry where
  sizeInBytes : UInt64
  chunkCount : UInt32
  chunkSize : UInt32
  chunksDownloaded : UInt32
  hash : Sha1Hash
  fileName : GoString
  deriving DecidableEq

/-- The messages of the protocol: msgDiscoverHosts.go:11-22, 62-67; msgListFiles.go:11-15, 70-73;
msgConnection.go:9-13; msgDataPacket.go:18-21, 67-69. -/
inductive Msg where
  | discoverReq (reqID : UInt16) (hash : Sha1Hash) (chunks : List UInt16)
  | discoverResp (reqID : UInt16) (addr : ByteArr 4) (port : UInt16) (chunks : List UInt16)
  | listReq (reqID : UInt16) (hash : Sha1Hash)
  | listResp (reqID : UInt16) (files : List ListFilesEntry)
  | openReq (hash : Sha1Hash) (chunk : UInt16) (windowCap : UInt16)
  | data (offset : UInt32) (payload : Bytes)
  | ack (offset : UInt32)
  deriving DecidableEq

/-- `Type()` of each message (messageTypes.go:10-16). -/
def Msg.type : Msg → UInt8
  | discoverReq .. => 0
  | discoverResp .. => 1
  | listReq .. => 2
  | listResp .. => 3
  | openReq .. => 4
  | data .. => 5
  | ack .. => 6

/-- `binary.BigEndian.PutUint16`. -/
def put16 (v : UInt16) : Bytes := beBytes 2 v.toNat
/-- `binary.BigEndian.PutUint32`. -/
def put32 (v : UInt32) : Bytes := beBytes 4 v.toNat
/-- `binary.BigEndian.PutUint64`. -/
def put64 (v : UInt64) : Bytes := beBytes 8 v.toNat

/-- `SerializeString255` (messages/utils.go:72-82). -/
def serializeString255 (s : GoString) : Bytes := UInt8.ofNat (min s.length 255) :: s.take 255

/-- The chunk count byte `uint8(len(r.Chunks))` and the chunks (msgDiscoverHosts.go:37-46, 85-94). -/
def serializeChunks (chunks : List UInt16) : Bytes := UInt8.ofNat chunks.length :: chunks.flatMap put16

/-- `ListFilesEntry.Serialize` (msgListFiles.go:55-67). -/
def ListFilesEntry.serialize (e : ListFilesEntry) : Bytes :=
  put64 e.sizeInBytes ++ put32 e.chunkCount ++ put32 e.chunkSize ++ put32 e.chunksDownloaded ++ e.hash.1 ++
    serializeString255 e.fileName

/-- `Serialize` of every message: msgDiscoverHosts.go:25-49, 70-97; msgListFiles.go:18-31, 81-98;
msgConnection.go:15-31 (32 bytes: the last seven stay zero); msgDataPacket.go:29-42, 71-81. -/
def Msg.serialize : Msg → Bytes
  | .discoverReq reqID hash chunks => [0] ++ put16 reqID ++ hash.1 ++ serializeChunks chunks
  | .discoverResp reqID addr port chunks => [1] ++ put16 reqID ++ addr.1 ++ put16 port ++ serializeChunks chunks
  | .listReq reqID hash => [2] ++ put16 reqID ++ hash.1
  | .listResp reqID files =>
      [3] ++ put16 reqID ++ put16 (UInt16.ofNat files.length) ++ files.flatMap ListFilesEntry.serialize
  | .openReq hash chunk windowCap => [4] ++ hash.1 ++ put16 chunk ++ put16 windowCap ++ List.replicate 7 0
  | .data offset payload => [5] ++ put32 offset ++ payload
  | .ack offset => [6] ++ put32 offset

/-- A Go `[]byte` with its capacity: `mem` is the memory from the slice's start to its capacity, of which the first
`len` bytes are the slice. -/
structure Slice where
  mem : Bytes
  len : Nat

/-- A slice whose capacity is its length. -/
def Slice.exact (bs : Bytes) : Slice := ⟨bs, bs.length⟩

/-- `byteReader` methods as a state monad over `index` (messages/utils.go:12-15). -/
abbrev RM := StateT Nat Res

namespace BReader

/-- `b.Data[b.index]`: checked against the length (messages/utils.go:17-21). -/
def readByte (s : Slice) : RM UInt8 := fun i =>
  if i < s.len then
    match s.mem[i]? with
    | some b => .ok (b, i + 1)
    | none => .panic
  else .panic

/-- `b.Data[b.index : b.index+n]`: a slice expression is checked against the capacity (messages/utils.go:23-27). -/
def readBytes (s : Slice) (n : Nat) : RM Bytes := fun i =>
  if i + n ≤ s.mem.length then .ok ((s.mem.drop i).take n, i + n) else .panic

/-- `readSha1Hash` (messages/utils.go:29-33). -/
def readSha1Hash (s : Slice) : RM Sha1Hash := do
  let bs ← readBytes s 20
  return Sha1Hash.zero.fromSlice bs

/-- `readUint16` (messages/utils.go:35-39). -/
def readUint16 (s : Slice) : RM UInt16 := do
  let bs ← readBytes s 2
  return UInt16.ofNat (beNat bs)

/-- `readUint32` (messages/utils.go:41-45). -/
def readUint32 (s : Slice) : RM UInt32 := do
  let bs ← readBytes s 4
  return UInt32.ofNat (beNat bs)

/-- `readUint64` (messages/utils.go:47-51). -/
def readUint64 (s : Slice) : RM UInt64 := do
  let bs ← readBytes s 8
  return UInt64.ofNat (beNat bs)

/-- The loop of `readSliceUint16` (messages/utils.go:56-58). -/
def readUint16s (s : Slice) : Nat → RM (List UInt16)
  | 0 => return []
  | n + 1 => do
    let v ← readUint16 s
    let vs ← readUint16s s n
    return v :: vs

/-- `readSliceUint16` (messages/utils.go:53-60). -/
def readSliceUint16 (s : Slice) : RM (List UInt16) := do
  let length ← readByte s
  readUint16s s length.toNat

/-- `readString256` (messages/utils.go:62-67). -/
def readString256 (s : Slice) : RM GoString := do
  let length ← readByte s
  readBytes s length.toNat

/-- One entry of a `ListFilesResponse` (parse.go:46-53). -/
def readEntry (s : Slice) : RM ListFilesEntry := do
  let sizeInBytes ← readUint64 s
  let chunkCount ← readUint32 s
  let chunkSize ← readUint32 s
  let chunksDownloaded ← readUint32 s
  let hash ← readSha1Hash s
  let fileName ← readString256 s
  return { sizeInBytes, chunkCount, chunkSize, chunksDownloaded, hash, fileName }

/-- The entry loop (parse.go:44-54). -/
def readEntries (s : Slice) : Nat → RM (List ListFilesEntry)
  | 0 => return []
  | n + 1 => do
    let e ← readEntry s
    let es ← readEntries s n
    return e :: es

end BReader

open BReader in
/-- The body of `Parse` (parse.go:6-77). -/
def parseM (s : Slice) : RM Msg := do
  let msgType ← readByte s
  if msgType = 0 then
    let reqID ← readUint16 s
    let hash ← readSha1Hash s
    let chunks ← readSliceUint16 s
    return .discoverReq reqID hash chunks
  else if msgType = 1 then
    let reqID ← readUint16 s
    let addr ← readBytes s 4
    let port ← readUint16 s
    let chunks ← readSliceUint16 s
    if h : addr.length = 4 then return .discoverResp reqID ⟨addr, h⟩ port chunks
    else StateT.lift .panic
  else if msgType = 2 then
    let reqID ← readUint16 s
    let hash ← readSha1Hash s
    return .listReq reqID hash
  else if msgType = 3 then
    let reqID ← readUint16 s
    let entryCount ← readUint16 s
    let entries ← readEntries s entryCount.toNat
    return .listResp reqID entries
  else if msgType = 4 then
    let hash ← readSha1Hash s
    let chunk ← readUint16 s
    let windowCap ← readUint16 s
    return .openReq hash chunk windowCap
  else if msgType = 6 then
    let offset ← readUint32 s
    return .ack offset
  else StateT.lift (.err (.unknownType msgType))

/-- `Parse` (parse.go:6-77) on a slice. -/
def parse (s : Slice) : Res Msg := do
  let (m, _) ← parseM s 0
  return m

/-- `ParseAsDataPacket` (msgDataPacket.go:58-63): `data[1:5]` is checked against the capacity, `data[5:]` against the
length. -/
def parseAsDataPacket (s : Slice) : Res (UInt32 × Bytes) :=
  if s.mem.length < 5 then .panic
  else if s.len < 5 then .panic
  else .ok (UInt32.ofNat (beNat ((s.mem.drop 1).take 4)), (s.mem.take s.len).drop 5)

/-- `Split` (msgDataPacket.go:47-53) on the `Data` slice: `[0:20]` and `[20:24]` are checked against the capacity,
`[24:]` against the length. -/
def splitFirst (d : Slice) : Res (Sha1Hash × UInt32 × Bytes) :=
  if d.mem.length < 24 then .panic
  else if d.len < 24 then .panic
  else .ok (Sha1Hash.zero.fromSlice (d.mem.take 20), UInt32.ofNat (beNat ((d.mem.drop 20).take 4)),
    (d.mem.take d.len).drop 24)

end Flu
