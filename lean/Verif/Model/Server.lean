import Verif.Model.Clean
import Verif.Model.Cli
import Verif.Model.Sender
import Verif.Model.Bitset
/-!
# Model of the server: the handlers of incoming datagrams

`flu/server.go` (HandleMessage, LocalIP, sendToPeer), `serverDiscoverHosts.go` (RespondToDiscoverHosts), `serverListFilesOnHost.go`, `serverStartUpload.go`,
`serverContinueUpload.go` and the receiving loop of `main.go`.  A handler is one atomic step on the server's state; the goroutines it leaves running (the upload
worker) are modelled in `Model/Sender.lean`, the delivery of responses in `Model/Requests.lean`.

Simplifications: the maps `uploads` and `downloads` are read and written by several goroutines without synchronisation, which Go may punish by ending the process;
that is not modelled.  An upload keeps reading the file as it was when the upload was opened.
-/
namespace Flu

/-- Where a datagram came from: `net.UDPAddr`. -/
structure Addr where
  ip : NetIP
  port : Nat

/-- `uploadKey` (server.go:55-58). -/
structure UpKey where
  host : ByteArr 4
  port : UInt16
  deriving DecidableEq

/-- An entry of `uploads`: the connection and the file its reader was opened on. -/
structure Up where
  content : Bytes
  conn : Sender
  deriving DecidableEq

/-- The state of the server that handlers use: the catalogue with the file system, and `uploads` (server.go:21-41). -/
structure Srv where
  st : St
  uploads : UpKey → Option Up

/-- A handler. -/
abbrev SM := IOM Srv

/-- A call into the catalogue. -/
def SM.cat {α : Type} (x : CM α) : SM α := fun s => ((x s.st).1, { s with st := (x s.st).2 })

/-- `if err != nil { log.Fatal(err) }`. -/
def IOM.orExit {σ α : Type} (x : IOM σ α) : IOM σ α := fun s =>
  match x s with
  | (.err _, s') => (.exit, s')
  | r => r

/-- What the machine and the network do during one handler: the interface addresses (`none` if they cannot be obtained), the iteration order of the index, the reads of
`NewChunkReader` and of `kickstart`, and whether sending works. -/
structure Wire where
  addrs : Option (List Bytes)
  order : List Sha1Hash
  reads : List AtChoice
  rd : AtChoice
  sends : Bool

/-- `net.IP.IsLoopback` (Go standard library). -/
def isLoopback (ip : Bytes) : Bool :=
  match to4 ip with
  | some ip4 => ip4.head? == some 127
  | none => ip == List.replicate 15 0 ++ [1]

/-- The loop of `LocalIP` (server.go:165-172). -/
def firstAddr : List Bytes → Option Bytes
  | [] => none
  | a :: rest =>
    if isLoopback a then firstAddr rest
    else
      match to4 a with
      | some r => some r
      | none => firstAddr rest

/-- `LocalIP` (server.go:159-175): nil if there is no suitable address. -/
def localIP (addrs : Option (List Bytes)) : Res (Option Bytes) :=
  match addrs with
  | none => .panic
  | some as => .ok (firstAddr as)

/-- Sending a datagram; over IPv4 at most 65507 bytes. -/
def udpSend (sends : Bool) (bytes : Bytes) : Res Unit := if sends ∧ bytes.length ≤ 65507 then .ok () else .err .io

/-- What a handler that returned nil has done. -/
inductive Done where
  | sent (ip : Bytes) (port : Nat) (bytes : Bytes)   -- a datagram left for this address
  | first (key : UpKey) (p : Packet)                 -- the first packet of a chunk left for this address, the worker runs
  | acked (key : UpKey)                              -- the acknowledgement was passed to this upload
  | deliver (reqID : UInt16) (m : Msg)               -- handed to `deliverResponse` (see `Model/Requests.lean`)
  | reading                                          -- has not returned: still in `NewChunkReader` (see C24)
  deriving DecidableEq

/-- `[4]byte{(*ip)[0], (*ip)[1], (*ip)[2], (*ip)[3]}` (serverDiscoverHosts.go:63): a nil pointer or a short slice panics. -/
def addressOf (ip : Option Bytes) : Res (ByteArr 4) :=
  match ip with
  | none => .panic
  | some b => do
    let w ← indexAt b 0
    let x ← indexAt b 1
    let y ← indexAt b 2
    let z ← indexAt b 3
    return ⟨[w, x, y, z], rfl⟩

/-- The chunks of the answer (serverDiscoverHosts.go:69-77); an error of `Contains` leaves them empty. -/
def answerChunks (hash : Sha1Hash) (chunks : List UInt16) : SM (List UInt16) :=
  if hash.isBlank then pure []
  else do
    match ← IOM.attempt (SM.cat (contains hash)) with
    | .error _ => pure []
    | .ok ir => IOM.lift (if chunks.length > 0 then ir.progress.overlap chunks else ir.progress.ranges)

/-- `RespondToDiscoverHosts` (serverDiscoverHosts.go:57-80) with `sendToPeer` (server.go:111-122); `port` is the server's own port. -/
def respondToDiscoverHosts (port : Nat) (w : Wire) (reqID : UInt16) (hash : Sha1Hash) (chunks : List UInt16) (ret : Addr) : SM Done := do
  let ip ← IOM.lift (localIP w.addrs)
  let address ← IOM.lift (addressOf ip)
  let cs ← answerChunks hash chunks
  let bytes := (Msg.discoverResp reqID address (UInt16.ofNat port) cs).serialize
  IOM.lift (udpSend w.sends bytes)
  return .sent ret.ip.bytes port bytes

/-- Go's `uint64(x)` and `uint32(x)` of a signed integer. -/
def toU64 (x : Int) : UInt64 := ⟨BitVec.ofInt 64 x⟩
def toU32 (x : Int) : UInt32 := ⟨BitVec.ofInt 32 x⟩

/-- One entry of the listing (serverListFilesOnHost.go:92-103). -/
def listEntry (e : Export) : ListFilesEntry :=
  { sizeInBytes := toU64 e.sizeInBytes, chunkCount := toU32 e.progress.sizeOf, chunkSize := toU32 e.chunkSize,
    chunksDownloaded := toU32 e.progress.count, hash := Sha1Hash.zero.fromSlice e.sha1Hash.1, fileName := splitFile e.filePath }

/-- `RespondToListFilesOnHost` (serverListFilesOnHost.go:67-107). -/
def respondToListFiles (w : Wire) (reqID : UInt16) (hash : Sha1Hash) (ret : Addr) : SM Done := do
  let files ←
    if hash.isBlank then IOM.orExit (SM.cat (listFiles w.order))
    else do
      let f ← IOM.orExit (SM.cat (contains hash))
      pure [f]
  let bytes := (Msg.listResp reqID (files.map listEntry)).serialize
  IOM.lift (udpSend w.sends bytes)
  return .sent ret.ip.bytes ret.port bytes

/-- `NewSenderConnection` if there is none, then `kickstart` with the hash and size of the new reader (serverStartUpload.go:37-46). -/
def openUpload (w : Wire) (content : Bytes) (reader : ChunkReader) (cap : UInt16) (key : UpKey) : SM Done := fun s =>
  let up := (s.uploads key).getD ⟨content, newSender reader cap⟩
  match kickstart up.content up.conn reader.hash reader.size w.rd w.sends with
  | (r, conn) =>
    (r >>= fun p => .ok (.first key p), { s with uploads := fun k => if k = key then some ⟨up.content, conn⟩ else s.uploads k })

/-- `StartUpload` (serverStartUpload.go:11-47). -/
def startUpload (env : Env) (w : Wire) (hash : Sha1Hash) (chunk : UInt16) (windowCap : UInt16) (ret : Addr) : SM Done := do
  let ir ← SM.cat (contains hash)
  match ← SM.cat (getChunkReader env ir.sha1Hash chunk.toNat w.reads) with
  | none => return .reading
  | some reader =>
    if reader.size > 4294967295 then IOM.lift (.err .chunkTooLarge)
    else do
      let host ← IOM.lift (newIpv4 ret.ip)
      let fs ← SM.cat getFS
      openUpload w ((fs ir.filePath).getD []) reader windowCap ⟨host, UInt16.ofNat ret.port⟩

/-- `ContinueUpload` (serverContinueUpload.go:10-32); the contents of the acknowledgement are never looked at.  If the channel is full the goroutine waits, which the
sender model counts as pending as well. -/
def continueUpload (ret : Addr) : SM Done := do
  let host ← IOM.lift (newIpv4 ret.ip)
  let key : UpKey := ⟨host, UInt16.ofNat ret.port⟩
  fun s =>
    match s.uploads key with
    | none => (.err .noUpload, s)
    | some up =>
      (.ok (.acked key), { s with uploads := fun k => if k = key then some { up with conn := { up.conn with pending := up.conn.pending + 1 } } else s.uploads k })

/-- `HandleMessage` (server.go:131-155). -/
def handleMessage (env : Env) (port : Nat) (w : Wire) (message : Slice) (ret : Addr) : SM Done := do
  match ← IOM.lift (parse message) with
  | .discoverReq reqID hash chunks => respondToDiscoverHosts port w reqID hash chunks ret
  | .listReq reqID hash => respondToListFiles w reqID hash ret
  | .openReq hash chunk cap => startUpload env w hash chunk cap ret
  | .ack _ => continueUpload ret
  | .discoverResp reqID a p cs => return .deliver reqID (.discoverResp reqID a p cs)
  | .listResp reqID fs => return .deliver reqID (.listResp reqID fs)
  | .data .. => IOM.lift .panic

/-- The buffer `ReadFromUDP` fills (main.go:91-92) and the one of `ListFilesOnHost` (serverListFilesOnHost.go:40-41): 1024 zeroed bytes; a longer datagram is cut off. -/
def udpBuffer (d : Bytes) : Slice := .exact (d.take 1024 ++ List.replicate (1024 - (d.take 1024).length) 0)

/-- A datagram arriving at the daemon (main.go:90-100): `HandleMessage` gets the whole buffer. -/
def serveDatagram (env : Env) (port : Nat) (w : Wire) (d : Bytes) (ret : Addr) : SM Done := handleMessage env port w (udpBuffer d) ret

/-- What comes of asking a host for its files (serverListFilesOnHost.go:25-48): the socket cannot be opened, nothing arrives on it in time, or a datagram does. -/
inductive Contact where
  | noSocket
  | silence
  | datagram (d : Bytes)

/-- `ListFilesOnHost` (serverListFilesOnHost.go:16-64): `check(err)` after `net.DialUDP` is `log.Fatal`.  The request identifier of the response is not looked at. -/
def listFilesOnHost (raw : Contact) : Res (UInt16 × List ListFilesEntry) :=
  match raw with
  | .noSocket => .exit
  | .silence => .err .io
  | .datagram d => do
    match ← parse (udpBuffer d) with
    | .listResp reqID files => return (reqID, files)
    | _ => .err .wrongResponse

/-- `downloadMetaData` (serverStartDownload.go:80-95). -/
def downloadMetaData (hash : Sha1Hash) (raw : Contact) : Res ListFilesEntry := do
  let (_, files) ← listFilesOnHost raw
  match files with
  | [f] => if f.hash = hash then return f else .err .toldNothing
  | _ => .err .toldNothing

/-- A `DiscoverHostResponse` as the download code sees it. -/
structure HostResp where
  reqID : UInt16
  addr : ByteArr 4
  port : UInt16
  chunks : List UInt16
  deriving DecidableEq

/-- The loop of `getGoodHosts` (serverStartDownload.go:153-160). -/
def goodHosts (ownIP : ByteArr 4) : List HostResp → List HostResp
  | [] => []
  | r :: rest => if r.chunks.length > 0 ∧ r.addr ≠ ownIP then r :: goodHosts ownIP rest else goodHosts ownIP rest

end Flu
