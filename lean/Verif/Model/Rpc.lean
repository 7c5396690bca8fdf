import Verif.Model.Commands
/-!
# Requests of other programs

The daemon's socket (main.go:68-82) is open to every program of the user.  `net/rpc` decodes what it is sent with gob, where a pointer that is nil is left out and remains nil at the other end: the
hash of a request can be missing.  The command line always sends one.
-/
namespace Flu

/-- A request as `net/rpc` delivers it: `ShareRequest` (cliMethodsShare.go:12-14), `CleanRequest` (cliMethodsClean.go:9), `ListRequest` (cliMethodsList.go:12-15), `GetRequest` (cliMethodsGet.go:6-8) and
`ChimRequest` (cliMethodsChims.go:13-16). -/
inductive RpcReq where
  | share (path : GoString)
  | clean
  | list (ip : Option Bytes) (h : Option Sha1Hash)
  | get (h : Option Sha1Hash)
  | chims (h : Option Sha1Hash)
  deriving DecidableEq

/-- The request of the command line. -/
def CliReq.raw : CliReq → RpcReq
  | .share p => .share p
  | .clean => .clean
  | .list ip h => .list ip (some h)
  | .get h => .get (some h)
  | .chims h => .chims (some h)

/-- The five methods on any request.  `List` without an address does not use the hash (cliMethodsList.go:38-52); with one, the hash is read when the request to the other host is written, once there is
a socket for it (serverListFilesOnHost.go:24-40, msgListFiles.go:28; simplified: `SetReadDeadline` on a new socket succeeds).  `Get` reads the hash in `Contains` (serverStartDownload.go:16,
catalogue.go:252) and `Chims` in `DiscoverHosts` (serverDiscoverHosts.go:20), in both before anything else is done. -/
def serveRpc (env : Env) (order : List Sha1Hash) (w : CmdWire) : RpcReq → CM CliReply
  | .share p => serveCommand env order w (.share p)
  | .clean => serveCommand env order w .clean
  | .list none h => serveCommand env order w (.list none (h.getD Sha1Hash.blank))
  | .list (some ip) (some h) => serveCommand env order w (.list (some ip) h)
  | .list (some ip) none => do
    let _ ← IOM.lift (listAddress ip)
    match w.listed with
    | .noSocket => IOM.lift .exit
    | _ => IOM.lift .panic
  | .get (some h) => serveCommand env order w (.get h)
  | .get none => IOM.lift .panic
  | .chims (some h) => serveCommand env order w (.chims h)
  | .chims none => IOM.lift .panic

end Flu
