import Verif.Model.Cli
import Verif.Model.Text
import Verif.Model.DownloadLoop
import Verif.Model.Clean
/-!
# The daemon's side of the commands

The methods that `net/rpc` calls for the requests of the command line (cli/cliMethods*.go).  `net/rpc` runs each in a goroutine of its own without `recover`, so a panic in a method ends the daemon.
-/
namespace Flu

/-- What a command obtains from outside: what comes of asking the host that `list` names (serverListFilesOnHost.go:17-64), the responses to the search of `chims` (none if the broadcast socket cannot
be opened, serverDiscoverHosts.go:34-35), and what `get` obtains. -/
structure CmdWire where
  listed : Contact
  found : Option (List HostResp)
  get : DLWire

/-- What the daemon answers. -/
inductive CliReply where
  | shared (i : ListItem)
  | cleaned (is : List CleanItem)
  | files (is : List ListItem)
  | started
  | hosts (is : List ChimItem)

/-- `Methods.Share` (cliMethodsShare.go:52-65), `Methods.Clean` (cliMethodsClean.go:40-82), `Methods.List` (cliMethodsList.go:37-76), `Methods.Get` (cliMethodsGet.go:19-21) and `Methods.Chims`
(cliMethodsChims.go:53-65).  `order` is the order in which `range` visits the index.  The hash in a `list` request is sent on to the other host and not used otherwise. -/
def serveCommand (env : Env) (order : List Sha1Hash) (w : CmdWire) : CliReq → CM CliReply
  | .share path => do
    let r ← shareFile env path
    let e ← IOM.lift r.export
    return .shared (localItem e)
  | .clean => do return .cleaned (← clean env order)
  | .list ip _ => do return .files (← methodsList order ip w.listed)
  | .get h => do
    let _ ← startDownload env w.get h
    return .started
  | .chims _ =>
    match w.found with
    | none => IOM.lift .exit
    | some rs => return .hosts (rs.map chimItem)

end Flu
