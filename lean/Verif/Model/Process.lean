import Verif.Model.Commands
import Verif.Model.Flags
/-!
# A command as a process

The client process from its arguments to what is on the screen and its exit status (main.go:27-46, cli/cliClient.go:28-157), with the daemon answering.  An error of the call, of the method or of the
connection, is printed and the process ends as after success (cliClient.go:128-135); a Go panic and `os.Exit(2)` give status 2.  The texts of errors are not modelled.
-/
namespace Flu
open Json (ascii)

/-- What the process leaves on the screen. -/
inductive Screen where
  | own                  -- a message of the client itself
  | trace                -- the trace of a Go panic
  | error                -- the error of the call
  | answer (t : Bytes)   -- the answer
  deriving DecidableEq

/-- How the process ends. -/
structure CmdEnd where
  shown : Screen
  status : Nat
  deriving DecidableEq

/-- `res.Sprintf()` for the five kinds of answers (cliMethodsShare.go:28, cliMethodsClean.go:30, cliMethodsList.go:25, cliMethodsGet.go:14, cliMethodsChims.go:43); `why` is the text of the error for
each item of `clean`. -/
def CliReply.text (why : CleanItem → Bytes) : CliReply → Res Bytes
  | .shared i => i.text
  | .cleaned is => .ok (cleanText (is.map (fun i => (i, why i))))
  | .files is => listText is
  | .started => .ok (ascii "Flu transfer initiated\n")
  | .hosts is => chimsText is

/-- `callClientMethodAndPrintResponse` (cliClient.go:128-135) with the answer of the daemon: an error of the method, or the end of the connection with the daemon, is printed. -/
def showAnswer (why : CleanItem → Bytes) : Res CliReply → CmdEnd
  | .ok rep =>
    match rep.text why with
    | .ok t => ⟨.answer t, 0⟩
    | _ => ⟨.trace, 2⟩
  | _ => ⟨.error, 0⟩

/-- The process with these arguments while a daemon runs: how it ends, if it is not a daemon itself, and the daemon afterwards, if it still runs. -/
def runCommand (env : Env) (order : List Sha1Hash) (w : CmdWire) (parseIP : GoString → Option Bytes) (why : CleanItem → Bytes) (helpStatus : Nat) (args : List GoString) (s : St) :
    Option CmdEnd × Option St :=
  match mainRun parseIP true args with
  | .daemon => (none, some s)
  | .help => (some ⟨.own, helpStatus⟩, some s)
  | .usage => (some ⟨.own, 2⟩, some s)
  | .client .message => (some ⟨.own, 0⟩, some s)
  | .client .exit2 => (some ⟨.own, 2⟩, some s)
  | .client .panic => (some ⟨.trace, 2⟩, some s)
  | .client (.call r) =>
    let x := serveCommand env order w r s
    (some (showAnswer why x.1), if x.1.returns then some x.2 else none)

end Flu
