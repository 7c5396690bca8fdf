import Verif.Model.Cli
import Verif.Model.Json
/-!
# Model of the start of the program

`main` (main.go:27-46): the flags, and the choice between the daemon and the client.  `flag.Parse` is the library's loop with the only flag that the program defines, `-d`
(the exit status after `-h` depends on the version of the library and is left open).
-/
namespace Flu

/-- What the process becomes. -/
inductive Started where
  | daemon                 -- startDaemon
  | client (o : CliOut)    -- cli.NewClient(sockaddr).Run(os.Args[1:])
  | help                   -- prints the usage and ends
  | usage                  -- prints an error and the usage, exit status 2
  deriving DecidableEq

/-- `strconv.ParseBool` (Go standard library). -/
def goParseBool (v : GoString) : Option Bool :=
  if v ∈ ["1", "t", "T", "true", "TRUE", "True"].map Json.ascii then some true
  else if v ∈ ["0", "f", "F", "false", "FALSE", "False"].map Json.ascii then some false
  else none

/-- The loop of `FlagSet.parseOne` (Go standard library) that looks for `=`: what is before it, and what is after it if there is one. -/
def cutEq : GoString → GoString × Option GoString
  | [] => ([], none)
  | c :: r => if c = 61 then ([], some r) else (c :: (cutEq r).1, (cutEq r).2)

/-- What `FlagSet.parseOne` says about the next argument. -/
inductive FlagOne where
  | stop             -- not a flag, or `--`: the flags end here
  | sets (b : Bool)  -- the flag `-d` is set to this value
  | help
  | bad
  deriving DecidableEq

/-- `FlagSet.parseOne` from the name of the flag on; "equals cannot be first". -/
def flagName : GoString → FlagOne
  | [] => .bad
  | c :: r =>
    if c = 45 ∨ c = 61 then .bad
    else
      let name := c :: (cutEq r).1
      if name = [100] then
        match (cutEq r).2 with
        | none => .sets true
        | some v =>
          match goParseBool v with
          | some b => .sets b
          | none => .bad
      else if name = Json.ascii "help" ∨ name = Json.ascii "h" then .help
      else .bad

/-- `FlagSet.parseOne` (Go standard library) on one argument. -/
def flagOne : GoString → FlagOne
  | a :: b :: r =>
    if a ≠ 45 then .stop
    else if b ≠ 45 then flagName (b :: r)
    else if r = [] then .stop
    else flagName r
  | _ => .stop

/-- `flag.Parse` (main.go:29): the value of `-d` after the arguments, if the process goes on. -/
def flagParse (d : Bool) : List GoString → Except Started Bool
  | [] => .ok d
  | s :: rest =>
    match flagOne s with
    | .stop => .ok d
    | .sets b => flagParse b rest
    | .help => .error .help
    | .bad => .error .usage

/-- `main` (main.go:27-46).  The client gets all arguments, flags included. -/
def mainRun (parseIP : GoString → Option Bytes) (dial : Bool) (args : List GoString) : Started :=
  match flagParse false args with
  | .error x => x
  | .ok true => .daemon
  | .ok false => .client (cliRun parseIP dial args)

end Flu
