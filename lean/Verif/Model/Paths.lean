import Verif.Model.Go
/-!
# Model of the lexical path functions used by the catalogue

`filepath.Clean`, `filepath.Join`, `filepath.Abs` and `path.Split` of the Go standard library on Unix, working on byte strings.
Go's `Clean` is a single pass over the bytes; here the same result is computed on the list of `/`-separated elements, following the
rules in its documentation (drop empty and `.` elements, resolve `..`, drop `..` at the root).
-/

namespace Flu

/-- The byte `/`. -/
def slash : UInt8 := 47

/-- The elements between slashes (always at least one, possibly empty). -/
def splitSlash : GoString → List GoString
  | [] => [[]]
  | c :: cs =>
    if c = slash then [] :: splitSlash cs
    else match splitSlash cs with
      | [] => [[c]]
      | w :: ws => (c :: w) :: ws

/-- The element `.`. -/
def dot : GoString := [46]
/-- The element `..`. -/
def dotdot : GoString := [46, 46]

/-- One element of `filepath.Clean`'s loop; the stack of kept elements is reversed. -/
def cleanStep (rooted : Bool) (stack : List GoString) (e : GoString) : List GoString :=
  if e = [] ∨ e = dot then stack
  else if e = dotdot then
    match stack with
    | [] => if rooted then [] else [dotdot]
    | top :: rest => if top = dotdot then dotdot :: stack else rest
  else e :: stack

/-- Elements joined with `/`. -/
def joinSlash : List GoString → GoString
  | [] => []
  | [e] => e
  | e :: es => e ++ slash :: joinSlash es

/-- Whether a path starts with `/`. -/
def isAbs (p : GoString) : Bool := p.head? == some slash

/-- Render kept elements: rooted paths get a leading `/`, an empty unrooted path is `.`. -/
def renderPath (rooted : Bool) (es : List GoString) : GoString :=
  if rooted then slash :: joinSlash es
  else if es = [] then dot else joinSlash es

/-- `filepath.Clean`. -/
def cleanPath (p : GoString) : GoString :=
  renderPath (isAbs p) ((splitSlash p).foldl (cleanStep (isAbs p)) []).reverse

/-- `filepath.Join`: drops leading empty elements, joins with `/`, cleans. -/
def joinPath (es : List GoString) : GoString :=
  match es.dropWhile (· = []) with
  | [] => []
  | es' => cleanPath (joinSlash es')

/-- `filepath.Abs` in the working directory `cwd` (which the operating system reports as an absolute path). -/
def absPath (cwd p : GoString) : GoString := if isAbs p then cleanPath p else joinPath [cwd, p]

/-- The file part of `path.Split`: what follows the last slash. -/
def splitFile (p : GoString) : GoString := (splitSlash p).getLast?.getD []

end Flu
