import Verif.Model.Paths
/-!
# `filepath.Clean` as the Go library computes it

The functions of `Verif.Model.Paths` follow the documentation of `filepath.Clean`.  Here is its implementation on Unix (`path/filepath/path.go`, the same text as
`path.Clean`; there are no volume names): one pass over the bytes, with a buffer that is only allocated when the result stops being a prefix of the input, and
with every index checked.  It is what `filepath.Join` and `filepath.Abs` end in, which the code calls in `main.go:50-51`, `catalogue/catalogue.go:26,31,124`,
`catalogue/indexFile.go:47,83`, `catalogue/progressFile.go:88,94,104,109` and `catalogue/indexRecord.go:91`.
-/

namespace Flu

/-- `lazybuf`: `buf` is nil while what was written is a prefix of the path; `w` bytes were written. -/
structure LazyBuf where
  buf : Option Bytes
  w : Nat
  deriving DecidableEq, Repr

namespace LazyBuf

/-- `b.buf[b.w] = c; b.w++`, which panics beyond the end of the buffer. -/
def put (buf : Bytes) (w : Nat) (c : UInt8) : Res LazyBuf :=
  if w < buf.length then .ok ⟨some (buf.set w c), w + 1⟩ else .panic

/-- `lazybuf.append`. -/
def append (path : Bytes) (b : LazyBuf) (c : UInt8) : Res LazyBuf :=
  match b.buf with
  | none =>
    if path[b.w]? = some c then .ok ⟨none, b.w + 1⟩
    else put (path.take b.w ++ List.replicate (path.length - b.w) 0) b.w c
  | some buf => put buf b.w c

/-- `for ; …; r++ { out.append(path[r]) }` for the bytes of one element. -/
def appendAll (path : Bytes) : LazyBuf → Bytes → Res LazyBuf
  | b, [] => .ok b
  | b, c :: cs => (b.append path c).bind fun b' => appendAll path b' cs

/-- What `lazybuf.index` reads from. -/
def cells (path : Bytes) (b : LazyBuf) : Bytes := b.buf.getD path

/-- `lazybuf.string`. -/
def string (path : Bytes) (b : LazyBuf) : Bytes := (b.cells path).take b.w

end LazyBuf

/-- `for out.w > dotdot && !os.IsPathSeparator(out.index(out.w)) { out.w-- }`; the value of `out.w` after it. -/
def backtrack (cells : Bytes) (dd : Nat) : Nat → Res Nat
  | 0 => .ok 0
  | w + 1 =>
    if dd < w + 1 then
      match cells[w + 1]? with
      | none => .panic
      | some c => if c = slash then .ok (w + 1) else backtrack cells dd w
    else .ok (w + 1)

/-- Whether the bytes that remain start a new element or there are none: `r == n || os.IsPathSeparator(path[r])`. -/
def atEnd : Bytes → Bool
  | [] => true
  | c :: _ => c == slash

/-- The case `..` of the loop, `dd` being the variable `dotdot`: buffer and `dotdot` after it. -/
def tidyUp (path : Bytes) (rooted : Bool) (b : LazyBuf) (dd : Nat) : Res (LazyBuf × Nat) :=
  if dd < b.w then (backtrack (b.cells path) dd (b.w - 1)).bind fun w => .ok (⟨b.buf, w⟩, dd)
  else if rooted then .ok (b, dd)
  else (if 0 < b.w then b.append path slash else .ok b).bind fun b1 =>
    (b1.append path 46).bind fun b2 => (b2.append path 46).bind fun b3 => .ok (b3, b3.w)

/-- The loop of `Clean`; `rest` is `path[r:]`. -/
def tidyLoop (path : Bytes) (rooted : Bool) (rest : Bytes) (b : LazyBuf) (dd : Nat) : Res LazyBuf :=
  match rest with
  | [] => .ok b
  | c :: cs =>
    if c = slash then tidyLoop path rooted cs b dd
    else if c = 46 ∧ atEnd cs then tidyLoop path rooted cs b dd
    else if c = 46 ∧ cs.head? = some 46 ∧ atEnd (cs.drop 1) then
      (tidyUp path rooted b dd).bind fun x => tidyLoop path rooted (cs.drop 1) x.1 x.2
    else
      (if (rooted ∧ b.w ≠ 1) ∨ (rooted = false ∧ b.w ≠ 0) then b.append path slash else .ok b).bind fun b1 =>
        (b1.appendAll path (c :: cs.takeWhile (· ≠ slash))).bind fun b2 =>
          tidyLoop path rooted (cs.dropWhile (· ≠ slash)) b2 dd
termination_by rest.length
decreasing_by
  all_goals simp_wf
  all_goals first | omega | (have := (List.dropWhile_sublist (l := cs) (fun x => decide (x ≠ slash))).length_le; simp at this; omega)

/-- `Clean`. -/
def goClean (path : Bytes) : Res Bytes :=
  match path with
  | [] => .ok [46]
  | c :: cs =>
    (if c = slash then (LazyBuf.append path ⟨none, 0⟩ slash).bind fun b => tidyLoop path true cs b 1
      else tidyLoop path false path ⟨none, 0⟩ 0).bind fun b =>
        (if b.w = 0 then b.append path 46 else .ok b).bind fun b' => .ok (b'.string path)

/-- `filepath.Join`: the first non-empty element and all after it, with slashes between, cleaned. -/
def goJoin : List Bytes → Res Bytes
  | [] => .ok []
  | [] :: es => goJoin es
  | e :: es => goClean (joinSlash (e :: es))

/-- `strings.LastIndex(path, "/")` of `path.Split`: from the end backwards. -/
def lastSlash (path : Bytes) : Nat → Option Nat
  | 0 => none
  | i + 1 => if path[i]? = some slash then some i else lastSlash path i

/-- The second result of `path.Split`, `path[i+1:]`. -/
def goSplitFile (path : Bytes) : Bytes :=
  match lastSlash path path.length with
  | none => path
  | some i => path.drop (i + 1)

end Flu
