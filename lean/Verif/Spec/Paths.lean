import Verif.Model.Go
/-!
# Different spellings of a place in the directory tree

Absolute Unix paths, without links: which strings name the same place, given as rewriting rules on the strings.
-/
namespace Flu.Spec

/-- A name that stands for itself: not empty, not `.`, not `..`, and without a slash. -/
def IsName (e : GoString) : Prop := e ≠ [] ∧ e ≠ [46] ∧ e ≠ [46, 46] ∧ 47 ∉ e

/-- The beginning of an absolute path: nothing, or something that starts with a slash. -/
def Begins (a : GoString) : Prop := a = [] ∨ ∃ b, a = 47 :: b

/-- Two spellings of the same place. -/
inductive SamePlace : GoString → GoString → Prop where
  | refl (p : GoString) : SamePlace p p
  | symm {p q : GoString} (h : SamePlace p q) : SamePlace q p
  | trans {p q r : GoString} (h1 : SamePlace p q) (h2 : SamePlace q r) : SamePlace p r
  /-- `a//b` is `a/b`. -/
  | slashes (a b : GoString) (ha : Begins a) : SamePlace (a ++ [47, 47] ++ b) (a ++ [47] ++ b)
  /-- `a/` is `a`, except for `/`. -/
  | trailing (a : GoString) (ha : Begins a) (hn : a ≠ []) : SamePlace (a ++ [47]) a
  /-- `a/./b` is `a/b`. -/
  | dot (a b : GoString) (ha : Begins a) : SamePlace (a ++ [47, 46, 47] ++ b) (a ++ [47] ++ b)
  /-- `a/name/../b` is `a/b`. -/
  | up (a e b : GoString) (ha : Begins a) (he : IsName e) : SamePlace (a ++ [47] ++ e ++ [47, 46, 46, 47] ++ b) (a ++ [47] ++ b)
  /-- `/../b` is `/b`. -/
  | root (b : GoString) : SamePlace ([47, 46, 46, 47] ++ b) ([47] ++ b)

/-- The path from the root that `p` names for a process in the directory `cwd`. -/
def fullPath (cwd p : GoString) : GoString := if p.head? = some 47 then p else cwd ++ [47] ++ p

end Flu.Spec
