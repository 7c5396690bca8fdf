/-!
# Specification: a growable set of indices

Independent of the model: membership is a predicate, `size` a high-water mark.
-/
namespace Flu.Spec

/-- The ideal object a bitset stands for. -/
structure SSet where
  mem : Nat → Bool
  size : Nat

/-- Mutations of a bitset. -/
inductive BOp where
  | set (x : Nat)
  | unset (x : Nat)
  | fill
  deriving DecidableEq, Repr

namespace SSet

def empty (n : Nat) : SSet := ⟨fun _ => false, n⟩

/-- What each mutation should do. -/
def step (s : SSet) : BOp → SSet
  | .set x => ⟨fun i => decide (i = x) || s.mem i, max s.size (x + 1)⟩
  | .unset x => ⟨fun i => !decide (i = x) && s.mem i, s.size⟩
  | .fill => ⟨fun i => decide (i < s.size), s.size⟩

def run (s : SSet) (ops : List BOp) : SSet := ops.foldl step s

/-- Preconditions of the Go API: indices fit a Go `int`, and `Unset` is used only on a member or beyond the last
allocated 64-bit word (the code's `Unset` is wrong otherwise, see C02). -/
def Legal (s : SSet) : BOp → Prop
  | .set x => x < 2 ^ 63 - 1
  | .unset x => x < 2 ^ 63 ∧ (s.mem x = true ∨ (s.size + 63) / 64 ≤ x / 64)
  | .fill => True

def LegalRun (s : SSet) : List BOp → Prop
  | [] => True
  | op :: ops => s.Legal op ∧ (s.step op).LegalRun ops

/-- The members below `n`, in increasing order. -/
def elems (s : SSet) : List Nat := (List.range s.size).filter s.mem

/-- The non-members below the size, in increasing order. -/
def missing (s : SSet) : List Nat := (List.range s.size).filter (fun i => !s.mem i)

end SSet
end Flu.Spec
