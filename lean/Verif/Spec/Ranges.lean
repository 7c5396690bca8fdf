/-!
# Specification: run decompositions

What it means for a list of inclusive ranges to describe a set of indices exactly.  Independent of the model.
-/
namespace Flu.Spec

/-- The indices covered by a list of inclusive ranges, in order. -/
def covered : List (Nat × Nat) → List Nat
  | [] => []
  | (s, e) :: rest => List.range' s (e + 1 - s) ++ covered rest

/-- `rs` is the decomposition into maximal runs of the indices `i` with `lo ≤ i < hi` and `P i`:
every range is non-empty, ranges are in increasing order with at least one index missing between consecutive
ranges, and together they cover exactly those indices. -/
structure IsRuns (rs : List (Nat × Nat)) (P : Nat → Bool) (lo hi : Nat) : Prop where
  nonempty : ∀ r ∈ rs, r.1 ≤ r.2
  separated : rs.Pairwise (fun a b => a.2 + 1 < b.1)
  exact : covered rs = (List.range' lo (hi - lo)).filter P

/-- Two lists of equal length related element by element. -/
inductive All2 (R : α → β → Prop) : List α → List β → Prop where
  | nil : All2 R [] []
  | cons {a b as bs} : R a b → All2 R as bs → All2 R (a :: as) (b :: bs)

/-- Read a flat list `[s0, e0, s1, e1, …]` as ranges; `none` if its length is odd. -/
def pairUp : List UInt16 → Option (List (Nat × Nat))
  | [] => some []
  | [_] => none
  | s :: e :: rest => (pairUp rest).map ((s.toNat, e.toNat) :: ·)

end Flu.Spec
