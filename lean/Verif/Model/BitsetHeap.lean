import Verif.Model.Bitset
import Verif.Spec.Bitset
/-!
# Bitsets with their storage: slices into heap arrays

`Bitset.data` is a Go slice: a view of an array that other slices may share.  This file models the mutating methods
and `Copy` of `common/bitset/bitset.go` on an explicit heap, to state that copies do not share storage.

* An array is a list of words; its length is the capacity of the slices into it.  All slices of the bitset code start
  at element 0 of their array, so a slice is an array number and a length (the `nil` slice is a slice into an array of
  capacity 0).
* `append` writes in place when the capacity suffices and otherwise allocates an array; the growth policy of the Go
  runtime is the parameter `grow` (old capacity, needed length ↦ wanted capacity), arbitrary.
-/

namespace Flu

/-- The arrays allocated so far. -/
abbrev Heap := List (List Word)

/-- A `Bitset` struct holding a slice (bitset.go:16-19). -/
structure BPtr where
  arr : Nat
  len : Nat
  size : Int
  deriving DecidableEq, Repr

namespace BPtr

/-- The words a slice shows. -/
def view (h : Heap) (p : BPtr) : List Word := ((h[p.arr]?).getD []).take p.len

/-- The value of the bitset `p` in heap `h`. -/
def deref (h : Heap) (p : BPtr) : Bitset := { data := p.view h, size := p.size }

/-- `p.data[i]` (bounds check against the slice length). -/
def load (h : Heap) (p : BPtr) (i : Int) : Res Word := indexAt (p.view h) i

/-- `p.data[i] = v`. -/
def store (h : Heap) (p : BPtr) (i : Int) (v : Word) : Res Heap :=
  if i < 0 then .panic else
  if i.toNat < p.len then .ok (h.set p.arr (((h[p.arr]?).getD []).set i.toNat v)) else .panic

/-- `append(p.data, make([]uint64, n)...)` (bitset.go:71). -/
def appendZeros (grow : Nat → Nat → Nat) (h : Heap) (p : BPtr) (n : Nat) : Heap × BPtr :=
  let a := (h[p.arr]?).getD []
  if p.len + n ≤ a.length then
    (h.set p.arr (a.take p.len ++ List.replicate n 0#64 ++ a.drop (p.len + n)), { p with len := p.len + n })
  else
    let new := a.take p.len ++ List.replicate n 0#64
    (h ++ [new ++ List.replicate (grow a.length (p.len + n) - (p.len + n)) 0#64],
      { p with arr := h.length, len := p.len + n })

/-- `Set` (bitset.go:67-76) on the heap. -/
def set (grow : Nat → Nat → Nat) (h : Heap) (p : BPtr) (x : BitVec 64) : Res (Heap × BPtr) := do
  let offset := x.toInt.tdiv Bitset.wordSize
  let len : Int := p.len
  let (h, p) := if offset > len - 1 then appendZeros grow h p (offset - (len - 1)).toNat else (h, p)
  let w ← p.load h (x.toNat / Bitset.wordSize : Nat)
  let h ← p.store h (x.toNat / Bitset.wordSize : Nat) (w ||| Bitset.bitMask x)
  return (h, { p with size := max p.size (x + 1#64).toInt })

/-- `Unset` (bitset.go:113-120) on the heap. -/
def unset (h : Heap) (p : BPtr) (x : BitVec 64) : Res (Heap × BPtr) := do
  let offset := x.toInt.tdiv Bitset.wordSize
  if offset ≥ p.len then return (h, p)
  else
    let w ← p.load h offset
    let h ← p.store h offset (w - Bitset.bitMask x)
    return (h, p)

/-- `Fill` (bitset.go:79-92) on the heap. -/
def fill (h : Heap) (p : BPtr) : Res (Heap × BPtr) := do
  if p.size = 0 then return (h, p)
  else
    let maxOffset := (p.size - 1).tdiv Bitset.wordSize
    let h ← (List.range maxOffset.toNat).foldlM (fun h (i : Nat) => p.store h i (BitVec.allOnes 64)) h
    let lastIndex := (p.size - 1).tmod Bitset.wordSize
    if lastIndex < 0 then .panic
    else
      let h ← p.store h maxOffset (Bitset.lastMask lastIndex.toNat)
      return (h, p)

/-- `Copy` (bitset.go:276-280): a new array of the same capacity, the words copied, the rest zero. -/
def copy (h : Heap) (p : BPtr) : Heap × BPtr :=
  (h ++ [p.view h ++ List.replicate (((h[p.arr]?).getD []).length - (p.view h).length) 0#64],
    { arr := h.length, len := (p.view h).length, size := p.size })

end BPtr

/-- A program step over several bitset variables: mutate variable `i`, or append a copy of variable `i`. -/
inductive HOp where
  | call (i : Nat) (op : Spec.BOp)
  | copy (i : Nat)
  deriving DecidableEq, Repr

/-- One call of a mutating method on the heap. -/
def BPtr.applyOp (grow : Nat → Nat → Nat) (h : Heap) (p : BPtr) : Spec.BOp → Res (Heap × BPtr)
  | .set x => p.set grow h (BitVec.ofNat 64 x)
  | .unset x => p.unset h (BitVec.ofNat 64 x)
  | .fill => p.fill h

/-- One step of a program over bitset variables (steps naming a variable that does not exist do nothing). -/
def heapStep (grow : Nat → Nat → Nat) (st : Heap × List BPtr) : HOp → Res (Heap × List BPtr)
  | .call i op =>
    match st.2[i]? with
    | none => .ok st
    | some p => do
      let (h, p') ← p.applyOp grow st.1 op
      return (h, st.2.set i p')
  | .copy i =>
    match st.2[i]? with
    | none => .ok st
    | some p =>
      let (h, q) := p.copy st.1
      .ok (h, st.2 ++ [q])

end Flu
