import Verif.Model.Go
/-!
# Model of `common/bitset/bitset.go`

Words are `BitVec 64` (Go `uint64`), `size` is a Go `int` (an `Int`; 64-bit platform).  `uint64` arguments are
`BitVec 64`; `int(x)` is two's complement reinterpretation (`toInt`), Go integer division/remainder truncate
(`Int.tdiv`/`Int.tmod`).  Simplification: memory is unbounded (`make`/`append` never fail).
-/

namespace Flu

abbrev Word := BitVec 64

/-- `type Bitset struct` (bitset.go:16-19). -/
structure Bitset where
  data : List Word
  size : Int
  deriving DecidableEq, Repr

/-- `type Range struct` (common/range.go:4-7). -/
structure Range where
  start : UInt16
  stop : UInt16
  deriving DecidableEq, Repr

namespace Bitset

/-- `const wordSize = 64` (bitset.go:12). -/
def wordSize : Nat := 64

/-- `1 << (x % wordSize)` as a `uint64` (bitset.go:62, 73, 118). -/
def bitMask (x : BitVec 64) : Word := 1#64 <<< (x.toNat % wordSize)

/-- `Get` (bitset.go:58-63). -/
def get (b : Bitset) (x : BitVec 64) : Res Bool :=
  if x.toInt.tdiv wordSize ≥ b.data.length then .ok false
  else do
    let w ← indexAt b.data (x.toNat / wordSize : Nat)
    return (w &&& bitMask x) != 0#64

/-- `Set` (bitset.go:67-76).  `append(b.data, make([]uint64, diff)...)` appends `diff` zero words. -/
def set (b : Bitset) (x : BitVec 64) : Res Bitset := do
  let offset := x.toInt.tdiv wordSize
  let len : Int := b.data.length
  let data := if offset > len - 1 then b.data ++ List.replicate (offset - (len - 1)).toNat 0#64 else b.data
  let w ← indexAt data (x.toNat / wordSize : Nat)
  let data ← storeAt data (x.toNat / wordSize : Nat) (w ||| bitMask x)
  return { data := data, size := max b.size (x + 1#64).toInt }

/-- `Unset` (bitset.go:113-120): a subtraction, not a mask. -/
def unset (b : Bitset) (x : BitVec 64) : Res Bitset := do
  let offset := x.toInt.tdiv wordSize
  if offset ≥ b.data.length then return b
  else
    let w ← indexAt b.data offset
    let data ← storeAt b.data offset (w - bitMask x)
    return { b with data := data }

/-- `NewBitset` (bitset.go:23-36). -/
def newBitset (size : Int) : Res Bitset := do
  if size < 0 then .panic
  else
    let result : Bitset := { data := [], size := size }
    if size > 0 then
      let maxIndex := BitVec.ofInt 64 (size - 1)
      let r ← result.set maxIndex
      r.unset maxIndex
    else return result

/-- `Size` (bitset.go:40-42). -/
def sizeOf (b : Bitset) : Int := b.size

/-- The inner loop of `Count` on one word (bitset.go:48-51). -/
def countWord (unit : Word) : Nat :=
  if _h : unit.toNat > 0 then (unit &&& 1#64).toNat + countWord (unit >>> 1) else 0
termination_by unit.toNat
decreasing_by simp [BitVec.toNat_ushiftRight, Nat.shiftRight_eq_div_pow]; omega

/-- `Count` (bitset.go:45-54).  Simplification: the `uint64` accumulator does not wrap (that needs 2^58 words). -/
def count (b : Bitset) : Nat := b.data.foldl (fun acc u => acc + countWord u) 0

/-- The last-word value `(((1 << lastIndex) - 1) << 1) | 1` (bitset.go:90, 108). -/
def lastMask (lastIndex : Nat) : Word := (((1#64 <<< lastIndex) - 1#64) <<< 1) ||| 1#64

/-- `Fill` (bitset.go:79-92).  A negative shift count panics. -/
def fill (b : Bitset) : Res Bitset := do
  if b.size = 0 then return b
  else
    let maxOffset := (b.size - 1).tdiv wordSize
    let data ← (List.range maxOffset.toNat).foldlM (fun d (i : Nat) => storeAt d i (BitVec.allOnes 64)) b.data
    let lastIndex := (b.size - 1).tmod wordSize
    if lastIndex < 0 then .panic
    else
      let data ← storeAt data maxOffset (lastMask lastIndex.toNat)
      return { b with data := data }

/-- The loop of `Full` (bitset.go:101-105): `some false` once a word differs. -/
def fullLoop (data : List Word) : List Nat → Res Bool
  | [] => .ok true
  | i :: rest => do
    let w ← indexAt data (i : Int)
    if w != BitVec.allOnes 64 then return false else fullLoop data rest

/-- `Full` (bitset.go:95-109). -/
def full (b : Bitset) : Res Bool := do
  if b.size = 0 then return true
  else
    let maxOffset := (b.size - 1).tdiv wordSize
    let pre ← fullLoop b.data (List.range maxOffset.toNat)
    if !pre then return false
    else
      let lastIndex := (b.size - 1).tmod wordSize
      let w ← indexAt b.data maxOffset
      if lastIndex < 0 then .panic
      else return w == lastMask lastIndex.toNat

/-- `shorterFirst` (bitset.go:286-291). -/
def shorterFirst (a b : Bitset) : Bitset × Bitset :=
  if a.data.length < b.data.length then (a, b) else (b, a)

/-- `b.Union(a)` (bitset.go:123-136).  The result's `size` field is left at 0. -/
def union (b a : Bitset) : Bitset :=
  let (shorter, longer) := shorterFirst a b
  { data := List.zipWith (· ||| ·) shorter.data longer.data ++ longer.data.drop shorter.data.length, size := 0 }

/-- `b.Intersect(a)` (bitset.go:139-148).  The result's `size` field is left at 0. -/
def intersect (b a : Bitset) : Bitset :=
  let (shorter, longer) := shorterFirst a b
  { data := List.zipWith (· &&& ·) shorter.data longer.data, size := 0 }

/-- `uint16(i)` for an `int` `i`: the low 16 bits. -/
def u16 (i : Int) : UInt16 := UInt16.ofInt i

/-- Loop state of the range scans: `result`, `rStart`, `rEnd`. -/
structure Scan (α : Type) where
  result : List α
  rStart : Int
  rEnd : Int

/-- One iteration of the scan loops (bitset.go:171-180 with `sense = true`; 193-202 with `sense = false`).
`emit` appends one range to the result. -/
def scanStep (b : Bitset) (sense : Bool) (emit : Int → Int → List α) (s : Scan α) (i : Nat) : Res (Scan α) := do
  let g ← b.get (BitVec.ofNat 64 i)
  if g == sense then return { s with rEnd := i }
  else
    let r := if s.rEnd ≥ s.rStart then s.result ++ emit s.rStart s.rEnd else s.result
    return { s with result := r, rStart := i + 1 }

/-- The code after the loops (bitset.go:181-184, 203-206). -/
def scanFinish (emit : Int → Int → List α) (s : Scan α) : List α :=
  if s.rEnd ≥ s.rStart then s.result ++ emit s.rStart s.rEnd else s.result

/-- `append(result, uint16(rStart), uint16(rEnd))` (bitset.go:176, 182). -/
def emitFlat (s e : Int) : List UInt16 := [u16 s, u16 e]

/-- `append(result, common.NewRange(uint16(rStart), uint16(rEnd)))` (bitset.go:198, 204). -/
def emitRange (s e : Int) : List Range := [⟨u16 s, u16 e⟩]

/-- `filledRanges(start, end)` (bitset.go:168-185): `i` runs over `start … end` inclusive.
`start` is never negative in any caller; `end` may be (a negative size), then the loop is empty. -/
def filledRanges (b : Bitset) (start : Nat) (stop : Int) : Res (List UInt16) := do
  let s ← (List.range' start (stop + 1 - start).toNat).foldlM (scanStep b true emitFlat)
    { result := [], rStart := start, rEnd := start - 1 }
  return scanFinish emitFlat s

/-- `Ranges` (bitset.go:164-166): note the inclusive upper bound `b.size`. -/
def ranges (b : Bitset) : Res (List UInt16) := b.filledRanges 0 b.size

/-- `Overlap` (bitset.go:153-160): reads the query two at a time; `ranges[i+1]` panics on an odd length. -/
def overlap (b : Bitset) : List UInt16 → Res (List UInt16)
  | [] => .ok []
  | [_] => .panic
  | s :: e :: rest => do
    let r ← b.filledRanges s.toNat e.toNat
    let rs ← overlap b rest
    return r ++ rs

/-- `UnfilledRanges` (bitset.go:189-207): `i` runs over `0 … size-1`. -/
def unfilledRanges (b : Bitset) : Res (List Range) := do
  let s ← (List.range' 0 b.size.toNat).foldlM (scanStep b false emitRange)
    { result := [], rStart := 0, rEnd := -1 }
  return scanFinish emitRange s

/-- One iteration of `UnfilledItems` (bitset.go:215-219); once the capacity is reached the loop is over, which
is the same as every further iteration doing nothing. -/
def itemsStep (b : Bitset) (cap : Nat) (result : List UInt16) (i : Nat) : Res (List UInt16) := do
  if result.length < cap then
    let g ← b.get (BitVec.ofNat 64 i)
    if !g then return result ++ [UInt16.ofNat i] else return result
  else return result

/-- `UnfilledItems(count)` (bitset.go:212-222).  `make` panics on a negative capacity. -/
def unfilledItems (b : Bitset) (count : Int) : Res (List UInt16) :=
  if count < 0 then .panic
  else (List.range (BitVec.ofInt 64 b.size).toNat).foldlM (itemsStep b count.toNat) []

/-- `Serialize` (bitset.go:241-253). -/
def serialize (b : Bitset) : Bytes :=
  beBytes 8 (BitVec.ofInt 64 b.size).toNat ++ b.data.flatMap (fun w => beBytes 8 w.toNat)

/-- The word loop of `Deserialize` (bitset.go:263-267): consecutive groups of eight bytes. -/
def wordsOf : Bytes → List Word
  | a :: b :: c :: d :: e :: f :: g :: h :: rest => BitVec.ofNat 64 (beNat [a, b, c, d, e, f, g, h]) :: wordsOf rest
  | _ => []

/-- `Deserialize` (bitset.go:256-273).  `data[8:]` panics when the slice has fewer than eight bytes (whatever its
capacity). -/
def deserialize (data : Bytes) : Res Bitset :=
  if data.length < 8 then .panic
  else
    let size := (BitVec.ofNat 64 (beNat (data.take 8))).toInt
    if (data.drop 8).length % 8 ≠ 0 then .err (.payloadNotMultiple (data.drop 8).length)
    else .ok { data := wordsOf (data.drop 8), size := size }

end Bitset
end Flu
