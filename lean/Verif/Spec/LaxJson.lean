import Verif.Spec.JsonText
/-!
# Specification: JSON texts with damaged characters

Like `Spec/JsonText`, but strings may contain bytes that are not UTF-8 and surrogates without their other half; both stand for U+FFFD.  Everything else is the grammar of
RFC 8259.
-/
namespace Flu.Spec
open Flu.Json (JVal)

/-- The text between the quotes, and the string it stands for. -/
inductive LaxStr : Bytes → Bytes → Prop
  | nil : LaxStr [] []
  | char (c : Nat) {r s : Bytes} (hc : Scalar c) (h32 : 32 ≤ c) (hq : c ≠ 34) (hb : c ≠ 92) (h : LaxStr r s) : LaxStr (utf8 c ++ r) (utf8 c ++ s)
  | short (e v : UInt8) {r s : Bytes} (he : (e, v) ∈ shortEscapes) (h : LaxStr r s) : LaxStr (92 :: e :: r) (v :: s)
  | hex (x : Bytes) (u : Nat) {r s : Bytes} (hx : Hex4 x u) (hu : Scalar u) (h : LaxStr r s) : LaxStr (92 :: 117 :: (x ++ r)) (utf8 u ++ s)
  | pair (x y : Bytes) (hi lo : Nat) {r s : Bytes} (hx : Hex4 x (0xD800 + hi)) (hhi : hi < 1024) (hy : Hex4 y (0xDC00 + lo)) (hlo : lo < 1024) (h : LaxStr r s) :
      LaxStr (92 :: 117 :: (x ++ 92 :: 117 :: (y ++ r))) (utf8 (0x10000 + hi * 1024 + lo) ++ s)
  /-- A byte with which no character begins here. -/
  | bad (c : UInt8) {r s : Bytes} (hc : 128 ≤ c) (hn : ∀ x t, Scalar x → c :: r ≠ utf8 x ++ t) (h : LaxStr r s) : LaxStr (c :: r) (utf8 0xFFFD ++ s)
  /-- A surrogate that is not the first one of a pair. -/
  | lone (x : Bytes) (u : Nat) {r s : Bytes} (hx : Hex4 x u) (hu : 0xD800 ≤ u ∧ u < 0xE000)
      (hn : u < 0xDC00 → ∀ y v t, Hex4 y v → 0xDC00 ≤ v → v < 0xE000 → r ≠ 92 :: 117 :: (y ++ t)) (h : LaxStr r s) :
      LaxStr (92 :: 117 :: (x ++ r)) (utf8 0xFFFD ++ s)

/-- A value that is neither an array nor an object. -/
inductive LaxAtom : Bytes → JVal → Prop
  | null : LaxAtom [110, 117, 108, 108] .null
  | true : LaxAtom [116, 114, 117, 101] (.bool true)
  | false : LaxAtom [102, 97, 108, 115, 101] (.bool false)
  | num {b : Bytes} (h : NumText b) : LaxAtom b (.num b)
  | str {raw s : Bytes} (h : LaxStr raw s) : LaxAtom (34 :: (raw ++ [34])) (.str s)

/-- The members of an object, with white space around names and values. -/
inductive LaxMembers (V : Bytes → JVal → Prop) : Bytes → List (Bytes × JVal) → Prop
  | one {w raw k w1 w2 b w3 : Bytes} {v : JVal} (hw : JWs w) (hk : LaxStr raw k) (hw1 : JWs w1) (hw2 : JWs w2) (hv : V b v) (hw3 : JWs w3) :
      LaxMembers V (w ++ 34 :: (raw ++ 34 :: (w1 ++ 58 :: (w2 ++ (b ++ w3))))) [(k, v)]
  | more {w raw k w1 w2 b w3 rest : Bytes} {v : JVal} {l : List (Bytes × JVal)} (hw : JWs w) (hk : LaxStr raw k) (hw1 : JWs w1) (hw2 : JWs w2) (hv : V b v) (hw3 : JWs w3)
      (h : LaxMembers V rest l) : LaxMembers V (w ++ 34 :: (raw ++ 34 :: (w1 ++ 58 :: (w2 ++ (b ++ (w3 ++ 44 :: rest)))))) ((k, v) :: l)

/-- A value whose arrays and objects are nested at most `n` deep. -/
def LaxVal : Nat → Bytes → JVal → Prop
  | 0, b, v => LaxAtom b v
  | n + 1, b, v =>
    LaxAtom b v ∨ (∃ w, JWs w ∧ b = 91 :: (w ++ [93]) ∧ v = .arr []) ∨ (∃ body l, ElemsText (LaxVal n) body l ∧ b = 91 :: (body ++ [93]) ∧ v = .arr l) ∨
      (∃ w, JWs w ∧ b = 123 :: (w ++ [125]) ∧ v = .obj []) ∨ ∃ body l, LaxMembers (LaxVal n) body l ∧ b = 123 :: (body ++ [125]) ∧ v = .obj l

/-- A value with white space around it, and nothing else, nested not more than 10000 deep. -/
def LaxText (b : Bytes) (v : JVal) : Prop := ∃ w b' w', JWs w ∧ LaxVal 10000 b' v ∧ JWs w' ∧ b = w ++ (b' ++ w')

/-- An integer of any size, or `null`. -/
def WideInt (v : JVal) (x y : Int) : Prop := (v = .null ∧ y = x) ∨ ∃ b, IntText b y ∧ v = .num b

/-- Like `IsRecord`, with integers of any size. -/
def WideRecord (r : RecordJSON) (v : JVal) : Prop :=
  (v = .null ∧ r = ⟨[], 0, [], 0⟩) ∨
  ∃ l, v = .obj l ∧ Member "FilePath" IsStr l [] r.filePath ∧ Member "SizeInBytes" WideInt l 0 r.sizeInBytes ∧ Member "Sha1Hash" IsStr l [] r.sha1Hash ∧
    Member "ChunkSize" WideInt l 0 r.chunkSize

/-- Like `AreEntries`, with integers of any size. -/
inductive WideEntries : List (Bytes × RecordJSON) → List (Bytes × JVal) → Prop
  | nil : WideEntries [] []
  | cons {k : Bytes} {r : RecordJSON} {v : JVal} {es : List (Bytes × RecordJSON)} {l : List (Bytes × JVal)} (h : WideRecord r v) (hs : WideEntries es l) :
      WideEntries ((k, r) :: es) ((k, v) :: l)

/-- Like `IsMap`, with integers of any size. -/
def WideMap (v : JVal) (x y : List (Bytes × RecordJSON)) : Prop := (v = .null ∧ y = []) ∨ ∃ m es, v = .obj m ∧ WideEntries es m ∧ y = x ++ es

/-- Like `IsIndex`, with integers of any size. -/
def WideIndex (pid lastTouched : Int) (dataDir : Bytes) (es : List (Bytes × RecordJSON)) (v : JVal) : Prop :=
  (v = .null ∧ pid = 0 ∧ lastTouched = 0 ∧ dataDir = [] ∧ es = []) ∨
  ∃ l, v = .obj l ∧ Member "Pid" WideInt l 0 pid ∧ Member "LastTouched" WideInt l 0 lastTouched ∧ Member "Index" WideMap l [] es ∧ Member "DataDir" IsStr l [] dataDir

end Flu.Spec
