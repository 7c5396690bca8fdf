import Verif.Model.Json
import Verif.Spec.Utf8
/-!
# Specification: JSON texts

The grammar of RFC 8259, independent of the decoder: which byte strings are texts of which values (`JVal` is only the type of JSON values), and which JSON values describe
which index.
-/
namespace Flu.Spec
open Flu.Json (JVal)

/-- White space (RFC 8259, section 2). -/
def JWs (w : Bytes) : Prop := ∀ c ∈ w, c = 32 ∨ c = 9 ∨ c = 10 ∨ c = 13

/-- A hexadecimal digit and its value. -/
inductive HexDigit : UInt8 → Nat → Prop
  | dec (n : Nat) (h : n < 10) : HexDigit (UInt8.ofNat (48 + n)) n
  | low (n : Nat) (h : n < 6) : HexDigit (UInt8.ofNat (97 + n)) (10 + n)
  | up (n : Nat) (h : n < 6) : HexDigit (UInt8.ofNat (65 + n)) (10 + n)

/-- Four hexadecimal digits and their value. -/
inductive Hex4 : Bytes → Nat → Prop
  | mk {a b c d : UInt8} {x y z w : Nat} (ha : HexDigit a x) (hb : HexDigit b y) (hc : HexDigit c z) (hd : HexDigit d w) :
      Hex4 [a, b, c, d] (((x * 16 + y) * 16 + z) * 16 + w)

/-- The escapes of two characters: the second one, and what it stands for. -/
def shortEscapes : List (UInt8 × UInt8) := [(34, 34), (92, 92), (47, 47), (98, 8), (102, 12), (110, 10), (114, 13), (116, 9)]

/-- The text between the quotes, and the string it stands for (section 7). -/
inductive StrText : Bytes → Bytes → Prop
  | nil : StrText [] []
  | char (c : Nat) {r s : Bytes} (hc : Scalar c) (h32 : 32 ≤ c) (hq : c ≠ 34) (hb : c ≠ 92) (h : StrText r s) : StrText (utf8 c ++ r) (utf8 c ++ s)
  | short (e v : UInt8) {r s : Bytes} (he : (e, v) ∈ shortEscapes) (h : StrText r s) : StrText (92 :: e :: r) (v :: s)
  | hex (x : Bytes) (u : Nat) {r s : Bytes} (hx : Hex4 x u) (hu : Scalar u) (h : StrText r s) : StrText (92 :: 117 :: (x ++ r)) (utf8 u ++ s)
  | pair (x y : Bytes) (hi lo : Nat) {r s : Bytes} (hx : Hex4 x (0xD800 + hi)) (hhi : hi < 1024) (hy : Hex4 y (0xDC00 + lo)) (hlo : lo < 1024) (h : StrText r s) :
      StrText (92 :: 117 :: (x ++ 92 :: 117 :: (y ++ r))) (utf8 (0x10000 + hi * 1024 + lo) ++ s)

/-- Decimal digits and their value. -/
inductive DecText : Bytes → Nat → Prop
  | one (n : Nat) (h : n < 10) : DecText [UInt8.ofNat (48 + n)] n
  | more (n : Nat) (h : n < 10) {b : Bytes} {m : Nat} (hb : DecText b m) : DecText (b ++ [UInt8.ofNat (48 + n)]) (m * 10 + n)

/-- A number (section 6). -/
def NumText (b : Bytes) : Prop :=
  ∃ sign int frac exp, b = sign ++ (int ++ (frac ++ exp)) ∧ (sign = [] ∨ sign = [45]) ∧ (∃ n, DecText int n) ∧ (int = [48] ∨ int.head? ≠ some 48) ∧
    (frac = [] ∨ ∃ ds n, DecText ds n ∧ frac = 46 :: ds) ∧
    (exp = [] ∨ ∃ e sg ds n, (e = 101 ∨ e = 69) ∧ (sg = [] ∨ sg = [43] ∨ sg = [45]) ∧ DecText ds n ∧ exp = e :: (sg ++ ds))

/-- A number without fraction and exponent, and its value. -/
def IntText (b : Bytes) (i : Int) : Prop := NumText b ∧ ∃ ds n, DecText ds n ∧ ((b = ds ∧ i = n) ∨ (b = 45 :: ds ∧ i = -(n : Int)))

/-- A value that is neither an array nor an object. -/
inductive AtomText : Bytes → JVal → Prop
  | null : AtomText [110, 117, 108, 108] .null
  | true : AtomText [116, 114, 117, 101] (.bool true)
  | false : AtomText [102, 97, 108, 115, 101] (.bool false)
  | num {b : Bytes} (h : NumText b) : AtomText b (.num b)
  | str {raw s : Bytes} (h : StrText raw s) : AtomText (34 :: (raw ++ [34])) (.str s)

/-- The elements of an array, with white space around them. -/
inductive ElemsText (V : Bytes → JVal → Prop) : Bytes → List JVal → Prop
  | one {w b w' : Bytes} {v : JVal} (hw : JWs w) (hv : V b v) (hw' : JWs w') : ElemsText V (w ++ (b ++ w')) [v]
  | more {w b w' rest : Bytes} {v : JVal} {l : List JVal} (hw : JWs w) (hv : V b v) (hw' : JWs w') (h : ElemsText V rest l) :
      ElemsText V (w ++ (b ++ (w' ++ 44 :: rest))) (v :: l)

/-- The members of an object, with white space around names and values. -/
inductive MembersText (V : Bytes → JVal → Prop) : Bytes → List (Bytes × JVal) → Prop
  | one {w raw k w1 w2 b w3 : Bytes} {v : JVal} (hw : JWs w) (hk : StrText raw k) (hw1 : JWs w1) (hw2 : JWs w2) (hv : V b v) (hw3 : JWs w3) :
      MembersText V (w ++ 34 :: (raw ++ 34 :: (w1 ++ 58 :: (w2 ++ (b ++ w3))))) [(k, v)]
  | more {w raw k w1 w2 b w3 rest : Bytes} {v : JVal} {l : List (Bytes × JVal)} (hw : JWs w) (hk : StrText raw k) (hw1 : JWs w1) (hw2 : JWs w2) (hv : V b v) (hw3 : JWs w3)
      (h : MembersText V rest l) : MembersText V (w ++ 34 :: (raw ++ 34 :: (w1 ++ 58 :: (w2 ++ (b ++ (w3 ++ 44 :: rest)))))) ((k, v) :: l)

/-- A value whose arrays and objects are nested at most `n` deep. -/
def ValText : Nat → Bytes → JVal → Prop
  | 0, b, v => AtomText b v
  | n + 1, b, v =>
    AtomText b v ∨ (∃ w, JWs w ∧ b = 91 :: (w ++ [93]) ∧ v = .arr []) ∨ (∃ body l, ElemsText (ValText n) body l ∧ b = 91 :: (body ++ [93]) ∧ v = .arr l) ∨
      (∃ w, JWs w ∧ b = 123 :: (w ++ [125]) ∧ v = .obj []) ∨ ∃ body l, MembersText (ValText n) body l ∧ b = 123 :: (body ++ [125]) ∧ v = .obj l

/-- A JSON text: a value with white space around it, nested not more than 10000 deep. -/
def JsonText (b : Bytes) (v : JVal) : Prop := ∃ w b' w', JWs w ∧ ValText 10000 b' v ∧ JWs w' ∧ b = w ++ (b' ++ w')

/-- Lower case of ASCII letters. -/
def lowerCase (c : UInt8) : UInt8 := if 65 ≤ c ∧ c ≤ 90 then c + 32 else c

/-- Two spellings of an ASCII name: case does not matter, `ſ` (U+017F) counts as `s`, and the Kelvin sign (U+212A) as `k`. -/
inductive Spelling : Bytes → Bytes → Prop
  | nil : Spelling [] []
  | letter {c c' : UInt8} {n k : Bytes} (hc : c' < 128) (h : lowerCase c = lowerCase c') (hr : Spelling n k) : Spelling (c :: n) (c' :: k)
  | longS {c : UInt8} {n k : Bytes} (h : lowerCase c = 115) (hr : Spelling n k) : Spelling (c :: n) (utf8 0x17F ++ k)
  | kelvin {c : UInt8} {n k : Bytes} (h : lowerCase c = 107) (hr : Spelling n k) : Spelling (c :: n) (utf8 0x212A ++ k)

def SameName (name : String) (k : Bytes) : Prop := Spelling (name.toList.map (fun c => UInt8.ofNat c.toNat)) k

/-- What the members with this name make of a value, one after the other: `put v x y` says that the value `v` turns `x` into `y`. -/
inductive Member {α : Type} (name : String) (put : JVal → α → α → Prop) : List (Bytes × JVal) → α → α → Prop
  | nil (x : α) : Member name put [] x x
  | skip {k : Bytes} {v : JVal} {l : List (Bytes × JVal)} {x y : α} (hk : ¬ SameName name k) (h : Member name put l x y) : Member name put ((k, v) :: l) x y
  | take {k : Bytes} {v : JVal} {l : List (Bytes × JVal)} {x y z : α} (hk : SameName name k) (hv : put v x y) (h : Member name put l y z) : Member name put ((k, v) :: l) x z

/-- A string, or `null`, which leaves things as they are. -/
def IsStr (v : JVal) (x y : Bytes) : Prop := (v = .null ∧ y = x) ∨ v = .str y
/-- A number that an `int` of 64 bits can hold, or `null`. -/
def IsInt (v : JVal) (x y : Int) : Prop := (v = .null ∧ y = x) ∨ (-2 ^ 63 ≤ y ∧ y < 2 ^ 63 ∧ ∃ b, IntText b y ∧ v = .num b)

/-- A value that describes a record; what is missing is empty or zero, and members with other names do not matter. -/
def IsRecord (r : RecordJSON) (v : JVal) : Prop :=
  (v = .null ∧ r = ⟨[], 0, [], 0⟩) ∨
  ∃ l, v = .obj l ∧ Member "FilePath" IsStr l [] r.filePath ∧ Member "SizeInBytes" IsInt l 0 r.sizeInBytes ∧ Member "Sha1Hash" IsStr l [] r.sha1Hash ∧
    Member "ChunkSize" IsInt l 0 r.chunkSize

/-- The entries of the map, in this order. -/
inductive AreEntries : List (Bytes × RecordJSON) → List (Bytes × JVal) → Prop
  | nil : AreEntries [] []
  | cons {k : Bytes} {r : RecordJSON} {v : JVal} {es : List (Bytes × RecordJSON)} {l : List (Bytes × JVal)} (h : IsRecord r v) (hs : AreEntries es l) :
      AreEntries ((k, r) :: es) ((k, v) :: l)

/-- An object with entries is added to the entries so far; `null` removes them. -/
def IsMap (v : JVal) (x y : List (Bytes × RecordJSON)) : Prop := (v = .null ∧ y = []) ∨ ∃ m es, v = .obj m ∧ AreEntries es m ∧ y = x ++ es

/-- A value that describes an index with these entries. -/
def IsIndex (pid lastTouched : Int) (dataDir : Bytes) (es : List (Bytes × RecordJSON)) (v : JVal) : Prop :=
  (v = .null ∧ pid = 0 ∧ lastTouched = 0 ∧ dataDir = [] ∧ es = []) ∨
  ∃ l, v = .obj l ∧ Member "Pid" IsInt l 0 pid ∧ Member "LastTouched" IsInt l 0 lastTouched ∧ Member "Index" IsMap l [] es ∧ Member "DataDir" IsStr l [] dataDir

/-- Of several entries with the same key the last one counts. -/
def LastEntry (es : List (Bytes × RecordJSON)) (k : Bytes) (r : RecordJSON) : Prop := ∃ es1 es2, es = es1 ++ (k, r) :: es2 ∧ ∀ e ∈ es2, e.1 ≠ k

end Flu.Spec
