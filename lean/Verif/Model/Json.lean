import Verif.Model.Catalogue
/-!
# Model of `encoding/json` as used for the index file

`json.Marshal(ind)` and `json.Unmarshal(data, ind)` of `catalogue/indexFile.go:70, 78` on the bytes of the file.  Modelled: the whole JSON grammar as the decoder's
scanner accepts it (white space, nesting limit, numbers, escapes), the encoder's and the decoder's treatment of strings, sorting of map keys, matching of field names,
`null`, and the way values are stored in the fields.

Simplifications: field names match exactly or up to the case of ASCII letters (Go also takes the Kelvin sign for `k` and the long s for `s`); integers are unbounded (the
fields are `int` and `int64`, so what the encoder wrote is always in range).
-/
namespace Flu.Json

/-! ### UTF-8 -/

/-- A continuation byte within the given bounds. -/
def within (lo hi c : UInt8) : Bool := decide (lo ≤ c) && decide (c ≤ hi)

/-- The number of bytes of the first character, 0 if the text does not start with a valid one: `utf8.DecodeRuneInString` (tables `first` and `acceptRanges` of
`unicode/utf8`). -/
def runeLen : Bytes → Nat
  | [] => 0
  | a :: rest =>
    if a < 0x80 then 1
    else if within 0xC2 0xDF a then
      match rest with
      | b :: _ => if within 0x80 0xBF b then 2 else 0
      | _ => 0
    else if within 0xE0 0xEF a then
      match rest with
      | b :: c :: _ =>
        if within (if a = 0xE0 then 0xA0 else 0x80) (if a = 0xED then 0x9F else 0xBF) b && within 0x80 0xBF c then 3 else 0
      | _ => 0
    else if within 0xF0 0xF4 a then
      match rest with
      | b :: c :: d :: _ =>
        if within (if a = 0xF0 then 0x90 else 0x80) (if a = 0xF4 then 0x8F else 0xBF) b && within 0x80 0xBF c && within 0x80 0xBF d then 4 else 0
      | _ => 0
    else 0

/-- U+FFFD. -/
def replacement : Bytes := [0xEF, 0xBF, 0xBD]

/-- `utf8.AppendRune` for code points (the encoder and decoder call it with valid ones or U+FFFD). -/
def encodeRune (r : Nat) : Bytes :=
  if r < 0x80 then [UInt8.ofNat r]
  else if r < 0x800 then [UInt8.ofNat (0xC0 + r / 64), UInt8.ofNat (0x80 + r % 64)]
  else if r < 0x10000 then [UInt8.ofNat (0xE0 + r / 4096), UInt8.ofNat (0x80 + r / 64 % 64), UInt8.ofNat (0x80 + r % 64)]
  else [UInt8.ofNat (0xF0 + r / 262144), UInt8.ofNat (0x80 + r / 4096 % 64), UInt8.ofNat (0x80 + r / 64 % 64), UInt8.ofNat (0x80 + r % 64)]

/-- What a string looks like after it went through JSON: every byte that is not part of a valid character becomes U+FFFD. -/
def fixFuel : Nat → Bytes → Bytes
  | 0, _ => []
  | _ + 1, [] => []
  | n + 1, a :: rest =>
    match runeLen (a :: rest) with
    | 0 => replacement ++ fixFuel n rest
    | k + 1 => (a :: rest).take (k + 1) ++ fixFuel n ((a :: rest).drop (k + 1))

def fix (s : GoString) : GoString := fixFuel s.length s

/-! ### Encoding -/

/-- Characters of a string literal in the source. -/
def ascii (s : String) : Bytes := s.toList.map (fun c => UInt8.ofNat c.toNat)

/-- A digit of `"0123456789abcdef"`. -/
def hexDigit (n : UInt8) : UInt8 := if n < 10 then 48 + n else 87 + n

/-- One byte below 0x80 in `encodeState.string` with HTML escaping. -/
def escapeByte (c : UInt8) : Bytes :=
  if c = 92 ∨ c = 34 then [92, c]
  else if c = 10 then [92, 110]
  else if c = 13 then [92, 114]
  else if c = 9 then [92, 116]
  else if c < 32 ∨ c = 60 ∨ c = 62 ∨ c = 38 then [92, 117, 48, 48, hexDigit (c >>> 4), hexDigit (c &&& 15)]
  else [c]

/-- `encodeState.string` (encoding/json/encode.go) without the quotes: invalid bytes are written `\ufffd`; U+2028 and U+2029 are escaped. -/
def escapeFuel : Nat → Bytes → Bytes
  | 0, _ => []
  | _ + 1, [] => []
  | n + 1, a :: rest =>
    match runeLen (a :: rest) with
    | 0 => ascii "\\ufffd" ++ escapeFuel n rest
    | 1 => escapeByte a ++ escapeFuel n rest
    | k + 2 =>
      (if (a :: rest).take (k + 2) = [0xE2, 0x80, 0xA8] then ascii "\\u2028"
        else if (a :: rest).take (k + 2) = [0xE2, 0x80, 0xA9] then ascii "\\u2029"
        else (a :: rest).take (k + 2)) ++ escapeFuel n ((a :: rest).drop (k + 2))

/-- A string with its quotes. -/
def encStr (s : GoString) : Bytes := 34 :: (escapeFuel s.length s ++ [34])

/-- Decimal digits. -/
def decNat (n : Nat) : Bytes := if n < 10 then [UInt8.ofNat (48 + n)] else decNat (n / 10) ++ [UInt8.ofNat (48 + n % 10)]
termination_by n
decreasing_by omega

/-- `strconv.AppendInt(…, 10)`. -/
def encInt (i : Int) : Bytes := if i < 0 then 45 :: decNat i.natAbs else decNat i.natAbs

/-- `"name":value` -/
def encField (name : String) (value : Bytes) : Bytes := 34 :: (ascii name ++ 34 :: 58 :: value)

/-- `indexRecordJSON` (indexRecord.go:145-150). -/
def encRecord (r : RecordJSON) : Bytes :=
  123 :: (encField "FilePath" (encStr r.filePath) ++ 44 :: (encField "SizeInBytes" (encInt r.sizeInBytes) ++ 44 ::
    (encField "Sha1Hash" (encStr r.sha1Hash) ++ 44 :: (encField "ChunkSize" (encInt r.chunkSize) ++ [125]))))

/-- The entries of a map, separated by commas, and the closing brace. -/
def encEntries : List (GoString × RecordJSON) → Bytes
  | [] => [125]
  | [e] => encStr e.1 ++ 58 :: (encRecord e.2 ++ [125])
  | e :: f :: rest => encStr e.1 ++ 58 :: (encRecord e.2 ++ 44 :: encEntries (f :: rest))

/-- Byte-wise order of strings. -/
def strLe : GoString → GoString → Bool
  | [], _ => true
  | _ :: _, [] => false
  | a :: as, b :: bs => if a = b then strLe as bs else decide (a < b)

/-- `json.Marshal` of an `indexFileJSON` (indexFile.go:179-184): map keys are sorted.  (`json.Marshal(ind)` runs the result through `compact`, which changes nothing.) -/
def encode (j : IndexJSON) : Bytes :=
  123 :: (encField "Pid" (encInt j.pid) ++ 44 :: (encField "LastTouched" (encInt j.lastTouched) ++ 44 ::
    (encField "Index" (123 :: encEntries (j.index.mergeSort (fun a b => strLe a.1 b.1))) ++ 44 ::
      (encField "DataDir" (encStr j.dataDir) ++ [125]))))

/-! ### Decoding -/

/-- A JSON value; numbers are kept as they are written. -/
inductive JVal where
  | null
  | bool (b : Bool)
  | num (lit : Bytes)
  | str (s : GoString)
  | arr (l : List JVal)
  | obj (l : List (GoString × JVal))

/-- White space (`isSpace`). -/
def isSpace (c : UInt8) : Bool := decide (c = 32 ∨ c = 9 ∨ c = 10 ∨ c = 13)
def skipWs (b : Bytes) : Bytes := b.dropWhile isSpace

def isDigit (c : UInt8) : Bool := decide (48 ≤ c ∧ c ≤ 57)
def hexVal (c : UInt8) : Option Nat :=
  if 48 ≤ c ∧ c ≤ 57 then some (c.toNat - 48)
  else if 97 ≤ c ∧ c ≤ 102 then some (c.toNat - 87)
  else if 65 ≤ c ∧ c ≤ 70 then some (c.toNat - 55)
  else none

/-- The scanner inside a string, after the opening quote: the text up to the closing quote as it is written, and what follows. -/
def scanStr : Bytes → Option (Bytes × Bytes)
  | [] => none
  | c :: r =>
    if c = 34 then some ([], r)
    else if c = 92 then
      match r with
      | [] => none
      | e :: r' =>
        if e = 117 then
          match r' with
          | h1 :: h2 :: h3 :: h4 :: r'' =>
            if (hexVal h1).isSome && (hexVal h2).isSome && (hexVal h3).isSome && (hexVal h4).isSome then
              (scanStr r'').map (fun x => (c :: e :: h1 :: h2 :: h3 :: h4 :: x.1, x.2))
            else none
          | _ => none
        else if e = 34 ∨ e = 92 ∨ e = 47 ∨ e = 98 ∨ e = 102 ∨ e = 110 ∨ e = 114 ∨ e = 116 then
          (scanStr r').map (fun x => (c :: e :: x.1, x.2))
        else none
    else if c < 32 then none
    else (scanStr r).map (fun x => (c :: x.1, x.2))

/-- `getu4`: `\uXXXX` at the start. -/
def getu4 : Bytes → Option Nat
  | 92 :: 117 :: h1 :: h2 :: h3 :: h4 :: _ => do
    let a ← hexVal h1
    let b ← hexVal h2
    let c ← hexVal h3
    let d ← hexVal h4
    return ((a * 16 + b) * 16 + c) * 16 + d
  | _ => none

/-- `unquote` on text the scanner accepted: escapes, surrogate pairs, invalid UTF-8. -/
def unquoteFuel : Nat → Bytes → Bytes
  | 0, _ => []
  | _ + 1, [] => []
  | n + 1, c :: r =>
    if c = 92 then
      match getu4 (c :: r) with
      | some u =>
        if 0xD800 ≤ u ∧ u < 0xE000 then
          match getu4 (r.drop 5) with
          | some v =>
            if u < 0xDC00 ∧ 0xDC00 ≤ v ∧ v < 0xE000 then
              encodeRune ((u - 0xD800) * 1024 + (v - 0xDC00) + 0x10000) ++ unquoteFuel n (r.drop 11)
            else replacement ++ unquoteFuel n (r.drop 5)
          | none => replacement ++ unquoteFuel n (r.drop 5)
        else encodeRune u ++ unquoteFuel n (r.drop 5)
      | none =>
        match r with
        | [] => []
        | e :: r' =>
          (if e = 98 then 8 else if e = 102 then 12 else if e = 110 then 10 else if e = 114 then 13 else if e = 116 then 9 else e) :: unquoteFuel n r'
    else
      match runeLen (c :: r) with
      | 0 => replacement ++ unquoteFuel n r
      | k + 1 => (c :: r).take (k + 1) ++ unquoteFuel n ((c :: r).drop (k + 1))

def unquote (raw : Bytes) : GoString := unquoteFuel raw.length raw

/-- A string after its opening quote. -/
def parseStr (b : Bytes) : Option (GoString × Bytes) := (scanStr b).map (fun x => (unquote x.1, x.2))

/-- The fraction and exponent of a number; `some` also if there is none. -/
def scanFrac (b : Bytes) : Option (Bytes × Bytes) :=
  match b with
  | 46 :: r => if (r.takeWhile isDigit).isEmpty then none else some (46 :: r.takeWhile isDigit, r.dropWhile isDigit)
  | _ => some ([], b)

/-- The sign of the exponent. -/
def expSign (b : Bytes) : Bytes × Bytes :=
  match b with
  | s :: r => if s = 43 ∨ s = 45 then ([s], r) else ([], b)
  | [] => ([], b)

def scanExp (b : Bytes) : Option (Bytes × Bytes) :=
  match b with
  | e :: r =>
    if e = 101 ∨ e = 69 then
      if ((expSign r).2.takeWhile isDigit).isEmpty then none
      else some (e :: ((expSign r).1 ++ (expSign r).2.takeWhile isDigit), (expSign r).2.dropWhile isDigit)
    else some ([], b)
  | _ => some ([], b)

/-- The digits before the fraction: `0` or a number without leading zeros. -/
def scanDigits (b : Bytes) : Option (Bytes × Bytes) :=
  match b with
  | 48 :: r => some ([48], r)
  | _ => if (b.takeWhile isDigit).isEmpty then none else some (b.takeWhile isDigit, b.dropWhile isDigit)

/-- A minus sign, if there is one. -/
def scanSign (b : Bytes) : Bytes × Bytes :=
  match b with
  | 45 :: r => ([45], r)
  | _ => ([], b)

/-- A number. -/
def scanNum (b : Bytes) : Option (Bytes × Bytes) := do
  let (ds, r1) ← scanDigits (scanSign b).2
  let (fr, r2) ← scanFrac r1
  let (ex, r3) ← scanExp r2
  return ((scanSign b).1 ++ ds ++ fr ++ ex, r3)

/-- The members of an object after the opening brace or a comma, with a parser for the values. -/
def members (pv : Bytes → Option (JVal × Bytes)) : Nat → Bytes → Option (List (GoString × JVal) × Bytes)
  | 0, _ => none
  | n + 1, b =>
    match skipWs b with
    | 34 :: r =>
      match parseStr r with
      | none => none
      | some (key, r1) =>
        match skipWs r1 with
        | 58 :: r2 =>
          match pv r2 with
          | none => none
          | some (v, r3) =>
            match skipWs r3 with
            | 44 :: r4 => (members pv n r4).map (fun x => ((key, v) :: x.1, x.2))
            | 125 :: r4 => some ([(key, v)], r4)
            | _ => none
        | _ => none
    | _ => none

/-- The elements of an array. -/
def elements (pv : Bytes → Option (JVal × Bytes)) : Nat → Bytes → Option (List JVal × Bytes)
  | 0, _ => none
  | n + 1, b =>
    match pv b with
    | none => none
    | some (v, r3) =>
      match skipWs r3 with
      | 44 :: r4 => (elements pv n r4).map (fun x => (v :: x.1, x.2))
      | 93 :: r4 => some ([v], r4)
      | _ => none

/-- A value, nested at most `depth - 1` deep. -/
def parseVal : (depth : Nat) → Bytes → Option (JVal × Bytes)
  | 0, _ => none
  | n + 1, b =>
    match skipWs b with
    | 123 :: r =>
      match skipWs r with
      | 125 :: r' => if n = 0 then none else some (.obj [], r')
      | _ => (members (parseVal n) r.length r).map (fun x => (.obj x.1, x.2))
    | 91 :: r =>
      match skipWs r with
      | 93 :: r' => if n = 0 then none else some (.arr [], r')
      | _ => (elements (parseVal n) r.length r).map (fun x => (.arr x.1, x.2))
    | 34 :: r => (parseStr r).map (fun x => (.str x.1, x.2))
    | 116 :: 114 :: 117 :: 101 :: r => some (.bool true, r)
    | 102 :: 97 :: 108 :: 115 :: 101 :: r => some (.bool false, r)
    | 110 :: 117 :: 108 :: 108 :: r => some (.null, r)
    | b' => (scanNum b').map (fun x => (.num x.1, x.2))

/-- `checkValid` and the value itself: `maxNestingDepth` is 10000. -/
def parseDoc (b : Bytes) : Option JVal :=
  match parseVal 10001 b with
  | some (v, r) => if skipWs r = [] then some v else none
  | none => none

/-- The value of decimal digits. -/
def natOf (ds : Bytes) : Nat := ds.foldl (fun n c => n * 10 + (c.toNat - 48)) 0

/-- `strconv.ParseInt(lit, 10, 64)` for a JSON number: a fraction or an exponent is an error
(simplified: integers outside of 64 bits, an error in Go, are accepted). -/
def intOf (lit : Bytes) : Option Int :=
  match lit with
  | 45 :: ds => if ds.all isDigit then some (-(natOf ds : Int)) else none
  | ds => if ds.all isDigit then some (natOf ds) else none

/-- Storing into an `int` field: `null` leaves it alone, anything but an integer is an error. -/
def asInt (old : Int) : JVal → Option Int
  | .null => some old
  | .num lit => intOf lit
  | _ => none

/-- Storing into a `string` field. -/
def asStr (old : GoString) : JVal → Option GoString
  | .null => some old
  | .str s => some s
  | _ => none

/-- ASCII lower case. -/
def lower (c : UInt8) : UInt8 := if 65 ≤ c ∧ c ≤ 90 then c + 32 else c

/-- A key as it is compared with field names: without case, and with U+017F for `s` and U+212A for `k` (`equalFoldRight` of encoding/json/fold.go). -/
def foldName : Bytes → Bytes
  | 0xC5 :: 0xBF :: r => 115 :: foldName r
  | 0xE2 :: 0x84 :: 0xAA :: r => 107 :: foldName r
  | c :: r => lower c :: foldName r
  | [] => []

/-- Whether an object key names a field. -/
def isField (name : String) (key : GoString) : Bool := decide (foldName key = (ascii name).map lower)

/-- Storing an object into an `indexRecordJSON`, member by member; unknown members are ignored. -/
def storeRecord : List (GoString × JVal) → RecordJSON → Option RecordJSON
  | [], r => some r
  | (k, v) :: rest, r => do
    let r' ←
      if isField "FilePath" k then (asStr r.filePath v).map (fun x => { r with filePath := x })
      else if isField "SizeInBytes" k then (asInt r.sizeInBytes v).map (fun x => { r with sizeInBytes := x })
      else if isField "Sha1Hash" k then (asStr r.sha1Hash v).map (fun x => { r with sha1Hash := x })
      else if isField "ChunkSize" k then (asInt r.chunkSize v).map (fun x => { r with chunkSize := x })
      else some r
    storeRecord rest r'

/-- A map element starts from the zero value. -/
def asRecord : JVal → Option RecordJSON
  | .null => some ⟨[], 0, [], 0⟩
  | .obj l => storeRecord l ⟨[], 0, [], 0⟩
  | _ => none

/-- Assigning to a Go map with string keys. -/
def strPut (m : List (GoString × RecordJSON)) (k : GoString) (v : RecordJSON) : List (GoString × RecordJSON) :=
  if m.any (fun e => decide (e.1 = k)) then m.map (fun e => if e.1 = k then (k, v) else e) else m ++ [(k, v)]

/-- Storing an object into the map. -/
def storeMap : List (GoString × JVal) → List (GoString × RecordJSON) → Option (List (GoString × RecordJSON))
  | [], m => some m
  | (k, v) :: rest, m => do
    let r ← asRecord v
    storeMap rest (strPut m k r)

/-- `null` makes the map nil, which reads as empty. -/
def asMap (old : List (GoString × RecordJSON)) : JVal → Option (List (GoString × RecordJSON))
  | .null => some []
  | .obj l => storeMap l old
  | _ => none

/-- Storing an object into an `indexFileJSON`. -/
def storeIndex : List (GoString × JVal) → IndexJSON → Option IndexJSON
  | [], j => some j
  | (k, v) :: rest, j => do
    let j' ←
      if isField "Pid" k then (asInt j.pid v).map (fun x => { j with pid := x })
      else if isField "LastTouched" k then (asInt j.lastTouched v).map (fun x => { j with lastTouched := x })
      else if isField "Index" k then (asMap j.index v).map (fun x => { j with index := x })
      else if isField "DataDir" k then (asStr j.dataDir v).map (fun x => { j with dataDir := x })
      else some j
    storeIndex rest j'

/-- `json.Unmarshal` into a fresh `indexFileJSON` (indexFile.go:129-130), as seen by a caller that gives up on any error. -/
def decode (b : Bytes) : Option IndexJSON := do
  match ← parseDoc b with
  | .null => return ⟨0, 0, [], []⟩
  | .obj l => storeIndex l ⟨0, 0, [], []⟩
  | _ => none

end Flu.Json
