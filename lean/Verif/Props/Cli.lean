import Verif.Model.Cli
import Verif.Props.Sha1
import Verif.Props.Catalogue
/-!
# Command line and addresses (C57, C58, C60, C62, C63)
-/
namespace Flu
open Spec (IsHexDigit lower)

/-! ### C57 -/

theorem wrapInt_small (x : Int) (h1 : 0 ≤ x) (h2 : x < 2 ^ 63) : wrapInt x = x := by
  unfold wrapInt
  rw [BitVec.toInt_ofInt]
  rw [Int.bmod_eq_of_le (by simp; omega) (by simp; omega)]

/-- C57: the integrity line shows the percentage, rounded down. -/
theorem C57_percent (done count : Nat) (hc : 0 < count) (hb : done * 10000 < 2 ^ 63) : integrity done count = .ok (100 * done / count : Nat) := by
  unfold integrity
  have e1 : wrapInt ((done : Int) * 100) = (100 * done : Nat) := by rw [wrapInt_small _ (by omega) (by omega)]; omega
  have hle : 100 * done / count ≤ 100 * done := Nat.div_le_self _ _
  have e2 : goDiv (wrapInt ((done : Int) * 100)) count = .ok (100 * done / count : Nat) := by
    unfold goDiv
    rw [if_neg (by omega), e1]
    congr 1
    rw [Int.tdiv_eq_ediv_of_nonneg (by omega)]
    have : ((100 * done : Nat) : Int) / (count : Int) = (100 * done / count : Nat) := rfl
    rw [this]
    generalize 100 * done / count = q at hle
    exact wrapInt_small _ (by omega) (by omega)
  rw [e2]
  simp only [Res.bind_ok]
  generalize 100 * done / count = q at hle
  unfold goDiv
  rw [if_neg (by omega), wrapInt_small ((q : Int) * 100) (by omega) (by omega), Int.tdiv_eq_ediv_of_nonneg (by omega), Int.mul_ediv_cancel _ (by omega)]
  rw [wrapInt_small _ (by omega) (by omega)]

/-- C57: it shows 100 exactly when every chunk is there. -/
theorem C57_complete (done count : Nat) (hc : 0 < count) (hle : done ≤ count) (hb : count * 10000 < 2 ^ 63) : integrity done count = .ok 100 ↔ done = count := by
  rw [C57_percent done count hc (Nat.lt_of_le_of_lt (Nat.mul_le_mul_right _ hle) hb)]
  constructor
  · intro h
    have h1 : ((100 * done / count : Nat) : Int) = 100 := Res.ok.inj h
    have h2 : 100 * done / count = 100 := by omega
    have h3 := Nat.div_mul_le_self (100 * done) count
    rw [h2] at h3
    omega
  · rintro rfl
    rw [Nat.mul_div_cancel _ hc]
    rfl

/-- C57: the display of a file without chunks panics. -/
theorem C57_empty (done : Int) : integrity done 0 = .panic := by
  unfold integrity goDiv
  simp

/-- A file whose file in the catalogue is half downloaded. -/
example : integrity 1 3 = .ok 33 := C57_percent 1 3 (by omega) (by omega)

/-! ### C58 -/

/-- The 16-byte form of the IPv4 address `a.b.c.d`. -/
def mapped (a b c d : UInt8) : Bytes := List.replicate 10 0 ++ [255, 255, a, b, c, d]

/-- C58: both forms of an IPv4 address, stored without spare capacity, give its four bytes. -/
theorem C58_forms (a b c d : UInt8) :
    newIpv4 (.exact [a, b, c, d]) = .ok ⟨[a, b, c, d], rfl⟩ ∧ newIpv4 (.exact (mapped a b c d)) = .ok ⟨[a, b, c, d], rfl⟩ := ⟨rfl, rfl⟩

theorem to4_some (ip r : Bytes) (h : to4 ip = some r) : ∃ a b c d, r = [a, b, c, d] ∧ (ip = [a, b, c, d] ∨ ip = mapped a b c d) := by
  unfold to4 at h
  by_cases h4 : ip.length = 4
  · rw [if_pos h4] at h; cases h
    match ip, h4 with
    | [a, b, c, d], _ => exact ⟨a, b, c, d, rfl, .inl rfl⟩
  rw [if_neg h4] at h
  by_cases h16 : ip.length = 16 ∧ ip.take 10 = List.replicate 10 0 ∧ ip[10]? = some 255 ∧ ip[11]? = some 255
  · rw [if_pos h16] at h; cases h
    obtain ⟨hl, h1, h2, h3⟩ := h16
    have e : ip = ip.take 10 ++ ip.drop 10 := (List.take_append_drop 10 ip).symm
    rw [h1] at e
    have hl2 : (ip.drop 10).length = 6 := by simp; omega
    match hd : ip.drop 10, hl2 with
    | [x, y, a, b, c, d], _ =>
      rw [hd] at e
      have hx : x = 255 := by rw [e] at h2; simpa using h2
      have hy : y = 255 := by rw [e] at h3; simpa using h3
      subst hx; subst hy
      refine ⟨a, b, c, d, ?_, .inr e⟩
      rw [e]; rfl
  · rw [if_neg h16] at h; cases h

/-- C58: every other address without spare capacity is refused with an error; so the answer depends only on the address, not on its form. -/
theorem C58_other (ip : Bytes) (h : ∀ a b c d, ip ≠ [a, b, c, d] ∧ ip ≠ mapped a b c d) : newIpv4 (.exact ip) = .err .notIPv4 := by
  have : to4 (NetIP.exact ip).bytes = none := by
    have e : (NetIP.exact ip).bytes = ip := List.take_length
    rw [e]
    rcases hr : to4 ip with _ | r
    · rfl
    · obtain ⟨a, b, c, d, -, h1 | h1⟩ := to4_some ip r hr
      · exact absurd h1 (h a b c d).1
      · exact absurd h1 (h a b c d).2
  unfold newIpv4
  rw [this]

/-- C58: with spare capacity the function may panic or return bytes that are not part of the address. -/
theorem C58_capacity : (∃ ip : NetIP, ip.bytes = [1, 2, 3, 4] ∧ newIpv4 ip = .panic) ∧
    ∃ ip : NetIP, ip.bytes = [1, 2, 3, 4] ∧ newIpv4 ip = .ok ⟨[9, 9, 9, 9], rfl⟩ :=
  ⟨⟨⟨[1, 2, 3, 4, 0], 4, by decide⟩, rfl, rfl⟩, ⟨[1, 2, 3, 4, 9, 9, 9, 9, 9, 9, 9, 9, 9, 9, 9, 9], 4, by decide⟩, rfl, rfl⟩

/-! ### C60 -/

/-- C60 in full: no address the CLI accepts makes the daemon's `List` panic. -/
def C60_statement (parseIP : GoString → Option Bytes) : Prop :=
  ∀ args ip h, cliRun parseIP true args = .call (.list (some ip) h) → listAddress ip ≠ .panic

/-- The daemon panics exactly for the addresses that are not IPv4 addresses. -/
theorem C60_panics_iff (ip : Bytes) : listAddress ip = .panic ↔ ∀ a b c d, ip ≠ [a, b, c, d] ∧ ip ≠ mapped a b c d := by
  constructor
  · intro h a b c d
    constructor
    · rintro rfl; cases h
    · rintro rfl; cases h
  · intro h
    have : to4 ip = none := by
      rcases hr : to4 ip with _ | r
      · rfl
      · obtain ⟨a, b, c, d, -, h1 | h1⟩ := to4_some ip r hr
        · exact absurd h1 (h a b c d).1
        · exact absurd h1 (h a b c d).2
    unfold listAddress
    rw [this]
    rfl

/-- What of C60 is true: IPv4 addresses are taken over byte by byte.  Missing: all other addresses, which kill the daemon. -/
theorem C60_partial (a b c d : UInt8) : listAddress [a, b, c, d] = .ok ⟨[a, b, c, d], rfl⟩ ∧ listAddress (mapped a b c d) = .ok ⟨[a, b, c, d], rfl⟩ := ⟨rfl, rfl⟩

/-- C60 is false as soon as the CLI's address parser accepts some address that is not IPv4 (Go's accepts `::1`). -/
theorem C60_refuted (parseIP : GoString → Option Bytes) (text : GoString) (ip : Bytes) (hparse : parseIP text = some ip)
    (h : ∀ a b c d, ip ≠ [a, b, c, d] ∧ ip ≠ mapped a b c d) : ¬ C60_statement parseIP := by
  intro hall
  refine hall [cmdList, text] ip Sha1Hash.blank ?_ ((C60_panics_iff ip).2 h)
  show (match parseIP text with | none => CliOut.message | some ip => _) = _
  rw [hparse]

/-- `::1` is such an address. -/
example : ∀ a b c d, (List.replicate 15 0 ++ [1] : Bytes) ≠ [a, b, c, d] ∧ (List.replicate 15 0 ++ [1] : Bytes) ≠ mapped a b c d := by
  intro a b c d
  exact ⟨by simp [List.replicate], by simp [mapped, List.replicate]⟩

/-! ### C62: the command line -/

/-- Forty hexadecimal digits. -/
def IsHashText (s : GoString) : Prop := s.length = 40 ∧ ∀ c ∈ s, IsHexDigit c

theorem hashArg_ok (start : Sha1Hash) (s : GoString) (k : Sha1Hash → CliOut) (hs : IsHashText s) : ∃ h : Sha1Hash, h.toString = s.map lower ∧ hashArg start s k = k h := by
  rcases C21_accepts start s with ⟨-, h1, h2⟩ | ⟨h, -⟩
  · refine ⟨(start.fromStringSafe s).2, h2, ?_⟩
    unfold hashArg
    rcases he : start.fromStringSafe s with ⟨r, h⟩
    rw [he] at h1
    simp only at h1
    subst h1
    rfl
  · exact absurd hs h

theorem hashArg_bad (start : Sha1Hash) (s : GoString) (k : Sha1Hash → CliOut) (hs : ¬ IsHashText s) : hashArg start s k = .exit2 := by
  rcases C21_accepts start s with ⟨h, -⟩ | ⟨-, ⟨e, h1⟩, -⟩
  · exact absurd h hs
  · unfold hashArg
    rcases he : start.fromStringSafe s with ⟨r, h⟩
    rw [he] at h1
    simp only at h1
    subst h1
    rfl

theorem hashArg_cases (start : Sha1Hash) (s : GoString) (k : Sha1Hash → CliOut) :
    (IsHashText s ∧ ∃ h : Sha1Hash, h.toString = s.map lower ∧ hashArg start s k = k h) ∨ (¬ IsHashText s ∧ hashArg start s k = .exit2) := by
  by_cases hs : IsHashText s
  · exact .inl ⟨hs, hashArg_ok start s k hs⟩
  · exact .inr ⟨hs, hashArg_bad start s k hs⟩

variable (parseIP : GoString → Option Bytes)

/-- A word as the bytes of its letters. -/
def Spec.word (l : List Char) : GoString := l.map (fun c => UInt8.ofNat c.toNat)

/-- The commands as the user types them. -/
def Spec.share : GoString := Spec.word ['s', 'h', 'a', 'r', 'e']
def Spec.clean : GoString := Spec.word ['c', 'l', 'e', 'a', 'n']
def Spec.list : GoString := Spec.word ['l', 'i', 's', 't']
def Spec.get : GoString := Spec.word ['g', 'e', 't']
def Spec.chims : GoString := Spec.word ['c', 'h', 'i', 'm', 's']

theorem words : Spec.share = cmdShare ∧ Spec.clean = cmdClean ∧ Spec.list = cmdList ∧ Spec.get = cmdGet ∧ Spec.chims = cmdChims := by decide

/-- The requests a command line stands for. -/
inductive Means (parseIP : GoString → Option Bytes) : List GoString → CliReq → Prop
  | share (p : GoString) : Means parseIP [Spec.share, p] (.share p)
  | clean : Means parseIP [Spec.clean] .clean
  | list : Means parseIP [Spec.list] (.list none Sha1Hash.blank)
  | listOn (a : GoString) (ip : Bytes) (h : parseIP a = some ip) : Means parseIP [Spec.list, a] (.list (some ip) Sha1Hash.blank)
  | listHash (a s : GoString) (rest : List GoString) (ip : Bytes) (h : Sha1Hash) (hp : parseIP a = some ip) (ht : IsHashText s) (hs : h.toString = s.map lower) :
      Means parseIP (Spec.list :: a :: s :: rest) (.list (some ip) h)
  | get (s : GoString) (h : Sha1Hash) (ht : IsHashText s) (hs : h.toString = s.map lower) : Means parseIP [Spec.get, s] (.get h)
  | chims : Means parseIP [Spec.chims] (.chims Sha1Hash.blank)
  | chimsOf (s : GoString) (rest : List GoString) (h : Sha1Hash) (ht : IsHashText s) (hs : h.toString = s.map lower) : Means parseIP (Spec.chims :: s :: rest) (.chims h)

/-- C62: with the daemon running, the client sends a request exactly when the command line stands for one, and then that one. -/
theorem C62_sends (args : List GoString) (r : CliReq) : cliRun parseIP true args = .call r ↔ Means parseIP args r := by
  constructor
  · intro h
    match args with
    | [] => cases h
    | cmd :: args =>
      unfold cliRun at h
      simp only [Bool.not_true, Bool.false_eq_true, if_false] at h
      by_cases h1 : cmd = cmdShare
      · subst h1
        rw [if_pos rfl] at h
        match args with
        | [] => cases h
        | [p] => cases h; exact .share p
        | _ :: _ :: _ => cases h
      rw [if_neg h1] at h
      by_cases h2 : cmd = cmdClean
      · subst h2
        rw [if_pos rfl] at h
        match args with
        | [] => cases h; exact .clean
        | _ :: _ => cases h
      rw [if_neg h2] at h
      by_cases h3 : cmd = cmdList
      · subst h3
        rw [if_pos rfl] at h
        match args with
        | [] => cases h; exact .list
        | a :: rest =>
          simp only at h
          rcases hp : parseIP a with _ | ip
          · rw [hp] at h; cases h
          rw [hp] at h
          match rest with
          | [] => cases h; exact .listOn a ip hp
          | s :: rest =>
            simp only at h
            rcases hashArg_cases Sha1Hash.blank s (fun h => CliOut.call (.list (some ip) h)) with ⟨hs, x, hx, he⟩ | ⟨-, he⟩
            · rw [he] at h; cases h; exact .listHash a s rest ip x hp hs hx
            · rw [he] at h; cases h
      rw [if_neg h3] at h
      by_cases h4 : cmd = cmdGet
      · subst h4
        rw [if_pos rfl] at h
        match args with
        | [] => cases h
        | s :: rest =>
          simp only at h
          rcases hashArg_cases Sha1Hash.zero s (fun h => if rest = [] then CliOut.call (.get h) else .exit2) with ⟨hs, x, hx, he⟩ | ⟨-, he⟩
          · rw [he] at h
            by_cases hr : rest = []
            · rw [if_pos hr] at h; cases h; subst hr; exact .get s x hs hx
            · rw [if_neg hr] at h; cases h
          · rw [he] at h; cases h
      rw [if_neg h4] at h
      by_cases h5 : cmd = cmdChims
      · subst h5
        rw [if_pos rfl] at h
        match args with
        | [] => cases h; exact .chims
        | s :: rest =>
          simp only at h
          rcases hashArg_cases Sha1Hash.zero s (fun h => CliOut.call (.chims h)) with ⟨hs, x, hx, he⟩ | ⟨-, he⟩
          · rw [he] at h; cases h; exact .chimsOf s rest x hs hx
          · rw [he] at h; cases h
      rw [if_neg h5] at h
      cases h
  · have huniq : ∀ (x y : Sha1Hash) (s : GoString), x.toString = s → y.toString = s → x = y := fun x y s h1 h2 => C21_injective x y (h1.trans h2.symm)
    intro h
    cases h with
    | share p => rfl
    | clean => rfl
    | list => rfl
    | listOn a ip hp =>
      show (match parseIP a with | none => CliOut.message | some ip => _) = _
      rw [hp]
    | listHash a s rest ip x hp ht hs =>
      show (match parseIP a with | none => CliOut.message | some ip => _) = _
      rw [hp]
      obtain ⟨y, hy, he⟩ := hashArg_ok Sha1Hash.blank s (fun h => CliOut.call (.list (some ip) h)) ht
      simp only
      rw [he, huniq x y _ hs hy]
    | get s x ht hs =>
      show hashArg Sha1Hash.zero s (fun h => if ([] : List GoString) = [] then CliOut.call (.get h) else .exit2) = _
      obtain ⟨y, hy, he⟩ := hashArg_ok Sha1Hash.zero s (fun h => if ([] : List GoString) = [] then CliOut.call (.get h) else .exit2) ht
      rw [he, huniq x y _ hs hy]
      rfl
    | chims => rfl
    | chimsOf s rest x ht hs =>
      show hashArg Sha1Hash.zero s (fun h => CliOut.call (.chims h)) = _
      obtain ⟨y, hy, he⟩ := hashArg_ok Sha1Hash.zero s (fun h => CliOut.call (.chims h)) ht
      rw [he, huniq x y _ hs hy]

/-- C62: with the daemon running the client dies with a panic exactly for `get` without argument. -/
theorem C62_panics_iff (args : List GoString) : cliRun parseIP true args = .panic ↔ args = [Spec.get] := by
  constructor
  · intro h
    match args with
    | [] => cases h
    | cmd :: args =>
      unfold cliRun at h
      simp only [Bool.not_true, Bool.false_eq_true, if_false] at h
      by_cases h1 : cmd = cmdShare
      · subst h1
        rw [if_pos rfl] at h
        match args with
        | [] => cases h
        | [p] => cases h
        | _ :: _ :: _ => cases h
      rw [if_neg h1] at h
      by_cases h2 : cmd = cmdClean
      · subst h2
        rw [if_pos rfl] at h
        match args with
        | [] => cases h
        | _ :: _ => cases h
      rw [if_neg h2] at h
      by_cases h3 : cmd = cmdList
      · subst h3
        rw [if_pos rfl] at h
        match args with
        | [] => cases h
        | a :: rest =>
          simp only at h
          rcases hp : parseIP a with _ | ip
          · rw [hp] at h; cases h
          rw [hp] at h
          match rest with
          | [] => cases h
          | s :: rest =>
            simp only at h
            rcases hashArg_cases Sha1Hash.blank s (fun h => CliOut.call (.list (some ip) h)) with ⟨hs, x, hx, he⟩ | ⟨-, he⟩
            · rw [he] at h; cases h
            · rw [he] at h; cases h
      rw [if_neg h3] at h
      by_cases h4 : cmd = cmdGet
      · subst h4
        rw [if_pos rfl] at h
        match args with
        | [] => rfl
        | s :: rest =>
          simp only at h
          rcases hashArg_cases Sha1Hash.zero s (fun h => if rest = [] then CliOut.call (.get h) else .exit2) with ⟨hs, x, hx, he⟩ | ⟨-, he⟩
          · rw [he] at h
            by_cases hr : rest = []
            · rw [if_pos hr] at h; cases h
            · rw [if_neg hr] at h; cases h
          · rw [he] at h; cases h
      rw [if_neg h4] at h
      by_cases h5 : cmd = cmdChims
      · subst h5
        rw [if_pos rfl] at h
        match args with
        | [] => cases h
        | s :: rest =>
          simp only at h
          rcases hashArg_cases Sha1Hash.zero s (fun h => CliOut.call (.chims h)) with ⟨hs, x, hx, he⟩ | ⟨-, he⟩
          · rw [he] at h; cases h
          · rw [he] at h; cases h
      rw [if_neg h5] at h
      cases h
  · rintro rfl; rfl

/-- `C62_sends`: `flu get 00…00`. -/
example : Means parseIP [Spec.get, List.replicate 40 48] (.get Sha1Hash.zero) :=
  .get _ _ ⟨by decide, by intro c hc; rw [List.eq_of_mem_replicate hc]; unfold IsHexDigit; decide⟩ (by decide)

/-- C62: displaying a discovery answer works exactly for an even number of range ends (`flu chims` panics otherwise). -/
theorem C62_ranges (l : List UInt16) : (chimRanges l = .panic ↔ l.length % 2 = 1) ∧ ∀ r, chimRanges l = .ok r → r.flatMap (fun p => [p.1, p.2]) = l := by
  fun_induction chimRanges l with
  | case1 => simp
  | case2 => simp
  | case3 a b rest ih =>
    obtain ⟨ih1, ih2⟩ := ih
    rcases hr : chimRanges rest with r | e | _ | _ | _
    · refine ⟨?_, ?_⟩
      · simp only [Res.bind_ok, Res.pure_eq, List.length_cons]
        rw [hr] at ih1
        constructor
        · intro h; cases h
        · intro h; exact absurd (ih1.2 (by omega)) (by simp)
      · intro r' h
        simp only [Res.bind_ok, Res.pure_eq, Res.ok.injEq] at h
        subst h
        simp [ih2 r hr]
    · refine ⟨?_, fun r h => by cases h⟩
      rw [hr] at ih1
      simp only [Res.bind_err, List.length_cons]
      constructor
      · intro h; cases h
      · intro h; exact absurd (ih1.2 (by omega)) (by simp)
    · refine ⟨?_, fun r h => by cases h⟩
      rw [hr] at ih1
      simp only [Res.bind_panic, List.length_cons, true_iff]
      have := ih1.1 rfl
      omega
    · refine ⟨?_, fun r h => by cases h⟩
      rw [hr] at ih1
      simp only [Res.bind_exit, List.length_cons]
      constructor
      · intro h; cases h
      · intro h; exact absurd (ih1.2 (by omega)) (by simp)
    · refine ⟨?_, fun r h => by cases h⟩
      rw [hr] at ih1
      simp only [Res.bind_crash, List.length_cons]
      constructor
      · intro h; cases h
      · intro h; exact absurd (ih1.2 (by omega)) (by simp)

/-! ### C63: relative paths -/

section
variable {env : Env} {d dl : Path} {c : Cat} {fs : FS}

/-- C63 in full: the file that gets shared is the one the path names in the directory where the user typed the command. -/
def C63_statement (env : Env) (d dl : Path) : Prop :=
  ∀ c fs, Reach env d dl (.running c fs) → ∀ (userDir path : GoString), AbsClean userDir → ∀ fl r s',
    shareFile env path ⟨c, fs, fl⟩ = (.ok r, s') → r.filePath = absPath userDir path

theorem share_path (hh : Healthy env d) (hreach : Reach env d dl (.running c fs)) (path : GoString) (fl : List Fault) (r : Record) (s' : St)
    (hrun : shareFile env path ⟨c, fs, fl⟩ = (.ok r, s')) : r.filePath = absPath env.cwd path := by
  have hI : Inv env d dl c fs := hreach.inv hh.abs hh.utf8
  obtain ⟨ind, rfl, hw⟩ := hI.split
  have hq := OkClean.shareFile env path _ _ _ hrun
  obtain ⟨content, p, full, m1, -, -, -, -, h5, -⟩ := shareFile_nil_ok env path d dl ind fs r s'.quiet hq
  rw [h5]

/-- What of C63 is true: absolute paths, or a daemon running in the user's directory.  Missing: relative paths in any other situation. -/
theorem C63_partial (hh : Healthy env d) (hreach : Reach env d dl (.running c fs)) (userDir path : GoString)
    (h : isAbs path = true ∨ userDir = env.cwd) (fl : List Fault) (r : Record) (s' : St)
    (hrun : shareFile env path ⟨c, fs, fl⟩ = (.ok r, s')) : r.filePath = absPath userDir path := by
  rw [share_path hh hreach path fl r s' hrun]
  rcases h with h | h
  · unfold absPath; rw [if_pos h, if_pos h]
  · rw [h]

/-- C63 is false: relative paths are taken relative to the directory of the daemon. -/
theorem C63_refuted (sha1 : Bytes → Sha1Hash) (json : JsonCodec) : ¬ C63_statement (exEnv sha1 json) exDir exDown := by
  intro hall
  obtain ⟨r, s', h⟩ := shareFile_total (exEnv sha1 json) [102] exDir exDown (freshIdx (exEnv sha1 json) exDir) _ [1, 2, 3] (ex_file sha1 json) rfl (by decide)
  have h1 := hall _ _ (ex_reach sha1 json) exDown [102] ⟨_, ex_plain 119 (by simp), rfl⟩ [] r s' h
  rw [share_path (ex_healthy sha1 json) (ex_reach sha1 json) [102] [] r s' h] at h1
  have h2 : absPath [47] [102] = absPath [47, 119] [102] := h1
  revert h2
  decide

end
end Flu
