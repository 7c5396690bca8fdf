import Verif.Lemmas.JsonStore
/-!
# What the encoder writes is a JSON text
-/
namespace Flu.Json
open Flu.Spec

theorem ws_nil : JWs [] := fun c h => by cases h

/-! ### Strings -/

theorem utf8_ascii (a : UInt8) (ha : a < 0x80) : utf8 a.toNat = [a] := by
  have : a.toNat < 128 := UInt8.lt_iff_toNat_lt.1 ha
  unfold utf8
  rw [if_pos (by omega)]
  simp

theorem scalar_ascii (a : UInt8) (ha : a < 0x80) : Scalar a.toNat := by
  have : a.toNat < 128 := UInt8.lt_iff_toNat_lt.1 ha
  exact ⟨by omega, by omega⟩

/-- A control character or one of `<`, `>` and `&` as `\u00xy`. -/
theorem hex4_control (n : Nat) (hn : n < 128) : Hex4 [48, 48, hexDigit (UInt8.ofNat n >>> 4), hexDigit (UInt8.ofNat n &&& 15)] n := by
  have key : ∀ n < 128, ((n / 16 < 10 ∧ hexDigit (UInt8.ofNat n >>> 4) = UInt8.ofNat (48 + n / 16))) ∧
      ((n % 16 < 10 ∧ hexDigit (UInt8.ofNat n &&& 15) = UInt8.ofNat (48 + n % 16)) ∨ (10 ≤ n % 16 ∧ hexDigit (UInt8.ofNat n &&& 15) = UInt8.ofNat (97 + (n % 16 - 10)))) := by
    decide
  obtain ⟨⟨h1, h2⟩, h3⟩ := key n hn
  have d0 : HexDigit 48 0 := HexDigit.dec 0 (by omega)
  have d1 : HexDigit (hexDigit (UInt8.ofNat n >>> 4)) (n / 16) := by rw [h2]; exact HexDigit.dec _ h1
  have d2 : HexDigit (hexDigit (UInt8.ofNat n &&& 15)) (n % 16) := by
    rcases h3 with ⟨h3, h4⟩ | ⟨h3, h4⟩
    · rw [h4]; exact HexDigit.dec _ h3
    · have := HexDigit.low (n % 16 - 10) (by omega)
      rw [show 10 + (n % 16 - 10) = n % 16 by omega] at this
      rw [h4]; exact this
  have := Hex4.mk d0 d0 d1 d2
  rwa [show ((0 * 16 + 0) * 16 + n / 16) * 16 + n % 16 = n by omega] at this

theorem strText_byte (a : UInt8) (ha : a < 0x80) {r s : Bytes} (h : StrText r s) : StrText (escapeByte a ++ r) (a :: s) := by
  unfold escapeByte
  split
  · rename_i h1
    have : (a, a) ∈ shortEscapes := by rcases h1 with rfl | rfl <;> decide
    exact .short a a this h
  rename_i h1
  split
  · rename_i h2; subst h2; exact .short 110 10 (by decide) h
  split
  · rename_i h2; subst h2; exact .short 114 13 (by decide) h
  split
  · rename_i h2; subst h2; exact .short 116 9 (by decide) h
  split
  · have hx := hex4_control a.toNat (UInt8.lt_iff_toNat_lt.1 ha)
    rw [show UInt8.ofNat a.toNat = a by simp] at hx
    have := StrText.hex _ _ hx (scalar_ascii a ha) h
    rw [utf8_ascii a ha] at this
    exact this
  · rename_i h5
    have h6 : ¬ a < 32 := fun h => h5 (.inl h)
    have : 32 ≤ a.toNat := by
      have h7 : ¬ a.toNat < 32 := fun h => h6 (UInt8.lt_iff_toNat_lt.2 h)
      omega
    have hq : a.toNat ≠ 34 := fun h => h1 (.inr (by rw [← ofNat8_eq h.symm]; rfl))
    have hb : a.toNat ≠ 92 := fun h => h1 (.inl (by rw [← ofNat8_eq h.symm]; rfl))
    have := StrText.char a.toNat (scalar_ascii a ha) this hq hb h
    rw [utf8_ascii a ha] at this
    exact this

theorem hex4_lit (a b c d : UInt8) (x y z w : Nat) (ha : HexDigit a x) (hb : HexDigit b y) (hc : HexDigit c z) (hd : HexDigit d w) (u : Nat)
    (hu : ((x * 16 + y) * 16 + z) * 16 + w = u) : Hex4 [a, b, c, d] u := by rw [← hu]; exact .mk ha hb hc hd

theorem strText_escape (s : GoString) : StrText (escape s) (fix s) := by
  induction s using chars_induction with
  | h0 => exact .nil
  | hbad a s h ih =>
    rw [escape_invalid a s h, fix_invalid a s h]
    have hf : HexDigit 102 15 := HexDigit.low 5 (by omega)
    exact StrText.hex [102, 102, 102, 100] 0xFFFD (hex4_lit _ _ _ _ _ _ _ _ hf hf hf (HexDigit.low 3 (by omega)) _ rfl) ⟨by omega, by omega⟩ ih
  | hone a s ha h ih =>
    rw [escape_one a s (h s), show fix (a :: s) = a :: fix s from fix_valid [a] s 0 rfl (h s)]
    exact strText_byte a ha ih
  | hmore w s k hw hc h ih =>
    rw [escape_more w s k hw (h s), fix_valid w s _ hw (h s)]
    have h2 : HexDigit 50 2 := HexDigit.dec 2 (by omega)
    have h0 : HexDigit 48 0 := HexDigit.dec 0 (by omega)
    split
    · rename_i e; subst e
      exact StrText.hex [50, 48, 50, 56] 0x2028 (hex4_lit _ _ _ _ _ _ _ _ h2 h0 h2 (HexDigit.dec 8 (by omega)) _ rfl) ⟨by omega, by omega⟩ ih
    split
    · rename_i e; subst e
      exact StrText.hex [50, 48, 50, 57] 0x2029 (hex4_lit _ _ _ _ _ _ _ _ h2 h0 h2 (HexDigit.dec 9 (by omega)) _ rfl) ⟨by omega, by omega⟩ ih
    · obtain ⟨c, h1, h2⟩ := utf8_of_runeLen w (by have := h []; rw [List.append_nil] at this; omega)
      have hl : runeLen w = w.length := by have := h []; rw [List.append_nil] at this; omega
      rw [hl, List.take_length] at h2
      have h128 : 128 ≤ c := by
        refine Nat.le_of_not_lt (fun hlt => ?_)
        have : (utf8 c).length = 1 := by unfold utf8; rw [if_pos hlt]; rfl
        rw [← h2, hw] at this; omega
      rw [h2]
      exact StrText.char c h1 (by omega) (by omega) (by omega) ih

theorem strText_name (w : Bytes) (h : ∀ c ∈ w, c ≠ 34 ∧ c ≠ 92 ∧ 32 ≤ c ∧ c < 0x80) : StrText w w := by
  induction w with
  | nil => exact .nil
  | cons a w ih =>
    obtain ⟨h1, h2, h3, h4⟩ := h a (by simp)
    have := StrText.char a.toNat (scalar_ascii a h4) (UInt8.le_iff_toNat_le.1 h3) (fun e => h1 (by rw [← ofNat8_eq e.symm]; rfl)) (fun e => h2 (by rw [← ofNat8_eq e.symm]; rfl))
      (ih (fun c hc => h c (by simp [hc])))
    rw [utf8_ascii a h4] at this
    exact this

/-! ### Numbers -/

theorem decText_decNat (n : Nat) : DecText (decNat n) n := by
  induction n using Nat.strongRecOn with
  | ind n ih =>
    rw [decNat]
    split
    · rename_i h; exact .one n h
    · rename_i h
      have := DecText.more (n % 10) (by omega) (ih (n / 10) (by omega))
      rwa [show n / 10 * 10 + n % 10 = n by omega] at this

theorem intText_encInt (i : Int) : IntText (encInt i) i := by
  have hz : decNat i.natAbs = [48] ∨ (decNat i.natAbs).head? ≠ some 48 := by
    obtain ⟨c, w, h1, -, h2⟩ := decNat_head i.natAbs
    rw [h1]
    by_cases hc : c = 48
    · rw [h2 hc, hc]; exact .inl rfl
    · exact .inr (by simpa using hc)
  unfold encInt
  split
  · rename_i h
    exact ⟨⟨[45], decNat i.natAbs, [], [], by simp, .inr rfl, ⟨_, decText_decNat _⟩, hz, .inl rfl, .inl rfl⟩, _, _, decText_decNat _, .inr ⟨rfl, by omega⟩⟩
  · rename_i h
    exact ⟨⟨[], decNat i.natAbs, [], [], by simp, .inl rfl, ⟨_, decText_decNat _⟩, hz, .inl rfl, .inl rfl⟩, _, _, decText_decNat _, .inl ⟨rfl, by omega⟩⟩

/-! ### Objects -/

theorem valText_int (n : Nat) (i : Int) : ValText n (encInt i) (.num (encInt i)) := by
  have : AtomText (encInt i) (.num (encInt i)) := .num (intText_encInt i).1
  cases n with
  | zero => exact this
  | succ n => exact .inl this

theorem valText_str (n : Nat) (s : GoString) : ValText n (encStr s) (.str (fix s)) := by
  have : AtomText (encStr s) (.str (fix s)) := .str (strText_escape s)
  cases n with
  | zero => exact this
  | succ n => exact .inl this

theorem members_field {V : Bytes → JVal → Prop} (name : String) (hn : ∀ c ∈ ascii name, c ≠ 34 ∧ c ≠ 92 ∧ 32 ≤ c ∧ c < 0x80) {b : Bytes} {v : JVal} (hv : V b v) :
    MembersText V (encField name b) [(ascii name, v)] := by
  have := MembersText.one (V := V) ws_nil (strText_name _ hn) ws_nil ws_nil hv ws_nil
  simpa [encField] using this

theorem members_next {V : Bytes → JVal → Prop} (name : String) (hn : ∀ c ∈ ascii name, c ≠ 34 ∧ c ≠ 92 ∧ 32 ≤ c ∧ c < 0x80) {b : Bytes} {v : JVal} (hv : V b v)
    {rest : Bytes} {l : List (Bytes × JVal)} (h : MembersText V rest l) : MembersText V (encField name b ++ 44 :: rest) ((ascii name, v) :: l) := by
  have := MembersText.more (V := V) ws_nil (strText_name _ hn) ws_nil ws_nil hv ws_nil h
  simpa [encField] using this

theorem valText_record (n : Nat) (r : RecordJSON) : ValText (n + 1) (encRecord r) (recVal r) := by
  have h4 := members_field (V := ValText n) "ChunkSize" (by decide) (valText_int n r.chunkSize)
  have h3 := members_next (V := ValText n) "Sha1Hash" (by decide) (valText_str n r.sha1Hash) h4
  have h2 := members_next (V := ValText n) "SizeInBytes" (by decide) (valText_int n r.sizeInBytes) h3
  have h1 := members_next (V := ValText n) "FilePath" (by decide) (valText_str n r.filePath) h2
  exact .inr (.inr (.inr (.inr ⟨_, _, h1, by simp [encRecord], rfl⟩)))

theorem members_written (n : Nat) : ∀ l : List (GoString × RecordJSON), l ≠ [] → ∃ body, encEntries l = body ++ [125] ∧ MembersText (ValText (n + 1)) body (l.map entryVal)
  | [], h => absurd rfl h
  | [e], _ => by
    have := MembersText.one (V := ValText (n + 1)) ws_nil (strText_escape e.1) ws_nil ws_nil (valText_record n e.2) ws_nil
    refine ⟨_, ?_, this⟩
    simp [encEntries, encStr, escape]
  | e :: f :: rest, _ => by
    obtain ⟨body, h1, h2⟩ := members_written n (f :: rest) (by simp)
    have := MembersText.more (V := ValText (n + 1)) ws_nil (strText_escape e.1) ws_nil ws_nil (valText_record n e.2) ws_nil h2
    refine ⟨_, ?_, this⟩
    rw [encEntries, h1]
    simp [encStr, escape]

theorem valText_entries (n : Nat) (l : List (GoString × RecordJSON)) : ValText (n + 2) (123 :: encEntries l) (.obj (l.map entryVal)) := by
  by_cases h : l = []
  · subst h
    exact .inr (.inr (.inr (.inl ⟨[], ws_nil, rfl, rfl⟩)))
  · obtain ⟨body, h1, h2⟩ := members_written n l h
    exact .inr (.inr (.inr (.inr ⟨body, _, h2, by rw [h1], rfl⟩)))

theorem valText_encode (n : Nat) (j : IndexJSON) : ValText (n + 3) (encode j) (.obj (indexVal j)) := by
  have h4 := members_field (V := ValText (n + 2)) "DataDir" (by decide) (valText_str (n + 2) j.dataDir)
  have h3 := members_next (V := ValText (n + 2)) "Index" (by decide) (valText_entries n (j.index.mergeSort (fun a b => strLe a.1 b.1))) h4
  have h2 := members_next (V := ValText (n + 2)) "LastTouched" (by decide) (valText_int (n + 2) j.lastTouched) h3
  have h1 := members_next (V := ValText (n + 2)) "Pid" (by decide) (valText_int (n + 2) j.pid) h2
  exact .inr (.inr (.inr (.inr ⟨_, _, h1, by simp [encode], rfl⟩)))

theorem jsonText_encode (j : IndexJSON) : JsonText (encode j) (.obj (indexVal j)) :=
  ⟨[], encode j, [], ws_nil, valText_encode 9997 j, ws_nil, by simp⟩

/-! ### Values -/

/-- An `int` as Go has it. -/
def Int64 (i : Int) : Prop := -2 ^ 63 ≤ i ∧ i < 2 ^ 63

theorem isInt_enc {i : Int} (h : Int64 i) (x : Int) : IsInt (.num (encInt i)) x i := .inr ⟨h.1, h.2, _, intText_encInt i, rfl⟩

theorem member_skip {α : Type} {name : String} {put : JVal → α → α → Prop} (x : α) : ∀ l : List (Bytes × JVal), (∀ k ∈ l.map (·.1), ¬ SameName name k) → Member name put l x x
  | [], _ => .nil x
  | (k, v) :: l, h => .skip (h k (by simp)) (member_skip x l (fun k hk => h k (by rw [List.map_cons]; exact List.mem_cons_of_mem _ hk)))

/-- A name that occurs once. -/
theorem once_at {α : Type} {name : String} {put : JVal → α → α → Prop} {x y : α} : ∀ (l1 : List (Bytes × JVal)) (k : Bytes) (v : JVal) (l2 : List (Bytes × JVal))
    (_ : SameName name k) (_ : put v x y) (_ : ∀ k' ∈ (l1 ++ l2).map (·.1), ¬ SameName name k'), Member name put (l1 ++ (k, v) :: l2) x y
  | [], k, v, l2, hk, hv, h => .take hk hv (member_skip y l2 h)
  | (a, b) :: l1, k, v, l2, hk, hv, h =>
    .skip (h a (by simp)) (once_at l1 k v l2 hk hv (fun k' hk' => h k' (by rw [List.cons_append, List.map_cons]; exact List.mem_cons_of_mem _ hk')))

theorem sameName_dec {name : String} {k : Bytes} (h : isField name k = true) (hn : ∀ c ∈ ascii name, c < 128 := by decide) : SameName name k := (isField_iff name k hn).1 h

theorem others_dec {name : String} {ks : List Bytes} (h : ks.all (fun k => !isField name k) = true) : ∀ k ∈ ks, ¬ SameName name k := by
  intro k hk hs
  have := List.all_eq_true.1 h k hk
  rw [show isField name k = true from decide_eq_true (fold_of_spelling hs)] at this
  cases this

theorem isRecord_enc (r : RecordJSON) (h1 : Int64 r.sizeInBytes) (h2 : Int64 r.chunkSize) : IsRecord (r.fixed fix) (recVal r) := by
  refine .inr ⟨_, rfl, ?_, ?_, ?_, ?_⟩
  · exact once_at [] _ _ _ (sameName_dec (by decide)) (.inr rfl) (others_dec (by simp only [List.nil_append, List.map_cons, List.map_nil]; decide))
  · exact once_at [_] _ _ _ (sameName_dec (by decide)) (isInt_enc h1 0) (others_dec (by simp only [List.cons_append, List.nil_append, List.map_cons, List.map_nil]; decide))
  · exact once_at [_, _] _ _ _ (sameName_dec (by decide)) (.inr rfl) (others_dec (by simp only [List.cons_append, List.nil_append, List.map_cons, List.map_nil]; decide))
  · exact once_at [_, _, _] _ _ _ (sameName_dec (by decide)) (isInt_enc h2 0) (others_dec (by simp only [List.cons_append, List.nil_append, List.map_cons, List.map_nil]; decide))

theorem areEntries_enc : ∀ l : List (GoString × RecordJSON), (∀ e ∈ l, Int64 e.2.sizeInBytes ∧ Int64 e.2.chunkSize) →
    AreEntries (l.map (fun e => (fix e.1, e.2.fixed fix))) (l.map entryVal)
  | [], _ => .nil
  | e :: l, h => .cons (isRecord_enc e.2 (h e (by simp)).1 (h e (by simp)).2) (areEntries_enc l (fun e he => h e (by simp [he])))

theorem isIndex_enc (j : IndexJSON) (h1 : Int64 j.pid) (h2 : Int64 j.lastTouched) (h3 : ∀ e ∈ j.index, Int64 e.2.sizeInBytes ∧ Int64 e.2.chunkSize) :
    IsIndex j.pid j.lastTouched (fix j.dataDir) ((j.index.mergeSort (fun a b => strLe a.1 b.1)).map (fun e => (fix e.1, e.2.fixed fix))) (.obj (indexVal j)) := by
  refine .inr ⟨_, rfl, ?_, ?_, ?_, ?_⟩
  · exact once_at [] _ _ _ (sameName_dec (by decide)) (isInt_enc h1 0) (others_dec (by simp only [List.nil_append, List.map_cons, List.map_nil]; decide))
  · exact once_at [_] _ _ _ (sameName_dec (by decide)) (isInt_enc h2 0) (others_dec (by simp only [List.cons_append, List.nil_append, List.map_cons, List.map_nil]; decide))
  · refine once_at [_, _] _ _ _ (sameName_dec (by decide)) (.inr ⟨_, _, rfl, areEntries_enc _ (fun e he => h3 e ?_), rfl⟩) (others_dec (by simp only [List.cons_append, List.nil_append, List.map_cons, List.map_nil]; decide))
    exact (List.mergeSort_perm _ _).mem_iff.1 he
  · exact once_at [_, _, _] _ _ _ (sameName_dec (by decide)) (.inr rfl) (others_dec (by simp only [List.cons_append, List.nil_append, List.map_cons, List.map_nil]; decide))

end Flu.Json
