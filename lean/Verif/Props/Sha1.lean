import Verif.Model.Sha1
import Verif.Lemmas.Bytes
/-!
# C21: the text form of hashes
-/
namespace Flu

/-- Specification: an ASCII hexadecimal digit, either case. -/
def Spec.IsHexDigit (c : UInt8) : Prop :=
  (48 ≤ c.toNat ∧ c.toNat ≤ 57) ∨ (65 ≤ c.toNat ∧ c.toNat ≤ 70) ∨ (97 ≤ c.toNat ∧ c.toNat ≤ 102)

/-- Specification: ASCII lower case. -/
def Spec.lower (c : UInt8) : UInt8 := if 65 ≤ c.toNat ∧ c.toNat ≤ 90 then c + 32 else c

open Spec

namespace Hex

theorem toNat_digit (v : Nat) (h : v < 16) : (digit v).toNat = if v < 10 then 48 + v else 87 + v := by
  unfold digit; split <;> simp <;> omega

theorem value_digit (v : Nat) (h : v < 16) : value (digit v) = some v := by
  unfold value
  simp only [toNat_digit v h]
  split <;> split <;> (try split) <;> (try split) <;> first | omega | (congr 1; omega) | simp_all <;> omega

theorem decode_encode (bs : Bytes) : decode (encode bs) = .ok bs := by
  induction bs with
  | nil => rfl
  | cons b bs ih =>
    have hb := b.toNat_lt
    simp only [encode, List.flatMap_cons, List.cons_append, List.nil_append, decode] at ih ⊢
    rw [value_digit _ (by omega), value_digit _ (by omega), ih]
    simp only [Res.bind_ok, Res.pure_eq]
    congr 2
    apply UInt8.toNat_inj.1; simp; omega

theorem encode_length (bs : Bytes) : (encode bs).length = 2 * bs.length := by
  induction bs with
  | nil => rfl
  | cons b bs ih => simp only [encode, List.flatMap_cons, List.length_append, List.length_cons, List.length_nil] at ih ⊢; omega

theorem value_isHex (c : UInt8) : (∃ v, value c = some v ∧ v < 16 ∧ digit v = lower c) ↔ IsHexDigit c := by
  have hc := c.toNat_lt
  constructor
  · rintro ⟨v, h, _⟩
    unfold value at h
    unfold IsHexDigit
    simp only at h
    split at h
    · omega
    · split at h
      · omega
      · split at h
        · omega
        · cases h
  · intro h
    unfold IsHexDigit at h
    unfold value lower
    simp only
    by_cases h1 : 48 ≤ c.toNat ∧ c.toNat ≤ 57
    · rw [if_pos h1]
      refine ⟨_, rfl, by omega, ?_⟩
      rw [if_neg (by omega)]; apply UInt8.toNat_inj.1; rw [toNat_digit _ (by omega)]; rw [if_pos (by omega)]; omega
    · rw [if_neg h1]
      by_cases h2 : 97 ≤ c.toNat ∧ c.toNat ≤ 102
      · rw [if_pos h2]
        refine ⟨_, rfl, by omega, ?_⟩
        rw [if_neg (by omega)]; apply UInt8.toNat_inj.1; rw [toNat_digit _ (by omega)]; rw [if_neg (by omega)]; omega
      · rw [if_neg h2, if_pos (by omega)]
        refine ⟨_, rfl, by omega, ?_⟩
        rw [if_pos (by omega)]; apply UInt8.toNat_inj.1; rw [toNat_digit _ (by omega), if_neg (by omega)]
        simp [UInt8.toNat_add]; omega

theorem value_none (c : UInt8) (h : ¬ IsHexDigit c) : value c = none := by
  unfold IsHexDigit at h
  unfold value
  simp only
  rw [if_neg (by omega), if_neg (by omega), if_neg (by omega)]

/-- Decoding succeeds exactly on even-length strings of hexadecimal digits, and re-encoding gives lower case. -/
theorem decode_spec (s : GoString) :
    ((∀ c ∈ s, IsHexDigit c) ∧ s.length % 2 = 0 ∧
      ∃ bs, decode s = .ok bs ∧ 2 * bs.length = s.length ∧ encode bs = s.map lower) ∨
    (¬ ((∀ c ∈ s, IsHexDigit c) ∧ s.length % 2 = 0) ∧ decode s = .err .badHex) := by
  fun_induction decode s with
  | case1 => left; exact ⟨by simp, rfl, [], rfl, rfl, rfl⟩
  | case2 a => right; exact ⟨by simp, rfl⟩
  | case3 a b rest x y hy hx ih =>
    have ha : ∃ v, value a = some v ∧ v < 16 ∧ digit v = lower a := by
      apply (value_isHex a).2; apply Classical.byContradiction; intro hn; rw [value_none a hn] at hx; cases hx
    have hb : ∃ v, value b = some v ∧ v < 16 ∧ digit v = lower b := by
      apply (value_isHex b).2; apply Classical.byContradiction; intro hn; rw [value_none b hn] at hy; cases hy
    have ha' := (value_isHex a).1 ha
    have hb' := (value_isHex b).1 hb
    obtain ⟨_, e1, lx, dx⟩ := ha
    obtain ⟨_, e2, ly, dy⟩ := hb
    rw [hx] at e1; rw [hy] at e2
    injection e1 with e1; injection e2 with e2
    subst e1; subst e2
    rcases ih with ⟨h1, h2, bs, h3, h4, h5⟩ | ⟨h1, h2⟩
    · left
      refine ⟨by simp [ha', hb']; exact h1, by simp; omega, _ :: bs, by rw [h3]; rfl, by simp; omega, ?_⟩
      simp only [encode, List.flatMap_cons, List.cons_append, List.nil_append, List.map_cons] at h5 ⊢
      rw [h5]
      have : (UInt8.ofNat (x * 16 + y)).toNat = x * 16 + y := by simp; omega
      rw [this, ← dx, ← dy]
      congr 2
      · omega
      · congr 1; omega
    · right
      refine ⟨?_, by rw [h2]; rfl⟩
      rintro ⟨g1, g2⟩
      exact h1 ⟨fun c hc => g1 c (by simp [hc]), by simp at g2; omega⟩
  | case4 a b rest hn =>
    right
    refine ⟨?_, rfl⟩
    rintro ⟨g1, _⟩
    obtain ⟨x, hx, _⟩ := (value_isHex a).2 (g1 a (by simp))
    obtain ⟨y, hy, _⟩ := (value_isHex b).2 (g1 b (by simp))
    exact hn x y hx hy

end Hex

namespace Sha1Hash

theorem copyInto_full (h : Sha1Hash) (bs : Bytes) (hl : bs.length = 20) : h.copyInto bs = ⟨bs, hl⟩ := by
  apply Subtype.ext
  have := h.2
  simp only [copyInto]
  rw [List.take_of_length_le (by omega), List.drop_of_length_le (by omega), List.append_nil]

end Sha1Hash

/-- C21: reading back the text form of a hash gives that hash, whatever the target held before. -/
theorem C21_roundtrip (h old : Sha1Hash) : old.fromStringSafe h.toString = (.ok (), h) := by
  unfold Sha1Hash.fromStringSafe Sha1Hash.toString
  rw [Hex.decode_encode]
  simp only
  rw [if_neg (by simp [h.2]), Sha1Hash.copyInto_full _ _ h.2]

/-- C21: `FromStringSafe` accepts exactly the strings of 40 hexadecimal digits, and then the hash prints as their lower
case; anything else is an error and leaves the hash as it was. -/
theorem C21_accepts (old : Sha1Hash) (s : GoString) :
    ((s.length = 40 ∧ ∀ c ∈ s, IsHexDigit c) ∧
      (old.fromStringSafe s).1 = .ok () ∧ (old.fromStringSafe s).2.toString = s.map lower) ∨
    (¬ (s.length = 40 ∧ ∀ c ∈ s, IsHexDigit c) ∧
      (∃ e, (old.fromStringSafe s).1 = .err e) ∧ (old.fromStringSafe s).2 = old) := by
  rcases Hex.decode_spec s with ⟨h1, h2, bs, h3, h4, h5⟩ | ⟨h1, h2⟩
  · unfold Sha1Hash.fromStringSafe
    rw [h3]
    by_cases hl : bs.length = 20
    · left
      simp only [hl, ne_eq, not_true_eq_false, if_false]
      refine ⟨⟨by omega, h1⟩, trivial, ?_⟩
      rw [Sha1Hash.copyInto_full _ _ hl]; exact h5
    · right
      simp only [hl, ne_eq, not_false_eq_true, if_true]
      exact ⟨fun h => hl (by omega), ⟨_, rfl⟩, trivial⟩
  · right
    unfold Sha1Hash.fromStringSafe
    rw [h2]
    exact ⟨fun h => h1 ⟨h.2, by omega⟩, ⟨_, rfl⟩, rfl⟩

/-- C21: `FromString` panics exactly on what is not an even number of hexadecimal digits; otherwise the text form begins with the digits given (the first 40 of them) and
goes on as before, so a text of the wrong length is taken without complaint. -/
theorem C21_unchecked (old : Sha1Hash) (s : GoString) :
    (((∀ c ∈ s, IsHexDigit c) ∧ s.length % 2 = 0) ∧ ∃ h, old.fromString s = .ok h ∧ h.toString = (s.map lower).take 40 ++ old.toString.drop s.length) ∨
    (¬ ((∀ c ∈ s, IsHexDigit c) ∧ s.length % 2 = 0) ∧ old.fromString s = .panic) := by
  have hlen : ∀ l : Bytes, (Hex.encode l).length = 2 * l.length := by
    intro l
    induction l with
    | nil => rfl
    | cons a l ih => simp only [Hex.encode, List.flatMap_cons, List.length_append] at ih ⊢; rw [ih]; simp; omega
  have happ : ∀ a b : Bytes, Hex.encode (a ++ b) = Hex.encode a ++ Hex.encode b := fun a b => by unfold Hex.encode; exact List.flatMap_append
  have hdrop : ∀ (l : Bytes) (n : Nat), (Hex.encode l).drop (2 * n) = Hex.encode (l.drop n) := by
    intro l n
    rw [← List.take_append_drop n l]
    by_cases hn : n ≤ l.length
    · rw [happ, List.drop_append, hlen]
      rw [List.drop_of_length_le (by rw [hlen]; simp; omega)]
      simp [hn]
    · rw [List.take_append_drop, List.drop_of_length_le (by rw [hlen]; omega), List.drop_of_length_le (by omega)]; rfl
  have htake : ∀ (l : Bytes) (n : Nat), (Hex.encode l).take (2 * n) = Hex.encode (l.take n) := by
    intro l n
    have h1 := List.take_append_drop (2 * n) (Hex.encode l)
    rw [hdrop] at h1
    have h2 : Hex.encode (l.take n) ++ Hex.encode (l.drop n) = Hex.encode l := by
      rw [← happ, List.take_append_drop]
    exact List.append_cancel_right (h1.trans h2.symm)
  rcases Hex.decode_spec s with ⟨h1, h2, bs, h3, h4, h5⟩ | ⟨h1, h2⟩
  · left
    refine ⟨⟨h1, by omega⟩, old.copyInto bs, by unfold Sha1Hash.fromString; rw [h3], ?_⟩
    unfold Sha1Hash.toString Sha1Hash.copyInto
    rw [← h5, happ]
    rw [← htake bs 20]
    congr 1
    rw [← hdrop, List.length_take]
    by_cases hb : bs.length ≤ 20
    · congr 1; omega
    · rw [List.drop_of_length_le (by rw [hlen, old.2]; omega), List.drop_of_length_le (by rw [hlen, old.2]; omega)]
  · right
    exact ⟨fun h => h1 ⟨h.1, by omega⟩, by unfold Sha1Hash.fromString; rw [h2]⟩

/-- C21: different hashes have different text forms. -/
theorem C21_injective (a b : Sha1Hash) (h : a.toString = b.toString) : a = b := by
  have := C21_roundtrip a a
  rw [h, C21_roundtrip b a] at this
  injection this with _ this; exact this.symm

theorem all255_of_beNat (bs : Bytes) (h : beNat bs = 256 ^ bs.length - 1) : bs = List.replicate bs.length 255 := by
  have e : beNat (List.replicate bs.length (255 : UInt8)) = 256 ^ bs.length - 1 := by
    have aux : ∀ n, beNat (List.replicate n (255 : UInt8)) = 256 ^ n - 1 := by
      intro n
      induction n with
      | zero => rfl
      | succ n ih =>
        rw [List.replicate_succ, beNat_cons, ih, List.length_replicate, Nat.pow_succ]
        have : 0 < 256 ^ n := Nat.pow_pos (by omega)
        have h255 : (255 : UInt8).toNat = 255 := rfl
        rw [h255]; omega
    exact aux _
  have h1 := beBytes_beNat bs
  have h2 := beBytes_beNat (List.replicate bs.length (255 : UInt8))
  rw [List.length_replicate, e] at h2
  rw [h] at h1
  rw [← h1, beBytes_length]; exact h2

/-- C21: `IsBlank` recognises exactly the hash FF..FF. -/
theorem C21_isBlank (h : Sha1Hash) : h.isBlank = true ↔ ∀ b ∈ h.1, b = 255 := by
  obtain ⟨l, hl⟩ := h
  have split : l = l.take 8 ++ ((l.take 16).drop 8 ++ (l.take 20).drop 16) := by
    rw [List.take_of_length_le (show l.length ≤ 20 by omega)]
    rw [← List.drop_append_of_le_length (l₂ := l.drop 16) (by simp; omega), List.take_append_drop, List.take_append_drop]
  constructor
  · intro hb
    simp only [Sha1Hash.isBlank, Bool.and_eq_true, beq_iff_eq] at hb
    obtain ⟨⟨h1, h2⟩, h3⟩ := hb
    have l1 : (l.take 8).length = 8 := by simp; omega
    have l2 : ((l.take 16).drop 8).length = 8 := by simp; omega
    have l3 : ((l.take 20).drop 16).length = 4 := by simp; omega
    have e1 := all255_of_beNat (l.take 8) (by rw [l1, h1])
    have e2 := all255_of_beNat ((l.take 16).drop 8) (by rw [l2, ← h2, h1])
    have e3 := all255_of_beNat ((l.take 20).drop 16) (by rw [l3, h3])
    intro b hb
    simp only at hb
    rw [split, e1, e2, e3] at hb
    simp only [List.mem_append, List.mem_replicate] at hb
    rcases hb with hb | hb | hb <;> exact hb.2
  · intro hb
    have : l = List.replicate 20 255 := List.eq_replicate_iff.2 ⟨hl, hb⟩
    subst this
    show Sha1Hash.isBlank Sha1Hash.blank = true
    decide

/-- C21: `FromSliceSafe` accepts exactly 20-byte slices and then holds exactly those bytes. -/
theorem C21_fromSlice (old : Sha1Hash) (s : Bytes) :
    (s.length = 20 ∧ (old.fromSliceSafe s).1 = .ok () ∧ (old.fromSliceSafe s).2.1 = s) ∨
    (s.length ≠ 20 ∧ (∃ e, (old.fromSliceSafe s).1 = .err e) ∧ (old.fromSliceSafe s).2 = old) := by
  unfold Sha1Hash.fromSliceSafe
  by_cases hl : s.length = 20
  · left
    simp only [hl, ne_eq, not_true_eq_false, if_false]
    exact ⟨trivial, trivial, by rw [Sha1Hash.copyInto_full _ _ hl]⟩
  · right
    simp only [hl, ne_eq, not_false_eq_true, if_true]
    exact ⟨trivial, ⟨_, rfl⟩, trivial⟩

example : (Sha1Hash.zero.fromStringSafe (List.replicate 20 65 ++ List.replicate 20 57)).1 = .ok () := by decide
example : (Sha1Hash.zero.fromString [97, 66, 49]) = .panic := by decide
example : ∃ h, Sha1Hash.zero.fromString [97, 66] = .ok h ∧ h.1.head? = some 171 := ⟨_, rfl, rfl⟩
example : (Sha1Hash.zero.fromStringSafe (List.replicate 39 65 ++ [103])).1 = .err .badHex := by decide
example : Sha1Hash.blank.isBlank = true ∧ Sha1Hash.zero.isBlank = false := by decide

end Flu
