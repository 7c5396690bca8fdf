import Verif.Lemmas.Bitset2
import Verif.Lemmas.Bytes

namespace Flu
namespace Bitset

theorem wordsOf_append (bs rest : Bytes) (h : bs.length = 8) :
    wordsOf (bs ++ rest) = BitVec.ofNat 64 (beNat bs) :: wordsOf rest := by
  match bs, h with
  | [a, b, c, d, e, f, g, i], _ => simp [wordsOf]

theorem wordsOf_flatMap (d : List Word) : wordsOf (d.flatMap (fun w => beBytes 8 w.toNat)) = d := by
  induction d with
  | nil => simp [wordsOf]
  | cons w d ih =>
    rw [List.flatMap_cons, wordsOf_append _ _ (by simp), ih, beNat_beBytes]
    congr 1
    apply BitVec.eq_of_toNat_eq
    have := w.isLt
    simp only [BitVec.toNat_ofNat]; omega

theorem flatMap_length (d : List Word) : (d.flatMap (fun w => beBytes 8 w.toNat)).length = 8 * d.length := by
  induction d with
  | nil => simp
  | cons w d ih => rw [List.flatMap_cons, List.length_append, ih]; simp; omega

theorem serialize_length (b : Bitset) : b.serialize.length = 8 + 8 * b.data.length := by
  rw [serialize, List.length_append, flatMap_length, beBytes_length]

theorem ofInt_toInt (n : Int) (h1 : -2 ^ 63 ≤ n) (h2 : n < 2 ^ 63) : (BitVec.ofInt 64 n).toInt = n := by
  rw [BitVec.toInt_ofInt]; apply Int.bmod_eq_of_le <;> simp <;> omega

theorem deserialize_serialize (b : Bitset) (h1 : -2 ^ 63 ≤ b.size) (h2 : b.size < 2 ^ 63) :
    deserialize b.serialize = .ok b := by
  unfold deserialize
  have hl := serialize_length b
  rw [if_neg (by omega)]
  have h8 : (beBytes 8 (BitVec.ofInt 64 b.size).toNat).length = 8 := by simp
  have ht : b.serialize.take 8 = beBytes 8 (BitVec.ofInt 64 b.size).toNat := by
    rw [serialize, List.take_append_of_le_length (by omega), List.take_of_length_le (by omega)]
  have hd : b.serialize.drop 8 = b.data.flatMap (fun w => beBytes 8 w.toNat) := by
    rw [serialize, List.drop_append_of_le_length (by omega), List.drop_of_length_le (by omega)]; rfl
  rw [ht, hd, wordsOf_flatMap, flatMap_length, beNat_beBytes]
  have e : BitVec.ofNat 64 ((BitVec.ofInt 64 b.size).toNat % 256 ^ 8) = BitVec.ofInt 64 b.size := by
    apply BitVec.eq_of_toNat_eq
    have := (BitVec.ofInt 64 b.size).isLt
    simp only [BitVec.toNat_ofNat]; omega
  simp only [e, ofInt_toInt _ h1 h2, Nat.mul_mod_right, ne_eq, not_true_eq_false, ↓reduceIte]

theorem wordsOf_ser (bs : Bytes) (h : bs.length % 8 = 0) : (wordsOf bs).flatMap (fun w => beBytes 8 w.toNat) = bs := by
  fun_induction wordsOf bs with
  | case1 a b c d e f g i rest ih =>
    rw [List.flatMap_cons, ih (by simp at h; omega)]
    have hlt := beNat_lt [a, b, c, d, e, f, g, i]
    have : (BitVec.ofNat 64 (beNat [a, b, c, d, e, f, g, i])).toNat = beNat [a, b, c, d, e, f, g, i] := by
      simp only [BitVec.toNat_ofNat]; apply Nat.mod_eq_of_lt; simpa using hlt
    rw [this]
    have := beBytes_beNat [a, b, c, d, e, f, g, i]
    simp only [List.length_cons, List.length_nil] at this
    rw [this]; rfl
  | case2 bs hne =>
    match bs, h, hne with
    | [], _, _ => rfl
    | [_], h, _ => simp at h
    | [_, _], h, _ => simp at h
    | [_, _, _], h, _ => simp at h
    | [_, _, _, _], h, _ => simp at h
    | [_, _, _, _, _], h, _ => simp at h
    | [_, _, _, _, _, _], h, _ => simp at h
    | [_, _, _, _, _, _, _], h, _ => simp at h
    | a :: b :: c :: d :: e :: f :: g :: i :: rest, _, hne => exact absurd rfl (hne a b c d e f g i rest)

/-- What is accepted is exactly reproduced. -/
theorem serialize_of_deserialize (bs : Bytes) (b : Bitset) (h : deserialize bs = .ok b) : b.serialize = bs := by
  unfold deserialize at h
  split at h
  · cases h
  · rename_i hl
    split at h
    · cases h
    · rename_i hm
      simp only [ne_eq, Decidable.not_not] at hm
      cases h
      simp only [serialize]
      rw [wordsOf_ser _ hm, BitVec.ofInt_toInt]
      have hlt := beNat_lt (bs.take 8)
      have h8 : (bs.take 8).length = 8 := by simp; omega
      rw [h8] at hlt
      have : (BitVec.ofNat 64 (beNat (bs.take 8))).toNat = beNat (bs.take 8) := by
        simp only [BitVec.toNat_ofNat]; apply Nat.mod_eq_of_lt; simpa using hlt
      rw [this]
      have := beBytes_beNat (bs.take 8)
      rw [h8] at this
      rw [this, List.take_append_drop]

end Bitset
end Flu
