import Verif.Lemmas.BitsetSer
import Verif.Spec.ProgressText

namespace Flu
namespace Bitset
open Spec

theorem testBit_step (x : Nat) (b : UInt8) (j : Nat) :
    (x * 256 + b.toNat).testBit j = if j < 8 then b.toNat.testBit j else x.testBit (j - 8) := by
  have hb : b.toNat < 2 ^ 8 := b.toNat_lt
  rw [Nat.mul_comm, show 256 = 2 ^ 8 from rfl]
  exact Nat.testBit_two_pow_mul_add x hb j

theorem word_testBit (a b c d e f g h : UInt8) (j : Nat) (hj : j < 64) :
    (BitVec.ofNat 64 (beNat [a, b, c, d, e, f, g, h])).getLsbD j =
      (([a, b, c, d, e, f, g, h][7 - j / 8]?).getD 0).toNat.testBit (j % 8) := by
  rw [BitVec.getLsbD_ofNat]
  simp only [hj, decide_true, Bool.true_and, beNat, List.foldl_cons, List.foldl_nil, testBit_step]
  have : j / 8 = 0 ∨ j / 8 = 1 ∨ j / 8 = 2 ∨ j / 8 = 3 ∨ j / 8 = 4 ∨ j / 8 = 5 ∨ j / 8 = 6 ∨ j / 8 = 7 := by omega
  rcases this with h | h | h | h | h | h | h | h <;> rw [h]
  · rw [if_pos (by omega)]; simp [show j % 8 = j by omega]
  · rw [if_neg (by omega), if_pos (by omega)]; simp [show j % 8 = j - 8 by omega]
  · rw [if_neg (by omega), if_neg (by omega), if_pos (by omega)]; simp [show j % 8 = j - 8 - 8 by omega]
  · rw [if_neg (by omega), if_neg (by omega), if_neg (by omega), if_pos (by omega)]; simp [show j % 8 = j - 8 - 8 - 8 by omega]
  · rw [if_neg (by omega), if_neg (by omega), if_neg (by omega), if_neg (by omega), if_pos (by omega)]
    simp [show j % 8 = j - 8 - 8 - 8 - 8 by omega]
  · rw [if_neg (by omega), if_neg (by omega), if_neg (by omega), if_neg (by omega), if_neg (by omega), if_pos (by omega)]
    simp [show j % 8 = j - 8 - 8 - 8 - 8 - 8 by omega]
  · rw [if_neg (by omega), if_neg (by omega), if_neg (by omega), if_neg (by omega), if_neg (by omega), if_neg (by omega), if_pos (by omega)]
    simp [show j % 8 = j - 8 - 8 - 8 - 8 - 8 - 8 by omega]
  · rw [if_neg (by omega), if_neg (by omega), if_neg (by omega), if_neg (by omega), if_neg (by omega), if_neg (by omega), if_neg (by omega),
      if_pos (by omega)]
    simp [show j % 8 = j - 8 - 8 - 8 - 8 - 8 - 8 - 8 by omega]

theorem wordsOf_bit (bs : Bytes) (hl : bs.length % 8 = 0) (k j : Nat) (hj : j < 64) :
    ((wordsOf bs)[k]?.getD 0#64).getLsbD j = ((bs[k * 8 + (7 - j / 8)]?).getD 0).toNat.testBit (j % 8) := by
  fun_induction wordsOf bs generalizing k with
  | case1 a b c d e f g i rest ih =>
    cases k with
    | zero =>
      simp only [List.getElem?_cons_zero, Option.getD_some, Nat.zero_mul, Nat.zero_add]
      rw [word_testBit _ _ _ _ _ _ _ _ j hj]
      have hx : (a :: b :: c :: d :: e :: f :: g :: i :: rest) = [a, b, c, d, e, f, g, i] ++ rest := rfl
      rw [hx, List.getElem?_append_left (by simp only [List.length_cons, List.length_nil]; omega)]
    | succ k =>
      have hx : (a :: b :: c :: d :: e :: f :: g :: i :: rest) = [a, b, c, d, e, f, g, i] ++ rest := rfl
      rw [List.getElem?_cons_succ, ih (by simp at hl; omega) k, hx,
        List.getElem?_append_right (by simp only [List.length_cons, List.length_nil]; omega)]
      have : (k + 1) * 8 + (7 - j / 8) - [a, b, c, d, e, f, g, i].length = k * 8 + (7 - j / 8) := by
        simp only [List.length_cons, List.length_nil]; omega
      rw [this]
  | case2 bs h =>
    have hb : bs = [] := by
      match bs, h, hl with
      | [], _, _ => rfl
      | [_], _, h | [_, _], _, h | [_, _, _], _, h | [_, _, _, _], _, h | [_, _, _, _, _], _, h | [_, _, _, _, _, _], _, h
      | [_, _, _, _, _, _, _], _, h => simp at h
      | a :: b :: c :: d :: e :: f :: g :: i :: rest, h, _ => exact (h _ _ _ _ _ _ _ _ _ rfl).elim
    subst hb
    simp

theorem wordsOf_length (bs : Bytes) : (wordsOf bs).length = bs.length / 8 := by
  fun_induction wordsOf bs with
  | case1 a b c d e f g i rest ih => simp only [List.length_cons, ih]; omega
  | case2 bs h =>
    match bs, h with
    | [], _ => rfl
    | [_], _ | [_, _], _ | [_, _, _], _ | [_, _, _, _], _ | [_, _, _, _, _], _ | [_, _, _, _, _, _], _ | [_, _, _, _, _, _, _], _ => simp
    | a :: b :: c :: d :: e :: f :: g :: i :: rest, h => exact (h _ _ _ _ _ _ _ _ _ rfl).elim

/-- What a progress file of whole words says is what the bitset read from it says. -/
theorem deserialize_says (data : Bytes) (h8 : 8 ≤ data.length) (hm : data.length % 8 = 0) :
    ∃ b, deserialize data = .ok b ∧ Announces data b.size ∧ b.data.length = (data.length - 8) / 8 ∧ ∀ i, b.has i = true ↔ Marked data i := by
  refine ⟨⟨wordsOf (data.drop 8), (BitVec.ofNat 64 (beNat (data.take 8))).toInt⟩, ?_, ?_, ?_, ?_⟩
  · unfold deserialize
    rw [if_neg (by omega)]
    simp only [List.length_drop]
    rw [if_neg (by omega)]
  · match data, h8 with
    | a :: b :: c :: d :: e :: f :: g :: h :: rest, _ =>
      refine ⟨a, b, c, d, e, f, g, h, rest, rfl, ?_, ?_, ?_⟩
      · have := BitVec.le_toInt (BitVec.ofNat 64 (beNat ((a :: b :: c :: d :: e :: f :: g :: h :: rest).take 8)))
        simpa using this
      · have := BitVec.toInt_lt (x := BitVec.ofNat 64 (beNat ((a :: b :: c :: d :: e :: f :: g :: h :: rest).take 8)))
        simpa using this
      · have hn : beNat ((a :: b :: c :: d :: e :: f :: g :: h :: rest).take 8) = ((((((a.toNat * 256 + b.toNat) * 256 + c.toNat) * 256 + d.toNat) * 256 + e.toNat) * 256 + f.toNat) * 256 +
      g.toNat) * 256 + h.toNat := by simp [beNat]
        rw [← hn]
        generalize beNat _ = n
        simp only
        rw [BitVec.toInt_ofNat']
        have hd := Int.emod_add_mul_ediv (n : Int) (2 ^ 64)
        rw [Int.bmod_def]
        split
        · exact ⟨(n : Int) / 2 ^ 64, hd⟩
        · refine ⟨(n : Int) / 2 ^ 64 + 1, ?_⟩
          have hc : ((2 ^ 64 : Nat) : Int) = 2 ^ 64 := by norm_cast
          rw [hc]
          omega
  · simp only [wordsOf_length, List.length_drop]
  · intro i
    unfold has
    simp only
    rw [wordsOf_bit _ (by rw [List.length_drop]; omega) _ _ (Nat.mod_lt _ (by omega)), List.getElem?_drop]
    have e : i % 64 % 8 = i % 8 := by omega
    rw [e, ← Nat.add_assoc]
    unfold Marked
    cases hc : data[8 + i / 64 * 8 + (7 - i % 64 / 8)]? with
    | none => simp
    | some c => simp

theorem fullLoop_skip (d : List Word) (l l' : List Nat) (h : ∀ i ∈ l, d[i]? = some (BitVec.allOnes 64)) :
    fullLoop d (l ++ l') = fullLoop d l' := by
  induction l with
  | nil => rfl
  | cons i l ih =>
    have hi := h i (by simp)
    rw [List.cons_append, fullLoop]
    have : indexAt d (i : Int) = .ok (BitVec.allOnes 64) := by
      unfold indexAt
      simp [hi]
    rw [this]
    simp only [Res.bind_ok, bne_self_eq_false, Bool.false_eq_true, ↓reduceIte]
    exact ih (fun j hj => h j (by simp [hj]))

theorem fullLoop_halt (d : List Word) (l l' : List Nat) (hl : ∀ i ∈ l, i < d.length) (h : ¬ ∀ i ∈ l, d[i]? = some (BitVec.allOnes 64)) :
    fullLoop d (l ++ l') = .ok false := by
  induction l with
  | nil => exact (h (by simp)).elim
  | cons i l ih =>
    have hi := hl i (by simp)
    rw [List.cons_append, fullLoop]
    have hx : indexAt d (i : Int) = .ok d[i] := by
      unfold indexAt
      simp [hi]
    rw [hx]
    simp only [Res.bind_ok]
    by_cases hw : d[i] = BitVec.allOnes 64
    · rw [if_neg (by simp [hw])]
      apply ih (fun j hj => hl j (by simp [hj]))
      intro hc
      apply h
      intro j hj
      rcases List.mem_cons.1 hj with rfl | hj
      · rw [List.getElem?_eq_getElem hi, hw]
      · exact hc j hj
    · rw [if_pos (by simpa using hw)]
      rfl

theorem words_has (b : Bitset) (m : Nat) (hm : m ≤ b.data.length) :
    (∀ i ∈ List.range m, b.data[i]? = some (BitVec.allOnes 64)) ↔ (∀ i, i < 64 * m → has b i = true) := by
  constructor
  · intro h i hi
    have := h (i / 64) (by simp; omega)
    simp only [has, this, Option.getD_some, BitVec.getLsbD_allOnes, decide_eq_true_eq]
    omega
  · intro h i hi
    simp only [List.mem_range] at hi
    have hi' : i < b.data.length := by omega
    rw [List.getElem?_eq_getElem hi']
    congr 1
    rw [allOnes_iff]
    intro j hj
    have := h (64 * i + j) (by omega)
    have e1 : (64 * i + j) / 64 = i := by omega
    have e2 : (64 * i + j) % 64 = j := by omega
    simpa [has, e1, e2, hi'] using this

theorem full_negative (b : Bitset) (h : b.size < 0) : b.full = .panic := by
  unfold full
  rw [if_neg (by omega)]
  have h1 : ((b.size - 1).tdiv wordSize) ≤ 0 := by
    have := Int.tdiv_nonneg (a := -(b.size - 1)) (b := (wordSize : Int)) (by omega) (by omega)
    rw [Int.neg_tdiv] at this
    omega
  have h2 : (b.size - 1).tmod wordSize ≤ 0 := by
    have := Int.tmod_nonneg (a := -(b.size - 1)) wordSize (by omega)
    rw [Int.neg_tmod] at this
    omega
  have h3 : ((b.size - 1).tdiv wordSize).toNat = 0 := by omega
  simp only [h3, List.range_zero, fullLoop]
  simp only [Res.bind_ok, Bool.not_true, Bool.false_eq_true, ↓reduceIte]
  by_cases hx : (b.size - 1).tmod wordSize < 0
  · simp only [hx, ↓reduceIte]
    unfold indexAt
    split <;> first | rfl | (split <;> rfl)
  · have h5 : (b.size - 1).tmod wordSize = 0 := by omega
    have h6 := Int.mul_tdiv_add_tmod (b.size - 1) wordSize
    have h7 : (b.size - 1).tdiv wordSize < 0 := by
      rcases Int.lt_or_eq_of_le h1 with h | h
      · exact h
      · rw [h, h5] at h6; omega
    unfold indexAt
    simp [h7]

theorem full_few (b : Bitset) (h : 64 * b.data.length < b.size) :
    ((∀ i, i < 64 * b.data.length → has b i = true) → b.full = .panic) ∧
    ((∃ i, i < 64 * b.data.length ∧ has b i = false) → b.full = .ok false) := by
  have h0 : b.size ≠ 0 := by omega
  have hn : 0 ≤ b.size := by omega
  unfold full
  simp only [h0, ↓reduceIte, tdiv_size b h0 hn, tmod_size b h0 hn, Int.toNat_natCast]
  have hsplit : List.range ((b.size.toNat - 1) / 64) = List.range b.data.length ++ (List.range ((b.size.toNat - 1) / 64 - b.data.length)).map (b.data.length + ·) := by
    rw [← List.range_add]; congr 1; omega
  have hw := words_has b b.data.length (by omega)
  rw [hsplit]
  constructor
  · intro ha
    rw [fullLoop_skip _ _ _ (hw.2 ha)]
    rcases hk : (b.size.toNat - 1) / 64 - b.data.length with _ | k
    · simp only [List.range_zero, List.map_nil, fullLoop]
      have : (b.size.toNat - 1) / 64 = b.data.length := by omega
      simp [indexAt, this]
    · rw [List.range_succ_eq_map, List.map_cons, fullLoop]
      simp [indexAt]
  · rintro ⟨i, hi, hf⟩
    rw [fullLoop_halt _ _ _ (by intro i hi; simpa using hi) (fun hc => by rw [hw.1 hc i hi] at hf; cases hf)]
    rfl

theorem full_enough (b : Bitset) (h0 : 0 < b.size) (h : b.size ≤ 64 * b.data.length) :
    ∃ t, b.full = .ok t ∧ (t = true ↔ ∀ i, i / 64 ≤ (b.size.toNat - 1) / 64 → (has b i = true ↔ (i : Int) < b.size)) := by
  have h0' : b.size ≠ 0 := by omega
  have hn : 0 ≤ b.size := by omega
  let m := (b.size.toNat - 1) / 64
  let k := (b.size.toNat - 1) % 64
  have hm : m < b.data.length := by simp only [m]; omega
  unfold full
  simp only [h0', ↓reduceIte, tdiv_size b h0' hn, tmod_size b h0' hn, Int.toNat_natCast]
  have hw := words_has b m (by omega)
  have happ : List.range ((b.size.toNat - 1) / 64) = List.range m ++ [] := by simp [m]
  rw [happ]
  by_cases hp : ∀ i ∈ List.range m, b.data[i]? = some (BitVec.allOnes 64)
  · rw [fullLoop_skip _ _ _ hp]
    have hx : indexAt b.data (((b.size.toNat - 1) / 64 : Nat) : Int) = .ok b.data[m] := by
      unfold indexAt
      rw [if_neg (by omega), Int.toNat_natCast, List.getElem?_eq_getElem hm]
    have h2 : ¬ ((((b.size.toNat - 1) % 64 : Nat) : Int) < 0) := by omega
    simp only [fullLoop, Res.bind_ok, Bool.not_true, Bool.false_eq_true, ↓reduceIte, hx, h2]
    refine ⟨_, rfl, ?_⟩
    rw [beq_iff_eq]
    have hq : (b.data[m] = lastMask k) ↔ (∀ j, j < 64 → (has b (64 * m + j) = true ↔ j ≤ k)) := by
      constructor
      · intro h j hj
        have e1 : (64 * m + j) / 64 = m := by omega
        have e2 : (64 * m + j) % 64 = j := by omega
        simp only [has, e1, e2, List.getElem?_eq_getElem hm, Option.getD_some, h]
        rw [getLsbD_lastMask _ _ (Nat.mod_lt _ (by omega)) hj]
        simp [k]
      · intro h
        apply BitVec.eq_of_getLsbD_eq
        intro j hj
        rw [getLsbD_lastMask _ _ (Nat.mod_lt _ (by omega)) hj]
        have e1 : (64 * m + j) / 64 = m := by omega
        have e2 : (64 * m + j) % 64 = j := by omega
        have e3 : has b (64 * m + j) = b.data[m].getLsbD j := by simp [has, e1, e2, hm]
        rw [← e3, Bool.eq_iff_iff, h j hj]; simp [k]
    rw [hq]
    constructor
    · intro h i hi
      by_cases hlt : i < 64 * m
      · rw [hw.1 hp i hlt]; simp only [true_iff]; simp only [m] at *; omega
      · have := h (i - 64 * m) (by simp only [m] at *; omega)
        rw [show 64 * m + (i - 64 * m) = i by omega] at this
        rw [this]; simp only [m, k] at *; omega
    · intro h j hj
      rw [h (64 * m + j) (by simp only [m] at *; omega)]
      simp only [m, k] at *; omega
  · rw [fullLoop_halt _ _ _ (by intro i hi; simp at hi; omega) hp]
    have : ¬ (∀ i, i / 64 ≤ (b.size.toNat - 1) / 64 → (has b i = true ↔ (i : Int) < b.size)) := by
      intro hc
      apply hp
      rw [hw]
      intro i hi
      rw [hc i (by simp only [m] at *; omega)]
      simp only [m] at *; omega
    exact ⟨false, rfl, by simpa using this⟩

end Bitset
end Flu
