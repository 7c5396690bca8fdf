import Verif.Lemmas.Bitset
import Verif.Spec.Ranges

namespace Flu
namespace Bitset
open Spec

/-! ### Fill and Full -/

theorem getLsbD_lastMask (k i : Nat) (hk : k < 64) (hi : i < 64) : (lastMask k).getLsbD i = decide (i ≤ k) := by
  have hm : ∀ j, ((1#64 <<< k) - 1#64).getLsbD j = decide (j < k) := by
    intro j
    have : ((1#64 <<< k) - 1#64) = BitVec.ofNat 64 (2 ^ k - 1) := by
      apply BitVec.eq_of_toNat_eq
      have h1 : (1#64 <<< k).toNat = 2 ^ k := by
        simp only [BitVec.toNat_shiftLeft, BitVec.toNat_ofNat, Nat.shiftLeft_eq]
        have : 2 ^ k < 2 ^ 64 := Nat.pow_lt_pow_right (by omega) hk
        simp; omega
      rw [BitVec.toNat_sub_of_le]
      · rw [h1]; simp
        have : 2 ^ k < 2 ^ 64 := Nat.pow_lt_pow_right (by omega) hk
        omega
      · rw [BitVec.le_def, h1]; simp; exact Nat.one_le_two_pow
    rw [this, BitVec.getLsbD_ofNat, Nat.testBit_two_pow_sub_one]
    by_cases hj : j < k
    · simp [hj]; omega
    · simp [hj]
  simp only [lastMask, BitVec.getLsbD_or, BitVec.getLsbD_shiftLeft, hm, BitVec.getLsbD_one, hi, decide_true, Bool.true_and]
  by_cases h0 : i = 0
  · simp [h0]
  · rw [Bool.eq_iff_iff]; simp [h0]; omega

theorem fill_fold (d : List Word) (m : Nat) (hm : m ≤ d.length) :
    (List.range m).foldlM (fun d (i : Nat) => storeAt d (i : Int) (BitVec.allOnes 64)) d
      = .ok (List.replicate m (BitVec.allOnes 64) ++ d.drop m) := by
  induction m with
  | zero => simp
  | succ m ih =>
    rw [List.range_succ, List.foldlM_append, ih (by omega)]
    simp only [Res.bind_ok, List.foldlM_cons, List.foldlM_nil, storeAt_nat]
    have : m < (List.replicate m (BitVec.allOnes 64) ++ d.drop m).length := by simp; omega
    simp only [this, ↓reduceIte, Res.bind_ok, Res.pure_eq, Res.ok.injEq]
    rw [List.set_append_right _ _ (by simp)]
    simp only [List.length_replicate, Nat.sub_self]
    rw [List.drop_eq_getElem_cons (by omega), List.set_cons_zero, List.replicate_succ']
    simp

theorem tdiv_size (b : Bitset) (h0 : b.size ≠ 0) (hn : 0 ≤ b.size) :
    (b.size - 1).tdiv (wordSize : Nat) = (((b.size.toNat - 1) / 64 : Nat) : Int) := by
  have : b.size - 1 = ((b.size.toNat - 1 : Nat) : Int) := by omega
  rw [this]; simp [wordSize]

theorem tmod_size (b : Bitset) (h0 : b.size ≠ 0) (hn : 0 ≤ b.size) :
    (b.size - 1).tmod (wordSize : Nat) = (((b.size.toNat - 1) % 64 : Nat) : Int) := by
  have : b.size - 1 = ((b.size.toNat - 1 : Nat) : Int) := by omega
  rw [this, Int.tmod_eq_emod_of_nonneg (by omega)]; simp [wordSize]

/-- `Wf` without its last part: what also survives an `Unset` of a clear index. -/
structure Shape (b : Bitset) : Prop where
  size_nonneg : 0 ≤ b.size
  size_lt : b.size < 2 ^ 63
  len : b.data.length = (b.size.toNat + 63) / 64

theorem Wf.shape {b : Bitset} (w : b.Wf) : b.Shape := ⟨w.size_nonneg, w.size_lt, w.len⟩

theorem fill_shape (b : Bitset) (w : b.Shape) :
    ∃ d, b.fill = .ok { b with data := d } ∧ Wf ⟨d, b.size⟩ ∧ ∀ i, has ⟨d, b.size⟩ i = decide (i < b.size.toNat) := by
  by_cases h0 : b.size = 0
  · have hd : ∀ i, has b i = false := fun i => has_of_len_le b i (by rw [w.len, h0]; exact Nat.zero_le _)
    refine ⟨b.data, by unfold fill; rw [if_pos h0]; rfl, ⟨w.size_nonneg, w.size_lt, w.len, fun i _ => hd i⟩, ?_⟩
    intro i
    rw [show (⟨b.data, b.size⟩ : Bitset) = b from rfl, hd i]
    simp [h0]
  · have hn := w.size_nonneg
    let m := (b.size.toNat - 1) / 64
    let k := (b.size.toNat - 1) % 64
    have hlen : b.data.length = m + 1 := by rw [w.len]; simp only [m]; omega
    let d := List.replicate m (BitVec.allOnes 64) ++ [lastMask k]
    have hh : ∀ i, has ⟨d, b.size⟩ i = decide (i < b.size.toNat) := by
      intro i
      simp only [has]
      by_cases h1 : i / 64 < m
      · simp only [d]
        rw [List.getElem?_append_left (by simpa using h1)]
        simp only [List.getElem?_replicate, h1, ↓reduceIte, Option.getD_some, BitVec.getLsbD_allOnes]
        simp only [decide_eq_decide, m] at *; omega
      · by_cases h2 : i / 64 = m
        · simp only [d, h2]
          rw [List.getElem?_append_right (by simp)]
          simp only [List.length_replicate, Nat.sub_self, List.getElem?_cons_zero, Option.getD_some]
          rw [getLsbD_lastMask _ _ (Nat.mod_lt _ (by omega)) (Nat.mod_lt _ (by omega))]
          simp only [decide_eq_decide, m, k] at *; omega
        · rw [List.getElem?_eq_none (by simp [d]; omega)]
          simp only [Option.getD_none, BitVec.getLsbD_zero]
          symm; simp only [decide_eq_false_iff_not, m] at *; omega
    refine ⟨d, ?_, ⟨hn, w.size_lt, ?_, ?_⟩, hh⟩
    · unfold fill
      simp only [h0, ↓reduceIte, tdiv_size b h0 hn, tmod_size b h0 hn, Int.toNat_natCast]
      rw [fill_fold _ _ (by omega)]
      have : ¬ ((((b.size.toNat - 1) % 64 : Nat) : Int) < 0) := by omega
      have h3 : m < (List.replicate m (BitVec.allOnes 64) ++ b.data.drop m).length := by simp; omega
      simp only [Res.bind_ok, this, ↓reduceIte, storeAt_nat, h3, Res.pure_eq, Res.ok.injEq, m]
      congr 1
      rw [List.set_append_right _ _ (by simp)]
      simp only [List.length_replicate, Nat.sub_self, d, m, k]
      congr 1
      have : (b.data.drop ((b.size.toNat - 1) / 64)).length = 1 := by simp; omega
      match hq : b.data.drop ((b.size.toNat - 1) / 64), this with
      | [q], _ => simp
    · simp [d, m]; omega
    · intro i hi; rw [hh]; simp only [decide_eq_false_iff_not]; simp only at hi; omega

theorem fill_eq (b : Bitset) (w : b.Wf) :
    ∃ d, b.fill = .ok { b with data := d } ∧ Wf ⟨d, b.size⟩ ∧ ∀ i, has ⟨d, b.size⟩ i = decide (i < b.size.toNat) :=
  fill_shape b w.shape

/-- `Unset` of any index, set or clear: no panic, and the size and the number of words stay. -/
theorem unset_any (b : Bitset) (x : BitVec 64) (h : x.toNat < 2 ^ 63) :
    ∃ d, b.unset x = .ok { b with data := d } ∧ d.length = b.data.length := by
  by_cases hl : b.data.length ≤ x.toNat / 64
  · exact ⟨b.data, unset_oob b x h hl, rfl⟩
  · refine ⟨b.data.set (x.toNat / 64) (b.data[x.toNat / 64]'(by omega) - bitMask x), ?_, by simp⟩
    unfold unset
    simp only [tdiv_small x h]
    have h1 : ¬ ((b.data.length : Int) ≤ ((x.toNat / 64 : Nat) : Int)) := by omega
    have h2 : x.toNat / 64 < b.data.length := by omega
    simp only [ge_iff_le, h1, ↓reduceIte, indexAt_nat, List.getElem?_eq_getElem h2, Res.bind_ok, storeAt_nat, h2,
      Res.pure_eq]

theorem allOnes_iff (w : Word) : w = BitVec.allOnes 64 ↔ ∀ j, j < 64 → w.getLsbD j = true := by
  constructor
  · intro h j hj; subst h; simp only [BitVec.getLsbD_allOnes, hj, decide_true]
  · intro h; apply BitVec.eq_of_getLsbD_eq; intro i hi; rw [h i hi]; simp only [BitVec.getLsbD_allOnes, hi, decide_true]

theorem fullLoop_eq (d : List Word) (l : List Nat) (hl : ∀ i ∈ l, i < d.length) :
    fullLoop d l = .ok (decide (∀ i ∈ l, d[i]? = some (BitVec.allOnes 64))) := by
  induction l with
  | nil => simp [fullLoop]
  | cons i l ih =>
    have hi : i < d.length := hl i (by simp)
    simp only [fullLoop, indexAt_lt _ _ hi, Res.bind_ok]
    by_cases h : d[i] = BitVec.allOnes 64
    · simp only [h, bne_self_eq_false, Bool.false_eq_true, ↓reduceIte]
      rw [ih (fun j hj => hl j (by simp [hj]))]
      simp [hi, h]
    · have hne : (d[i] != BitVec.allOnes 64) = true := by simpa only [bne_iff_ne, ne_eq] using h
      rw [if_pos hne]
      have : ¬ (∀ j ∈ i :: l, d[j]? = some (BitVec.allOnes 64)) := by
        intro hc; have := hc i (by simp); rw [List.getElem?_eq_getElem hi] at this; exact h (Option.some.inj this)
      rw [decide_eq_false this]; rfl

theorem full_eq (b : Bitset) (w : b.Wf) : b.full = .ok (decide (∀ i, i < b.size.toNat → has b i = true)) := by
  by_cases h0 : b.size = 0
  · simp [full, h0]
  · have hn := w.size_nonneg
    let m := (b.size.toNat - 1) / 64
    let k := (b.size.toNat - 1) % 64
    have hlen : b.data.length = m + 1 := by rw [w.len]; simp only [m]; omega
    unfold full
    simp only [h0, ↓reduceIte, tdiv_size b h0 hn, tmod_size b h0 hn, Int.toNat_natCast]
    rw [fullLoop_eq _ _ (by intro i hi; simp at hi; omega)]
    have hm : m < b.data.length := by omega
    have h2 : ¬ ((((b.size.toNat - 1) % 64 : Nat) : Int) < 0) := by omega
    have hp : (∀ i ∈ List.range m, b.data[i]? = some (BitVec.allOnes 64)) ↔ (∀ i, i < 64 * m → has b i = true) := by
      constructor
      · intro h i hi
        have := h (i / 64) (by simp; omega)
        simp only [has, this, Option.getD_some, BitVec.getLsbD_allOnes, decide_eq_true_eq]
        omega
      · intro h i hi
        simp only [List.mem_range] at hi
        have hi' : i < b.data.length := by omega
        rw [List.getElem?_eq_getElem hi']
        congr 1
        rw [allOnes_iff]
        intro j hj
        have := h (64 * i + j) (by omega)
        have e1 : (64 * i + j) / 64 = i := by omega
        have e2 : (64 * i + j) % 64 = j := by omega
        simpa [has, e1, e2, hi'] using this
    have hq : (b.data[m] = lastMask k) ↔ (∀ i, 64 * m ≤ i → i < b.size.toNat → has b i = true) := by
      constructor
      · intro h i h1 h3
        have e1 : i / 64 = m := by simp only [m] at *; omega
        simp only [has, e1, List.getElem?_eq_getElem hm, Option.getD_some, h]
        rw [getLsbD_lastMask _ _ (Nat.mod_lt _ (by omega)) (Nat.mod_lt _ (by omega))]
        simp only [decide_eq_true_eq, m, k] at *; omega
      · intro h
        apply BitVec.eq_of_getLsbD_eq
        intro j hj
        rw [getLsbD_lastMask _ _ (Nat.mod_lt _ (by omega)) hj]
        have e1 : (64 * m + j) / 64 = m := by omega
        have e2 : (64 * m + j) % 64 = j := by omega
        have e3 : has b (64 * m + j) = b.data[m].getLsbD j := by simp [has, e1, e2, hm]
        rw [← e3]
        by_cases hj2 : 64 * m + j < b.size.toNat
        · rw [h _ (by omega) hj2]; symm; simp only [decide_eq_true_eq, m, k] at *; omega
        · rw [w.above _ (by omega)]; symm; simp only [decide_eq_false_iff_not, m, k] at *; omega
    have hall : (∀ i, i < b.size.toNat → has b i = true) ↔
        ((∀ i, i < 64 * m → has b i = true) ∧ (∀ i, 64 * m ≤ i → i < b.size.toNat → has b i = true)) := by
      constructor
      · intro h; exact ⟨fun i hi => h i (by simp only [m] at *; omega), fun i _ hi => h i hi⟩
      · intro h i hi
        by_cases hc : i < 64 * m
        · exact h.1 i hc
        · exact h.2 i (by omega) hi
    simp only [Res.bind_ok]
    by_cases hpp : (∀ i ∈ List.range m, b.data[i]? = some (BitVec.allOnes 64))
    · rw [if_neg (by rw [Bool.not_eq_true', decide_eq_false_iff_not]; exact not_not_intro hpp)]
      rw [indexAt_lt _ _ hm]
      simp only [Res.bind_ok, h2, ↓reduceIte, Res.pure_eq, Int.toNat_natCast, Res.ok.injEq]
      have : (b.data[m] == lastMask k) = decide (b.data[m] = lastMask k) := by
        by_cases hc : b.data[m] = lastMask k <;> simp [hc]
      show (b.data[m] == lastMask k) = _
      rw [this, decide_eq_decide, hall, hq]
      exact ⟨fun h => ⟨hp.1 hpp, h⟩, fun h => h.2⟩
    · have hf : ¬ (∀ i, i < b.size.toNat → has b i = true) := by rw [hall]; rw [hp] at hpp; exact fun h => hpp h.1
      rw [if_pos (by rw [Bool.not_eq_true', decide_eq_false_iff_not]; exact hpp)]
      simp only [Res.pure_eq, hf, decide_false]

/-! ### Count -/

theorem countWord_eq (u : Word) : countWord u = (List.range 64).countP (fun i => u.getLsbD i) := by
  fun_induction countWord u with
  | case1 u h ih =>
    rw [ih]
    have e1 : (List.range 64).countP (fun i => (u >>> 1).getLsbD i) = (List.range 63).countP (fun i => u.getLsbD (i + 1)) := by
      rw [show List.range 64 = List.range 63 ++ [63] from List.range_succ, List.countP_append]
      simp only [BitVec.getLsbD_ushiftRight, List.countP_cons, List.countP_nil]
      have : u.getLsbD (1 + 63) = false := BitVec.getLsbD_of_ge _ _ (by omega)
      simp [this, Nat.add_comm]
    rw [e1, show List.range 64 = 0 :: (List.range 63).map (· + 1) from List.range_succ_eq_map, List.countP_cons, List.countP_map]
    have : (u &&& 1#64).toNat = if u.getLsbD 0 then 1 else 0 := by
      rw [BitVec.toNat_and]
      simp only [BitVec.toNat_ofNat]
      rw [show (1 % 2 ^ 64 : Nat) = 2 ^ 1 - 1 by decide, Nat.and_two_pow_sub_one_eq_mod]
      rw [BitVec.getLsbD]
      rw [Nat.testBit_zero]
      by_cases h : u.toNat % 2 = 1 <;> simp [h] <;> omega
    rw [this, Nat.add_comm]
    rfl
  | case2 u h =>
    have : u = 0#64 := BitVec.eq_of_toNat_eq (by simp; omega)
    subst this
    simp

theorem add_congr {a b c d : Nat} (h1 : a = c) (h2 : b = d) : a + b = c + d := by rw [h1, h2]

theorem countP_range_words (d : List Word) (sz : Int) :
    (d.map countWord).sum = (List.range (64 * d.length)).countP (fun i => has ⟨d, sz⟩ i) := by
  induction d with
  | nil => simp
  | cons w d ih =>
    have : 64 * (w :: d).length = 64 + 64 * d.length := by simp; omega
    rw [this, List.range_add, List.countP_append, List.map_cons, List.sum_cons, countWord_eq, ih, List.countP_map]
    refine add_congr ?_ ?_
    · apply List.countP_congr
      intro i hi
      simp only [List.mem_range] at hi
      have : i / 64 = 0 := by omega
      have h2 : i % 64 = i := by omega
      simp [has, this, h2]
    · apply List.countP_congr
      intro i hi
      have : (64 + i) / 64 = i / 64 + 1 := by omega
      have h2 : (64 + i) % 64 = i % 64 := by omega
      simp [has, this, h2]

theorem foldl_count (d : List Word) (a : Nat) : d.foldl (fun acc u => acc + countWord u) a = a + (d.map countWord).sum := by
  induction d generalizing a with
  | nil => simp
  | cons w d ih => simp [ih]; omega

theorem count_eq (b : Bitset) (w : b.Wf) : b.count = (List.range b.size.toNat).countP (fun i => has b i) := by
  unfold count
  rw [foldl_count, countP_range_words b.data b.size, w.len]
  have : 64 * ((b.size.toNat + 63) / 64) = b.size.toNat + (64 * ((b.size.toNat + 63) / 64) - b.size.toNat) := by omega
  rw [this, List.range_add, List.countP_append, List.countP_map]
  have h0 : List.countP ((fun i => has ⟨b.data, b.size⟩ i) ∘ fun x => b.size.toNat + x)
      (List.range (64 * ((b.size.toNat + 63) / 64) - b.size.toNat)) = 0 := by
    rw [List.countP_eq_zero]
    intro i _
    simp only [Function.comp]
    have := w.above (b.size.toNat + i) (by omega)
    simpa using this
  rw [h0]; simp

/-! ### Union / Intersect -/

theorem shorterFirst_len (a b : Bitset) : (shorterFirst a b).1.data.length ≤ (shorterFirst a b).2.data.length := by
  unfold shorterFirst; split <;> simp <;> omega

theorem has_union (a b : Bitset) (i : Nat) : has (union b a) i = (has b i || has a i) := by
  have key : ∀ s l : List Word, s.length ≤ l.length →
      ((List.zipWith (· ||| ·) s l ++ l.drop s.length)[i / 64]?.getD 0#64).getLsbD (i % 64)
        = ((s[i / 64]?.getD 0#64).getLsbD (i % 64) || (l[i / 64]?.getD 0#64).getLsbD (i % 64)) := by
    intro s l hsl
    by_cases h : i / 64 < s.length
    · have hl : i / 64 < l.length := by omega
      rw [List.getElem?_append_left (by simp; omega)]
      simp [List.getElem?_zipWith, h, hl]
    · rw [List.getElem?_append_right (by simp; omega)]
      rw [List.length_zipWith, Nat.min_eq_left hsl, List.getElem?_drop, List.getElem?_eq_none (l := s) (by omega)]
      have : s.length + (i / 64 - s.length) = i / 64 := by omega
      simp [this]
  unfold union shorterFirst
  by_cases h : a.data.length < b.data.length
  · simp only [h, ↓reduceIte, has]
    rw [key _ _ (by omega), Bool.or_comm]
  · simp only [h, ↓reduceIte, has]
    rw [key _ _ (by omega)]

theorem has_intersect (a b : Bitset) (i : Nat) : has (intersect b a) i = (has b i && has a i) := by
  have key : ∀ s l : List Word, s.length ≤ l.length →
      ((List.zipWith (· &&& ·) s l)[i / 64]?.getD 0#64).getLsbD (i % 64)
        = ((s[i / 64]?.getD 0#64).getLsbD (i % 64) && (l[i / 64]?.getD 0#64).getLsbD (i % 64)) := by
    intro s l hsl
    by_cases h : i / 64 < s.length
    · have hl : i / 64 < l.length := by omega
      simp [List.getElem?_zipWith, h, hl]
    · rw [List.getElem?_eq_none (by simp; omega), List.getElem?_eq_none (l := s) (by omega)]
      simp
  unfold intersect shorterFirst
  by_cases h : a.data.length < b.data.length
  · simp only [h, ↓reduceIte, has]
    rw [key _ _ (by omega), Bool.and_comm]
  · simp only [h, ↓reduceIte, has]
    rw [key _ _ (by omega)]

/-! ### Range scans -/

/-- Invariant of the scan loops after indices `start … i-1` were visited. -/
structure ScanInv (P : Nat → Bool) (emit : Int → Int → List α) (start i : Nat) (s : Scan α)
    (ps : List (Nat × Nat)) (a : Nat) : Prop where
  res : s.result = ps.flatMap (fun p => emit p.1 p.2)
  rs : s.rStart = a
  lo : start ≤ a
  state : (s.rEnd < a ∧ a = i) ∨ (a < i ∧ s.rEnd = (i : Int) - 1)
  cov : covered ps ++ List.range' a (i - a) = (List.range' start (i - start)).filter P
  ne : ∀ p ∈ ps, p.1 ≤ p.2 ∧ p.2 + 1 < a ∧ p.2 < i
  sep : ps.Pairwise (fun a b => a.2 + 1 < b.1)

theorem covered_append (p q : List (Nat × Nat)) : covered (p ++ q) = covered p ++ covered q := by
  induction p with
  | nil => rfl
  | cons x p ih => obtain ⟨s, e⟩ := x; simp [covered, ih]

theorem scan_step (b : Bitset) (sense : Bool) (P : Nat → Bool) (emit : Int → Int → List α) (start i : Nat)
    (hi : i < 2 ^ 63) (hs : start ≤ i)
    (hP : P i = (b.has i == sense)) (s : Scan α) (ps : List (Nat × Nat)) (a : Nat)
    (inv : ScanInv P emit start i s ps a) :
    ∃ s' ps' a', scanStep b sense emit s i = .ok s' ∧ ScanInv P emit start (i + 1) s' ps' a' := by
  have hx : (BitVec.ofNat 64 i).toNat = i := by simp; omega
  have hg : b.get (BitVec.ofNat 64 i) = .ok (b.has i) := by rw [get_eq _ _ (by omega), hx]
  have hfil : (List.range' start (i + 1 - start)).filter P =
      (List.range' start (i - start)).filter P ++ (if P i then [i] else []) := by
    rw [show i + 1 - start = (i - start) + 1 by omega, List.range'_1_concat, List.filter_append]
    congr 1
    rw [show start + (i - start) = i by omega]
    by_cases h : P i <;> simp [h]
  unfold scanStep
  rw [hg]
  by_cases h : P i = true
  · -- inside a run
    have h2 : (b.has i == sense) = true := by rw [← hP]; exact h
    refine ⟨{ s with rEnd := i }, ps, a, by simp only [Res.bind_ok, h2, ↓reduceIte, Res.pure_eq], ⟨inv.res, inv.rs, inv.lo, ?_, ?_, ?_, inv.sep⟩⟩
    · right
      have := inv.state
      simp only; omega
    · rw [hfil, ← inv.cov, if_pos h, List.append_assoc]
      congr 1
      have hai : a ≤ i := by have := inv.state; omega
      rw [show i + 1 - a = (i - a) + 1 by omega, List.range'_1_concat, show a + (i - a) = i by omega]
    · intro p hp; have := inv.ne p hp; omega
  · have h2 : (b.has i == sense) = false := by rw [← hP]; simpa using h
    have hPf : P i = false := by simpa using h
    by_cases hc : s.rEnd ≥ s.rStart
    · have hst : a < i ∧ s.rEnd = (i : Int) - 1 := by
        have := inv.state; have := inv.rs; omega
      refine ⟨{ s with result := s.result ++ emit s.rStart s.rEnd, rStart := i + 1 }, ps ++ [(a, i - 1)], i + 1,
        by simp only [Res.bind_ok, h2, Bool.false_eq_true, ↓reduceIte, hc, Res.pure_eq], ⟨?_, ?_, ?_, ?_, ?_, ?_, ?_⟩⟩
      · have he : s.rEnd = ((i - 1 : Nat) : Int) := by omega
        simp only [List.flatMap_append, inv.res, List.flatMap_cons, List.flatMap_nil, List.append_nil, inv.rs, he]
      · simp
      · have := inv.lo; omega
      · exact Or.inl ⟨by simp only; omega, rfl⟩
      · rw [hfil, ← inv.cov, hPf, covered_append]
        simp only [covered, Nat.sub_self, List.range'_zero, List.append_nil, Bool.false_eq_true, ↓reduceIte]
        rw [show i - 1 + 1 = i by omega]
      · intro p hp
        rw [List.mem_append] at hp
        rcases hp with hp | hp
        · have := inv.ne p hp; omega
        · simp only [List.mem_singleton] at hp; subst hp; simp only; omega
      · rw [List.pairwise_append]
        refine ⟨inv.sep, by simp, ?_⟩
        intro p hp q hq
        simp only [List.mem_singleton] at hq; subst hq
        have := inv.ne p hp
        simp only; omega
    · have hst : s.rEnd < a ∧ a = i := by
        have := inv.state; have := inv.rs; omega
      refine ⟨{ s with rStart := i + 1 }, ps, i + 1, by simp only [Res.bind_ok, h2, Bool.false_eq_true, ↓reduceIte, hc, Res.pure_eq], ⟨inv.res, ?_, ?_, ?_, ?_, ?_, inv.sep⟩⟩
      · simp
      · have := inv.lo; omega
      · exact Or.inl ⟨by simp only; omega, rfl⟩
      · rw [hfil, ← inv.cov, hPf]
        simp [hst.2]
      · intro p hp; have := inv.ne p hp; omega

theorem scan_loop (b : Bitset) (sense : Bool) (P : Nat → Bool) (emit : Int → Int → List α) (start n : Nat)
    (hn : start + n ≤ 2 ^ 63) (hP : ∀ i, P i = (b.has i == sense)) :
    ∃ s ps a, (List.range' start n).foldlM (scanStep b sense emit) { result := [], rStart := start, rEnd := (start : Int) - 1 }
      = .ok s ∧ ScanInv P emit start (start + n) s ps a := by
  induction n with
  | zero =>
    refine ⟨_, [], start, rfl, ⟨rfl, rfl, Nat.le_refl _, ?_, ?_, by simp, by simp⟩⟩
    · left; simp only; omega
    · simp [covered]
  | succ n ih =>
    obtain ⟨s, ps, a, e, inv⟩ := ih (by omega)
    obtain ⟨s', ps', a', e', inv'⟩ := scan_step b sense P emit start (start + n) (by omega) (by omega) (hP _) s ps a inv
    refine ⟨s', ps', a', ?_, inv'⟩
    rw [List.range'_1_concat, List.foldlM_append, e]
    simp [e']

theorem scan_finish (P : Nat → Bool) (emit : Int → Int → List α) (start i : Nat) (s : Scan α)
    (ps : List (Nat × Nat)) (a : Nat) (inv : ScanInv P emit start i s ps a) :
    ∃ rs, scanFinish emit s = rs.flatMap (fun p => emit p.1 p.2) ∧ IsRuns rs P start i ∧ ∀ r ∈ rs, r.2 < i := by
  unfold scanFinish
  by_cases hc : s.rEnd ≥ s.rStart
  · have hst : a < i ∧ s.rEnd = (i : Int) - 1 := by
      have := inv.state; have := inv.rs; omega
    refine ⟨ps ++ [(a, i - 1)], ?_, ⟨?_, ?_, ?_⟩, ?_⟩
    · rw [if_pos hc]
      have he : s.rEnd = ((i - 1 : Nat) : Int) := by omega
      simp only [List.flatMap_append, inv.res, List.flatMap_cons, List.flatMap_nil, List.append_nil, inv.rs, he]
    · intro p hp
      rw [List.mem_append] at hp
      rcases hp with hp | hp
      · exact (inv.ne p hp).1
      · simp only [List.mem_singleton] at hp; subst hp; simp only; omega
    · rw [List.pairwise_append]
      refine ⟨inv.sep, by simp, ?_⟩
      intro p hp q hq
      simp only [List.mem_singleton] at hq; subst hq
      have := inv.ne p hp
      simp only; omega
    · rw [← inv.cov, covered_append]
      simp only [covered, List.append_nil]
      rw [show i - 1 + 1 = i by omega]
    · intro p hp
      rw [List.mem_append] at hp
      rcases hp with hp | hp
      · exact (inv.ne p hp).2.2
      · simp only [List.mem_singleton] at hp; subst hp; simp only; omega
  · have hst : s.rEnd < a ∧ a = i := by
      have := inv.state; have := inv.rs; omega
    refine ⟨ps, ?_, ⟨fun p hp => (inv.ne p hp).1, inv.sep, ?_⟩, fun p hp => (inv.ne p hp).2.2⟩
    · rw [if_neg hc]; exact inv.res
    · rw [← inv.cov, hst.2]; simp

theorem u16_nat (n : Nat) : u16 (n : Int) = UInt16.ofNat n := by
  apply UInt16.toNat_inj.1
  simp [u16, UInt16.ofInt]
  omega

theorem pairUp_flat (rs : List (Nat × Nat)) (h : ∀ r ∈ rs, r.1 < 65536 ∧ r.2 < 65536) :
    pairUp (rs.flatMap (fun p => emitFlat p.1 p.2)) = some rs := by
  induction rs with
  | nil => rfl
  | cons r rs ih =>
    have h1 := h r (by simp)
    simp only [List.flatMap_cons, emitFlat, u16_nat, List.cons_append, List.nil_append, pairUp]
    have := ih (fun q hq => h q (by simp [hq]))
    simp only [emitFlat, u16_nat] at this
    rw [this]
    simp only [Option.map_some, Option.some.injEq, List.cons.injEq, and_true]
    ext
    · simp; omega
    · simp; omega

theorem filledRanges_eq (b : Bitset) (start stop : Nat) (hs : start ≤ stop + 1) (h : stop < 2 ^ 63) :
    ∃ rs, b.filledRanges start stop = .ok (rs.flatMap (fun p => emitFlat p.1 p.2)) ∧
      IsRuns rs b.has start (stop + 1) ∧ ∀ r ∈ rs, r.2 < stop + 1 := by
  obtain ⟨s, ps, a, e, inv⟩ := scan_loop b true b.has emitFlat start (stop + 1 - start) (by omega) (by intro i; simp)
  rw [show start + (stop + 1 - start) = stop + 1 by omega] at inv
  obtain ⟨rs, e2, hr, hb⟩ := scan_finish _ _ _ _ _ _ _ inv
  refine ⟨rs, ?_, hr, hb⟩
  unfold filledRanges
  rw [show ((stop : Int) + 1 - start).toNat = stop + 1 - start by omega, e]
  simp [e2]

theorem filledRanges_empty (b : Bitset) (start stop : Nat) (hs : stop < start) :
    b.filledRanges start stop = .ok [] := by
  unfold filledRanges
  rw [show ((stop : Int) + 1 - start).toNat = 0 by omega]
  simp only [List.range'_zero, List.foldlM_nil, Res.pure_eq, Res.bind_ok, scanFinish]
  rw [if_neg (by omega)]

theorem unfilledRanges_eq (b : Bitset) (h0 : 0 ≤ b.size) (h : b.size < 2 ^ 63) :
    ∃ rs, b.unfilledRanges = .ok (rs.flatMap (fun p => emitRange p.1 p.2)) ∧
      IsRuns rs (fun i => !b.has i) 0 b.size.toNat ∧ ∀ r ∈ rs, r.2 < b.size.toNat := by
  obtain ⟨s, ps, a, e, inv⟩ := scan_loop b false (fun i => !b.has i) emitRange 0 b.size.toNat (by omega) (by intro i; simp)
  simp only [Nat.zero_add] at inv
  obtain ⟨rs, e2, hr, hb⟩ := scan_finish _ _ _ _ _ _ _ inv
  refine ⟨rs, ?_, hr, hb⟩
  unfold unfilledRanges
  simp only [Int.natCast_zero, Int.zero_sub] at e
  rw [e]
  simp [e2]

theorem mem_covered (rs : List (Nat × Nat)) (i : Nat) : i ∈ covered rs ↔ ∃ r ∈ rs, r.1 ≤ i ∧ i ≤ r.2 := by
  induction rs with
  | nil => simp [covered]
  | cons r rs ih =>
    obtain ⟨s, e⟩ := r
    simp only [covered, List.mem_append, List.mem_range'_1, ih, List.mem_cons, exists_eq_or_imp]
    constructor
    · rintro (h | h)
      · left; omega
      · right; exact h
    · rintro (h | h)
      · left; omega
      · right; exact h

/-! ### UnfilledItems -/

theorem items_fold (b : Bitset) (cap n : Nat) (hn : n ≤ 2 ^ 63) :
    (List.range n).foldlM (itemsStep b cap) [] =
      .ok ((((List.range n).filter (fun i => !b.has i)).take cap).map UInt16.ofNat) := by
  induction n with
  | zero => simp
  | succ n ih =>
    rw [List.range_succ, List.foldlM_append, ih (by omega)]
    simp only [Res.bind_ok, List.foldlM_cons, List.foldlM_nil, List.filter_append]
    have hx : (BitVec.ofNat 64 n).toNat = n := by simp; omega
    have hg : b.get (BitVec.ofNat 64 n) = .ok (b.has n) := by rw [get_eq _ _ (by omega), hx]
    unfold itemsStep
    rw [hg]
    generalize (List.range n).filter (fun i => !b.has i) = L
    by_cases hc : ((L.take cap).map UInt16.ofNat).length < cap
    · have hL : L.length < cap := by simp at hc; omega
      rw [if_pos hc]
      have ht : L.take cap = L := List.take_of_length_le (by omega)
      by_cases hb : b.has n = true
      · simp [hb, ht]
      · have hb : b.has n = false := by simpa using hb
        have : (L ++ [n]).take cap = L ++ [n] := List.take_of_length_le (by simp; omega)
        simp [hb, ht, this]
    · have hL : cap ≤ L.length := by simp at hc; omega
      rw [if_neg hc]
      simp [List.take_append_of_le_length hL]

end Bitset
end Flu
