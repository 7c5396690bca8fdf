import Verif.Model.Bitset

namespace Flu

theorem indexAt_nat (l : List α) (i : Nat) :
    indexAt l (i : Int) = match l[i]? with | some a => .ok a | none => .panic := by
  have : ¬ ((i : Int) < 0) := by omega
  simp only [indexAt, this, ↓reduceIte, Int.toNat_natCast]
  split <;> simp_all

theorem indexAt_lt (l : List α) (i : Nat) (h : i < l.length) : indexAt l (i : Int) = .ok l[i] := by
  simp [indexAt_nat, h]

theorem storeAt_nat (l : List α) (i : Nat) (v : α) :
    storeAt l (i : Int) v = if i < l.length then .ok (l.set i v) else .panic := by
  have : ¬ ((i : Int) < 0) := by omega
  simp [storeAt, this]

namespace Bitset

/-- Internal abstraction: bit `i` of the word array. -/
def has (b : Bitset) (i : Nat) : Bool := (b.data[i / 64]?.getD 0#64).getLsbD (i % 64)

/-- Internal invariant of bitsets built with `NewBitset`/`Set`/`Unset`/`Fill`. -/
structure Wf (b : Bitset) : Prop where
  size_nonneg : 0 ≤ b.size
  size_lt : b.size < 2 ^ 63
  len : b.data.length = (b.size.toNat + 63) / 64
  above : ∀ i, b.size.toNat ≤ i → has b i = false

theorem toInt_small (x : BitVec 64) (h : x.toNat < 2 ^ 63) : x.toInt = (x.toNat : Int) := by
  rw [BitVec.toInt_eq_toNat_of_lt]; omega

theorem tdiv_small (x : BitVec 64) (h : x.toNat < 2 ^ 63) :
    x.toInt.tdiv (wordSize : Nat) = ((x.toNat / 64 : Nat) : Int) := by
  rw [toInt_small x h]; simp [wordSize]

theorem getLsbD_one_shl (k i : Nat) (hk : k < 64) : (1#64 <<< k).getLsbD i = decide (i = k) := by
  simp only [BitVec.getLsbD_shiftLeft, BitVec.getLsbD_one]
  by_cases h : i = k
  · subst h; simp [hk]
  · by_cases h2 : i < k
    · simp [h2, h]
    · simp [h]; intros; omega

theorem and_mask_ne (w : Word) (k : Nat) (hk : k < 64) : ((w &&& (1#64 <<< k)) != 0#64) = w.getLsbD k := by
  by_cases h : w.getLsbD k
  · rw [h]
    simp only [bne_iff_ne, ne_eq]
    intro h0
    have := congrArg (fun v : Word => v.getLsbD k) h0
    simp only [BitVec.getLsbD_and, getLsbD_one_shl _ _ hk, h] at this
    simp at this
  · have h0 : w &&& (1#64 <<< k) = 0#64 := by
      apply BitVec.eq_of_getLsbD_eq
      intro i hi
      simp only [BitVec.getLsbD_and, getLsbD_one_shl _ _ hk]
      by_cases hik : i = k <;> simp_all
    simp [h0, h]

theorem get_eq (b : Bitset) (x : BitVec 64) (h : x.toNat < 2 ^ 63) : b.get x = .ok (b.has x.toNat) := by
  unfold get has
  rw [tdiv_small x h]
  by_cases hl : (b.data.length : Int) ≤ ((x.toNat / 64 : Nat) : Int)
  · have : b.data.length ≤ x.toNat / 64 := by omega
    simp only [ge_iff_le, hl, ↓reduceIte, List.getElem?_eq_none this]; simp
  · have : x.toNat / 64 < b.data.length := by omega
    simp only [ge_iff_le, hl, ↓reduceIte, wordSize, indexAt_lt _ _ this, bitMask, Res.bind_ok, Res.pure_eq]
    rw [and_mask_ne _ _ (Nat.mod_lt _ (by omega))]
    simp [this]

theorem has_of_len_le (b : Bitset) (i : Nat) (h : b.data.length ≤ i / 64) : b.has i = false := by
  simp [has, List.getElem?_eq_none h]

theorem toInt_succ (x : BitVec 64) (h : x.toNat < 2 ^ 63 - 1) : (x + 1#64).toInt = (x.toNat : Int) + 1 := by
  have : (x + 1#64).toNat = x.toNat + 1 := by
    rw [BitVec.toNat_add]; simp; omega
  rw [toInt_small _ (by omega), this]; simp

theorem or_mask_getLsbD (w : Word) (k i : Nat) (hk : k < 64) :
    (w ||| (1#64 <<< k)).getLsbD i = (w.getLsbD i || decide (i = k)) := by
  simp [BitVec.getLsbD_or, getLsbD_one_shl _ _ hk]

theorem sub_mask_getLsbD (w : Word) (k i : Nat) (hk : k < 64) (hs : w.getLsbD k = true) :
    (w - (1#64 <<< k)).getLsbD i = (w.getLsbD i && !decide (i = k)) := by
  let m : Word := 1#64 <<< k
  have hand : (w &&& ~~~m) &&& m = 0#64 := by
    apply BitVec.eq_of_getLsbD_eq; intro j hj
    simp [m, BitVec.getLsbD_and, BitVec.getLsbD_not, getLsbD_one_shl _ _ hk]
  have hor : (w &&& ~~~m) ||| m = w := by
    apply BitVec.eq_of_getLsbD_eq; intro j hj
    simp only [m, BitVec.getLsbD_or, BitVec.getLsbD_and, BitVec.getLsbD_not, getLsbD_one_shl _ _ hk]
    by_cases hjk : j = k <;> simp_all
  have hw : w - m = w &&& ~~~m := by
    have := BitVec.add_eq_or_of_and_eq_zero _ _ hand
    rw [hor] at this
    rw [← this]
    rw [BitVec.add_sub_cancel]
    rw [this]
  show (w - m).getLsbD i = _
  rw [hw]
  simp only [m, BitVec.getLsbD_and, BitVec.getLsbD_not, getLsbD_one_shl _ _ hk]
  by_cases hi : i < 64
  · simp [hi]
  · have : w.getLsbD i = false := BitVec.getLsbD_of_ge _ _ (by omega)
    simp [this]

/-- The word array after the growth step of `Set`. -/
theorem grow_getD (l : List Word) (n i : Nat) :
    (l ++ List.replicate n 0#64)[i]?.getD 0#64 = l[i]?.getD 0#64 := by
  by_cases h : i < l.length
  · rw [List.getElem?_append_left h]
  · simp only [List.getElem?_append_right (Nat.le_of_not_lt h), List.getElem?_replicate,
      List.getElem?_eq_none (Nat.le_of_not_lt h)]
    split <;> rfl

/-- Closed form of `Set` below 2^63-1. -/
theorem set_eq (b : Bitset) (x : BitVec 64) (h : x.toNat < 2 ^ 63 - 1) :
    ∃ d, b.set x = .ok { data := d, size := max b.size (x.toNat + 1) } ∧
      d.length = max b.data.length (x.toNat / 64 + 1) ∧
      ∀ i, has ⟨d, max b.size (x.toNat + 1)⟩ i = (has b i || decide (i = x.toNat)) := by
  have h63 : x.toNat < 2 ^ 63 := by omega
  let n := x.toNat / 64
  let d0 := if (n : Int) > (b.data.length : Int) - 1 then
      b.data ++ List.replicate ((n : Int) - ((b.data.length : Int) - 1)).toNat 0#64 else b.data
  have hlen : d0.length = max b.data.length (n + 1) := by
    simp only [d0]; split <;> (try simp) <;> omega
  have hget : ∀ i : Nat, d0[i]?.getD 0#64 = b.data[i]?.getD 0#64 := by
    intro i
    by_cases hc : (n : Int) > (b.data.length : Int) - 1
    · have : d0 = _ := if_pos hc
      rw [this]; exact grow_getD _ _ _
    · have : d0 = _ := if_neg hc
      rw [this]
  have hn : n < d0.length := by omega
  refine ⟨d0.set n (d0[n] ||| bitMask x), ?_, by simp [hlen, n], ?_⟩
  · unfold set
    simp only [tdiv_small x h63, toInt_succ x h]
    show (do
      let w ← indexAt d0 (n : Int)
      let data ← storeAt d0 (n : Int) (w ||| bitMask x)
      pure ({ data := data, size := max b.size ((x.toNat : Int) + 1) } : Bitset)) = _
    rw [indexAt_lt _ _ hn]
    simp [storeAt_nat, hn]
  · intro i
    simp only [has]
    by_cases hi : i / 64 = n
    · have hnn : (d0.set n (d0[n] ||| bitMask x))[i / 64]? = some (d0[n] ||| bitMask x) := by
        rw [hi]; simp [hn]
      rw [hnn]
      simp only [Option.getD_some, bitMask, wordSize]
      rw [or_mask_getLsbD _ _ _ (Nat.mod_lt _ (by omega)), ← hget (i / 64), hi]
      simp only [List.getElem?_eq_getElem hn, Option.getD_some]
      congr 1
      simp only [decide_eq_decide]
      simp only [n] at hi; omega
    · have : (d0.set n (d0[n] ||| bitMask x))[i / 64]? = d0[i / 64]? := by
        rw [List.getElem?_set_ne (by omega)]
      rw [this, hget]
      have : i ≠ x.toNat := by intro hc; subst hc; exact hi rfl
      simp [this]

theorem set_wf (b b' : Bitset) (x : BitVec 64) (h : x.toNat < 2 ^ 63 - 1) (w : b.Wf) (e : b.set x = .ok b') : b'.Wf := by
  obtain ⟨d, e', hl, hh⟩ := set_eq b x h
  rw [e'] at e; cases e
  have hs := w.size_nonneg
  refine ⟨by simp; omega, by simp only; have := w.size_lt; omega, ?_, ?_⟩
  · simp only [hl, w.len]; omega
  · intro i hi
    simp only at hi
    rw [hh, w.above i (by omega)]
    simp; omega

/-- `Unset` on a set index. -/
theorem unset_eq (b : Bitset) (x : BitVec 64) (h : x.toNat < 2 ^ 63) (hs : b.has x.toNat = true) :
    ∃ d, b.unset x = .ok { b with data := d } ∧ d.length = b.data.length ∧
      ∀ i, has ⟨d, b.size⟩ i = (has b i && !decide (i = x.toNat)) := by
  let n := x.toNat / 64
  have hn : n < b.data.length := by
    by_cases hc : n < b.data.length
    · exact hc
    · rw [has_of_len_le _ _ (by omega)] at hs; cases hs
  refine ⟨b.data.set n (b.data[n] - bitMask x), ?_, by simp, ?_⟩
  · unfold unset
    simp only [tdiv_small x h]
    have : ¬ ((b.data.length : Int) ≤ (n : Int)) := by omega
    simp only [n] at this hn ⊢
    simp only [ge_iff_le, this, ↓reduceIte, indexAt_lt _ _ hn, storeAt_nat, hn, Res.bind_ok, Res.pure_eq]
  · intro i
    simp only [has]
    by_cases hi : i / 64 = n
    · rw [hi]
      simp only [List.getElem?_set_self hn, Option.getD_some, bitMask, wordSize]
      have hb : b.data[n].getLsbD (x.toNat % 64) = true := by simpa [has, n, hn] using hs
      rw [sub_mask_getLsbD _ _ _ (Nat.mod_lt _ (by omega)) hb]
      simp only [List.getElem?_eq_getElem hn, Option.getD_some]
      congr 2
      simp only [decide_eq_decide]
      simp only [n] at hi; omega
    · rw [List.getElem?_set_ne (by omega)]
      have : i ≠ x.toNat := by intro hc; subst hc; exact hi rfl
      simp [this]

/-- `Unset` beyond the allocated words. -/
theorem unset_oob (b : Bitset) (x : BitVec 64) (h : x.toNat < 2 ^ 63) (hl : b.data.length ≤ x.toNat / 64) :
    b.unset x = .ok b := by
  unfold unset
  simp only [tdiv_small x h]
  have : (b.data.length : Int) ≤ ((x.toNat / 64 : Nat) : Int) := by omega
  simp only [ge_iff_le, this, ↓reduceIte, Res.pure_eq]

theorem unset_wf (b b' : Bitset) (x : BitVec 64) (h : x.toNat < 2 ^ 63) (w : b.Wf) (hs : b.has x.toNat = true)
    (e : b.unset x = .ok b') : b'.Wf := by
  obtain ⟨d, e', hl, hh⟩ := unset_eq b x h hs
  rw [e'] at e; cases e
  refine ⟨w.size_nonneg, w.size_lt, by simp [hl, w.len], ?_⟩
  intro i hi
  have := w.above i hi
  show has ⟨d, b.size⟩ i = false
  rw [hh]; simp [this]

theorem newBitset_spec (n : Nat) (hn : n < 2 ^ 63) :
    ∃ b, newBitset (n : Int) = .ok b ∧ b.size = n ∧ b.Wf ∧ ∀ i, has b i = false := by
  by_cases h0 : n = 0
  · subst h0
    refine ⟨⟨[], 0⟩, rfl, rfl, ⟨by simp, by simp, by simp, ?_⟩, ?_⟩ <;> intros <;> simp [has]
  · let x := BitVec.ofInt 64 ((n : Int) - 1)
    have hx : x.toNat = n - 1 := by
      have : (n : Int) - 1 = ((n - 1 : Nat) : Int) := by omega
      simp only [x, this, BitVec.ofInt_natCast, BitVec.toNat_ofNat]
      omega
    obtain ⟨d, e, hl, hh⟩ := set_eq ⟨[], n⟩ x (by omega)
    have hsz : max (n : Int) ((x.toNat : Int) + 1) = n := by omega
    simp only [hsz] at e hh
    have hb : has ⟨d, n⟩ x.toNat = true := by rw [hh]; simp
    obtain ⟨d2, e2, hl2, hh2⟩ := unset_eq ⟨d, n⟩ x (by omega) hb
    have hall : ∀ i, has ⟨d2, n⟩ i = false := by
      intro i; rw [hh2, hh]; simp [has]
    refine ⟨⟨d2, n⟩, ?_, rfl, ⟨by simp, by simp; omega, ?_, fun i _ => hall i⟩, hall⟩
    · have h1 : ¬ ((n : Int) < 0) := by omega
      have h2 : (n : Int) > 0 := by omega
      simp only [newBitset, h1, h2, ↓reduceIte]
      show (do let r ← set ⟨[], n⟩ x; r.unset x) = _
      rw [e]; simpa using e2
    · simp only [hl2, hl, hx]; simp; omega

end Bitset
end Flu
