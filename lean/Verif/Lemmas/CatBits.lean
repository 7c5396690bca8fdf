import Verif.Props.Bitset
import Verif.Lemmas.CatSync
/-!
# Bitset facts for progress that may have been read from a cut-short file
-/
namespace Flu
open Spec

theorem unfilled_pairs (b : Bitset) (h0 : 0 ≤ b.size) (hs : b.size ≤ 65536) :
    ∃ rs, b.unfilledRanges = .ok rs ∧ IsRuns (rangePairs rs) (fun i => !b.has i) 0 b.size.toNat := by
  obtain ⟨rs, h1, h2, h3⟩ := Bitset.unfilledRanges_eq b h0 (by omega)
  refine ⟨_, h1, ?_⟩
  have e : rangePairs (rs.flatMap (fun p => Bitset.emitRange p.1 p.2)) = rs := by
    have : ∀ l : List (Nat × Nat), (∀ r ∈ l, r.1 ≤ r.2 ∧ r.2 < 65536) →
        rangePairs (l.flatMap (fun p => Bitset.emitRange p.1 p.2)) = l := by
      intro l
      induction l with
      | nil => intro _; rfl
      | cons r l ih =>
        intro hl
        have hr := hl r (by simp)
        have := ih (fun q hq => hl q (by simp [hq]))
        simp only [rangePairs, List.flatMap_cons, Bitset.emitRange, Bitset.u16_nat, List.cons_append, List.nil_append,
          List.map_cons] at this ⊢
        rw [this]
        congr 1
        apply Prod.ext <;> simp <;> omega
    apply this
    intro r hr
    have := h3 r hr
    have := h2.nonempty r hr
    omega
  rw [e]; exact h2

theorem runs_nil_iff (rs : List Range) (P : Nat → Bool) (n : Nat) (h : IsRuns (rangePairs rs) P 0 n) : rs = [] ↔ ∀ i, i < n → P i = false := by
  constructor
  · rintro rfl i hi
    have he := h.exact
    cases hp : P i with
    | false => rfl
    | true =>
      exfalso
      have : i ∈ (List.range' 0 (n - 0)).filter P := by
        rw [List.mem_filter]; exact ⟨by simp; omega, hp⟩
      rw [← he] at this; cases this
  · intro hall
    cases rs with
    | nil => rfl
    | cons r rs =>
      exfalso
      have hr := h.nonempty (r.start.toNat, r.stop.toNat) (by simp [rangePairs])
      have : r.start.toNat ∈ covered (rangePairs (r :: rs)) :=
        (mem_cov _ _).2 ⟨(r.start.toNat, r.stop.toNat), by simp [rangePairs], Nat.le_refl _, hr⟩
      rw [h.exact, List.mem_filter] at this
      have h2 := hall r.start.toNat (by have := this.1; simp at this; omega)
      rw [h2] at this; cases this.2

theorem fullLoop_true (d : List Word) (l : List Nat) (h : Bitset.fullLoop d l = .ok true) : ∀ i ∈ l, i < d.length := by
  induction l with
  | nil => simp
  | cons i l ih =>
    unfold Bitset.fullLoop at h
    obtain ⟨w, hw, h⟩ := (Res.bind_ok_iff _ _ _).1 h
    have hi : i < d.length := by
      unfold indexAt at hw
      rw [if_neg (by omega)] at hw
      by_cases hc : i < d.length
      · exact hc
      · have : d[((i : Nat) : Int).toNat]? = none := by simp; omega
        rw [this] at hw; cases hw
    split at h
    · cases h
    · intro j hj
      rcases List.mem_cons.1 hj with rfl | hj
      · exact hi
      · exact ih h j hj

/-- `Full` on progress read from disk: if it returns at all, it tells the truth. -/
theorem full_loaded (b : Bitset) (w : Loaded b) (v : Bool) (h : b.full = .ok v) : v = decide (∀ i, i < b.size.toNat → b.has i = true) := by
  by_cases hl : b.data.length = (b.size.toNat + 63) / 64
  · have wf : b.Wf := ⟨w.size_nonneg, w.size_lt, hl, w.above⟩
    rw [Bitset.full_eq b wf] at h
    injection h with h; exact h.symm
  · have hlt : b.data.length < (b.size.toNat + 63) / 64 := by have := w.len; omega
    have h0 : b.size ≠ 0 := by intro e; rw [e] at hlt; simp at hlt
    have hn := w.size_nonneg
    have hf : ¬ ∀ i, i < b.size.toNat → b.has i = true := by
      intro hall
      have := hall (64 * ((b.size.toNat - 1) / 64)) (by omega)
      unfold Bitset.has at this
      rw [show 64 * ((b.size.toNat - 1) / 64) / 64 = (b.size.toNat - 1) / 64 by omega] at this
      have hno : b.data[(b.size.toNat - 1) / 64]? = none := by simp; omega
      rw [hno] at this
      simp at this
    rw [decide_eq_false hf]
    cases v with
    | false => rfl
    | true =>
      exfalso
      unfold Bitset.full at h
      simp only [h0, ↓reduceIte, Bitset.tdiv_size b h0 hn, Int.toNat_natCast] at h
      obtain ⟨pre, hpre, h⟩ := (Res.bind_ok_iff _ _ _).1 h
      cases pre with
      | false => simp only [Bool.not_false, ↓reduceIte] at h; cases h
      | true =>
        simp only [Bool.not_true, Bool.false_eq_true, ↓reduceIte] at h
        obtain ⟨x, hx, h⟩ := (Res.bind_ok_iff _ _ _).1 h
        unfold indexAt at hx
        rw [if_neg (by omega)] at hx
        have : b.data[(((b.size.toNat - 1) / 64 : Nat) : Int).toNat]? = none := by simp; omega
        rw [this] at hx; cases hx

end Flu
