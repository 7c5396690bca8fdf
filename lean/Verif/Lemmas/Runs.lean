import Verif.Spec.Ranges

/-! Run decompositions are unique. -/
namespace Flu.Spec

theorem mem_cov (rs : List (Nat × Nat)) (i : Nat) : i ∈ covered rs ↔ ∃ r ∈ rs, r.1 ≤ i ∧ i ≤ r.2 := by
  induction rs with
  | nil => simp [covered]
  | cons r rs ih =>
    obtain ⟨s, e⟩ := r
    simp only [covered, List.mem_append, List.mem_range'_1, ih, List.mem_cons, exists_eq_or_imp]
    constructor
    · rintro (h | h)
      · left; omega
      · right; exact h
    · rintro (h | h)
      · left; omega
      · right; exact h

theorem runs_unique_aux : ∀ (rs rs' : List (Nat × Nat)), (∀ r ∈ rs, r.1 ≤ r.2) → (∀ r ∈ rs', r.1 ≤ r.2) →
    rs.Pairwise (fun a b => a.2 + 1 < b.1) → rs'.Pairwise (fun a b => a.2 + 1 < b.1) →
    (∀ i, i ∈ covered rs ↔ i ∈ covered rs') → rs = rs'
  | [], [], _, _, _, _, _ => rfl
  | [], r :: _, _, h', _, _, hc => by
      have := (hc r.1).2 ((mem_cov _ _).2 ⟨r, by simp, by omega, h' r (by simp)⟩)
      simp [covered] at this
  | r :: _, [], h, _, _, _, hc => by
      have := (hc r.1).1 ((mem_cov _ _).2 ⟨r, by simp, by omega, h r (by simp)⟩)
      simp [covered] at this
  | r :: rs, r' :: rs', h, h', hp, hp', hc => by
      have hr := h r (by simp)
      have hr' := h' r' (by simp)
      rw [List.pairwise_cons] at hp hp'
      have lo : ∀ i, i ∈ covered (r :: rs) → r.1 ≤ i := by
        intro i hi
        obtain ⟨q, hq, h1, h2⟩ := (mem_cov _ _).1 hi
        rcases List.mem_cons.1 hq with rfl | hq
        · exact h1
        · have := hp.1 q hq; omega
      have lo' : ∀ i, i ∈ covered (r' :: rs') → r'.1 ≤ i := by
        intro i hi
        obtain ⟨q, hq, h1, h2⟩ := (mem_cov _ _).1 hi
        rcases List.mem_cons.1 hq with rfl | hq
        · exact h1
        · have := hp'.1 q hq; omega
      have e1 : r.1 = r'.1 := by
        have a := lo' r.1 ((hc r.1).1 ((mem_cov _ _).2 ⟨r, by simp, by omega, hr⟩))
        have b := lo r'.1 ((hc r'.1).2 ((mem_cov _ _).2 ⟨r', by simp, by omega, hr'⟩))
        omega
      have gap : r.2 + 1 ∉ covered (r :: rs) := by
        intro hi
        obtain ⟨q, hq, h1, h2⟩ := (mem_cov _ _).1 hi
        rcases List.mem_cons.1 hq with rfl | hq
        · omega
        · have := hp.1 q hq; omega
      have gap' : r'.2 + 1 ∉ covered (r' :: rs') := by
        intro hi
        obtain ⟨q, hq, h1, h2⟩ := (mem_cov _ _).1 hi
        rcases List.mem_cons.1 hq with rfl | hq
        · omega
        · have := hp'.1 q hq; omega
      have e2 : r.2 = r'.2 := by
        rcases Nat.lt_trichotomy r.2 r'.2 with hlt | heq | hlt
        · exact absurd ((hc (r.2 + 1)).2 ((mem_cov _ _).2 ⟨r', by simp, by omega, by omega⟩)) gap
        · exact heq
        · exact absurd ((hc (r'.2 + 1)).1 ((mem_cov _ _).2 ⟨r, by simp, by omega, by omega⟩)) gap'
      have er : r = r' := Prod.ext e1 e2
      subst er
      congr 1
      apply runs_unique_aux rs rs' (fun q hq => h q (by simp [hq])) (fun q hq => h' q (by simp [hq])) hp.2 hp'.2
      intro i
      have hci := hc i
      simp only [mem_cov, List.mem_cons, exists_eq_or_imp] at hci
      rw [mem_cov, mem_cov]
      constructor
      · intro hi
        obtain ⟨q, hq, h1, h2⟩ := hi
        have := hp.1 q hq
        rcases hci.1 (Or.inr ⟨q, hq, h1, h2⟩) with hx | hx
        · omega
        · exact hx
      · intro hi
        obtain ⟨q, hq, h1, h2⟩ := hi
        have := hp'.1 q hq
        rcases hci.2 (Or.inr ⟨q, hq, h1, h2⟩) with hx | hx
        · omega
        · exact hx

/-- A set of indices has at most one run decomposition: the specification determines the answer. -/
theorem IsRuns.unique {rs rs' : List (Nat × Nat)} {P : Nat → Bool} {lo hi : Nat}
    (h : IsRuns rs P lo hi) (h' : IsRuns rs' P lo hi) : rs = rs' :=
  runs_unique_aux rs rs' h.nonempty h'.nonempty h.separated h'.separated (by intro i; rw [h.exact, h'.exact])

theorem IsRuns.mem {rs : List (Nat × Nat)} {P : Nat → Bool} {lo hi : Nat} (h : IsRuns rs P lo hi) (i : Nat) :
    (∃ r ∈ rs, r.1 ≤ i ∧ i ≤ r.2) ↔ (lo ≤ i ∧ i < hi ∧ P i = true) := by
  rw [← mem_cov, h.exact, List.mem_filter, List.mem_range'_1]
  constructor
  · rintro ⟨h1, h2⟩; exact ⟨by omega, by omega, h2⟩
  · rintro ⟨h1, h2, h3⟩; exact ⟨by omega, h3⟩

end Flu.Spec
