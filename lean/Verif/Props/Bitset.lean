import Verif.Lemmas.BitsetSer
import Verif.Lemmas.Runs
import Verif.Spec.Bitset

/-!
# Properties of `common/bitset` (C01–C11, C13)

`history n ops` is the Go program `b := NewBitset(n)` followed by the calls `ops`.  The theorems compare it with the
ideal set `Spec.SSet`.  All statements use only calls of the API (`get`, `size`, `count`, …).
-/

namespace Flu
open Spec

/-- One call of a mutating method of `Bitset` with an index given as a number. -/
def applyOp (b : Bitset) : BOp → Res Bitset
  | .set x => b.set (BitVec.ofNat 64 x)
  | .unset x => b.unset (BitVec.ofNat 64 x)
  | .fill => b.fill

/-- `b := NewBitset(n)` and then a sequence of calls. -/
def history (n : Nat) (ops : List BOp) : Res Bitset := do
  let b ← Bitset.newBitset (n : Int)
  ops.foldlM applyOp b

/-- `b` is what some legal history produces, and `s` is what that history should produce. -/
def Reaches (b : Bitset) (s : SSet) : Prop :=
  ∃ n ops, n < 2 ^ 63 ∧ (SSet.empty n).LegalRun ops ∧ history n ops = .ok b ∧ s = (SSet.empty n).run ops

/-- Representation relation (internal). -/
structure Rep (b : Bitset) (s : SSet) : Prop where
  wf : b.Wf
  size : b.size = s.size
  mem : ∀ i, b.has i = s.mem i

theorem Rep.len {b : Bitset} {s : SSet} (r : Rep b s) : b.data.length = (s.size + 63) / 64 := by
  rw [r.wf.len, r.size]; simp

theorem toNat_ofNat_small (x : Nat) (h : x < 2 ^ 63) : (BitVec.ofNat 64 x).toNat = x := by
  simp only [BitVec.toNat_ofNat]; omega

theorem Rep.step {b : Bitset} {s : SSet} (r : Rep b s) (op : BOp) (h : s.Legal op) :
    ∃ b', applyOp b op = .ok b' ∧ Rep b' (s.step op) := by
  cases op with
  | set x =>
    simp only [SSet.Legal] at h
    have hx := toNat_ofNat_small x (by omega)
    obtain ⟨d, h1, h2, h3⟩ := Bitset.set_eq b (BitVec.ofNat 64 x) (by omega)
    refine ⟨_, h1, Bitset.set_wf b _ _ (by omega) r.wf h1, ?_, ?_⟩
    · simp only [SSet.step]; rw [hx, r.size]; omega
    · intro i; rw [h3 i, hx, r.mem]; simp only [SSet.step]; rw [Bool.or_comm]
  | unset x =>
    obtain ⟨hx63, h⟩ := h
    have hx := toNat_ofNat_small x hx63
    rcases h with h | h
    · have hs : b.has (BitVec.ofNat 64 x).toNat = true := by rw [hx, r.mem]; exact h
      obtain ⟨d, h1, h2, h3⟩ := Bitset.unset_eq b (BitVec.ofNat 64 x) (by omega) hs
      refine ⟨_, h1, Bitset.unset_wf b _ _ (by omega) r.wf hs h1, r.size, ?_⟩
      intro i; rw [h3 i, hx, r.mem]; simp only [SSet.step]; rw [Bool.and_comm]
    · refine ⟨b, Bitset.unset_oob b _ (by omega) (by rw [hx, r.len]; exact h), r.wf, r.size, ?_⟩
      intro i
      simp only [SSet.step]
      by_cases hi : i = x
      · subst hi
        rw [Bitset.has_of_len_le b i (by rw [r.len]; exact h)]; simp
      · simp [hi, r.mem]
  | fill =>
    obtain ⟨d, h1, h2, h3⟩ := Bitset.fill_eq b r.wf
    refine ⟨_, h1, h2, r.size, ?_⟩
    intro i
    rw [h3 i]; simp only [SSet.step]
    rw [r.size]; simp

theorem Rep.run {b : Bitset} {s : SSet} (r : Rep b s) (ops : List BOp) (h : s.LegalRun ops) :
    ∃ b', ops.foldlM applyOp b = .ok b' ∧ Rep b' (s.run ops) := by
  induction ops generalizing b s with
  | nil => exact ⟨b, rfl, r⟩
  | cons op ops ih =>
    obtain ⟨b1, h1, r1⟩ := r.step op h.1
    obtain ⟨b2, h2, r2⟩ := ih r1 h.2
    exact ⟨b2, by rw [List.foldlM_cons, h1]; exact h2, r2⟩

theorem history_rep (n : Nat) (ops : List BOp) (hn : n < 2 ^ 63) (h : (SSet.empty n).LegalRun ops) :
    ∃ b, history n ops = .ok b ∧ Rep b ((SSet.empty n).run ops) := by
  obtain ⟨b0, h0, hs, hw, hm⟩ := Bitset.newBitset_spec n hn
  obtain ⟨b, h1, r⟩ := Rep.run (b := b0) (s := SSet.empty n) ⟨hw, hs, hm⟩ ops h
  exact ⟨b, by unfold history; rw [h0]; exact h1, r⟩

theorem Reaches.rep {b : Bitset} {s : SSet} (h : Reaches b s) : Rep b s := by
  obtain ⟨n, ops, hn, hl, he, rfl⟩ := h
  obtain ⟨b', h1, r⟩ := history_rep n ops hn hl
  rw [he] at h1; cases h1; exact r

theorem Reaches.size_lt {b : Bitset} {s : SSet} (h : Reaches b s) : s.size < 2 ^ 63 := by
  have := h.rep.wf.size_lt; rw [h.rep.size] at this; omega

/-- Every legal history runs without panic or error (so `Reaches` is not vacuous), and every API query on its
result is the ideal one. -/
theorem history_refines (n : Nat) (ops : List BOp) (hn : n < 2 ^ 63) (h : (SSet.empty n).LegalRun ops) :
    ∃ b, history n ops = .ok b ∧ Reaches b ((SSet.empty n).run ops) ∧
      b.sizeOf = ((SSet.empty n).run ops).size ∧
      ∀ x, x < 2 ^ 63 → b.get (BitVec.ofNat 64 x) = .ok (((SSet.empty n).run ops).mem x) := by
  obtain ⟨b, h1, r⟩ := history_rep n ops hn h
  refine ⟨b, h1, ⟨n, ops, hn, h, h1, rfl⟩, r.size, ?_⟩
  intro x hx
  have := toNat_ofNat_small x hx
  rw [Bitset.get_eq _ _ (by omega), r.mem, this]

/-! ## C01 -/

theorem run_sets (s : SSet) (xs : List Nat) (y : Nat) :
    (s.run (xs.map BOp.set)).mem y = (decide (y ∈ xs) || s.mem y) := by
  induction xs generalizing s with
  | nil => simp [SSet.run]
  | cons x xs ih =>
    have := ih (s.step (.set x))
    simp only [SSet.run, List.map_cons, List.foldl_cons] at this ⊢
    rw [this]; simp only [SSet.step, List.mem_cons, Bool.decide_or]
    cases decide (y ∈ xs) <;> cases decide (y = x) <;> simp

theorem legal_sets (s : SSet) (xs : List Nat) (h : ∀ x ∈ xs, x < 2 ^ 63 - 1) : s.LegalRun (xs.map BOp.set) := by
  induction xs generalizing s with
  | nil => trivial
  | cons x xs ih => exact ⟨h x (by simp), ih _ (fun y hy => h y (by simp [hy]))⟩

/-- C01: after `NewBitset(n)` and any `Set` calls, `Get` is membership among the arguments. -/
theorem C01_set_get (n : Nat) (xs : List Nat) (hn : n < 2 ^ 63) (hx : ∀ x ∈ xs, x < 2 ^ 63 - 1) :
    ∃ b, history n (xs.map BOp.set) = .ok b ∧
      ∀ y, y < 2 ^ 63 → b.get (BitVec.ofNat 64 y) = .ok (decide (y ∈ xs)) := by
  obtain ⟨b, h1, _, _, h2⟩ := history_refines n (xs.map BOp.set) hn (legal_sets _ xs hx)
  refine ⟨b, h1, fun y hy => ?_⟩
  rw [h2 y hy, run_sets]; simp [SSet.empty]

/-- C01, mixed histories: every `Get` after any legal sequence of `Set`/`Unset`/`Fill` is the ideal answer. -/
theorem C01_history_get {b : Bitset} {s : SSet} (h : Reaches b s) (x : Nat) (hx : x < 2 ^ 63) :
    b.get (BitVec.ofNat 64 x) = .ok (s.mem x) := by
  rw [Bitset.get_eq _ _ (by rw [toNat_ofNat_small x hx]; exact hx), h.rep.mem, toNat_ofNat_small x hx]

/-- C01 for an arbitrary bitset value (also one from `Deserialize`): `Set` changes no other index. -/
theorem C01_set_frame (b : Bitset) (x : Nat) (hx : x < 2 ^ 63 - 1) :
    ∃ b', b.set (BitVec.ofNat 64 x) = .ok b' ∧ b'.get (BitVec.ofNat 64 x) = .ok true ∧
      ∀ y, y < 2 ^ 63 → y ≠ x → b'.get (BitVec.ofNat 64 y) = b.get (BitVec.ofNat 64 y) := by
  have hx' := toNat_ofNat_small x (by omega)
  obtain ⟨d, h1, h2, h3⟩ := Bitset.set_eq b (BitVec.ofNat 64 x) (by omega)
  refine ⟨_, h1, ?_, ?_⟩
  · rw [Bitset.get_eq _ _ (by omega), h3]; simp
  · intro y hy hne
    have hy' := toNat_ofNat_small y hy
    rw [Bitset.get_eq _ _ (by omega), Bitset.get_eq _ _ (by omega), h3, hx', hy']
    simp [hne]

example : ∃ b, history 3 ([70, 2, 70].map BOp.set) = .ok b ∧ b.get 70#64 = .ok true ∧ b.get 69#64 = .ok false := by
  obtain ⟨b, h, g⟩ := C01_set_get 3 [70, 2, 70] (by omega) (by simp)
  exact ⟨b, h, g 70 (by omega), g 69 (by omega)⟩

/-! ## C02 -/

/-- C02 in full: `Unset` clears one index and nothing else. -/
def C02_statement : Prop := ∀ (b : Bitset) (s : SSet), Reaches b s → ∀ x, x < 2 ^ 63 →
  ∃ b', b.unset (BitVec.ofNat 64 x) = .ok b' ∧ b'.get (BitVec.ofNat 64 x) = .ok false ∧
    ∀ y, y < 2 ^ 63 → y ≠ x → b'.get (BitVec.ofNat 64 y) = b.get (BitVec.ofNat 64 y)

/-- C02 as far as it is true: `x` is set, or lies beyond the allocated words (at least at the next multiple of 64 at
or above `Size()`).  Missing: `x` clear and below that bound, where the code misbehaves (`C02_unset_clear`). -/
theorem C02_unset_partial (b : Bitset) (s : SSet) (h : Reaches b s) (x : Nat) (hx : x < 2 ^ 63)
    (hm : b.get (BitVec.ofNat 64 x) = .ok true ∨ (s.size + 63) / 64 ≤ x / 64) :
    ∃ b', b.unset (BitVec.ofNat 64 x) = .ok b' ∧ b'.get (BitVec.ofNat 64 x) = .ok false ∧
      ∀ y, y < 2 ^ 63 → y ≠ x → b'.get (BitVec.ofNat 64 y) = b.get (BitVec.ofNat 64 y) := by
  rw [C01_history_get h x hx] at hm
  have hl : s.Legal (.unset x) := ⟨hx, by rcases hm with hm | hm; · left; injection hm
                                          · right; exact hm⟩
  obtain ⟨b', h1, r⟩ := h.rep.step (.unset x) hl
  have hx' := toNat_ofNat_small x hx
  refine ⟨b', h1, ?_, ?_⟩
  · rw [Bitset.get_eq _ _ (by omega), r.mem]; simp [SSet.step, hx']
  · intro y hy hne
    have hy' := toNat_ofNat_small y hy
    rw [Bitset.get_eq _ _ (by omega), Bitset.get_eq _ _ (by omega), r.mem, h.rep.mem]; simp [SSet.step, hy', hne]

/-- The other case, exactly: `Unset` of a clear index inside the allocated words *sets* it. -/
theorem C02_unset_clear (b : Bitset) (x : Nat) (hx : x < 2 ^ 63) (hl : x / 64 < b.data.length)
    (hm : b.get (BitVec.ofNat 64 x) = .ok false) :
    ∃ b', b.unset (BitVec.ofNat 64 x) = .ok b' ∧ b'.get (BitVec.ofNat 64 x) = .ok true := by
  have hx' := toNat_ofNat_small x hx
  rw [Bitset.get_eq _ _ (by omega), hx'] at hm
  injection hm with hm
  have hoff := Bitset.tdiv_small (BitVec.ofNat 64 x) (by omega)
  rw [hx'] at hoff
  refine ⟨{ b with data := b.data.set (x / 64) (b.data[x / 64] - Bitset.bitMask (BitVec.ofNat 64 x)) }, ?_, ?_⟩
  · unfold Bitset.unset
    simp only [hoff]
    rw [if_neg (by omega), indexAt_lt _ _ hl, Res.bind_ok, storeAt_nat, if_pos hl]; rfl
  · rw [Bitset.get_eq _ _ (by omega), hx']
    congr 1
    simp only [Bitset.has] at hm ⊢
    rw [List.getElem?_set_self hl]
    rw [List.getElem?_eq_getElem hl] at hm
    simp only [Option.getD_some, Bitset.bitMask, Bitset.wordSize, hx'] at hm ⊢
    generalize b.data[x / 64] = w at hm
    cases hc : (w - 1#64 <<< (x % 64)).getLsbD (x % 64) with
    | true => rfl
    | false =>
      exfalso
      have hk : x % 64 < 64 := Nat.mod_lt _ (by omega)
      have hand : (w - 1#64 <<< (x % 64)) &&& (1#64 <<< (x % 64)) = 0#64 := by
        apply BitVec.eq_of_getLsbD_eq; intro j hj
        rw [BitVec.getLsbD_and, Bitset.getLsbD_one_shl _ _ hk]
        by_cases hjk : j = x % 64
        · subst hjk; simp [hc]
        · simp [hjk]
      have := BitVec.add_eq_or_of_and_eq_zero _ _ hand
      rw [BitVec.sub_add_cancel] at this
      rw [this, BitVec.getLsbD_or, Bitset.getLsbD_one_shl _ _ hk] at hm
      simp at hm

theorem C02_refuted : ¬ C02_statement := by
  intro hall
  obtain ⟨b, h1, hr, _, hg⟩ := history_refines 1 [] (by omega) trivial
  obtain ⟨b1, h2, h3, _⟩ := hall b _ hr 0 (by omega)
  obtain ⟨b2, h4, h5⟩ := C02_unset_clear b 0 (by omega) (by rw [hr.rep.len]; decide) (hg 0 (by omega))
  rw [h2] at h4; cases h4
  rw [h3] at h5; cases h5

example : ∃ b, history 3 [.set 1, .set 130, .unset 1] = .ok b ∧ b.get 1#64 = .ok false ∧ b.get 130#64 = .ok true := by
  obtain ⟨b, h, _, _, g⟩ := history_refines 3 [.set 1, .set 130, .unset 1] (by omega)
    (by simp [SSet.LegalRun, SSet.Legal, SSet.step])
  exact ⟨b, h, g 1 (by omega), g 130 (by omega)⟩

/-! ## C03 -/

/-- The arguments of the `Set` calls in a history. -/
def setArgs (ops : List BOp) : List Nat := ops.filterMap (fun | .set x => some x | _ => none)

theorem run_size (s : SSet) (ops : List BOp) :
    (s.run ops).size = (setArgs ops).foldl (fun m x => max m (x + 1)) s.size := by
  induction ops generalizing s with
  | nil => rfl
  | cons op ops ih =>
    have := ih (s.step op)
    simp only [SSet.run, List.foldl_cons] at this ⊢
    rw [this]
    cases op <;> simp [setArgs, SSet.step]

theorem run_above (s : SSet) (ops : List BOp) (h : ∀ i, s.size ≤ i → s.mem i = false) :
    ∀ i, (s.run ops).size ≤ i → (s.run ops).mem i = false := by
  induction ops generalizing s with
  | nil => exact h
  | cons op ops ih =>
    simp only [SSet.run, List.foldl_cons]
    apply ih
    intro i hi
    cases op with
    | set x => simp only [SSet.step] at hi ⊢; rw [h i (by omega)]; simp; omega
    | unset x => simp only [SSet.step] at hi ⊢; rw [h i hi]; simp
    | fill => simp only [SSet.step] at hi ⊢; simp; omega

/-- C03: after any legal history `Size()` is the maximum of `n` and one more than the largest index ever set, and no
index at or above it reads as set. -/
theorem C03_size (n : Nat) (ops : List BOp) (hn : n < 2 ^ 63) (h : (SSet.empty n).LegalRun ops) :
    ∃ b, history n ops = .ok b ∧ b.sizeOf = (((setArgs ops).foldl (fun m x => max m (x + 1)) n : Nat) : Int) ∧
      ∀ x : Nat, b.sizeOf ≤ x → x < 2 ^ 63 → b.get (BitVec.ofNat 64 x) = .ok false := by
  obtain ⟨b, h1, _, h3, h4⟩ := history_refines n ops hn h
  refine ⟨b, h1, ?_, ?_⟩
  · rw [h3, run_size]; rfl
  · rw [h3]; intro x hx hx2
    rw [h4 x hx2, run_above _ ops (by simp [SSet.empty]) x (by omega)]

/-- One call with an argument a Go `int` can hold, on a bitset of the right shape. -/
theorem shape_step (b : Bitset) (hb : b.Shape) (op : BOp)
    (ho : match op with | .set x => x < 2 ^ 63 - 1 | .unset x => x < 2 ^ 63 | .fill => True) :
    ∃ b', applyOp b op = .ok b' ∧ b'.Shape ∧
      b'.size = (((setArgs [op]).foldl (fun m x => max m (x + 1)) b.size.toNat : Nat) : Int) := by
  have h0 := hb.size_nonneg
  have h1 := hb.size_lt
  have h2 := hb.len
  cases op with
  | set x =>
    have hx : x < 2 ^ 63 - 1 := ho
    have hx' := toNat_ofNat_small x (by omega)
    obtain ⟨d, e, hl, -⟩ := Bitset.set_eq b (BitVec.ofNat 64 x) (by omega)
    rw [hx'] at e hl
    refine ⟨_, e, ⟨?_, ?_, ?_⟩, ?_⟩
    · show (0 : Int) ≤ max b.size _; omega
    · show max b.size _ < _; omega
    · show d.length = ((max b.size _).toNat + 63) / 64; omega
    · show max b.size _ = _
      simp only [setArgs, List.filterMap_cons, List.filterMap_nil, List.foldl_cons, List.foldl_nil]; omega
  | unset x =>
    have hx : x < 2 ^ 63 := ho
    obtain ⟨d, e, hl⟩ := Bitset.unset_any b (BitVec.ofNat 64 x) (by rw [toNat_ofNat_small x hx]; exact hx)
    refine ⟨_, e, ⟨h0, h1, hl.trans h2⟩, ?_⟩
    show b.size = _
    simp only [setArgs, List.filterMap_cons, List.filterMap_nil, List.foldl_nil]; omega
  | fill =>
    obtain ⟨d, e, w, -⟩ := Bitset.fill_shape b hb
    refine ⟨_, e, w.shape, ?_⟩
    show b.size = _
    simp only [setArgs, List.filterMap_cons, List.filterMap_nil, List.foldl_nil]; omega

/-- C03: `Size()` is the maximum of `n` and one more than the largest index ever set after any history at all, also
one that clears a clear index (which C02 shows to corrupt other indices), and no such history panics. -/
theorem C03_size_any (n : Nat) (ops : List BOp) (hn : n < 2 ^ 63)
    (h : ∀ op ∈ ops, match op with | .set x => x < 2 ^ 63 - 1 | .unset x => x < 2 ^ 63 | .fill => True) :
    ∃ b, history n ops = .ok b ∧ b.sizeOf = (((setArgs ops).foldl (fun m x => max m (x + 1)) n : Nat) : Int) := by
  obtain ⟨b0, h0, hs, hw, -⟩ := Bitset.newBitset_spec n hn
  have key : ∀ (ops : List BOp) (b : Bitset), b.Shape →
      (∀ op ∈ ops, match op with | .set x => x < 2 ^ 63 - 1 | .unset x => x < 2 ^ 63 | .fill => True) →
      ∃ b', ops.foldlM applyOp b = .ok b' ∧
        b'.size = (((setArgs ops).foldl (fun m x => max m (x + 1)) b.size.toNat : Nat) : Int) := by
    intro ops
    induction ops with
    | nil => intro b hb _; have := hb.size_nonneg; exact ⟨b, rfl, by simp only [setArgs, List.filterMap_nil, List.foldl_nil]; omega⟩
    | cons op ops ih =>
      intro b hb h
      obtain ⟨b1, e1, s1, z1⟩ := shape_step b hb op (h op (by simp))
      obtain ⟨b2, e2, z2⟩ := ih b1 s1 (fun o ho => h o (by simp [ho]))
      refine ⟨b2, by rw [List.foldlM_cons, e1]; exact e2, ?_⟩
      rw [z2, z1, Int.toNat_natCast, show setArgs (op :: ops) = setArgs [op] ++ setArgs ops by
        cases op <;> simp [setArgs], List.foldl_append]
  obtain ⟨b, e, z⟩ := key ops b0 hw.shape h
  refine ⟨b, by unfold history; rw [h0]; exact e, ?_⟩
  unfold Bitset.sizeOf
  rw [z, hs, Int.toNat_natCast]

example : ∃ b, history 3 [.set 10, .unset 2, .unset 2, .fill] = .ok b ∧ b.sizeOf = 11 := by
  obtain ⟨b, h, g⟩ := C03_size_any 3 [.set 10, .unset 2, .unset 2, .fill] (by omega) (by simp)
  exact ⟨b, h, by rw [g]; simp [setArgs]⟩

/-- C03: no operation ever decreases `Size()`, whatever the bitset and index. -/
theorem C03_monotone (b b' : Bitset) (op : BOp) (h : applyOp b op = .ok b') : b.sizeOf ≤ b'.sizeOf := by
  unfold Bitset.sizeOf
  cases op with
  | set x =>
    simp only [applyOp, Bitset.set] at h
    cases h1 : indexAt (if (BitVec.ofNat 64 x).toInt.tdiv ↑Bitset.wordSize > (b.data.length : Int) - 1 then
      b.data ++ List.replicate ((BitVec.ofNat 64 x).toInt.tdiv ↑Bitset.wordSize - ((b.data.length : Int) - 1)).toNat 0#64
      else b.data) (((BitVec.ofNat 64 x).toNat / Bitset.wordSize : Nat) : Int) with
    | ok w =>
      rw [h1, Res.bind_ok] at h
      revert h
      generalize storeAt _ _ _ = r
      intro h
      cases r with
      | ok d => simp only [Res.bind_ok, Res.pure_eq] at h; injection h with h; subst h; simp only; omega
      | _ => simp at h
    | _ => rw [h1] at h; simp at h
  | unset x =>
    simp only [applyOp, Bitset.unset] at h
    split at h
    · cases h; omega
    · cases h1 : indexAt b.data ((BitVec.ofNat 64 x).toInt.tdiv ↑Bitset.wordSize) with
      | ok w =>
        rw [h1, Res.bind_ok] at h
        revert h
        generalize storeAt _ _ _ = r
        intro h
        cases r with
        | ok d => simp only [Res.bind_ok, Res.pure_eq] at h; injection h with h; subst h; simp
        | _ => simp at h
      | _ => rw [h1] at h; simp at h
  | fill =>
    simp only [applyOp, Bitset.fill] at h
    split at h
    · cases h; omega
    · revert h
      generalize (List.foldlM (m := Res) _ _ _) = r
      intro h
      cases r with
      | ok d =>
        rw [Res.bind_ok] at h
        split at h
        · cases h
        · revert h
          generalize storeAt _ _ _ = r
          intro h
          cases r with
          | ok d => simp only [Res.bind_ok, Res.pure_eq] at h; injection h with h; subst h; simp
          | _ => simp at h
      | _ => simp at h

example : ∃ b, history 3 [.set 10, .set 4, .unset 10, .fill] = .ok b ∧ b.sizeOf = 11 := by
  obtain ⟨b, h, g, _⟩ := C03_size 3 [.set 10, .set 4, .unset 10, .fill] (by omega)
    (by simp [SSet.LegalRun, SSet.Legal, SSet.step])
  exact ⟨b, h, by rw [g]; simp [setArgs]⟩

/-! ## C04 -/

/-- C04: `Count()` is the number of members. -/
theorem C04_count {b : Bitset} {s : SSet} (h : Reaches b s) : b.count = s.elems.length := by
  rw [Bitset.count_eq b h.rep.wf, h.rep.size, SSet.elems, ← List.countP_eq_length_filter]
  simp only [h.rep.mem, Int.toNat_natCast]

/-- C04 in terms of the API only: `Count()` is the number of indices below `Size()` for which `Get` answers yes. -/
theorem C04_get {b : Bitset} {s : SSet} (h : Reaches b s) :
    b.count = (List.range b.sizeOf.toNat).countP (fun x => decide (b.get (BitVec.ofNat 64 x) = .ok true)) := by
  have hs := h.rep.wf.size_lt
  rw [Bitset.count_eq b h.rep.wf]
  refine List.countP_congr ?_
  intro x hx
  have hx' : x < b.sizeOf.toNat := List.mem_range.1 hx
  have hlt : x < 2 ^ 63 := by unfold Bitset.sizeOf at hx'; omega
  have hn := toNat_ofNat_small x hlt
  rw [Bitset.get_eq _ _ (by omega), hn]
  simp

example : ∃ b s, Reaches b s ∧ b.count = 2 := by
  obtain ⟨b, _, hr, _⟩ := history_refines 3 [.set 0, .set 2] (by omega) (by simp [SSet.LegalRun, SSet.Legal])
  exact ⟨b, _, hr, by rw [C04_count hr]; decide⟩

/-! ## C05 -/

/-- C05: after `Fill` exactly the indices below `Size()` are set, and the size is unchanged. -/
theorem C05_fill {b : Bitset} {s : SSet} (h : Reaches b s) :
    ∃ b', b.fill = .ok b' ∧ b'.sizeOf = b.sizeOf ∧
      ∀ x : Nat, x < 2 ^ 63 → b'.get (BitVec.ofNat 64 x) = .ok (decide ((x : Int) < b.sizeOf)) := by
  obtain ⟨b', h1, r⟩ := h.rep.step .fill trivial
  refine ⟨b', h1, by unfold Bitset.sizeOf; rw [r.size, h.rep.size]; rfl, ?_⟩
  intro x hx
  have hx' := toNat_ofNat_small x hx
  rw [Bitset.get_eq _ _ (by omega), r.mem, hx']
  simp [SSet.step, Bitset.sizeOf, h.rep.size]

/-- C05: `Full()` says whether every index below `Size()` reads as set. -/
theorem C05_full {b : Bitset} {s : SSet} (h : Reaches b s) :
    ∃ r, b.full = .ok r ∧ (r = true ↔ ∀ x : Nat, (x : Int) < b.sizeOf → b.get (BitVec.ofNat 64 x) = .ok true) := by
  refine ⟨_, Bitset.full_eq b h.rep.wf, ?_⟩
  have hs := h.rep.wf.size_lt
  have hn := h.rep.wf.size_nonneg
  simp only [decide_eq_true_eq, Bitset.sizeOf]
  constructor
  · intro hi x hx
    rw [Bitset.get_eq _ _ (by rw [toNat_ofNat_small x (by omega)]; omega), toNat_ofNat_small x (by omega),
      hi x (by omega)]
  · intro hi x hx
    have := hi x (by omega)
    rw [Bitset.get_eq _ _ (by rw [toNat_ofNat_small x (by omega)]; omega), toNat_ofNat_small x (by omega)] at this
    injection this

/-- C05, in terms of the ideal set: `Full()` iff nothing is missing. -/
theorem C05_full_missing {b : Bitset} {s : SSet} (h : Reaches b s) : b.full = .ok s.missing.isEmpty := by
  rw [Bitset.full_eq b h.rep.wf]
  congr 1
  rw [Bool.eq_iff_iff]
  simp [SSet.missing, List.isEmpty_iff, List.filter_eq_nil_iff, h.rep.mem, h.rep.size]

example : ∃ b s, Reaches b s ∧ b.full = .ok true ∧ b.sizeOf = 128 := by
  obtain ⟨b, _, hr, hs, _⟩ := history_refines 128 [.fill] (by omega) (by simp [SSet.LegalRun, SSet.Legal])
  exact ⟨b, _, hr, by rw [C05_full_missing hr]; decide, by rw [hs]; rfl⟩

/-! ## C06 -/

/-- C06: `Get` on a union is the disjunction, on an intersection the conjunction, for any two bitsets. -/
theorem C06_union_intersect (a b : Bitset) (x : BitVec 64) (hx : x.toNat < 2 ^ 63) :
    ∃ p q, a.get x = .ok p ∧ b.get x = .ok q ∧
      (a.union b).get x = .ok (p || q) ∧ (b.union a).get x = .ok (p || q) ∧
      (a.intersect b).get x = .ok (p && q) ∧ (b.intersect a).get x = .ok (p && q) := by
  refine ⟨_, _, Bitset.get_eq a x hx, Bitset.get_eq b x hx, ?_, ?_, ?_, ?_⟩ <;>
    rw [Bitset.get_eq _ x hx] <;> congr 1 <;>
    simp only [Bitset.has_union, Bitset.has_intersect, Bool.or_comm, Bool.and_comm]

/-- C06: the size of the result is not maintained, so `Full()` reports every union and intersection as full. -/
theorem C06_size_lost (a b : Bitset) :
    (a.union b).sizeOf = 0 ∧ (a.intersect b).sizeOf = 0 ∧
      (a.union b).full = .ok true ∧ (a.intersect b).full = .ok true := by
  simp [Bitset.union, Bitset.intersect, Bitset.sizeOf, Bitset.full]

example : ((⟨[1#64], 1⟩ : Bitset).union ⟨[2#64, 5#64], 70⟩).get 64#64 = .ok true := by decide

/-! ## C07 -/

/-- C07: decoding an encoded bitset gives the bitset back (every bitset whose size is a Go `int`). -/
theorem C07_roundtrip (b : Bitset) (h1 : -2 ^ 63 ≤ b.size) (h2 : b.size < 2 ^ 63) :
    Bitset.deserialize b.serialize = .ok b := Bitset.deserialize_serialize b h1 h2

/-- C07 for reachable bitsets, in API terms: same size and same members, and the exact number of bytes. -/
theorem C07_reachable {b : Bitset} {s : SSet} (h : Reaches b s) :
    ∃ b', Bitset.deserialize b.serialize = .ok b' ∧ b'.sizeOf = s.size ∧
      (∀ x, x < 2 ^ 63 → b'.get (BitVec.ofNat 64 x) = .ok (s.mem x)) ∧
      b.serialize.length = 8 + 8 * ((s.size + 63) / 64) :=
  ⟨b, C07_roundtrip b (by have := h.rep.wf.size_nonneg; omega) h.rep.wf.size_lt, h.rep.size,
    fun x hx => C01_history_get h x hx, by rw [Bitset.serialize_length, h.rep.len]⟩

/-- C07: equal bytes only for equal bitsets. -/
theorem C07_injective (a b : Bitset) (ha : -2 ^ 63 ≤ a.size) (ha' : a.size < 2 ^ 63)
    (hb : -2 ^ 63 ≤ b.size) (hb' : b.size < 2 ^ 63) (h : a.serialize = b.serialize) : a = b := by
  have := C07_roundtrip a ha ha'
  rw [h, C07_roundtrip b hb hb'] at this
  injection this with this; exact this.symm

/-- C07: what `Deserialize` does on every byte string: panic below 8 bytes, error on a ragged payload, otherwise a
bitset that encodes to exactly these bytes. -/
theorem C07_total (bs : Bytes) :
    (bs.length < 8 ∧ Bitset.deserialize bs = .panic) ∨
    (8 ≤ bs.length ∧ bs.length % 8 ≠ 0 ∧ ∃ e, Bitset.deserialize bs = .err e) ∨
    (8 ≤ bs.length ∧ bs.length % 8 = 0 ∧ ∃ b, Bitset.deserialize bs = .ok b ∧ b.serialize = bs) := by
  by_cases h : bs.length < 8
  · left; exact ⟨h, by simp [Bitset.deserialize, h]⟩
  · right
    by_cases h2 : bs.length % 8 = 0
    · right
      have : ∃ b, Bitset.deserialize bs = .ok b := by
        unfold Bitset.deserialize
        rw [if_neg h]
        simp only
        rw [if_neg (by simp only [List.length_drop]; omega)]
        exact ⟨_, rfl⟩
      obtain ⟨b, hb⟩ := this
      exact ⟨by omega, h2, b, hb, Bitset.serialize_of_deserialize bs b hb⟩
    · left
      refine ⟨by omega, h2, ?_⟩
      unfold Bitset.deserialize
      rw [if_neg h]
      simp only
      rw [if_pos (by simp only [List.length_drop]; omega)]
      exact ⟨_, rfl⟩

example : Bitset.deserialize ((⟨[5#64], 3⟩ : Bitset).serialize) = .ok ⟨[5#64], 3⟩ :=
  C07_roundtrip _ (by decide) (by decide)

/-! ## C08 -/

/-- `Ranges()` in terms of numbers, before truncation to 16 bits. -/
theorem ranges_eq {b : Bitset} {s : SSet} (h : Reaches b s) :
    ∃ rs, b.ranges = .ok (rs.flatMap (fun p => Bitset.emitFlat p.1 p.2)) ∧ IsRuns rs s.mem 0 s.size ∧
      ∀ r ∈ rs, r.2 < s.size := by
  have hsz := h.size_lt
  obtain ⟨rs, h1, h2, h3⟩ := Bitset.filledRanges_eq b 0 s.size (by omega) hsz
  have hmem : b.has = s.mem := funext h.rep.mem
  have habove : s.mem s.size = false := by
    rw [← h.rep.mem]; apply h.rep.wf.above; rw [h.rep.size]; simp
  rw [hmem] at h2
  have h4 : IsRuns rs s.mem 0 s.size := by
    refine ⟨h2.nonempty, h2.separated, ?_⟩
    rw [h2.exact]
    rw [show s.size + 1 - 0 = s.size - 0 + 1 by omega, List.range'_concat, List.filter_append]
    simp [habove]
  refine ⟨rs, ?_, h4, ?_⟩
  · unfold Bitset.ranges; rw [h.rep.size]; exact h1
  · intro r hr
    have := (h4.mem r.2).1 ⟨r, hr, h4.nonempty r hr, Nat.le_refl _⟩
    exact this.2.1

/-- C08 without the size limit (false, see `C08_refuted`). -/
def C08_statement : Prop := ∀ (b : Bitset) (s : SSet), Reaches b s →
  ∃ fl rs, b.ranges = .ok fl ∧ pairUp fl = some rs ∧ IsRuns rs s.mem 0 s.size

/-- C08, as stated for up to 65536 indices; for larger bitsets it is false (`C08_wraps`). -/
theorem C08_ranges {b : Bitset} {s : SSet} (h : Reaches b s) (hs : s.size ≤ 65536) :
    ∃ fl rs, b.ranges = .ok fl ∧ pairUp fl = some rs ∧ IsRuns rs s.mem 0 s.size := by
  obtain ⟨rs, h1, h2, h3⟩ := ranges_eq h
  refine ⟨_, rs, h1, Bitset.pairUp_flat rs ?_, h2⟩
  intro r hr
  have := h3 r hr
  have := h2.nonempty r hr
  omega

theorem runs_full (n : Nat) (hn : 0 < n) : IsRuns [(0, n - 1)] (fun i => decide (i < n)) 0 n := by
  refine ⟨by simp, by simp, ?_⟩
  simp only [covered, List.append_nil]
  rw [show n - 1 + 1 - 0 = n - 0 by omega]
  symm
  rw [List.filter_eq_self]
  intro a ha; simp at ha ⊢; omega

/-- Beyond 65536 indices a full bitset reports the range `[0, (n-1) mod 65536]`. -/
theorem C08_wraps (n : Nat) (h0 : 0 < n) (hn : n < 2 ^ 63) :
    ∃ b, Reaches b ((SSet.empty n).run [.fill]) ∧ b.ranges = .ok [0, UInt16.ofNat (n - 1)] := by
  obtain ⟨b, _, hr, _⟩ := history_refines n [.fill] hn (by simp [SSet.LegalRun, SSet.Legal])
  refine ⟨b, hr, ?_⟩
  obtain ⟨rs, h1, h2, _⟩ := ranges_eq hr
  have := h2.unique (runs_full n h0)
  rw [h1, this]
  simp only [List.flatMap_cons, List.flatMap_nil, List.append_nil, Bitset.emitFlat]
  rw [Bitset.u16_nat, Bitset.u16_nat]; rfl

theorem C08_refuted : ¬ C08_statement := by
  intro hall
  obtain ⟨b, hr, h1⟩ := C08_wraps 65537 (by omega) (by omega)
  obtain ⟨fl, rs, h2, h3, h4⟩ := hall b _ hr
  rw [h1] at h2; cases h2
  have e := h4.unique (runs_full 65537 (by omega))
  rw [e] at h3
  simp [pairUp] at h3

example : ∃ b s, Reaches b s ∧ b.ranges = .ok [1, 2, 5, 5] := by
  obtain ⟨b, _, hr, _⟩ := history_refines 8 [.set 1, .set 2, .set 5] (by omega) (by simp [SSet.LegalRun, SSet.Legal])
  refine ⟨b, _, hr, ?_⟩
  obtain ⟨rs, h1, h2, _⟩ := ranges_eq hr
  rw [h1, h2.unique (rs' := [(1, 2), (5, 5)]) ⟨by simp, by simp, by decide⟩]; rfl

/-! ## C09 -/

/-- C09: the answer to a query of ranges `qs` is, query by query, the run decomposition of the set indices inside
that range.  For any bitset value. -/
theorem C09_overlap (b : Bitset) (q : List UInt16) (qs : List (Nat × Nat)) (hq : pairUp q = some qs) (P : Nat → Bool)
    (hP : ∀ i, i < 65536 → b.get (BitVec.ofNat 64 i) = .ok (P i)) :
    ∃ fl parts, b.overlap q = .ok fl ∧ pairUp fl = some parts.flatten ∧
      All2 (fun part r => IsRuns part P r.1 (r.2 + 1)) parts qs := by
  match q with
  | [] => cases hq; exact ⟨[], [], rfl, rfl, .nil⟩
  | [_] => cases hq
  | s :: e :: rest =>
    simp only [pairUp, Option.map_eq_some_iff] at hq
    obtain ⟨qs', hq', rfl⟩ := hq
    obtain ⟨fl, parts, h1, h2, h3⟩ := C09_overlap b rest qs' hq' P hP
    have hsl := s.toNat_lt
    have hel := e.toNat_lt
    have key : ∃ rs, b.filledRanges s.toNat e.toNat = .ok (rs.flatMap (fun p => Bitset.emitFlat p.1 p.2)) ∧
        IsRuns rs P s.toNat (e.toNat + 1) ∧ ∀ r ∈ rs, r.2 < e.toNat + 1 := by
      by_cases hse : s.toNat ≤ e.toNat + 1
      · obtain ⟨rs, g1, g2, g3⟩ := Bitset.filledRanges_eq b s.toNat e.toNat hse (by omega)
        refine ⟨rs, g1, ⟨g2.nonempty, g2.separated, ?_⟩, g3⟩
        rw [g2.exact]
        apply List.filter_congr
        intro i hi
        rw [List.mem_range'_1] at hi
        have := hP i (by omega)
        rw [Bitset.get_eq _ _ (by rw [toNat_ofNat_small i (by omega)]; omega), toNat_ofNat_small i (by omega)] at this
        injection this
      · refine ⟨[], Bitset.filledRanges_empty b _ _ (by omega), ⟨by simp, by simp, ?_⟩, by simp⟩
        rw [show e.toNat + 1 - s.toNat = 0 by omega]; rfl
    obtain ⟨rs, g1, g2, g3⟩ := key
    refine ⟨rs.flatMap (fun p => Bitset.emitFlat p.1 p.2) ++ fl, rs :: parts, ?_, ?_, .cons g2 h3⟩
    · simp only [Bitset.overlap]; rw [g1, h1]; rfl
    · have hp := Bitset.pairUp_flat rs (by intro r hr; have := g3 r hr; have := g2.nonempty r hr; omega)
      have app : ∀ (a c : List UInt16) (x y : List (Nat × Nat)), pairUp a = some x → pairUp c = some y →
          pairUp (a ++ c) = some (x ++ y) := by
        intro a
        fun_induction pairUp a with
        | case1 => intro c x y hx hy; cases hx; exact hy
        | case2 => intro c x y hx; cases hx
        | case3 s e rest ih =>
          intro c x y hx hy
          simp only [Option.map_eq_some_iff] at hx
          obtain ⟨x', hx', rfl⟩ := hx
          simp only [List.cons_append, pairUp, ih c x' y hx' hy, Option.map_some]
      exact app _ _ _ _ hp h2

/-- C09 for reachable bitsets. -/
theorem C09_overlap_reachable {b : Bitset} {s : SSet} (h : Reaches b s) (q : List UInt16) (qs : List (Nat × Nat))
    (hq : pairUp q = some qs) :
    ∃ fl parts, b.overlap q = .ok fl ∧ pairUp fl = some parts.flatten ∧
      All2 (fun part r => IsRuns part s.mem r.1 (r.2 + 1)) parts qs :=
  C09_overlap b q qs hq s.mem (fun i hi => C01_history_get h i (by omega))

/-- C09: a query with an odd number of entries panics, whatever the bitset. -/
theorem C09_odd_panics (b : Bitset) (q : List UInt16) (hq : pairUp q = none) : b.overlap q = .panic := by
  match q with
  | [] => cases hq
  | [_] => rfl
  | s :: e :: rest =>
    simp only [pairUp, Option.map_eq_none_iff] at hq
    have ih := C09_odd_panics b rest hq
    have hsl := s.toNat_lt
    have hel := e.toNat_lt
    have key : ∃ r, b.filledRanges s.toNat e.toNat = .ok r := by
      by_cases hse : s.toNat ≤ e.toNat + 1
      · obtain ⟨rs, g1, _⟩ := Bitset.filledRanges_eq b s.toNat e.toNat hse (by omega)
        exact ⟨_, g1⟩
      · exact ⟨_, Bitset.filledRanges_empty b _ _ (by omega)⟩
    obtain ⟨r, hr⟩ := key
    simp only [Bitset.overlap]; rw [hr, ih]; rfl

/-- Odd queries are exactly the odd-length ones. -/
theorem pairUp_none_iff (q : List UInt16) : pairUp q = none ↔ q.length % 2 = 1 := by
  fun_induction pairUp q with
  | case1 => simp
  | case2 => simp
  | case3 s e rest ih => simp [ih]; omega

example : pairUp [3, 4, 0, 9] = some [(3, 4), (0, 9)] ∧ pairUp [3, 4, 0] = none := by decide

/-! ## C10 -/

/-- The number pairs in a list of `Range` values. -/
def rangePairs (rs : List Range) : List (Nat × Nat) := rs.map (fun r => (r.start.toNat, r.stop.toNat))

/-- C10 up to 65536 indices (larger bitsets have the same 16-bit problem as C08). -/
theorem C10_unfilledRanges {b : Bitset} {s : SSet} (h : Reaches b s) (hs : s.size ≤ 65536) :
    ∃ rs, b.unfilledRanges = .ok rs ∧ IsRuns (rangePairs rs) (fun i => !s.mem i) 0 s.size := by
  obtain ⟨rs, h1, h2, h3⟩ := Bitset.unfilledRanges_eq b h.rep.wf.size_nonneg h.rep.wf.size_lt
  refine ⟨_, h1, ?_⟩
  have e : rangePairs (rs.flatMap (fun p => Bitset.emitRange p.1 p.2)) = rs := by
    have hsz : b.size.toNat = s.size := by rw [h.rep.size]; simp
    have : ∀ l : List (Nat × Nat), (∀ r ∈ l, r.1 ≤ r.2 ∧ r.2 < 65536) →
        rangePairs (l.flatMap (fun p => Bitset.emitRange p.1 p.2)) = l := by
      intro l
      induction l with
      | nil => intro _; rfl
      | cons r l ih =>
        intro hl
        have hr := hl r (by simp)
        have := ih (fun q hq => hl q (by simp [hq]))
        simp only [rangePairs, List.flatMap_cons, Bitset.emitRange, Bitset.u16_nat, List.cons_append, List.nil_append,
          List.map_cons] at this ⊢
        rw [this]
        congr 1
        apply Prod.ext <;> simp <;> omega
    apply this
    intro r hr
    have := h3 r hr
    have := h2.nonempty r hr
    omega
  rw [e]
  have hsz : b.size.toNat = s.size := by rw [h.rep.size]; simp
  rw [hsz] at h2
  simpa only [h.rep.mem] using h2

/-- C10: the list is empty exactly when `Full()`. -/
theorem C10_empty_iff_full {b : Bitset} {s : SSet} (h : Reaches b s) (hs : s.size ≤ 65536) :
    ∃ rs, b.unfilledRanges = .ok rs ∧ b.full = .ok rs.isEmpty := by
  obtain ⟨rs, h1, h2⟩ := C10_unfilledRanges h hs
  refine ⟨rs, h1, ?_⟩
  rw [C05_full_missing h]
  congr 1
  rw [Bool.eq_iff_iff, List.isEmpty_iff, List.isEmpty_iff]
  have hm := h2.exact
  rw [show s.size - 0 = s.size by omega, ← List.range_eq_range'] at hm
  constructor
  · intro he
    unfold SSet.missing at he
    rw [he] at hm
    cases rs with
    | nil => rfl
    | cons r rs =>
      exfalso
      have hr := h2.nonempty (r.start.toNat, r.stop.toNat) (by simp [rangePairs])
      have : r.start.toNat ∈ covered (rangePairs (r :: rs)) :=
        (mem_cov _ _).2 ⟨(r.start.toNat, r.stop.toNat), by simp [rangePairs], Nat.le_refl _, hr⟩
      rw [hm] at this; simp at this
  · intro he
    subst he
    unfold SSet.missing
    rw [← hm]; rfl

example : ∃ b s, Reaches b s ∧ b.unfilledRanges = .ok [⟨0, 0⟩, ⟨3, 4⟩] := by
  obtain ⟨b, _, hr, _⟩ := history_refines 5 [.set 1, .set 2] (by omega) (by simp [SSet.LegalRun, SSet.Legal])
  refine ⟨b, _, hr, ?_⟩
  obtain ⟨rs, h1, h2, _⟩ := Bitset.unfilledRanges_eq b hr.rep.wf.size_nonneg hr.rep.wf.size_lt
  have hmem : ∀ i, b.has i = _ := hr.rep.mem
  have hsz : b.size.toNat = 5 := by rw [hr.rep.size]; rfl
  rw [h1, h2.unique (rs' := [(0, 0), (3, 4)]) ⟨by simp, by simp, by simp only [hmem, hsz]; decide⟩]; rfl

/-! ## C11 -/

/-- C11: `UnfilledItems(k)` is the first `k` missing indices in increasing order. -/
theorem C11_unfilledItems {b : Bitset} {s : SSet} (h : Reaches b s) (hs : s.size ≤ 65536) (k : Nat) :
    ∃ l, b.unfilledItems k = .ok l ∧ l.map UInt16.toNat = s.missing.take k := by
  unfold Bitset.unfilledItems
  rw [if_neg (by omega)]
  have hsz : (BitVec.ofInt 64 b.size).toNat = s.size := by rw [h.rep.size]; simp; omega
  rw [hsz, Bitset.items_fold _ _ _ (by omega)]
  refine ⟨_, rfl, ?_⟩
  have hf : (fun i => !b.has i) = (fun i => !s.mem i) := by funext i; rw [h.rep.mem]
  simp only [Int.toNat_natCast, List.map_map, SSet.missing, hf]
  refine Eq.trans (List.map_congr_left (g := id) ?_) (List.map_id _)
  intro i hi
  have := List.mem_range.1 (List.mem_filter.1 (List.mem_of_mem_take hi)).1
  simp; omega

/-- C11: a negative count panics (a Go `make` with negative capacity). -/
theorem C11_negative (b : Bitset) (k : Int) (hk : k < 0) : b.unfilledItems k = .panic := by
  simp [Bitset.unfilledItems, hk]

example : ∃ b s, Reaches b s ∧ b.unfilledItems 2 = .ok [0, 3] := by
  obtain ⟨b, _, hr, _⟩ := history_refines 6 [.set 1, .set 2] (by omega) (by simp [SSet.LegalRun, SSet.Legal])
  obtain ⟨l, h1, h2⟩ := C11_unfilledItems hr (by decide) 2
  refine ⟨b, _, hr, ?_⟩
  have h1' : b.unfilledItems 2 = .ok l := h1
  rw [h1']
  have h3 : l.map UInt16.toNat = [(0 : UInt16), 3].map UInt16.toNat := h2.trans (by decide)
  congr 1
  exact List.map_inj_right (fun a b h => UInt16.toNat_inj.1 h) |>.1 h3

/-! ## C13 -/

/-- C13 in full: `Get` never panics, and is false beyond the storage. -/
def C13_statement : Prop := ∀ (b : Bitset) (x : BitVec 64), ∃ r, b.get x = .ok r

/-- C13 for every index below 2^63.  Missing: larger 64-bit indices (`C13_huge_panics`). -/
theorem C13_get_total_partial (b : Bitset) (x : BitVec 64) (hx : x.toNat < 2 ^ 63) :
    ∃ r, b.get x = .ok r ∧ (64 * b.data.length ≤ x.toNat → r = false) := by
  refine ⟨_, Bitset.get_eq b x hx, fun h => ?_⟩
  exact Bitset.has_of_len_le b _ (by omega)

/-- Indices from 2^63 up to 2^64-64 panic on every bitset that fits in memory. -/
theorem C13_huge_panics (b : Bitset) (x : BitVec 64) (h1 : 2 ^ 63 ≤ x.toNat) (h2 : x.toNat ≤ 2 ^ 64 - 64)
    (hm : b.data.length ≤ 2 ^ 57) : b.get x = .panic := by
  have hneg : x.toInt = (x.toNat : Int) - 2 ^ 64 := by
    rw [BitVec.toInt_eq_toNat_cond]; split <;> omega
  have hlt : x.toInt.tdiv (Bitset.wordSize : Nat) < 0 := by
    have hle : x.toInt ≤ -64 := by omega
    simp only [Bitset.wordSize]
    have := Int.tdiv_neg (a := -x.toInt) (b := 64)
    have hn : x.toInt.tdiv 64 = -((-x.toInt).tdiv 64) := by rw [Int.neg_tdiv]; omega
    have hp : (-x.toInt).tdiv 64 = (-x.toInt) / 64 := Int.tdiv_eq_ediv_of_nonneg (by omega)
    show x.toInt.tdiv 64 < 0
    rw [hn, hp]; omega
  unfold Bitset.get
  rw [if_neg (by omega), indexAt_nat, List.getElem?_eq_none (by simp only [Bitset.wordSize]; omega)]
  rfl

theorem C13_refuted : ¬ C13_statement := by
  intro h
  obtain ⟨r, hr⟩ := h ⟨[], 0⟩ (BitVec.ofNat 64 (2 ^ 63))
  rw [C13_huge_panics _ _ (by decide) (by decide) (by decide)] at hr
  cases hr

example : (⟨[1#64], 1⟩ : Bitset).get 64#64 = .ok false := by decide

end Flu
