import Verif.Model.BitsetHeap
import Verif.Props.Bitset

/-!
# C12: copies do not share storage

Every program of mutations and copies of bitset variables on the heap behaves exactly as if each variable held its own
value (`C12_program`), for every growth policy of `append`.
-/

namespace Flu
open Spec

/-- The same program with bitsets as plain values: nothing is shared by construction. -/
def valueStep (env : List Bitset) : HOp → Res (List Bitset)
  | .call i op =>
    match env[i]? with
    | none => .ok env
    | some b => do
      let b' ← applyOp b op
      return env.set i b'
  | .copy i =>
    match env[i]? with
    | none => .ok env
    | some b => .ok (env ++ [b])

namespace BPtr

/-- A slice lies inside an allocated array. -/
def Valid (h : Heap) (p : BPtr) : Prop := ∃ a, h[p.arr]? = some a ∧ p.len ≤ a.length

/-- `h'` differs from `h` only in array `k` and in new arrays. -/
def OnlyAt (h h' : Heap) (k : Nat) : Prop := h.length ≤ h'.length ∧ ∀ j, j < h.length → j ≠ k → h'[j]? = h[j]?

theorem OnlyAt.refl (h : Heap) (k : Nat) : OnlyAt h h k := ⟨Nat.le_refl _, fun _ _ _ => rfl⟩

theorem OnlyAt.trans {h h' h'' : Heap} {k k' : Nat} (a : OnlyAt h h' k) (b : OnlyAt h' h'' k')
    (hk : k' = k ∨ h.length ≤ k') : OnlyAt h h'' k := by
  refine ⟨Nat.le_trans a.1 b.1, fun j hj hne => ?_⟩
  rw [b.2 j (by have := a.1; omega) (by omega), a.2 j hj hne]

theorem store_sim (h : Heap) (p : BPtr) (v : Valid h p) (i : Int) (w : Word) :
    (∃ h', p.store h i w = .ok h' ∧ storeAt (p.view h) i w = .ok (p.view h') ∧ Valid h' p ∧ OnlyAt h h' p.arr) ∨
    (p.store h i w = .panic ∧ storeAt (p.view h) i w = .panic) := by
  obtain ⟨a, ha, hl⟩ := v
  have hlen : (p.view h).length = p.len := by simp [view, ha, hl]
  have hlt : p.arr < h.length := by
    rcases Nat.lt_or_ge p.arr h.length with hc | hc
    · exact hc
    · rw [List.getElem?_eq_none hc] at ha; cases ha
  unfold store storeAt
  by_cases hi : i < 0
  · right; simp [hi]
  · rw [if_neg hi, if_neg hi]
    by_cases h2 : i.toNat < p.len
    · left
      rw [if_pos h2, if_pos (by omega)]
      have hnew : (h.set p.arr (a.set i.toNat w))[p.arr]? = some (a.set i.toNat w) := List.getElem?_set_self hlt
      refine ⟨_, rfl, ?_, ⟨_, by rw [ha]; exact hnew, by simp [hl]⟩, by simp, ?_⟩
      · simp only [view, ha, Option.getD_some, hnew, List.take_set]
      · intro j hj hne; rw [List.getElem?_set_ne (by omega)]
    · right; rw [if_neg h2, if_neg (by omega)]; exact ⟨rfl, rfl⟩

theorem append_sim (grow : Nat → Nat → Nat) (h : Heap) (p : BPtr) (v : Valid h p) (n : Nat) :
    let r := appendZeros grow h p n
    r.2.view r.1 = p.view h ++ List.replicate n 0#64 ∧ r.2.size = p.size ∧ r.2.len = p.len + n ∧ Valid r.1 r.2 ∧
      OnlyAt h r.1 p.arr ∧ (r.2.arr = p.arr ∨ h.length ≤ r.2.arr) := by
  obtain ⟨a, ha, hl⟩ := v
  have hlt : p.arr < h.length := by
    rcases Nat.lt_or_ge p.arr h.length with hc | hc
    · exact hc
    · rw [List.getElem?_eq_none hc] at ha; cases ha
  unfold appendZeros
  simp only [ha, Option.getD_some]
  by_cases hc : p.len + n ≤ a.length
  · rw [if_pos hc]
    have hnew : (h.set p.arr (a.take p.len ++ List.replicate n 0#64 ++ a.drop (p.len + n)))[p.arr]?
        = some (a.take p.len ++ List.replicate n 0#64 ++ a.drop (p.len + n)) := List.getElem?_set_self hlt
    refine ⟨?_, rfl, rfl, ⟨_, hnew, by simp; omega⟩, ⟨by simp, fun j hj hne => ?_⟩, Or.inl rfl⟩
    · simp only [view, hnew, ha, Option.getD_some]
      rw [List.take_append_of_le_length (by simp; omega), List.take_of_length_le (by simp; omega)]
    · exact List.getElem?_set_ne (by omega)
  · rw [if_neg hc]
    refine ⟨?_, rfl, rfl, ⟨_, List.getElem?_concat_length, by simp; omega⟩, ⟨by simp, fun j hj hne => ?_⟩,
      Or.inr (Nat.le_refl _)⟩
    · simp only [view, List.getElem?_concat_length, ha, Option.getD_some]
      rw [List.take_append_of_le_length (by simp; omega), List.take_of_length_le (by simp; omega)]
    · exact List.getElem?_append_left hj

theorem view_length (h : Heap) (p : BPtr) (v : Valid h p) : (p.view h).length = p.len := by
  obtain ⟨a, ha, hl⟩ := v; simp [view, ha, hl]

theorem indexAt_cases (l : List α) (i : Int) : (∃ a, indexAt l i = .ok a) ∨ indexAt l i = .panic := by
  unfold indexAt
  split
  · right; rfl
  · split
    · left; exact ⟨_, rfl⟩
    · right; rfl

/-- What it means for a heap operation on `p` to simulate a value operation. -/
def Sim (h : Heap) (p : BPtr) (r : Res (Heap × BPtr)) (s : Res Bitset) : Prop :=
  (∃ h' p', r = .ok (h', p') ∧ s = .ok (p'.deref h') ∧ Valid h' p' ∧ OnlyAt h h' p.arr ∧
    (p'.arr = p.arr ∨ h.length ≤ p'.arr)) ∨ (r = .panic ∧ s = .panic)

/-- The read-modify-write at the end of `Set`/`Unset`. -/
theorem rmw_sim (h : Heap) (p : BPtr) (v : Valid h p) (i : Int) (f : Word → Word) (sz : Int) :
    Sim h p (do let w ← p.load h i; let h ← p.store h i (f w); return (h, { p with size := sz }))
      (do let w ← indexAt (p.view h) i; let d ← storeAt (p.view h) i (f w); return { data := d, size := sz }) := by
  unfold load
  rcases indexAt_cases (p.view h) i with ⟨w, hw⟩ | hw
  · rw [hw]
    simp only [Res.bind_ok]
    rcases store_sim h p v i (f w) with ⟨h', e1, e2, v', o⟩ | ⟨e1, e2⟩
    · left
      rw [e1, e2]
      exact ⟨h', _, rfl, rfl, v', o, Or.inl rfl⟩
    · right; rw [e1, e2]; exact ⟨rfl, rfl⟩
  · right; rw [hw]; exact ⟨rfl, rfl⟩

theorem set_sim (grow : Nat → Nat → Nat) (h : Heap) (p : BPtr) (v : Valid h p) (x : BitVec 64) :
    Sim h p (p.set grow h x) ((p.deref h).set x) := by
  unfold BPtr.set Bitset.set deref
  simp only [view_length h p v]
  by_cases hc : x.toInt.tdiv ↑Bitset.wordSize > (p.len : Int) - 1
  · simp only [hc, if_true]
    obtain ⟨h1, h2, h3, h4, h5, h6⟩ := append_sim grow h p v (x.toInt.tdiv ↑Bitset.wordSize - (↑p.len - 1)).toNat
    revert h1 h2 h3 h4 h5 h6
    generalize appendZeros grow h p (x.toInt.tdiv ↑Bitset.wordSize - (↑p.len - 1)).toNat = r
    intro h1 h2 h3 h4 h5 h6
    rw [← h1, ← h2]
    rcases rmw_sim r.1 r.2 h4 (↑(x.toNat / Bitset.wordSize)) (fun w => w ||| Bitset.bitMask x)
        (max r.2.size (x + 1#64).toInt) with ⟨h', p', e1, e2, v', o, hp⟩ | ⟨e1, e2⟩
    · left
      refine ⟨h', p', e1, e2, v', h5.trans o h6, ?_⟩
      have := h5.1
      omega
    · right; exact ⟨e1, e2⟩
  · simp only [hc, if_false]
    exact rmw_sim h p v _ _ _

theorem unset_sim (h : Heap) (p : BPtr) (v : Valid h p) (x : BitVec 64) :
    Sim h p (p.unset h x) ((p.deref h).unset x) := by
  unfold BPtr.unset Bitset.unset deref
  simp only [view_length h p v]
  by_cases hc : x.toInt.tdiv ↑Bitset.wordSize ≥ (p.len : Int)
  · simp only [hc, if_true]
    left; exact ⟨h, p, rfl, rfl, v, OnlyAt.refl _ _, Or.inl rfl⟩
  · simp only [hc, if_false]
    exact rmw_sim h p v _ (fun w => w - Bitset.bitMask x) p.size

theorem fold_sim (h : Heap) (p : BPtr) (v : Valid h p) (l : List Nat) (w : Word) :
    (∃ h', l.foldlM (fun h (i : Nat) => p.store h i w) h = .ok h' ∧
      l.foldlM (fun d (i : Nat) => storeAt d i w) (p.view h) = .ok (p.view h') ∧ Valid h' p ∧ OnlyAt h h' p.arr) ∨
    (l.foldlM (fun h (i : Nat) => p.store h i w) h = .panic ∧
      l.foldlM (fun d (i : Nat) => storeAt d i w) (p.view h) = .panic) := by
  induction l generalizing h with
  | nil => left; exact ⟨h, rfl, rfl, v, OnlyAt.refl _ _⟩
  | cons i l ih =>
    simp only [List.foldlM_cons]
    rcases store_sim h p v i w with ⟨h', e1, e2, v', o⟩ | ⟨e1, e2⟩
    · rw [e1, e2]
      simp only [Res.bind_ok]
      rcases ih h' v' with ⟨h'', f1, f2, v'', o'⟩ | ⟨f1, f2⟩
      · left; exact ⟨h'', f1, f2, v'', o.trans o' (Or.inl rfl)⟩
      · right; exact ⟨f1, f2⟩
    · right; rw [e1, e2]; exact ⟨rfl, rfl⟩

theorem fill_sim (h : Heap) (p : BPtr) (v : Valid h p) : Sim h p (p.fill h) ((p.deref h).fill) := by
  unfold BPtr.fill Bitset.fill deref
  by_cases hz : p.size = 0
  · simp only [hz, if_true]
    left; refine ⟨h, p, rfl, ?_, v, OnlyAt.refl _ _, Or.inl rfl⟩
    simp [deref, hz]
  · simp only [hz, if_false]
    rcases fold_sim h p v (List.range ((p.size - 1).tdiv ↑Bitset.wordSize).toNat) (BitVec.allOnes 64) with
      ⟨h', e1, e2, v', o⟩ | ⟨e1, e2⟩
    · rw [e1, e2]
      simp only [Res.bind_ok]
      by_cases hn : (p.size - 1).tmod ↑Bitset.wordSize < 0
      · simp only [hn, if_true]; right; exact ⟨rfl, rfl⟩
      · simp only [hn, if_false]
        rcases store_sim h' p v' ((p.size - 1).tdiv ↑Bitset.wordSize)
            (Bitset.lastMask ((p.size - 1).tmod ↑Bitset.wordSize).toNat) with ⟨h'', f1, f2, v'', o'⟩ | ⟨f1, f2⟩
        · left; rw [f1, f2]; exact ⟨h'', p, rfl, rfl, v'', o.trans o' (Or.inl rfl), Or.inl rfl⟩
        · right; rw [f1, f2]; exact ⟨rfl, rfl⟩
    · right; rw [e1, e2]; exact ⟨rfl, rfl⟩

theorem applyOp_sim (grow : Nat → Nat → Nat) (h : Heap) (p : BPtr) (v : Valid h p) (op : BOp) :
    Sim h p (p.applyOp grow h op) (Flu.applyOp (p.deref h) op) := by
  cases op with
  | set x => exact set_sim grow h p v _
  | unset x => exact unset_sim h p v _
  | fill => exact fill_sim h p v

theorem frame {h h' : Heap} {p q : BPtr} (o : OnlyAt h h' p.arr) (v : Valid h q) (hne : q.arr ≠ p.arr) :
    q.deref h' = q.deref h ∧ Valid h' q := by
  obtain ⟨a, ha, hl⟩ := v
  have hlt : q.arr < h.length := by
    rcases Nat.lt_or_ge q.arr h.length with hc | hc
    · exact hc
    · rw [List.getElem?_eq_none hc] at ha; cases ha
  have := o.2 q.arr hlt hne
  refine ⟨by simp [deref, view, this], ⟨a, by rw [this, ha], hl⟩⟩

theorem Valid.lt {h : Heap} {p : BPtr} (v : Valid h p) : p.arr < h.length := by
  obtain ⟨a, ha, _⟩ := v
  rcases Nat.lt_or_ge p.arr h.length with hc | hc
  · exact hc
  · rw [List.getElem?_eq_none hc] at ha; cases ha

end BPtr

/-- The heap invariant: every variable's slice is valid and no two variables share an array. -/
structure Separate (h : Heap) (env : List BPtr) : Prop where
  valid : ∀ p ∈ env, BPtr.Valid h p
  apart : ∀ (i j : Nat) (p q : BPtr), env[i]? = some p → env[j]? = some q → i ≠ j → p.arr ≠ q.arr

/-- The values of all variables. -/
def values (st : Heap × List BPtr) : List Bitset := st.2.map (·.deref st.1)

theorem step_sim (grow : Nat → Nat → Nat) (st : Heap × List BPtr) (s : Separate st.1 st.2) (op : HOp) :
    (∃ st', heapStep grow st op = .ok st' ∧ valueStep (values st) op = .ok (values st') ∧ Separate st'.1 st'.2) ∨
    (heapStep grow st op = .panic ∧ valueStep (values st) op = .panic) := by
  obtain ⟨h, env⟩ := st
  replace s : Separate h env := s
  cases op with
  | call i op =>
    simp only [heapStep, valueStep, values, List.getElem?_map]
    cases hp : env[i]? with
    | none => left; exact ⟨_, rfl, rfl, s⟩
    | some p =>
      have hmem : p ∈ env := List.mem_of_getElem? hp
      simp only [Option.map_some]
      rcases BPtr.applyOp_sim grow h p (s.valid p hmem) op with ⟨h', p', e1, e2, v', o, hp'⟩ | ⟨e1, e2⟩
      · left
        rw [e1, e2]
        refine ⟨(h', env.set i p'), rfl, ?_, ?_, ?_⟩
        · simp only [Res.bind_ok, Res.pure_eq, List.map_set]
          congr 1
          apply List.ext_getElem?
          intro j
          by_cases hj : j = i
          · subst hj; simp only [List.getElem?_set]; simp
          · rw [List.getElem?_set_ne (Ne.symm hj), List.getElem?_set_ne (Ne.symm hj), List.getElem?_map, List.getElem?_map]
            cases hq : env[j]? with
            | none => rfl
            | some q =>
              simp only [Option.map_some]
              rw [(BPtr.frame o (s.valid q (List.mem_of_getElem? hq)) (s.apart j i q p hq hp hj)).1]
        · intro q hq
          rcases List.mem_or_eq_of_mem_set hq with hq | hq
          · by_cases hqa : q.arr = p.arr
            · obtain ⟨j, hj⟩ := List.mem_iff_getElem?.1 hq
              by_cases hji : j = i
              · subst hji
                rw [hp] at hj; injection hj with hj; subst hj
                -- the old pointer may remain valid as well
                obtain ⟨k, hk⟩ := List.mem_iff_getElem?.1 ‹p ∈ env.set j p'›
                by_cases hkj : k = j
                · subst hkj
                  rw [List.getElem?_set_self (by have := List.getElem?_eq_some_iff.1 hp; exact this.1)] at hk
                  injection hk with hk; rw [← hk]; exact v'
                · rw [List.getElem?_set_ne (Ne.symm hkj)] at hk
                  exact absurd rfl (s.apart k j p p hk hp hkj)
              · exact absurd hqa (s.apart j i q p hj hp hji)
            · exact (BPtr.frame o (s.valid q hq) hqa).2
          · rw [hq]; exact v'
        · intro a b q r hq hr hab
          have il : i < env.length := (List.getElem?_eq_some_iff.1 hp).1
          have fresh : ∀ (k : Nat) (q : BPtr), env[k]? = some q → k ≠ i → p'.arr ≠ q.arr := by
            intro k q hk hki
            have hlt := (s.valid q (List.mem_of_getElem? hk)).lt
            have hne := s.apart i k p q hp hk (Ne.symm hki)
            rcases hp' with hp' | hp'
            · rw [hp']; exact hne
            · omega
          by_cases ha : a = i
          · subst ha
            simp only [List.getElem?_set_self il] at hq
            injection hq with hq
            simp only [List.getElem?_set_ne hab] at hr
            rw [← hq]; exact fresh b r hr (Ne.symm hab)
          · simp only [List.getElem?_set_ne (Ne.symm ha)] at hq
            by_cases hb : b = i
            · subst hb
              simp only [List.getElem?_set_self il] at hr
              injection hr with hr
              rw [← hr]; exact (fresh a q hq ha).symm
            · simp only [List.getElem?_set_ne (Ne.symm hb)] at hr
              exact s.apart a b q r hq hr hab
      · right; rw [e1, e2]; exact ⟨rfl, rfl⟩
  | copy i =>
    simp only [heapStep, valueStep, values, List.getElem?_map]
    cases hp : env[i]? with
    | none => left; exact ⟨_, rfl, rfl, s⟩
    | some p =>
      have hmem : p ∈ env := List.mem_of_getElem? hp
      have hv := s.valid p hmem
      left
      simp only [Option.map_some]
      have o : BPtr.OnlyAt h (p.copy h).1 h.length := ⟨by simp [BPtr.copy], fun j hj _ => by
        simp only [BPtr.copy]; exact List.getElem?_append_left hj⟩
      have hnew : (p.copy h).2.deref (p.copy h).1 = p.deref h := by
        simp [BPtr.copy, BPtr.deref, BPtr.view]
      have hval : BPtr.Valid (p.copy h).1 (p.copy h).2 :=
        ⟨_, by simp only [BPtr.copy]; exact List.getElem?_concat_length, by simp [BPtr.copy]⟩
      have fr : ∀ q ∈ env, q.deref (p.copy h).1 = q.deref h ∧ BPtr.Valid (p.copy h).1 q := by
        intro q hq
        have hlt := (s.valid q hq).lt
        exact BPtr.frame (p := ⟨h.length, 0, 0⟩) o (s.valid q hq) (by simp only; omega)
      refine ⟨((p.copy h).1, env ++ [(p.copy h).2]), rfl, ?_, ?_, ?_⟩
      · simp only [List.map_append, List.map_cons, List.map_nil, hnew]
        congr 2
        exact (List.map_congr_left (fun q hq => (fr q hq).1)).symm
      · intro q hq
        rcases List.mem_append.1 hq with hq | hq
        · exact (fr q hq).2
        · simp only [List.mem_singleton] at hq; rw [hq]; exact hval
      · have harr : (p.copy h).2.arr = h.length := rfl
        intro a b q r hq hr hab
        simp only [List.getElem?_append] at hq hr
        by_cases ha : a < env.length <;> by_cases hb : b < env.length
        · rw [if_pos ha] at hq; rw [if_pos hb] at hr
          exact s.apart a b q r hq hr hab
        · rw [if_pos ha] at hq; rw [if_neg hb] at hr
          have := (s.valid q (List.mem_of_getElem? hq)).lt
          have hr' : r = (p.copy h).2 := by
            have := List.mem_of_getElem? hr; simpa using this
          rw [hr', harr]; omega
        · rw [if_neg ha] at hq; rw [if_pos hb] at hr
          have := (s.valid r (List.mem_of_getElem? hr)).lt
          have hq' : q = (p.copy h).2 := by
            have := List.mem_of_getElem? hq; simpa using this
          rw [hq', harr]; omega
        · rw [if_neg ha] at hq; rw [if_neg hb] at hr
          have h1 := (List.getElem?_eq_some_iff.1 hq).1
          have h2 := (List.getElem?_eq_some_iff.1 hr).1
          simp only [List.length_cons, List.length_nil] at h1 h2
          omega

/-- C12: every program of mutations and copies gives, on the heap, exactly the values it gives when every variable owns
its value — for all growth policies, heaps without sharing, and programs. -/
theorem C12_program (grow : Nat → Nat → Nat) (st : Heap × List BPtr) (s : Separate st.1 st.2) (ops : List HOp) :
    (∃ st', ops.foldlM (heapStep grow) st = .ok st' ∧ ops.foldlM valueStep (values st) = .ok (values st') ∧
      Separate st'.1 st'.2) ∨
    (ops.foldlM (heapStep grow) st = .panic ∧ ops.foldlM valueStep (values st) = .panic) := by
  induction ops generalizing st with
  | nil => left; exact ⟨st, rfl, rfl, s⟩
  | cons op ops ih =>
    simp only [List.foldlM_cons]
    rcases step_sim grow st s op with ⟨st', e1, e2, s'⟩ | ⟨e1, e2⟩
    · rw [e1, e2]; exact ih st' s'
    · right; rw [e1, e2]; exact ⟨rfl, rfl⟩

/-- The operations of a program on variable `i`. -/
def opsOn (i : Nat) (ops : List HOp) : List BOp :=
  ops.filterMap (fun | .call j op => if j = i then some op else none | .copy _ => none)

theorem value_opsOn (env env' : List Bitset) (i : Nat) (b : Bitset) (ops : List HOp) (hb : env[i]? = some b)
    (h : ops.foldlM valueStep env = .ok env') :
    ∃ b', env'[i]? = some b' ∧ (opsOn i ops).foldlM applyOp b = .ok b' := by
  induction ops generalizing env b with
  | nil => cases h; exact ⟨b, hb, rfl⟩
  | cons op ops ih =>
    rw [List.foldlM_cons] at h
    cases op with
    | call j op =>
      simp only [valueStep] at h
      cases hj : env[j]? with
      | none =>
        rw [hj] at h
        have hne : j ≠ i := by rintro rfl; rw [hj] at hb; cases hb
        simp only [Res.bind_ok] at h
        simpa [opsOn, hne] using ih env b hb h
      | some c =>
        rw [hj] at h
        by_cases hne : j = i
        · subst hne
          rw [hj] at hb; injection hb with hb; subst hb
          cases hc : applyOp c op with
          | ok c' =>
            simp only [hc, Res.bind_ok, Res.pure_eq] at h
            have hlt := (List.getElem?_eq_some_iff.1 hj).1
            obtain ⟨b', h1, h2⟩ := ih (env.set j c') c' (List.getElem?_set_self hlt) h
            refine ⟨b', h1, ?_⟩
            simp only [opsOn, List.filterMap_cons, if_true] at h2 ⊢
            rw [List.foldlM_cons, hc]; exact h2
          | _ => simp [hc] at h
        · cases hc : applyOp c op with
          | ok c' =>
            simp only [hc, Res.bind_ok, Res.pure_eq] at h
            obtain ⟨b', h1, h2⟩ := ih (env.set j c') b (by rw [List.getElem?_set_ne hne]; exact hb) h
            refine ⟨b', h1, ?_⟩
            simpa [opsOn, hne] using h2
          | _ => simp [hc] at h
    | copy j =>
      simp only [valueStep] at h
      cases hj : env[j]? with
      | none => rw [hj] at h; simp only [Res.bind_ok] at h; simpa [opsOn] using ih env b hb h
      | some c =>
        rw [hj] at h
        simp only [Res.bind_ok] at h
        have hlt := (List.getElem?_eq_some_iff.1 hb).1
        simpa [opsOn] using ih (env ++ [c]) b (by rw [List.getElem?_append_left hlt]; exact hb) h

/-- C12: after `Copy()` the copy has the original's value, and after any later program on the heap the original is what
its own mutations make of it and the copy is what the copy's own mutations make of it. -/
theorem C12_copy_isolated (grow : Nat → Nat → Nat) (h : Heap) (p : BPtr) (v : BPtr.Valid h p) (ops : List HOp)
    (st' : Heap × List BPtr) (hr : (HOp.copy 0 :: ops).foldlM (heapStep grow) (h, [p]) = .ok st') :
    ∃ b c, (values st')[0]? = some b ∧ (values st')[1]? = some c ∧
      (opsOn 0 ops).foldlM applyOp (p.deref h) = .ok b ∧ (opsOn 1 ops).foldlM applyOp (p.deref h) = .ok c := by
  have s : Separate h [p] := ⟨by simpa using v, by
    intro i j q r hq hr hij
    have h1 := (List.getElem?_eq_some_iff.1 hq).1
    have h2 := (List.getElem?_eq_some_iff.1 hr).1
    simp only [List.length_cons, List.length_nil] at h1 h2
    omega⟩
  rcases C12_program grow (h, [p]) s (HOp.copy 0 :: ops) with ⟨st'', e1, e2, _⟩ | ⟨e1, _⟩
  · rw [hr] at e1; injection e1 with e1; subst e1
    have e3 : ops.foldlM valueStep [p.deref h, p.deref h] = .ok (values st') := e2
    obtain ⟨b, h1, h2⟩ := value_opsOn _ _ 0 (p.deref h) ops rfl e3
    obtain ⟨c, h3, h4⟩ := value_opsOn _ _ 1 (p.deref h) ops rfl e3
    exact ⟨b, c, h1, h3, h2, h4⟩
  · rw [hr] at e1; cases e1

/-- In particular a copy that is never mutated keeps its value whatever happens to the original. -/
theorem C12_copy_constant (grow : Nat → Nat → Nat) (h : Heap) (p : BPtr) (v : BPtr.Valid h p) (ops : List HOp)
    (st' : Heap × List BPtr) (hr : (HOp.copy 0 :: ops).foldlM (heapStep grow) (h, [p]) = .ok st')
    (hn : opsOn 1 ops = []) : (values st')[1]? = some (p.deref h) := by
  obtain ⟨b, c, _, h2, _, h4⟩ := C12_copy_isolated grow h p v ops st' hr
  rw [hn] at h4; cases h4; exact h2

/-- A two-word array with spare capacity: the copy really is independent of in-place appends to the original. -/
example : ∃ st', (HOp.copy 0 :: [HOp.call 0 (.set 64), .call 1 (.set 1), .call 0 .fill]).foldlM (heapStep (fun _ n => 2 * n))
    ([[5#64, 9#64]], [⟨0, 1, 3⟩]) = .ok st' ∧ (values st')[1]? = some ⟨[7#64], 3⟩ := ⟨_, rfl, by decide⟩

end Flu
