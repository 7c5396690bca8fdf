import Mathlib.Data.Set.Finite.List
import Mathlib.Data.Set.Finite.Range
import Mathlib.Data.Finite.Prod
import Mathlib.Data.Fintype.EquivFin
import Verif.Model.Catalogue
/-!
# Index files can be made as long as one likes
-/
namespace Flu

theorem finite_UInt8 : Finite UInt8 := by
  refine Finite.of_injective (fun x : UInt8 => (⟨x.toNat, x.toNat_lt⟩ : Fin (2 ^ 8))) ?_
  intro a b h
  simp only [Fin.mk.injEq] at h
  exact UInt8.toNat_inj.1 h

/-- For any JSON library, an entry with a long enough path makes the text of an index as long as one likes. -/
theorem enc_unbounded (J : JsonCodec) (j : IndexJSON) (k : GoString) (r : RecordJSON) (ha : ∀ e ∈ j.index, isAscii e.1) (hk : isAscii k)
    (hn : (k :: j.index.map (·.1)).Nodup) (L : Nat) :
    ∃ n : Nat, L ≤ (J.enc { j with index := (k, { r with filePath := List.replicate n 97 }) :: j.index }).length := by
  have := finite_UInt8
  apply Classical.byContradiction
  intro hall
  let f : Nat → Bytes := fun n => J.enc { j with index := (k, { r with filePath := List.replicate n 97 }) :: j.index }
  have hlt : ∀ n, (f n).length < L := by
    intro n
    apply Classical.byContradiction
    intro h
    exact hall ⟨n, by simp only [f] at h; omega⟩
  have hasc : ∀ n, isAscii (List.replicate n 97) := by
    intro n c hc
    rw [List.eq_of_mem_replicate hc]; decide
  have hinj : Function.Injective f := by
    intro a b hab
    have side : ∀ n : Nat, ∀ e ∈ ((k, { r with filePath := List.replicate n 97 }) :: j.index : List (GoString × RecordJSON)), isAscii e.1 := by
      intro n e he
      rcases List.mem_cons.1 he with rfl | he
      · exact hk
      · exact ha e he
    obtain ⟨l, h1, p1⟩ := J.dec_enc { j with index := (k, { r with filePath := List.replicate a 97 }) :: j.index } (side a) hn
    obtain ⟨l', h2, p2⟩ := J.dec_enc { j with index := (k, { r with filePath := List.replicate b 97 }) :: j.index } (side b) hn
    simp only [f] at hab
    rw [hab, h2] at h1
    simp only [Option.some.injEq, IndexJSON.mk.injEq] at h1
    obtain ⟨-, -, rfl, -⟩ := h1
    have hm := (p1.symm.trans p2).mem_iff.1 (List.mem_cons_self ..)
    simp only [List.map_cons, List.mem_cons, List.mem_map] at hm
    rcases hm with hm | ⟨e, he, hm⟩
    · have := congrArg (fun x => x.2.filePath) hm
      simp only [RecordJSON.fixed, J.fix_ascii _ (hasc _)] at this
      have := congrArg List.length this
      simpa using this
    · exfalso
      have := congrArg Prod.fst hm
      simp only at this
      exact (List.nodup_cons.1 hn).1 (this ▸ List.mem_map_of_mem he)
  have hfin : (Set.range f).Finite :=
    (List.finite_length_lt UInt8 L).subset (by rintro _ ⟨n, rfl⟩; exact hlt n)
  exact Set.infinite_range_of_injective hinj hfin

end Flu
