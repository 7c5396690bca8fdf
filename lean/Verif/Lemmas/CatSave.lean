import Verif.Lemmas.CatBits
/-!
# `SaveChunk` under arbitrary faults
-/
namespace Flu

theorem overlay_length (c : Bytes) (st : Nat) (data : Bytes) (h : data ≠ []) : (overlay c st data).length = max c.length (st + data.length) := by
  unfold overlay
  rw [if_neg h]
  simp only [List.length_append, List.length_take, List.length_drop, List.length_replicate]
  omega

/-- Byte `i` after writing `data` at `st`. -/
theorem overlay_getElem? (c : Bytes) (st : Nat) (data : Bytes) (h : data ≠ []) (i : Nat) :
    (overlay c st data)[i]? = if st ≤ i ∧ i < st + data.length then data[i - st]? else
      if i < c.length then c[i]? else if i < st then some 0 else none := by
  have hd : 0 < data.length := List.length_pos_iff.2 h
  unfold overlay
  rw [if_neg h]
  simp only []
  have hl : (c ++ List.replicate (st - c.length) (0 : UInt8)).length = max c.length st := by
    simp only [List.length_append, List.length_replicate]; omega
  have hlt : (List.take st (c ++ List.replicate (st - c.length) (0 : UInt8))).length = st := by
    rw [List.length_take, hl]; omega
  have hc : ∀ j, (c ++ List.replicate (st - c.length) (0 : UInt8))[j]? = if j < c.length then c[j]? else if j < st then some 0 else none := by
    intro j
    rw [List.getElem?_append]
    split
    · rfl
    · rw [List.getElem?_replicate]
      by_cases hj : j < st
      · rw [if_pos (by omega), if_pos hj]
      · rw [if_neg (by omega), if_neg hj]
  rw [List.append_assoc, List.getElem?_append, hlt]
  split
  · rename_i hi
    rw [List.getElem?_take, if_pos hi, hc, if_neg (show ¬ (st ≤ i ∧ i < st + data.length) by omega)]
    simp only [hi, ↓reduceIte]
  · rename_i hi
    rw [List.getElem?_append]
    split
    · rw [if_pos (by omega)]
    · rename_i hi2
      have e : st + data.length + (i - st - data.length) = i := by omega
      rw [List.getElem?_drop, e, hc, if_neg (show ¬ (st ≤ i ∧ i < st + data.length) by omega)]
      simp only [hi, ↓reduceIte]

/-- What was written reads back. -/
theorem overlay_read (c : Bytes) (st : Nat) (data : Bytes) : ((overlay c st data).drop st).take data.length = data := by
  by_cases h : data = []
  · subst h; simp
  · apply List.ext_getElem?
    intro i
    rw [List.getElem?_take, List.getElem?_drop]
    split
    · rename_i hi
      rw [overlay_getElem? _ _ _ h, if_pos (by omega)]
      congr 1; omega
    · rename_i hi
      rw [List.getElem?_eq_none (by omega)]

theorem Triple.orE {α : Type} {P : Assn} {x : CM α} {Q : α → Assn} {E E' : Assn} (h : Triple P x Q E) (hE : ∀ c fs, E c fs → E' c fs) : Triple P x Q E' :=
  h.conseq (fun _ _ h => h) (fun _ _ _ h => h) hE

section
variable {d dl : Path} {ind : IndexFile} {fs0 : FS}

/-- Memory shows what it showed, the files are `fs`. -/
def MemMore (d dl : Path) (ind : IndexFile) (fs0 fs : FS) : Assn := fun c fs' =>
  fs' = fs ∧ ∃ m', c = ⟨d, dl, some { ind with index := m' }⟩ ∧ More d fs0 ind.index m'

/-- The files after a chunk was written completely. -/
def chunkWritten (fs0 : FS) (r : Record) (n : Nat) (data : Bytes) : FS :=
  fs0.put r.filePath (some (overlay ((fs0 r.filePath).getD []) ((n : Int) * r.chunkSize).toNat data))

/-- The files after the first `k` bytes of a chunk were written. -/
def partWritten (fs0 : FS) (r : Record) (n : Nat) (data : Bytes) (k : Nat) : FS :=
  fs0.put r.filePath (some (overlay ((fs0 r.filePath).getD []) ((n : Int) * r.chunkSize).toNat (data.take k)))

theorem partWritten_zero (fs0 : FS) (r : Record) (n : Nat) (data : Bytes) : partWritten fs0 r n data 0 = fs0.put r.filePath (some ((fs0 r.filePath).getD [])) := by
  unfold partWritten overlay
  rw [List.take_zero, if_pos rfl]

theorem partWritten_all (fs0 : FS) (r : Record) (n : Nat) (data : Bytes) : partWritten fs0 r n data data.length = chunkWritten fs0 r n data := by
  unfold partWritten chunkWritten
  rw [List.take_length]

/-- Memory after the chunk was marked. -/
def MemSet (d dl : Path) (ind : IndexFile) (fs0 fs : FS) (r : Record) (p : ProgressFile) (b : Bitset) : Assn := fun c fs' =>
  fs' = fs ∧ ∃ m', c = ⟨d, dl, some { ind with index := mapPut m' r.sha1Hash { r with progressFile := some { p with progress := b } } }⟩ ∧ More d fs0 ind.index m'

/-- Everything `SaveChunk` can leave behind, when it does not return normally. -/
def SaveFault (d dl : Path) (ind : IndexFile) (fs0 : FS) (r : Record) (p : ProgressFile) (n : Nat) (data : Bytes) : Assn := fun c fs =>
  MemMore d dl ind fs0 fs0 c fs ∨ (∃ k, MemMore d dl ind fs0 (partWritten fs0 r n data k) c fs) ∨
    ∃ b, p.progress.set (BitVec.ofNat 64 n) = .ok b ∧ 0 ≤ (n : Int) * r.chunkSize ∧
      (MemSet d dl ind fs0 (chunkWritten fs0 r n data) r p b c fs ∨
        ∃ k, MemSet d dl ind fs0 ((chunkWritten fs0 r n data).put p.filePath (some (b.serialize.take k))) r p b c fs)

theorem t_saveChunk_full (ho : Own ind.index) (h : Sha1Hash) (n : UInt16) (data : Bytes) (r : Record) (p : ProgressFile)
    (hr : mapGet ind.index h = some r) (hp : viewProgress d fs0 r = .ok p) :
    Triple (RO d dl ind fs0) (saveChunk h n data)
      (fun _ c fs => ∃ b, p.progress.set (BitVec.ofNat 64 n.toNat) = .ok b ∧ 0 ≤ (n.toNat : Int) * r.chunkSize ∧
        MemSet d dl ind fs0 ((chunkWritten fs0 r n.toNat data).put p.filePath (some b.serialize)) r p b c fs)
      (SaveFault d dl ind fs0 r p n.toNat data) := by
  refine Triple.bind ((Triple.orPanic (ro_getIndexRecord ho h)).orE (fun c fs h => .inl h)) ?_
  intro r'
  refine Triple.pre (P := fun c fs => MemMore d dl ind fs0 fs0 c fs ∧ r' = { r with progressFile := some p }) ?_ ?_
  rotate_left
  · rintro c fs ⟨h1, r0, p0, h2, h3, h4⟩
    rw [hr] at h2; cases h2
    rw [hp] at h3; cases h3
    exact ⟨h1, h4⟩
  apply Triple.facts
  rintro rfl
  simp only
  refine Triple.bind (Q := fun _ c fs => MemMore d dl ind fs0 (chunkWritten fs0 r n.toNat data) c fs ∧ 0 ≤ (n.toNat : Int) * r.chunkSize) ?_ ?_
  · unfold Record.saveChunk
    refine Triple.bind (Q := fun _ => MemMore d dl ind fs0 (fs0.put r.filePath (some ((fs0 r.filePath).getD [])))) ?_ ?_
    · refine Triple.osOpenCreate _ ?_ ?_ ?_
      · rintro c fs ⟨rfl, h2⟩; exact ⟨rfl, h2⟩
      · intro c fs h; exact .inl h
      · rintro c fs ⟨rfl, h2⟩; exact .inr (.inl ⟨0, (partWritten_zero _ _ _ _).symm, h2⟩)
    · intro _
      refine Triple.osWriteAt _ _ _ ?_ ?_ ?_
      · rintro c fs ⟨rfl, h2⟩ hst
        refine ⟨⟨?_, h2⟩, hst⟩
        rw [FS.put_put, FS.put_same]; rfl
      · rintro c fs ⟨rfl, h2⟩; exact .inr (.inl ⟨0, (partWritten_zero _ _ _ _).symm, h2⟩)
      · rintro c fs k ⟨rfl, h2⟩
        exact .inr (.inl ⟨k, by rw [FS.put_put, FS.put_same]; rfl, h2⟩)
  intro _
  have hq : (∃ q, viewProgress d fs0 r = .ok q) := ⟨p, hp⟩
  refine Triple.bind (Q := fun b c fs => MemMore d dl ind fs0 (chunkWritten fs0 r n.toNat data) c fs ∧
    (0 ≤ (n.toNat : Int) * r.chunkSize ∧ p.progress.set (BitVec.ofNat 64 n.toNat) = .ok b)) ?_ ?_
  · refine Triple.lift _ (fun b hb c fs h => ⟨h.1, h.2, hb⟩) ?_
    rintro c fs ⟨⟨h1, h2⟩, h3⟩
    exact .inr (.inl ⟨_, by rw [partWritten_all]; exact h1, h2⟩)
  · intro b
    apply Triple.facts
    rintro ⟨hst, hb⟩
    refine Triple.bind (Q := fun _ => MemSet d dl ind fs0 (chunkWritten fs0 r n.toNat data) r p b) ?_ ?_
    · refine Triple.bind (Triple.getIndex (fun c fs h => .inr (.inl ⟨_, by rw [partWritten_all]; exact h⟩))) ?_
      intro i
      apply Triple.setIndex
      rintro c fs ⟨⟨rfl, m', rfl, hm⟩, hi⟩
      cases hi
      exact ⟨rfl, m', rfl, hm⟩
    · intro _
      refine Triple.osWriteFile _ _ ?_ ?_ ?_
      · rintro c fs ⟨rfl, h2⟩; exact ⟨b, hb, hst, rfl, h2⟩
      · intro c fs h; exact .inr (.inr ⟨b, hb, hst, .inl h⟩)
      · rintro c fs k ⟨rfl, h2⟩; exact .inr (.inr ⟨b, hb, hst, .inr ⟨k, rfl, h2⟩⟩)
end

end Flu
