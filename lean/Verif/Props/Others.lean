import Verif.Props.ProgressSays
import Verif.Props.CatCrash

/-!
C141: what the daemon shows can be read from its data directory by another program.
-/

namespace Flu
open Spec

variable {env : Env} {d dl : Path} {c : Cat} {fs : FS}

/-- C141 (progress): the progress file of every file that is shown says what is shown, and nothing about chunks that the file does not have. -/
theorem C141_progress (hh : Healthy env d) (hr : CleanReach env d dl (.running c fs)) (h : Sha1Hash) (e : Export) (ho : observe c fs h = .ok e) :
    ∃ data, fs (progressPath d h) = some data ∧ 8 ≤ data.length ∧ data.length % 8 = 0 ∧ Announces data e.progress.size ∧
      (∀ i, Marked data i → (i : Int) < e.progress.size) ∧
      ∀ i, i < 2 ^ 63 → ∃ t, e.progress.get (BitVec.ofNat 64 i) = .ok t ∧ (t = true ↔ Marked data i) := by
  obtain ⟨ind, rfl, hs⟩ := hr.sync hh.abs hh.utf8
  obtain ⟨_, e1, hw⟩ := (hr.reach.inv hh.abs hh.utf8).split
  cases e1
  rw [observe_eq] at ho
  unfold obsRec at ho
  rcases hm : mapGet ind.index h with _ | r
  · rw [hm] at ho; cases ho
  rw [hm] at ho
  simp only at ho
  obtain ⟨p, g0, g, gw⟩ := hs.prog _ r hm
  rw [g0] at ho
  cases ho
  rcases viewProgress_own g with g1 | ⟨-, -, data, g1, g2⟩
  · cases g1
  simp only at g1
  rw [hw.ownGet _ _ hm] at g1
  obtain ⟨h8, hx⟩ := deserialize_whole g2
  obtain ⟨bs, hb, ha, -, hmk⟩ := Bitset.deserialize_says data h8 hx
  rw [g2] at hb
  cases hb
  refine ⟨data, g1, h8, hx, ha, ?_, ?_⟩
  · intro i hi
    by_cases hlt : i < p.progress.size.toNat
    · show (i : Int) < p.progress.size
      omega
    · have := gw.above i (by omega)
      rw [(hmk i).2 hi] at this
      cases this
  · intro i hi
    have ht : (BitVec.ofNat 64 i).toNat = i := by rw [BitVec.toNat_ofNat]; omega
    refine ⟨_, Bitset.get_eq p.progress (BitVec.ofNat 64 i) (by rw [ht]; exact hi), ?_⟩
    rw [ht]
    exact hmk i

/-- C141 (index): the index file is a JSON text, and however it is read as an index, its entries are the files that are shown. -/
theorem C141_index (hj : env.json = goJson) (hh : Healthy env d) (hr : CleanReach env d dl (.running c fs)) :
    ∃ b, fs (indexPath d) = some b ∧ (∃ pid lastTouched dataDir es, DescribesIndex b pid lastTouched dataDir es) ∧
      ∀ pid lastTouched dataDir es, DescribesIndex b pid lastTouched dataDir es → dataDir = d ∧
        ∀ k r, LastEntry es k r ↔ ∃ h e, observe c fs h = .ok e ∧ k = h.toString ∧
          r = ⟨goJson.fix e.filePath, e.sizeInBytes, h.toString, e.chunkSize⟩ := by
  obtain ⟨ind, rfl, hs⟩ := hr.sync hh.abs hh.utf8
  obtain ⟨_, e1, hw⟩ := (hr.reach.inv hh.abs hh.utf8).split
  cases e1
  obtain ⟨ind0, w0, hb, hsame⟩ := hs.index
  have hfix : goJson.fix d = d := hj ▸ hh.utf8
  rw [hj] at hb hsame
  obtain ⟨l, h1, h2⟩ := goJson.dec_enc ind0.toJSON
    (by
      intro e he
      simp only [IndexFile.toJSON, List.mem_map] at he
      obtain ⟨x, _, rfl⟩ := he
      exact isAscii_toString _)
    (by
      have : ind0.toJSON.index.map (·.1) = (ind0.index.map (·.1)).map Sha1Hash.toString := by
        simp [IndexFile.toJSON, Function.comp_def]
      rw [this]
      have hn := w0.nodup
      unfold List.Nodup at hn ⊢
      rw [List.pairwise_map]
      exact hn.imp (fun hab e => hab (toString_inj _ _ e)))
  refine ⟨_, hb, ?_, ?_⟩
  · obtain ⟨es, g1, -⟩ := C139_accepted _ _ h1
    exact ⟨_, _, _, es, g1⟩
  · intro pid t dir es hd
    obtain ⟨v, ht, hv⟩ := hd
    obtain ⟨idx, g1, -, g3⟩ := Json.decode_laxText ht hv
    have g1 : goJson.dec _ = _ := g1
    rw [h1] at g1
    have ge := Option.some.inj g1
    have gl : l = idx := congrArg IndexJSON.index ge
    have gd : goJson.fix ind0.toJSON.dataDir = dir := congrArg IndexJSON.dataDir ge
    subst gl
    refine ⟨?_, ?_⟩
    · rw [← gd]
      show goJson.fix ind0.dataDir = d
      rw [w0.dir, hfix]
    · intro k r
      rw [← g3, h2.mem_iff, List.mem_map]
      constructor
      · rintro ⟨x, hx, hxe⟩
        simp only [IndexFile.toJSON, List.mem_map] at hx
        obtain ⟨⟨h, r0⟩, hm0, rfl⟩ := hx
        have hg := mapGet_of_mem _ _ _ w0.nodup hm0
        have hs1 := hsame h
        rw [hg] at hs1
        rcases hm : mapGet ind.index h with _ | r1
        · rw [hm] at hs1; cases hs1
        rw [hm] at hs1
        have hs1 := Option.some.inj hs1
        obtain ⟨p, q1, q2, -⟩ := hs.prog _ r1 hm
        refine ⟨h, r1.exportWith p, ?_, ?_, ?_⟩
        · rw [observe_eq, obsRec, hm]
          simp only
          rw [q1]; rfl
        · exact (congrArg Prod.fst hxe).symm
        · have : r = _ := (congrArg Prod.snd hxe).symm
          rw [this]
          have a1 : goJson.fix r0.filePath = goJson.fix r1.filePath := congrArg Record.filePath hs1
          have a2 : r0.sizeInBytes = r1.sizeInBytes := by
            have := congrArg Record.sizeInBytes hs1
            exact this
          have a3 : r0.sha1Hash = h := w0.own _ _ hm0
          have a4 : r0.chunkSize = r1.chunkSize := by
            have := congrArg Record.chunkSize hs1
            exact this
          simp only [Record.toJSON, RecordJSON.fixed, Record.exportWith, a1, a2, a3, a4, goJson.fix_ascii _ (isAscii_toString _)]
      · rintro ⟨h, e, ho, rfl, rfl⟩
        rw [observe_eq] at ho
        unfold obsRec at ho
        rcases hm : mapGet ind.index h with _ | r1
        · rw [hm] at ho; cases ho
        rw [hm] at ho
        simp only at ho
        obtain ⟨p, q1, q2, -⟩ := hs.prog _ r1 hm
        rw [q1] at ho
        cases ho
        have hs1 := hsame h
        rw [hm] at hs1
        rcases hm0 : mapGet ind0.index h with _ | r0
        · rw [hm0] at hs1; cases hs1
        rw [hm0] at hs1
        have hs1 := Option.some.inj hs1
        have hmem := mapGet_mem _ _ _ hm0
        refine ⟨(h.toString, r0.toJSON), ?_, ?_⟩
        · simp only [IndexFile.toJSON, List.mem_map]
          exact ⟨(h, r0), hmem, rfl⟩
        · have a1 : goJson.fix r0.filePath = goJson.fix r1.filePath := congrArg Record.filePath hs1
          have a2 : r0.sizeInBytes = r1.sizeInBytes := by
            have := congrArg Record.sizeInBytes hs1
            exact this
          have a3 : r0.sha1Hash = h := w0.own _ _ hmem
          have a4 : r0.chunkSize = r1.chunkSize := by
            have := congrArg Record.chunkSize hs1
            exact this
          simp only [Record.toJSON, RecordJSON.fixed, Record.exportWith, a1, a2, a3, a4, goJson.fix_ascii _ (isAscii_toString _)]

/-- The hypotheses of `C141_progress` and of `C141_index` can be met: a shared file in a history without faults. -/
example (sha1 : Bytes → Sha1Hash) : ∃ c fs e, (exEnv sha1 goJson).json = goJson ∧ Healthy (exEnv sha1 goJson) exDir ∧
    CleanReach (exEnv sha1 goJson) exDir exDown (.running c fs) ∧ observe c fs (sha1 [1, 2, 3]) = .ok e := by
  obtain ⟨c, fs, b, h1, h2, h3, h4, h5, h6⟩ := ex_clean sha1 goJson
  exact ⟨c, fs, _, rfl, ex_healthy sha1 goJson, h1, h3⟩

end Flu
