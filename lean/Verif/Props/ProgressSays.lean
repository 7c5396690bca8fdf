import Verif.Props.Refused
import Verif.Spec.Restart
import Verif.Lemmas.CatSync
import Verif.Lemmas.CatBits
import Verif.Lemmas.ProgressText

/-!
C140: what a daemon makes of a progress file, whatever stands in it.
-/

namespace Flu
open Spec

variable {env : Env} {d : Path}

/-- The text `b` of the index has, for the file `h`, the record `r`, which carries the hash `g`. -/
def ListedAs (b : Bytes) (h g : Sha1Hash) (r : RecordJSON) : Prop :=
  ∃ pid lastTouched dataDir es k, DescribesIndex b pid lastTouched dataDir es ∧ LastEntry es k r ∧ k.map lower = h.toString ∧
    r.sha1Hash.map lower = g.toString

/-- The daemon has just started on the index file `b`. -/
structure StartedOn (env : Env) (d : Path) (b : Bytes) (fs : FS) (s : St) : Prop where
  json : env.json = goJson
  index : fs (indexPath d) = some b
  start : ∃ dl oi fl, Cat.init env ⟨⟨d, dl, oi⟩, fs, fl⟩ = (.ok (), s)

theorem fromJSON_unread {j : RecordJSON} {r : Record} (h : j.fromJSON = .ok r) : r.progressFile = none := by
  unfold RecordJSON.fromJSON at h
  split at h
  · cases h; rfl
  · cases h

theorem started_record {b : Bytes} {fs : FS} {s : St} (hs : StartedOn env d b fs s) (h : Sha1Hash) :
    s.fs = fs ∧ ∃ dl ind, s.cat = ⟨d, dl, some ind⟩ ∧ (mapGet ind.index h = none ∨
      ∃ r rec, ListedAs b h rec.sha1Hash r ∧ mapGet ind.index h = some rec ∧ rec.progressFile = none ∧ rec.filePath = r.filePath ∧
        rec.sizeInBytes = r.sizeInBytes ∧ rec.chunkSize = r.chunkSize) := by
  obtain ⟨dl, oi, fl, hrun⟩ := hs.start
  obtain ⟨h1, -⟩ := s_init_present (env := env) hs.index ⟨⟨d, dl, oi⟩, fs, fl⟩ ⟨rfl, rfl⟩
  obtain ⟨⟨hd, hfs⟩, ind, hu, hc⟩ := h1 _ _ hrun
  obtain ⟨es, g1, g2, g3, g4⟩ := unmarshal_described hs.json hu
  refine ⟨hfs, s.cat.downloadsDir, ind, ?_, ?_⟩
  · rcases hcat : s.cat with ⟨d', dl', oi'⟩
    rw [hcat] at hd hc
    simp only at hd hc
    rw [hd, hc]
  · cases hm : mapGet ind.index h with
    | none => exact .inl rfl
    | some rec =>
      obtain ⟨k, j, k1, k2, k3⟩ := g3 h rec hm
      obtain ⟨-, j2, j3, j4, j5⟩ := fromJSON_ok k3
      exact .inr ⟨j, rec, ⟨_, _, _, es, k, g1, k1, k2, j2⟩, rfl, fromJSON_unread k3, j3, j4, j5⟩

/-- What a lookup shows of the file that has the record `r` and the progress file of `g`. -/
def ShownBy (d : Path) (fs : FS) (g : Sha1Hash) (r : RecordJSON) (res : Res Export) : Prop :=
  (fs (progressPath d g) = none → res = .err .io) ∧
  ∀ data, fs (progressPath d g) = some data →
    (data.length < 8 → res = .panic) ∧
    (8 ≤ data.length → data.length % 8 ≠ 0 → res = .err (.payloadNotMultiple (data.length - 8))) ∧
    (8 ≤ data.length → data.length % 8 = 0 → ∃ e, res = .ok e ∧ e.filePath = r.filePath ∧ e.sizeInBytes = r.sizeInBytes ∧
      e.chunkSize = r.chunkSize ∧ e.sha1Hash = g ∧ Announces data e.progress.size ∧
      ∀ i, i < 2 ^ 63 → ∃ t, e.progress.get (BitVec.ofNat 64 i) = .ok t ∧ (t = true ↔ Marked data i))

/-- What the daemon answers when it asks itself whether the file is complete. -/
def Answered (d : Path) (fs : FS) (g : Sha1Hash) (res : Res Bool) : Prop :=
  (¬ WholeWords (fs (progressPath d g)) → res = .panic) ∧
  ∀ data, fs (progressPath d g) = some data → 8 ≤ data.length → data.length % 8 = 0 → ∃ n, Announces data n ∧
    (n < 0 → res = .panic) ∧ (n = 0 → res = .ok true) ∧
    (0 < n → n ≤ 8 * ((data.length : Int) - 8) →
      ∃ t, res = .ok t ∧ (t = true ↔ ∀ i, i / 64 ≤ (n.toNat - 1) / 64 → (Marked data i ↔ (i : Int) < n))) ∧
    (0 < n → 8 * ((data.length : Int) - 8) < n →
      ((∀ i, i < 8 * (data.length - 8) → Marked data i) → res = .panic) ∧
      ((∃ i, i < 8 * (data.length - 8) ∧ ¬ Marked data i) → res = .ok false))

/-- Which chunks of the file the daemon takes to be missing. -/
def Asked (d : Path) (fs : FS) (g : Sha1Hash) (res : Res (List Range)) : Prop :=
  (¬ WholeWords (fs (progressPath d g)) → res = .panic) ∧
  ∀ data, fs (progressPath d g) = some data → 8 ≤ data.length → data.length % 8 = 0 → ∃ n, Announces data n ∧
    (n ≤ 65536 → ∃ rs missing, res = .ok rs ∧ (∀ i, missing i = true ↔ ¬ Marked data i) ∧ IsRuns (rangePairs rs) missing 0 n.toNat)

/-- Which chunks of the file the daemon serves. -/
def Served (d : Path) (fs : FS) (g : Sha1Hash) (chunk : Nat) (res : Res (Option ChunkReader)) : Prop :=
  ∀ data, fs (progressPath d g) = some data → 8 ≤ data.length → data.length % 8 = 0 → (res = .err (.missingChunk chunk) ↔ ¬ Marked data chunk)

theorem shown_of {fs : FS} {r : RecordJSON} {rec : Record} (hn : rec.progressFile = none) (e1 : rec.filePath = r.filePath)
    (e2 : rec.sizeInBytes = r.sizeInBytes) (e3 : rec.chunkSize = r.chunkSize) :
    ShownBy d fs rec.sha1Hash r (viewProgress d fs rec >>= fun p => Res.ok (rec.exportWith p)) := by
  refine ⟨?_, ?_⟩
  · intro hf
    rw [viewProgress, hn]
    simp only [hf]
    rfl
  · intro data hf
    rw [viewProgress, hn]
    simp only [hf]
    refine ⟨?_, ?_, ?_⟩
    · intro h8
      rw [Bitset.deserialize, if_pos h8]; rfl
    · intro h8 hx
      rw [Bitset.deserialize, if_neg (by omega)]
      simp only [List.length_drop]
      rw [if_pos (by omega)]; rfl
    · intro h8 hx
      obtain ⟨bs, hb, ha, -, hmk⟩ := Bitset.deserialize_says data h8 hx
      rw [hb]
      refine ⟨_, rfl, e1, e2, e3, rfl, ha, ?_⟩
      intro i hi
      have ht : (BitVec.ofNat 64 i).toNat = i := by rw [BitVec.toNat_ofNat]; omega
      refine ⟨_, Bitset.get_eq bs (BitVec.ofNat 64 i) (by rw [ht]; exact hi), ?_⟩
      rw [ht]
      exact hmk i

theorem fileComplete_view (dl : Path) (ind : IndexFile) (fs : FS) (h : Sha1Hash) (rec : Record) (hm : mapGet ind.index h = some rec) :
    (fileComplete h ⟨⟨d, dl, some ind⟩, fs, []⟩).1 = match viewProgress d fs rec with
      | .ok p => p.progress.full
      | .err _ => .panic
      | .panic => .panic
      | .exit => .exit
      | .crash => .crash := by
  unfold fileComplete
  rw [IOM.bind_apply, IOM.orPanic, getIndexRecord_nil, hm]
  simp only
  rcases viewProgress d fs rec with p | e | _ | _ | _ <;> rfl

theorem answered_of {fs : FS} {rec : Record} (hn : rec.progressFile = none) (dl : Path) (ind : IndexFile) (h : Sha1Hash)
    (hm : mapGet ind.index h = some rec) : Answered d fs rec.sha1Hash (fileComplete h ⟨⟨d, dl, some ind⟩, fs, []⟩).1 := by
  rw [fileComplete_view dl ind fs h rec hm, viewProgress, hn]
  refine ⟨?_, ?_⟩
  · intro hw
    cases hf : fs (progressPath d rec.sha1Hash) with
    | none => rfl
    | some data =>
      simp only
      rw [Bitset.deserialize]
      by_cases h8 : data.length < 8
      · rw [if_pos h8]; rfl
      · rw [if_neg h8]
        simp only [List.length_drop]
        by_cases hx : (data.length - 8) % 8 = 0
        · exact (hw ⟨data, hf, by omega, by omega⟩).elim
        · rw [if_pos hx]; rfl
  · intro data hf h8 hx
    simp only [hf]
    obtain ⟨bs, hb, ha, hlen, hmk⟩ := Bitset.deserialize_says data h8 hx
    rw [hb]
    refine ⟨bs.size, ha, ?_, ?_, ?_, ?_⟩
    · intro h; exact Bitset.full_negative bs h
    · intro h
      show bs.full = _
      unfold Bitset.full
      rw [if_pos h]; rfl
    · intro h0 hle
      obtain ⟨t, h1, h2⟩ := Bitset.full_enough bs h0 (by omega)
      refine ⟨t, h1, h2.trans ?_⟩
      simp only [hmk]
    · intro h0 hlt
      obtain ⟨h1, h2⟩ := Bitset.full_few bs (by omega)
      constructor
      · intro hall
        exact h1 (fun i hi => (hmk i).2 (hall i (by omega)))
      · rintro ⟨i, hi, hno⟩
        refine h2 ⟨i, by omega, ?_⟩
        cases hh : bs.has i with
        | false => rfl
        | true => exact (hno ((hmk i).1 hh)).elim

theorem missingChunks_view (dl : Path) (ind : IndexFile) (fs : FS) (h : Sha1Hash) (rec : Record) (hm : mapGet ind.index h = some rec) :
    (missingChunks h ⟨⟨d, dl, some ind⟩, fs, []⟩).1 = match viewProgress d fs rec with
      | .ok p => p.progress.unfilledRanges
      | .err _ => .panic
      | .panic => .panic
      | .exit => .exit
      | .crash => .crash := by
  unfold missingChunks
  rw [IOM.bind_apply, IOM.orPanic, getIndexRecord_nil, hm]
  simp only
  rcases viewProgress d fs rec with p | e | _ | _ | _ <;> rfl

theorem unfilled_negative (bs : Bitset) (h : bs.size < 0) : bs.unfilledRanges = .ok [] := by
  unfold Bitset.unfilledRanges
  rw [show bs.size.toNat = 0 by omega]
  rfl

theorem asked_of {fs : FS} {rec : Record} (hn : rec.progressFile = none) (dl : Path) (ind : IndexFile) (h : Sha1Hash)
    (hm : mapGet ind.index h = some rec) : Asked d fs rec.sha1Hash (missingChunks h ⟨⟨d, dl, some ind⟩, fs, []⟩).1 := by
  rw [missingChunks_view dl ind fs h rec hm, viewProgress, hn]
  refine ⟨?_, ?_⟩
  · intro hw
    cases hf : fs (progressPath d rec.sha1Hash) with
    | none => rfl
    | some data =>
      simp only
      rw [Bitset.deserialize]
      by_cases h8 : data.length < 8
      · rw [if_pos h8]; rfl
      · rw [if_neg h8]
        simp only [List.length_drop]
        by_cases hx : (data.length - 8) % 8 = 0
        · exact (hw ⟨data, hf, by omega, by omega⟩).elim
        · rw [if_pos hx]; rfl
  · intro data hf h8 hx
    simp only [hf]
    obtain ⟨bs, hb, ha, hlen, hmk⟩ := Bitset.deserialize_says data h8 hx
    rw [hb]
    refine ⟨bs.size, ha, ?_⟩
    intro hle
    have hmiss : ∀ i, (!bs.has i) = true ↔ ¬ Marked data i := by
      intro i
      rw [← hmk i]
      cases bs.has i <;> simp
    by_cases h0 : 0 ≤ bs.size
    · obtain ⟨rs, h1, h2⟩ := unfilled_pairs bs h0 hle
      exact ⟨rs, _, h1, hmiss, h2⟩
    · refine ⟨[], _, unfilled_negative bs (by omega), hmiss, ?_⟩
      rw [show bs.size.toNat = 0 by omega]
      exact ⟨(by intro r hr; cases hr), List.Pairwise.nil, rfl⟩

theorem served_of {fs : FS} {rec : Record} (hn : rec.progressFile = none) (dl : Path) (ind : IndexFile) (h : Sha1Hash)
    (hm : mapGet ind.index h = some rec) (chunk : Nat) (hc : chunk < 2 ^ 63) (choices : List AtChoice) :
    Served d fs rec.sha1Hash chunk (getChunkReader env h chunk choices ⟨⟨d, dl, some ind⟩, fs, []⟩).1 := by
  intro data hf h8 hx
  obtain ⟨bs, hb, ha, hlen, hmk⟩ := Bitset.deserialize_says data h8 hx
  have hv : viewProgress d fs rec = .ok ⟨bs, progressPath d rec.sha1Hash⟩ := by
    rw [viewProgress, hn]
    simp only [hf, hb]
    rfl
  have ht : (BitVec.ofNat 64 chunk).toNat = chunk := by rw [BitVec.toNat_ofNat]; omega
  have hg := Bitset.get_eq bs (BitVec.ofNat 64 chunk) (by rw [ht]; exact hc)
  rw [ht] at hg
  unfold getChunkReader
  rw [IOM.bind_apply, getIndexRecord_nil, hm]
  simp only [hv]
  rw [IOM.bind_apply]
  simp only [IOM.lift, hg]
  rw [← hmk chunk]
  cases hh : bs.has chunk with
  | false => simp only [Bool.not_false, ↓reduceIte, Bool.false_eq_true, not_false_eq_true, iff_true]; rfl
  | true =>
    simp only [Bool.not_true, Bool.false_eq_true, ↓reduceIte, not_true_eq_false, iff_false]
    rw [IOM.bind_apply]
    have htouch : ∀ c f, osTouch ⟨c, f, []⟩ = (.ok (), ⟨c, f, []⟩) := fun _ _ => rfl
    rw [htouch]
    simp only
    rw [IOM.bind_apply]
    simp only [getFS]
    cases hfile : fs rec.filePath with
    | none => simp [IOM.lift]
    | some content =>
      intro hcon
      cases hcon

/-- C140: a daemon that has just started reads the progress file of a file that the index has, whoever wrote it, byte for byte, and everything it
says about the file follows from that. -/
theorem C140_says {b : Bytes} {fs : FS} {s : St} (hs : StartedOn env d b fs s) (h : Sha1Hash) :
    observe s.cat s.fs h = .err .fileNotFound ∨ ∃ r g, ListedAs b h g r ∧ ShownBy d fs g r (observe s.cat s.fs h) ∧
      Answered d fs g (fileComplete h ⟨s.cat, s.fs, []⟩).1 ∧ Asked d fs g (missingChunks h ⟨s.cat, s.fs, []⟩).1 ∧
      ∀ chunk, chunk < 2 ^ 63 → ∀ choices, Served d fs g chunk (getChunkReader env h chunk choices ⟨s.cat, s.fs, []⟩).1 := by
  obtain ⟨hfs, dl, ind, hc, hm | ⟨r, rec, hl, hm, hn, e1, e2, e3⟩⟩ := started_record hs h
  · left
    rw [hc, observe_eq, obsRec, hm]
  · right
    have ho : observe s.cat s.fs h = (viewProgress d fs rec >>= fun p => Res.ok (rec.exportWith p)) := by
      rw [hc, observe_eq, obsRec, hm, hfs]; rfl
    refine ⟨r, rec.sha1Hash, hl, ho ▸ shown_of hn e1 e2 e3, ?_, ?_, ?_⟩
    · rw [hc, hfs]; exact answered_of hn dl ind h hm
    · rw [hc, hfs]; exact asked_of hn dl ind h hm
    · intro chunk hch choices
      rw [hc, hfs]; exact served_of hn dl ind h hm chunk hch choices

theorem announces_unique {data : Bytes} {n m : Int} (hn : Announces data n) (hm : Announces data m) : n = m := by
  obtain ⟨a, b, c, d, e, f, g, h, rest, rfl, h1, h2, k, hk⟩ := hn
  obtain ⟨_, _, _, _, _, _, _, _, _, he, h3, h4, k', hk'⟩ := hm
  simp only [List.cons.injEq] at he
  obtain ⟨rfl, rfl, rfl, rfl, rfl, rfl, rfl, rfl, rfl⟩ := he
  rw [← hk'] at hk
  omega

/-- C140 (a stray bit): if a bit behind the last chunk is set, in the same word, the file does not count as complete, although no chunk of it is missing. -/
theorem C140_stray {b : Bytes} {fs : FS} {s : St} (hs : StartedOn env d b fs s) (h : Sha1Hash) (hk : observe s.cat s.fs h ≠ .err .fileNotFound) :
    ∃ r g, ListedAs b h g r ∧ ∀ data n, fs (progressPath d g) = some data → data.length % 8 = 0 → Announces data n → 0 < n → n ≤ 65536 →
      n ≤ 8 * ((data.length : Int) - 8) → (∀ i : Nat, (i : Int) < n → Marked data i) →
      (∃ j : Nat, n ≤ j ∧ j / 64 = (n.toNat - 1) / 64 ∧ Marked data j) →
      (fileComplete h ⟨s.cat, s.fs, []⟩).1 = .ok false ∧ (missingChunks h ⟨s.cat, s.fs, []⟩).1 = .ok [] := by
  rcases C140_says hs h with h0 | ⟨r, g, hl, -, hans, hask, -⟩
  · exact (hk h0).elim
  refine ⟨r, g, hl, ?_⟩
  intro data n hf hx hn h0 h1 h2 hall ⟨j, hj1, hj2, hj3⟩
  have h8 : 8 ≤ data.length := by
    obtain ⟨_, _, _, _, _, _, _, _, rest, rfl, -⟩ := hn
    simp
  constructor
  · obtain ⟨n', hn', -, -, he, -⟩ := hans.2 data hf h8 hx
    obtain rfl := announces_unique hn hn'
    obtain ⟨t, ht, hiff⟩ := he h0 h2
    rw [ht]
    cases t with
    | false => rfl
    | true =>
      have := (hiff.1 rfl j (by omega)).1 hj3
      omega
  · obtain ⟨n', hn', he⟩ := hask.2 data hf h8 hx
    obtain rfl := announces_unique hn hn'
    obtain ⟨rs, miss, hr, hm, hruns⟩ := he h1
    rw [hr]
    have hc : covered (rangePairs rs) = [] := by
      rw [hruns.exact, List.filter_eq_nil_iff]
      intro i hi
      rw [List.mem_range'_1] at hi
      intro hmi
      exact (hm i).1 hmi (hall i (by omega))
    cases rs with
    | nil => rfl
    | cons x rs =>
      exfalso
      have hne := hruns.nonempty (x.start.toNat, x.stop.toNat) (by simp [rangePairs])
      simp [covered, rangePairs] at hc
      omega

theorem deserialize_whole {data : Bytes} {bs : Bitset} (h : Bitset.deserialize data = .ok bs) : 8 ≤ data.length ∧ data.length % 8 = 0 := by
  unfold Bitset.deserialize at h
  split at h
  · cases h
  · simp only [List.length_drop] at h
    split at h
    · cases h
    · omega

/-- C140 (saving): a chunk that is saved is added to what the progress file says, whatever it said, and nothing that it said is lost; no other file
changes but the data file. -/
theorem C140_saved {b : Bytes} {fs : FS} {s : St} (hs : StartedOn env d b fs s) (h : Sha1Hash) (n : UInt16) (chunk : Bytes) (s' : St)
    (hrun : saveChunk h n chunk ⟨s.cat, s.fs, []⟩ = (.ok (), s')) :
    ∃ r g old new, ListedAs b h g r ∧ fs (progressPath d g) = some old ∧ s'.fs (progressPath d g) = some new ∧
      8 ≤ new.length ∧ new.length % 8 = 0 ∧ (∀ i, Marked new i ↔ Marked old i ∨ i = n.toNat) ∧
      (∀ k, Announces old k → Announces new (max k (n.toNat + 1))) ∧
      ∀ q, q ≠ progressPath d g → q ≠ r.filePath → s'.fs q = fs q := by
  obtain ⟨hfs, dl, ind, hc, hm⟩ := started_record hs h
  rw [hc, hfs] at hrun
  obtain ⟨rec, p, h1, h2, ⟨h3, -⟩ | ⟨-, -, bs, h4, h5⟩⟩ := saveChunk_nil h n chunk d dl ind fs _ s' hrun rfl
  · cases h3
  rcases hm with hm | ⟨r, rec', hl, hm, hn, e1, e2, e3⟩
  · rw [hm] at h1; cases h1
  rw [h1] at hm
  cases hm
  rcases viewProgress_own h2 with g1 | ⟨-, gp, old, g1, g2⟩
  · rw [hn] at g1; cases g1
  obtain ⟨h8, hx⟩ := deserialize_whole g2
  obtain ⟨b0, hb0, ha0, -, hmk0⟩ := Bitset.deserialize_says old h8 hx
  rw [g2] at hb0
  cases hb0
  have hn16 := n.toNat_lt
  have ht : (BitVec.ofNat 64 n.toNat).toNat = n.toNat := by rw [BitVec.toNat_ofNat]; omega
  obtain ⟨w, k1, k2, k3⟩ := Bitset.set_eq p.progress (BitVec.ofNat 64 n.toNat) (by rw [ht]; omega)
  rw [h4] at k1
  cases k1
  rw [ht] at k3 h5
  have hb1 : -2 ^ 63 ≤ p.progress.size ∧ p.progress.size < 2 ^ 63 := by
    obtain ⟨_, _, _, _, _, _, _, _, _, -, x1, x2, -⟩ := ha0
    exact ⟨x1, x2⟩
  have hser := Bitset.deserialize_serialize ⟨w, max p.progress.size (n.toNat + 1)⟩ (by simp only; omega) (by simp only; omega)
  obtain ⟨h8', hx'⟩ := deserialize_whole hser
  obtain ⟨b1, hb1', ha1, -, hmk1⟩ := Bitset.deserialize_says _ h8' hx'
  rw [hser] at hb1'
  cases hb1'
  refine ⟨r, rec.sha1Hash, old, Bitset.serialize ⟨w, max p.progress.size (n.toNat + 1)⟩, hl, g1, ?_, h8', hx', ?_, ?_, ?_⟩
  · rw [h5, gp]
    exact FS.put_same _ _ _
  · intro i
    rw [← hmk1 i, ← hmk0 i, k3 i]
    simp
  · intro k hk
    rw [announces_unique hk ha0]
    exact ha1
  · intro q hq1 hq2
    rw [h5, gp]
    rw [← e1] at hq2
    simp only
    rw [FS.put_other _ _ _ _ hq1, FS.put_other _ _ _ _ hq2]

/-- A daemon that has just started on an index with one file. -/
theorem ex_startedOn (env : Env) (hj : env.json = goJson) (d dl : Path) (fs : FS) (h : Sha1Hash) : ∃ b s, StartedOn env d b (fs.put (indexPath d) (some b)) s ∧
    s.fs = fs.put (indexPath d) (some b) ∧
    s.cat = ⟨d, dl, some ⟨1, 2, mapPut [] h ⟨[47, 102], 10, h, none, 4⟩, env.json.fix [47]⟩⟩ := by
  have ha : isAscii h.toString := isAscii_toString h
  obtain ⟨l, hdec, hperm⟩ := env.json.dec_enc ⟨1, 2, [(h.toString, ⟨[47, 102], 10, h.toString, 4⟩)], [47]⟩ (by simpa using ha) (by simp)
  have hl : l = [(h.toString, ⟨[47, 102], 10, h.toString, 4⟩)] := by
    have := List.perm_singleton.1 hperm
    rw [this]
    simp only [RecordJSON.fixed, env.json.fix_ascii _ ha]
    rw [env.json.fix_ascii [47, 102] (by simp [isAscii])]
  subst hl
  generalize hb : env.json.enc _ = b at hdec
  have hu : unmarshalIndex env b = .ok ⟨1, 2, mapPut [] h ⟨[47, 102], 10, h, none, 4⟩, env.json.fix [47]⟩ := by
    unfold unmarshalIndex
    rw [hdec]
    simp only [indexFromJSON, RecordJSON.fromJSON, C21_roundtrip]
    rfl
  have hi : Cat.init env ⟨⟨d, dl, none⟩, fs.put (indexPath d) (some b), []⟩ = (.ok (), ⟨⟨d, dl, some ⟨1, 2, mapPut [] h ⟨[47, 102], 10, h, none, 4⟩, env.json.fix [47]⟩⟩, fs.put (indexPath d) (some b), []⟩) := by
    unfold Cat.init
    simp only [IOM.bind_apply, getCat_apply, setIndex_eval, osTouch_nil, osStat_nil, FS.put_same, Option.map_some, IOM.pure_apply, osReadFile_nil, IOM.lift_apply, hu]
  exact ⟨b, _, ⟨hj, FS.put_same _ _ _, dl, none, [], hi⟩, rfl, rfl⟩

/-- The hypotheses of `C140_says` can be met by a daemon that has a file, whatever the disk holds beside its index file. -/
example (env : Env) (hj : env.json = goJson) (d : Path) (fs : FS) (h : Sha1Hash) : ∃ b s, StartedOn env d b (fs.put (indexPath d) (some b)) s ∧
    observe s.cat s.fs h ≠ .err .fileNotFound := by
  obtain ⟨b, s, h1, -, h2⟩ := ex_startedOn env hj d [] fs h
  refine ⟨b, s, h1, ?_⟩
  rw [h2, observe_eq, obsRec, mapGet_put, if_pos rfl]
  simp only
  intro hc
  cases hv : viewProgress d s.fs ⟨[47, 102], 10, h, none, 4⟩ with
  | ok p => rw [hv] at hc; cases hc
  | err e => rw [hv] at hc; cases hc; exact viewProgress_found _ _ _ hv
  | _ => rw [hv] at hc; cases hc

/-- The hypotheses of `C140_saved` can be met: a progress file that says nothing but a negative number of chunks. -/
example (env : Env) (hj : env.json = goJson) (d : Path) (hd : AbsClean d) (fs : FS) (h : Sha1Hash)
    (hf : fs (progressPath d h) = some [255, 255, 255, 255, 255, 255, 255, 255]) :
    ∃ b s s', StartedOn env d b (fs.put (indexPath d) (some b)) s ∧ saveChunk h 7 [1] ⟨s.cat, s.fs, []⟩ = (.ok (), s') := by
  obtain ⟨b, s, h1, h2, h3⟩ := ex_startedOn env hj d [] fs h
  have hv : viewProgress d s.fs ⟨[47, 102], 10, h, none, 4⟩ = .ok ⟨⟨[], -1⟩, progressPath d h⟩ := by
    unfold viewProgress
    simp only
    rw [h2, FS.put_other _ _ _ _ (fun e => indexPath_ne_progressPath d d hd hd h e.symm), hf]
    rfl
  obtain ⟨dd, e1, -⟩ := Bitset.set_eq ⟨[], -1⟩ (BitVec.ofNat 64 7) (by decide)
  refine ⟨b, s, ?_⟩
  rw [h3]
  unfold saveChunk
  rw [IOM.bind_apply]
  unfold IOM.orPanic
  rw [getIndexRecord_nil, mapGet_put, if_pos rfl]
  simp only [hv]
  have hk : ((UInt16.toNat 7 : Nat) : Int) * 4 = ((28 : Nat) : Int) := by decide
  have h7 : UInt16.toNat 7 = 7 := rfl
  simp only [Record.saveChunk, IOM.bind_apply, osOpenCreate_nil, hk, osWriteAt_nil, h7, IOM.lift_apply, e1, updateRecord_eval, ProgressFile.save, osWriteFile_nil]
  exact ⟨_, h1, rfl⟩

/-- A progress file that says seventy chunks, of which the chunks 0, 9 and 64 are marked: the byte of the lowest chunks stands last in its word. -/
example : Announces ([0, 0, 0, 0, 0, 0, 0, 70] ++ [0, 0, 0, 0, 0, 0, 2, 1] ++ [0, 0, 0, 0, 0, 0, 0, 1]) 70 ∧
    Marked ([0, 0, 0, 0, 0, 0, 0, 70] ++ [0, 0, 0, 0, 0, 0, 2, 1] ++ [0, 0, 0, 0, 0, 0, 0, 1]) 9 ∧
    Marked ([0, 0, 0, 0, 0, 0, 0, 70] ++ [0, 0, 0, 0, 0, 0, 2, 1] ++ [0, 0, 0, 0, 0, 0, 0, 1]) 64 ∧
    ¬ Marked ([0, 0, 0, 0, 0, 0, 0, 70] ++ [0, 0, 0, 0, 0, 0, 2, 1] ++ [0, 0, 0, 0, 0, 0, 0, 1]) 1 := by
  refine ⟨⟨0, 0, 0, 0, 0, 0, 0, 70, _, rfl, by omega, by omega, 0, by decide⟩, ⟨2, rfl, by decide⟩, ⟨1, rfl, by decide⟩, ?_⟩
  rintro ⟨c, h1, h2⟩
  have : c = 1 := (Option.some.inj h1).symm
  subst this
  exact absurd h2 (by decide)

/-- The hypotheses of `C140_stray` can be met: three chunks, and four bits that are set. -/
example : Announces ([0, 0, 0, 0, 0, 0, 0, 3] ++ [0, 0, 0, 0, 0, 0, 0, 15]) 3 ∧
    (∀ i : Nat, (i : Int) < 3 → Marked ([0, 0, 0, 0, 0, 0, 0, 3] ++ [0, 0, 0, 0, 0, 0, 0, 15]) i) ∧
    ∃ j : Nat, 3 ≤ (j : Int) ∧ j / 64 = (Int.toNat 3 - 1) / 64 ∧ Marked ([0, 0, 0, 0, 0, 0, 0, 3] ++ [0, 0, 0, 0, 0, 0, 0, 15]) j := by
  refine ⟨⟨0, 0, 0, 0, 0, 0, 0, 3, _, rfl, by omega, by omega, 0, by decide⟩, ?_, 3, by decide, by decide, 15, rfl, by decide⟩
  intro i hi
  have : i = 0 ∨ i = 1 ∨ i = 2 := by omega
  rcases this with rfl | rfl | rfl <;> exact ⟨15, rfl, by decide⟩

end Flu
