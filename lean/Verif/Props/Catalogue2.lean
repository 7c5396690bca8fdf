import Verif.Lemmas.CatBits
import Verif.Props.Readers
import Verif.Props.Catalogue
/-!
# Properties of the catalogue: restarts, completeness, reading chunks (C30, C34, C35)
-/
namespace Flu
open Spec

section
variable {env : Env} {d dl : Path} {c : Cat} {fs : FS}

/-- What JSON does to an exported record: its path passes through `fix`. -/
def Export.refix (fix : GoString → GoString) (e : Export) : Export := { e with filePath := fix e.filePath }

/-- C30: after any fault-free history, restarting the daemon succeeds, changes no file, and the restarted daemon shows for every hash what the old one
showed, with the path as JSON preserves it; in particular the same progress. -/
theorem C30_restart (hh : Healthy env d) (hr : CleanReach env d dl (.running c fs)) (pid now : Int) :
    ∃ c', Cat.init { env with pid := pid, now := now } ⟨⟨d, dl, none⟩, fs, []⟩ = (.ok (), ⟨c', fs, []⟩) ∧
      CleanReach env d dl (.running c' fs) ∧
      (∀ h e, observe c fs h = .ok e → observe c' fs h = .ok (e.refix env.json.fix)) ∧
      (∀ h, observe c fs h = .err .fileNotFound → observe c' fs h = .err .fileNotFound) ∧
      (∀ h, (∃ e, observe c fs h = .ok e) ∨ observe c fs h = .err .fileNotFound) := by
  obtain ⟨ind, rfl, hs⟩ := hr.sync hh.abs hh.utf8
  obtain ⟨ind', h1, h2, h3⟩ := Sync.start (env := { env with pid := pid, now := now }) (dl := dl) ⟨hs.index, hs.prog⟩
  refine ⟨_, h1, CleanReach.start pid now fs _ (CleanReach.kill _ _ hr) h1, ?_, ?_, ?_⟩
  · intro h e he
    rw [observe_eq] at he ⊢
    unfold obsRec at he ⊢
    rw [h3]
    rcases hm : mapGet ind.index h with _ | r
    · rw [hm] at he; cases he
    rw [hm] at he
    obtain ⟨p, h4, h5, h6⟩ := hs.prog h r hm
    simp only [h4, Option.map_some] at he ⊢
    have : viewProgress d fs (Record.reloaded env.json.fix r) = .ok p := h5
    rw [this]
    cases he; rfl
  · intro h he
    rw [observe_eq] at he ⊢
    unfold obsRec at he ⊢
    rw [h3]
    rcases hm : mapGet ind.index h with _ | r
    · rfl
    rw [hm] at he
    obtain ⟨p, h4, h5, h6⟩ := hs.prog h r hm
    simp only [h4] at he
    cases he
  · intro h
    rw [observe_eq]
    unfold obsRec
    rcases hm : mapGet ind.index h with _ | r
    · exact .inr rfl
    obtain ⟨p, h4, h5, h6⟩ := hs.prog h r hm
    simp only [h4]
    exact .inl ⟨_, rfl⟩

/-- C30: when the recorded paths are valid text, the restarted daemon shows exactly the same catalogue. -/
theorem C30_same (hh : Healthy env d) (hr : CleanReach env d dl (.running c fs)) (pid now : Int)
    (hp : ∀ h e, observe c fs h = .ok e → env.json.fix e.filePath = e.filePath) :
    ∃ c', Cat.init { env with pid := pid, now := now } ⟨⟨d, dl, none⟩, fs, []⟩ = (.ok (), ⟨c', fs, []⟩) ∧ ∀ h, observe c' fs h = observe c fs h := by
  obtain ⟨c', h1, -, h2, h3, h4⟩ := C30_restart hh hr pid now
  refine ⟨c', h1, fun h => ?_⟩
  rcases h4 h with ⟨e, he⟩ | he
  · rw [he, h2 h e he]
    unfold Export.refix
    rw [hp h e he]
  · rw [he, h3 h he]

/-- C30: `ListFiles` works before and after the restart and shows the same hashes, each once. -/
theorem C30_list (hh : Healthy env d) (hr : CleanReach env d dl (.running c fs)) (order : List Sha1Hash) (ho : MapOrder c order) :
    ∃ es s', listFiles order ⟨c, fs, []⟩ = (.ok es, s') ∧ es.map (fun e => e.sha1Hash) = order ∧
      ∀ h, (∃ e, observe c fs h = .ok e) ↔ h ∈ order := by
  obtain ⟨c', -, -, -, -, h4⟩ := C30_restart hh hr 0 0
  obtain ⟨es, s', h5⟩ := C38_total hh hr.reach order ho (fun h hm => by
    rcases h4 h with he | he
    · exact he
    · exact absurd he hm)
  obtain ⟨h6, -, h7, -⟩ := C38_list hh hr.reach order ho [] es s' h5
  refine ⟨es, s', h5, ?_, fun h => ?_⟩
  rotate_left
  · rw [h7]
    rcases h4 h with ⟨e, he⟩ | he
    · exact ⟨fun _ => (by rw [he]; intro x; cases x), fun _ => ⟨e, he⟩⟩
    · exact ⟨fun ⟨e, h8⟩ => (by rw [he] at h8; cases h8), fun x => absurd he x⟩
  have hown := fun h e (he : observe c fs h = .ok e) => C27_own hh hr.reach h e he
  clear h5 h7 ho
  induction order generalizing es with
  | nil => cases es with
    | nil => rfl
    | cons e es => simp at h6
  | cons h order ih => cases es with
    | nil => simp at h6
    | cons e es =>
      simp only [List.map_cons, List.cons.injEq] at h6 ⊢
      exact ⟨hown h e (by first | exact h6.1.symm | exact h6.1), ih es h6.2⟩

/-! ### C34 -/

/-- The progress seen in any state is one that `Full` and `UnfilledRanges` handle. -/
theorem observe_loaded (hh : Healthy env d) (hreach : Reach env d dl (.running c fs)) (h : Sha1Hash) (e : Export) (ho : observe c fs h = .ok e) :
    Loaded e.progress := by
  have hI : Inv env d dl c fs := hreach.inv hh.abs hh.utf8
  obtain ⟨ind, rfl, hw⟩ := hI.split
  rw [observe_eq] at ho
  unfold obsRec at ho
  rcases hm : mapGet ind.index h with _ | r
  · rw [hm] at ho; cases ho
  rw [hm] at ho
  obtain ⟨p, hp, ho⟩ := (Res.bind_ok_iff _ _ _).1 ho
  cases ho
  exact (viewProgress_loaded hI.disk (hw.recs _ _ (mapGet_mem _ _ _ hm)) hp).2

theorem observe_chunkSize (hh : Healthy env d) (hreach : Reach env d dl (.running c fs)) (h : Sha1Hash) (e : Export) (ho : observe c fs h = .ok e) :
    0 ≤ e.chunkSize ∧ e.chunkSize < 2 ^ 32 := by
  have hI : Inv env d dl c fs := hreach.inv hh.abs hh.utf8
  obtain ⟨ind, rfl, hw⟩ := hI.split
  rw [observe_eq] at ho
  unfold obsRec at ho
  rcases hm : mapGet ind.index h with _ | r
  · rw [hm] at ho; cases ho
  rw [hm] at ho
  obtain ⟨p, hp, ho⟩ := (Res.bind_ok_iff _ _ _).1 ho
  cases ho
  have := hw.recs _ _ (mapGet_mem _ _ _ hm)
  exact ⟨this.1, this.2⟩

/-- Chunk `i` of a record has been saved. -/
def Export.saved (e : Export) (i : Nat) : Prop := e.progress.get (BitVec.ofNat 64 i) = .ok true

theorem Export.saved_iff (e : Export) (i : Nat) (h : i < 2 ^ 63) : e.saved i ↔ e.progress.has i = true := by
  unfold Export.saved
  have e1 : (BitVec.ofNat 64 i).toNat = i := by rw [BitVec.toNat_ofNat]; omega
  rw [Bitset.get_eq _ _ (by omega), e1]
  constructor
  · intro h; injection h
  · intro h; rw [h]

/-- What a read-only call leaves behind shows the same. -/
theorem RO.same {ind : IndexFile} {s' : St} (h : RO d dl ind fs s'.cat s'.fs) :
    s'.fs = fs ∧ ∀ k, observe s'.cat s'.fs k = observe ⟨d, dl, some ind⟩ fs k := by
  obtain ⟨h1, m', h2, h3⟩ := h
  refine ⟨h1, fun k => ?_⟩
  rw [h1, h2, observe_eq, observe_eq]
  exact h3.obs k

theorem Loaded.full_iff {e : Export} (w : Loaded e.progress) (v : Bool) (h : e.progress.full = .ok v) :
    v = true ↔ ∀ i : Nat, (i : Int) < e.progress.sizeOf → e.saved i := by
  have h0 := w.size_nonneg
  have h1 := w.size_lt
  rw [full_loaded _ w v h, decide_eq_true_iff]
  unfold Bitset.sizeOf
  constructor
  · intro hall i hi
    exact (e.saved_iff i (by omega)).2 (hall i (by omega))
  · intro hall i hi
    exact (e.saved_iff i (by omega)).1 (hall i (by omega))

/-- C34: what `FileComplete` reports is the truth about the record the catalogue shows; nothing changes. -/
theorem C34_complete (hh : Healthy env d) (hreach : Reach env d dl (.running c fs)) (h : Sha1Hash) (fl : List Fault) (v : Bool) (s' : St)
    (hrun : fileComplete h ⟨c, fs, fl⟩ = (.ok v, s')) :
    ∃ e, observe c fs h = .ok e ∧ (v = true ↔ ∀ i : Nat, (i : Int) < e.progress.sizeOf → e.saved i) ∧ s'.fs = fs ∧
      ∀ k, observe s'.cat s'.fs k = observe c fs k := by
  have hI : Inv env d dl c fs := hreach.inv hh.abs hh.utf8
  obtain ⟨ind, rfl, hw⟩ := hI.split
  obtain ⟨h1, e, h2, h3⟩ := ((ro_complete (dl := dl) (fs0 := fs) hw.ownGet h) ⟨_, fs, fl⟩ (RO.init d dl ind fs)).1 v s' hrun
  rw [← observe_eq d dl] at h2
  exact ⟨e, h2, (observe_loaded hh hreach h e h2).full_iff v h3, h1.same⟩

/-- C34: `MissingChunks` of a file of at most 65536 chunks lists exactly the unsaved chunks, as increasing maximal ranges; nothing changes. -/
theorem C34_missing (hh : Healthy env d) (hreach : Reach env d dl (.running c fs)) (h : Sha1Hash) (fl : List Fault) (rs : List Range) (s' : St)
    (hrun : missingChunks h ⟨c, fs, fl⟩ = (.ok rs, s')) :
    ∃ e, observe c fs h = .ok e ∧ s'.fs = fs ∧ (∀ k, observe s'.cat s'.fs k = observe c fs k) ∧
      (e.progress.sizeOf ≤ 65536 →
        (∃ unsaved : Nat → Bool, (∀ i : Nat, (i : Int) < e.progress.sizeOf → (unsaved i = true ↔ ¬ e.saved i)) ∧
          IsRuns (rangePairs rs) unsaved 0 e.progress.sizeOf.toNat) ∧
        (rs = [] ↔ ∀ i : Nat, (i : Int) < e.progress.sizeOf → e.saved i) ∧
        (∀ r rest, rs = r :: rest → ¬ e.saved r.start.toNat ∧ ∀ i, i < r.start.toNat → e.saved i)) := by
  have hI : Inv env d dl c fs := hreach.inv hh.abs hh.utf8
  obtain ⟨ind, rfl, hw⟩ := hI.split
  obtain ⟨h1, e, h2, h3⟩ := ((ro_missing (dl := dl) (fs0 := fs) hw.ownGet h) ⟨_, fs, fl⟩ (RO.init d dl ind fs)).1 rs s' hrun
  rw [← observe_eq d dl] at h2
  have w := observe_loaded hh hreach h e h2
  have h0 := w.size_nonneg
  refine ⟨e, h2, h1.same.1, h1.same.2, ?_⟩
  intro hs
  unfold Bitset.sizeOf at hs ⊢
  obtain ⟨rs', h4, h5⟩ := unfilled_pairs e.progress h0 hs
  rw [h4] at h3
  cases h3
  have hsv : ∀ i : Nat, (i : Int) < e.progress.size → (((fun i => !e.progress.has i) i) = true ↔ ¬ e.saved i) := by
    intro i hi
    rw [e.saved_iff i (by omega)]
    simp
  have hnil : rs = [] ↔ ∀ i : Nat, (i : Int) < e.progress.size → e.saved i := by
    rw [runs_nil_iff rs _ _ h5]
    constructor
    · intro hall i hi
      have := hall i (by omega)
      exact (e.saved_iff i (by omega)).2 (by simpa using this)
    · intro hall i hi
      have := (e.saved_iff i (by omega)).1 (hall i (by omega))
      simp [this]
  refine ⟨⟨_, hsv, h5⟩, hnil, ?_⟩
  rintro r rest rfl
  have hcov := h5.exact
  have hr := h5.nonempty (r.start.toNat, r.stop.toNat) (by simp [rangePairs])
  have hmem : r.start.toNat ∈ covered (rangePairs (r :: rest)) :=
    (mem_cov _ _).2 ⟨(r.start.toNat, r.stop.toNat), by simp [rangePairs], Nat.le_refl _, hr⟩
  rw [hcov, List.mem_filter] at hmem
  have hlt : r.start.toNat < e.progress.size.toNat := by have := hmem.1; simp at this; omega
  refine ⟨(hsv _ (by omega)).1 hmem.2, ?_⟩
  intro i hi
  rw [e.saved_iff i (by omega)]
  cases hb : e.progress.has i with
  | true => rfl
  | false =>
    exfalso
    have : i ∈ covered (rangePairs (r :: rest)) := by
      rw [hcov, List.mem_filter]
      exact ⟨by simp; omega, by simp [hb]⟩
    obtain ⟨q, hq, hq1, hq2⟩ := (mem_cov _ _).1 this
    have hsep := h5.separated
    simp only [rangePairs, List.map_cons, List.pairwise_cons, List.mem_cons] at hq hsep hr
    rcases hq with rfl | hq
    · simp only at hq1; omega
    · have := hsep.1 q hq
      omega

/-- C34: `FileComplete` and `MissingChunks` agree (in the same state, for a file of at most 65536 chunks). -/
theorem C34_agree (hh : Healthy env d) (hreach : Reach env d dl (.running c fs)) (h : Sha1Hash) (fl fl' : List Fault) (v : Bool) (rs : List Range)
    (s1 s2 : St) (hc : fileComplete h ⟨c, fs, fl⟩ = (.ok v, s1)) (hm : missingChunks h ⟨c, fs, fl'⟩ = (.ok rs, s2))
    (hs : ∀ e, observe c fs h = .ok e → e.progress.sizeOf ≤ 65536) : v = true ↔ rs = [] := by
  obtain ⟨e, h1, h2, -⟩ := C34_complete hh hreach h fl v s1 hc
  obtain ⟨e', h3, -, -, h4⟩ := C34_missing hh hreach h fl' rs s2 hm
  rw [h1] at h3; cases h3
  rw [h2, (h4 (hs e h1)).2.1]

/-- C34: in a fault-free history both calls return for every known file. -/
theorem C34_total (hh : Healthy env d) (hr : CleanReach env d dl (.running c fs)) (h : Sha1Hash) (e : Export) (ho : observe c fs h = .ok e) :
    (∃ v s', fileComplete h ⟨c, fs, []⟩ = (.ok v, s')) ∧
      (e.progress.sizeOf ≤ 65536 → ∃ rs s', missingChunks h ⟨c, fs, []⟩ = (.ok rs, s')) := by
  obtain ⟨ind, rfl, hs⟩ := hr.sync hh.abs hh.utf8
  rw [observe_eq] at ho
  unfold obsRec at ho
  rcases hm : mapGet ind.index h with _ | r
  · rw [hm] at ho; cases ho
  rw [hm] at ho
  obtain ⟨p, h4, h5, h6⟩ := hs.prog h r hm
  simp only [h4] at ho
  cases ho
  constructor
  · have : (fileComplete h ⟨⟨d, dl, some ind⟩, fs, []⟩).1 = p.progress.full := by
      unfold fileComplete
      simp only [IOM.bind_apply, IOM.orPanic, getIndexRecord_nil, hm, h4]
      rfl
    rw [Bitset.full_eq _ h6] at this
    exact ⟨_, _, Prod.ext this rfl⟩
  · intro hsz
    obtain ⟨rs, h7, -⟩ := unfilled_pairs p.progress h6.size_nonneg hsz
    have : (missingChunks h ⟨⟨d, dl, some ind⟩, fs, []⟩).1 = p.progress.unfilledRanges := by
      unfold missingChunks
      simp only [IOM.bind_apply, IOM.orPanic, getIndexRecord_nil, hm, h4]
      rfl
    rw [h7] at this
    exact ⟨_, _, Prod.ext this rfl⟩

/-! ### C35 -/

/-- C35: whenever `GetChunkReader` returns a reader, the chunk is marked present in a known file that exists, and the reader announces the sha1 and the
length of exactly the bytes `[i*chunkSize, (i+1)*chunkSize)` of that file and yields them; nothing changes. -/
theorem C35_reader (hh : Healthy env d) (hreach : Reach env d dl (.running c fs)) (h : Sha1Hash) (n : Nat) (ch : List AtChoice) (fl : List Fault)
    (cr : ChunkReader) (s' : St) (hrun : getChunkReader env h n ch ⟨c, fs, fl⟩ = (.ok (some cr), s')) :
    ∃ e content cs, observe c fs h = .ok e ∧ e.saved n ∧ fs e.filePath = some content ∧ e.chunkSize = (cs : Nat) ∧
      cr.hash = env.sha1 ((content.drop (n * cs)).take cs) ∧ cr.size = ((content.drop (n * cs)).take cs).length ∧
      (∀ ks, ∃ out cr', cr.reset.reads content ks = .ok (out, cr') ∧
        out.map (fun x => (x.1, x.2.1)) = expectedReads ((content.drop (n * cs)).take cs) 0 ks) ∧
      s'.fs = fs ∧ ∀ k, observe s'.cat s'.fs k = observe c fs k := by
  have hI : Inv env d dl c fs := hreach.inv hh.abs hh.utf8
  obtain ⟨ind, rfl, hw⟩ := hI.split
  obtain ⟨h1, e, content, h2, h3, h4, h5⟩ :=
    ((ro_reader (dl := dl) (fs0 := fs) env hw.ownGet h n ch) ⟨_, fs, fl⟩ (RO.init d dl ind fs)).1 _ s' hrun
  rw [← observe_eq d dl] at h2
  obtain ⟨hc1, hc2⟩ := observe_chunkSize hh hreach h e h2
  obtain ⟨g1, g2, -, g4⟩ := C23_describes env.sha1 content _ _ ch cr h5.symm
  refine ⟨e, content, e.chunkSize.toNat, h2, h3, h4, by omega, g1, g2, ?_, h1.same⟩
  intro ks
  obtain ⟨out, cr', k1, k2, -⟩ := C23_reads content cr (n * e.chunkSize.toNat) e.chunkSize.toNat _ g4 (by omega) ks
  exact ⟨out, cr', k1, k2⟩

/-- C35: a chunk marked present of a file that exists is served, unless reading keeps failing. -/
theorem C35_serves (hh : Healthy env d) (hreach : Reach env d dl (.running c fs)) (h : Sha1Hash) (n : Nat) (ch : List AtChoice) (e : Export)
    (content : Bytes) (ho : observe c fs h = .ok e) (hn : e.saved n) (hf : fs e.filePath = some content)
    (hch : e.chunkSize.toNat < ch.countP (· == .good)) : ∃ cr s', getChunkReader env h n ch ⟨c, fs, []⟩ = (.ok (some cr), s') := by
  have hI : Inv env d dl c fs := hreach.inv hh.abs hh.utf8
  obtain ⟨ind, rfl, hw⟩ := hI.split
  rw [observe_eq] at ho
  unfold obsRec at ho
  rcases hm : mapGet ind.index h with _ | r
  · rw [hm] at ho; cases ho
  rw [hm] at ho
  obtain ⟨p, hp, ho⟩ := (Res.bind_ok_iff _ _ _).1 ho
  cases ho
  unfold Export.saved at hn
  simp only [Record.exportWith] at hn hf hch
  obtain ⟨cr, hcr⟩ := C24_terminates_partial env.sha1 content (n * r.chunkSize.toNat) r.chunkSize.toNat ch hch
  refine ⟨cr, (getChunkReader env h n ch ⟨⟨d, dl, some ind⟩, fs, []⟩).2, Prod.ext ?_ rfl⟩
  rw [← hcr]
  unfold getChunkReader
  simp only [IOM.bind_apply, getIndexRecord_nil, hm, hp, hn, IOM.lift, Bool.not_true, Bool.false_eq_true, ↓reduceIte, osTouch, nextFault, getFS, hf,
    IOM.pure_apply]

/-- C35: a chunk that is not marked present is refused. -/
theorem C35_absent (hh : Healthy env d) (hreach : Reach env d dl (.running c fs)) (h : Sha1Hash) (n : Nat) (ch : List AtChoice) (e : Export)
    (ho : observe c fs h = .ok e) (hn : e.progress.get (BitVec.ofNat 64 n) = .ok false) :
    (getChunkReader env h n ch ⟨c, fs, []⟩).1 = .err (.missingChunk n) := by
  have hI : Inv env d dl c fs := hreach.inv hh.abs hh.utf8
  obtain ⟨ind, rfl, hw⟩ := hI.split
  rw [observe_eq] at ho
  unfold obsRec at ho
  rcases hm : mapGet ind.index h with _ | r
  · rw [hm] at ho; cases ho
  rw [hm] at ho
  obtain ⟨p, hp, ho⟩ := (Res.bind_ok_iff _ _ _).1 ho
  cases ho
  simp only [Record.exportWith] at hn
  unfold getChunkReader
  simp only [IOM.bind_apply, getIndexRecord_nil, hm, hp, hn]
  rfl

/-- C35: an unknown file is refused. -/
theorem C35_unknown (hh : Healthy env d) (hreach : Reach env d dl (.running c fs)) (h : Sha1Hash) (n : Nat) (ch : List AtChoice)
    (ho : observe c fs h = .err .fileNotFound) : (getChunkReader env h n ch ⟨c, fs, []⟩).1 = .err .fileNotFound := by
  have hI : Inv env d dl c fs := hreach.inv hh.abs hh.utf8
  obtain ⟨ind, rfl, hw⟩ := hI.split
  rw [observe_eq, obsRec_notFound] at ho
  unfold getChunkReader
  simp only [IOM.bind_apply, getIndexRecord_nil, ho]

/-- C35: whatever the call meets and returns, it changes neither files nor what the catalogue shows. -/
theorem C35_harmless (hh : Healthy env d) (hreach : Reach env d dl (.running c fs)) (h : Sha1Hash) (n : Nat) (ch : List AtChoice) (fl : List Fault)
    (r : Res (Option ChunkReader)) (s' : St) (hrun : getChunkReader env h n ch ⟨c, fs, fl⟩ = (r, s')) :
    s'.fs = fs ∧ ∀ k, observe s'.cat s'.fs k = observe c fs k := by
  have hI : Inv env d dl c fs := hreach.inv hh.abs hh.utf8
  obtain ⟨ind, rfl, hw⟩ := hI.split
  obtain ⟨h1, h2⟩ := (ro_reader (dl := dl) (fs0 := fs) env hw.ownGet h n ch) ⟨_, fs, fl⟩ (RO.init d dl ind fs)
  cases r with
  | ok a => exact (h1 a s' hrun).1.same
  | err e => exact (h2 _ s' hrun (fun a e => by cases e)).same
  | panic => exact (h2 _ s' hrun (fun a e => by cases e)).same
  | exit => exact (h2 _ s' hrun (fun a e => by cases e)).same
  | crash => exact (h2 _ s' hrun (fun a e => by cases e)).same

end

/-! ### Examples -/

/-- A fault-free history: start, share `/f` (three bytes). -/
theorem ex_clean (sha1 : Bytes → Sha1Hash) (json : JsonCodec) : ∃ c fs b, CleanReach (exEnv sha1 json) exDir exDown (.running c fs) ∧
    fs (absOf [[102]]) = some [1, 2, 3] ∧ observe c fs (sha1 [1, 2, 3]) = .ok ⟨absOf [[102]], 3, sha1 [1, 2, 3], b, 4194304⟩ ∧
    b.sizeOf = 1 ∧ b.get 0 = .ok true ∧ MapOrder c [sha1 [1, 2, 3]] := by
  have hh := ex_healthy sha1 json
  have h0 : CleanReach (exEnv sha1 json) exDir exDown (.running ⟨exDir, exDown, some (freshIdx (exEnv sha1 json) exDir)⟩ (exFS1 sha1 json)) :=
    CleanReach.fresh (exEnv sha1 json) exDir exDown hh.utf8 exFS ex_fs_clean
  obtain ⟨r, s', h⟩ := shareFile_total (exEnv sha1 json) [102] exDir exDown (freshIdx (exEnv sha1 json) exDir) _ [1, 2, 3] (ex_file sha1 json) rfl (by decide)
  have hreach := CleanReach.call (.share [102]) _ _ (.ok ()) s' h0 trivial (CM.void_ok _ _ _ _ h) rfl
  obtain ⟨content, h1, h2, h3, -, h5⟩ := C26_share hh (ex_reach sha1 json) [102] [] r s' h
  rw [ex_file] at h1; cases h1
  obtain ⟨b, hb, hb1, -, hb3⟩ := h3 (by decide)
  have e : absPath (exEnv sha1 json).cwd [102] = absOf [[102]] := by show absPath [47] [102] = [47, 102]; decide
  rw [e] at hb
  have hb1' : b.sizeOf = 1 := by
    rw [hb1]
    show (((3 + 4194303) / 4194304 : Nat) : Int) = 1
    decide
  have hb' : observe s'.cat s'.fs (sha1 [1, 2, 3]) = .ok ⟨absOf [[102]], ([1, 2, 3] : Bytes).length, sha1 [1, 2, 3], b, 4194304⟩ := hb
  simp only [List.length_cons, List.length_nil, Nat.zero_add, Nat.reduceAdd, Int.cast_ofNat_Int] at hb'
  refine ⟨s'.cat, s'.fs, b, hreach, ?_, hb', hb1', hb3 0 (by rw [hb1']; decide), ?_⟩
  · rw [h5, ← e, ex_file]
    · exact fun h => ex_not_catFile 102 (by simp) (.inl h)
    · exact fun h => ex_not_catFile 102 (by simp) (.inr ⟨_, h⟩)
  · obtain ⟨content, p, full, m1, g1, g2, g3, g4, g5, g6, g7, g8⟩ := shareFile_nil_ok _ _ _ _ _ _ _ _ h
    rw [ex_file] at g1; cases g1
    refine ⟨_, congrArg (fun s => s.cat.indexFile) g6, ?_⟩
    rw [g8]
    simp [keys_put, freshIdx, mapPut, exEnv]

/-- `C30_same`, `C30_list`: a state with one file whose path survives JSON. -/
example (sha1 : Bytes → Sha1Hash) (json : JsonCodec) : ∃ c fs e, CleanReach (exEnv sha1 json) exDir exDown (.running c fs) ∧
    observe c fs (sha1 [1, 2, 3]) = .ok e ∧ (exEnv sha1 json).json.fix e.filePath = e.filePath ∧ MapOrder c [sha1 [1, 2, 3]] := by
  obtain ⟨c, fs, b, h1, h2, h3, h4, h5, h6⟩ := ex_clean sha1 json
  refine ⟨c, fs, _, h1, h3, json.fix_ascii _ ?_, h6⟩
  have : absOf [[102]] = [47, 102] := rfl
  intro c hc
  rw [this] at hc
  simp only [List.mem_cons, List.not_mem_nil, or_false] at hc
  rcases hc with rfl | rfl <;> decide

/-- `C34_*`: both calls return for that file. -/
example (sha1 : Bytes → Sha1Hash) (json : JsonCodec) : ∃ c fs v rs s1 s2, Reach (exEnv sha1 json) exDir exDown (.running c fs) ∧
    fileComplete (sha1 [1, 2, 3]) ⟨c, fs, []⟩ = (.ok v, s1) ∧ missingChunks (sha1 [1, 2, 3]) ⟨c, fs, []⟩ = (.ok rs, s2) := by
  obtain ⟨c, fs, b, h1, h2, h3, h4, h5, h6⟩ := ex_clean sha1 json
  obtain ⟨⟨v, s1, g1⟩, g2⟩ := C34_total (ex_healthy sha1 json) h1 _ _ h3
  obtain ⟨rs, s2, g3⟩ := g2 (by rw [h4]; decide)
  exact ⟨c, fs, v, rs, s1, s2, h1.reach, g1, g3⟩

/-- `C35_reader`, `C35_serves`: a reader for chunk 0 of that file. -/
example (sha1 : Bytes → Sha1Hash) (json : JsonCodec) : ∃ c fs ch cr s', Reach (exEnv sha1 json) exDir exDown (.running c fs) ∧
    getChunkReader (exEnv sha1 json) (sha1 [1, 2, 3]) 0 ch ⟨c, fs, []⟩ = (.ok (some cr), s') := by
  obtain ⟨c, fs, b, h1, h2, h3, h4, h5, h6⟩ := ex_clean sha1 json
  obtain ⟨k, hk⟩ : ∃ k : Nat, k = 4194304 := ⟨_, rfl⟩
  obtain ⟨cr, s', h⟩ := C35_serves (ex_healthy sha1 json) h1.reach _ 0 (List.replicate (k + 1) .good) _ [1, 2, 3] h3 h5 h2 (by
    simp only [List.countP_replicate]
    show (4194304 : Int).toNat < _
    rw [hk]; decide)
  exact ⟨c, fs, _, cr, s', h1.reach, h⟩

/-- `C35_absent`: chunk 1 of that file is not present. -/
example (sha1 : Bytes → Sha1Hash) (json : JsonCodec) : ∃ c fs e, Reach (exEnv sha1 json) exDir exDown (.running c fs) ∧
    observe c fs (sha1 [1, 2, 3]) = .ok e ∧ e.progress.get (BitVec.ofNat 64 1) = .ok false := by
  obtain ⟨c, fs, b, h1, h2, h3, h4, h5, h6⟩ := ex_clean sha1 json
  refine ⟨c, fs, _, h1.reach, h3, ?_⟩
  have w := observe_loaded (ex_healthy sha1 json) h1.reach _ _ h3
  simp only
  rw [Bitset.get_eq _ _ (by decide)]
  congr 1
  apply w.above
  have : b.size = 1 := h4
  rw [this]; decide

end Flu
