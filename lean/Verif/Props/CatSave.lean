import Verif.Lemmas.CatSave
import Verif.Props.Catalogue2
/-!
# Properties of `SaveChunk` (C32, C33)
-/
namespace Flu
open Spec

section
variable {env : Env} {d dl : Path} {c : Cat} {fs : FS}

/-- The bytes of a chunk are in its file. -/
def ChunkOnDisk (fs : FS) (e : Export) (n : Nat) (data : Bytes) : Prop :=
  ∃ content, fs e.filePath = some content ∧ (content.drop ((n : Int) * e.chunkSize).toNat).take data.length = data

/-- The progress file of `h` on disk can be read and marks chunk `i`. -/
def MarkedOnDisk (d : Path) (fs : FS) (h : Sha1Hash) (i : Nat) : Prop :=
  ∃ bytes b, fs (progressPath d h) = some bytes ∧ Bitset.deserialize bytes = .ok b ∧ b.get (BitVec.ofNat 64 i) = .ok true

/-- Going from `(c, fs)` to `(c', fs')` while saving chunk `n` of `h` with bytes `data`: a chunk marked on disk afterwards was marked on disk before, or was
shown as saved before, or is chunk `n` and all its bytes are in the file; the same for what the catalogue in memory shows; other records are not touched. -/
structure NeverOverstates (d : Path) (c : Cat) (fs : FS) (c' : Cat) (fs' : FS) (h : Sha1Hash) (n : Nat) (data : Bytes) : Prop where
  disk : ∀ i, i < 2 ^ 63 → MarkedOnDisk d fs' h i → MarkedOnDisk d fs h i ∨
    ∃ e, observe c fs h = .ok e ∧ (e.saved i ∨ (i = n ∧ ChunkOnDisk fs' e n data))
  memory : ∀ i e', i < 2 ^ 63 → observe c' fs' h = .ok e' → e'.saved i →
    ∃ e, observe c fs h = .ok e ∧ (e.saved i ∨ (i = n ∧ ChunkOnDisk fs' e n data))
  others : ∀ k, k ≠ h → fs' (progressPath d k) = fs (progressPath d k) ∧ observe c' fs' k = observe c fs k

theorem obsRec_fs_own (d : Path) (fs fs' : FS) (m : List (Sha1Hash × Record)) (h : Sha1Hash) (ho : Own m)
    (hf : fs' (progressPath d h) = fs (progressPath d h)) : obsRec d fs' m h = obsRec d fs m h := by
  unfold obsRec
  rcases hm : mapGet m h with _ | r
  · rfl
  · simp only
    rw [viewProgress_fs d fs fs' r (by rw [ho h r hm]; exact hf)]

theorem get_true_iff (b : Bitset) (i : Nat) (h : i < 2 ^ 63) : b.get (BitVec.ofNat 64 i) = .ok true ↔ b.has i = true := by
  have e1 : (BitVec.ofNat 64 i).toNat = i := by rw [BitVec.toNat_ofNat]; omega
  rw [Bitset.get_eq _ _ (by omega), e1]
  constructor
  · intro h; injection h
  · intro h; rw [h]

/-- C32: whatever happens during `SaveChunk` — success, an error at any system call after any part of its effect, or the death of the process at
any system call after any part of its effect — progress is not overstated. -/
theorem C32_save (hh : Healthy env d) (hreach : Reach env d dl (.running c fs)) (h : Sha1Hash) (n : UInt16) (data : Bytes) (fl : List Fault)
    (hsafe : (Op.save h n data).Safe d c) (r : Res Unit) (s' : St) (hrun : saveChunk h n data ⟨c, fs, fl⟩ = (r, s')) :
    NeverOverstates d c fs s'.cat s'.fs h n.toNat data := by
  have hI : Inv env d dl c fs := hreach.inv hh.abs hh.utf8
  obtain ⟨ind, rfl, hw⟩ := hI.split
  -- nothing but reading happened
  have quiet : ∀ {s' : St}, MemMore d dl ind fs fs s'.cat s'.fs → NeverOverstates d ⟨d, dl, some ind⟩ fs s'.cat s'.fs h n.toNat data := by
    intro s' hro
    obtain ⟨h1, h2⟩ := RO.same hro
    rw [h1] at h2 ⊢
    exact ⟨fun i _ hm => .inl hm, fun i e' _ ho hs => ⟨e', by rw [← h2]; exact ho, .inl hs⟩, fun k _ => ⟨rfl, h2 k⟩⟩
  by_cases hfound : ∃ r0 p, mapGet ind.index h = some r0 ∧ viewProgress d fs r0 = .ok p
  rotate_left
  · -- the record cannot be loaded: the call panics after reading
    have hT : Triple (RO d dl ind fs) (saveChunk h n data) (fun _ _ _ => False) (RO d dl ind fs) := by
      refine Triple.bind (Triple.orPanic (ro_getIndexRecord hw.ownGet h)) ?_
      intro r'
      apply Triple.facts
      rintro ⟨r0, p, h1, h2, -⟩
      exact absurd ⟨r0, p, h1, h2⟩ hfound
    have := hT ⟨_, fs, fl⟩ (RO.init d dl ind fs)
    apply quiet
    cases r with
    | ok a => exact (this.1 a s' hrun).elim
    | err e => exact this.2 _ s' hrun (fun a e => by cases e)
    | panic => exact this.2 _ s' hrun (fun a e => by cases e)
    | exit => exact this.2 _ s' hrun (fun a e => by cases e)
    | crash => exact this.2 _ s' hrun (fun a e => by cases e)
  obtain ⟨r0, p, hm, hv⟩ := hfound
  have hrec := hw.recs _ _ (mapGet_mem _ _ _ hm)
  have hk : r0.sha1Hash = h := hw.ownGet _ _ hm
  obtain ⟨hpp, hpl⟩ := viewProgress_loaded hI.disk hrec hv
  rw [hk] at hpp
  have hncat : ¬ CatFile d r0.filePath := hsafe r0.filePath (by
    show Option.map _ (mapGet ind.index h) = _
    rw [hm]; rfl)
  have hnp : ∀ k, progressPath d k ≠ r0.filePath := fun k e => hncat (.inr ⟨k, e.symm⟩)
  have hobs : observe ⟨d, dl, some ind⟩ fs h = .ok (r0.exportWith p) := by
    rw [observe_eq]; unfold obsRec; rw [hm]; simp only; rw [hv]; rfl
  have hn16 := n.toNat_lt
  -- the chunk was marked in memory
  have marked : ∀ (fs' : FS) (b : Bitset), p.progress.set (BitVec.ofNat 64 n.toNat) = .ok b →
      MemSet d dl ind fs fs' r0 p b s'.cat s'.fs → (∀ q, q ≠ progressPath d h → fs' q = chunkWritten fs r0 n.toNat data q) →
      (fs' (progressPath d h) = fs (progressPath d h) ∨ ∃ k, fs' (progressPath d h) = some (b.serialize.take k)) →
      NeverOverstates d ⟨d, dl, some ind⟩ fs s'.cat s'.fs h n.toNat data := by
    intro fs' b hb hms hfs' hprog
    obtain ⟨hfs, m', hc, hmore⟩ := hms
    have hbl : Loaded b := hpl.set _ (by simp only [BitVec.toNat_ofNat]; omega) hb
    have hbits : ∀ i, b.has i = (p.progress.has i || decide (i = n.toNat)) := by
      obtain ⟨dd, e1, -, e3⟩ := Bitset.set_eq p.progress (BitVec.ofNat 64 n.toNat) (by simp only [BitVec.toNat_ofNat]; omega)
      rw [e1] at hb; cases hb
      intro i
      rw [e3, show (BitVec.ofNat 64 n.toNat).toNat = n.toNat by rw [BitVec.toNat_ofNat]; omega]
    have hdata : ChunkOnDisk s'.fs (r0.exportWith p) n.toNat data := by
      refine ⟨overlay ((fs r0.filePath).getD []) ((n.toNat : Int) * r0.chunkSize).toNat data, ?_, overlay_read _ _ _⟩
      show s'.fs r0.filePath = _
      rw [hfs, hfs' _ (fun e => hnp h e.symm)]
      exact FS.put_same _ _ _
    have hcases : ∀ i, i < 2 ^ 63 → b.has i = true → (r0.exportWith p).saved i ∨ (i = n.toNat ∧ ChunkOnDisk s'.fs (r0.exportWith p) n.toNat data) := by
      intro i hi hbi
      rw [hbits] at hbi
      simp only [Bool.or_eq_true, decide_eq_true_eq] at hbi
      rcases hbi with hbi | hbi
      · exact .inl (((r0.exportWith p).saved_iff i hi).2 hbi)
      · exact .inr ⟨hbi, hdata⟩
    refine ⟨?_, ?_, ?_⟩
    · rintro i hi ⟨bytes, b', h1, h2, h3⟩
      rw [hfs] at h1
      rcases hprog with hprog | ⟨k, hprog⟩
      · left; exact ⟨bytes, b', by rw [← hprog]; exact h1, h2, h3⟩
      · right
        rw [hprog] at h1
        cases h1
        obtain ⟨j, rfl⟩ := deserialize_torn b b' _ hbl (List.take_prefix _ _) h2
        exact ⟨_, hobs, hcases i hi (has_take b.data j b.size b.size i ((get_true_iff _ i hi).1 h3))⟩
    · intro i e' hi he' hs
      refine ⟨_, hobs, hcases i hi ?_⟩
      rw [hc, observe_eq] at he'
      unfold obsRec at he'
      simp only at he'
      rw [hk, mapGet_put, if_pos rfl] at he'
      cases he'
      exact (Export.saved_iff _ i hi).1 hs
    · intro k hkne
      have h1 : s'.fs (progressPath d k) = fs (progressPath d k) := by
        rw [hfs, hfs' _ (fun e => hkne (progressPath_inj d hh.abs _ _ e))]
        exact FS.put_other _ _ _ _ (hnp k)
      refine ⟨h1, ?_⟩
      rw [hc, observe_eq, observe_eq]
      rw [obsRec_congr d s'.fs _ m' k (by simp only; rw [hk, mapGet_put, if_neg (fun e => hkne e.symm)])]
      rw [← hmore.obs k]
      exact obsRec_fs_own d fs s'.fs m' k (hmore.own hw.ownGet) h1
  have hT := t_saveChunk_full (d := d) (dl := dl) (fs0 := fs) hw.ownGet h n data r0 p hm hv
  have hT := hT ⟨_, fs, fl⟩ (RO.init d dl ind fs)
  have fault : SaveFault d dl ind fs r0 p n.toNat data s'.cat s'.fs → NeverOverstates d ⟨d, dl, some ind⟩ fs s'.cat s'.fs h n.toNat data := by
    rintro (h1 | ⟨x, h1⟩ | ⟨b, hb, -, h1 | ⟨k, h1⟩⟩)
    · exact quiet h1
    · obtain ⟨h2, m', h3, h4⟩ := h1
      have h5 : ∀ k, s'.fs (progressPath d k) = fs (progressPath d k) := fun k => by rw [h2]; exact FS.put_other _ _ _ _ (hnp k)
      have h6 : ∀ k, observe s'.cat s'.fs k = observe ⟨d, dl, some ind⟩ fs k := by
        intro k
        rw [h3, observe_eq, observe_eq, obsRec_fs_own d fs s'.fs m' k (h4.own hw.ownGet) (h5 k), h4.obs k]
      refine ⟨?_, fun i e' _ ho hs => ⟨e', by rw [← h6]; exact ho, .inl hs⟩, fun k _ => ⟨h5 k, h6 k⟩⟩
      rintro i hi ⟨bytes, b', g1, g2⟩
      exact .inl ⟨bytes, b', by rw [← h5]; exact g1, g2⟩
    · exact marked _ b hb h1 (fun q hq => rfl) (.inl (FS.put_other _ _ _ _ (hnp h)))
    · refine marked _ b hb h1 ?_ (.inr ⟨k, by rw [hpp]; exact FS.put_same _ _ _⟩)
      intro q hq
      rw [hpp]
      exact FS.put_other _ _ _ _ hq
  cases r with
  | ok a =>
    obtain ⟨b, hb, -, h1⟩ := hT.1 a s' hrun
    refine marked _ b hb h1 ?_ (.inr ⟨b.serialize.length, by rw [hpp, List.take_length]; exact FS.put_same _ _ _⟩)
    intro q hq
    rw [hpp]
    exact FS.put_other _ _ _ _ hq
  | err e => exact fault (hT.2 _ s' hrun (fun a e => by cases e))
  | panic => exact fault (hT.2 _ s' hrun (fun a e => by cases e))
  | exit => exact fault (hT.2 _ s' hrun (fun a e => by cases e))
  | crash => exact fault (hT.2 _ s' hrun (fun a e => by cases e))

/-! ### C33 -/

/-- A download of the file `F` in progress, in chunks of `cs` bytes; `content` is what is at its path now, `old` what was there at the start: saved chunks are right,
and nothing behind the end of `F` was touched. -/
structure Downloading (F old : Bytes) (cs : Nat) (content : Option Bytes) (e : Export) : Prop where
  cs_pos : 0 < cs
  chunkSize : e.chunkSize = cs
  count : e.progress.sizeOf = ((F.length + cs - 1) / cs : Nat)
  right : ∀ i, i < (F.length + cs - 1) / cs → e.saved i → ∃ c, content = some c ∧ ∀ j, i * cs ≤ j → j < (i + 1) * cs → j < F.length → c[j]? = F[j]?
  tail : ∀ j, F.length ≤ j → (content.getD [])[j]? = old[j]?

/-- C33: registering a download of `F` starts it. -/
theorem C33_start (hh : Healthy env d) (hreach : Reach env d dl (.running c fs)) (F : Bytes) (cs : UInt32) (h : Sha1Hash)
    (name : GoString) (fl : List Fault) (e : Export) (s' : St) (hsize : F.length < 2 ^ 63) (hcs : 0 < cs.toNat)
    (hpath : ¬ CatFile d (joinPath [dl, name]))
    (hrun : registerDownload env (UInt64.ofNat F.length) cs h name ⟨c, fs, fl⟩ = (.ok e, s')) :
    e.filePath = joinPath [dl, name] ∧ observe s'.cat s'.fs h = .ok e ∧
      Downloading F ((fs (joinPath [dl, name])).getD []) cs.toNat (s'.fs (joinPath [dl, name])) e := by
  have hlen : (UInt64.ofNat F.length).toNat = F.length := by rw [UInt64.toNat_ofNat']; omega
  obtain ⟨-, ⟨b, h1, h2, h3, -, h4⟩, -, h5⟩ := C29_register hh hreach _ cs h name fl e s' (by omega) hcs hrun
  have hI : Inv env d dl s'.cat s'.fs := (hreach.call (.register _ cs h name) trivial fl s' (CM.void_ok _ _ _ _ hrun)).inv hh.abs hh.utf8
  have hsame : s'.fs (joinPath [dl, name]) = fs (joinPath [dl, name]) :=
    h5 _ (fun e => hpath (.inl e)) (fun e => hpath (.inr ⟨_, e⟩))
  rw [hlen] at h3
  refine ⟨by rw [h1], h2, hcs, by rw [h1], by rw [h1]; exact h3, ?_, ?_⟩
  · intro i hi hs
    exfalso
    unfold Export.saved at hs
    rw [h1] at hs
    simp only at hs
    have h0 := Nat.div_le_self (F.length + cs.toNat - 1) cs.toNat
    have h6 : (F.length + cs.toNat - 1) / cs.toNat < 2 ^ 63 := by
      have := (observe_loaded hh (hreach.call (.register _ cs h name) trivial fl s' (CM.void_ok _ _ _ _ hrun)) h e h2).size_lt
      rw [h1] at this
      have h3' : b.size = _ := h3
      simp only at this
      rw [h3'] at this
      omega
    rw [h4 i (by omega)] at hs
    cases hs
  · intro j _; rw [hsame]

/-- Saving a chunk with a normal return, in any state. -/
theorem saveChunk_effect (hh : Healthy env d) (hreach : Reach env d dl (.running c fs)) (h : Sha1Hash) (n : UInt16) (data : Bytes) (fl : List Fault)
    (hsafe : (Op.save h n data).Safe d c) (s' : St) (hrun : saveChunk h n data ⟨c, fs, fl⟩ = (.ok (), s')) :
    ∃ e e', observe c fs h = .ok e ∧ observe s'.cat s'.fs h = .ok e' ∧ e' = { e with progress := e'.progress } ∧
      e'.progress.sizeOf = max e.progress.sizeOf (n.toNat + 1) ∧
      (∀ i, i < 2 ^ 63 → (e'.saved i ↔ e.saved i ∨ i = n.toNat)) ∧
      s'.fs e.filePath = some (overlay ((fs e.filePath).getD []) (n.toNat * e.chunkSize.toNat) data) ∧
      (∀ q, q ≠ e.filePath → q ≠ progressPath d h → s'.fs q = fs q) := by
  have hI : Inv env d dl c fs := hreach.inv hh.abs hh.utf8
  obtain ⟨ind, rfl, hw⟩ := hI.split
  have hn16 := n.toNat_lt
  by_cases hfound : ∃ r0 p, mapGet ind.index h = some r0 ∧ viewProgress d fs r0 = .ok p
  rotate_left
  · exfalso
    have hT : Triple (RO d dl ind fs) (saveChunk h n data) (fun _ _ _ => False) (RO d dl ind fs) := by
      refine Triple.bind (Triple.orPanic (ro_getIndexRecord hw.ownGet h)) ?_
      intro r'
      apply Triple.facts
      rintro ⟨r0, p, h1, h2, -⟩
      exact absurd ⟨r0, p, h1, h2⟩ hfound
    exact (hT ⟨_, fs, fl⟩ (RO.init d dl ind fs)).1 _ _ hrun
  obtain ⟨r0, p, hm, hv⟩ := hfound
  have hrec := hw.recs _ _ (mapGet_mem _ _ _ hm)
  have hk : r0.sha1Hash = h := hw.ownGet _ _ hm
  obtain ⟨hpp, hpl⟩ := viewProgress_loaded hI.disk hrec hv
  rw [hk] at hpp
  have hncat : ¬ CatFile d r0.filePath := hsafe r0.filePath (by
    show Option.map _ (mapGet ind.index h) = _
    rw [hm]; rfl)
  have hobs : observe ⟨d, dl, some ind⟩ fs h = .ok (r0.exportWith p) := by
    rw [observe_eq]; unfold obsRec; rw [hm]; simp only; rw [hv]; rfl
  obtain ⟨b, hb, -, hfs, m', hc, hmore⟩ := (t_saveChunk_full (d := d) (dl := dl) (fs0 := fs) hw.ownGet h n data r0 p hm hv ⟨_, fs, fl⟩ (RO.init d dl ind fs)).1 _ _ hrun
  obtain ⟨dd, e1, -, e3⟩ := Bitset.set_eq p.progress (BitVec.ofNat 64 n.toNat) (by simp only [BitVec.toNat_ofNat]; omega)
  rw [e1] at hb; cases hb
  have hnn : (BitVec.ofNat 64 n.toNat).toNat = n.toNat := by rw [BitVec.toNat_ofNat]; omega
  rw [hnn] at e3 hc
  have hcs : ((n.toNat : Int) * r0.chunkSize).toNat = n.toNat * r0.chunkSize.toNat := by
    have := hrec.cs_nonneg
    obtain ⟨k, hk⟩ : ∃ k : Nat, r0.chunkSize = k := ⟨r0.chunkSize.toNat, by omega⟩
    rw [hk]
    rfl
  refine ⟨_, r0.exportWith { p with progress := ⟨dd, max p.progress.size (n.toNat + 1)⟩ }, hobs, ?_, rfl, rfl, ?_, ?_, ?_⟩
  · rw [hc, observe_eq]
    unfold obsRec
    simp only
    subst hk
    rw [mapGet_put, if_pos rfl]
    rfl
  · intro i hi
    rw [Export.saved_iff _ i hi, Export.saved_iff _ i hi]
    show Bitset.has ⟨dd, max p.progress.size (n.toNat + 1)⟩ i = true ↔ _
    rw [e3]
    simp only [Bool.or_eq_true, decide_eq_true_eq]
    rfl
  · rw [hfs, hpp]
    show FS.put _ _ _ r0.filePath = _
    rw [FS.put_other _ _ _ _ (fun e => hncat (.inr ⟨h, e⟩))]
    unfold chunkWritten
    rw [FS.put_same, hcs]; rfl
  · intro q hq1 hq2
    rw [hfs, hpp, FS.put_other _ _ _ _ hq2]
    exact FS.put_other _ _ _ _ hq1

/-- The path shown is the path recorded in memory. -/
theorem observe_path (hh : Healthy env d) (hreach : Reach env d dl (.running c fs)) (h : Sha1Hash) (e : Export) (ho : observe c fs h = .ok e) :
    c.pathOf h = some e.filePath := by
  have hI : Inv env d dl c fs := hreach.inv hh.abs hh.utf8
  obtain ⟨ind, rfl, hw⟩ := hI.split
  rw [observe_eq] at ho
  unfold obsRec at ho
  rcases hm : mapGet ind.index h with _ | r
  · rw [hm] at ho; cases ho
  rw [hm] at ho
  obtain ⟨q, hq, ho⟩ := (Res.bind_ok_iff _ _ _).1 ho
  cases ho
  show Option.map _ (mapGet ind.index h) = _
  rw [hm]; rfl

/-- Without faults, saving a chunk of a known file succeeds. -/
theorem saveChunk_total (hh : Healthy env d) (hreach : Reach env d dl (.running c fs)) (h : Sha1Hash) (n : UInt16) (data : Bytes)
    (e : Export) (ho : observe c fs h = .ok e) : ∃ s', saveChunk h n data ⟨c, fs, []⟩ = (.ok (), s') := by
  have hI : Inv env d dl c fs := hreach.inv hh.abs hh.utf8
  obtain ⟨ind, rfl, hw⟩ := hI.split
  have hn16 := n.toNat_lt
  rw [observe_eq] at ho
  unfold obsRec at ho
  rcases hm : mapGet ind.index h with _ | rec
  · rw [hm] at ho; cases ho
  rw [hm] at ho
  obtain ⟨p, hv, ho⟩ := (Res.bind_ok_iff _ _ _).1 ho
  cases ho
  have hrec := hw.recs _ _ (mapGet_mem _ _ _ hm)
  refine ⟨(saveChunk h n data ⟨⟨d, dl, some ind⟩, fs, []⟩).2, Prod.ext ?_ rfl⟩
  have hneg : ¬ (n.toNat : Int) * rec.chunkSize < 0 := by
    have := Int.mul_nonneg (show (0 : Int) ≤ n.toNat by omega) hrec.cs_nonneg
    omega
  obtain ⟨k, hk⟩ : ∃ k : Nat, (n.toNat : Int) * rec.chunkSize = k := ⟨((n.toNat : Int) * rec.chunkSize).toNat, by omega⟩
  obtain ⟨dd, e1, -⟩ := Bitset.set_eq p.progress (BitVec.ofNat 64 n.toNat) (by
    simp only [BitVec.toNat_ofNat]; omega)
  unfold saveChunk
  rw [IOM.bind_apply]
  unfold IOM.orPanic
  rw [getIndexRecord_nil, hm]
  simp only
  rw [hv]
  simp only [Record.saveChunk, IOM.bind_apply, osOpenCreate_nil, hk, osWriteAt_nil, IOM.lift_apply, e1, updateRecord_eval, ProgressFile.save, osWriteFile_nil]

/-- C33: saving any chunk of `F` with its right bytes (in any order, again or for the first time) keeps the download right and marks the chunk. -/
theorem C33_step (hh : Healthy env d) (hreach : Reach env d dl (.running c fs)) (F old : Bytes) (cs : Nat) (h : Sha1Hash) (n : UInt16) (fl : List Fault)
    (e : Export) (ho : observe c fs h = .ok e) (hpath : ¬ CatFile d e.filePath) (hd : Downloading F old cs (fs e.filePath) e)
    (hn : n.toNat < (F.length + cs - 1) / cs) (s' : St)
    (hrun : saveChunk h n ((F.drop (n.toNat * cs)).take cs) ⟨c, fs, fl⟩ = (.ok (), s')) :
    ∃ e', observe s'.cat s'.fs h = .ok e' ∧ e'.filePath = e.filePath ∧ Downloading F old cs (s'.fs e.filePath) e' ∧
      (∀ i, i < (F.length + cs - 1) / cs → (e'.saved i ↔ e.saved i ∨ i = n.toNat)) := by
  have hsafe : (Op.save h n ((F.drop (n.toNat * cs)).take cs)).Safe d c := by
    intro p hp
    rw [observe_path hh hreach h e ho] at hp
    cases hp; exact hpath
  obtain ⟨e0, e', h1, h2, h3, h4, h5, h6, h7⟩ := saveChunk_effect hh hreach h n _ fl hsafe s' hrun
  rw [ho] at h1; cases h1
  have hcs := hd.cs_pos
  have hdm := Nat.div_mul_le_self (F.length + cs - 1) cs
  have hmul : (n.toNat + 1) * cs ≤ (F.length + cs - 1) / cs * cs := Nat.mul_le_mul_right _ hn
  have h1m : (n.toNat + 1) * cs = n.toNat * cs + cs := by rw [Nat.add_mul, Nat.one_mul]
  have hlt : n.toNat * cs < F.length := by omega
  have hlen : ((F.drop (n.toNat * cs)).take cs).length = min cs (F.length - n.toNat * cs) := by
    rw [List.length_take, List.length_drop]
  have hne : (F.drop (n.toNat * cs)).take cs ≠ [] := by
    intro e; rw [e] at hlen; simp only [List.length_nil] at hlen; omega
  have hcnt : (F.length + cs - 1) / cs < 2 ^ 63 := by
    have := (observe_loaded hh hreach h e ho).size_lt
    have h8 := hd.count
    unfold Bitset.sizeOf at h8
    omega
  have hsv : ∀ i, i < (F.length + cs - 1) / cs → (e'.saved i ↔ e.saved i ∨ i = n.toNat) := fun i hi => h5 i (by omega)
  have hcs' : e.chunkSize.toNat = cs := by rw [hd.chunkSize]; rfl
  rw [hcs'] at h6
  refine ⟨e', h2, by rw [h3], ⟨hcs, ?_, ?_, ?_, ?_⟩, hsv⟩
  · rw [h3]; exact hd.chunkSize
  · rw [h4, hd.count]; omega
  · intro i hi hs
    refine ⟨_, h6, ?_⟩
    intro j hj1 hj2 hj3
    rw [overlay_getElem? _ _ _ hne, hlen]
    by_cases hin : i = n.toNat
    · subst hin
      rw [if_pos (by omega), List.getElem?_take, if_pos (by omega), List.getElem?_drop]
      congr 1; omega
    · have hsi : e.saved i := ((hsv i hi).1 hs).resolve_right hin
      obtain ⟨c0, hc0, hc1⟩ := hd.right i hi hsi
      have hcj := hc1 j hj1 hj2 hj3
      have hjlen : j < c0.length := by
        apply Classical.byContradiction
        intro hge
        rw [List.getElem?_eq_none (by omega), List.getElem?_eq_getElem hj3] at hcj
        cases hcj
      rw [hc0, Option.getD_some, if_neg, if_pos hjlen, hcj]
      rcases Nat.lt_or_gt_of_ne hin with hlt' | hgt
      · have := Nat.mul_le_mul_right cs (show i + 1 ≤ n.toNat by omega)
        omega
      · have := Nat.mul_le_mul_right cs (show n.toNat + 1 ≤ i by omega)
        omega
  · intro j hj
    rw [h6, Option.getD_some, overlay_getElem? _ _ _ hne, hlen, if_neg (by omega), ← hd.tail j hj]
    split
    · rfl
    · rename_i hge
      rw [if_neg (by omega), List.getElem?_eq_none (by omega)]

/-- C33: as soon as every chunk is marked, the file is `F` followed by what was behind it before; exactly `F` if no longer file existed. -/
theorem C33_content (F old : Bytes) (cs : Nat) (content : Option Bytes) (e : Export) (hd : Downloading F old cs content e) (hF : F ≠ [])
    (hall : ∀ i : Nat, (i : Int) < e.progress.sizeOf → e.saved i) :
    content = some (F ++ old.drop F.length) ∧ (old.length ≤ F.length → content = some F) := by
  have hcs := hd.cs_pos
  have hFl : 0 < F.length := List.length_pos_iff.2 hF
  have hdm := Nat.div_add_mod (F.length + cs - 1) cs
  have hmod := Nat.mod_lt (F.length + cs - 1) hcs
  have hchunk : ∀ j, j < F.length → j / cs < (F.length + cs - 1) / cs := by
    intro j hj
    rw [Nat.div_lt_iff_lt_mul hcs, Nat.mul_comm]
    omega
  have hget : ∀ j, j < F.length → ∃ c, content = some c ∧ c[j]? = F[j]? := by
    intro j hj
    obtain ⟨c, h1, h2⟩ := hd.right (j / cs) (hchunk j hj) (hall _ (by rw [hd.count]; exact_mod_cast hchunk j hj))
    refine ⟨c, h1, h2 j ?_ ?_ hj⟩
    · exact Nat.div_mul_le_self j cs
    · rw [Nat.add_mul, Nat.one_mul]
      have h3 := Nat.div_add_mod j cs
      have h4 := Nat.mod_lt j hcs
      rw [Nat.mul_comm] at h3
      omega
  obtain ⟨c, rfl, -⟩ := hget 0 hFl
  have key : c = F ++ old.drop F.length := by
    apply List.ext_getElem?
    intro j
    rw [List.getElem?_append]
    split
    · rename_i hj
      obtain ⟨c', h1, h2⟩ := hget j hj
      cases h1; exact h2
    · rename_i hj
      have := hd.tail j (by omega)
      rw [Option.getD_some] at this
      rw [this, List.getElem?_drop]
      congr 1; omega
  refine ⟨by rw [key], fun hold => ?_⟩
  rw [key, List.drop_eq_nil_of_le hold, List.append_nil]

/-- C33: when `FileComplete` reports true, the download path holds exactly `F` (if no longer file was there). -/
theorem C33_complete (hh : Healthy env d) (hreach : Reach env d dl (.running c fs)) (F old : Bytes) (cs : Nat) (h : Sha1Hash) (fl : List Fault)
    (e : Export) (ho : observe c fs h = .ok e) (hd : Downloading F old cs (fs e.filePath) e) (hF : F ≠ []) (hold : old.length ≤ F.length) (s' : St)
    (hrun : fileComplete h ⟨c, fs, fl⟩ = (.ok true, s')) : fs e.filePath = some F := by
  obtain ⟨e', h1, h2, -⟩ := C34_complete hh hreach h fl true s' hrun
  rw [ho] at h1; cases h1
  exact (C33_content F old cs _ e hd hF (h2.1 rfl)).2 hold

/-- Save the chunks of `F` given by `ns`, one after the other. -/
def saveAll (F : Bytes) (cs : Nat) (h : Sha1Hash) : List UInt16 → CM Unit
  | [] => pure ()
  | n :: ns => do
    saveChunk h n ((F.drop (n.toNat * cs)).take cs)
    saveAll F cs h ns

/-- C33: saving chunks of `F` in any order with any repetitions never fails (when the operating system does not), and marks exactly the chunks saved. -/
theorem C33_any_order (hh : Healthy env d) (F old : Bytes) (cs : Nat) (h : Sha1Hash) (ns : List UInt16) :
    ∀ (c : Cat) (fs : FS) (e : Export), Reach env d dl (.running c fs) → observe c fs h = .ok e → ¬ CatFile d e.filePath →
      Downloading F old cs (fs e.filePath) e → (∀ n ∈ ns, n.toNat < (F.length + cs - 1) / cs) →
      ∃ s' e', saveAll F cs h ns ⟨c, fs, []⟩ = (.ok (), s') ∧ Reach env d dl (.running s'.cat s'.fs) ∧ observe s'.cat s'.fs h = .ok e' ∧
        e'.filePath = e.filePath ∧ Downloading F old cs (s'.fs e.filePath) e' ∧
        (∀ i, i < (F.length + cs - 1) / cs → (e'.saved i ↔ e.saved i ∨ ∃ n ∈ ns, i = n.toNat)) ∧
        (CleanReach env d dl (.running c fs) → s'.faults = [] ∧ CleanReach env d dl (.running s'.cat s'.fs)) := by
  induction ns with
  | nil =>
    intro c fs e hreach ho hp hd hn
    exact ⟨_, e, rfl, hreach, ho, rfl, hd, fun i hi => (by simp), fun h => ⟨rfl, h⟩⟩
  | cons n ns ih =>
    intro c fs e hreach ho hp hd hn
    obtain ⟨s1, h1⟩ := saveChunk_total hh hreach h n ((F.drop (n.toNat * cs)).take cs) e ho
    obtain ⟨e1, g1, g2, g3, g4⟩ := C33_step hh hreach F old cs h n [] e ho hp hd (hn n (by simp)) s1 h1
    have hfl : s1.faults = [] := by
      have := OkClean.saveChunk h n ((F.drop (n.toNat * cs)).take cs) _ _ _ h1
      have e2 : (⟨c, fs, []⟩ : St).quiet = ⟨c, fs, []⟩ := rfl
      rw [e2, h1] at this
      have := congrArg (fun x => x.2.faults) this
      exact this
    have hs1 : s1 = ⟨s1.cat, s1.fs, []⟩ := by cases s1; simp only at hfl; rw [hfl]
    have hsafe : (Op.save h n ((F.drop (n.toNat * cs)).take cs)).Safe d c := by
      intro p hp'
      rw [observe_path hh hreach h e ho] at hp'
      cases hp'; exact hp
    have hreach1 : Reach env d dl (.running s1.cat s1.fs) := hreach.call (.save h n ((F.drop (n.toNat * cs)).take cs)) hsafe [] s1 h1
    obtain ⟨s', e', k1, k2, k3, k4, k5, k6, k7⟩ := ih s1.cat s1.fs e1 hreach1 g1 (by rw [g2]; exact hp) (by rw [g2]; exact g3) (fun m hm => hn m (by simp [hm]))
    refine ⟨s', e', ?_, k2, k3, by rw [k4, g2], by rw [← g2]; exact k5, ?_, ?_⟩
    · rw [saveAll, IOM.bind_apply, h1]
      simp only
      rw [hs1]; exact k1
    · intro i hi
      rw [k6 i hi, g4 i hi]
      simp only [List.mem_cons, exists_eq_or_imp]
      rw [or_assoc]
    · intro hcl
      exact k7 (CleanReach.call (.save h n ((F.drop (n.toNat * cs)).take cs)) _ _ (.ok ()) s1 hcl hsafe h1 rfl)

/-- C33, from start to end: in a fault-free history, register a download of `F`, then save its chunks in any order, with any repetitions, until every chunk was saved:
every call succeeds, `FileComplete` reports true, and the download path holds exactly `F` (if no longer file was there). -/
theorem C33_download (hh : Healthy env d) (hclean : CleanReach env d dl (.running c fs)) (F : Bytes) (cs : UInt32) (h : Sha1Hash) (name : GoString)
    (hF : F ≠ []) (hsize : F.length < 2 ^ 63) (hcs : 0 < cs.toNat) (hnew : observe c fs h = .err .fileNotFound)
    (hpath : ¬ CatFile d (joinPath [dl, name])) (hold : ((fs (joinPath [dl, name])).getD []).length ≤ F.length) (ns : List UInt16)
    (hin : ∀ n ∈ ns, n.toNat < (F.length + cs.toNat - 1) / cs.toNat) (hcov : ∀ i, i < (F.length + cs.toNat - 1) / cs.toNat → ∃ n ∈ ns, n.toNat = i) :
    ∃ e s1 s2 s3, registerDownload env (UInt64.ofNat F.length) cs h name ⟨c, fs, []⟩ = (.ok e, s1) ∧
      saveAll F cs.toNat h ns s1 = (.ok (), s2) ∧ fileComplete h s2 = (.ok true, s3) ∧ s3.fs (joinPath [dl, name]) = some F := by
  have hlen : (UInt64.ofNat F.length).toNat = F.length := by rw [UInt64.toNat_ofNat']; omega
  obtain ⟨ind, rfl, hs⟩ := hclean.sync hh.abs hh.utf8
  have hm : mapGet ind.index h = none := by
    rw [observe_eq] at hnew
    unfold obsRec at hnew
    rcases hm : mapGet ind.index h with _ | r
    · rfl
    · rw [hm] at hnew
      obtain ⟨p, h4, h5, h6⟩ := hs.prog h r hm
      simp only [h4] at hnew
      cases hnew
  obtain ⟨e, s1, h1, hfl⟩ := registerDownload_total' env (UInt64.ofNat F.length) cs h name d dl ind fs hm (by omega) hcs
  have hreach1 := hclean.reach.call (.register (UInt64.ofNat F.length) cs h name) trivial [] s1 (CM.void_ok _ _ _ _ h1)
  have hclean1 := CleanReach.call (.register (UInt64.ofNat F.length) cs h name) _ _ (.ok ()) s1 hclean trivial (CM.void_ok _ _ _ _ h1) rfl
  obtain ⟨g1, g2, g3⟩ := C33_start hh hclean.reach F cs h name [] e s1 hsize hcs hpath h1
  have hs1 : s1 = ⟨s1.cat, s1.fs, []⟩ := by cases s1; simp only at hfl; rw [hfl]
  obtain ⟨s2, e2, k1, k2, k3, k4, k5, k6, k7⟩ := C33_any_order hh F _ cs.toNat h ns s1.cat s1.fs e hreach1 g2 (by rw [g1]; exact hpath) (by rw [g1]; exact g3) hin
  rw [← hs1] at k1
  obtain ⟨k8, k9⟩ := k7 hclean1
  have hs2 : s2 = ⟨s2.cat, s2.fs, []⟩ := by cases s2; simp only at k8; rw [k8]
  obtain ⟨⟨v, s3, m1⟩, -⟩ := C34_total hh k9 h e2 k3
  have hall : ∀ i : Nat, (i : Int) < e2.progress.sizeOf → e2.saved i := by
    intro i hi
    rw [k5.count] at hi
    have hi' : i < (F.length + cs.toNat - 1) / cs.toNat := by exact_mod_cast hi
    obtain ⟨n, hn, rfl⟩ := hcov i hi'
    exact (k6 _ hi').2 (.inr ⟨n, hn, rfl⟩)
  obtain ⟨e3, m2, m3, m4, -⟩ := C34_complete hh k2 h [] v s3 m1
  rw [k3] at m2; cases m2
  obtain rfl := m3.2 hall
  refine ⟨e, s1, s2, s3, h1, k1, by rw [hs2]; exact m1, ?_⟩
  rw [m4, ← g1]
  exact (C33_content F _ _ _ e2 k5 hF hall).2 hold

/-- C33: the empty file is complete as soon as it is registered, and no file is created for it. -/
theorem C33_empty (hh : Healthy env d) (hreach : Reach env d dl (.running c fs)) (cs : UInt32) (h : Sha1Hash)
    (name : GoString) (fl fl' : List Fault) (e : Export) (s' s'' : St) (v : Bool) (hcs : 0 < cs.toNat)
    (hpath : ¬ CatFile d (joinPath [dl, name])) (hnone : fs (joinPath [dl, name]) = none)
    (hrun : registerDownload env 0 cs h name ⟨c, fs, fl⟩ = (.ok e, s')) (hrun' : fileComplete h ⟨s'.cat, s'.fs, fl'⟩ = (.ok v, s'')) :
    v = true ∧ s''.fs (joinPath [dl, name]) = none := by
  have hreach1 := hreach.call (.register 0 cs h name) trivial fl s' (CM.void_ok _ _ _ _ hrun)
  obtain ⟨-, ⟨b, h1, h2, h3, -, h4⟩, -, h5⟩ := C29_register hh hreach _ cs h name fl e s' (by decide) hcs hrun
  obtain ⟨e', g1, g2, g3, -⟩ := C34_complete hh hreach1 h fl' v s'' hrun'
  rw [h2] at g1; cases g1
  refine ⟨g2.2 ?_, ?_⟩
  · intro i hi
    exfalso
    rw [h1] at hi
    simp only [h3] at hi
    have : ((0 : UInt64).toNat + cs.toNat - 1) / cs.toNat = 0 := Nat.div_eq_of_lt (by show 0 + cs.toNat - 1 < _; omega)
    rw [this] at hi
    omega
  · rw [g3, h5 _ (fun e => hpath (.inl e)) (fun e => hpath (.inr ⟨_, e⟩)), hnone]

end

/-! ### The hypotheses can be met -/

theorem ex_path : joinPath [exDown, [120]] = absOf [[119], [120]] := joinPath_plain [[119]] (ex_plain 119 (by simp)) [120] ⟨by decide, by decide, by decide, by decide⟩

theorem ex_not_catFile2 : ¬ CatFile exDir (joinPath [exDown, [120]]) := by
  rw [ex_path]
  have hd := ex_plain 100 (by simp)
  have hw : ∀ e ∈ ([[119], [120]] : List GoString), Plain e :=
    plain_snoc (ex_plain 119 (by simp)) ⟨by decide, by decide, by decide, by decide⟩
  rintro (e | ⟨x, e⟩)
  · rw [exDir, indexPath_abs _ hd] at e
    have := absOf_inj _ _ hw (plain_snoc hd plain_indexFileName) e
    simp at this
  · rw [exDir, progressPath_abs _ hd] at e
    have := absOf_inj _ _ hw (plain_snoc hd (plain_hash x)) e
    simp at this

/-- `C33_download` (with the theorems it rests on): a file of five bytes in chunks of two, saved in the order 2, 0, 2, 1, in a fresh catalogue. -/
theorem ex_download (sha1 : Bytes → Sha1Hash) (json : JsonCodec) (h : Sha1Hash) : ∃ c fs e s1 s2 s3,
    CleanReach (exEnv sha1 json) exDir exDown (.running c fs) ∧
    registerDownload (exEnv sha1 json) 5 2 h [120] ⟨c, fs, []⟩ = (.ok e, s1) ∧
    saveAll [10, 20, 30, 40, 50] 2 h [2, 0, 2, 1] s1 = (.ok (), s2) ∧ fileComplete h s2 = (.ok true, s3) ∧
    s3.fs (joinPath [exDown, [120]]) = some [10, 20, 30, 40, 50] := by
  have h0 : CleanReach (exEnv sha1 json) exDir exDown (.running ⟨exDir, exDown, some (freshIdx (exEnv sha1 json) exDir)⟩ (exFS1 sha1 json)) :=
    CleanReach.fresh (exEnv sha1 json) exDir exDown (ex_healthy sha1 json).utf8 exFS ex_fs_clean
  have hne : exFS1 sha1 json (joinPath [exDown, [120]]) = none := by
    unfold exFS1
    rw [FS.put_other _ _ _ _ (fun e => ex_not_catFile2 (.inl e)), ex_path]
    decide
  obtain ⟨e, s1, s2, s3, h1⟩ := C33_download (ex_healthy sha1 json) h0 [10, 20, 30, 40, 50] 2 h [120] (by decide) (by decide) (by decide) rfl ex_not_catFile2
    (by rw [hne]; decide) [2, 0, 2, 1] (by decide) (by decide)
  exact ⟨_, _, e, s1, s2, s3, h0, h1⟩

/-- `C32_save`: a chunk being saved, dying in the middle of the write of the progress file. -/
example (sha1 : Bytes → Sha1Hash) (json : JsonCodec) (h : Sha1Hash) : ∃ c fs e s1 r s',
    Reach (exEnv sha1 json) exDir exDown (.running c fs) ∧ registerDownload (exEnv sha1 json) 5 2 h [120] ⟨c, fs, []⟩ = (.ok e, s1) ∧
    Reach (exEnv sha1 json) exDir exDown (.running s1.cat s1.fs) ∧ (Op.save h 2 [50]).Safe exDir s1.cat ∧
    saveChunk h 2 [50] ⟨s1.cat, s1.fs, [.none, .none, .crash (some 5)]⟩ = (r, s') := by
  obtain ⟨c, fs, e, s1, s2, s3, h0, h1, -⟩ := ex_download sha1 json h
  have hreach1 := h0.reach.call (.register 5 2 h [120]) trivial [] s1 (CM.void_ok _ _ _ _ h1)
  obtain ⟨g1, g2, -⟩ := C33_start (ex_healthy sha1 json) h0.reach [10, 20, 30, 40, 50] 2 h [120] [] e s1 (by decide) (by decide) ex_not_catFile2 h1
  refine ⟨c, fs, e, s1, _, _, h0.reach, h1, hreach1, ?_, rfl⟩
  intro p hp
  rw [observe_path (ex_healthy sha1 json) hreach1 h e g2] at hp
  cases hp
  rw [g1]; exact ex_not_catFile2

end Flu
