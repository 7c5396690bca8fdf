import Verif.Lemmas.CatRun
/-!
# Calls that only read

Whatever faults they meet, they leave the files alone, and in memory they do no more than load progress files.
-/
namespace Flu

/-- `m'` is `m` with the progress of some records loaded from the files. -/
def More (d : Path) (fs : FS) (m m' : List (Sha1Hash × Record)) : Prop :=
  m'.map (·.1) = m.map (·.1) ∧ ∀ h, mapGet m' h = mapGet m h ∨
    ∃ r p, mapGet m h = some r ∧ r.progressFile = none ∧ viewProgress d fs r = .ok p ∧ mapGet m' h = some { r with progressFile := some p }

theorem More.refl (d : Path) (fs : FS) (m : List (Sha1Hash × Record)) : More d fs m m := ⟨rfl, fun _ => .inl rfl⟩

/-- Every record of the map is stored under its own hash. -/
def Own (m : List (Sha1Hash × Record)) : Prop := ∀ k r, mapGet m k = some r → r.sha1Hash = k

theorem WFIdx.ownGet {d : Path} {ind : IndexFile} (w : WFIdx d ind) : Own ind.index := fun k r h => w.own k r (mapGet_mem _ _ _ h)

theorem More.get {d : Path} {fs : FS} {m m' : List (Sha1Hash × Record)} (hm : More d fs m m') {h : Sha1Hash} {r : Record} (hr : mapGet m' h = some r) :
    ∃ r0, mapGet m h = some r0 ∧ (r = r0 ∨ ∃ p, r0.progressFile = none ∧ viewProgress d fs r0 = .ok p ∧ r = { r0 with progressFile := some p }) := by
  rcases hm.2 h with h1 | ⟨r0, p, h1, h2, h3, h4⟩
  · exact ⟨r, by rw [← h1, hr], .inl rfl⟩
  · rw [h4] at hr; cases hr; exact ⟨r0, h1, .inr ⟨p, h2, h3, rfl⟩⟩

theorem More.view {d : Path} {fs : FS} {m m' : List (Sha1Hash × Record)} (hm : More d fs m m') {h : Sha1Hash} {r : Record} (hr : mapGet m' h = some r) :
    ∃ r0, mapGet m h = some r0 ∧ viewProgress d fs r = viewProgress d fs r0 ∧ r = { r0 with progressFile := r.progressFile } := by
  obtain ⟨r0, h1, h2 | ⟨p, h2, h3, h4⟩⟩ := hm.get hr
  · subst h2; exact ⟨r, h1, rfl, rfl⟩
  · subst h4; exact ⟨r0, h1, by rw [h3]; rfl, rfl⟩

theorem More.own {d : Path} {fs : FS} {m m' : List (Sha1Hash × Record)} (hm : More d fs m m') (ho : Own m) : Own m' := by
  intro k r hr
  obtain ⟨r0, h1, -, h2⟩ := hm.view hr
  rw [h2]; exact ho k r0 h1

theorem More.obs {d : Path} {fs : FS} {m m' : List (Sha1Hash × Record)} (hm : More d fs m m') (h : Sha1Hash) : obsRec d fs m' h = obsRec d fs m h := by
  rcases hm.2 h with h1 | ⟨r0, p, h1, h2, h3, h4⟩
  · exact obsRec_congr _ _ _ _ _ h1
  · unfold obsRec
    rw [h4, h1]
    simp only
    rw [h3]; rfl

theorem More.load {d : Path} {fs : FS} {m m' : List (Sha1Hash × Record)} (hm : More d fs m m') (ho : Own m) {h : Sha1Hash} {r : Record} {p : ProgressFile}
    (hr : mapGet m' h = some r) (hn : r.progressFile = none) (hv : viewProgress d fs r = .ok p) :
    More d fs m (mapPut m' r.sha1Hash { r with progressFile := some p }) := by
  have hk : r.sha1Hash = h := hm.own ho h r hr
  rw [hk]
  refine ⟨?_, ?_⟩
  · rw [keys_put, if_pos, hm.1]
    rw [any_key, hr]; simp
  · intro k
    rw [mapGet_put]
    split
    · rename_i e; subst e
      right
      obtain ⟨r0, h1, h2⟩ := hm.get hr
      rcases h2 with rfl | ⟨q, h2, h3, h4⟩
      · exact ⟨r, p, h1, hn, hv, by rw [← hk]⟩
      · rw [h4] at hn; cases hn
    · exact hm.2 k

/-- The files are `fs0`, and memory is `ind` with perhaps more progress loaded. -/
def RO (d dl : Path) (ind : IndexFile) (fs0 : FS) : Assn := fun c fs =>
  fs = fs0 ∧ ∃ m', c = ⟨d, dl, some { ind with index := m' }⟩ ∧ More d fs0 ind.index m'

theorem RO.init (d dl : Path) (ind : IndexFile) (fs0 : FS) : RO d dl ind fs0 ⟨d, dl, some ind⟩ fs0 :=
  ⟨rfl, ind.index, rfl, More.refl _ _ _⟩

section
variable {d dl : Path} {ind : IndexFile} {fs0 : FS}

/-- The record found for a hash, with its progress. -/
def Found (d : Path) (ind : IndexFile) (fs0 : FS) (h : Sha1Hash) (r : Record) : Prop :=
  ∃ r0 p, mapGet ind.index h = some r0 ∧ viewProgress d fs0 r0 = .ok p ∧ r = { r0 with progressFile := some p }

theorem ro_fillRecord (ho : Own ind.index) (h : Sha1Hash) (r : Record) :
    Triple (fun c fs => RO d dl ind fs0 c fs ∧ (c.indexFile.bind (fun i => mapGet i.index h) = some r)) (fillRecord r)
      (fun r' c fs => RO d dl ind fs0 c fs ∧ Found d ind fs0 h r') (RO d dl ind fs0) := by
  unfold fillRecord
  split
  · rename_i q hq
    refine Triple.pure _ ?_
    rintro c fs ⟨⟨rfl, m', rfl, hm⟩, hr⟩
    refine ⟨⟨rfl, m', rfl, hm⟩, ?_⟩
    obtain ⟨r0, h1, h2, h3⟩ := hm.view (h := h) (r := r) hr
    refine ⟨r0, q, h1, ?_, ?_⟩
    · rw [← h2]; unfold viewProgress; rw [hq]
    · rw [hq] at h3; exact h3
  · rename_i hn
    refine Triple.bind Triple.getCat ?_
    intro cat
    refine Triple.bind (Q := fun p c fs => (RO d dl ind fs0 c fs ∧ (c.indexFile.bind (fun i => mapGet i.index h) = some r)) ∧ viewProgress d fs0 r = .ok p) ?_ ?_
    · refine Triple.bind ((Triple.osReadFile _ (fun _ _ h => h)).conseq (P' := fun c fs => ((RO d dl ind fs0 c fs ∧ (c.indexFile.bind (fun i => mapGet i.index h) = some r)) ∧ cat = c)) (fun _ _ h => h) (fun _ _ _ h => h) ?_) ?_
      · rintro c fs ⟨⟨h1, _⟩, _⟩; exact h1
      intro data
      refine Triple.bind (Q := fun b c fs => (((RO d dl ind fs0 c fs ∧ (c.indexFile.bind (fun i => mapGet i.index h) = some r)) ∧ cat = c) ∧
        fs (progressPath cat.dataDir r.sha1Hash) = some data) ∧ Bitset.deserialize data = .ok b) ?_ ?_
      · exact Triple.lift _ (fun b hb c fs h => ⟨h, hb⟩) (fun c fs h => h.1.1.1)
      · intro b
        refine Triple.pure _ ?_
        rintro c fs ⟨⟨⟨⟨⟨rfl, m', rfl, hm⟩, hr⟩, rfl⟩, hf⟩, hb⟩
        refine ⟨⟨⟨rfl, m', rfl, hm⟩, hr⟩, ?_⟩
        unfold viewProgress
        rw [hn]
        simp only at hf ⊢
        rw [hf]
        simp only
        rw [hb]; rfl
    · intro p
      apply Triple.facts
      intro hv
      refine Triple.bind (Q := fun _ c fs => RO d dl ind fs0 c fs ∧ Found d ind fs0 h { r with progressFile := some p }) ?_ ?_
      · refine Triple.bind (Triple.getIndex (fun _ _ h => h.1)) ?_
        intro i
        apply Triple.setIndex
        rintro c fs ⟨⟨⟨rfl, m', rfl, hm⟩, hr⟩, hi⟩
        cases hi
        refine ⟨⟨rfl, _, rfl, hm.load ho (h := h) (r := r) hr hn hv⟩, ?_⟩
        obtain ⟨r0, h1, h2, h3⟩ := hm.view (h := h) (r := r) hr
        refine ⟨r0, p, h1, by rw [← h2, hv], ?_⟩
        rw [h3]
      · intro _
        exact Triple.pure _ (fun _ _ h => h)

theorem ro_getIndexRecord (ho : Own ind.index) (h : Sha1Hash) :
    Triple (RO d dl ind fs0) (getIndexRecord h) (fun r c fs => RO d dl ind fs0 c fs ∧ Found d ind fs0 h r) (RO d dl ind fs0) := by
  refine Triple.bind (Triple.getIndex (fun _ _ h => h)) ?_
  intro i
  split
  · rename_i r hr
    refine (ro_fillRecord ho h r).pre ?_
    rintro c fs ⟨h1, h2⟩
    refine ⟨h1, ?_⟩
    rw [h2]; exact hr
  · exact Triple.lift _ (fun a e => by cases e) (fun _ _ h => h.1)

theorem ro_listLoop (ho : Own ind.index) (order : List Sha1Hash) : Triple (RO d dl ind fs0) (listLoop order) (fun _ => RO d dl ind fs0) (RO d dl ind fs0) := by
  induction order with
  | nil => exact Triple.pure _ (fun _ _ h => h)
  | cons h rest ih =>
    refine Triple.bind (Triple.getIndex (fun _ _ h => h)) ?_
    intro i
    split
    · exact ih.pre (fun _ _ h => h.1)
    · rename_i r hr
      refine Triple.bind ((ro_fillRecord ho h r).pre ?_) ?_
      · rintro c fs ⟨h1, h2⟩
        refine ⟨h1, ?_⟩
        rw [h2]; exact hr
      · intro r'
        refine Triple.bind (Q := fun _ => RO d dl ind fs0) (Triple.lift _ (fun _ _ c fs h => h.1) (fun c fs h => h.1)) ?_
        intro e
        exact Triple.bind ih (fun _ => Triple.pure _ (fun _ _ h => h))

/-- The calls that do not write. -/
def Op.readOnly : Op → Bool
  | .list _ => true
  | .rehash _ => true
  | .contains _ => true
  | .get _ => true
  | .complete _ => true
  | .missing _ => true
  | .reader .. => true
  | _ => false

theorem ro_rehash (env : Env) (ho : Own ind.index) (h : Sha1Hash) :
    Triple (RO d dl ind fs0) (rehash env h) (fun x c fs => RO d dl ind fs0 c fs ∧ ∃ r, Found d ind fs0 h r ∧ (fs0 r.filePath).map env.sha1 = some x) (RO d dl ind fs0) := by
  refine Triple.bind (ro_getIndexRecord ho h) ?_
  intro r
  refine (Triple.osHashFile env _ (fun _ _ h => h.1)).post ?_
  rintro x c fs ⟨⟨h1, h2⟩, h3⟩
  refine ⟨h1, r, h2, ?_⟩
  rw [h1.1] at h3; exact h3

theorem ro_contains (ho : Own ind.index) (h : Sha1Hash) :
    Triple (RO d dl ind fs0) (contains h) (fun e c fs => RO d dl ind fs0 c fs ∧ obsRec d fs0 ind.index h = .ok e) (RO d dl ind fs0) := by
  refine Triple.bind (ro_getIndexRecord ho h) ?_
  intro r
  refine Triple.lift _ ?_ (fun _ _ h => h.1)
  rintro e he c fs ⟨h1, r0, p, h2, h3, rfl⟩
  refine ⟨h1, ?_⟩
  unfold obsRec
  rw [h2]; simp only; rw [h3]
  cases he; rfl

theorem ro_complete (ho : Own ind.index) (h : Sha1Hash) :
    Triple (RO d dl ind fs0) (fileComplete h) (fun b c fs => RO d dl ind fs0 c fs ∧ ∃ e, obsRec d fs0 ind.index h = .ok e ∧ e.progress.full = .ok b)
      (RO d dl ind fs0) := by
  refine Triple.bind (Triple.orPanic (ro_getIndexRecord ho h)) ?_
  intro r; split
  · exact Triple.lift _ (fun a e => by cases e) (fun _ _ h => h.1)
  · rename_i q hq
    refine Triple.lift _ ?_ (fun _ _ h => h.1)
    rintro b hb c fs ⟨h1, r0, p, h2, h3, rfl⟩
    cases hq
    refine ⟨h1, r0.exportWith q, ?_, hb⟩
    unfold obsRec
    rw [h2]; simp only; rw [h3]; rfl

theorem ro_missing (ho : Own ind.index) (h : Sha1Hash) :
    Triple (RO d dl ind fs0) (missingChunks h) (fun b c fs => RO d dl ind fs0 c fs ∧ ∃ e, obsRec d fs0 ind.index h = .ok e ∧ e.progress.unfilledRanges = .ok b)
      (RO d dl ind fs0) := by
  refine Triple.bind (Triple.orPanic (ro_getIndexRecord ho h)) ?_
  intro r; split
  · exact Triple.lift _ (fun a e => by cases e) (fun _ _ h => h.1)
  · rename_i q hq
    refine Triple.lift _ ?_ (fun _ _ h => h.1)
    rintro b hb c fs ⟨h1, r0, p, h2, h3, rfl⟩
    cases hq
    refine ⟨h1, r0.exportWith q, ?_, hb⟩
    unfold obsRec
    rw [h2]; simp only; rw [h3]; rfl

theorem ro_reader (env : Env) (ho : Own ind.index) (h : Sha1Hash) (n : Nat) (ch : List AtChoice) :
    Triple (RO d dl ind fs0) (getChunkReader env h n ch) (fun o c fs => RO d dl ind fs0 c fs ∧ ∃ e content, obsRec d fs0 ind.index h = .ok e ∧
        e.progress.get (BitVec.ofNat 64 n) = .ok true ∧ fs0 e.filePath = some content ∧
        o = newChunkReader env.sha1 content (n * e.chunkSize.toNat) e.chunkSize.toNat ch)
      (RO d dl ind fs0) := by
  refine Triple.bind (ro_getIndexRecord ho h) ?_
  intro r
  split
  · exact Triple.lift _ (fun a e => by cases e) (fun _ _ h => h.1)
  · rename_i q hq
    refine Triple.bind (Q := fun b c fs => (RO d dl ind fs0 c fs ∧ Found d ind fs0 h r) ∧ q.progress.get (BitVec.ofNat 64 n) = .ok b)
      (Triple.lift _ (fun b hb c fs h => ⟨h, hb⟩) (fun _ _ h => h.1)) ?_
    intro b
    cases b with
    | false => exact Triple.lift _ (fun a e => by cases e) (fun _ _ h => h.1.1)
    | true =>
      refine Triple.bind (Triple.osTouch (fun _ _ h => h.1.1)) ?_
      intro _
      refine Triple.bind Triple.getFS ?_
      intro fs1; split
      · exact Triple.lift _ (fun a e => by cases e) (fun _ _ h => h.1.1.1)
      · rename_i content hcon
        refine Triple.pure _ ?_
        rintro c fs ⟨⟨⟨h1, r0, p, h2, h3, rfl⟩, hb⟩, rfl⟩
        cases hq
        refine ⟨h1, r0.exportWith q, content, ?_, hb, ?_, rfl⟩
        · unfold obsRec
          rw [h2]; simp only; rw [h3]; rfl
        · rw [← h1.1]; exact hcon

theorem Triple.voidQ {α : Type} {P : Assn} {x : CM α} {Q : α → Assn} {E : Assn} (h : Triple P x Q E) (hQ : ∀ a c fs, Q a c fs → E c fs) :
    Triple P (CM.void x) (fun _ => E) E :=
  Triple.void (h.post hQ)

/-- Calls that only read leave everything as it was, whatever they meet. -/
theorem ro_op (env : Env) (ho : Own ind.index) (o : Op) (hro : o.readOnly = true) :
    Triple (RO d dl ind fs0) (o.run env) (fun _ => RO d dl ind fs0) (RO d dl ind fs0) := by
  cases o with
  | share p => cases hro
  | unshare h => cases hro
  | register s cs h n => cases hro
  | save h n data => cases hro
  | list o => exact Triple.void (Triple.bind (Triple.getIndex (fun _ _ h => h)) (fun _ => (ro_listLoop ho o).pre (fun _ _ h => h.1)))
  | rehash h => exact Triple.voidQ (ro_rehash env ho h) (fun _ _ _ h => h.1)
  | contains h => exact Triple.voidQ (ro_contains ho h) (fun _ _ _ h => h.1)
  | get h => exact Triple.voidQ (Triple.orPanic (ro_contains ho h)) (fun _ _ _ h => h.1)
  | complete h => exact Triple.voidQ (ro_complete ho h) (fun _ _ _ h => h.1)
  | missing h => exact Triple.voidQ (ro_missing ho h) (fun _ _ _ h => h.1)
  | reader h n ch => exact Triple.voidQ (ro_reader env ho h n ch) (fun _ _ _ h => h.1)
end

end Flu
