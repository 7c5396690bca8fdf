import Verif.Lemmas.CatOwned
import Verif.Props.Clean
import Verif.Props.Fatal
/-!
# Looking at a file again (C80) and calls that fail (C81)
-/
namespace Flu

section
variable {env : Env} {d dl : Path} {c : Cat} {fs : FS}

/-! ## C80 -/

/-- C80: whatever faults occur, an answer of `Rehash` is the sha1 of what the file of that hash contains at that moment; the call changes nothing. -/
theorem C80_rehash (hh : Healthy env d) (hreach : Reach env d dl (.running c fs)) (h : Sha1Hash) (fl : List Fault) (r : Res Sha1Hash) (s' : St)
    (hrun : rehash env h ⟨c, fs, fl⟩ = (r, s')) :
    s'.fs = fs ∧ (∀ k, observe s'.cat s'.fs k = observe c fs k) ∧
      ∀ x, r = .ok x → ∃ f content, observe c fs h = .ok f ∧ fs f.filePath = some content ∧ x = env.sha1 content := by
  have hI : Inv env d dl c fs := hreach.inv hh.abs hh.utf8
  obtain ⟨ind, rfl, hw⟩ := hI.split
  have ht := ro_rehash (d := d) (dl := dl) (fs0 := fs) env hw.ownGet h ⟨_, fs, fl⟩ (RO.init d dl ind fs)
  have hro : RO d dl ind fs s'.cat s'.fs := by
    cases r with
    | ok a => exact (ht.1 a s' hrun).1
    | err e => exact ht.2 _ s' hrun (by intro a; simp)
    | panic => exact ht.2 _ s' hrun (by intro a; simp)
    | exit => exact ht.2 _ s' hrun (by intro a; simp)
    | crash => exact ht.2 _ s' hrun (by intro a; simp)
  refine ⟨hro.same.1, hro.same.2, ?_⟩
  rintro x rfl
  obtain ⟨_, r, ⟨r0, p, g1, g2, rfl⟩, h4⟩ := ht.1 x s' hrun
  rcases hc : fs r0.filePath with _ | content
  · rw [hc] at h4; cases h4
  · refine ⟨r0.exportWith p, content, ?_, hc, ?_⟩
    · rw [observe_eq]; unfold obsRec; rw [g1]; simp only; rw [g2]; rfl
    · rw [hc] at h4; exact (Option.some.inj h4).symm

/-- C80: if the disk works, `Rehash` of a file that the catalogue shows and that is there succeeds, and it fails if the file is gone or the hash is unknown. -/
theorem C80_works (hh : Healthy env d) (hreach : Reach env d dl (.running c fs)) (h : Sha1Hash) :
    (∃ x s', rehash env h ⟨c, fs, []⟩ = (.ok x, s')) ↔ ∃ f, observe c fs h = .ok f ∧ fs f.filePath ≠ none := by
  constructor
  · rintro ⟨x, s', hrun⟩
    obtain ⟨_, _, h3⟩ := C80_rehash hh hreach h [] _ s' hrun
    obtain ⟨f, content, h4, h5, _⟩ := h3 x rfl
    exact ⟨f, h4, by rw [h5]; simp⟩
  · rintro ⟨f, ho, hf⟩
    have hI : Inv env d dl c fs := hreach.inv hh.abs hh.utf8
    obtain ⟨ind, rfl, hw⟩ := hI.split
    rw [observe_eq] at ho
    unfold obsRec at ho
    rcases hm : mapGet ind.index h with _ | r
    · rw [hm] at ho; cases ho
    rw [hm] at ho
    simp only at ho
    obtain ⟨p, hp, he⟩ := (Res.bind_ok_iff _ _ _).1 ho
    cases he
    obtain ⟨content, hc⟩ := Option.ne_none_iff_exists'.1 hf
    have hc : fs r.filePath = some content := hc
    unfold rehash
    rw [IOM.bind_apply, getIndexRecord_nil]
    simp only [hm, hp]
    simp only [osHashFile, IOM.bind_apply, osReadFile_nil, hc]
    exact ⟨_, _, rfl⟩

/-! ## C81 -/

/-- A call that returns an error leaves the files and the catalogue as they were. -/
def C81_statement (env : Env) (d dl : Path) : Prop := ∀ (c : Cat) (fs : FS), Healthy env d → Reach env d dl (.running c fs) →
  ∀ (o : Op) (fl : List Fault) (e : Err) (s' : St), o.Safe d c → o.run env ⟨c, fs, fl⟩ = (.err e, s') →
    s'.fs = fs ∧ ∀ k, observe s'.cat s'.fs k = observe c fs k

/-- Not an error. -/
def Res.NoErr (r : Res α) : Prop := ∀ e, r ≠ .err e

theorem Res.NoErr.bind {x : Res α} {f : α → Res β} (h : x.NoErr) (hf : ∀ a, (f a).NoErr) : (x >>= f).NoErr := by
  cases x with
  | ok a => exact hf a
  | err e => exact absurd rfl (h e)
  | panic => intro e h; cases h
  | exit => intro e h; cases h
  | crash => intro e h; cases h

theorem noErr_ok (a : α) : (Res.ok a).NoErr := fun e h => by cases h
theorem noErr_panic : (Res.panic : Res α).NoErr := fun e h => by cases h

theorem noErr_indexAt (l : List α) (i : Int) : (indexAt l i).NoErr := by
  unfold indexAt
  split
  · exact noErr_panic
  · split
    · exact noErr_ok _
    · exact noErr_panic

theorem noErr_storeAt (l : List α) (i : Int) (v : α) : (storeAt l i v).NoErr := by
  unfold storeAt
  split
  · exact noErr_panic
  · split
    · exact noErr_ok _
    · exact noErr_panic

theorem noErr_set (b : Bitset) (x : BitVec 64) : (b.set x).NoErr :=
  (noErr_indexAt _ _).bind (fun _ => (noErr_storeAt _ _ _).bind (fun _ => noErr_ok _))

theorem noErr_unset (b : Bitset) (x : BitVec 64) : (b.unset x).NoErr := by
  unfold Bitset.unset
  simp only
  split
  · exact noErr_ok _
  · exact (noErr_indexAt _ _).bind (fun _ => (noErr_storeAt _ _ _).bind (fun _ => noErr_ok _))

theorem noErr_newBitset (n : Int) : (Bitset.newBitset n).NoErr := by
  unfold Bitset.newBitset
  split
  · exact noErr_panic
  · simp only
    split
    · exact (noErr_set _ _).bind (fun _ => noErr_unset _ _)
    · exact noErr_ok _

theorem noErr_foldlM (f : β → α → Res β) (hf : ∀ b a, (f b a).NoErr) (l : List α) (b : β) : (l.foldlM f b).NoErr := by
  induction l generalizing b with
  | nil => exact noErr_ok _
  | cons a l ih => rw [List.foldlM_cons]; exact (hf b a).bind ih

theorem noErr_fill (b : Bitset) : b.fill.NoErr := by
  unfold Bitset.fill
  split
  · exact noErr_ok _
  · refine (noErr_foldlM _ (fun _ _ => noErr_storeAt _ _ _) _ _).bind ?_
    intro data
    simp only
    split
    · exact noErr_panic
    · exact (noErr_storeAt _ _ _).bind (fun _ => noErr_ok _)

theorem noErr_newProgressFile (r : Record) (d : Path) : (newProgressFile r d).NoErr := by
  unfold newProgressFile
  refine Res.NoErr.bind ?_ (fun _ => (noErr_newBitset _).bind (fun _ => noErr_ok _))
  unfold chunkCountOf
  split
  · exact noErr_panic
  · exact noErr_ok _

/-- With a disk that works, no error. -/
def Sure (x : CM α) : Prop := ∀ s, s.faults = [] → (x s).1.NoErr ∧ (x s).2.faults = []

theorem Sure.bind {x : CM α} {f : α → CM β} (h : Sure x) (hf : ∀ a, Sure (f a)) : Sure (x >>= f) := by
  intro s hs
  obtain ⟨h1, h2⟩ := h s hs
  rw [IOM.bind_apply]
  rcases hx : x s with ⟨r, s1⟩
  rw [hx] at h1 h2
  cases r with
  | ok a => exact hf a s1 h2
  | err e => exact absurd rfl (h1 e)
  | panic => exact ⟨noErr_panic, h2⟩
  | exit => exact ⟨(fun e h => by cases h), h2⟩
  | crash => exact ⟨(fun e h => by cases h), h2⟩

theorem Sure.pure (a : α) : Sure (pure a : CM α) := fun _ hs => ⟨noErr_ok a, hs⟩
theorem Sure.lift {r : Res α} (h : r.NoErr) : Sure (IOM.lift r) := fun _ hs => ⟨h, hs⟩
theorem Sure.getCat : Sure getCat := fun _ hs => ⟨noErr_ok _, hs⟩
theorem Sure.getFS : Sure getFS := fun _ hs => ⟨noErr_ok _, hs⟩
theorem Sure.setIndex (ind : IndexFile) : Sure (setIndex ind) := fun _ hs => ⟨noErr_ok _, hs⟩
theorem Sure.getIndex : Sure getIndex := by
  refine Sure.getCat.bind ?_
  intro c
  split
  · exact Sure.pure _
  · exact Sure.lift noErr_panic
theorem Sure.updateRecord (r : Record) : Sure (updateRecord r) := Sure.getIndex.bind (fun _ => Sure.setIndex _)

theorem Sure.osWriteFile (p : Path) (data : Bytes) : Sure (osWriteFile p data) := by
  rintro ⟨c, fs, fl⟩ hs
  obtain rfl : fl = [] := hs
  exact ⟨noErr_ok _, rfl⟩

theorem Sure.saveIndex (env : Env) : Sure (saveIndex env) := Sure.getIndex.bind (fun _ => Sure.osWriteFile _ _)

theorem Sure.osOpenCreate (p : Path) : Sure (osOpenCreate p) := by
  rintro ⟨c, fs, fl⟩ hs
  obtain rfl : fl = [] := hs
  exact ⟨noErr_ok _, rfl⟩

theorem Sure.osWriteAt (p : Path) (data : Bytes) (n : Int) (hn : 0 ≤ n) : Sure (osWriteAt p data n) := by
  rintro ⟨c, fs, fl⟩ hs
  obtain rfl : fl = [] := hs
  unfold Flu.osWriteAt
  rw [if_neg (by omega)]
  exact ⟨noErr_ok _, rfl⟩

/-- An error of a sequence of two calls. -/
theorem bind_err {x : CM α} {f : α → CM β} {s s' : St} {e : Err} (h : (x >>= f) s = (.err e, s')) :
    x s = (.err e, s') ∨ ∃ a s1, x s = (.ok a, s1) ∧ f a s1 = (.err e, s') := by
  rw [IOM.bind_apply] at h
  rcases hx : x s with ⟨r, s1⟩
  rw [hx] at h
  cases r with
  | ok a => exact .inr ⟨a, s1, rfl, h⟩
  | err e => cases h; exact .inl rfl
  | panic => cases h
  | exit => cases h
  | crash => cases h

theorem Sure.no {x : CM α} (h : Sure x) {s s' : St} {e : Err} (hs : s.faults = []) (hx : x s = (.err e, s')) : False :=
  (h s hs).1 e (by rw [hx])

theorem void_err {x : CM α} {s s' : St} {e : Err} (h : CM.void x s = (.err e, s')) : x s = (.err e, s') := by
  rcases bind_err h with h | ⟨_, _, _, h⟩
  · exact h
  · cases h

/-- C81 as far as it goes: reading calls never change anything, and if the disk works a writing call that returns an error has changed nothing.  Missing: a writing call
during which the disk fails. -/
theorem C81_partial (hh : Healthy env d) (hreach : Reach env d dl (.running c fs)) (o : Op) (fl : List Fault) (hfl : o.readOnly = true ∨ fl = []) (e : Err) (s' : St)
    (hrun : o.run env ⟨c, fs, fl⟩ = (.err e, s')) : s'.fs = fs ∧ ∀ k, observe s'.cat s'.fs k = observe c fs k := by
  have hI : Inv env d dl c fs := hreach.inv hh.abs hh.utf8
  obtain ⟨ind, rfl, hw⟩ := hI.split
  by_cases hro : o.readOnly = true
  · exact RO.same ((ro_op env hw.ownGet o hro ⟨_, fs, fl⟩ (RO.init d dl ind fs)).2 _ s' hrun (by intro a; simp))
  obtain rfl := hfl.resolve_left hro
  have hget : ∀ h r s1, getIndexRecord h ⟨⟨d, dl, some ind⟩, fs, []⟩ = (r, s1) → RO d dl ind fs s1.cat s1.fs ∧ s1.faults = [] := by
    intro h r s1 hg
    have ht := ro_getIndexRecord (d := d) (dl := dl) (fs0 := fs) hw.ownGet h ⟨_, fs, []⟩ (RO.init d dl ind fs)
    refine ⟨?_, ?_⟩
    · cases r with
      | ok a => exact (ht.1 a s1 hg).1
      | err e => exact ht.2 _ s1 hg (by intro a; simp)
      | panic => exact ht.2 _ s1 hg (by intro a; simp)
      | exit => exact ht.2 _ s1 hg (by intro a; simp)
      | crash => exact ht.2 _ s1 hg (by intro a; simp)
    · rw [getIndexRecord_nil] at hg
      rcases hm : mapGet ind.index h with _ | r0
      · rw [hm] at hg; cases hg; rfl
      · rw [hm] at hg
        simp only at hg
        rcases hv : viewProgress d fs r0 with p | e | _ | _ | _ <;> rw [hv] at hg <;> cases hg <;> rfl
  have hadd : ∀ r e s1, addIndexRecord env r ⟨⟨d, dl, some ind⟩, fs, []⟩ = (.err e, s1) → s1 = ⟨⟨d, dl, some ind⟩, fs, []⟩ := by
    intro r e s1 ha
    rw [addIndexRecord_nil] at ha
    split at ha <;> cases ha
    rfl
  have hadd' : ∀ r x s1, addIndexRecord env r ⟨⟨d, dl, some ind⟩, fs, []⟩ = (.ok x, s1) → s1.faults = [] := by
    intro r x s1 ha
    rw [addIndexRecord_nil] at ha
    split at ha <;> cases ha
    rfl
  cases o with
  | share p =>
    rcases bind_err (void_err hrun) with hg | ⟨r, s1, hg, h1⟩
    · rw [generate_nil] at hg
      split at hg <;> cases hg
      exact ⟨rfl, fun _ => rfl⟩
    · rw [generate_nil] at hg
      split at hg <;> cases hg
      rcases bind_err h1 with ha | ⟨x, s2, ha, h2⟩
      · have := hadd _ _ _ ha
        subst this
        exact ⟨rfl, fun _ => rfl⟩
      · refine absurd h2 (fun h2 => Sure.no ?_ (hadd' _ _ _ ha) h2)
        refine Sure.getCat.bind (fun _ => (Sure.lift (noErr_newProgressFile _ _)).bind (fun p => (Sure.updateRecord _).bind (fun _ =>
          (Sure.lift (noErr_fill _)).bind (fun full => (Sure.updateRecord _).bind (fun _ => (Sure.osWriteFile _ _).bind (fun _ => Sure.pure _))))))
  | unshare h =>
    rcases bind_err hrun with hg | ⟨r, s1, hg, h1⟩
    · exact (hget _ _ _ hg).1.same
    · obtain ⟨g1, g2⟩ := hget _ _ _ hg
      rcases hp : r.progressFile with _ | p
      · rw [hp] at h1; cases h1
      · rw [hp] at h1
        rcases bind_err h1 with h2 | ⟨x, s2, h2, h3⟩
        · have : s' = s1 := by
            obtain ⟨c1, fs1, fl1⟩ := s1
            obtain rfl : fl1 = [] := g2
            have h2 : osRemove p.filePath _ = _ := h2
            rw [osRemove_nil] at h2
            split at h2 <;> cases h2
            rfl
          rw [this]
          exact g1.same
        · have hf : s2.faults = [] := by
            obtain ⟨c1, fs1, fl1⟩ := s1
            obtain rfl : fl1 = [] := g2
            have h2 : osRemove p.filePath _ = _ := h2
            rw [osRemove_nil] at h2
            split at h2 <;> cases h2
            rfl
          refine absurd h3 (fun h3 => Sure.no ?_ hf h3)
          exact Sure.getIndex.bind (fun _ => (Sure.setIndex _).bind (fun _ => Sure.saveIndex env))
  | register size cs h n =>
    have hrun := void_err hrun
    unfold registerDownload at hrun
    rw [IOM.bind_apply, getCat_apply] at hrun
    simp only at hrun
    rcases bind_err hrun with ha | ⟨x, s2, ha, h2⟩
    · have := hadd _ _ _ ha
      subst this
      exact ⟨rfl, fun _ => rfl⟩
    · refine absurd h2 (fun h2 => Sure.no ?_ (hadd' _ _ _ ha) h2)
      refine Sure.getCat.bind (fun _ => (Sure.lift (noErr_newProgressFile _ _)).bind (fun p => (Sure.updateRecord _).bind (fun _ => ?_)))
      refine Sure.bind ?_ (fun _ => Sure.lift (noErr_ok _))
      intro s hs
      have := Sure.osWriteFile p.filePath p.progress.serialize s hs
      unfold IOM.ignoreErr ProgressFile.save
      rcases hx : osWriteFile p.filePath p.progress.serialize s with ⟨r, s1⟩
      rw [hx] at this
      cases r with
      | err e => exact absurd rfl (this.1 e)
      | ok _ => exact this
      | panic => exact this
      | exit => exact this
      | crash => exact this
  | save h n data =>
    rcases bind_err hrun with hg | ⟨r, s1, hg, h1⟩
    · exfalso
      unfold IOM.orPanic at hg
      split at hg
      · cases hg
      · rename_i hne
        exact hne _ _ hg
    · exfalso
      have hg' : getIndexRecord h ⟨⟨d, dl, some ind⟩, fs, []⟩ = (.ok r, s1) := by
        unfold IOM.orPanic at hg
        split at hg
        · cases hg
        · exact hg
      obtain ⟨_, g2⟩ := hget _ _ _ hg'
      have hcs : 0 ≤ r.chunkSize := by
        obtain ⟨_, r0, p, k1, _, rfl⟩ := (ro_getIndexRecord (d := d) (dl := dl) (fs0 := fs) hw.ownGet h ⟨_, fs, []⟩ (RO.init d dl ind fs)).1 _ _ hg'
        exact (hw.recs _ _ (mapGet_mem _ _ _ k1)).cs_nonneg
      refine Sure.no ?_ g2 h1
      refine Sure.bind ((Sure.osOpenCreate _).bind (fun _ => Sure.osWriteAt _ _ _ (Int.mul_nonneg (Int.natCast_nonneg _) hcs))) ?_
      intro _
      split
      · exact Sure.lift noErr_panic
      · exact (Sure.lift (noErr_set _ _)).bind (fun _ => (Sure.updateRecord _).bind (fun _ => Sure.osWriteFile _ _))
  | list o => exact absurd rfl hro
  | rehash h => exact absurd rfl hro
  | contains h => exact absurd rfl hro
  | get h => exact absurd rfl hro
  | complete h => exact absurd rfl hro
  | missing h => exact absurd rfl hro
  | reader h n ch => exact absurd rfl hro

/-- C81, the defect, for every daemon and every new file: if the index cannot be written while a file is being shared (a full disk is enough), the call fails and no file has
changed, but the catalogue keeps a record without progress.  From then on nothing can be listed, the file can neither be looked up nor shared again, and the next listing
request of a peer ends the daemon. -/
theorem C81_share_disk_full (hh : Healthy env d) (hreach : Reach env d dl (.running c fs)) (path : GoString) (content : Bytes)
    (hc : fs (absPath env.cwd path) = some content) (hnew : observe c fs (env.sha1 content) = .err .fileNotFound) :
    ∃ s', shareFile env path ⟨c, fs, [.none, .none, .fail none]⟩ = (.err .io, s') ∧ s'.fs = fs ∧ observe s'.cat s'.fs (env.sha1 content) = .err .io ∧
      (shareFile env path ⟨s'.cat, s'.fs, []⟩).1 = .err (.alreadyShared (absPath env.cwd path)) ∧
      (∀ order fl es s2, MapOrder s'.cat order → listFiles order ⟨s'.cat, s'.fs, fl⟩ ≠ (.ok es, s2)) ∧
      ∀ port w q ret ups fl, MapOrder s'.cat w.order → Dies (serveDatagram env port w (Msg.listReq q Sha1Hash.blank).serialize ret ⟨⟨s'.cat, s'.fs, fl⟩, ups⟩).1 := by
  have hf : fs (progressPath d (env.sha1 content)) = none := unknown_no_progress hh.abs hh.utf8 hreach hnew
  have hI : Inv env d dl c fs := hreach.inv hh.abs hh.utf8
  obtain ⟨ind, rfl, hw⟩ := hI.split
  have hm := mapGet_of_unknown hf hnew hw
  let r0 : Record := { filePath := absPath env.cwd path, sizeInBytes := asInt64 (UInt64.ofNat content.length), sha1Hash := env.sha1 content, progressFile := none, chunkSize := defaultChunkSize }
  have hgen : generateIndexRecordForFile env path ⟨⟨d, dl, some ind⟩, fs, [.none, .none, .fail none]⟩ = (.ok r0, ⟨⟨d, dl, some ind⟩, fs, [.fail none]⟩) := by
    unfold generateIndexRecordForFile osStat osHashFile osReadFile
    simp only [IOM.bind_apply, nextFault, getFS_apply, IOM.pure_apply, hc, Option.map_some]
    rfl
  have hadd : addIndexRecord env r0 ⟨⟨d, dl, some ind⟩, fs, [.fail none]⟩ =
      (.err .io, ⟨⟨d, dl, some { ind with index := mapPut ind.index (env.sha1 content) r0 }⟩, fs, []⟩) := by
    unfold addIndexRecord
    rw [IOM.bind_apply, getIndex_eval]
    simp only
    rw [show mapGet ind.index r0.sha1Hash = none from hm]
    rfl
  have hrun : shareFile env path ⟨⟨d, dl, some ind⟩, fs, [.none, .none, .fail none]⟩ =
      (.err .io, ⟨⟨d, dl, some { ind with index := mapPut ind.index (env.sha1 content) r0 }⟩, fs, []⟩) := by
    unfold shareFile
    rw [IOM.bind_apply, hgen]
    simp only
    rw [IOM.bind_apply, hadd]
  have hreach' : Reach env d dl (.running ⟨d, dl, some { ind with index := mapPut ind.index (env.sha1 content) r0 }⟩ fs) := by
    refine hreach.returns (.share path) trivial [.none, .none, .fail none] ⟨⟨d, dl, some { ind with index := mapPut ind.index (env.sha1 content) r0 }⟩, fs, []⟩ (.inr ⟨.io, ?_⟩)
    show CM.void (shareFile env path) _ = _
    unfold CM.void
    rw [IOM.bind_apply, hrun]
  have hget : mapGet (mapPut ind.index (env.sha1 content) r0) (env.sha1 content) = some r0 := by rw [mapGet_put, if_pos rfl]
  have hobs : observe ⟨d, dl, some { ind with index := mapPut ind.index (env.sha1 content) r0 }⟩ fs (env.sha1 content) = .err .io := by
    rw [observe_eq]
    unfold obsRec
    simp only [hget]
    unfold viewProgress
    simp only [r0, hf]
    rfl
  have hlist : ∀ order fl es s2, MapOrder ⟨d, dl, some { ind with index := mapPut ind.index (env.sha1 content) r0 }⟩ order →
      listFiles order ⟨⟨d, dl, some { ind with index := mapPut ind.index (env.sha1 content) r0 }⟩, fs, fl⟩ ≠ (.ok es, s2) := by
    intro order fl es s2 ho hl
    obtain ⟨h1, _, h3, _⟩ := C38_list hh hreach' order ho fl es s2 hl
    have hin := (h3 (env.sha1 content)).2 (by rw [hobs]; simp)
    have : observe _ fs (env.sha1 content) ∈ order.map (observe ⟨d, dl, some { ind with index := mapPut ind.index (env.sha1 content) r0 }⟩ fs) := List.mem_map_of_mem hin
    rw [h1, hobs] at this
    obtain ⟨a, _, ha⟩ := List.mem_map.1 this
    cases ha
  refine ⟨_, hrun, rfl, hobs, ?_, hlist, ?_⟩
  · unfold shareFile
    simp only
    rw [IOM.bind_apply, generate_nil, hc]
    simp only
    rw [IOM.bind_apply, addIndexRecord_nil]
    simp only [hget, r0]
  · intro port w q ret ups fl ho
    have hp : parse (udpBuffer (Msg.listReq q Sha1Hash.blank).serialize) = .ok (.listReq q Sha1Hash.blank) := by
      have := parse_buffer (.listReq q Sha1Hash.blank) trivial (by simp [Msg.serialize, put16, Sha1Hash.blank]) []
      rw [List.append_nil] at this
      exact this
    unfold serveDatagram handleMessage
    rw [IOM.bind_apply, IOM.lift_apply, hp]
    simp only
    unfold respondToListFiles
    rw [if_pos (by decide), IOM.bind_apply]
    unfold IOM.orExit SM.cat
    simp only
    rcases hl : listFiles w.order ⟨⟨d, dl, some { ind with index := mapPut ind.index (env.sha1 content) r0 }⟩, fs, fl⟩ with ⟨r, s2⟩
    cases r with
    | ok es => exact absurd hl (hlist _ _ _ _ ho)
    | err e => exact .inr (.inl rfl)
    | panic => exact .inl rfl
    | exit => exact .inr (.inl rfl)
    | crash => exact .inr (.inr rfl)

end

/-! ## Examples -/

/-- The hypotheses of `C81_share_disk_full`: a new daemon and the file `f`. -/
theorem ex_disk_full (sha1 : Bytes → Sha1Hash) (json : JsonCodec) : ∃ s', shareFile (exEnv sha1 json) [102]
    ⟨⟨exDir, exDown, some (freshIdx (exEnv sha1 json) exDir)⟩, exFS1 sha1 json, [.none, .none, .fail none]⟩ = (.err .io, s') ∧
    observe s'.cat s'.fs (sha1 [1, 2, 3]) = .err .io := by
  have hp : exFS1 sha1 json (progressPath exDir (sha1 [1, 2, 3])) = none := by
    unfold exFS1
    rw [FS.put_other _ _ _ _ (fun e => indexPath_ne_progressPath exDir exDir (ex_healthy sha1 json).abs (ex_healthy sha1 json).abs _ e.symm)]
    exact ex_fs_clean _ (.inr ⟨_, rfl⟩)
  obtain ⟨s', h1, _, h3, _⟩ := C81_share_disk_full (ex_healthy sha1 json) (ex_reach sha1 json) [102] [1, 2, 3] (ex_file sha1 json) rfl
  exact ⟨s', h1, h3⟩

/-- C81 in full is false. -/
theorem C81_refuted (sha1 : Bytes → Sha1Hash) (json : JsonCodec) : ¬ C81_statement (exEnv sha1 json) exDir exDown := by
  intro hall
  obtain ⟨s', h1, h2⟩ := ex_disk_full sha1 json
  obtain ⟨_, h3⟩ := hall _ _ (ex_healthy sha1 json) (ex_reach sha1 json) (.share [102]) [.none, .none, .fail none] .io s' trivial (by
    show CM.void (shareFile (exEnv sha1 json) [102]) _ = _
    unfold CM.void
    rw [IOM.bind_apply, h1])
  have := h3 (sha1 [1, 2, 3])
  rw [h2] at this
  cases this

/-- The hypotheses of `C81_partial`: sharing a file that does not exist. -/
example (sha1 : Bytes → Sha1Hash) (json : JsonCodec) : ∃ c fs s', Reach (exEnv sha1 json) exDir exDown (.running c fs) ∧
    (Op.share [103]).run (exEnv sha1 json) ⟨c, fs, []⟩ = (.err .io, s') := by
  refine ⟨_, _, ⟨⟨exDir, exDown, some (freshIdx (exEnv sha1 json) exDir)⟩, exFS1 sha1 json, []⟩, ex_reach sha1 json, ?_⟩
  show CM.void (shareFile (exEnv sha1 json) [103]) _ = _
  have e : exFS1 sha1 json (absPath (exEnv sha1 json).cwd [103]) = none := by
    have e : absPath (exEnv sha1 json).cwd [103] = [47, 103] := by
      show absPath [47] [103] = [47, 103]
      decide
    have e2 : indexPath exDir = [47, 100, 47] ++ indexFileName := by decide
    rw [e]
    unfold exFS1
    rw [FS.put_other _ _ _ _ (by rw [e2]; decide)]
    decide
  unfold CM.void shareFile
  rw [IOM.bind_apply, IOM.bind_apply, generate_nil, e]

/-- The hypotheses of `C80_works` and an answer of `C80_rehash`: a shared file. -/
example (sha1 : Bytes → Sha1Hash) (json : JsonCodec) : ∃ c fs f x s', Reach (exEnv sha1 json) exDir exDown (.running c fs) ∧
    observe c fs (sha1 [1, 2, 3]) = .ok f ∧ fs f.filePath ≠ none ∧ rehash (exEnv sha1 json) (sha1 [1, 2, 3]) ⟨c, fs, []⟩ = (.ok x, s') := by
  obtain ⟨r, s', h⟩ := shareFile_total (exEnv sha1 json) [102] exDir exDown (freshIdx (exEnv sha1 json) exDir) _ [1, 2, 3] (ex_file sha1 json) rfl (by decide)
  have hreach := (ex_reach sha1 json).call (.share [102]) trivial [] s' (CM.void_ok _ _ _ _ h)
  obtain ⟨content, h1, h2, h3, -, h5⟩ := C26_share (ex_healthy sha1 json) (ex_reach sha1 json) [102] [] r s' h
  rw [ex_file] at h1; cases h1
  obtain ⟨b, hb, -⟩ := h3 (by decide)
  have hf : s'.fs (absPath (exEnv sha1 json).cwd [102]) ≠ none := by
    rw [h5, ex_file]
    · simp
    · show absPath [47] [102] ≠ _
      have e : absPath [47] [102] = absOf [[102]] := by decide
      rw [e]; exact fun h => ex_not_catFile 102 (by simp) (.inl h)
    · show absPath [47] [102] ≠ _
      have e : absPath [47] [102] = absOf [[102]] := by decide
      rw [e]; exact fun h => ex_not_catFile 102 (by simp) (.inr ⟨_, h⟩)
  obtain ⟨x, s2, hx⟩ := (C80_works (ex_healthy sha1 json) hreach (sha1 [1, 2, 3])).2 ⟨_, hb, hf⟩
  exact ⟨_, _, _, x, s2, hreach, hb, hf, hx⟩

end Flu
