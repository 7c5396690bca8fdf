import Verif.Props.Success
import Verif.Props.Download
import Verif.Props.DownloadLoop
/-!
# A disk that becomes full during a download (C103)
-/
namespace Flu

/-- In this state the call needs `k` operations of the disk: if all of them work it has this result and leaves this state, and otherwise it does not succeed, and leaves files that satisfy `E`. -/
def Uses {α : Type} (E : FS → Prop) (x : CM α) (c : Cat) (fs : FS) (k : Nat) (a : α) (c' : Cat) (fs' : FS) : Prop := ∀ fl : List Fault,
  ((∀ f ∈ fl.take k, f = .none) → x ⟨c, fs, fl⟩ = (.ok a, ⟨c', fs', fl.drop k⟩)) ∧
  ((∃ f ∈ fl.take k, f ≠ .none) → ∃ r s', x ⟨c, fs, fl⟩ = (r, s') ∧ (∀ b, r ≠ .ok b) ∧ E s'.fs)

section
variable {α β : Type} {E : FS → Prop}

theorem Uses.bind {x : CM α} {f : α → CM β} {c c' c'' : Cat} {fs fs' fs'' : FS} {k k' : Nat} {a : α} {b : β} (hx : Uses E x c fs k a c' fs') (hf : Uses E (f a) c' fs' k' b c'' fs'') :
    Uses E (x >>= f) c fs (k + k') b c'' fs'' := by
  intro fl
  rw [List.take_add]
  constructor
  · intro h
    rw [IOM.bind_apply, (hx fl).1 (fun g hg => h g (List.mem_append_left _ hg))]
    have := (hf (fl.drop k)).1 (fun g hg => h g (List.mem_append_right _ hg))
    rw [List.drop_drop] at this
    exact this
  · rintro ⟨g, hg, hne⟩
    by_cases hall : ∀ f ∈ fl.take k, f = .none
    · rw [IOM.bind_apply, (hx fl).1 hall]
      refine (hf (fl.drop k)).2 ⟨g, (List.mem_append.1 hg).resolve_left (fun h => hne (hall g h)), hne⟩
    · obtain ⟨r, s', h1, h2, h3⟩ := (hx fl).2 (by
        apply Classical.byContradiction
        intro hno
        exact hall (fun f hf => Classical.byContradiction (fun hn => hno ⟨f, hf, hn⟩)))
      rw [IOM.bind_apply, h1]
      cases r with
      | ok a => exact absurd rfl (h2 a)
      | err e => exact ⟨_, s', rfl, fun _ h => (by cases h), h3⟩
      | panic => exact ⟨_, s', rfl, fun _ h => (by cases h), h3⟩
      | exit => exact ⟨_, s', rfl, fun _ h => (by cases h), h3⟩
      | crash => exact ⟨_, s', rfl, fun _ h => (by cases h), h3⟩

/-- A step without an operation of the disk. -/
theorem Uses.zero {x : CM α} {c c' : Cat} {fs fs' : FS} {a : α} (h : ∀ fl, x ⟨c, fs, fl⟩ = (.ok a, ⟨c', fs', fl⟩)) : Uses E x c fs 0 a c' fs' := by
  intro fl
  rw [List.take_zero]
  exact ⟨fun _ => h fl, fun ⟨_, hg, _⟩ => by cases hg⟩

/-- One operation of the disk. -/
theorem Uses.one {x : CM α} {c c' : Cat} {fs fs' : FS} {a : α} (h0 : x ⟨c, fs, []⟩ = (.ok a, ⟨c', fs', []⟩)) (h1 : ∀ fl, x ⟨c, fs, .none :: fl⟩ = (.ok a, ⟨c', fs', fl⟩))
    (h2 : ∀ f fl, f ≠ .none → ∃ r s', x ⟨c, fs, f :: fl⟩ = (r, s') ∧ (∀ b, r ≠ .ok b) ∧ E s'.fs) : Uses E x c fs 1 a c' fs' := by
  intro fl
  cases fl with
  | nil => exact ⟨fun _ => h0, fun ⟨_, hg, _⟩ => by cases hg⟩
  | cons f fl =>
    refine ⟨fun h => ?_, fun ⟨g, hg, hne⟩ => ?_⟩
    · have : f = .none := h f (List.mem_cons_self ..)
      subst this
      exact h1 fl
    · rcases List.mem_cons.1 hg with rfl | hg
      · exact h2 _ _ hne
      · rw [List.take_zero] at hg; cases hg

theorem Uses.orPanic {x : CM α} {c c' : Cat} {fs fs' : FS} {k : Nat} {a : α} (h : Uses E x c fs k a c' fs') : Uses E (IOM.orPanic x) c fs k a c' fs' := by
  intro fl
  obtain ⟨h1, h2⟩ := h fl
  unfold IOM.orPanic
  refine ⟨fun hall => by rw [h1 hall], fun hbad => ?_⟩
  obtain ⟨r, s', h3, h4, h5⟩ := h2 hbad
  rw [h3]
  cases r with
  | ok a => exact absurd rfl (h4 a)
  | err e => exact ⟨_, s', rfl, fun _ h => (by cases h), h5⟩
  | panic => exact ⟨_, s', rfl, fun _ h => (by cases h), h5⟩
  | exit => exact ⟨_, s', rfl, fun _ h => (by cases h), h5⟩
  | crash => exact ⟨_, s', rfl, fun _ h => (by cases h), h5⟩

end

section
variable {env : Env} {d dl : Path} {E : FS → Prop}

theorem Uses.osReadFile {c : Cat} {fs : FS} {p : Path} {x : Bytes} (hx : fs p = some x) (hE : E fs) : Uses E (osReadFile p) c fs 1 x c fs := by
  have : ∀ fl, (do match (← getFS) p with | some x => pure x | none => IOM.lift (.err .io) : CM Bytes) ⟨c, fs, fl⟩ = (.ok x, ⟨c, fs, fl⟩) := by
    intro fl
    rw [IOM.bind_apply, getFS_apply]
    simp only [hx]
    rfl
  refine Uses.one (this []) this ?_
  intro f fl hf
  rcases f with _ | _ | _
  · exact absurd rfl hf
  · exact ⟨_, _, rfl, fun _ h => (by cases h), hE⟩
  · exact ⟨_, _, rfl, fun _ h => (by cases h), hE⟩

theorem Uses.osOpenCreate {c : Cat} {fs : FS} {p : Path} (hE : E fs) (hE' : E (fs.put p (some ((fs p).getD [])))) :
    Uses E (osOpenCreate p) c fs 1 () c (fs.put p (some ((fs p).getD []))) := by
  refine Uses.one rfl (fun _ => rfl) ?_
  intro f fl hf
  rcases f with _ | _ | _
  · exact absurd rfl hf
  · exact ⟨_, _, rfl, fun _ h => (by cases h), hE⟩
  · rename_i eff
    cases eff
    · exact ⟨_, _, rfl, fun _ h => (by cases h), hE⟩
    · exact ⟨_, _, rfl, fun _ h => (by cases h), hE'⟩

theorem Uses.osWriteAt {c : Cat} {fs : FS} {p : Path} {x : Bytes} {k : Nat} (hE : E fs) (hE' : ∀ y, E (fs.put p (some y))) :
    Uses E (osWriteAt p x k) c fs 1 () c (fs.put p (some (overlay ((fs p).getD []) k x))) := by
  have hk : ¬ ((k : Int) < 0) := by omega
  unfold Flu.osWriteAt
  simp only [hk, if_false, Int.toNat_natCast]
  refine Uses.one rfl (fun _ => rfl) ?_
  intro f fl hf
  rcases f with _ | _ | _
  · exact absurd rfl hf
  · rename_i eff
    cases eff
    · exact ⟨_, _, rfl, fun _ h => (by cases h), hE⟩
    · exact ⟨_, _, rfl, fun _ h => (by cases h), hE' _⟩
  · rename_i eff
    cases eff
    · exact ⟨_, _, rfl, fun _ h => (by cases h), hE⟩
    · exact ⟨_, _, rfl, fun _ h => (by cases h), hE' _⟩

/-- `SaveChunk` up to the write of the progress file. -/
def savePrep (h : Sha1Hash) (n : UInt16) (data : Bytes) : CM ProgressFile := do
  let r ← IOM.orPanic (getIndexRecord h)
  r.saveChunk n.toNat data
  match r.progressFile with
  | none => IOM.lift .panic
  | some p => do
    let set ← IOM.lift (p.progress.set (BitVec.ofNat 64 n.toNat))
    let p := { p with progress := set }
    updateRecord { r with progressFile := some p }
    return p

theorem saveChunk_prep (h : Sha1Hash) (n : UInt16) (data : Bytes) (s : St) : saveChunk h n data s = (savePrep h n data >>= ProgressFile.save) s := by
  unfold saveChunk savePrep
  rw [IOM.bind_apply, IOM.bind_apply, IOM.bind_apply]
  rcases IOM.orPanic (getIndexRecord h) s with ⟨r, s1⟩
  cases r with
  | ok r =>
    simp only
    rw [IOM.bind_apply, IOM.bind_apply]
    rcases r.saveChunk n.toNat data s1 with ⟨x, s2⟩
    cases x with
    | ok _ =>
      simp only
      cases r.progressFile with
      | none => rfl
      | some p =>
        simp only
        rw [IOM.bind_apply, IOM.bind_apply, IOM.lift_apply]
        cases p.progress.set (BitVec.ofNat 64 n.toNat) with
        | ok b =>
          simp only
          rw [IOM.bind_apply, IOM.bind_apply]
          rcases updateRecord { r with progressFile := some { p with progress := b } } s2 with ⟨y, s3⟩
          cases y <;> rfl
        | err e => rfl
        | panic => rfl
        | exit => rfl
        | crash => rfl
    | err e => rfl
    | panic => rfl
    | exit => rfl
    | crash => rfl
  | err e => rfl
  | panic => rfl
  | exit => rfl
  | crash => rfl

theorem Uses.getIndexRecord {ind : IndexFile} {fs : FS} {h : Sha1Hash} {r : Record} {p : ProgressFile} (hm : mapGet ind.index h = some r) (hv : viewProgress d fs r = .ok p) (hE : E fs) :
    ∃ k, k ≤ 1 ∧ ∃ ind', Uses E (getIndexRecord h) ⟨d, dl, some ind⟩ fs k { r with progressFile := some p } ⟨d, dl, some ind'⟩ fs := by
  cases hp : r.progressFile with
  | some q =>
    unfold viewProgress at hv
    rw [hp] at hv
    cases hv
    refine ⟨0, by omega, ind, Uses.zero (fun fl => ?_)⟩
    unfold Flu.getIndexRecord
    rw [IOM.bind_apply, getIndex_eval]
    simp only [hm]
    unfold fillRecord
    simp only [hp]
    rw [← hp]
    rfl
  | none =>
    unfold viewProgress at hv
    rw [hp] at hv
    simp only at hv
    cases hx : fs (progressPath d r.sha1Hash) with
    | none => rw [hx] at hv; cases hv
    | some x =>
      rw [hx] at hv
      obtain ⟨b, hb, hv⟩ := (Res.bind_ok_iff _ _ _).1 hv
      cases hv
      let r' : Record := { r with progressFile := some { progress := b, filePath := progressPath d r.sha1Hash } }
      refine ⟨1, by omega, { ind with index := mapPut ind.index r.sha1Hash r' }, ?_⟩
      have h1 : Uses E (deserializeProgressFile r d) ⟨d, dl, some ind⟩ fs (1 + (0 + 0)) { progress := b, filePath := progressPath d r.sha1Hash } ⟨d, dl, some ind⟩ fs :=
        Uses.bind (Uses.osReadFile hx hE) (Uses.bind (Uses.zero (fun fl => by rw [IOM.lift_apply, hb])) (Uses.zero (fun _ => rfl)))
      have h2 : Uses E (fillRecord r) ⟨d, dl, some ind⟩ fs (0 + ((1 + (0 + 0)) + (0 + 0))) r' ⟨d, dl, some { ind with index := mapPut ind.index r.sha1Hash r' }⟩ fs := by
        unfold fillRecord
        simp only [hp]
        exact Uses.bind (Uses.zero (fun _ => rfl)) (Uses.bind h1 (Uses.bind (Uses.zero (fun _ => rfl)) (Uses.zero (fun _ => rfl))))
      have h3 : Uses E (Flu.getIndexRecord h) ⟨d, dl, some ind⟩ fs (0 + (0 + ((1 + (0 + 0)) + (0 + 0)))) r' ⟨d, dl, some { ind with index := mapPut ind.index r.sha1Hash r' }⟩ fs := by
        unfold Flu.getIndexRecord
        refine Uses.bind (a := ind) (Uses.zero (fun _ => getIndex_eval ..)) ?_
        simp only [hm]
        exact h2
      exact h3

/-- The parts of `SaveChunk` of a chunk of a known file: two operations of the disk, or three if the progress has to be read, and then the write of the progress. -/
theorem Uses.savePrep {ind : IndexFile} {fs : FS} {h : Sha1Hash} {r : Record} {p : ProgressFile} (n : UInt16) (data : Bytes) (hm : mapGet ind.index h = some r) (hv : viewProgress d fs r = .ok p)
    (hcs : 0 ≤ r.chunkSize) (hE : E fs) (hE' : ∀ y, E (fs.put r.filePath (some y))) :
    ∃ k, (k = 2 ∨ k = 3) ∧ ∃ ind' b, p.progress.set (BitVec.ofNat 64 n.toNat) = .ok b ∧ Uses E (savePrep h n data) ⟨d, dl, some ind⟩ fs k { p with progress := b } ⟨d, dl, some ind'⟩
      (fs.put r.filePath (some (overlay ((fs r.filePath).getD []) (n.toNat * r.chunkSize.toNat) data))) := by
  obtain ⟨k, hk, ind', h1⟩ := Uses.getIndexRecord (E := E) (dl := dl) hm hv hE
  have hn16 := n.toNat_lt
  obtain ⟨b, e1⟩ : ∃ b, p.progress.set (BitVec.ofNat 64 n.toNat) = .ok b := by
    obtain ⟨dd, e1, -⟩ := Bitset.set_eq p.progress (BitVec.ofNat 64 n.toNat) (by simp only [BitVec.toNat_ofNat]; omega)
    exact ⟨_, e1⟩
  have hmul : (n.toNat : Int) * r.chunkSize = ((n.toNat * r.chunkSize.toNat : Nat) : Int) := by
    rw [Int.natCast_mul, Int.toNat_of_nonneg hcs]
  have hput : ∀ y z, (fs.put r.filePath y).put r.filePath z = fs.put r.filePath z := by
    intro y z
    funext q
    rw [FS.put_apply, FS.put_apply, FS.put_apply]
    split <;> rfl
  have h2 : Uses E (({ r with progressFile := some p } : Record).saveChunk n.toNat data) ⟨d, dl, some ind'⟩ fs (1 + 1) () ⟨d, dl, some ind'⟩
      (fs.put r.filePath (some (overlay ((fs r.filePath).getD []) (n.toNat * r.chunkSize.toNat) data))) := by
    refine Uses.bind (Uses.osOpenCreate hE (hE' _)) ?_
    have := Uses.osWriteAt (E := E) (c := ⟨d, dl, some ind'⟩) (fs := fs.put r.filePath (some ((fs r.filePath).getD []))) (p := r.filePath) (x := data) (k := n.toNat * r.chunkSize.toNat) (hE' _)
      (fun y => by rw [hput]; exact hE' y)
    rw [hput, FS.put_same] at this
    show Uses E (Flu.osWriteAt r.filePath data ((n.toNat : Int) * r.chunkSize)) _ _ _ _ _ _
    rw [hmul]
    exact this
  refine ⟨k + ((1 + 1) + (0 + (0 + 0))), by omega, { ind' with index := mapPut ind'.index r.sha1Hash { r with progressFile := some { p with progress := b } } }, b, e1, ?_⟩
  unfold Flu.savePrep
  refine Uses.bind h1.orPanic (Uses.bind h2 ?_)
  show Uses E (IOM.lift (p.progress.set (BitVec.ofNat 64 n.toNat)) >>= _) _ _ _ _ _ _
  exact Uses.bind (Uses.zero (fun fl => by rw [IOM.lift_apply, e1])) (Uses.bind (Uses.zero (fun _ => rfl)) (Uses.zero (fun _ => rfl)))

end

section
variable {env : Env} {d dl : Path} {c : Cat} {fs : FS}

/-- The full claim: when a chunk of a known file has arrived, then whichever operation of the disk fails while it is saved, the daemon goes on, and after its end its files can be listed. -/
def C103_statement (env : Env) (d dl : Path) : Prop := ∀ c fs, CleanReach env d dl (.running c fs) → ∀ h e, observe c fs h = .ok e → ¬ CatFile d e.filePath → ∀ n queue acks B ok,
  recvLoop env.sha1 .fresh queue = .ok (acks, .finished B ok) → ∀ fl : List Fault, (∀ f ∈ fl, ∀ x, f ≠ .crash x) → ∀ r s', downloadChunk env h n queue ⟨c, fs, fl⟩ = (r, s') →
    r.returns = true ∧ Usable env d dl s'.fs

/-- What happens when a chunk has arrived and is saved.  It takes `k` operations of the disk (two, or three if the progress of the file is not in memory yet) and then the write of the progress.
If all of them work, the chunk is saved.  If one of them fails, the daemon ends.  If it is one of the first `k`, then a daemon started afterwards shows what this one showed before, and can list it.  If the write of the
progress fails after it has emptied the file or written fewer than eight bytes of it, then a daemon started afterwards ends as soon as somebody looks at the file; and never again can any daemon list
its files, or forget this one. -/
theorem C103_exact (hh : Healthy env d) (hclean : CleanReach env d dl (.running c fs)) (h : Sha1Hash) (e : Export) (ho : observe c fs h = .ok e) (hpath : ¬ CatFile d e.filePath) (n : UInt16)
    (queue : List (Option Bytes)) (acks : List UInt32) (B : Bytes) (ok : Bool) (hrecv : recvLoop env.sha1 .fresh queue = .ok (acks, .finished B ok)) :
    ∃ k, (k = 2 ∨ k = 3) ∧ ∀ fl r s', downloadChunk env h n queue ⟨c, fs, fl⟩ = (r, s') →
      ((∀ f ∈ fl.take (k + 1), f = .none) → r = .ok (.saved ok)) ∧
      ((∃ f ∈ fl.take (k + 1), f ≠ .none) → r.returns = false) ∧
      ((∃ f ∈ fl.take k, f ≠ .none) → Spec.Kept env d dl c s'.fs ∧ Usable env d dl s'.fs) ∧
      (∀ j rest, j < 8 → fl = List.replicate k .none ++ .fail (some j) :: rest →
        (∀ pid now, ∃ c', Cat.init { env with pid := pid, now := now } ⟨⟨d, dl, none⟩, s'.fs, []⟩ = (.ok (), ⟨c', s'.fs, []⟩) ∧ observe c' s'.fs h = .panic) ∧
        ∀ c' fs', Steps env d dl (.stopped s'.fs) (.running c' fs') → ∀ fl,
          (∀ order, MapOrder c' order → h ∈ order ∧ ∀ es s', listFiles order ⟨c', fs', fl⟩ ≠ (.ok es, s')) ∧ (∀ e s', contains h ⟨c', fs', fl⟩ ≠ (.ok e, s')) ∧
            ∀ s', unshareFile env h ⟨c', fs', fl⟩ ≠ (.ok (), s')) := by
  have hI : Inv env d dl c fs := hclean.reach.inv hh.abs hh.utf8
  obtain ⟨ind, rfl, hs⟩ := hclean.sync hh.abs hh.utf8
  obtain ⟨_, e1, hw⟩ := hI.split
  cases e1
  have ho' := ho
  rw [observe_eq] at ho
  unfold obsRec at ho
  rcases hm : mapGet ind.index h with _ | r0
  · rw [hm] at ho; cases ho
  rw [hm] at ho
  obtain ⟨p, hv, ho⟩ := (Res.bind_ok_iff _ _ _).1 ho
  cases ho
  replace hpath : ¬ CatFile d r0.filePath := hpath
  have hrec := hw.recs _ _ (mapGet_mem _ _ _ hm)
  obtain ⟨hpp, hpl⟩ := viewProgress_loaded hI.disk hrec hv
  rw [hw.ownGet _ _ hm] at hpp
  obtain ⟨k, hk, ind', b, -, hU⟩ := Uses.savePrep (E := fun f => f = fs ∨ ∃ y, f = fs.put r0.filePath (some y)) (dl := dl) n B hm hv hrec.cs_nonneg (.inl rfl) (fun y => .inr ⟨y, rfl⟩)
  have hkept : ∀ f, (f = fs ∨ ∃ y, f = fs.put r0.filePath (some y)) → Spec.Kept env d dl ⟨d, dl, some ind⟩ f ∧ Usable env d dl f := by
    rintro f (rfl | ⟨y, rfl⟩)
    · exact ⟨hclean.kept hh, (C31_partial hh hclean).1⟩
    · exact ⟨(CleanReach.userRunning _ _ _ _ hpath hclean).kept hh, (C31_partial hh (CleanReach.userRunning _ _ _ _ hpath hclean)).1⟩
  refine ⟨k, hk, ?_⟩
  intro fl r s' hrun
  have hsave : ∀ x s1, saveChunk h n B ⟨⟨d, dl, some ind⟩, fs, fl⟩ = (x, s1) → s' = s1 ∧ (x = .ok () → r = .ok (.saved ok)) ∧ (x ≠ .ok () → r.returns = false) := by
    intro x s1 hx
    rw [downloadChunk_eq, hrecv] at hrun
    simp only at hrun
    rw [IOM.bind_apply] at hrun
    unfold IOM.orPanic at hrun
    rw [hx] at hrun
    cases x with
    | ok _ => cases hrun; exact ⟨rfl, fun _ => rfl, fun h => absurd rfl h⟩
    | err _ => cases hrun; exact ⟨rfl, fun h => (by cases h), fun _ => rfl⟩
    | panic => cases hrun; exact ⟨rfl, fun h => (by cases h), fun _ => rfl⟩
    | exit => cases hrun; exact ⟨rfl, fun h => (by cases h), fun _ => rfl⟩
    | crash => cases hrun; exact ⟨rfl, fun h => (by cases h), fun _ => rfl⟩
  rw [saveChunk_prep, IOM.bind_apply] at hsave
  rw [List.take_add]
  by_cases hall : ∀ f ∈ fl.take k, f = .none
  · rw [(hU fl).1 hall] at hsave
    simp only at hsave
    unfold ProgressFile.save at hsave
    refine ⟨?_, ?_, fun ⟨f, h1, h2⟩ => absurd (hall f h1) h2, ?_⟩
    · intro h1
      rcases hg : fl.drop k with _ | ⟨f, g⟩
      · rw [hg] at hsave
        exact (hsave _ _ rfl).2.1 rfl
      · rw [hg] at h1 hsave
        have : f = .none := h1 f (List.mem_append_right _ (by simp))
        subst this
        exact (hsave _ _ rfl).2.1 rfl
    · rintro ⟨f, h1, h2⟩
      rcases hg : fl.drop k with _ | ⟨f', g⟩
      · rw [hg] at h1
        rcases List.mem_append.1 h1 with h1 | h1
        · exact absurd (hall f h1) h2
        · cases h1
      · rw [hg] at h1 hsave
        rcases List.mem_append.1 h1 with h1 | h1
        · exact absurd (hall f h1) h2
        · have : f = f' := by simpa using h1
          subst this
          rcases f with _ | eff | eff
          · exact absurd rfl h2
          · cases eff <;> exact (hsave _ _ rfl).2.2 (fun h => by cases h)
          · cases eff <;> exact (hsave _ _ rfl).2.2 (fun h => by cases h)
    · intro j rest hj hfl
      have hdrop : fl.drop k = .fail (some j) :: rest := by rw [hfl, List.drop_left' (List.length_replicate ..)]
      rw [hdrop] at hsave
      obtain ⟨hs', -, -⟩ := hsave _ _ rfl
      have hfs : s'.fs = (fs.put r0.filePath (some (overlay ((fs r0.filePath).getD []) (n.toNat * r0.chunkSize.toNat) B))).put (progressPath d h) (some (b.serialize.take j)) := by
        rw [hs', ← hpp]
      have hshort : (b.serialize.take j).length < 8 := by rw [List.length_take]; omega
      have hdes : Bitset.deserialize (b.serialize.take j) = .panic := by
        unfold Bitset.deserialize; rw [if_pos hshort]
      obtain ⟨ind0, g1, g2, g3⟩ := hs.index
      have hidx : s'.fs (indexPath d) = some (env.json.enc ind0.toJSON) := by
        rw [hfs, FS.put_other _ _ _ _ (indexPath_ne_progressPath d d hh.abs hh.abs _), FS.put_other _ _ _ _ (fun e => hpath (.inl e.symm))]; exact g2
      have hprog : s'.fs (progressPath d h) = some (b.serialize.take j) := by rw [hfs, FS.put_same]
      refine ⟨?_, ?_⟩
      · intro pid now
        obtain ⟨m, k1, -, k2⟩ := init_nil_old { env with pid := pid, now := now } d dl none s'.fs ind0 g1.nodup hidx
        refine ⟨_, k1, ?_⟩
        rw [observe_eq]
        unfold obsRec
        simp only
        rw [k2]
        replace g3 := g3 h
        rw [hm] at g3
        simp only [g3, Option.map_some]
        unfold viewProgress
        have : (r0.reloaded env.json.fix).progressFile = none := rfl
        have hh0 : (r0.reloaded env.json.fix).sha1Hash = h := by show r0.sha1Hash = h; exact hw.ownGet _ _ hm
        simp only [this, hh0, hprog, hdes]
        rfl
      · intro c' fs' hsteps fl'
        have hstuck : StuckDisk env d h s'.fs := by
          refine ⟨?_, _, ind0, hidx, g1, List.prefix_refl _, ?_⟩
          · intro x hx bb hbb
            rw [hprog] at hx; cases hx
            rw [hdes] at hbb; cases hbb
          · intro hx
            have := g3 h
            rw [hx, hm] at this
            cases this
        have hstop : Reach env d dl (.stopped s'.fs) := by
          have hsafe : (Op.save h n B).Safe d ⟨d, dl, some ind⟩ := by
            intro q hq
            have : q = r0.filePath := by
              have hq' : (mapGet ind.index h).map (·.filePath) = some q := hq
              rw [hm] at hq'; cases hq'; rfl
            rw [this]; exact hpath
          have h1 : saveChunk h n B ⟨⟨d, dl, some ind⟩, fs, fl⟩ = (.err .io, s') := by
            rw [saveChunk_prep, IOM.bind_apply, (hU fl).1 hall, hs']
            simp only
            rw [hdrop]; rfl
          obtain ⟨fs0, q1, q2⟩ := hclean.reach.returns (.save h n B) hsafe fl s' (.inr ⟨_, h1⟩)
          exact ⟨fs0, q1, q2.step (Step.kill _ _)⟩
        obtain ⟨q1, q2, q3, -⟩ := C31_forever hh hstop hstuck hsteps fl'
        exact ⟨q1, q2, q3⟩
  · have hbad : ∃ f ∈ fl.take k, f ≠ .none := by
      apply Classical.byContradiction
      intro hno
      exact hall (fun f hf => Classical.byContradiction (fun hn => hno ⟨f, hf, hn⟩))
    obtain ⟨x, s1, h1, h2, h3⟩ := (hU fl).2 hbad
    rw [h1] at hsave
    have hx : s' = s1 ∧ r.returns = false := by
      cases x with
      | ok a => exact absurd rfl (h2 a)
      | err _ => obtain ⟨q1, -, q2⟩ := hsave _ _ rfl; exact ⟨q1, q2 (fun h => by cases h)⟩
      | panic => obtain ⟨q1, -, q2⟩ := hsave _ _ rfl; exact ⟨q1, q2 (fun h => by cases h)⟩
      | exit => obtain ⟨q1, -, q2⟩ := hsave _ _ rfl; exact ⟨q1, q2 (fun h => by cases h)⟩
      | crash => obtain ⟨q1, -, q2⟩ := hsave _ _ rfl; exact ⟨q1, q2 (fun h => by cases h)⟩
    obtain ⟨rfl, hr⟩ := hx
    refine ⟨?_, fun _ => hr, fun _ => hkept _ h3, ?_⟩
    · intro q
      exact absurd (fun f hf => q f (List.mem_append_left _ hf)) hall
    · intro j rest hj hfl
      exfalso
      apply hall
      intro f hf
      rw [hfl, List.take_left' (List.length_replicate ..)] at hf
      exact List.eq_of_mem_replicate hf

/-- What of C103 is true: as long as the write of the progress itself does not fail, the files can be listed after the end of the daemon, and the daemon goes on if no operation before that failed.
Missing from the full statement: that the daemon goes on if one failed, and everything if the write of the progress fails. -/
theorem C103_partial (hh : Healthy env d) (hclean : CleanReach env d dl (.running c fs)) (h : Sha1Hash) (e : Export) (ho : observe c fs h = .ok e) (hpath : ¬ CatFile d e.filePath) (n : UInt16)
    (queue : List (Option Bytes)) (acks : List UInt32) (B : Bytes) (ok : Bool) (hrecv : recvLoop env.sha1 .fresh queue = .ok (acks, .finished B ok)) :
    ∃ k, (k = 2 ∨ k = 3) ∧ ∀ fl r s', downloadChunk env h n queue ⟨c, fs, fl⟩ = (r, s') → (∀ f ∈ (fl.drop k).take 1, f = .none) →
      ((∀ f ∈ fl.take k, f = .none) → r.returns = true) ∧ Usable env d dl s'.fs := by
  obtain ⟨k, hk, hall⟩ := C103_exact hh hclean h e ho hpath n queue acks B ok hrecv
  refine ⟨k, hk, fun fl r s' hrun hlast => ?_⟩
  obtain ⟨h1, -, h3, -⟩ := hall fl r s' hrun
  have hok : (∀ f ∈ fl.take k, f = .none) → r = .ok (.saved ok) := by
    intro h
    apply h1
    rw [List.take_add]
    intro f hf
    rcases List.mem_append.1 hf with hf | hf
    · exact h f hf
    · exact hlast f hf
  refine ⟨fun h => by rw [hok h]; rfl, ?_⟩
  by_cases hx : ∀ f ∈ fl.take k, f = .none
  · have hr := hok hx
    subst hr
    obtain ⟨acks', b, k1, k2⟩ := downloadChunk_saved env h n queue _ _ _ hrun
    have hsafe : (Op.save h n b).Safe d c := by
      intro q hq
      rw [observe_path hh hclean.reach h e ho] at hq
      cases hq; exact hpath
    exact (C31_partial hh (C102_partial hh hclean (.save h n b) trivial hsafe fl s' k2).2.1).1
  · refine (h3 ?_).2
    apply Classical.byContradiction
    intro hno
    exact hx (fun f hf => Classical.byContradiction (fun hn => hno ⟨f, hf, hn⟩))

/-- The state of `ex_download` when its download has been registered: everything that the theorems about C103 suppose. -/
theorem ex_arrived (sha1 : Bytes → Sha1Hash) (json : JsonCodec) (h : Sha1Hash) : ∃ c fs e queue acks, CleanReach (exEnv sha1 json) exDir exDown (.running c fs) ∧ observe c fs h = .ok e ∧
    ¬ CatFile exDir e.filePath ∧ recvLoop (exEnv sha1 json).sha1 .fresh queue = .ok (acks, .finished [50] true) := by
  obtain ⟨c, fs, e, s1, s2, s3, h0, h1, -⟩ := ex_download sha1 json h
  obtain ⟨g1, g2, -⟩ := C33_start (ex_healthy sha1 json) h0.reach [10, 20, 30, 40, 50] 2 h [120] [] e s1 (by decide) (by decide) ex_not_catFile2 h1
  obtain ⟨queue, acks, hq⟩ := deliverable sha1 [50] (by decide)
  have hreach1 := CleanReach.call (.register 5 2 h [120]) _ _ (.ok ()) s1 h0 trivial (CM.void_ok _ _ _ _ h1) rfl
  exact ⟨s1.cat, s1.fs, e, queue, acks, hreach1, g2, by rw [g1]; exact ex_not_catFile2, hq⟩

/-- C103 is false: an operation of the disk that fails while a chunk is saved ends the daemon. -/
theorem C103_refuted (sha1 : Bytes → Sha1Hash) (json : JsonCodec) : ¬ C103_statement (exEnv sha1 json) exDir exDown := by
  intro hall
  obtain ⟨c, fs, e, queue, acks, h1, h2, h3, h4⟩ := ex_arrived sha1 json Sha1Hash.zero
  obtain ⟨k, hk, hx⟩ := C103_exact (ex_healthy sha1 json) h1 _ e h2 h3 2 queue acks [50] true h4
  have hr := (hall c fs h1 _ e h2 h3 2 queue acks [50] true h4 [.fail none] (fun f hf x => by rw [List.mem_singleton.1 hf]; exact fun h => by cases h) _ _ rfl).1
  rw [(hx [.fail none] _ _ rfl).2.1 ⟨.fail none, by rcases hk with rfl | rfl <;> simp, fun h => by cases h⟩] at hr
  cases hr

/-! ### Examples -/

/-- `C103_exact`, `C103_partial`: the disk is full when the progress is written. -/
example (sha1 : Bytes → Sha1Hash) (json : JsonCodec) (h : Sha1Hash) : ∃ c fs e queue acks k r s', CleanReach (exEnv sha1 json) exDir exDown (.running c fs) ∧ observe c fs h = .ok e ∧
    ¬ CatFile exDir e.filePath ∧ recvLoop (exEnv sha1 json).sha1 .fresh queue = .ok (acks, .finished [50] true) ∧
    downloadChunk (exEnv sha1 json) h 2 queue ⟨c, fs, List.replicate k .none ++ [.fail (some 0)]⟩ = (r, s') ∧ r.returns = false := by
  obtain ⟨c, fs, e, queue, acks, h1, h2, h3, h4⟩ := ex_arrived sha1 json h
  obtain ⟨k, hk, hx⟩ := C103_exact (ex_healthy sha1 json) h1 _ e h2 h3 2 queue acks [50] true h4
  refine ⟨c, fs, e, queue, acks, k, _, _, h1, h2, h3, h4, rfl, (hx _ _ _ rfl).2.1 ⟨.fail (some 0), ?_, fun h => by cases h⟩⟩
  rcases hk with rfl | rfl <;> simp [List.replicate]

end

end Flu
