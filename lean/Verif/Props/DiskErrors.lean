import Verif.Lemmas.CatCalm
import Verif.Props.Works
/-!
# Operations of the disk that fail (C113)

A call that reports success although operations of the disk may have failed has done and answered what it does on a disk without failures; and a failing disk
makes a call answer with an error, it does not stop the program, except the four calls that have no error to answer with or do not use it when they look the
file up.
-/
namespace Flu
open Spec

/-- Failures of the disk go unnoticed by nobody: if the call succeeds, then without the failures it also succeeds, with the same answer, the same memory and the same files. -/
def Spec.Unharmed {α : Type} (x : CM α) : Prop :=
  ∀ c fs fl a s', x ⟨c, fs, fl⟩ = (.ok a, s') → x ⟨c, fs, []⟩ = (.ok a, ⟨s'.cat, s'.fs, []⟩)

/-- Operations of the disk may fail, in any number and with any part of their effect, but nobody kills the program. -/
def Spec.OnlyFailures (fl : List Fault) : Prop := ∀ f ∈ fl, f = .none ∨ ∃ eff, f = .fail eff

theorem Spec.OnlyFailures.noKill {fl : List Fault} (h : OnlyFailures fl) : NoKill fl := by
  intro f hf e he
  rcases h f hf with h1 | ⟨_, h1⟩ <;> rw [h1] at he <;> cases he

theorem OkClean.unharmed {α : Type} {x : CM α} (h : OkClean x) : Unharmed x := fun c fs fl a s' hrun => h ⟨c, fs, fl⟩ a s' hrun

/-- A call that succeeds has met no failure that mattered. -/
theorem C113_success (env : Env) (path : GoString) (h : Sha1Hash) (order : List Sha1Hash) (n : UInt16) (data : Bytes) (k : Nat) (ch : List AtChoice) :
    Unharmed (Cat.init env) ∧ Unharmed (shareFile env path) ∧ Unharmed (unshareFile env h) ∧ Unharmed (listFiles order) ∧ Unharmed (rehash env h) ∧
    Unharmed (contains h) ∧ Unharmed (catGet h) ∧ Unharmed (fileComplete h) ∧ Unharmed (missingChunks h) ∧ Unharmed (saveChunk h n data) ∧
    Unharmed (getChunkReader env h k ch) := by
  refine ⟨(OkClean.init env).unharmed, (OkClean.shareFile env path).unharmed, (OkClean.unshareFile env h).unharmed, (OkClean.listFiles order).unharmed,
    (OkClean.rehash env h).unharmed, (OkClean.contains h).unharmed, (OkClean.orPanic (OkClean.contains h)).unharmed, ?_, ?_,
    (OkClean.saveChunk h n data).unharmed, (OkClean.getChunkReader env h k ch).unharmed⟩
  · refine (OkClean.bind (OkClean.orPanic (OkClean.getIndexRecord h)) ?_).unharmed
    intro r; split <;> exact OkClean.lift _
  · refine (OkClean.bind (OkClean.orPanic (OkClean.getIndexRecord h)) ?_).unharmed
    intro r; split <;> exact OkClean.lift _

/-- The part of `RegisterDownload` before the progress is written. -/
def registerFront (env : Env) (size : UInt64) (cs : UInt32) (h : Sha1Hash) (name : GoString) : CM (Record × ProgressFile) := do
  let cat := (← getCat)
  let record : Record :=
    { filePath := joinPath [cat.downloadsDir, name], sizeInBytes := asInt64 size, sha1Hash := h, progressFile := none, chunkSize := cs.toNat }
  addIndexRecord env record
  let p ← IOM.lift (newProgressFile record (← getCat).dataDir)
  updateRecord { record with progressFile := some p }
  return (record, p)

theorem iom_bind_assoc {σ α β γ : Type} (x : IOM σ α) (f : α → IOM σ β) (g : β → IOM σ γ) : (x >>= f) >>= g = x >>= fun a => f a >>= g := by
  funext s
  simp only [IOM.bind_apply]
  cases e : x s with
  | mk r s' => cases r <;> rfl

theorem iom_pure_bind {σ α β : Type} (a : α) (f : α → IOM σ β) : (pure a : IOM σ α) >>= f = f a := rfl

theorem register_front (env : Env) (size : UInt64) (cs : UInt32) (h : Sha1Hash) (name : GoString) :
    registerDownload env size cs h name = (registerFront env size cs h name >>= fun rp => do
      IOM.ignoreErr rp.2.save
      IOM.lift ({ rp.1 with progressFile := some rp.2 } : Record).export) := by
  unfold registerDownload registerFront
  simp only [iom_bind_assoc, iom_pure_bind]

theorem OkClean.registerFront (env : Env) (size : UInt64) (cs : UInt32) (h : Sha1Hash) (name : GoString) : OkClean (registerFront env size cs h name) :=
  OkClean.bind OkClean.getCat (fun _ => OkClean.bind (OkClean.addIndexRecord env _) (fun _ => OkClean.bind OkClean.getCat (fun _ =>
    OkClean.bind (OkClean.lift _) (fun _ => OkClean.bind (OkClean.updateRecord _) (fun _ => OkClean.pure _)))))

/-- The data directory stays. -/
def DirIs (D : Path) : Assn := fun c _ => c.dataDir = D

theorem dir_addIndexRecord (D : Path) (env : Env) (r : Record) : Triple (DirIs D) (addIndexRecord env r) (fun _ => DirIs D) AnyA := by
  refine Triple.bind (Triple.getIndex (fun _ _ _ => trivial)) ?_
  intro ind; split
  · exact Triple.lift _ (fun a e => by cases e) (fun _ _ _ => trivial)
  · refine Triple.bind (Q := fun _ => DirIs D) (Triple.setIndex _ (fun _ _ h => h.1)) (fun _ => ?_)
    refine Triple.bind (Triple.getIndex (fun _ _ _ => trivial)) (fun _ => ?_)
    exact Triple.osWriteFile _ _ (fun _ _ h => h.1) (fun _ _ _ => trivial) (fun _ _ _ _ => trivial)

theorem front_path (D : Path) (env : Env) (size : UInt64) (cs : UInt32) (h : Sha1Hash) (name : GoString) :
    Triple (DirIs D) (registerFront env size cs h name) (fun rp _ _ => rp.2.filePath = progressPath D h) AnyA := by
  refine Triple.bind (Q := fun _ => DirIs D) (Triple.getCat.post (fun _ _ _ h => h.1)) (fun cat => ?_)
  refine Triple.bind (dir_addIndexRecord D env _) (fun _ => ?_)
  refine Triple.bind Triple.getCat (fun cat2 => ?_)
  refine Triple.bind (Q := fun p _ _ => p.filePath = progressPath D h) (Triple.lift _ ?_ (fun _ _ _ => trivial)) (fun p => ?_)
  · rintro p hp c fs ⟨h1, rfl⟩
    unfold newProgressFile at hp
    obtain ⟨_, _, hp⟩ := (Res.bind_ok_iff _ _ _).1 hp
    obtain ⟨_, _, hp⟩ := (Res.bind_ok_iff _ _ _).1 hp
    cases hp
    show progressPath cat2.dataDir h = _
    rw [h1]
  · refine Triple.bind (Q := fun _ _ _ => p.filePath = progressPath D h) ?_ (fun _ => Triple.pure _ (fun _ _ h => h))
    exact Triple.bind (Q := fun _ _ _ => p.filePath = progressPath D h) ((Triple.getIndex (fun _ _ _ => trivial)).post (fun _ _ _ h => h.1)) (fun _ => Triple.setIndex _ (fun _ _ h => h))

theorem ignoreErr_save (p : ProgressFile) (s s' : St) (hr : IOM.ignoreErr p.save s = (.ok (), s')) :
    s'.cat = s.cat ∧ (∀ q, q ≠ p.filePath → s'.fs q = s.fs q) ∧ ∀ c fs, IOM.ignoreErr p.save ⟨c, fs, []⟩ = (.ok (), ⟨c, fs.put p.filePath (some p.progress.serialize), []⟩) := by
  refine ⟨?_, ?_, fun _ _ => rfl⟩ <;> obtain ⟨c, fs, fl⟩ := s <;> cases fl with
  | nil => cases hr; first | rfl | exact fun q hq => if_neg hq
  | cons f fl =>
    cases f with
    | none => cases hr; first | rfl | exact fun q hq => if_neg hq
    | fail e => cases e <;> (cases hr; first | rfl | exact fun _ _ => rfl | exact fun q hq => if_neg hq)
    | crash e => cases e <;> cases hr

/-- `RegisterDownload` drops the error of writing the progress, and nothing else: when it succeeds, it also succeeds without the failures, with the same
answer, the same memory and the same files except the one that holds the progress. -/
theorem C113_register (env : Env) (size : UInt64) (cs : UInt32) (h : Sha1Hash) (name : GoString) (c : Cat) (fs : FS) (fl : List Fault) (e : Export) (s' : St)
    (hrun : registerDownload env size cs h name ⟨c, fs, fl⟩ = (.ok e, s')) :
    ∃ s'', registerDownload env size cs h name ⟨c, fs, []⟩ = (.ok e, s'') ∧ s''.cat = s'.cat ∧ ∀ p, p ≠ progressPath c.dataDir h → s''.fs p = s'.fs p := by
  rw [register_front] at hrun ⊢
  obtain ⟨rp, s1, h1, h2⟩ := (IOM.bind_ok_iff _ _ _ _ _).1 hrun
  obtain ⟨u, s2, h3, h4⟩ := (IOM.bind_ok_iff _ _ _ _ _).1 h2
  have hp := (front_path c.dataDir env size cs h name ⟨c, fs, fl⟩ rfl).1 _ _ h1
  have hc := OkClean.registerFront env size cs h name _ _ _ h1
  obtain ⟨g1, g2, g3⟩ := ignoreErr_save _ _ _ h3
  refine ⟨⟨s1.cat, s1.fs.put rp.2.filePath (some rp.2.progress.serialize), []⟩, ?_, ?_, ?_⟩
  · refine (IOM.bind_ok_iff _ _ _ _ _).2 ⟨rp, _, hc, (IOM.bind_ok_iff _ _ _ _ _).2 ⟨(), _, g3 _ _, ?_⟩⟩
    cases h4; rfl
  · cases h4; exact g1.symm
  · intro p hne
    cases h4
    rw [g2 p (by rw [hp]; exact hne)]
    exact if_neg (by rw [hp]; exact hne)

/-! ### No call stops the program, except four -/

section
variable {env : Env} {d dl : Path} {c : Cat} {fs : FS}

theorem Steady.op {α : Type} {P : Assn} {x : CM α} (h : Steady P x) : Steady P (CM.void x) := Steady.seq h (fun _ => Steady.pure _)

theorem Steady.newProgress {P : Assn} (r : Record) (D : Path) (n cs : Nat) (h1 : r.sizeInBytes = n) (h2 : r.chunkSize = cs) (hn : n < 2 ^ 63) (hcs : 0 < cs) :
    Steady P (IOM.lift (newProgressFile r D) : CM ProgressFile) := by
  obtain ⟨p, hp⟩ := newProgressFile_total r D n cs h1 h2 hn hcs
  exact Steady.lift _ (by rw [hp]; rfl)

theorem newProgressFile_wf (r : Record) (D : Path) (n cs : Nat) (h1 : r.sizeInBytes = n) (h2 : r.chunkSize = cs) (hn : n < 2 ^ 63) (hcs : 0 < cs) (p : ProgressFile)
    (hp : newProgressFile r D = .ok p) : p.progress.Wf := by
  unfold newProgressFile at hp
  rw [h1, h2, C25_count n cs hcs, Res.bind_ok] at hp
  obtain ⟨b, hb, hb2⟩ := (Res.bind_ok_iff _ _ _).1 hp
  cases hb2
  obtain ⟨b', hb', h⟩ := Bitset.newBitset_spec ((n + cs - 1) / cs) (by
    have : (n + cs - 1) / cs ≤ n := by
      rcases Nat.eq_zero_or_pos n with h0 | h0
      · subst h0; rw [Nat.div_eq_of_lt (by omega)]; omega
      · rw [Nat.div_le_iff_le_mul hcs]
        have : n * 1 ≤ n * cs := Nat.mul_le_mul_left n hcs
        have : cs ≤ n * cs := Nat.le_mul_of_pos_left cs h0
        omega
    omega)
  rw [hb'] at hb
  cases hb
  exact h.2.1


/-- A record whose progress can be made, and an index. -/
def Fits (r : Record) : Assn := fun c fs => HasIdx c fs ∧ ∃ n : Nat, n < 2 ^ 63 ∧ r.sizeInBytes = n ∧ r.chunkSize = (4194304 : Nat)

theorem Steady.share (env : Env) (path : GoString) (fs0 : FS) (hsz : ∀ content, fs0 (absPath env.cwd path) = some content → content.length < 2 ^ 63) :
    Steady (fun c fs => HasIdx c fs ∧ fs = fs0) (shareFile env path) := by
  refine Steady.bind (Q := fun r => Fits r) (E := AnyA) ?_ ?_ ?_
  · refine Steady.seq (Steady.osStat _) (fun o => ?_)
    cases o with
    | none => exact Steady.lift _ rfl
    | some n => exact Steady.seq (Steady.osHashFile env _) (fun _ => Steady.pure _)
  · refine Triple.bind (Triple.osStat _ (fun _ _ _ => trivial)) (fun o => ?_)
    cases o with
    | none => exact Triple.lift _ (fun a e => by cases e) (fun _ _ _ => trivial)
    | some n =>
      refine Triple.bind (Triple.osHashFile env _ (fun _ _ _ => trivial)) (fun hash => Triple.pure _ ?_)
      rintro c fs ⟨⟨⟨h1, rfl⟩, h3⟩, -⟩
      cases e : fs (absPath env.cwd path) with
      | none => rw [e] at h3; cases h3
      | some content =>
        rw [e] at h3
        cases h3
        exact ⟨h1, content.length, hsz content e, asInt64_ofNat _ (hsz content e), rfl⟩
  · intro r
    refine Steady.bind (Q := fun _ => Fits r) (E := AnyA)
      (Steady.addIndexRecord env r (fun _ _ h => h.1)) ?_ ?_
    · intro s hs
      obtain ⟨h1, h2⟩ := keepIdx_addIndexRecord env r s hs.1
      exact ⟨fun a s' e => ⟨h1 a s' e, hs.2⟩, h2⟩
    · intro _
      refine Steady.bind (Q := fun _ => Fits r) (E := AnyA) Steady.getCat
        (Triple.getCat.post (fun _ _ _ h => h.1)) (fun cat => ?_)
      refine Steady.bind (Q := fun p c fs => HasIdx c fs ∧ p.progress.Wf) (E := AnyA) ?_ ?_ ?_
      · refine Steady.liftP _ ?_
        rintro c fs ⟨-, n, hn, e1, e2⟩
        obtain ⟨p, hp⟩ := newProgressFile_total r cat.dataDir n 4194304 e1 e2 hn (by decide)
        rw [hp]; rfl
      · refine Triple.lift _ ?_ (fun _ _ _ => trivial)
        rintro p hp c fs ⟨h1, n, hn, e1, e2⟩
        exact ⟨h1, newProgressFile_wf r cat.dataDir n 4194304 e1 e2 hn (by decide) p hp⟩
      · intro p
        refine Steady.bind (Q := fun _ c fs => HasIdx c fs ∧ p.progress.Wf) (E := AnyA) (Steady.updateRecord _ (fun _ _ h => h.1)) ?_ (fun _ => ?_)
        · intro s hs
          obtain ⟨h1, h2⟩ := keepIdx_updateRecord { r with progressFile := some p } s hs.1
          exact ⟨fun a s' e => ⟨h1 a s' e, hs.2⟩, h2⟩
        · refine Steady.bind (Q := fun _ => HasIdx) (E := AnyA) (Steady.liftP _ ?_) (Triple.lift _ (fun _ _ _ _ h => h.1) (fun _ _ _ => trivial)) (fun b => ?_)
          · rintro c fs ⟨-, hw⟩
            obtain ⟨dd, hd, -⟩ := Bitset.fill_eq _ hw
            rw [hd]; rfl
          · exact Steady.seq (Steady.updateRecord _ (fun _ _ h => h)) (fun _ => Steady.seq (Steady.osWriteFile _ _) (fun _ => Steady.pure _))

theorem Steady.ignoreErr {P : Assn} {x : CM Unit} (h : Steady P x) : Steady P (IOM.ignoreErr x) := by
  intro s h1 h2
  obtain ⟨h3, h4⟩ := h s h1 h2
  unfold IOM.ignoreErr
  cases e : x s with
  | mk r s' =>
    rw [e] at h3 h4
    cases r with
    | ok a => exact ⟨rfl, h4⟩
    | err _ => exact ⟨rfl, h4⟩
    | panic => cases h3
    | exit => cases h3
    | crash => cases h3

theorem Steady.register (env : Env) (size : UInt64) (cs : UInt32) (h : Sha1Hash) (name : GoString) (hsz : size.toNat < 2 ^ 63) (hcs : 0 < cs.toNat) :
    Steady HasIdx (registerDownload env size cs h name) := by
  have e : asInt64 size = (size.toNat : Int) := by
    have := asInt64_ofNat size.toNat hsz
    rwa [UInt64.ofNat_toNat] at this
  refine Steady.bind (Q := fun _ => HasIdx) (E := AnyA) Steady.getCat (Triple.getCat.post (fun _ _ _ h => h.1)) (fun cat => ?_)
  refine Steady.bind (Steady.addIndexRecord env _ (fun _ _ h => h)) (keepIdx_addIndexRecord env _) (fun _ => ?_)
  refine Steady.bind (Q := fun _ => HasIdx) (E := AnyA) Steady.getCat (Triple.getCat.post (fun _ _ _ h => h.1)) (fun cat2 => ?_)
  refine Steady.bind (Q := fun _ => HasIdx) (E := AnyA) (Steady.newProgress _ _ size.toNat cs.toNat e rfl hsz hcs) (Triple.lift _ (fun _ _ _ _ h => h) (fun _ _ _ => trivial)) (fun p => ?_)
  exact Steady.seq (Steady.updateRecord _ (fun _ _ h => h)) (fun _ => Steady.seq (Steady.ignoreErr (Steady.osWriteFile _ _)) (fun _ => Steady.lift _ rfl))

variable {ind : IndexFile} {fs0 : FS}

theorem Steady.unshare (hv : Viewable d ind fs0) (ho : Own ind.index) (env : Env) (h : Sha1Hash) : Steady (RO d dl ind fs0) (unshareFile env h) := by
  refine Steady.bind (Steady.getIndexRecord hv h) (ro_getIndexRecord ho h) (fun r => ?_)
  split
  · rename_i hn
    refine Steady.liftP _ ?_
    rintro c fs ⟨-, r0, p, -, -, rfl⟩
    cases hn
  · refine Steady.bind (Q := fun _ => HasIdx) (E := AnyA) (Steady.osRemove _)
      (Triple.osRemove _ (fun c fs _ h _ => h.1.hasIdx) (fun _ _ _ => trivial) (fun _ _ _ => trivial)) (fun _ => Steady.removeIndexRecord env _ (fun _ _ h => h))

theorem Steady.containsCall (hv : Viewable d ind fs0) (ho : Own ind.index) (h : Sha1Hash) : Steady (RO d dl ind fs0) (contains h) := by
  refine Steady.bind (Steady.getIndexRecord hv h) (ro_getIndexRecord ho h) (fun r => Steady.liftP _ ?_)
  rintro c fs ⟨-, r0, p, -, -, rfl⟩
  rfl

theorem Steady.reader (hv : Viewable d ind fs0) (ho : Own ind.index) (env : Env) (h : Sha1Hash) (n : Nat) (hn : n < 2 ^ 63) (ch : List AtChoice) :
    Steady (RO d dl ind fs0) (getChunkReader env h n ch) := by
  refine Steady.bind (Steady.getIndexRecord hv h) (ro_getIndexRecord ho h) (fun r => ?_)
  split
  · rename_i hn
    refine Steady.liftP _ ?_
    rintro c fs ⟨-, r0, p, -, -, rfl⟩
    cases hn
  · rename_i p hp
    refine Steady.seq (Steady.lift _ ?_) (fun b => ?_)
    · rw [Bitset.get_eq _ _ (by rw [BitVec.toNat_ofNat]; omega)]; rfl
    · split
      · exact Steady.lift _ rfl
      · refine Steady.seq Steady.osTouch (fun _ => Steady.seq Steady.getFS (fun fs1 => ?_))
        split
        · exact Steady.lift _ rfl
        · exact Steady.pure _

theorem Viewable.of_sync {fs : FS} (hs : Sync env d ind fs) : Viewable d ind fs := by
  intro h r hr
  obtain ⟨p, h1, -, h3⟩ := hs.prog h r hr
  exact ⟨p, h1, h3⟩

/-- Sizes fit 63 bits and a download has chunks of at least one byte. -/
def Spec.Modest (env : Env) (fs : FS) : Op → Prop
  | .share path => ∀ content, fs (absPath env.cwd path) = some content → content.length < 2 ^ 63
  | .register size cs _ _ => size.toNat < 2 ^ 63 ∧ 0 < cs.toNat
  | .reader _ n _ => n < 2 ^ 63
  | _ => True

/-- The calls that answer with an error when the disk fails. -/
def Spec.Reports : Op → Bool
  | .get _ | .complete _ | .missing _ | .save .. => false
  | _ => true

/-- A failing disk makes these calls answer with an error at worst. -/
theorem C113_returns (hh : Healthy env d) (hr : CleanReach env d dl (.running c fs)) (fl : List Fault) (hfl : OnlyFailures fl) (o : Op) (ho : Reports o = true)
    (hm : Modest env fs o) : (o.run env ⟨c, fs, fl⟩).1.returns = true := by
  obtain ⟨ind, rfl, hs⟩ := hr.sync hh.abs hh.utf8
  obtain ⟨ind', he, hw⟩ := Inv.split (hr.reach.inv hh.abs hh.utf8 : Inv _ _ _ _ fs)
  cases he
  have hv := Viewable.of_sync hs
  have hown := hw.ownGet
  have hro : RO d dl ind fs ⟨d, dl, some ind⟩ fs := RO.init _ _ _ _
  cases o with
  | share path => exact ((Steady.share env path fs hm).op _ ⟨⟨_, rfl⟩, rfl⟩ hfl.noKill).1
  | unshare h => exact (Steady.unshare hv hown env h ⟨⟨d, dl, some ind⟩, fs, fl⟩ hro hfl.noKill).1
  | register size cs h name => exact ((Steady.register env size cs h name hm.1 hm.2).op _ ⟨_, rfl⟩ hfl.noKill).1
  | list order => exact ((Steady.bind (Steady.getIndex (fun _ _ h => h.hasIdx)) (Triple.getIndex (E := AnyA) (fun _ _ _ => trivial))
      (fun _ => (Steady.listLoop hv hown order).pre (fun _ _ h => h.1))).op ⟨⟨d, dl, some ind⟩, fs, fl⟩ hro hfl.noKill).1
  | rehash h => exact ((Steady.seq (Steady.getIndexRecord hv h) (fun _ => Steady.osHashFile env _)).op ⟨⟨d, dl, some ind⟩, fs, fl⟩ hro hfl.noKill).1
  | contains h => exact ((Steady.containsCall hv hown h).op ⟨⟨d, dl, some ind⟩, fs, fl⟩ hro hfl.noKill).1
  | reader h n ch => exact ((Steady.reader hv hown env h n hm ch).op ⟨⟨d, dl, some ind⟩, fs, fl⟩ hro hfl.noKill).1
  | get h => cases ho
  | complete h => cases ho
  | missing h => cases ho
  | save h n data => cases ho

/-- `Init` never stops the program, whatever files it finds. -/
theorem C113_start (env : Env) (c : Cat) (fs : FS) (fl : List Fault) (hfl : OnlyFailures fl) : (Cat.init env ⟨c, fs, fl⟩).1.returns = true :=
  (Steady.init (P := AnyA) env ⟨c, fs, fl⟩ trivial hfl.noKill).1

theorem look_then {α : Type} (hv : Viewable d ind fs0) (ho : Own ind.index) (h : Sha1Hash) (f : Record → CM α)
    (hf : ∀ r, Steady (fun c fs => RO d dl ind fs0 c fs ∧ Found d ind fs0 h r) (f r)) (s : St) (hs : RO d dl ind fs0 s.cat s.fs) (hk : NoKill s.faults) :
    ((IOM.orPanic (getIndexRecord h) >>= f) s).1.returns = true ↔ ∃ e s', contains h s = (.ok e, s') := by
  obtain ⟨h1, h2⟩ := Steady.getIndexRecord hv h s hs hk
  obtain ⟨h3, -⟩ := ro_getIndexRecord ho h s hs
  unfold contains
  rw [IOM.bind_apply, IOM.bind_apply]
  unfold IOM.orPanic
  cases e : getIndexRecord h s with
  | mk r s' =>
    rw [e] at h1 h2
    cases r with
    | ok r =>
      have h4 := h3 r s' e
      refine ⟨fun _ => ?_, fun _ => (hf r s' h4 h2).1⟩
      obtain ⟨-, r0, p, -, -, rfl⟩ := h4
      exact ⟨_, _, rfl⟩
    | err _ => exact ⟨fun h => (by cases h), fun ⟨_, _, h⟩ => (by cases h)⟩
    | panic => cases h1
    | exit => cases h1
    | crash => cases h1

/-- `Get`, `FileComplete`, `MissingChunks` and `SaveChunk` stop the program exactly when the file they are about cannot be looked up: when `Contains`, met by
the same failures, would not find it. -/
theorem C113_stops (hh : Healthy env d) (hr : CleanReach env d dl (.running c fs)) (fl : List Fault) (hfl : OnlyFailures fl) (h : Sha1Hash) (o : Op)
    (ho : o = .get h ∨ o = .complete h ∨ o = .missing h ∨ ∃ n data, o = .save h n data) :
    (o.run env ⟨c, fs, fl⟩).1.returns = true ↔ ∃ e s', contains h ⟨c, fs, fl⟩ = (.ok e, s') := by
  obtain ⟨ind, rfl, hs⟩ := hr.sync hh.abs hh.utf8
  obtain ⟨ind', he, hw⟩ := Inv.split (hr.reach.inv hh.abs hh.utf8 : Inv _ _ _ _ fs)
  cases he
  have hv := Viewable.of_sync hs
  have hown := hw.ownGet
  have hro : RO d dl ind fs ⟨d, dl, some ind⟩ fs := RO.init _ _ _ _
  have hvoid : ∀ {α : Type} (x : CM α) (s : St), (CM.void x s).1.returns = (x s).1.returns := by
    intro α x s
    unfold CM.void
    rw [IOM.bind_apply]
    cases e : x s with
    | mk r s' => cases r <;> rfl
  rcases ho with rfl | rfl | rfl | ⟨n, data, rfl⟩
  · show (CM.void (catGet h) _).1.returns = true ↔ _
    rw [hvoid]
    obtain ⟨h1, -⟩ := Steady.containsCall hv hown h ⟨⟨d, dl, some ind⟩, fs, fl⟩ hro hfl.noKill
    unfold catGet IOM.orPanic
    cases e : contains h ⟨⟨d, dl, some ind⟩, fs, fl⟩ with
    | mk r s' =>
      rw [e] at h1
      cases r with
      | ok r => exact ⟨fun _ => ⟨_, _, rfl⟩, fun _ => rfl⟩
      | err _ => exact ⟨fun h => (by cases h), fun ⟨_, _, h⟩ => (by cases h)⟩
      | panic => cases h1
      | exit => cases h1
      | crash => cases h1
  · show (CM.void (fileComplete h) _).1.returns = true ↔ _
    rw [hvoid]
    refine look_then hv hown h _ (fun r => ?_) ⟨⟨d, dl, some ind⟩, fs, fl⟩ hro hfl.noKill
    split <;> rename_i hq <;> refine Steady.liftP _ ?_ <;> rintro c fs ⟨-, r0, p, h1, h2, rfl⟩ <;> cases hq
    obtain ⟨p', h3, h4⟩ := hv h r0 h1
    rw [h2] at h3
    cases h3
    rw [Bitset.full_eq _ h4]; rfl
  · show (CM.void (missingChunks h) _).1.returns = true ↔ _
    rw [hvoid]
    refine look_then hv hown h _ (fun r => ?_) ⟨⟨d, dl, some ind⟩, fs, fl⟩ hro hfl.noKill
    split <;> rename_i hq <;> refine Steady.liftP _ ?_ <;> rintro c fs ⟨-, r0, p, h1, h2, rfl⟩ <;> cases hq
    obtain ⟨p', h3, h4⟩ := hv h r0 h1
    rw [h2] at h3
    cases h3
    obtain ⟨rs, h5, -⟩ := Bitset.unfilledRanges_eq _ h4.size_nonneg h4.size_lt
    rw [h5]; rfl
  · show (saveChunk h n data _).1.returns = true ↔ _
    refine look_then hv hown h _ (fun r => ?_) ⟨⟨d, dl, some ind⟩, fs, fl⟩ hro hfl.noKill
    refine Steady.bind (Q := fun _ c fs' => HasIdx c fs' ∧ Found d ind fs h r) (E := AnyA) (Steady.seq (Steady.osOpenCreate _) (fun _ => Steady.osWriteAt _ _ _)) ?_ (fun _ => ?_)
    · refine Triple.bind (Q := fun _ c fs' => HasIdx c fs' ∧ Found d ind fs h r) (Triple.osOpenCreate _ (fun _ _ h => ⟨h.1.hasIdx, h.2⟩) (fun _ _ _ => trivial) (fun _ _ _ => trivial)) (fun _ => ?_)
      exact Triple.osWriteAt _ _ _ (fun _ _ h _ => h) (fun _ _ _ => trivial) (fun _ _ _ _ => trivial)
    · split
      · rename_i hn
        refine Steady.liftP _ ?_
        rintro c fs ⟨-, r0, p, -, -, rfl⟩
        cases hn
      · refine Steady.bind (Q := fun _ => HasIdx) (E := AnyA) (Steady.lift _ ?_) (Triple.lift _ (fun _ _ _ _ h => h.1) (fun _ _ _ => trivial)) (fun b => ?_)
        · rename_i p _
          have := n.toNat_lt
          obtain ⟨dd, h1, -⟩ := Bitset.set_eq p.progress (BitVec.ofNat 64 n.toNat) (by rw [BitVec.toNat_ofNat]; omega)
          rw [h1]; rfl
        · exact Steady.seq (Steady.updateRecord _ (fun _ _ h => h)) (fun _ => Steady.osWriteFile _ _)

/-- What `RegisterDownload` does not report: on every catalogue, for every download it can register, there is a failure after which it succeeds although the
file with the progress is as it was before. -/
theorem C113_dropped (hh : Healthy env d) (hr : CleanReach env d dl (.running c fs)) (size : UInt64) (cs : UInt32) (h : Sha1Hash) (name : GoString)
    (hn : observe c fs h = .err .fileNotFound) (hsz : size.toNat < 2 ^ 63) (hcs : 0 < cs.toNat) :
    ∃ fl e s', OnlyFailures fl ∧ registerDownload env size cs h name ⟨c, fs, fl⟩ = (.ok e, s') ∧ s'.fs (progressPath d h) = fs (progressPath d h) := by
  obtain ⟨ind, rfl, hw⟩ := Inv.split (hr.reach.inv hh.abs hh.utf8 : Inv _ _ _ _ fs)
  have hm : mapGet ind.index h = none := by
    have hs := hr.sync hh.abs hh.utf8
    obtain ⟨ind', he, hs⟩ := hs
    cases he
    rw [observe_eq] at hn
    unfold obsRec at hn
    cases e : mapGet ind.index h with
    | none => rfl
    | some r =>
      obtain ⟨p, hp, -⟩ := hs.prog h r e
      rw [e] at hn
      simp only at hn
      rw [hp] at hn
      cases hn
  have e : asInt64 size = (size.toNat : Int) := by
    have := asInt64_ofNat size.toNat hsz
    rwa [UInt64.ofNat_toNat] at this
  obtain ⟨p, hp⟩ := newProgressFile_total { filePath := joinPath [dl, name], sizeInBytes := asInt64 size, sha1Hash := h, progressFile := none, chunkSize := cs.toNat } d size.toNat cs.toNat e rfl hsz hcs
  have hadd : ∀ r : Record, r.sha1Hash = h → addIndexRecord env r ⟨⟨d, dl, some ind⟩, fs, [.none, .fail .none]⟩ =
      (.ok (), ⟨⟨d, dl, some { ind with index := mapPut ind.index h r }⟩, fs.put (indexPath ind.dataDir) (some (env.json.enc ({ ind with index := mapPut ind.index h r } : IndexFile).toJSON)), [.fail .none]⟩) := by
    rintro r rfl
    unfold addIndexRecord
    have e1 : getIndex ⟨⟨d, dl, some ind⟩, fs, [.none, .fail .none]⟩ = (.ok ind, ⟨⟨d, dl, some ind⟩, fs, [.none, .fail .none]⟩) := rfl
    rw [IOM.bind_apply, e1]
    simp only [hm]
    rfl
  have hof : OnlyFailures [.none, .fail .none] := by
    intro f hf
    rcases List.mem_cons.1 hf with rfl | hf
    · exact .inl rfl
    · rcases List.mem_cons.1 hf with rfl | hf
      · exact .inr ⟨_, rfl⟩
      · cases hf
  suffices hrun : ∃ e s', registerDownload env size cs h name ⟨⟨d, dl, some ind⟩, fs, [.none, .fail .none]⟩ = (.ok e, s') ∧
      s'.fs (progressPath d h) = fs (progressPath d h) by
    obtain ⟨e, s', h1, h2⟩ := hrun
    exact ⟨_, e, s', hof, h1, h2⟩
  unfold registerDownload
  simp only [IOM.bind_apply, getCat_apply]
  rw [hadd _ rfl]
  simp only [getCat_apply, IOM.lift_apply]
  rw [hp]
  simp only [updateRecord_eval]
  refine ⟨_, _, rfl, ?_⟩
  show (fs.put (indexPath ind.dataDir) _) (progressPath d h) = _
  rw [hw.dir]
  exact if_neg (fun e => indexPath_ne_progressPath d d hh.abs hh.abs h e.symm)

/-! The hypotheses are met: a catalogue with a shared file, a disk that loses part of a write and then fails once more. -/
example (sha1 : Bytes → Sha1Hash) (json : JsonCodec) : ∃ c fs, Healthy (exEnv sha1 json) exDir ∧ CleanReach (exEnv sha1 json) exDir exDown (.running c fs) ∧
    OnlyFailures [.none, .fail (some 3), .fail none] ∧ Modest (exEnv sha1 json) fs (.share [102]) ∧ Reports (.share [102]) = true := by
  obtain ⟨c, fs, b, h1, h2, -⟩ := ex_clean sha1 json
  refine ⟨c, fs, ex_healthy sha1 json, h1, ?_, ?_, rfl⟩
  · intro f hf
    simp only [List.mem_cons, List.not_mem_nil, or_false] at hf
    rcases hf with rfl | rfl | rfl
    · exact .inl rfl
    · exact .inr ⟨_, rfl⟩
    · exact .inr ⟨_, rfl⟩
  · intro content hc
    have e : absPath (exEnv sha1 json).cwd [102] = absOf [[102]] := by show absPath [47] [102] = [47, 102]; decide
    rw [e, h2] at hc
    cases hc
    decide

/-! A read that succeeds although a failure follows; and one that fails. -/
example (h : Sha1Hash) (r : Record) (dl : Path) (p : ProgressFile) (hp : r.progressFile = some p) (fs : FS) :
    contains h ⟨⟨exDir, dl, some ⟨0, 0, [(h, r)], exDir⟩⟩, fs, [.fail none]⟩ = (.ok (r.exportWith p), ⟨⟨exDir, dl, some ⟨0, 0, [(h, r)], exDir⟩⟩, fs, [.fail none]⟩) := by
  have e : mapGet [(h, r)] h = some r := by simp [mapGet]
  unfold contains
  rw [IOM.bind_apply]
  have : getIndexRecord h ⟨⟨exDir, dl, some ⟨0, 0, [(h, r)], exDir⟩⟩, fs, [.fail none]⟩ = (.ok r, ⟨⟨exDir, dl, some ⟨0, 0, [(h, r)], exDir⟩⟩, fs, [.fail none]⟩) := by
    unfold getIndexRecord
    rw [IOM.bind_apply]
    show (match mapGet [(h, r)] h with | some r => fillRecord r | none => _) _ = _
    rw [e]
    simp only [fillRecord, hp]
    rfl
  rw [this]
  simp only [IOM.lift, Record.export, hp]
  rfl

end
end Flu
