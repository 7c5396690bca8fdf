import Verif.Lemmas.CatEval
import Verif.Lemmas.BitsetSer
/-!
# Reasoning about the catalogue under arbitrary faults

`OkClean x`: a run of `x` that returned normally is also a run without faults.  `Triple P x Q E`: started in a state satisfying `P`, `x` ends in
a state satisfying `Q` if it returns normally and `E` in every other case, whatever the faults.
-/
namespace Flu

/-! ### Runs that return normally met no fault -/

/-- The same state with no faults to come. -/
def St.quiet (s : St) : St := { s with faults := [] }

theorem St.quiet_eq (s : St) : s.quiet = ⟨s.cat, s.fs, []⟩ := rfl

def OkClean {α : Type} (x : CM α) : Prop := ∀ s a s', x s = (.ok a, s') → x s.quiet = (.ok a, s'.quiet)

theorem OkClean.bind {α β : Type} {x : CM α} {f : α → CM β} (hx : OkClean x) (hf : ∀ a, OkClean (f a)) : OkClean (x >>= f) := by
  intro s b s' h
  rw [IOM.bind_apply] at h ⊢
  rcases hxs : x s with ⟨r, s1⟩
  rw [hxs] at h
  cases r with
  | ok a =>
    rw [hx s a s1 hxs]
    exact hf a s1 b s' h
  | err e => simp only at h; cases h
  | panic => simp only at h; cases h
  | exit => simp only at h; cases h
  | crash => simp only at h; cases h

theorem OkClean.pure {α : Type} (a : α) : OkClean (pure a : CM α) := by
  intro s b s' h
  rw [IOM.pure_apply] at h ⊢
  cases h; rfl

theorem OkClean.lift {α : Type} (r : Res α) : OkClean (IOM.lift r : CM α) := by
  intro s b s' h
  rw [IOM.lift_apply] at h ⊢
  cases h; rfl

theorem OkClean.getFS : OkClean getFS := by
  intro s b s' h; cases h; rfl
theorem OkClean.getCat : OkClean getCat := by
  intro s b s' h; cases h; rfl

theorem OkClean.setFile (p : Path) (c : Option Bytes) : OkClean (setFile p c) := by
  intro s b s' h; cases h; rfl
theorem OkClean.setIndex (i : IndexFile) : OkClean (setIndex i) := by
  intro s b s' h; cases h; rfl

/-- The shape shared by all operating-system calls. -/
theorem OkClean.os {α : Type} (f : CM α) (g h : Option Nat → CM α) (hf : OkClean f)
    (hg : ∀ e s a s', g e s ≠ (.ok a, s')) (hh : ∀ e s a s', h e s ≠ (.ok a, s')) :
    OkClean (do match ← nextFault with | .none => f | .fail e => g e | .crash e => h e) := by
  intro s a s' hs
  rw [IOM.bind_apply] at hs ⊢
  have hq : nextFault s.quiet = (.ok .none, s.quiet) := rfl
  rw [hq]
  unfold nextFault at hs
  rcases hfl : s.faults with _ | ⟨ft, fts⟩
  · rw [hfl] at hs; exact hf s a s' hs
  · rw [hfl] at hs
    cases ft with
    | none => exact hf ⟨s.cat, s.fs, fts⟩ a s' hs
    | fail e => exact absurd hs (hg e _ a s')
    | crash e => exact absurd hs (hh e _ a s')

theorem OkClean.osWriteFile (p : Path) (d : Bytes) : OkClean (osWriteFile p d) := by
  apply OkClean.os _ _ _ (OkClean.setFile _ _)
  · intro e s a s' h; cases e <;> cases h
  · intro e s a s' h; cases e <;> cases h

theorem OkClean.osReadFile (p : Path) : OkClean (osReadFile p) := by
  apply OkClean.os
  · apply OkClean.bind OkClean.getFS
    intro fs; split
    · exact OkClean.pure _
    · exact OkClean.lift _
  · intro e s a s' h; cases h
  · intro e s a s' h; cases h

theorem OkClean.osStat (p : Path) : OkClean (osStat p) := by
  apply OkClean.os
  · exact OkClean.bind OkClean.getFS (fun _ => OkClean.pure _)
  · intro e s a s' h; cases h
  · intro e s a s' h; cases h

theorem OkClean.osTouch : OkClean osTouch := by
  apply OkClean.os
  · exact OkClean.pure _
  · intro e s a s' h; cases h
  · intro e s a s' h; cases h

theorem OkClean.osRemove (p : Path) : OkClean (osRemove p) := by
  apply OkClean.os
  · apply OkClean.bind OkClean.getFS
    intro fs; split
    · exact OkClean.setFile _ _
    · exact OkClean.lift _
  · intro e s a s' h; cases h
  · intro e s a s' h; cases e <;> cases h

theorem OkClean.osOpenCreate (p : Path) : OkClean (osOpenCreate p) := by
  apply OkClean.os
  · intro s b s' h; cases h; rfl
  · intro e s a s' h; cases h
  · intro e s a s' h; cases e <;> cases h

theorem OkClean.osWriteAt (p : Path) (d : Bytes) (st : Int) : OkClean (osWriteAt p d st) := by
  unfold Flu.osWriteAt
  split
  · exact OkClean.lift _
  · apply OkClean.os
    · intro s b s' h; cases h; rfl
    · intro e s a s' h; cases e <;> cases h
    · intro e s a s' h; cases e <;> cases h

theorem OkClean.osHashFile (env : Env) (p : Path) : OkClean (osHashFile env p) :=
  OkClean.bind (OkClean.osReadFile p) (fun _ => OkClean.pure _)

theorem OkClean.getIndex : OkClean getIndex := by
  apply OkClean.bind OkClean.getCat
  intro c; split
  · exact OkClean.pure _
  · exact OkClean.lift _

theorem OkClean.saveIndex (env : Env) : OkClean (saveIndex env) :=
  OkClean.bind OkClean.getIndex (fun _ => OkClean.osWriteFile _ _)

theorem OkClean.init (env : Env) : OkClean (Cat.init env) := by
  unfold Cat.init
  refine OkClean.bind OkClean.getCat (fun _ => OkClean.bind (OkClean.setIndex _) (fun _ => OkClean.bind OkClean.osTouch
    (fun _ => OkClean.bind OkClean.osTouch (fun _ => OkClean.bind (OkClean.osStat _) (fun o => ?_)))))
  have tail : ∀ p, OkClean (do
      let data ← Flu.osReadFile p
      let ind ← IOM.lift (unmarshalIndex env data)
      Flu.setIndex ind) := fun p => OkClean.bind (OkClean.osReadFile p) (fun _ => OkClean.bind (OkClean.lift _) (fun _ => OkClean.setIndex _))
  cases o with
  | some _ => exact tail _
  | none => exact OkClean.bind (OkClean.setIndex _) (fun _ => OkClean.bind (OkClean.saveIndex env) (fun _ => tail _))

theorem OkClean.updateRecord (r : Record) : OkClean (updateRecord r) :=
  OkClean.bind OkClean.getIndex (fun _ => OkClean.setIndex _)

theorem OkClean.addIndexRecord (env : Env) (r : Record) : OkClean (addIndexRecord env r) := by
  apply OkClean.bind OkClean.getIndex
  intro ind; split
  · exact OkClean.lift _
  · exact OkClean.bind (OkClean.setIndex _) (fun _ => OkClean.saveIndex env)

theorem OkClean.removeIndexRecord (env : Env) (r : Record) : OkClean (removeIndexRecord env r) :=
  OkClean.bind OkClean.getIndex (fun _ => OkClean.bind (OkClean.setIndex _) (fun _ => OkClean.saveIndex env))

theorem OkClean.deserializeProgressFile (r : Record) (d : Path) : OkClean (deserializeProgressFile r d) :=
  OkClean.bind (OkClean.osReadFile _) (fun _ => OkClean.bind (OkClean.lift _) (fun _ => OkClean.pure _))

theorem OkClean.fillRecord (r : Record) : OkClean (fillRecord r) := by
  unfold Flu.fillRecord
  split
  · exact OkClean.pure _
  · exact OkClean.bind OkClean.getCat (fun _ => OkClean.bind (OkClean.deserializeProgressFile _ _) (fun _ =>
      OkClean.bind (OkClean.updateRecord _) (fun _ => OkClean.pure _)))

theorem OkClean.getIndexRecord (h : Sha1Hash) : OkClean (getIndexRecord h) := by
  apply OkClean.bind OkClean.getIndex
  intro ind; split
  · exact OkClean.fillRecord _
  · exact OkClean.lift _

theorem OkClean.generate (env : Env) (p : GoString) : OkClean (generateIndexRecordForFile env p) := by
  apply OkClean.bind (OkClean.osStat _)
  intro o; cases o with
  | none => exact OkClean.lift _
  | some _ => exact OkClean.bind (OkClean.osHashFile _ _) (fun _ => OkClean.pure _)

theorem OkClean.shareFile (env : Env) (p : GoString) : OkClean (shareFile env p) :=
  OkClean.bind (OkClean.generate env p) (fun _ => OkClean.bind (OkClean.addIndexRecord env _) (fun _ =>
    OkClean.bind OkClean.getCat (fun _ => OkClean.bind (OkClean.lift _) (fun _ => OkClean.bind (OkClean.updateRecord _) (fun _ =>
      OkClean.bind (OkClean.lift _) (fun _ => OkClean.bind (OkClean.updateRecord _) (fun _ =>
        OkClean.bind (OkClean.osWriteFile _ _) (fun _ => OkClean.pure _))))))))

theorem OkClean.unshareFile (env : Env) (h : Sha1Hash) : OkClean (unshareFile env h) := by
  apply OkClean.bind (OkClean.getIndexRecord h)
  intro r; split
  · exact OkClean.lift _
  · exact OkClean.bind (OkClean.osRemove _) (fun _ => OkClean.removeIndexRecord env _)

theorem OkClean.listLoop (order : List Sha1Hash) : OkClean (listLoop order) := by
  induction order with
  | nil => exact OkClean.pure _
  | cons h rest ih =>
    apply OkClean.bind OkClean.getIndex
    intro ind; split
    · exact ih
    · exact OkClean.bind (OkClean.fillRecord _) (fun _ => OkClean.bind (OkClean.lift _) (fun _ => OkClean.bind ih (fun _ => OkClean.pure _)))

theorem OkClean.listFiles (order : List Sha1Hash) : OkClean (listFiles order) :=
  OkClean.bind OkClean.getIndex (fun _ => OkClean.listLoop order)

theorem OkClean.rehash (env : Env) (h : Sha1Hash) : OkClean (rehash env h) :=
  OkClean.bind (OkClean.getIndexRecord h) (fun _ => OkClean.osHashFile env _)

theorem OkClean.contains (h : Sha1Hash) : OkClean (contains h) :=
  OkClean.bind (OkClean.getIndexRecord h) (fun _ => OkClean.lift _)

theorem OkClean.orPanic {α : Type} {x : CM α} (hx : OkClean x) : OkClean (IOM.orPanic x) := by
  intro s a s' h
  unfold IOM.orPanic at h ⊢
  rcases hxs : x s with ⟨r, s1⟩
  rw [hxs] at h
  cases r with
  | ok b => cases h; rw [hx s _ _ hxs]
  | err e => cases h
  | panic => cases h
  | exit => cases h
  | crash => cases h

theorem OkClean.recordSaveChunk (r : Record) (n : Nat) (d : Bytes) : OkClean (r.saveChunk n d) :=
  OkClean.bind (OkClean.osOpenCreate _) (fun _ => OkClean.osWriteAt _ _ _)

theorem OkClean.saveChunk (h : Sha1Hash) (n : UInt16) (d : Bytes) : OkClean (saveChunk h n d) := by
  apply OkClean.bind (OkClean.orPanic (OkClean.getIndexRecord h))
  intro r
  apply OkClean.bind (OkClean.recordSaveChunk r _ d)
  intro _; split
  · exact OkClean.lift _
  · exact OkClean.bind (OkClean.lift _) (fun _ => OkClean.bind (OkClean.updateRecord _) (fun _ => OkClean.osWriteFile _ _))

theorem OkClean.getChunkReader (env : Env) (h : Sha1Hash) (n : Nat) (ch : List AtChoice) : OkClean (getChunkReader env h n ch) := by
  apply OkClean.bind (OkClean.getIndexRecord h)
  intro r; split
  · exact OkClean.lift _
  · apply OkClean.bind (OkClean.lift _)
    intro b; split
    · exact OkClean.lift _
    · apply OkClean.bind OkClean.osTouch
      intro _; apply OkClean.bind OkClean.getFS
      intro fs; split
      · exact OkClean.lift _
      · exact OkClean.pure _

/-! ### Hoare triples -/

/-- Assertions about memory and disk. -/
abbrev Assn := Cat → FS → Prop

def Triple {α : Type} (P : Assn) (x : CM α) (Q : α → Assn) (E : Assn) : Prop :=
  ∀ s, P s.cat s.fs → (∀ a s', x s = (.ok a, s') → Q a s'.cat s'.fs) ∧
    (∀ r s', x s = (r, s') → (∀ a, r ≠ .ok a) → E s'.cat s'.fs)

theorem Triple.bind {α β : Type} {P : Assn} {x : CM α} {Q : α → Assn} {E : Assn} {f : α → CM β} {R : β → Assn}
    (hx : Triple P x Q E) (hf : ∀ a, Triple (Q a) (f a) R E) : Triple P (x >>= f) R E := by
  intro s hP
  obtain ⟨h1, h2⟩ := hx s hP
  rw [IOM.bind_apply]
  rcases hxs : x s with ⟨r, s1⟩
  cases r with
  | ok a => exact hf a s1 (h1 a s1 hxs)
  | err e => exact ⟨fun a s' h => (by cases h), fun r s' h hr => (by cases h; exact h2 _ _ hxs (by intro a; simp))⟩
  | panic => exact ⟨fun a s' h => (by cases h), fun r s' h hr => (by cases h; exact h2 _ _ hxs (by intro a; simp))⟩
  | exit => exact ⟨fun a s' h => (by cases h), fun r s' h hr => (by cases h; exact h2 _ _ hxs (by intro a; simp))⟩
  | crash => exact ⟨fun a s' h => (by cases h), fun r s' h hr => (by cases h; exact h2 _ _ hxs (by intro a; simp))⟩

theorem Triple.conseq {α : Type} {P P' : Assn} {x : CM α} {Q Q' : α → Assn} {E E' : Assn} (h : Triple P x Q E)
    (hP : ∀ c fs, P' c fs → P c fs) (hQ : ∀ a c fs, Q a c fs → Q' a c fs) (hE : ∀ c fs, E c fs → E' c fs) : Triple P' x Q' E' := by
  intro s hs
  obtain ⟨h1, h2⟩ := h s (hP _ _ hs)
  exact ⟨fun a s' e => hQ _ _ _ (h1 a s' e), fun r s' e hr => hE _ _ (h2 r s' e hr)⟩

theorem Triple.pre {α : Type} {P P' : Assn} {x : CM α} {Q : α → Assn} {E : Assn} (h : Triple P x Q E)
    (hP : ∀ c fs, P' c fs → P c fs) : Triple P' x Q E := h.conseq hP (fun _ _ _ h => h) (fun _ _ h => h)

theorem Triple.post {α : Type} {P : Assn} {x : CM α} {Q Q' : α → Assn} {E : Assn} (h : Triple P x Q E)
    (hQ : ∀ a c fs, Q a c fs → Q' a c fs) : Triple P x Q' E := h.conseq (fun _ _ h => h) hQ (fun _ _ h => h)

theorem Triple.pure {α : Type} {P : Assn} {Q : α → Assn} {E : Assn} (a : α) (h : ∀ c fs, P c fs → Q a c fs) :
    Triple P (pure a : CM α) Q E := by
  intro s hs
  refine ⟨fun b s' e => ?_, fun r s' e hr => ?_⟩
  · cases e; exact h _ _ hs
  · cases e; exact absurd rfl (hr a)

theorem Triple.lift {α : Type} {P : Assn} {Q : α → Assn} {E : Assn} (r : Res α) (h : ∀ a, r = .ok a → ∀ c fs, P c fs → Q a c fs)
    (hE : ∀ c fs, P c fs → E c fs) : Triple P (IOM.lift r : CM α) Q E := by
  intro s hs
  refine ⟨fun b s' e => ?_, fun r' s' e hr => ?_⟩
  · cases e; exact h _ rfl _ _ hs
  · cases e; exact hE _ _ hs

theorem Triple.getFS {P : Assn} {E : Assn} : Triple P getFS (fun a c fs => P c fs ∧ a = fs) E := by
  intro s hs
  refine ⟨fun b s' e => ?_, fun r' s' e hr => ?_⟩
  · cases e; exact ⟨hs, rfl⟩
  · cases e; exact absurd rfl (hr _)

theorem Triple.getCat {P : Assn} {E : Assn} : Triple P getCat (fun a c fs => P c fs ∧ a = c) E := by
  intro s hs
  refine ⟨fun b s' e => ?_, fun r' s' e hr => ?_⟩
  · cases e; exact ⟨hs, rfl⟩
  · cases e; exact absurd rfl (hr _)

theorem Triple.setFile {P : Assn} {Q : Unit → Assn} {E : Assn} (p : Path) (o : Option Bytes)
    (h : ∀ c fs, P c fs → Q () c (fs.put p o)) : Triple P (setFile p o) Q E := by
  intro s hs
  refine ⟨fun b s' e => ?_, fun r' s' e hr => ?_⟩
  · cases e; exact h _ _ hs
  · cases e; exact absurd rfl (hr _)

theorem Triple.modifyFS {P : Assn} {Q : Unit → Assn} {E : Assn} (f : FS → FS)
    (h : ∀ c fs, P c fs → Q () c (f fs)) : Triple P (IOM.modify (fun s => { s with fs := f s.fs }) : CM Unit) Q E := by
  intro s hs
  refine ⟨fun b s' e => ?_, fun r' s' e hr => ?_⟩
  · cases e; exact h _ _ hs
  · cases e; exact absurd rfl (hr _)

theorem Triple.setIndex {P : Assn} {Q : Unit → Assn} {E : Assn} (i : IndexFile)
    (h : ∀ c fs, P c fs → Q () { c with indexFile := some i } fs) : Triple P (setIndex i) Q E := by
  intro s hs
  refine ⟨fun b s' e => ?_, fun r' s' e hr => ?_⟩
  · cases e; exact h _ _ hs
  · cases e; exact absurd rfl (hr _)

theorem Triple.os {α : Type} {P : Assn} {Q : α → Assn} {E : Assn} (f : CM α) (g h : Option Nat → CM α) (hf : Triple P f Q E)
    (hg : ∀ e, Triple P (g e) Q E) (hh : ∀ e, Triple P (h e) Q E) :
    Triple P (do match ← nextFault with | .none => f | .fail e => g e | .crash e => h e) Q E := by
  refine Triple.bind (Q := fun _ => P) ?_ ?_
  · intro s hs
    unfold nextFault
    split
    · exact ⟨fun b s' e => (by cases e; exact hs), fun r' s' e hr => by cases e; exact absurd rfl (hr _)⟩
    · exact ⟨fun b s' e => (by cases e; exact hs), fun r' s' e hr => by cases e; exact absurd rfl (hr _)⟩
  · intro ft
    cases ft with
    | none => exact hf
    | fail e => exact hg e
    | crash e => exact hh e

/-- Writing a whole file: success leaves the new content, any failure the old content or a prefix of the new one. -/
theorem Triple.osWriteFile {P : Assn} {Q : Unit → Assn} {E : Assn} (p : Path) (d : Bytes)
    (h : ∀ c fs, P c fs → Q () c (fs.put p (some d))) (hE : ∀ c fs, P c fs → E c fs)
    (ht : ∀ c fs k, P c fs → E c (fs.put p (some (d.take k)))) : Triple P (osWriteFile p d) Q E := by
  apply Triple.os
  · exact Triple.setFile p _ h
  all_goals
    intro e
    cases e with
    | none => exact Triple.lift _ (fun a e => by cases e) hE
    | some k =>
      refine Triple.bind (Q := fun _ => E) (Triple.setFile p _ (fun c fs hp => ht c fs k hp)) ?_
      exact fun _ => Triple.lift _ (fun a e => by cases e) (fun _ _ h => h)

theorem Triple.osReadFile {P : Assn} {E : Assn} (p : Path) (hE : ∀ c fs, P c fs → E c fs) :
    Triple P (osReadFile p) (fun d c fs => P c fs ∧ fs p = some d) E := by
  apply Triple.os
  · refine Triple.bind Triple.getFS ?_
    intro fs; split
    · rename_i d hd; exact Triple.pure _ (fun c fs' h => ⟨h.1, h.2 ▸ hd⟩)
    · exact Triple.lift _ (fun a e => by cases e) (fun c fs' h => hE _ _ h.1)
  · intro e; exact Triple.lift _ (fun a e => by cases e) hE
  · intro e; exact Triple.lift _ (fun a e => by cases e) hE

theorem Triple.osStat {P : Assn} {E : Assn} (p : Path) (hE : ∀ c fs, P c fs → E c fs) :
    Triple P (osStat p) (fun n c fs => P c fs ∧ n = (fs p).map List.length) E := by
  apply Triple.os
  · exact Triple.bind Triple.getFS (fun fs => Triple.pure _ (fun c fs' h => ⟨h.1, by rw [h.2]⟩))
  · intro e; exact Triple.lift _ (fun a e => by cases e) hE
  · intro e; exact Triple.lift _ (fun a e => by cases e) hE

theorem Triple.osTouch {P : Assn} {E : Assn} (hE : ∀ c fs, P c fs → E c fs) : Triple P osTouch (fun _ => P) E := by
  apply Triple.os
  · exact Triple.pure _ (fun _ _ h => h)
  · intro e; exact Triple.lift _ (fun a e => by cases e) hE
  · intro e; exact Triple.lift _ (fun a e => by cases e) hE

theorem Triple.osRemove {P : Assn} {Q : Unit → Assn} {E : Assn} (p : Path) (h : ∀ c fs d, P c fs → fs p = some d → Q () c (fs.put p none))
    (hE : ∀ c fs, P c fs → E c fs) (ht : ∀ c fs, P c fs → E c (fs.put p none)) : Triple P (osRemove p) Q E := by
  apply Triple.os
  · refine Triple.bind Triple.getFS ?_
    intro fs; split
    · rename_i d hd; exact Triple.setFile p _ (fun c fs' hp => h c fs' d hp.1 (hp.2 ▸ hd))
    · exact Triple.lift _ (fun a e => by cases e) (fun c fs' h => hE _ _ h.1)
  · intro e; exact Triple.lift _ (fun a e => by cases e) hE
  · intro e
    cases e with
    | none => exact Triple.lift _ (fun a e => by cases e) hE
    | some k => exact Triple.bind (Q := fun _ => E) (Triple.setFile p _ ht) (fun _ => Triple.lift _ (fun a e => by cases e) (fun _ _ h => h))

theorem Triple.osOpenCreate {P : Assn} {Q : Unit → Assn} {E : Assn} (p : Path) (h : ∀ c fs, P c fs → Q () c (fs.put p (some ((fs p).getD []))))
    (hE : ∀ c fs, P c fs → E c fs) (ht : ∀ c fs, P c fs → E c (fs.put p (some ((fs p).getD [])))) : Triple P (osOpenCreate p) Q E := by
  apply Triple.os
  · exact Triple.modifyFS _ h
  · intro e; exact Triple.lift _ (fun a e => by cases e) hE
  · intro e
    cases e with
    | none => exact Triple.lift _ (fun a e => by cases e) hE
    | some k => exact Triple.bind (Q := fun _ => E) (Triple.modifyFS (fun fs => fs.put p (some ((fs p).getD []))) ht) (fun _ => Triple.lift _ (fun a e => by cases e) (fun _ _ h => h))

theorem Triple.osWriteAt {P : Assn} {Q : Unit → Assn} {E : Assn} (p : Path) (d : Bytes) (st : Int)
    (h : ∀ c fs, P c fs → 0 ≤ st → Q () c (fs.put p (some (overlay ((fs p).getD []) st.toNat d))))
    (hE : ∀ c fs, P c fs → E c fs)
    (ht : ∀ c fs k, P c fs → E c (fs.put p (some (overlay ((fs p).getD []) st.toNat (d.take k))))) : Triple P (osWriteAt p d st) Q E := by
  unfold Flu.osWriteAt
  split
  · exact Triple.lift _ (fun a e => by cases e) hE
  · rename_i hst
    apply Triple.os
    · exact Triple.modifyFS _ (fun c fs hp => h c fs hp (by omega))
    all_goals
      intro e
      cases e with
      | none => exact Triple.lift _ (fun a e => by cases e) hE
      | some k =>
        refine Triple.bind (Q := fun _ => E)
          (Triple.modifyFS (fun fs => fs.put p (some (overlay ((fs p).getD []) st.toNat (d.take k)))) (fun c fs hp => ht c fs k hp)) ?_
        exact (fun _ => Triple.lift _ (fun a e => by cases e) (fun _ _ h => h))

theorem Triple.osHashFile {P : Assn} {E : Assn} (env : Env) (p : Path) (hE : ∀ c fs, P c fs → E c fs) :
    Triple P (osHashFile env p) (fun h c fs => P c fs ∧ (fs p).map env.sha1 = some h) E :=
  Triple.bind (Triple.osReadFile p hE) (fun _ => Triple.pure _ (fun c fs h => ⟨h.1, by rw [h.2]; rfl⟩))

theorem Triple.getIndex {P : Assn} {E : Assn} (hE : ∀ c fs, P c fs → E c fs) :
    Triple P getIndex (fun ind c fs => P c fs ∧ c.indexFile = some ind) E := by
  refine Triple.bind Triple.getCat ?_
  intro c; split
  · rename_i ind hi; exact Triple.pure _ (fun c' fs h => ⟨h.1, h.2 ▸ hi⟩)
  · exact Triple.lift _ (fun a e => by cases e) (fun c fs h => hE _ _ h.1)

theorem Triple.orPanic {α : Type} {P : Assn} {x : CM α} {Q : α → Assn} {E : Assn} (h : Triple P x Q E) : Triple P (IOM.orPanic x) Q E := by
  intro s hs
  obtain ⟨h1, h2⟩ := h s hs
  unfold IOM.orPanic
  rcases hx : x s with ⟨r, s1⟩
  cases r with
  | ok b => exact ⟨fun a s' e => (by cases e; exact h1 _ _ hx), fun r' s' e hr => by cases e; exact absurd rfl (hr b)⟩
  | err e0 => exact ⟨fun a s' e => (by cases e), fun r' s' e hr => by cases e; exact h2 _ _ hx (by intro a; simp)⟩
  | panic => exact ⟨fun a s' e => (by cases e), fun r' s' e hr => by cases e; exact h2 _ _ hx (by intro a; simp)⟩
  | exit => exact ⟨fun a s' e => (by cases e), fun r' s' e hr => by cases e; exact h2 _ _ hx (by intro a; simp)⟩
  | crash => exact ⟨fun a s' e => (by cases e), fun r' s' e hr => by cases e; exact h2 _ _ hx (by intro a; simp)⟩

theorem Triple.ignoreErr {P : Assn} {x : CM Unit} {Q : Unit → Assn} {E : Assn} (h : Triple P x Q E) (hEQ : ∀ c fs, E c fs → Q () c fs) :
    Triple P (IOM.ignoreErr x) Q E := by
  intro s hs
  obtain ⟨h1, h2⟩ := h s hs
  unfold IOM.ignoreErr
  rcases hx : x s with ⟨r, s1⟩
  cases r with
  | ok b => exact ⟨fun a s' e => (by cases e; exact h1 _ _ hx), fun r' s' e hr => by cases e; exact absurd rfl (hr b)⟩
  | err e0 => exact ⟨fun a s' e => (by cases e; exact hEQ _ _ (h2 _ _ hx (by intro a; simp))), fun r' s' e hr => by cases e; exact absurd rfl (hr _)⟩
  | panic => exact ⟨fun a s' e => (by cases e), fun r' s' e hr => by cases e; exact h2 _ _ hx (by intro a; simp)⟩
  | exit => exact ⟨fun a s' e => (by cases e), fun r' s' e hr => by cases e; exact h2 _ _ hx (by intro a; simp)⟩
  | crash => exact ⟨fun a s' e => (by cases e), fun r' s' e hr => by cases e; exact h2 _ _ hx (by intro a; simp)⟩

end Flu
