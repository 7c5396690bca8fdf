import Verif.Props.Clean
/-!
# Operations of the operating system that fail, but no crash

`Steady P x`: from every state that satisfies `P`, with any failures of the operating system to come but no crash, `x` ends with a result or an error.
-/
namespace Flu

/-- Among the faults to come there is no crash. -/
def NoKill (fl : List Fault) : Prop := ∀ f ∈ fl, ∀ e, f ≠ .crash e

/-- `x` ends with a result or an error, and the faults that remain contain no crash. -/
def Steady {α : Type} (P : Assn) (x : CM α) : Prop :=
  ∀ s, P s.cat s.fs → NoKill s.faults → (x s).1.returns = true ∧ NoKill (x s).2.faults

theorem Steady.pre {α : Type} {P P' : Assn} {x : CM α} (h : Steady P x) (hp : ∀ c fs, P' c fs → P c fs) : Steady P' x :=
  fun s h1 h2 => h s (hp _ _ h1) h2

theorem Steady.bind {α β : Type} {P : Assn} {Q : α → Assn} {E : Assn} {x : CM α} {f : α → CM β} (hx : Steady P x) (ht : Triple P x Q E)
    (hf : ∀ a, Steady (Q a) (f a)) : Steady P (x >>= f) := by
  intro s h1 h2
  obtain ⟨h3, h4⟩ := hx s h1 h2
  obtain ⟨h5, -⟩ := ht s h1
  rw [IOM.bind_apply]
  cases e : x s with
  | mk r s' =>
    rw [e] at h3 h4
    cases r with
    | ok a => exact hf a s' (h5 a s' e) h4
    | err _ => exact ⟨rfl, h4⟩
    | panic => cases h3
    | exit => cases h3
    | crash => cases h3

theorem Steady.pure {α : Type} {P : Assn} (a : α) : Steady P (pure a : CM α) := fun _ _ h => ⟨rfl, h⟩

theorem Steady.lift {α : Type} {P : Assn} (r : Res α) (h : r.returns = true) : Steady P (IOM.lift r : CM α) := fun _ _ h2 => ⟨h, h2⟩

theorem Steady.liftP {α : Type} {P : Assn} (r : Res α) (h : ∀ c fs, P c fs → r.returns = true) : Steady P (IOM.lift r : CM α) :=
  fun _ h1 h2 => ⟨h _ _ h1, h2⟩

theorem Steady.getFS {P : Assn} : Steady P getFS := fun _ _ h => ⟨rfl, h⟩
theorem Steady.getCat {P : Assn} : Steady P getCat := fun _ _ h => ⟨rfl, h⟩
theorem Steady.modifyFS {P : Assn} (f : FS → FS) : Steady P (IOM.modify (fun s => { s with fs := f s.fs }) : CM Unit) := fun _ _ h => ⟨rfl, h⟩
theorem Steady.setFile {P : Assn} (p : Path) (c : Option Bytes) : Steady P (setFile p c) := fun _ _ h => ⟨rfl, h⟩
theorem Steady.setIndex {P : Assn} (i : IndexFile) : Steady P (setIndex i) := fun _ _ h => ⟨rfl, h⟩

/-- One call of the operating system. -/
theorem Steady.os {α : Type} {P : Assn} (f : CM α) (g h : Option Nat → CM α) (hf : Steady P f) (hg : ∀ e, Steady P (g e)) :
    Steady P (do match ← nextFault with | .none => f | .fail e => g e | .crash e => h e) := by
  rintro ⟨c, fs, fl⟩ h1 h2
  cases fl with
  | nil => exact hf ⟨c, fs, []⟩ h1 h2
  | cons a fl =>
    have h2' : NoKill fl := fun f hf => h2 f (List.mem_cons_of_mem _ hf)
    cases a with
    | none => exact hf ⟨c, fs, fl⟩ h1 h2'
    | fail e => exact hg e ⟨c, fs, fl⟩ h1 h2'
    | crash e => exact absurd rfl (h2 _ List.mem_cons_self e)

/-- Any assertion. -/
def AnyA : Assn := fun _ _ => True

theorem Steady.seq {α β : Type} {P : Assn} {x : CM α} {f : α → CM β} (hx : Steady P x) (hf : ∀ a, Steady AnyA (f a)) : Steady P (x >>= f) :=
  Steady.bind (Q := fun _ => AnyA) (E := AnyA) hx (fun _ _ => ⟨fun _ _ _ => trivial, fun _ _ _ _ => trivial⟩) hf

theorem Steady.osWriteFile {P : Assn} (p : Path) (d : Bytes) : Steady P (osWriteFile p d) := by
  apply Steady.os
  · exact Steady.setFile _ _
  · intro e
    cases e with
    | none => exact Steady.lift (.err .io) rfl
    | some k => exact Steady.seq (Steady.setFile p (some (d.take k))) (fun _ => Steady.lift (.err .io) rfl)

theorem Steady.osReadFile {P : Assn} (p : Path) : Steady P (osReadFile p) := by
  apply Steady.os
  · refine Steady.seq Steady.getFS ?_
    intro fs; split
    · exact Steady.pure _
    · exact Steady.lift _ rfl
  · intro e; exact Steady.lift _ rfl

theorem Steady.osStat {P : Assn} (p : Path) : Steady P (osStat p) :=
  Steady.os _ _ _ (Steady.seq Steady.getFS (fun _ => Steady.pure _)) (fun _ => Steady.lift _ rfl)

theorem Steady.osTouch {P : Assn} : Steady P osTouch :=
  Steady.os _ _ _ (Steady.pure _) (fun _ => Steady.lift _ rfl)

theorem Steady.osRemove {P : Assn} (p : Path) : Steady P (osRemove p) := by
  apply Steady.os
  · refine Steady.seq Steady.getFS ?_
    intro fs; split
    · exact Steady.setFile _ _
    · exact Steady.lift _ rfl
  · intro e; exact Steady.lift _ rfl

theorem Steady.osOpenCreate {P : Assn} (p : Path) : Steady P (osOpenCreate p) :=
  Steady.os _ _ _ (Steady.modifyFS (fun fs => fs.put p (some ((fs p).getD [])))) (fun _ => Steady.lift _ rfl)

theorem Steady.osWriteAt {P : Assn} (p : Path) (d : Bytes) (st : Int) : Steady P (osWriteAt p d st) := by
  unfold Flu.osWriteAt
  split
  · exact Steady.lift _ rfl
  · apply Steady.os
    · exact Steady.modifyFS (fun fs => fs.put p (some (overlay ((fs p).getD []) st.toNat d)))
    · intro e
      cases e with
      | none => exact Steady.lift (.err .io) rfl
      | some k => exact Steady.seq (Steady.modifyFS (fun fs => fs.put p (some (overlay ((fs p).getD []) st.toNat (d.take k))))) (fun _ => Steady.lift (.err .io) rfl)

theorem Steady.osHashFile {P : Assn} (env : Env) (p : Path) : Steady P (osHashFile env p) :=
  Steady.seq (Steady.osReadFile p) (fun _ => Steady.pure _)

/-- There is an index in memory. -/
def HasIdx : Assn := fun c _ => ∃ ind, c.indexFile = some ind

theorem Steady.getIndex {P : Assn} (h : ∀ c fs, P c fs → HasIdx c fs) : Steady P getIndex := by
  refine Steady.bind Steady.getCat (Triple.getCat (E := AnyA)) ?_
  intro c
  split
  · exact Steady.pure _
  · rename_i hn
    refine Steady.liftP _ ?_
    rintro c' fs ⟨h1, rfl⟩
    obtain ⟨ind, h2⟩ := h _ _ h1
    rw [h2] at hn; cases hn

theorem Steady.saveIndex {P : Assn} (env : Env) (h : ∀ c fs, P c fs → HasIdx c fs) : Steady P (saveIndex env) :=
  Steady.seq (Steady.getIndex h) (fun _ => Steady.osWriteFile _ _)

theorem Steady.updateRecord {P : Assn} (r : Record) (h : ∀ c fs, P c fs → HasIdx c fs) : Steady P (updateRecord r) :=
  Steady.seq (Steady.getIndex h) (fun _ => Steady.setIndex _)

/-- `setIndex` and what uses the index afterwards. -/
theorem Steady.setThen {β : Type} {P : Assn} (i : IndexFile) {f : Unit → CM β} (hf : Steady HasIdx (f ())) : Steady P (Flu.setIndex i >>= f) :=
  Steady.bind (Q := fun _ => HasIdx) (E := AnyA) (Steady.setIndex i) (Triple.setIndex i (fun _ _ _ => ⟨i, rfl⟩)) (fun _ => hf)

theorem Steady.addIndexRecord {P : Assn} (env : Env) (r : Record) (h : ∀ c fs, P c fs → HasIdx c fs) : Steady P (addIndexRecord env r) := by
  refine Steady.seq (Steady.getIndex h) ?_
  intro ind; split
  · exact Steady.lift _ rfl
  · exact Steady.setThen _ (Steady.saveIndex env (fun _ _ h => h))

theorem Steady.removeIndexRecord {P : Assn} (env : Env) (r : Record) (h : ∀ c fs, P c fs → HasIdx c fs) : Steady P (removeIndexRecord env r) :=
  Steady.seq (Steady.getIndex h) (fun _ => Steady.setThen _ (Steady.saveIndex env (fun _ _ h => h)))

theorem keepIdx_osWriteFile (p : Path) (d : Bytes) : Triple HasIdx (osWriteFile p d) (fun _ => HasIdx) AnyA :=
  Triple.osWriteFile p d (fun _ _ h => h) (fun _ _ _ => trivial) (fun _ _ _ _ => trivial)

theorem keepIdx_saveIndex (env : Env) : Triple HasIdx (saveIndex env) (fun _ => HasIdx) AnyA :=
  Triple.bind (Triple.getIndex (fun _ _ _ => trivial)) (fun _ => (keepIdx_osWriteFile _ _).pre (fun _ _ h => h.1))

theorem keepIdx_updateRecord (r : Record) : Triple HasIdx (updateRecord r) (fun _ => HasIdx) AnyA :=
  Triple.bind (Triple.getIndex (fun _ _ _ => trivial)) (fun _ => Triple.setIndex _ (fun _ _ _ => ⟨_, rfl⟩))

theorem keepIdx_addIndexRecord (env : Env) (r : Record) : Triple HasIdx (addIndexRecord env r) (fun _ => HasIdx) AnyA := by
  refine Triple.bind (Triple.getIndex (fun _ _ _ => trivial)) ?_
  intro ind; split
  · exact Triple.lift _ (fun a e => by cases e) (fun _ _ _ => trivial)
  · exact Triple.bind (Q := fun _ => HasIdx) (Triple.setIndex _ (fun _ _ _ => ⟨_, rfl⟩)) (fun _ => keepIdx_saveIndex env)

/-! ### `Init` -/

theorem fromJSON_returns (j : RecordJSON) : j.fromJSON.returns = true := by
  unfold RecordJSON.fromJSON
  split <;> rfl

theorem Res.bind_returns {α β : Type} {r : Res α} {f : α → Res β} (h : r.returns = true) (hf : ∀ a, (f a).returns = true) : (r >>= f).returns = true := by
  cases r with
  | ok a => exact hf a
  | err e => rfl
  | panic => cases h
  | exit => cases h
  | crash => cases h

theorem indexFromJSON_returns (l : List (GoString × RecordJSON)) (m : List (Sha1Hash × Record)) : (indexFromJSON l m).returns = true := by
  induction l generalizing m with
  | nil => rfl
  | cons e l ih =>
    obtain ⟨str, rec⟩ := e
    unfold indexFromJSON
    split
    · exact Res.bind_returns (fromJSON_returns rec) (fun _ => ih _)
    · rfl

theorem unmarshalIndex_returns (env : Env) (data : Bytes) : (unmarshalIndex env data).returns = true := by
  unfold unmarshalIndex
  split
  · rfl
  · exact Res.bind_returns (indexFromJSON_returns _ _) (fun _ => rfl)

theorem Steady.init {P : Assn} (env : Env) : Steady P (Cat.init env) := by
  refine Steady.seq Steady.getCat ?_
  intro cat
  refine Steady.setThen _ ?_
  refine Steady.seq Steady.osTouch (fun _ => Steady.seq Steady.osTouch (fun _ => Steady.seq (Steady.osStat _) ?_))
  intro o
  have tail : Steady AnyA (do
      let data ← Flu.osReadFile (indexPath cat.dataDir)
      let ind ← IOM.lift (unmarshalIndex env data)
      Flu.setIndex ind) :=
    Steady.seq (Steady.osReadFile _) (fun data => Steady.seq (Steady.lift _ (unmarshalIndex_returns env data)) (fun _ => Steady.setIndex _))
  cases o with
  | some _ => exact tail
  | none => exact Steady.setThen _ (Steady.seq (Steady.saveIndex env (fun _ _ h => h)) (fun _ => tail))

/-! ### Reading records -/

section
variable {d dl : Path} {ind : IndexFile} {fs0 : FS}

/-- Every record's progress can be read from the files `fs0`. -/
def Viewable (d : Path) (ind : IndexFile) (fs0 : FS) : Prop := ∀ h r, mapGet ind.index h = some r → ∃ p, viewProgress d fs0 r = .ok p ∧ p.progress.Wf

theorem Steady.fillRecord (hv : Viewable d ind fs0) (h : Sha1Hash) (r : Record) :
    Steady (fun c fs => RO d dl ind fs0 c fs ∧ (c.indexFile.bind (fun i => mapGet i.index h) = some r)) (fillRecord r) := by
  unfold Flu.fillRecord
  split
  · exact Steady.pure _
  · rename_i hn
    refine Steady.bind Steady.getCat (Triple.getCat (E := AnyA)) ?_
    intro cat
    refine Steady.bind (Q := fun _ => HasIdx) (E := AnyA) ?_ ?_ ?_
    · refine Steady.bind (Steady.osReadFile _) (Triple.osReadFile (E := AnyA) _ (fun _ _ _ => trivial)) ?_
      intro data
      refine Steady.bind (Q := fun _ => AnyA) (E := AnyA) (Steady.liftP _ ?_) (fun _ _ => ⟨fun _ _ _ => trivial, fun _ _ _ _ => trivial⟩) (fun _ => Steady.pure _)
      rintro c fs ⟨⟨⟨⟨rfl, m', rfl, hm⟩, hr⟩, rfl⟩, hf⟩
      obtain ⟨r0, h1, h2, -⟩ := hm.view (h := h) (r := r) hr
      obtain ⟨p, h3, -⟩ := hv h r0 h1
      rw [← h2] at h3
      unfold viewProgress at h3
      rw [hn] at h3
      simp only at hf h3
      rw [hf] at h3
      simp only at h3
      cases e : Bitset.deserialize data with
      | ok b => rfl
      | err _ => rfl
      | panic => rw [e] at h3; cases h3
      | exit => rw [e] at h3; cases h3
      | crash => rw [e] at h3; cases h3
    · refine Triple.bind (Q := fun _ => HasIdx) ((Triple.osReadFile (P := HasIdx) (E := AnyA) _ (fun _ _ _ => trivial)).conseq ?_ (fun _ _ _ h => h.1) (fun _ _ h => h)) ?_
      · rintro c fs ⟨⟨⟨_, m', rfl, _⟩, _⟩, _⟩
        exact ⟨_, rfl⟩
      · intro data
        exact Triple.bind (Q := fun _ => HasIdx) (Triple.lift _ (fun _ _ _ _ h => h) (fun _ _ _ => trivial)) (fun _ => Triple.pure _ (fun _ _ h => h))
    · intro p
      exact Steady.seq (Steady.updateRecord _ (fun _ _ h => h)) (fun _ => Steady.pure _)

theorem RO.hasIdx {c : Cat} {fs : FS} (h : RO d dl ind fs0 c fs) : HasIdx c fs := by
  obtain ⟨_, m', rfl, _⟩ := h
  exact ⟨_, rfl⟩

theorem Steady.getIndexRecord (hv : Viewable d ind fs0) (h : Sha1Hash) : Steady (RO d dl ind fs0) (getIndexRecord h) := by
  refine Steady.bind (Steady.getIndex (fun _ _ h => h.hasIdx)) (Triple.getIndex (E := AnyA) (fun _ _ _ => trivial)) ?_
  intro i
  split
  · rename_i r hr
    refine (Steady.fillRecord (dl := dl) hv h r).pre ?_
    rintro c fs ⟨h1, h2⟩
    refine ⟨h1, ?_⟩
    rw [h2]; exact hr
  · exact Steady.lift _ rfl

theorem Steady.listLoop (hv : Viewable d ind fs0) (ho : Own ind.index) (order : List Sha1Hash) : Steady (RO d dl ind fs0) (listLoop order) := by
  induction order with
  | nil => exact Steady.pure _
  | cons h rest ih =>
    refine Steady.bind (Steady.getIndex (fun _ _ h => h.hasIdx)) (Triple.getIndex (E := AnyA) (fun _ _ _ => trivial)) ?_
    intro i
    split
    · exact ih.pre (fun _ _ h => h.1)
    · rename_i r hr
      have hpre : ∀ (c : Cat) (fs : FS), RO d dl ind fs0 c fs ∧ c.indexFile = some i → RO d dl ind fs0 c fs ∧ (c.indexFile.bind (fun i => mapGet i.index h) = some r) := by
        rintro c fs ⟨h1, h2⟩
        refine ⟨h1, ?_⟩
        rw [h2]; exact hr
      refine Steady.bind ((Steady.fillRecord hv h r).pre hpre) ((ro_fillRecord ho h r).pre hpre) ?_
      intro r'
      refine Steady.bind (Q := fun _ => RO d dl ind fs0) (E := AnyA) (Steady.liftP _ ?_) (Triple.lift _ (fun _ _ c fs h => h.1) (fun c fs h => trivial)) ?_
      · rintro c fs ⟨-, r0, p, -, -, rfl⟩
        rfl
      · intro e
        exact Steady.seq ih (fun _ => Steady.pure _)

end
end Flu
