import Verif.Model.Clean
import Verif.Props.CatCrash
/-!
# The `clean` command (C39)
-/
namespace Flu

section
variable {env : Env} {d dl : Path} {c : Cat} {fs : FS}

/-! ### Lemmas -/

theorem Triple.attempt {α : Type} {P : Assn} {x : CM α} {Q : α → Assn} {E : Assn} (h : Triple P x Q E) :
    Triple P (IOM.attempt x) (fun r c fs => match r with | .ok a => Q a c fs | .error _ => E c fs) E := by
  intro s hs
  obtain ⟨h1, h2⟩ := h s hs
  unfold IOM.attempt
  rcases hx : x s with ⟨r, s1⟩
  cases r with
  | ok a =>
    refine ⟨?_, fun r s' e hne => ?_⟩
    · intro b s' e; cases e; exact h1 a _ hx
    · cases e; exact absurd rfl (hne _)
  | err e0 =>
    refine ⟨?_, fun r s' e hne => ?_⟩
    · intro b s' e; cases e; exact h2 _ _ hx (fun a e => by cases e)
    · cases e; exact absurd rfl (hne _)
  | panic => exact ⟨fun b s' e => (by cases e), fun r s' e hne => by cases e; exact h2 _ _ hx (fun a e => by cases e)⟩
  | exit => exact ⟨fun b s' e => (by cases e), fun r s' e hne => by cases e; exact h2 _ _ hx (fun a e => by cases e)⟩
  | crash => exact ⟨fun b s' e => (by cases e), fun r s' e hne => by cases e; exact h2 _ _ hx (fun a e => by cases e)⟩

theorem ro_rehashCall {ind : IndexFile} {fs0 : FS} (env : Env) (ho : Own ind.index) (h : Sha1Hash) :
    Triple (RO d dl ind fs0) (rehashCall env h) (fun oe c fs => RO d dl ind fs0 c fs ∧
      ((oe = (none, oe.2) ∨ ∃ e, oe = (some Sha1Hash.blank, some e)) ∨
        ∃ x, oe = (some x, none) ∧ ∃ r, Found d ind fs0 h r ∧ (fs0 r.filePath).map env.sha1 = some x)) (RO d dl ind fs0) := by
  refine Triple.bind (Triple.attempt (ro_getIndexRecord ho h)) ?_
  intro r
  cases r with
  | error e =>
    intro s hs
    refine ⟨fun a s' e => ?_, fun r s' e hne => ?_⟩
    · cases e; exact ⟨hs, .inl (.inl rfl)⟩
    · cases e; exact absurd rfl (hne _)
  | ok r =>
    refine Triple.bind (Triple.attempt (Triple.osHashFile env _ (E := RO d dl ind fs0) (fun _ _ h => h.1))) ?_
    intro x
    cases x with
    | error e =>
      intro s hs
      refine ⟨fun a s' e => ?_, fun r s' e hne => ?_⟩
      · cases e; exact ⟨hs, .inl (.inr ⟨_, rfl⟩)⟩
      · cases e; exact absurd rfl (hne _)
    | ok x =>
      intro s hs
      refine ⟨fun a s' e => ?_, fun r s' e hne => ?_⟩
      · cases e
        obtain ⟨⟨h1, h2⟩, h3⟩ := hs
        rw [h1.1] at h3
        exact ⟨h1, .inr ⟨x, rfl, r, h2, h3⟩⟩
      · cases e; exact absurd rfl (hne _)

theorem attempt_eq {σ α : Type} (x : IOM σ α) (s : σ) (a : Except Err α) (s' : σ) (h : IOM.attempt x s = (.ok a, s')) :
    (∃ v, a = .ok v ∧ x s = (.ok v, s')) ∨ ∃ e, a = .error e ∧ x s = (.err e, s') := by
  unfold IOM.attempt at h
  rcases hx : x s with ⟨r, s1⟩
  rw [hx] at h
  cases r with
  | ok v => cases h; exact .inl ⟨v, rfl, rfl⟩
  | err e => cases h; exact .inr ⟨e, rfl, rfl⟩
  | panic => cases h
  | exit => cases h
  | crash => cases h

theorem attempt_apply {σ α : Type} (x : IOM σ α) (s : σ) : IOM.attempt x s = (match x s with
    | (.ok a, s') => (.ok (.ok a), s')
    | (.err e, s') => (.ok (.error e), s')
    | (.panic, s') => (.panic, s')
    | (.exit, s') => (.exit, s')
    | (.crash, s') => (.crash, s')) := rfl

/-- `rehashCall` is `Rehash`. -/
theorem rehashCall_run (h : Sha1Hash) (s s' : St) (o : Option Sha1Hash) (e : Option Err) (hrun : rehashCall env h s = (.ok (o, e), s')) :
    (Op.rehash h).run env s = (.ok (), s') ∨ ∃ x, (Op.rehash h).run env s = (.err x, s') := by
  unfold rehashCall at hrun
  obtain ⟨r, s1, h1, h2⟩ := (IOM.bind_ok_iff _ _ _ _ _).1 hrun
  show CM.void (rehash env h) s = _ ∨ ∃ x, CM.void (rehash env h) s = _
  unfold CM.void rehash
  rw [IOM.bind_apply, IOM.bind_apply]
  rcases attempt_eq _ _ _ _ h1 with ⟨v, rfl, h3⟩ | ⟨x, rfl, h3⟩
  · rw [h3]
    simp only at h2 ⊢
    obtain ⟨y, s2, h4, h5⟩ := (IOM.bind_ok_iff _ _ _ _ _).1 h2
    rcases attempt_eq _ _ _ _ h4 with ⟨w, rfl, h6⟩ | ⟨x, rfl, h6⟩
    · rw [h6]
      cases h5; exact .inl rfl
    · rw [h6]
      cases h5; exact .inr ⟨_, rfl⟩
  · rw [h3]
    cases h2; exact .inr ⟨_, rfl⟩

/-- A call that returns, with a result or an error, as a step of the system. -/
theorem Reach.returns (h : Reach env d dl (.running c fs)) (o : Op) (hs : o.Safe d c) (fl : List Fault)
    (s' : St) (hrun : o.run env ⟨c, fs, fl⟩ = (.ok (), s') ∨ ∃ x, o.run env ⟨c, fs, fl⟩ = (.err x, s')) : Reach env d dl (.running s'.cat s'.fs) := by
  obtain ⟨fs0, h0, h1⟩ := h
  refine ⟨fs0, h0, Steps.step h1 ?_⟩
  have := Step.call (env := env) (d := d) (dl := dl) o fl c fs hs
  rcases hrun with hrun | ⟨x, hrun⟩
  · rw [hrun] at this; exact this
  · rw [hrun] at this; exact this

theorem CleanReach.returns (h : CleanReach env d dl (.running c fs)) (o : Op) (hs : o.Safe d c)
    (s' : St) (hrun : o.run env ⟨c, fs, []⟩ = (.ok (), s') ∨ ∃ x, o.run env ⟨c, fs, []⟩ = (.err x, s')) : CleanReach env d dl (.running s'.cat s'.fs) := by
  rcases hrun with hrun | ⟨x, hrun⟩
  · exact CleanReach.call o c fs _ s' h hs hrun rfl
  · exact CleanReach.call o c fs _ s' h hs hrun rfl

/-- What `rehashCall` says about a file the catalogue shows; it changes nothing. -/
theorem rehashCall_ok (hh : Healthy env d) (hreach : Reach env d dl (.running c fs)) (h : Sha1Hash) (f : Export) (ho : observe c fs h = .ok f) (fl : List Fault)
    (o : Option Sha1Hash) (e : Option Err) (s' : St) (hrun : rehashCall env h ⟨c, fs, fl⟩ = (.ok (o, e), s')) :
    s'.fs = fs ∧ (∀ k, observe s'.cat s'.fs k = observe c fs k) ∧
      ((o = none ∨ (o = some Sha1Hash.blank ∧ e ≠ none)) ∨ ∃ x, o = some x ∧ e = none ∧ (fs f.filePath).map env.sha1 = some x) ∧ (o = none → e ≠ none) := by
  have hI : Inv env d dl c fs := hreach.inv hh.abs hh.utf8
  obtain ⟨ind, rfl, hw⟩ := hI.split
  obtain ⟨h1, h2⟩ := (ro_rehashCall (dl := dl) (fs0 := fs) env hw.ownGet h ⟨_, fs, fl⟩ (RO.init d dl ind fs)).1 _ s' hrun
  refine ⟨h1.same.1, h1.same.2, ?_, ?_⟩
  · rcases h2 with (h2 | ⟨x, h2⟩) | ⟨x, h2, r, ⟨r0, p, g1, g2, rfl⟩, h4⟩
    · cases h2; exact .inl (.inl rfl)
    · cases h2; exact .inl (.inr ⟨rfl, by simp⟩)
    · cases h2
      refine .inr ⟨x, rfl, rfl, ?_⟩
      rw [observe_eq] at ho
      unfold obsRec at ho
      rw [g1] at ho
      simp only at ho
      rw [g2] at ho
      cases ho
      exact h4
  · rintro rfl
    intro he; subst he
    unfold rehashCall at hrun
    obtain ⟨r, s1, h1, h2⟩ := (IOM.bind_ok_iff _ _ _ _ _).1 hrun
    cases r with
    | error e => cases h2
    | ok r =>
      simp only at h2
      obtain ⟨y, s2, h4, h5⟩ := (IOM.bind_ok_iff _ _ _ _ _).1 h2
      cases y <;> cases h5

/-- Without faults, `rehashCall` of a file the catalogue shows says whether the file is there. -/
theorem rehashCall_nil (hh : Healthy env d) (hreach : Reach env d dl (.running c fs)) (h : Sha1Hash) (f : Export) (ho : observe c fs h = .ok f) :
    ∃ c', rehashCall env h ⟨c, fs, []⟩ = (.ok (match fs f.filePath with
      | some content => (some (env.sha1 content), none)
      | none => (some Sha1Hash.blank, some .io)), ⟨c', fs, []⟩) := by
  have hI : Inv env d dl c fs := hreach.inv hh.abs hh.utf8
  obtain ⟨ind, rfl, hw⟩ := hI.split
  rw [observe_eq] at ho
  unfold obsRec at ho
  rcases hm : mapGet ind.index h with _ | r
  · rw [hm] at ho; cases ho
  rw [hm] at ho
  simp only at ho
  obtain ⟨p, hp, he⟩ := (Res.bind_ok_iff _ _ _).1 ho
  cases he
  unfold rehashCall
  rw [IOM.bind_apply, attempt_apply]
  simp only [getIndexRecord_nil, hm, hp]
  rw [IOM.bind_apply, attempt_apply]
  simp only [osHashFile, IOM.bind_apply, osReadFile_nil, Record.exportWith]
  rcases fs r.filePath with _ | content <;> exact ⟨_, rfl⟩

/-- What one iteration of `Clean` may do to the catalogue: nothing, or remove the record. -/
def Kept (c : Cat) (fs : FS) (s' : St) : Prop := s'.fs = fs ∧ ∀ k, observe s'.cat s'.fs k = observe c fs k

/-- The record of `h` is gone and nothing else changed. -/
def Gone (d : Path) (c : Cat) (fs : FS) (h : Sha1Hash) (s' : St) : Prop :=
  observe s'.cat s'.fs h = .err .fileNotFound ∧ (∀ k, k ≠ h → observe s'.cat s'.fs k = observe c fs k) ∧ ∀ q, ¬ CatFile d q → s'.fs q = fs q

/-- The four outcomes of an iteration. -/
def CleanCase (env : Env) (d : Path) (c : Cat) (fs : FS) (f : Export) (it : CleanItem) (s' : St) : Prop :=
  match it.action with
  | .missing => Gone d c fs f.sha1Hash s' ∧ it.currentHash = Sha1Hash.blank
  | .inProgress => Kept c fs s' ∧ f.progress.full = .ok false ∧ (fs f.filePath).map env.sha1 = some it.currentHash
  | .changed => Gone d c fs f.sha1Hash s' ∧ f.progress.full = .ok true ∧ (fs f.filePath).map env.sha1 = some it.currentHash ∧ it.currentHash ≠ f.sha1Hash
  | .fine => Kept c fs s' ∧ f.progress.full = .ok true ∧ (fs f.filePath).map env.sha1 = some it.currentHash ∧ it.currentHash = f.sha1Hash

theorem cleanOne_ok (hh : Healthy env d) (hreach : Reach env d dl (.running c fs)) (f : Export) (ho : observe c fs f.sha1Hash = .ok f) (fl : List Fault)
    (it : CleanItem) (s' : St) (hrun : cleanOne env f ⟨c, fs, fl⟩ = (.ok it, s')) :
    Reach env d dl (.running s'.cat s'.fs) ∧ it.indexedHash = f.sha1Hash ∧ it.filePath = f.filePath ∧ CleanCase env d c fs f it s' ∧
      (fl = [] → s'.faults = [] ∧ (it.action = .missing → fs f.filePath = none)) := by
  unfold cleanOne at hrun
  obtain ⟨⟨o, e⟩, s1, h1, hrun⟩ := (IOM.bind_ok_iff _ _ _ _ _).1 hrun
  obtain ⟨g1, g2, g3, g4⟩ := rehashCall_ok hh hreach _ f ho fl o e s1 h1
  have hreach1 := hreach.returns (.rehash f.sha1Hash) trivial fl s1 (rehashCall_run _ _ _ _ _ h1)
  have hnil : fl = [] → s1.faults = [] ∧ (e ≠ none → fs f.filePath = none) := by
    rintro rfl
    obtain ⟨c', hn⟩ := rehashCall_nil hh hreach f.sha1Hash f ho
    rw [h1] at hn
    rcases hc : fs f.filePath with _ | content
    · rw [hc] at hn; cases hn; exact ⟨rfl, fun _ => rfl⟩
    · rw [hc] at hn; cases hn; exact ⟨rfl, fun h => absurd rfl h⟩
  obtain ⟨a, s2, h2, h3⟩ := (IOM.bind_ok_iff _ _ _ _ _).1 hrun
  obtain ⟨c1, fs1, fl1⟩ := s1
  simp only at g1 g2 hreach1 hnil
  subst g1
  have hun : ∀ s3, unshareFile env f.sha1Hash ⟨c1, fs1, fl1⟩ = (.ok (), s3) → Reach env d dl (.running s3.cat s3.fs) ∧ Gone d c fs1 f.sha1Hash s3 ∧ (fl = [] → s3.faults = []) := by
    intro s3 hu
    obtain ⟨-, k1, -, k2, k3⟩ := C28_unshare hh hreach1 f.sha1Hash fl1 s3 hu
    refine ⟨hreach1.call (.unshare f.sha1Hash) trivial fl1 s3 hu, ⟨k1, fun k hk => by rw [k2 k hk, g2], fun q hq => k3 q (fun e => hq (.inl e)) (fun e => hq (.inr ⟨_, e⟩))⟩, ?_⟩
    intro hfl
    have hfl1 := (hnil hfl).1
    subst hfl1
    have := OkClean.unshareFile env f.sha1Hash _ _ _ hu
    rw [St.quiet_eq] at this
    simp only at this
    rw [hu] at this
    have h6 := congrArg (fun x => x.2.faults) this
    exact h6
  cases e with
  | some e =>
    simp only at h2
    obtain ⟨u, s3, hu, h4⟩ := (IOM.bind_ok_iff _ _ _ _ _).1 h2
    cases h4
    obtain ⟨k1, k2, k3⟩ := hun _ hu
    rcases g3 with (rfl | ⟨rfl, -⟩) | ⟨x, rfl, h5, -⟩
    · cases h3
    · cases h3
      refine ⟨k1, rfl, rfl, ⟨k2, rfl⟩, fun hfl => ⟨k3 hfl, fun _ => (hnil hfl).2 (by simp)⟩⟩
    · cases h5
  | none =>
    rcases g3 with (rfl | ⟨rfl, h5⟩) | ⟨x, rfl, -, hx⟩
    · exact absurd rfl (g4 rfl)
    · exact absurd rfl h5
    simp only at h2 h3
    obtain ⟨b, s3, hb, h4⟩ := (IOM.bind_ok_iff _ _ _ _ _).1 h2
    rw [IOM.lift_apply] at hb
    simp only [Prod.mk.injEq] at hb
    obtain ⟨hb, rfl⟩ := hb
    cases b with
    | false =>
      simp only [Bool.not_false, if_true] at h4
      cases h4; cases h3
      exact ⟨hreach1, rfl, rfl, ⟨⟨rfl, g2⟩, hb, hx⟩, fun hfl => ⟨(hnil hfl).1, fun h => (by cases h)⟩⟩
    | true =>
      simp only [Bool.not_true, Bool.false_eq_true, if_false] at h4
      by_cases hne : some x ≠ some f.sha1Hash
      · rw [if_pos hne] at h4
        obtain ⟨u, s3, hu, h5⟩ := (IOM.bind_ok_iff _ _ _ _ _).1 h4
        cases h5; cases h3
        obtain ⟨k1, k2, k3⟩ := hun _ hu
        exact ⟨k1, rfl, rfl, ⟨k2, hb, hx, fun h => hne (congrArg some h)⟩, fun hfl => ⟨k3 hfl, fun h => (by cases h)⟩⟩
      · rw [if_neg hne] at h4
        cases h4; cases h3
        exact ⟨hreach1, rfl, rfl, ⟨⟨rfl, g2⟩, hb, hx, by simpa using hne⟩, fun hfl => ⟨(hnil hfl).1, fun h => (by cases h)⟩⟩

/-! ### C39 -/

/-- The entries that should survive: the file is readable and is either an unfinished download or still has the indexed hash. -/
def Sound (env : Env) (fs : FS) (e : Export) : Prop :=
  ∃ content, fs e.filePath = some content ∧ (e.progress.full = .ok false ∨ env.sha1 content = e.sha1Hash)

/-- What a response item must say. -/
def ItemOK (env : Env) (fs : FS) (e : Export) (it : CleanItem) : Prop :=
  it.filePath = e.filePath ∧ it.indexedHash = e.sha1Hash ∧
  (it.action = .missing ↔ fs e.filePath = none) ∧
  (it.action = .inProgress ↔ fs e.filePath ≠ none ∧ e.progress.full = .ok false) ∧
  (it.action = .changed ↔ ∃ content, fs e.filePath = some content ∧ e.progress.full = .ok true ∧ env.sha1 content ≠ e.sha1Hash) ∧
  (it.action = .fine ↔ ∃ content, fs e.filePath = some content ∧ e.progress.full = .ok true ∧ env.sha1 content = e.sha1Hash) ∧
  it.currentHash = ((fs e.filePath).map env.sha1).getD Sha1Hash.blank

theorem CleanCase.ok {f : Export} {it : CleanItem} {s' : St} (h : CleanCase env d c fs f it s') (h1 : it.indexedHash = f.sha1Hash) (h2 : it.filePath = f.filePath)
    (h3 : it.action = .missing → fs f.filePath = none) :
    ItemOK env fs f it ∧ (Sound env fs f → Kept c fs s') ∧ (¬ Sound env fs f → Gone d c fs f.sha1Hash s') := by
  unfold CleanCase at h
  unfold ItemOK
  rcases hf : fs f.filePath with _ | content
  · have hns : ¬ Sound env fs f := by rintro ⟨x, hx, -⟩; rw [hf] at hx; cases hx
    rcases ha : it.action with _ | _ | _ | _
    · rw [ha] at h
      simp only at h
      exact ⟨⟨h2, h1, by simp, by simp, by simp, by simp, by rw [h.2]; rfl⟩, fun h => absurd h hns, fun _ => h.1⟩
    all_goals rw [ha] at h; simp only at h
    · rw [hf] at h; exact absurd h.2.2 (by simp)
    · rw [hf] at h; exact absurd h.2.2.1 (by simp)
    · rw [hf] at h; exact absurd h.2.2.1 (by simp)
  · rcases ha : it.action with _ | _ | _ | _
    · rw [h3 ha] at hf; cases hf
    all_goals rw [ha] at h; simp only at h
    all_goals rw [hf] at h; simp only [Option.map_some, Option.some.injEq] at h
    · obtain ⟨k1, k2, k3⟩ := h
      refine ⟨⟨h2, h1, by simp, by simp [k2], by simp [k2], by simp [k2], by simp [k3]⟩, fun _ => k1, fun hs => ?_⟩
      exact absurd ⟨content, hf, .inl k2⟩ hs
    · obtain ⟨k1, k2, k3, k4⟩ := h
      refine ⟨⟨h2, h1, by simp, by simp [k2], ?_, ?_, by simp [k3]⟩, ?_, fun _ => k1⟩
      · simp only [true_iff]; exact ⟨content, rfl, k2, by rw [k3]; exact k4⟩
      · simp only [reduceCtorEq, false_iff]
        rintro ⟨x, hx, -, h5⟩
        cases hx
        rw [k3] at h5; exact k4 h5
      · rintro ⟨x, hx, h5⟩
        rw [hf] at hx; cases hx
        rcases h5 with h5 | h5
        · rw [k2] at h5; cases h5
        · rw [k3] at h5; exact absurd h5 k4
    · obtain ⟨k1, k2, k3, k4⟩ := h
      refine ⟨⟨h2, h1, by simp, by simp [k2], ?_, ?_, by simp [k3]⟩, fun _ => k1, fun hs => ?_⟩
      · simp only [reduceCtorEq, false_iff]
        rintro ⟨x, hx, -, h5⟩
        cases hx
        rw [k3] at h5; exact h5 k4
      · simp only [true_iff]; exact ⟨content, rfl, k2, by rw [k3]; exact k4⟩
      · exact absurd ⟨content, hf, .inr (by rw [k3]; exact k4)⟩ hs

theorem cleanLoop_ok (hh : Healthy env d) (es : List Export) : ∀ {c : Cat} {fs : FS}, Reach env d dl (.running c fs) →
    (∀ e ∈ es, observe c fs e.sha1Hash = .ok e) → (es.map (·.sha1Hash)).Nodup → (∀ e ∈ es, ¬ CatFile d e.filePath) → ∀ (items : List CleanItem) (s' : St),
    cleanLoop env es ⟨c, fs, []⟩ = (.ok items, s') →
    Reach env d dl (.running s'.cat s'.fs) ∧ s'.faults = [] ∧ (∀ q, ¬ CatFile d q → s'.fs q = fs q) ∧
      (∀ e ∈ es, (Sound env fs e → observe s'.cat s'.fs e.sha1Hash = .ok e) ∧ (¬ Sound env fs e → observe s'.cat s'.fs e.sha1Hash = .err .fileNotFound)) ∧
      (∀ h, h ∉ es.map (·.sha1Hash) → observe s'.cat s'.fs h = observe c fs h) ∧
      items.length = es.length ∧ ∀ (i : Nat) (it : CleanItem), items[i]? = some it → ∃ e, es[i]? = some e ∧ ItemOK env fs e it := by
  induction es with
  | nil =>
    intro c fs hreach _ _ _ items s' hrun
    cases hrun
    exact ⟨hreach, rfl, fun _ _ => rfl, by simp, fun _ _ => rfl, rfl, by simp⟩
  | cons f es ih =>
    intro c fs hreach hobs hnd hcat items s' hrun
    unfold cleanLoop at hrun
    obtain ⟨it, s1, h1, hrun⟩ := (IOM.bind_ok_iff _ _ _ _ _).1 hrun
    obtain ⟨its, s2, h2, hrun⟩ := (IOM.bind_ok_iff _ _ _ _ _).1 hrun
    cases hrun
    obtain ⟨g1, g2, g3, g4, g5⟩ := cleanOne_ok hh hreach f (hobs f (by simp)) [] it s1 h1
    obtain ⟨g5, g6⟩ := g5 rfl
    obtain ⟨k1, k2, k3⟩ := g4.ok g2 g3 g6
    have hfr : (∀ k, k ≠ f.sha1Hash → observe s1.cat s1.fs k = observe c fs k) ∧ ∀ q, ¬ CatFile d q → s1.fs q = fs q := by
      by_cases hs : Sound env fs f
      · exact ⟨fun k _ => (k2 hs).2 k, fun q _ => by rw [(k2 hs).1]⟩
      · exact (k3 hs).2
    simp only [List.map_cons, List.nodup_cons] at hnd
    have hne : ∀ e ∈ es, e.sha1Hash ≠ f.sha1Hash := fun e he h => hnd.1 (by rw [← h]; exact List.mem_map.2 ⟨e, he, rfl⟩)
    obtain ⟨c1, fs1, fl1⟩ := s1
    simp only at g5 hfr g1
    subst g5
    have hsound : ∀ e ∈ es, (Sound env fs1 e ↔ Sound env fs e) := by
      intro e he
      unfold Sound
      rw [hfr.2 _ (hcat e (List.mem_cons_of_mem _ he))]
    have hitem : ∀ e ∈ es, ∀ it, ItemOK env fs1 e it → ItemOK env fs e it := by
      intro e he it hi
      unfold ItemOK at hi ⊢
      rw [hfr.2 _ (hcat e (List.mem_cons_of_mem _ he))] at hi
      exact hi
    obtain ⟨m1, m2, m3, m4, m5, m6, m7⟩ := ih g1 (fun e he => by rw [hfr.1 _ (hne e he)]; exact hobs e (List.mem_cons_of_mem _ he)) hnd.2
      (fun e he => hcat e (List.mem_cons_of_mem _ he)) its _ h2
    refine ⟨m1, m2, fun q hq => by rw [m3 q hq, hfr.2 q hq], ?_, ?_, by simp [m6], ?_⟩
    · intro e he
      rcases List.mem_cons.1 he with rfl | he
      · rw [m5 _ hnd.1]
        exact ⟨fun hs => by rw [(k2 hs).2]; exact hobs e (by simp), fun hs => (k3 hs).1⟩
      · have := m4 e he
        rw [hsound e he] at this
        exact this
    · intro h hx
      simp only [List.map_cons, List.mem_cons, not_or] at hx
      rw [m5 h hx.2, hfr.1 h hx.1]
    · intro i it' hi
      cases i with
      | zero => simp only [List.getElem?_cons_zero, Option.some.injEq] at hi; subst hi; exact ⟨f, rfl, k1⟩
      | succ i =>
        simp only [List.getElem?_cons_succ] at hi
        obtain ⟨e, he, hx⟩ := m7 i it' hi
        exact ⟨e, he, hitem e (List.mem_of_getElem? he) it' hx⟩

/-- C39: a successful `Clean` on any reachable catalogue, in any iteration order, with a well-behaved operating system: sound entries stay as they were, all others are gone, nothing is
added, files that are not the catalogue's own are untouched, and there is one response item per former record that says what was found. -/
theorem C39_clean (hh : Healthy env d) (hreach : Reach env d dl (.running c fs)) (order : List Sha1Hash) (ho : MapOrder c order)
    (hpaths : ∀ h e, observe c fs h = .ok e → ¬ CatFile d e.filePath) (items : List CleanItem) (s' : St) (hrun : clean env order ⟨c, fs, []⟩ = (.ok items, s')) :
    (∀ h e, observe c fs h = .ok e → (Sound env fs e → observe s'.cat s'.fs h = .ok e) ∧ (¬ Sound env fs e → observe s'.cat s'.fs h = .err .fileNotFound)) ∧
      (∀ h, observe c fs h = .err .fileNotFound → observe s'.cat s'.fs h = .err .fileNotFound) ∧
      (∀ q, ¬ CatFile d q → s'.fs q = fs q) ∧
      items.map (·.indexedHash) = order ∧
      (∀ it ∈ items, ∃ e, observe c fs it.indexedHash = .ok e ∧ ItemOK env fs e it) ∧
      Reach env d dl (.running s'.cat s'.fs) := by
  have hrun0 := hrun
  unfold clean at hrun0
  clear hrun
  obtain ⟨es, s1, h1, hrun⟩ := (IOM.bind_ok_iff _ _ _ _ _).1 hrun0
  obtain ⟨g1, g2, g3, g4, g5⟩ := C38_list hh hreach order ho [] es s1 h1
  have hown := fun h e (he : observe c fs h = .ok e) => C27_own hh hreach h e he
  have hreach1 := hreach.call (.list order) trivial [] s1 (CM.void_ok _ _ _ _ h1)
  have hfl : s1.faults = [] := by
    have := OkClean.listFiles order _ _ _ h1
    rw [St.quiet_eq] at this
    simp only at this
    rw [h1] at this
    have h6 := congrArg (fun x => x.2.faults) this
    exact h6
  have hes : ∀ e ∈ es, observe c fs e.sha1Hash = .ok e := by
    intro e he
    have : Res.ok e ∈ order.map (observe c fs) := by rw [g1]; exact List.mem_map.2 ⟨e, he, rfl⟩
    obtain ⟨h, -, hh'⟩ := List.mem_map.1 this
    rw [hown h e hh']; exact hh'
  have hmap : es.map (·.sha1Hash) = order := by
    clear h1 hreach1 hrun g3 hes ho hrun0
    induction order generalizing es with
    | nil => cases es with
      | nil => rfl
      | cons e es => simp at g1
    | cons h order ih => cases es with
      | nil => simp at g1
      | cons e es =>
        simp only [List.map_cons, List.cons.injEq] at g1 ⊢
        exact ⟨hown h e g1.1, ih es g1.2 (List.nodup_cons.1 g2).2⟩
  obtain ⟨c1, fs1, fl1⟩ := s1
  simp only at hfl g4 g5 hreach1
  subst hfl; subst g4
  obtain ⟨m1, m2, m3, m4, m5, m6, m7⟩ := cleanLoop_ok hh es hreach1 (fun e he => by rw [g5]; exact hes e he) (by rw [hmap]; exact g2)
    (fun e he => hpaths _ e (hes e he)) items s' hrun
  refine ⟨?_, ?_, m3, ?_, ?_, m1⟩
  · intro h e he
    have : h ∈ order := (g3 h).2 (by rw [he]; intro x; cases x)
    rw [← hmap] at this
    obtain ⟨e', he', rfl⟩ := List.mem_map.1 this
    have := hes e' he'
    rw [this] at he; cases he
    exact m4 e he'
  · intro h hx
    rw [m5 h (by rw [hmap]; intro hm; exact (g3 h).1 hm hx), g5]; exact hx
  · rw [← hmap]
    apply List.ext_getElem?
    intro i
    rw [List.getElem?_map, List.getElem?_map]
    rcases hi : items[i]? with _ | it
    · have : es[i]? = none := by rw [List.getElem?_eq_none_iff] at hi ⊢; omega
      rw [this]; rfl
    · obtain ⟨e, h5, h6⟩ := m7 i it hi
      rw [h5]; exact congrArg some h6.2.1
  · intro it hit
    obtain ⟨i, hi, rfl⟩ := List.getElem_of_mem hit
    obtain ⟨e, h5, h6⟩ := m7 i _ (List.getElem?_eq_getElem hi)
    refine ⟨e, ?_, h6⟩
    rw [h6.2.1]
    exact hes e (List.mem_of_getElem? h5)

/-- C39: cleaning again removes nothing more. -/
theorem C39_again (hh : Healthy env d) (hreach : Reach env d dl (.running c fs)) (order : List Sha1Hash) (ho : MapOrder c order)
    (hpaths : ∀ h e, observe c fs h = .ok e → ¬ CatFile d e.filePath) (hall : ∀ h, (∃ e, observe c fs h = .ok e) ∨ observe c fs h = .err .fileNotFound)
    (items items2 : List CleanItem) (s1 s2 : St) (hrun : clean env order ⟨c, fs, []⟩ = (.ok items, s1))
    (order2 : List Sha1Hash) (ho2 : MapOrder s1.cat order2) (hrun2 : clean env order2 ⟨s1.cat, s1.fs, []⟩ = (.ok items2, s2)) :
    ∀ h, observe s2.cat s2.fs h = observe s1.cat s1.fs h := by
  obtain ⟨h1, h2, h3, -, -, h4⟩ := C39_clean hh hreach order ho hpaths items s1 hrun
  have hback : ∀ h e, observe s1.cat s1.fs h = .ok e → observe c fs h = .ok e ∧ Sound env fs e := by
    intro h e he
    rcases hall h with ⟨e', he'⟩ | hx
    · obtain ⟨k1, k2⟩ := h1 h e' he'
      by_cases hs : Sound env fs e'
      · rw [k1 hs] at he; cases he; exact ⟨he', hs⟩
      · rw [k2 hs] at he; cases he
    · rw [h2 h hx] at he; cases he
  obtain ⟨g1, g2, -⟩ := C39_clean hh h4 order2 ho2 (fun h e he => hpaths h e (hback h e he).1) items2 s2 hrun2
  intro h
  rcases hall h with ⟨e, he⟩ | hx
  · obtain ⟨k1, k2⟩ := h1 h e he
    by_cases hs : Sound env fs e
    · rw [k1 hs]
      apply (g1 h e (k1 hs)).1
      unfold Sound at hs ⊢
      rw [h3 _ (hpaths h e he)]; exact hs
    · rw [k2 hs]; exact g2 h (k2 hs)
  · rw [h2 h hx]; exact g2 h (h2 h hx)

/-- Without faults and without earlier faults a file the catalogue shows can be unshared. -/
theorem unshare_total (hh : Healthy env d) (hreach : CleanReach env d dl (.running c fs)) (h : Sha1Hash) (f : Export) (ho : observe c fs h = .ok f) :
    ∃ s', unshareFile env h ⟨c, fs, []⟩ = (.ok (), s') := by
  refine ⟨(unshareFile env h ⟨c, fs, []⟩).2, ?_⟩
  obtain ⟨ind, rfl, hs⟩ := hreach.sync hh.abs hh.utf8
  have hI : Inv _ _ _ _ fs := hreach.reach.inv hh.abs hh.utf8
  obtain ⟨ind', he, hw⟩ := hI.split
  cases he
  rw [observe_eq] at ho
  unfold obsRec at ho
  rcases hm : mapGet ind.index h with _ | r
  · rw [hm] at ho; cases ho
  rw [hm] at ho
  simp only at ho
  obtain ⟨p, hv, hx⟩ := (Res.bind_ok_iff _ _ _).1 ho
  have hr := hw.recs _ _ (mapGet_mem _ _ _ hm)
  have hk := hw.own _ _ (mapGet_mem _ _ _ hm)
  have hpp := (viewProgress_loaded hI.disk hr hv).1
  rw [hk] at hpp
  obtain ⟨p', -, h2, -⟩ := hs.prog h r hm
  have hex : fs (progressPath d h) ≠ none := by
    intro hn
    unfold viewProgress at h2
    simp only [hk, hn] at h2
    cases h2
  unfold unshareFile
  simp only [IOM.bind_apply, getIndexRecord_nil, hm, hv, ProgressFile.delete, osRemove_nil, hpp]
  rcases hp : fs (progressPath d h) with _ | x
  · exact absurd hp hex
  · rfl

theorem progress_wf (hh : Healthy env d) (hreach : CleanReach env d dl (.running c fs)) (h : Sha1Hash) (f : Export) (ho : observe c fs h = .ok f) :
    f.progress.Wf := by
  obtain ⟨ind, rfl, hs⟩ := hreach.sync hh.abs hh.utf8
  have hI : Inv _ _ _ _ fs := hreach.reach.inv hh.abs hh.utf8
  obtain ⟨ind', he, hw⟩ := hI.split
  cases he
  rw [observe_eq] at ho
  unfold obsRec at ho
  rcases hm : mapGet ind.index h with _ | r
  · rw [hm] at ho; cases ho
  rw [hm] at ho
  simp only at ho
  obtain ⟨p, hv, hx⟩ := (Res.bind_ok_iff _ _ _).1 ho
  cases hx
  obtain ⟨p', h1, -, h2⟩ := hs.prog h r hm
  rw [hv] at h1; cases h1
  exact h2

theorem full_total (hh : Healthy env d) (hreach : CleanReach env d dl (.running c fs)) (h : Sha1Hash) (f : Export) (ho : observe c fs h = .ok f) :
    ∃ b, f.progress.full = .ok b := ⟨_, Bitset.full_eq _ (progress_wf hh hreach h f ho)⟩

theorem cleanOne_total (hh : Healthy env d) (hreach : CleanReach env d dl (.running c fs)) (f : Export) (ho : observe c fs f.sha1Hash = .ok f) :
    ∃ it s', cleanOne env f ⟨c, fs, []⟩ = (.ok it, s') ∧ CleanReach env d dl (.running s'.cat s'.fs) := by
  obtain ⟨c', hc⟩ := rehashCall_nil hh hreach.reach _ f ho
  obtain ⟨o, e, ho'⟩ : ∃ o e, (match fs f.filePath with
      | some content => (some (env.sha1 content), none)
      | none => (some Sha1Hash.blank, some Err.io) : Option Sha1Hash × Option Err) = (o, e) := ⟨_, _, rfl⟩
  rw [ho'] at hc
  have hc1 := hreach.returns (.rehash f.sha1Hash) trivial _ (rehashCall_run _ _ _ _ _ hc)
  obtain ⟨-, g2, -, -⟩ := rehashCall_ok hh hreach.reach _ f ho [] o e _ hc
  simp only at g2 hc1
  have ho1 : observe c' fs f.sha1Hash = .ok f := by rw [g2]; exact ho
  obtain ⟨s2, hu⟩ := unshare_total hh hc1 _ f ho1
  have hc2 := hc1.returns (.unshare f.sha1Hash) trivial s2 (.inl hu)
  unfold cleanOne
  rw [IOM.bind_apply, hc]
  simp only
  rcases hf : fs f.filePath with _ | content
  · rw [hf] at ho'; cases ho'
    simp only [IOM.bind_apply, hu]
    exact ⟨_, _, rfl, hc2⟩
  · rw [hf] at ho'; cases ho'
    obtain ⟨b, hb⟩ := full_total hh hc1 _ f ho1
    simp only [IOM.bind_apply, IOM.lift_apply, hb]
    cases b with
    | false => exact ⟨_, _, rfl, hc1⟩
    | true =>
      by_cases hne : some (env.sha1 content) ≠ some f.sha1Hash
      · simp only [Bool.not_true, Bool.false_eq_true, if_false, if_pos hne, IOM.bind_apply, hu]
        exact ⟨_, _, rfl, hc2⟩
      · simp only [Bool.not_true, Bool.false_eq_true, if_false, if_neg hne]
        exact ⟨_, _, rfl, hc1⟩

theorem cleanLoop_total (hh : Healthy env d) (es : List Export) : ∀ {c : Cat} {fs : FS}, CleanReach env d dl (.running c fs) →
    (∀ e ∈ es, observe c fs e.sha1Hash = .ok e) → (es.map (·.sha1Hash)).Nodup →
    ∃ items s', cleanLoop env es ⟨c, fs, []⟩ = (.ok items, s') ∧ CleanReach env d dl (.running s'.cat s'.fs) := by
  induction es with
  | nil => intro c fs hreach _ _; exact ⟨_, _, rfl, hreach⟩
  | cons f es ih =>
    intro c fs hreach hobs hnd
    obtain ⟨it, s1, h1, h2⟩ := cleanOne_total hh hreach f (hobs f (by simp))
    obtain ⟨g1, g2, g3, g4, g5⟩ := cleanOne_ok hh hreach.reach f (hobs f (by simp)) [] it s1 h1
    obtain ⟨g5, g6⟩ := g5 rfl
    obtain ⟨k1, k2, k3⟩ := g4.ok g2 g3 g6
    simp only [List.map_cons, List.nodup_cons] at hnd
    have hne : ∀ e ∈ es, e.sha1Hash ≠ f.sha1Hash := fun e he h => hnd.1 (by rw [← h]; exact List.mem_map.2 ⟨e, he, rfl⟩)
    have hfr : ∀ k, k ≠ f.sha1Hash → observe s1.cat s1.fs k = observe c fs k := by
      by_cases hs : Sound env fs f
      · exact fun k _ => (k2 hs).2 k
      · exact (k3 hs).2.1
    obtain ⟨c1, fs1, fl1⟩ := s1
    simp only at g5 hfr h2
    subst g5
    obtain ⟨its, s2, h3, h4⟩ := ih h2 (fun e he => by rw [hfr _ (hne e he)]; exact hobs e (List.mem_cons_of_mem _ he)) hnd.2
    refine ⟨it :: its, s2, ?_, h4⟩
    unfold cleanLoop
    simp only [IOM.bind_apply, h1, h3]
    rfl

/-- C39: `Clean` succeeds on every catalogue with a fault-free history, whatever happened to the shared files themselves. -/
theorem C39_total (hh : Healthy env d) (hreach : CleanReach env d dl (.running c fs)) (order : List Sha1Hash) (ho : MapOrder c order) :
    ∃ items s', clean env order ⟨c, fs, []⟩ = (.ok items, s') ∧ CleanReach env d dl (.running s'.cat s'.fs) := by
  obtain ⟨es, s1, h1⟩ := C38_total hh hreach.reach order ho (by
    obtain ⟨ind, rfl, hs⟩ := hreach.sync hh.abs hh.utf8
    intro h hx
    rw [observe_eq] at hx ⊢
    unfold obsRec at hx ⊢
    rcases hm : mapGet ind.index h with _ | r
    · rw [hm] at hx; exact absurd rfl hx
    · obtain ⟨p, hp, -⟩ := hs.prog h r hm
      simp only [hp]
      exact ⟨_, rfl⟩)
  obtain ⟨g1, g2, g3, g4, g5⟩ := C38_list hh hreach.reach order ho [] es s1 h1
  have hown := fun h e (he : observe c fs h = .ok e) => C27_own hh hreach.reach h e he
  have hreach1 := hreach.returns (.list order) trivial s1 (.inl (CM.void_ok _ _ _ _ h1))
  have hfl : s1.faults = [] := by
    have := OkClean.listFiles order _ _ _ h1
    rw [St.quiet_eq] at this
    simp only at this
    rw [h1] at this
    have h6 := congrArg (fun x => x.2.faults) this
    exact h6
  have hes : ∀ e ∈ es, observe c fs e.sha1Hash = .ok e := by
    intro e he
    have : Res.ok e ∈ order.map (observe c fs) := by rw [g1]; exact List.mem_map.2 ⟨e, he, rfl⟩
    obtain ⟨h, -, hh'⟩ := List.mem_map.1 this
    rw [hown h e hh']; exact hh'
  have hnd := C27_distinct hh hreach.reach order ho [] es s1 h1
  obtain ⟨c1, fs1, fl1⟩ := s1
  simp only at hfl g4 g5 hreach1
  subst hfl; subst g4
  obtain ⟨items, s2, h2, h3⟩ := cleanLoop_total hh es hreach1 (fun e he => by rw [g5]; exact hes e he) hnd
  refine ⟨items, s2, ?_, h3⟩
  unfold clean
  simp only [IOM.bind_apply, h1]
  exact h2

/-- The same loop when the operating system may fail at any point. -/
theorem cleanLoop_faults (hh : Healthy env d) (es : List Export) : ∀ {c : Cat} {fs : FS}, Reach env d dl (.running c fs) →
    (∀ e ∈ es, observe c fs e.sha1Hash = .ok e) → (es.map (·.sha1Hash)).Nodup → (∀ e ∈ es, ¬ CatFile d e.filePath) →
    ∀ (fl : List Fault) (items : List CleanItem) (s' : St), cleanLoop env es ⟨c, fs, fl⟩ = (.ok items, s') →
    Reach env d dl (.running s'.cat s'.fs) ∧ (∀ q, ¬ CatFile d q → s'.fs q = fs q) ∧
      (∀ e ∈ es, observe s'.cat s'.fs e.sha1Hash = .err .fileNotFound ∨ (observe s'.cat s'.fs e.sha1Hash = .ok e ∧ Sound env fs e)) ∧
      (∀ h, h ∉ es.map (·.sha1Hash) → observe s'.cat s'.fs h = observe c fs h) := by
  induction es with
  | nil =>
    intro c fs hreach _ _ _ fl items s' hrun
    cases hrun
    exact ⟨hreach, fun _ _ => rfl, by simp, fun _ _ => rfl⟩
  | cons f es ih =>
    intro c fs hreach hobs hnd hcat fl items s' hrun
    unfold cleanLoop at hrun
    obtain ⟨it, s1, h1, hrun⟩ := (IOM.bind_ok_iff _ _ _ _ _).1 hrun
    obtain ⟨its, s2, h2, hrun⟩ := (IOM.bind_ok_iff _ _ _ _ _).1 hrun
    cases hrun
    obtain ⟨g1, g2, g3, g4, -⟩ := cleanOne_ok hh hreach f (hobs f (by simp)) fl it s1 h1
    have hcase : Gone d c fs f.sha1Hash s1 ∨ (Kept c fs s1 ∧ Sound env fs f) := by
      unfold CleanCase at g4
      rcases ha : it.action with _ | _ | _ | _ <;> rw [ha] at g4 <;> simp only at g4
      · exact .inl g4.1
      · obtain ⟨k1, k2, k3⟩ := g4
        obtain ⟨x, hx, -⟩ := Option.map_eq_some_iff.1 k3
        exact .inr ⟨k1, x, hx, .inl k2⟩
      · exact .inl g4.1
      · obtain ⟨k1, k2, k3, k4⟩ := g4
        obtain ⟨x, hx, hy⟩ := Option.map_eq_some_iff.1 k3
        exact .inr ⟨k1, x, hx, .inr (by rw [hy]; exact k4)⟩
    have hfr : (∀ k, k ≠ f.sha1Hash → observe s1.cat s1.fs k = observe c fs k) ∧ ∀ q, ¬ CatFile d q → s1.fs q = fs q := by
      rcases hcase with hg | ⟨hk, -⟩
      · exact hg.2
      · exact ⟨fun k _ => hk.2 k, fun q _ => by rw [hk.1]⟩
    simp only [List.map_cons, List.nodup_cons] at hnd
    have hne : ∀ e ∈ es, e.sha1Hash ≠ f.sha1Hash := fun e he h => hnd.1 (by rw [← h]; exact List.mem_map.2 ⟨e, he, rfl⟩)
    obtain ⟨m1, m3, m4, m5⟩ := ih g1 (fun e he => by rw [hfr.1 _ (hne e he)]; exact hobs e (List.mem_cons_of_mem _ he)) hnd.2
      (fun e he => hcat e (List.mem_cons_of_mem _ he)) s1.faults its _ h2
    refine ⟨m1, fun q hq => by rw [m3 q hq, hfr.2 q hq], ?_, ?_⟩
    · intro e he
      rcases List.mem_cons.1 he with rfl | he
      · rw [m5 _ hnd.1]
        rcases hcase with hg | ⟨hk, hs⟩
        · exact .inl hg.1
        · exact .inr ⟨by rw [hk.2]; exact hobs e (by simp), hs⟩
      · rcases m4 e he with h | ⟨h, hs⟩
        · exact .inl h
        · refine .inr ⟨h, ?_⟩
          unfold Sound at hs ⊢
          rw [hfr.2 _ (hcat e (List.mem_cons_of_mem _ he))] at hs
          exact hs
    · intro h hx
      simp only [List.map_cons, List.mem_cons, not_or] at hx
      rw [m5 h hx.2, hfr.1 h hx.1]

/-- C39: even if the operating system fails at arbitrary points, a `Clean` that returns successfully leaves only sound entries, as they were, adds nothing, and never
touches the shared files. -/
theorem C39_faults (hh : Healthy env d) (hreach : Reach env d dl (.running c fs)) (order : List Sha1Hash) (ho : MapOrder c order)
    (hpaths : ∀ h e, observe c fs h = .ok e → ¬ CatFile d e.filePath) (fl : List Fault) (items : List CleanItem) (s' : St)
    (hrun : clean env order ⟨c, fs, fl⟩ = (.ok items, s')) :
    (∀ h, observe s'.cat s'.fs h = .err .fileNotFound ∨ ∃ e, observe s'.cat s'.fs h = .ok e ∧ observe c fs h = .ok e ∧ Sound env fs e) ∧
      (∀ q, ¬ CatFile d q → s'.fs q = fs q) ∧ Reach env d dl (.running s'.cat s'.fs) := by
  have hrun0 := hrun
  unfold clean at hrun0
  clear hrun
  obtain ⟨es, s1, h1, hrun⟩ := (IOM.bind_ok_iff _ _ _ _ _).1 hrun0
  obtain ⟨g1, g2, g3, g4, g5⟩ := C38_list hh hreach order ho fl es s1 h1
  have hown := fun h e (he : observe c fs h = .ok e) => C27_own hh hreach h e he
  have hreach1 := hreach.call (.list order) trivial fl s1 (CM.void_ok _ _ _ _ h1)
  have hes : ∀ e ∈ es, observe c fs e.sha1Hash = .ok e := by
    intro e he
    have : Res.ok e ∈ order.map (observe c fs) := by rw [g1]; exact List.mem_map.2 ⟨e, he, rfl⟩
    obtain ⟨h, -, hh'⟩ := List.mem_map.1 this
    rw [hown h e hh']; exact hh'
  have hnd := C27_distinct hh hreach order ho fl es s1 h1
  obtain ⟨c1, fs1, fl1⟩ := s1
  simp only at g4 g5 hreach1
  rw [g4] at hrun hreach1 g5
  clear g4
  obtain ⟨m1, m3, m4, m5⟩ := cleanLoop_faults hh es hreach1 (fun e he => by rw [g5]; exact hes e he) hnd (fun e he => hpaths _ e (hes e he)) fl1 items s' hrun
  refine ⟨fun h => ?_, m3, m1⟩
  by_cases hm : h ∈ es.map (·.sha1Hash)
  · obtain ⟨e, he, rfl⟩ := List.mem_map.1 hm
    rcases m4 e he with hx | ⟨hx, hs⟩
    · exact .inl hx
    · exact .inr ⟨e, hx, hes e he, hs⟩
  · left
    rw [m5 h hm, g5]
    apply Classical.byContradiction
    intro hx
    have h6 := (g3 h).2 hx
    have : observe c fs h ∈ order.map (observe c fs) := List.mem_map.2 ⟨h, h6, rfl⟩
    rw [g1] at this
    obtain ⟨e, he, he'⟩ := List.mem_map.1 this
    have := hown h e he'.symm
    exact hm (List.mem_map.2 ⟨e, he, this⟩)

/-! ### C61: unfinished downloads -/

/-- C61 in full: `Clean` never takes an unfinished download out of the index. -/
def C61_statement (env : Env) (d dl : Path) : Prop :=
  ∀ c fs, CleanReach env d dl (.running c fs) → ∀ order, MapOrder c order → (∀ h e, observe c fs h = .ok e → ¬ CatFile d e.filePath) →
    ∀ items s', clean env order ⟨c, fs, []⟩ = (.ok items, s') → ∀ h e, observe c fs h = .ok e → e.progress.full = .ok false → observe s'.cat s'.fs h = .ok e

/-- What of C61 is true: unfinished downloads of which at least one chunk has been written are kept.  Missing: those without a file yet. -/
theorem C61_partial (hh : Healthy env d) (hreach : Reach env d dl (.running c fs)) (order : List Sha1Hash) (ho : MapOrder c order)
    (hpaths : ∀ h e, observe c fs h = .ok e → ¬ CatFile d e.filePath) (items : List CleanItem) (s' : St) (hrun : clean env order ⟨c, fs, []⟩ = (.ok items, s'))
    (h : Sha1Hash) (e : Export) (he : observe c fs h = .ok e) (hfull : e.progress.full = .ok false) (hfile : fs e.filePath ≠ none) :
    observe s'.cat s'.fs h = .ok e := by
  refine ((C39_clean hh hreach order ho hpaths items s' hrun).1 h e he).1 ?_
  rcases hf : fs e.filePath with _ | content
  · exact absurd hf hfile
  · exact ⟨content, hf, .inl hfull⟩

/-- A query for a hash the catalogue does not have kills the daemon. -/
theorem fileComplete_unknown (hh : Healthy env d) (hreach : Reach env d dl (.running c fs)) (h : Sha1Hash) (hx : observe c fs h = .err .fileNotFound) (fl : List Fault) :
    (fileComplete h ⟨c, fs, fl⟩).1 = .panic := by
  have hI : Inv env d dl c fs := hreach.inv hh.abs hh.utf8
  obtain ⟨ind, rfl, hw⟩ := hI.split
  rw [observe_eq, obsRec_notFound] at hx
  unfold fileComplete
  rw [IOM.bind_apply]
  unfold IOM.orPanic getIndexRecord
  simp only [IOM.bind_apply, getIndex_eval, hx]
  rfl

/-- The failure: any download that has been announced but of which no byte has arrived yet is dropped by `Clean`, and the download's next look at the catalogue
(`FileComplete`, serverStartDownload.go:62) panics. -/
theorem C61_lost (hh : Healthy env d) (hreach : CleanReach env d dl (.running c fs)) (size : UInt64) (cs : UInt32) (h : Sha1Hash) (name : GoString)
    (hsize : size.toNat < 2 ^ 63) (hcs : 0 < cs.toNat) (e : Export) (s1 : St) (hreg : registerDownload env size cs h name ⟨c, fs, []⟩ = (.ok e, s1))
    (hfile : s1.fs e.filePath = none) (order : List Sha1Hash) (ho : MapOrder s1.cat order)
    (hpaths : ∀ h e, observe s1.cat s1.fs h = .ok e → ¬ CatFile d e.filePath) :
    ∃ items s2, clean env order ⟨s1.cat, s1.fs, []⟩ = (.ok items, s2) ∧ observe s2.cat s2.fs h = .err .fileNotFound ∧ ∀ fl, (fileComplete h ⟨s2.cat, s2.fs, fl⟩).1 = .panic := by
  obtain ⟨-, ⟨b, -, h1, -⟩, -⟩ := C29_register hh hreach.reach size cs h name [] e s1 hsize hcs hreg
  have hreach1 := hreach.returns (.register size cs h name) trivial s1 (.inl (CM.void_ok _ _ _ _ hreg))
  obtain ⟨items, s2, h2, h3⟩ := C39_total hh hreach1 order ho
  have h4 := ((C39_clean hh hreach1.reach order ho hpaths items s2 h2).1 h e h1).2 (by rintro ⟨x, hx, -⟩; rw [hfile] at hx; cases hx)
  exact ⟨items, s2, h2, h4, fileComplete_unknown hh h3.reach h h4⟩

/-- One download registered on a fresh daemon. -/
theorem ex_registered (sha1 : Bytes → Sha1Hash) (json : JsonCodec) (h : Sha1Hash) : ∃ c fs e s1,
    CleanReach (exEnv sha1 json) exDir exDown (.running c fs) ∧ registerDownload (exEnv sha1 json) 5 2 h [120] ⟨c, fs, []⟩ = (.ok e, s1) ∧
    s1.fs e.filePath = none ∧ MapOrder s1.cat [h] ∧ (∀ k e', observe s1.cat s1.fs k = .ok e' → e' = e) ∧ ¬ CatFile exDir e.filePath ∧
    observe s1.cat s1.fs h = .ok e ∧ e.progress.full = .ok false ∧ CleanReach (exEnv sha1 json) exDir exDown (.running s1.cat s1.fs) := by
  have hh := ex_healthy sha1 json
  have h0 : CleanReach (exEnv sha1 json) exDir exDown (.running ⟨exDir, exDown, some (freshIdx (exEnv sha1 json) exDir)⟩ (exFS1 sha1 json)) :=
    CleanReach.fresh (exEnv sha1 json) exDir exDown hh.utf8 exFS ex_fs_clean
  obtain ⟨e, s1, h1⟩ := registerDownload_total (exEnv sha1 json) 5 2 h [120] exDir exDown (freshIdx (exEnv sha1 json) exDir) (exFS1 sha1 json) rfl (by decide) (by decide)
  have h2 := h0.returns (.register 5 2 h [120]) trivial s1 (.inl (CM.void_ok _ _ _ _ h1))
  obtain ⟨-, ⟨b, g1, g2, g3, g4, g5⟩, g6, g7⟩ := C29_register hh h0.reach 5 2 h [120] [] e s1 (by decide) (by decide) h1
  have hpath : e.filePath = joinPath [exDown, [120]] := by rw [g1]
  have hone : ∀ k e', observe s1.cat s1.fs k = .ok e' → e' = e := by
    intro k e' he
    by_cases hk : k = h
    · subst hk; rw [g2] at he; cases he; rfl
    · rw [g6 k hk] at he; cases he
  refine ⟨_, _, e, s1, h0, h1, ?_, ?_, hone, ?_, g2, ?_, h2⟩
  · rw [hpath, g7 _ (fun e => ex_not_catFile2 (.inl e)) (fun e => ex_not_catFile2 (.inr ⟨_, e⟩))]
    unfold exFS1
    rw [FS.put_other _ _ _ _ (fun e => ex_not_catFile2 (.inl e)), ex_path]
    decide
  · obtain ⟨p, m1, fs1, -, -, k3, -, k5, -⟩ := registerDownload_ok (exEnv sha1 json) 5 2 h [120] exDir exDown _ _ [] e s1 h1
    refine ⟨_, congrArg (fun c => c.indexFile) k5, ?_⟩
    rw [k3]
    simp [freshIdx, mapPut]
  · rw [hpath]; exact ex_not_catFile2
  · have hw := progress_wf hh h2 h e g2
    rw [Bitset.full_eq _ hw]
    congr 1
    apply decide_eq_false
    intro hall
    have h0 := hall 0 (by rw [g1]; show 0 < b.sizeOf.toNat; rw [g3]; decide)
    have h5 := g5 0 (by decide)
    rw [Bitset.get_eq b _ (by decide)] at h5
    rw [g1] at h0
    rw [show (BitVec.ofNat 64 0).toNat = 0 from rfl, h0] at h5
    cases h5

/-- C61 is false. -/
theorem C61_refuted (sha1 : Bytes → Sha1Hash) (json : JsonCodec) : ¬ C61_statement (exEnv sha1 json) exDir exDown := by
  intro hall
  obtain ⟨c, fs, e, s1, h1, h2, h3, h4, h5, h6, h7, h8, h9⟩ := ex_registered sha1 json Sha1Hash.zero
  have hp : ∀ h e, observe s1.cat s1.fs h = .ok e → ¬ CatFile exDir e.filePath := fun k e' he => by rw [h5 k e' he]; exact h6
  obtain ⟨items, s2, h10, h11, -⟩ := C61_lost (ex_healthy sha1 json) h1 5 2 _ [120] (by decide) (by decide) e s1 h2 h3 _ h4 hp
  have := hall _ _ h9 _ h4 hp items s2 h10 _ e h7 h8
  rw [h11] at this; cases this

/-! ### Examples -/

/-- `C61_lost`, `C61_partial`: a download, first without and then with a file on disk. -/
example (sha1 : Bytes → Sha1Hash) (json : JsonCodec) : ∃ c fs e, CleanReach (exEnv sha1 json) exDir exDown (.running c fs) ∧
    MapOrder c [Sha1Hash.zero] ∧ observe c fs Sha1Hash.zero = .ok e ∧ e.progress.full = .ok false ∧ fs e.filePath ≠ none := by
  obtain ⟨c, fs, e, s1, h1, h2, h3, h4, h5, h6, h7, h8, h9⟩ := ex_registered sha1 json Sha1Hash.zero
  refine ⟨s1.cat, _, e, CleanReach.userRunning _ _ e.filePath (some [1]) h6 h9, h4, ?_, h8, by rw [FS.put_same]; simp⟩
  obtain ⟨ind, hi, hw⟩ := (h9.reach.inv (ex_healthy sha1 json).abs (ex_healthy sha1 json).utf8).split
  rw [hi] at h7 ⊢
  rw [observe_eq] at h7 ⊢
  rw [← h7]
  unfold obsRec
  rcases hm : mapGet ind.index Sha1Hash.zero with _ | r
  · rfl
  simp only
  rw [viewProgress_fs]
  apply FS.put_other
  exact fun e => h6 (.inr ⟨_, e.symm⟩)


/-- `C39_clean`, `C39_total`, `C39_faults`: a catalogue with one shared file; the user overwrites the file and `Clean` removes it from the index. -/
example (sha1 : Bytes → Sha1Hash) (json : JsonCodec) (hne : sha1 [9] ≠ sha1 [1, 2, 3]) : ∃ c fs items s',
    CleanReach (exEnv sha1 json) exDir exDown (.running c fs) ∧ MapOrder c [sha1 [1, 2, 3]] ∧
    (∀ h e, observe c fs h = .ok e → ¬ CatFile exDir e.filePath) ∧
    clean (exEnv sha1 json) [sha1 [1, 2, 3]] ⟨c, fs, []⟩ = (.ok items, s') ∧ observe s'.cat s'.fs (sha1 [1, 2, 3]) = .err .fileNotFound := by
  obtain ⟨c, fs, b, h1, h2, h3, h4, h5, h6⟩ := ex_clean sha1 json
  have hnc := ex_not_catFile 102 (by simp)
  have hh := ex_healthy sha1 json
  have h7 := CleanReach.userRunning c fs _ (some [9]) hnc h1
  have hobs : ∀ h, observe c (fs.put (absOf [[102]]) (some [9])) h = observe c fs h := by
    intro h
    obtain ⟨ind, rfl, hw⟩ := (h1.reach.inv hh.abs hh.utf8).split
    rw [observe_eq, observe_eq]
    unfold obsRec
    rcases hm : mapGet ind.index h with _ | r
    · rfl
    simp only
    rw [viewProgress_fs]
    have : progressPath exDir r.sha1Hash ≠ absOf [[102]] := fun e => hnc (.inr ⟨_, e.symm⟩)
    unfold FS.put
    rw [if_neg this]
  have hone : ∀ h e, observe c fs h = .ok e → e = ⟨absOf [[102]], 3, sha1 [1, 2, 3], b, 4194304⟩ := by
    intro h e he
    obtain ⟨es, s1, hl⟩ := C38_total hh h1.reach [sha1 [1, 2, 3]] h6 (by
      intro k hk
      obtain ⟨ind, hi, hp⟩ := h6
      obtain ⟨ind', rfl, hw⟩ := (h1.reach.inv hh.abs hh.utf8).split
      cases hi
      by_cases hk' : k = sha1 [1, 2, 3]
      · subst hk'; exact ⟨_, h3⟩
      · exfalso; apply hk
        rw [observe_eq, obsRec_notFound]
        rcases hm : mapGet ind.index k with _ | r
        · rfl
        · have := hp.mem_iff.2 (List.mem_map.2 ⟨_, mapGet_mem _ _ _ hm, rfl⟩)
          exact absurd (List.mem_singleton.1 this) hk')
    obtain ⟨g1, g2, g3, -⟩ := C38_list hh h1.reach _ h6 [] es s1 hl
    have : h ∈ [sha1 [1, 2, 3]] := (g3 h).2 (by rw [he]; intro x; cases x)
    rw [List.mem_singleton.1 this, h3] at he
    cases he; rfl
  have hpaths : ∀ h e, observe c (fs.put (absOf [[102]]) (some [9])) h = .ok e → ¬ CatFile exDir e.filePath := by
    intro h e he
    rw [hobs] at he
    rw [hone h e he]; exact hnc
  obtain ⟨items, s', hrun, -⟩ := C39_total hh h7 _ h6
  refine ⟨c, _, items, s', h7, h6, hpaths, hrun, ?_⟩
  refine ((C39_clean hh h7.reach _ h6 hpaths items s' hrun).1 _ _ (by rw [hobs]; exact h3)).2 ?_
  rintro ⟨content, g1, g2⟩
  simp only at g1
  rw [FS.put_same] at g1
  cases g1
  rcases g2 with g2 | g2
  · have hw := progress_wf hh h1 _ _ h3
    have hx := Bitset.full_eq _ hw
    rw [show b.get 0 = _ from Bitset.get_eq b 0 (by decide)] at h5
    simp only at g2 hx hw
    rw [g2] at hx
    have hx : false = decide _ := Res.ok.inj hx
    have hx := of_decide_eq_false hx.symm
    apply hx
    intro i hi
    have hb1 : b.size = 1 := h4
    rw [hb1] at hi
    have : i = 0 := by simp at hi; exact hi
    subst this
    exact Res.ok.inj h5
  · exact hne g2

end
end Flu
