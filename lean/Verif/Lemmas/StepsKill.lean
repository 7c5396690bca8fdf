import Verif.Lemmas.Steps
import Verif.Lemmas.CatEval
/-!
# The disk at every moment of a call

The disk at any step of a call, also between two bytes of a write, is a disk that the call leaves when it dies at one of its operations on files.
-/
namespace Flu
variable {α β : Type}

/-- The same state with other faults to come. -/
def St.withFaults (s : St) (fl : List Fault) : St := { s with faults := fl }

/-- What a computation does depends on a list of faults that it uses up; it never adds faults. -/
def Consumes (x : CM α) : Prop := ∀ s : St, (s.faults = [] → (x s).2.faults = []) ∧ ∃ pre, ∀ fl, x (s.withFaults (pre ++ fl)) = ((x s).1, (x s).2.withFaults fl)

/-- The computation can die leaving these files. -/
def CrashAt (x : CM α) (s : St) (f : FS) : Prop := ∃ fl s', x (s.withFaults fl) = (.crash, s') ∧ s'.fs = f

theorem consumes_bind {x : CM α} {k : α → CM β} (hx : Consumes x) (hk : ∀ a, Consumes (k a)) : Consumes (x >>= k) := by
  intro s
  obtain ⟨hd, pre, hp⟩ := hx s
  cases e : x s with
  | mk r s1 =>
    rw [e] at hd
    cases r with
    | ok a =>
      obtain ⟨hd2, pre2, hp2⟩ := hk a s1
      refine ⟨fun h => by rw [IOM.bind_apply, e]; exact hd2 (hd h), pre ++ pre2, fun fl => ?_⟩
      rw [List.append_assoc, IOM.bind_apply, hp, IOM.bind_apply, e]
      exact hp2 fl
    | err _ => exact ⟨fun h => by rw [IOM.bind_apply, e]; exact hd h, pre, fun fl => by rw [IOM.bind_apply, hp, IOM.bind_apply, e]⟩
    | panic => exact ⟨fun h => by rw [IOM.bind_apply, e]; exact hd h, pre, fun fl => by rw [IOM.bind_apply, hp, IOM.bind_apply, e]⟩
    | exit => exact ⟨fun h => by rw [IOM.bind_apply, e]; exact hd h, pre, fun fl => by rw [IOM.bind_apply, hp, IOM.bind_apply, e]⟩
    | crash => exact ⟨fun h => by rw [IOM.bind_apply, e]; exact hd h, pre, fun fl => by rw [IOM.bind_apply, hp, IOM.bind_apply, e]⟩

theorem consumes_lift (r : Res α) : Consumes (IOM.lift r : CM α) := fun _ => ⟨fun h => h, [], fun _ => rfl⟩
theorem consumes_pure (a : α) : Consumes (pure a : CM α) := fun _ => ⟨fun h => h, [], fun _ => rfl⟩
theorem consumes_getCat : Consumes getCat := fun _ => ⟨fun h => h, [], fun _ => rfl⟩
theorem consumes_getFS : Consumes getFS := fun _ => ⟨fun h => h, [], fun _ => rfl⟩
theorem consumes_setIndex (i : IndexFile) : Consumes (setIndex i) := fun _ => ⟨fun h => h, [], fun _ => rfl⟩
theorem consumes_setFile (p : Path) (c : Option Bytes) : Consumes (setFile p c) := fun _ => ⟨fun h => h, [], fun _ => rfl⟩

theorem consumes_nextFault : Consumes nextFault := by
  intro s
  cases e : s.faults with
  | nil =>
    refine ⟨fun _ => by simp only [nextFault, e], [.none], fun fl => ?_⟩
    simp only [nextFault, e]; rfl
  | cons f fs =>
    refine ⟨fun h => absurd h (by simp), [f], fun fl => ?_⟩
    simp only [nextFault, e]; rfl

theorem consumes_getIndex : Consumes getIndex := by
  refine consumes_bind consumes_getCat fun c => ?_
  split
  · exact consumes_pure _
  · exact consumes_lift _

theorem consumes_osReadFile (p : Path) : Consumes (osReadFile p) := by
  refine consumes_bind consumes_nextFault fun f => ?_
  cases f with
  | none =>
    refine consumes_bind consumes_getFS fun fs => ?_
    split
    · exact consumes_pure _
    · exact consumes_lift _
  | fail _ => exact consumes_lift _
  | crash _ => exact consumes_lift _

theorem consumes_osStat (p : Path) : Consumes (osStat p) := by
  refine consumes_bind consumes_nextFault fun f => ?_
  cases f with
  | none => exact consumes_bind consumes_getFS fun fs => consumes_pure _
  | fail _ => exact consumes_lift _
  | crash _ => exact consumes_lift _

theorem consumes_osTouch : Consumes osTouch := by
  refine consumes_bind consumes_nextFault fun f => ?_
  cases f with
  | none => exact consumes_pure _
  | fail _ => exact consumes_lift _
  | crash _ => exact consumes_lift _

theorem consumes_osHashFile (env : Env) (p : Path) : Consumes (osHashFile env p) :=
  consumes_bind (consumes_osReadFile p) fun _ => consumes_pure _

theorem consumes_osRemove (p : Path) : Consumes (osRemove p) := by
  refine consumes_bind consumes_nextFault fun f => ?_
  cases f with
  | none =>
    refine consumes_bind consumes_getFS fun fs => ?_
    split
    · exact consumes_setFile _ _
    · exact consumes_lift _
  | fail _ => exact consumes_lift _
  | crash eff =>
    cases eff with
    | none => exact fun _ => ⟨fun h => h, [], fun _ => rfl⟩
    | some _ => exact fun _ => ⟨fun h => h, [], fun _ => rfl⟩

theorem consumes_osOpenCreate (p : Path) : Consumes (osOpenCreate p) := by
  refine consumes_bind consumes_nextFault fun f => ?_
  cases f with
  | none => exact fun _ => ⟨fun h => h, [], fun _ => rfl⟩
  | fail _ => exact consumes_lift _
  | crash eff =>
    cases eff with
    | none => exact fun _ => ⟨fun h => h, [], fun _ => rfl⟩
    | some _ => exact fun _ => ⟨fun h => h, [], fun _ => rfl⟩

theorem consumes_osWriteFile (p : Path) (data : Bytes) : Consumes (osWriteFile p data) := by
  refine consumes_bind consumes_nextFault fun f => ?_
  cases f with
  | none => exact consumes_setFile _ _
  | fail eff =>
    cases eff with
    | none => exact fun _ => ⟨fun h => h, [], fun _ => rfl⟩
    | some _ => exact fun _ => ⟨fun h => h, [], fun _ => rfl⟩
  | crash eff =>
    cases eff with
    | none => exact fun _ => ⟨fun h => h, [], fun _ => rfl⟩
    | some _ => exact fun _ => ⟨fun h => h, [], fun _ => rfl⟩

theorem consumes_osWriteAt (p : Path) (data : Bytes) (start : Int) : Consumes (osWriteAt p data start) := by
  unfold osWriteAt
  split
  · exact consumes_lift _
  refine consumes_bind consumes_nextFault fun f => ?_
  cases f with
  | none => exact fun _ => ⟨fun h => h, [], fun _ => rfl⟩
  | fail eff =>
    cases eff with
    | none => exact fun _ => ⟨fun h => h, [], fun _ => rfl⟩
    | some _ => exact fun _ => ⟨fun h => h, [], fun _ => rfl⟩
  | crash eff =>
    cases eff with
    | none => exact fun _ => ⟨fun h => h, [], fun _ => rfl⟩
    | some _ => exact fun _ => ⟨fun h => h, [], fun _ => rfl⟩

namespace Prog

/-- The files at some moment of the computation. -/
def Mid : Prog α → St → FS → Prop
  | done _, s, f => f = s.fs
  | step act next, s, f => f = s.fs ∨ (next s).Mid (act s) f

theorem mid_final (p : Prog α) : ∀ s, p.Mid s (p.run s).2.fs := by
  induction p with
  | done r => exact fun _ => rfl
  | step act next ih => exact fun s => Or.inr (ih s (act s))

/-- What happens on the disk from this state on is covered by a crash, or nothing happens. -/
def Covered (p : Prog α) (s : St) : Prop :=
  (CrashAt p.run s s.fs ∧ ∀ f, p.Mid s f → CrashAt p.run s f ∨ f = (p.run s).2.fs) ∨ ∀ f, p.Mid s f → f = s.fs

/-- … from every state. -/
def Good (p : Prog α) : Prop := Consumes p.run ∧ ∀ s, p.Covered s

theorem mid_bind (p : Prog α) (k : α → Prog β) : ∀ s f, (p >>= k).Mid s f →
    p.Mid s f ∨ ∃ a s1, p.run s = (.ok a, s1) ∧ (k a).Mid s1 f := by
  show ∀ s f, (p.bind k).Mid s f → _
  induction p with
  | done r =>
    intro s f hm
    cases r with
    | ok a => exact Or.inr ⟨a, s, rfl, hm⟩
    | err _ => exact Or.inl hm
    | panic => exact Or.inl hm
    | exit => exact Or.inl hm
    | crash => exact Or.inl hm
  | step act next ih =>
    intro s f hm
    rcases hm with hm | hm
    · exact Or.inl (Or.inl hm)
    · rcases ih s (act s) f hm with h | ⟨a, s1, h1, h2⟩
      · exact Or.inl (Or.inr h)
      · exact Or.inr ⟨a, s1, h1, h2⟩

theorem crashAt_bind_left (p : Prog α) (k : α → Prog β) (s : St) (f : FS) (h : CrashAt p.run s f) : CrashAt (p >>= k).run s f := by
  obtain ⟨fl, s', h1, h2⟩ := h
  exact ⟨fl, s', by rw [run_bind, IOM.bind_apply, h1], h2⟩

theorem crashAt_bind_right (p : Prog α) (k : α → Prog β) (s s1 : St) (a : α) (f : FS) (hc : Consumes p.run) (hp : p.run s = (.ok a, s1))
    (h : CrashAt (k a).run s1 f) : CrashAt (p >>= k).run s f := by
  obtain ⟨fl, s', h1, h2⟩ := h
  obtain ⟨_, pre, hpre⟩ := hc s
  refine ⟨pre ++ fl, s', ?_, h2⟩
  rw [run_bind, IOM.bind_apply, hpre, hp]
  exact h1

theorem good_bind {p : Prog α} {k : α → Prog β} (hp : Good p) (hk : ∀ a, Good (k a)) : Good (p >>= k) := by
  refine ⟨by rw [run_bind]; exact consumes_bind hp.1 fun a => (hk a).1, fun s => ?_⟩
  have hfin : ∀ a s1, p.run s = (.ok a, s1) → (p >>= k).run s = (k a).run s1 := fun a s1 h => by rw [run_bind, IOM.bind_apply, h]
  have hmid := mid_bind p k s
  have hfail : (∀ a s1, p.run s ≠ (.ok a, s1)) → ((p >>= k).run s).2.fs = (p.run s).2.fs := by
    intro h
    rw [run_bind, IOM.bind_apply]
    cases e : p.run s with
    | mk r s1 =>
      cases r with
      | ok a => exact absurd e (h a s1)
      | err _ => rfl
      | panic => rfl
      | exit => rfl
      | crash => rfl
  by_cases hok : ∃ a s1, p.run s = (.ok a, s1)
  · obtain ⟨a, s1, h1⟩ := hok
    have hm : ∀ f, (p >>= k).Mid s f → p.Mid s f ∨ (k a).Mid s1 f := by
      intro f hf
      rcases hmid f hf with h | ⟨a', s1', h1', h2⟩
      · exact Or.inl h
      · rw [h1] at h1'
        cases h1'
        exact Or.inr h2
    have hf2 : ((k a).run s1).2.fs = ((p >>= k).run s).2.fs := by rw [hfin a s1 h1]
    have hs1 : (p.run s).2.fs = s1.fs := by rw [h1]
    have right := fun f => crashAt_bind_right p k s s1 a f hp.1 h1
    rcases hp.2 s with ⟨hc, hall⟩ | hst
    · refine Or.inl ⟨crashAt_bind_left p k s _ hc, fun f hf => ?_⟩
      rcases (hk a).2 s1 with ⟨kc, kall⟩ | kst
      · rcases hm f hf with h | h
        · rcases hall f h with h | h
          · exact Or.inl (crashAt_bind_left p k s f h)
          · rw [hs1] at h; subst h; exact Or.inl (right _ kc)
        · rcases kall f h with h | h
          · exact Or.inl (right _ h)
          · exact Or.inr (h.trans hf2)
      · have hsame : s1.fs = ((p >>= k).run s).2.fs := by rw [← hf2, kst _ (mid_final _ _)]
        rcases hm f hf with h | h
        · rcases hall f h with h | h
          · exact Or.inl (crashAt_bind_left p k s f h)
          · exact Or.inr (by rw [h, hs1, hsame])
        · exact Or.inr (by rw [kst f h, hsame])
    · have hsame : s1.fs = s.fs := by rw [← hs1]; exact hst _ (mid_final _ _)
      rcases (hk a).2 s1 with ⟨kc, kall⟩ | kst
      · rw [hsame] at kc
        refine Or.inl ⟨right _ kc, fun f hf => ?_⟩
        rcases hm f hf with h | h
        · rw [hst f h]; exact Or.inl (right _ kc)
        · rcases kall f h with h | h
          · exact Or.inl (right _ h)
          · exact Or.inr (h.trans hf2)
      · refine Or.inr fun f hf => ?_
        rcases hm f hf with h | h
        · exact hst f h
        · exact (kst f h).trans hsame
  · have hno : ∀ a s1, p.run s ≠ (.ok a, s1) := fun a s1 h => hok ⟨a, s1, h⟩
    have hm : ∀ f, (p >>= k).Mid s f → p.Mid s f := by
      intro f hf
      rcases hmid f hf with h | ⟨a, s1, h1, _⟩
      · exact h
      · exact absurd h1 (hno a s1)
    rcases hp.2 s with ⟨hc, hall⟩ | hst
    · refine Or.inl ⟨crashAt_bind_left p k s _ hc, fun f hf => ?_⟩
      rcases hall f (hm f hf) with h | h
      · exact Or.inl (crashAt_bind_left p k s f h)
      · exact Or.inr (by rw [h, hfail hno])
    · exact Or.inr fun f hf => hst f (hm f hf)

theorem good_done (r : Res α) : Good (done r) := ⟨consumes_lift r, fun _ => Or.inr fun _ h => h⟩
theorem good_pure (a : α) : Good (pure a : Prog α) := good_done _

theorem good_still {x : CM α} (hc : Consumes x) (hs : ∀ s, (x s).2.fs = s.fs) : Good (atom x) := by
  refine ⟨hc, fun s => Or.inr fun f hf => ?_⟩
  rcases hf with h | h
  · exact h
  · exact h.trans (hs s)

theorem good_dies {x : CM α} (hc : Consumes x) (hs : ∀ s, CrashAt x s s.fs) : Good (atom x) := by
  refine ⟨hc, fun s => Or.inl ⟨hs s, fun f hf => ?_⟩⟩
  rcases hf with h | h
  · rw [h]; exact Or.inl (hs s)
  · exact Or.inr h

theorem good_orPanic {p : Prog α} (h : Good p) : Good p.orPanic := by
  have hmid : ∀ s f, p.orPanic.Mid s f → p.Mid s f := by
    clear h
    induction p with
    | done r => intro s f hf; cases r <;> exact hf
    | step act next ih =>
      intro s f hf
      rcases hf with hf | hf
      · exact Or.inl hf
      · exact Or.inr (ih s _ _ hf)
  have hcr : ∀ s f, CrashAt p.run s f → CrashAt p.orPanic.run s f := by
    rintro s f ⟨fl, s', h1, h2⟩
    exact ⟨fl, s', by rw [run_orPanic, IOM.orPanic, h1], h2⟩
  have hfin : ∀ s, (p.orPanic.run s).2 = (p.run s).2 := by
    intro s; rw [run_orPanic, IOM.orPanic]; cases e : p.run s with | mk r s1 => cases r <;> rfl
  refine ⟨fun s => ?_, fun s => ?_⟩
  · obtain ⟨hd, pre, hp⟩ := h.1 s
    refine ⟨fun hs => by rw [hfin]; exact hd hs, pre, fun fl => ?_⟩
    simp only [run_orPanic, IOM.orPanic, hp]
    cases e : p.run s with | mk r s1 => cases r <;> rfl
  · rcases h.2 s with ⟨hc, hall⟩ | hst
    · refine Or.inl ⟨hcr _ _ hc, fun f hf => ?_⟩
      rcases hall f (hmid s f hf) with h | h
      · exact Or.inl (hcr _ _ h)
      · exact Or.inr (by rw [h, hfin])
    · exact Or.inr fun f hf => hst f (hmid s f hf)

theorem good_ignoreErr {p : Prog Unit} (h : Good p) : Good p.ignoreErr := by
  have hmid : ∀ s f, p.ignoreErr.Mid s f → p.Mid s f := by
    clear h
    induction p with
    | done r => intro s f hf; cases r <;> exact hf
    | step act next ih =>
      intro s f hf
      rcases hf with hf | hf
      · exact Or.inl hf
      · exact Or.inr (ih s _ _ hf)
  have hcr : ∀ s f, CrashAt p.run s f → CrashAt p.ignoreErr.run s f := by
    rintro s f ⟨fl, s', h1, h2⟩
    exact ⟨fl, s', by rw [run_ignoreErr, IOM.ignoreErr, h1], h2⟩
  have hfin : ∀ s, (p.ignoreErr.run s).2 = (p.run s).2 := by
    intro s; rw [run_ignoreErr, IOM.ignoreErr]; cases e : p.run s with | mk r s1 => cases r <;> rfl
  refine ⟨fun s => ?_, fun s => ?_⟩
  · obtain ⟨hd, pre, hp⟩ := h.1 s
    refine ⟨fun hs => by rw [hfin]; exact hd hs, pre, fun fl => ?_⟩
    simp only [run_ignoreErr, IOM.ignoreErr, hp]
    cases e : p.run s with | mk r s1 => cases r <;> rfl
  · rcases h.2 s with ⟨hc, hall⟩ | hst
    · refine Or.inl ⟨hcr _ _ hc, fun f hf => ?_⟩
      rcases hall f (hmid s f hf) with h | h
      · exact Or.inl (hcr _ _ h)
      · exact Or.inr (by rw [h, hfin])
    · exact Or.inr fun f hf => hst f (hmid s f hf)

theorem mid_writeUpTo (p : Path) (g : Nat → Bytes) (n : Nat) : ∀ s f, (writeUpTo p g n).Mid s f →
    f = s.fs ∨ ∃ k, k ≤ n ∧ f = s.fs.put p (some (g k)) := by
  induction n with
  | zero =>
    intro s f hf
    rcases hf with h | h
    · exact Or.inl h
    · exact Or.inr ⟨0, Nat.le_refl _, h⟩
  | succ n ih =>
    intro s f hf
    unfold writeUpTo at hf
    rcases mid_bind _ _ s f hf with h | ⟨a, s1, h1, h2⟩
    · rcases ih s f h with h | ⟨k, hk, h⟩
      · exact Or.inl h
      · exact Or.inr ⟨k, by omega, h⟩
    · rw [run_writeUpTo] at h1
      cases h1
      rcases h2 with h2 | h2
      · exact Or.inr ⟨n, by omega, h2⟩
      · refine Or.inr ⟨n + 1, Nat.le_refl _, ?_⟩
        rw [h2]
        exact FS_put_put _ _ _ _

/-- Every moment of `os.WriteFile`: the old file, or a prefix of the new content. -/
theorem mid_writeFile (p : Path) (data : Bytes) (s : St) (f : FS) (hf : (writeFile p data).Mid s f) :
    f = s.fs ∨ ∃ k, f = s.fs.put p (some (data.take k)) := by
  rcases mid_bind _ _ s f hf with h | ⟨a, s1, h1, h2⟩
  · rcases h with h | h
    · exact Or.inl h
    · rw [h]; left
      show ((nextFault s).2).fs = s.fs
      unfold nextFault; split <;> rfl
  · have hs1 : s1.fs = s.fs := by
      have : (nextFault s).2 = s1 := congrArg Prod.snd h1
      rw [← this]; unfold nextFault; split <;> rfl
    have key : ∀ n f, (writeUpTo p data.take n).Mid s1 f → f = s.fs ∨ ∃ k, f = s.fs.put p (some (data.take k)) := by
      intro n f h
      rcases mid_writeUpTo _ _ _ _ _ h with h | ⟨k, _, h⟩
      · exact Or.inl (h.trans hs1)
      · exact Or.inr ⟨k, by rw [h, hs1]⟩
    have key2 : ∀ n (r : Res Unit) f, (writeUpTo p data.take n >>= fun _ => done r).Mid s1 f → f = s.fs ∨ ∃ k, f = s.fs.put p (some (data.take k)) := by
      intro n r f h
      rcases mid_bind _ _ _ _ h with h | ⟨_, s2, h3, h4⟩
      · exact key n f h
      · have := mid_final (writeUpTo p data.take n) s1
        rw [h3] at this
        exact key n f (by rw [h4]; exact this)
    cases a with
    | none => exact key _ f h2
    | fail eff =>
      cases eff with
      | none => exact Or.inl ((show f = s1.fs from h2).trans hs1)
      | some k => exact key2 _ _ f h2
    | crash eff =>
      cases eff with
      | none => exact Or.inl ((show f = s1.fs from h2).trans hs1)
      | some k => exact key2 _ _ f h2

theorem good_writeFile (p : Path) (data : Bytes) : Good (writeFile p data) := by
  refine ⟨by rw [run_writeFile]; exact consumes_osWriteFile p data, fun s => Or.inl ⟨?_, fun f hf => Or.inl ?_⟩⟩
  · rw [run_writeFile]; exact ⟨[.crash none], _, rfl, rfl⟩
  · rw [run_writeFile]
    rcases mid_writeFile p data s f hf with h | ⟨k, h⟩
    · rw [h]; exact ⟨[.crash none], _, rfl, rfl⟩
    · rw [h]; exact ⟨[.crash (some k)], _, rfl, rfl⟩

/-- Every moment of `WriteAt`: the old file, or the old file with a prefix of the data in its place. -/
theorem mid_writeAt (p : Path) (data : Bytes) (start : Int) (s : St) (f : FS) (h0 : ¬ start < 0) (hf : (writeAt p data start).Mid s f) :
    f = s.fs ∨ ∃ k, f = s.fs.put p (some (overlay ((s.fs p).getD []) start.toNat (data.take k))) := by
  unfold writeAt at hf
  rw [if_neg h0] at hf
  rcases mid_bind _ _ s f hf with h | ⟨a, s1, h1, h2⟩
  · rcases h with h | h
    · exact Or.inl h
    · rw [h]; left
      show ((nextFault s).2).fs = s.fs
      unfold nextFault; split <;> rfl
  · have hs1 : s1.fs = s.fs := by
      have : (nextFault s).2 = s1 := congrArg Prod.snd h1
      rw [← this]; unfold nextFault; split <;> rfl
    have key : ∀ (d : Bytes) f, (∀ k, ∃ k', d.take k = data.take k') →
        (atom getFS >>= fun fs => writeUpTo p (fun k => overlay ((fs p).getD []) start.toNat (d.take k)) d.length).Mid s1 f →
        f = s.fs ∨ ∃ k, f = s.fs.put p (some (overlay ((s.fs p).getD []) start.toNat (data.take k))) := by
      intro d f hd h
      rcases mid_bind _ _ _ _ h with h | ⟨fs, s2, h3, h4⟩
      · rcases h with h | h
        · exact Or.inl (h.trans hs1)
        · exact Or.inl (h.trans hs1)
      · have e : (Res.ok s1.fs, s1) = (Res.ok fs, s2) := h3
        cases e
        rcases mid_writeUpTo _ _ _ _ _ h4 with h | ⟨k, _, h⟩
        · exact Or.inl (h.trans hs1)
        · obtain ⟨k', hk'⟩ := hd k
          exact Or.inr ⟨k', by rw [h, hs1, ← hk']⟩
    have key2 : ∀ (d : Bytes) (r : Res Unit) f, (∀ k, ∃ k', d.take k = data.take k') →
        ((atom getFS >>= fun fs => writeUpTo p (fun k => overlay ((fs p).getD []) start.toNat (d.take k)) d.length) >>= fun _ => done r).Mid s1 f →
        f = s.fs ∨ ∃ k, f = s.fs.put p (some (overlay ((s.fs p).getD []) start.toNat (data.take k))) := by
      intro d r f hd h
      rcases mid_bind _ _ _ _ h with h | ⟨_, s2, h3, h4⟩
      · exact key d f hd h
      · have := mid_final (atom getFS >>= fun fs => writeUpTo p (fun k => overlay ((fs p).getD []) start.toNat (d.take k)) d.length) s1
        rw [h3] at this
        exact key d f hd (by rw [h4]; exact this)
    have hk : ∀ n k, ∃ k', (data.take n).take k = data.take k' := fun n k => ⟨min k n, by rw [List.take_take]⟩
    cases a with
    | none => exact key data f (fun k => ⟨k, rfl⟩) h2
    | fail eff =>
      cases eff with
      | none => exact Or.inl ((show f = s1.fs from h2).trans hs1)
      | some k => exact key2 _ _ f (hk k) h2
    | crash eff =>
      cases eff with
      | none => exact Or.inl ((show f = s1.fs from h2).trans hs1)
      | some k => exact key2 _ _ f (hk k) h2

theorem good_writeAt (p : Path) (data : Bytes) (start : Int) : Good (writeAt p data start) := by
  refine ⟨by rw [run_writeAt]; exact consumes_osWriteAt p data start, fun s => ?_⟩
  by_cases h0 : start < 0
  · right
    intro f hf
    unfold writeAt at hf
    rw [if_pos h0] at hf
    exact hf
  · have hrun : ∀ eff, ∃ s', osWriteAt p data start (s.withFaults [.crash eff]) = (.crash, s') ∧
        s'.fs = (match eff with | none => s.fs | some k => s.fs.put p (some (overlay ((s.fs p).getD []) start.toNat (data.take k)))) := by
      intro eff
      unfold osWriteAt
      rw [if_neg h0]
      cases eff with
      | none => exact ⟨_, rfl, rfl⟩
      | some k => exact ⟨_, rfl, rfl⟩
    refine Or.inl ⟨?_, fun f hf => Or.inl ?_⟩
    · rw [run_writeAt]; obtain ⟨s', h1, h2⟩ := hrun none; exact ⟨_, s', h1, h2⟩
    · rw [run_writeAt]
      rcases mid_writeAt p data start s f h0 hf with h | ⟨k, h⟩
      · rw [h]; obtain ⟨s', h1, h2⟩ := hrun none; exact ⟨_, s', h1, h2⟩
      · rw [h]; obtain ⟨s', h1, h2⟩ := hrun (some k); exact ⟨_, s', h1, h2⟩

theorem good_getCat : Good (atom getCat) := good_still consumes_getCat fun _ => rfl
theorem good_getFS : Good (atom getFS) := good_still consumes_getFS fun _ => rfl
theorem good_setIndex (i : IndexFile) : Good (atom (setIndex i)) := good_still (consumes_setIndex i) fun _ => rfl

theorem nextFault_fs (s : St) : (nextFault s).2.fs = s.fs := by unfold nextFault; split <;> rfl

/-- The files are left alone. -/
def Still (x : CM α) : Prop := ∀ s : St, (x s).2.fs = s.fs

theorem still_bind {x : CM α} {k : α → CM β} (hx : Still x) (hk : ∀ a, Still (k a)) : Still (x >>= k) := by
  intro s
  have := hx s
  rw [IOM.bind_apply]
  cases e : x s with
  | mk r s1 =>
    rw [e] at this
    cases r with
    | ok a => exact (hk a s1).trans this
    | err _ => exact this
    | panic => exact this
    | exit => exact this
    | crash => exact this

theorem still_lift (r : Res α) : Still (IOM.lift r : CM α) := fun _ => rfl
theorem still_pure (a : α) : Still (pure a : CM α) := fun _ => rfl

theorem still_osReadFile (p : Path) : Still (osReadFile p) := by
  refine still_bind nextFault_fs fun f => ?_
  cases f with
  | none =>
    refine still_bind (x := getFS) (fun _ => rfl) fun fs => ?_
    split
    · exact still_pure _
    · exact still_lift _
  | fail _ => exact still_lift _
  | crash _ => exact still_lift _

theorem good_getIndex : Good (atom getIndex) := by
  refine good_still consumes_getIndex (still_bind (x := getCat) (fun _ => rfl) fun c => ?_)
  split
  · exact still_pure _
  · exact still_lift _

theorem good_osReadFile (p : Path) : Good (atom (osReadFile p)) := good_still (consumes_osReadFile p) (still_osReadFile p)

theorem good_osHashFile (env : Env) (p : Path) : Good (atom (osHashFile env p)) :=
  good_still (consumes_osHashFile env p) (still_bind (still_osReadFile p) fun _ => still_pure _)

theorem good_osStat (p : Path) : Good (atom (osStat p)) := by
  refine good_still (consumes_osStat p) (still_bind nextFault_fs fun f => ?_)
  cases f with
  | none => exact still_bind (x := getFS) (fun _ => rfl) fun fs => still_pure _
  | fail _ => exact still_lift _
  | crash _ => exact still_lift _

theorem good_osTouch : Good (atom osTouch) := by
  refine good_still consumes_osTouch (still_bind nextFault_fs fun f => ?_)
  cases f with
  | none => exact still_pure _
  | fail _ => exact still_lift _
  | crash _ => exact still_lift _

theorem good_osRemove (p : Path) : Good (atom (osRemove p)) := good_dies (consumes_osRemove p) fun _ => ⟨[.crash none], _, rfl, rfl⟩

theorem good_osOpenCreate (p : Path) : Good (atom (osOpenCreate p)) := good_dies (consumes_osOpenCreate p) fun _ => ⟨[.crash none], _, rfl, rfl⟩

theorem good_saveIndex (env : Env) : Good (saveIndex env) := good_bind good_getIndex fun _ => good_writeFile _ _

theorem good_updateRecord (r : Record) : Good (updateRecord r) := good_bind good_getIndex fun _ => good_setIndex _

theorem good_addIndexRecord (env : Env) (r : Record) : Good (addIndexRecord env r) := by
  refine good_bind good_getIndex fun ind => ?_
  split
  · exact good_done _
  · exact good_bind (good_setIndex _) fun _ => good_saveIndex env

theorem good_removeIndexRecord (env : Env) (r : Record) : Good (removeIndexRecord env r) :=
  good_bind good_getIndex fun _ => good_bind (good_setIndex _) fun _ => good_saveIndex env

theorem good_deserializeProgressFile (r : Record) (dir : Path) : Good (deserializeProgressFile r dir) :=
  good_bind (good_osReadFile _) fun _ => good_bind (good_done _) fun _ => good_pure _

theorem good_fillRecord (r : Record) : Good (fillRecord r) := by
  unfold fillRecord
  split
  · exact good_pure _
  · exact good_bind good_getCat fun _ => good_bind (good_deserializeProgressFile _ _) fun _ => good_bind (good_updateRecord _) fun _ => good_pure _

theorem good_getIndexRecord (h : Sha1Hash) : Good (getIndexRecord h) := by
  refine good_bind good_getIndex fun ind => ?_
  split
  · exact good_fillRecord _
  · exact good_done _

theorem good_generateIndexRecordForFile (env : Env) (path : GoString) : Good (generateIndexRecordForFile env path) := by
  refine good_bind (good_osStat _) fun x => ?_
  split
  · exact good_done _
  · exact good_bind (good_osHashFile _ _) fun _ => good_pure _

theorem good_shareFile (env : Env) (path : GoString) : Good (shareFile env path) :=
  good_bind (good_generateIndexRecordForFile env path) fun _ => good_bind (good_addIndexRecord _ _) fun _ => good_bind good_getCat fun _ =>
    good_bind (good_done _) fun _ => good_bind (good_updateRecord _) fun _ => good_bind (good_done _) fun _ => good_bind (good_updateRecord _) fun _ =>
      good_bind (good_writeFile _ _) fun _ => good_pure _

theorem good_unshareFile (env : Env) (h : Sha1Hash) : Good (unshareFile env h) := by
  refine good_bind (good_getIndexRecord h) fun r => ?_
  split
  · exact good_done _
  · exact good_bind (good_osRemove _) fun _ => good_removeIndexRecord _ _

theorem good_registerDownload (env : Env) (s : UInt64) (cs : UInt32) (h : Sha1Hash) (n : GoString) : Good (registerDownload env s cs h n) :=
  good_bind good_getCat fun _ => good_bind (good_addIndexRecord _ _) fun _ => good_bind good_getCat fun _ => good_bind (good_done _) fun _ =>
    good_bind (good_updateRecord _) fun _ => good_bind (good_ignoreErr (good_writeFile _ _)) fun _ => good_done _

theorem good_listLoop (hs : List Sha1Hash) : Good (listLoop hs) := by
  induction hs with
  | nil => exact good_pure _
  | cons h rest ih =>
    refine good_bind good_getIndex fun ind => ?_
    split
    · exact ih
    · exact good_bind (good_fillRecord _) fun _ => good_bind (good_done _) fun _ => good_bind ih fun _ => good_pure _

theorem good_prog (env : Env) (o : LCall) : Good (o.prog env) := by
  cases o with
  | share p => exact good_bind (good_shareFile env p) fun _ => good_pure _
  | unshare h => exact good_bind (good_unshareFile env h) fun _ => good_pure _
  | register s cs h n => exact good_bind (good_registerDownload env s cs h n) fun _ => good_pure _
  | list o => exact good_bind (good_bind good_getIndex fun _ => good_listLoop o) fun _ => good_pure _
  | get h => exact good_bind (good_orPanic (good_bind (good_getIndexRecord h) fun _ => good_done _)) fun _ => good_pure _
  | complete h =>
    refine good_bind (good_bind (good_orPanic (good_getIndexRecord h)) fun r => ?_) fun _ => good_pure _
    split <;> exact good_done _
  | missing h =>
    refine good_bind (good_bind (good_orPanic (good_getIndexRecord h)) fun r => ?_) fun _ => good_pure _
    split <;> exact good_done _
  | save h c d =>
    refine good_bind (good_bind (good_orPanic (good_getIndexRecord h)) fun r => ?_) fun _ => good_pure _
    refine good_bind (good_bind (good_osOpenCreate _) fun _ => good_writeAt _ _ _) fun _ => ?_
    split
    · exact good_done _
    · exact good_bind (good_done _) fun _ => good_bind (good_updateRecord _) fun _ => good_writeFile _ _
  | reader h c ch =>
    refine good_bind (good_bind (good_getIndexRecord h) fun r => ?_) fun _ => good_pure _
    split
    · exact good_done _
    · refine good_bind (good_done _) fun b => ?_
      split
      · exact good_done _
      · refine good_bind good_osTouch fun _ => good_bind good_getFS fun fs => ?_
        split
        · exact good_done _
        · exact good_pure _

end Prog
end Flu
