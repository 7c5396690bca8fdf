import Verif.Lemmas.StepsKill
import Verif.Props.CatCrash
/-!
# Calls made at the same time

C110: calls of the catalogue made at the same time, byte by byte, give the answers and the state that the same calls made one after the other give.
C111: killed at any instant, also between two bytes of a write, the daemon leaves files that a single call dying at one of its operations on files leaves.
-/
namespace Flu
variable {env : Env} {d dl : Path}

/-- A call made alone: nothing else happens while it runs (`Model/Catalogue`). -/
def Spec.alone (env : Env) : LCall → CM Answer
  | .share p => do return .record (← Flu.shareFile env p)
  | .unshare h => do Flu.unshareFile env h; return .nothing
  | .register s cs h n => do return .entry (← Flu.registerDownload env s cs h n)
  | .list o => do return .entries (← Flu.listFiles o)
  | .get h => do return .entry (← Flu.catGet h)
  | .complete h => do return .truth (← Flu.fileComplete h)
  | .missing h => do return .ranges (← Flu.missingChunks h)
  | .save h c d => do Flu.saveChunk h c d; return .nothing
  | .reader h c ch => do return .reader (← Flu.getChunkReader env h c ch)

/-- The calls that returned, made alone one after the other in the order in which they returned, give the answers they gave and lead from the first state to the last. -/
def Spec.InTurn (env : Env) : St → List CEv → St → Prop
  | s, [], s' => s' = s
  | s, .made _ _ :: rest, s' => Spec.InTurn env s rest s'
  | s, .returned _ o r :: rest, s' => ∃ s1, Spec.alone env o s = (r, s1) ∧ Spec.InTurn env s1 rest s'
  | s, .user p x :: rest, s' => Spec.InTurn env { s with fs := s.fs.put p x } rest s'

/-- The event is one of this goroutine. -/
def Spec.By (t : Nat) : CEv → Prop
  | .made u _ => u = t
  | .returned u _ _ => u = t
  | .user _ _ => False

theorem inTurn_append (a b : List CEv) : ∀ s s', Spec.InTurn env s (a ++ b) s' ↔ ∃ m, Spec.InTurn env s a m ∧ Spec.InTurn env m b s' := by
  induction a with
  | nil => intro s s'; exact ⟨fun h => ⟨s, rfl, h⟩, fun ⟨m, h1, h2⟩ => by cases h1; exact h2⟩
  | cons e a ih =>
    intro s s'
    cases e with
    | made t o => exact ih s s'
    | user p x => exact ih _ s'
    | returned t o r =>
      constructor
      · rintro ⟨s1, h1, h2⟩
        obtain ⟨m, h3, h4⟩ := (ih s1 s').mp h2
        exact ⟨m, ⟨s1, h1, h3⟩, h4⟩
      · rintro ⟨m, ⟨s1, h1, h3⟩, h4⟩
        exact ⟨s1, h1, (ih s1 s').mpr ⟨m, h3, h4⟩⟩

/-- The steps of a call with nothing in between are the call made alone. -/
theorem run_prog (o : LCall) : (o.prog env).run = Spec.alone env o := by
  cases o <;>
    simp only [LCall.prog, Spec.alone, Prog.run_bind, Prog.run_pure, Prog.run_shareFile, Prog.run_unshareFile, Prog.run_registerDownload, Prog.run_listFiles,
      Prog.run_catGet, Prog.run_fileComplete, Prog.run_missingChunks, Prog.run_saveChunk, Prog.run_getChunkReader]

theorem to_same (s : CSys) (t : Nat) (x : Phase) : (s.to t x).phase t = x := if_pos rfl
theorem to_other (s : CSys) {t u : Nat} (x : Phase) (h : u ≠ t) : (s.to t x).phase u = s.phase u := if_neg h

/-- What holds between the calls made alone so far and the state of the running daemon. -/
structure Turn (env : Env) (d : Path) (st0 st1 : St) (tr : List CEv) (s : CSys) : Prop where
  inTurn : Spec.InTurn env st0 tr st1
  free : s.holder = none → s.st = st1
  inside : ∀ t o p, s.phase t = .inside o p → s.holder = some t ∧ p.run s.st = Spec.alone env o st1 ∧ o.op.Safe d st1.cat ∧ (o.prog env).Mid st1 s.st.fs ∧
    ∀ f, p.Mid s.st f → (o.prog env).Mid st1 f
  held : ∀ t, s.holder = some t → ∃ o p, s.phase t = .inside o p

theorem Turn.start (st0 : St) : Turn env d st0 st0 [] (CSys.quiet st0) :=
  ⟨rfl, fun _ => rfl, fun _ _ _ h => (by cases h), fun _ h => (by cases h)⟩

theorem mid_start {α : Type} (p : Prog α) (s : St) : p.Mid s s.fs := by
  cases p with
  | done r => rfl
  | step act next => exact Or.inl rfl

theorem Turn.step {st0 st1 : St} {tr ev : List CEv} {s s' : CSys} (h : Turn env d st0 st1 tr s) (hs : CStep env d s ev s') :
    ∃ st2, Turn env d st0 st2 (tr ++ ev) s' ∧ (st2 = st1 ∨
      (∃ p x, ¬ CatFile d p ∧ st2 = { st1 with fs := st1.fs.put p x }) ∨
      ∃ o r, Spec.alone env o st1 = (r, st2) ∧ r.returns = true ∧ o.op.Safe d st1.cat) := by
  cases hs with
  | make t o hp =>
    refine ⟨st1, ⟨(inTurn_append _ _ _ _).mpr ⟨st1, h.inTurn, rfl⟩, h.free, ?_, ?_⟩, Or.inl rfl⟩
    · intro u o' p' hu
      by_cases e : u = t
      · subst e; rw [to_same] at hu; cases hu
      · rw [to_other s _ e] at hu; exact h.inside u o' p' hu
    · intro u hu
      obtain ⟨o', p', h1⟩ := h.held u hu
      by_cases e : u = t
      · subst e; rw [hp] at h1; cases h1
      · exact ⟨o', p', by rw [to_other s _ e]; exact h1⟩
  | lock t o hp hfree hsafe =>
    have hst := h.free hfree
    refine ⟨st1, ⟨by rw [List.append_nil]; exact h.inTurn, fun h => (by cases h), ?_, ?_⟩, Or.inl rfl⟩
    · intro u o' p' hu
      have hu : (s.to t (.inside o (o.prog env))).phase u = .inside o' p' := hu
      by_cases e : u = t
      · subst e; rw [to_same] at hu; cases hu
        refine ⟨rfl, ?_, hst ▸ hsafe, ?_, ?_⟩
        · rw [run_prog]; show Spec.alone env o s.st = _; rw [hst]
        · show (o.prog env).Mid st1 s.st.fs; rw [hst]; exact mid_start _ _
        · intro f hf; rw [← hst]; exact hf
      · rw [to_other s _ e] at hu
        have := (h.inside u o' p' hu).1
        rw [hfree] at this; cases this
    · intro u hu
      have hu : some t = some u := hu
      cases hu
      exact ⟨o, _, to_same s t _⟩
  | go t o act next hp =>
    obtain ⟨hh, hrun, hsafe, _, hall⟩ := h.inside t o _ hp
    refine ⟨st1, ⟨by rw [List.append_nil]; exact h.inTurn, ?_, ?_, ?_⟩, Or.inl rfl⟩
    · intro hn
      have hn : s.holder = none := hn
      rw [hh] at hn; cases hn
    · intro u o' p' hu
      have hu : (s.to t (.inside o (next s.st))).phase u = .inside o' p' := hu
      by_cases e : u = t
      · subst e; rw [to_same] at hu; cases hu
        exact ⟨hh, hrun, hsafe, hall _ (Or.inr (mid_start _ _)), fun f hf => hall f (Or.inr hf)⟩
      · rw [to_other s _ e] at hu
        have := (h.inside u o' p' hu).1
        rw [hh] at this; cases this; exact absurd rfl e
    · intro u hu
      have hu : s.holder = some u := hu
      rw [hh] at hu; cases hu
      exact ⟨o, _, to_same s t _⟩
  | unlock t o r hp hr =>
    obtain ⟨hh, hrun, hsafe, _, _⟩ := h.inside t o _ hp
    have hrun : Spec.alone env o st1 = (r, s.st) := hrun.symm
    refine ⟨s.st, ⟨(inTurn_append _ _ _ _).mpr ⟨st1, h.inTurn, s.st, hrun, rfl⟩, fun _ => rfl, ?_, fun u hu => (by cases hu)⟩, Or.inr (Or.inr ⟨o, r, hrun, hr, hsafe⟩)⟩
    intro u o' p' hu
    have hu : (s.to t .idle).phase u = .inside o' p' := hu
    by_cases e : u = t
    · subst e; rw [to_same] at hu; cases hu
    · rw [to_other s _ e] at hu
      have := (h.inside u o' p' hu).1
      rw [hh] at this; cases this; exact absurd rfl e
  | user p x hp hfree =>
    have hst := h.free hfree
    refine ⟨{ st1 with fs := st1.fs.put p x }, ⟨(inTurn_append _ _ _ _).mpr ⟨st1, h.inTurn, rfl⟩, fun _ => (by show ({ s.st with fs := s.st.fs.put p x } : St) = _; rw [hst]), ?_, ?_⟩, Or.inr (Or.inl ⟨p, x, hp, rfl⟩)⟩
    · intro u o' p' hu
      have := (h.inside u o' p' hu).1
      rw [hfree] at this; cases this
    · intro u hu
      have hu : s.holder = some u := hu
      rw [hfree] at hu; cases hu

theorem Turn.run {st0 : St} {tr : List CEv} {s : CSys} (h : CRun env d (CSys.quiet st0) tr s) : ∃ st1, Turn env d st0 st1 tr s := by
  induction h with
  | refl => exact ⟨st0, Turn.start st0⟩
  | step _ hs ih =>
    obtain ⟨st1, h1⟩ := ih
    obtain ⟨st2, h2, _⟩ := h1.step hs
    exact ⟨st2, h2⟩

/-- C110: whatever calls any number of goroutines make at the same time, the answers are those of the same calls made alone one after the other in the order of their returns; when
nobody holds the lock the state is the one those calls leave; and the call that holds the lock will, whatever the others do, end as it ends alone from there. -/
theorem C110_one_by_one (st0 : St) (tr : List CEv) (s : CSys) (h : CRun env d (CSys.quiet st0) tr s) :
    ∃ st1, Spec.InTurn env st0 tr st1 ∧ (s.holder = none → s.st = st1) ∧
      ∀ t o p, s.phase t = .inside o p → s.holder = some t ∧ p.run s.st = Spec.alone env o st1 := by
  obtain ⟨st1, h1⟩ := Turn.run h
  exact ⟨st1, h1.inTurn, h1.free, fun t o p hp => ⟨(h1.inside t o p hp).1, (h1.inside t o p hp).2.1⟩⟩

/-- Each goroutine's place follows from its last event. -/
theorem lastEvent {st0 : St} {tr : List CEv} {s : CSys} (h : CRun env d (CSys.quiet st0) tr s) (t : Nat) (o : LCall)
    (hp : s.phase t = .waiting o ∨ ∃ p, s.phase t = .inside o p) : ∃ a b, tr = a ++ .made t o :: b ∧ ∀ e ∈ b, ¬ Spec.By t e := by
  induction h with
  | refl => rcases hp with h | ⟨p, h⟩ <;> cases h
  | @step tr ev s s' _ hs ih =>
    have keep : (s.phase t = .waiting o ∨ ∃ p, s.phase t = .inside o p) → (∀ e ∈ ev, ¬ Spec.By t e) → ∃ a b, tr ++ ev = a ++ .made t o :: b ∧ ∀ e ∈ b, ¬ Spec.By t e := by
      intro h hev
      obtain ⟨a, b, h1, h2⟩ := ih h
      refine ⟨a, b ++ ev, by rw [h1]; simp, fun e he => ?_⟩
      rcases List.mem_append.mp he with he | he
      · exact h2 e he
      · exact hev e he
    cases hs with
    | make u o' hu =>
      by_cases e : t = u
      · subst e
        rcases hp with h | ⟨p, h⟩
        · rw [to_same] at h; cases h
          exact ⟨tr, [], rfl, fun _ h => (by cases h)⟩
        · rw [to_same] at h; cases h
      · simp only [to_other s _ e] at hp
        refine keep hp fun x hx => ?_
        rw [List.mem_singleton] at hx; subst hx
        exact fun h => e h.symm
    | lock u o' hu _ _ =>
      have hp : (s.to u (.inside o' (o'.prog env))).phase t = .waiting o ∨ ∃ p, (s.to u (.inside o' (o'.prog env))).phase t = .inside o p := hp
      refine keep ?_ fun _ h => by cases h
      by_cases e : t = u
      · subst e
        rcases hp with h | ⟨p, h⟩
        · rw [to_same] at h; cases h
        · rw [to_same] at h; cases h; exact Or.inl hu
      · simp only [to_other s _ e] at hp; exact hp
    | go u o' act next hu =>
      have hp : (s.to u (.inside o' (next s.st))).phase t = .waiting o ∨ ∃ p, (s.to u (.inside o' (next s.st))).phase t = .inside o p := hp
      refine keep ?_ fun _ h => by cases h
      by_cases e : t = u
      · subst e
        rcases hp with h | ⟨p, h⟩
        · rw [to_same] at h; cases h
        · rw [to_same] at h; cases h; exact Or.inr ⟨_, hu⟩
      · simp only [to_other s _ e] at hp; exact hp
    | unlock u o' r hu _ =>
      have hp : (s.to u .idle).phase t = .waiting o ∨ ∃ p, (s.to u .idle).phase t = .inside o p := hp
      by_cases e : t = u
      · subst e
        rcases hp with h | ⟨p, h⟩ <;> (rw [to_same] at h; cases h)
      · simp only [to_other s _ e] at hp
        refine keep hp fun x hx => ?_
        rw [List.mem_singleton] at hx; subst hx
        exact fun h => e h.symm
    | user p x _ _ =>
      refine keep hp fun y hy => ?_
      rw [List.mem_singleton] at hy; subst hy
      exact fun h => h

theorem snoc_eq {α : Type} {l a b : List α} {x y : α} (h : l ++ [x] = a ++ y :: b) : (l = a ∧ x = y) ∨ ∃ b', l = a ++ y :: b' := by
  rcases List.eq_nil_or_concat b with hb | ⟨b', z, hb⟩
  · subst hb
    have := List.append_inj' h rfl
    exact Or.inl ⟨this.1, by simpa using this.2⟩
  · subst hb
    have := List.append_inj' (s₁ := l) (t₁ := [x]) (s₂ := a ++ y :: b') (t₂ := [z]) (by rw [h]; simp) rfl
    exact Or.inr ⟨b', this.1⟩

/-- C110, the order: a call takes effect between the moment it is made and the moment it returns.  The return of a call comes after the call was made by the same goroutine, which does
nothing in between; so a call made after another one returned comes after it in the order of returns. -/
theorem C110_order (st0 : St) (tr : List CEv) (s : CSys) (h : CRun env d (CSys.quiet st0) tr s) (a b : List CEv) (t : Nat) (o : LCall) (r : Res Answer)
    (htr : tr = a ++ .returned t o r :: b) : ∃ a1 a2, a = a1 ++ .made t o :: a2 ∧ ∀ e ∈ a2, ¬ Spec.By t e := by
  induction h generalizing b with
  | refl => simp at htr
  | @step tr ev s s' hr hs ih =>
    cases hs with
    | make u o' hu =>
      rcases snoc_eq htr with ⟨_, h⟩ | ⟨b', h⟩
      · cases h
      · exact ih b' h
    | lock u o' hu _ _ => rw [List.append_nil] at htr; exact ih b htr
    | go u o' act next hu => rw [List.append_nil] at htr; exact ih b htr
    | unlock u o' r' hu _ =>
      rcases snoc_eq htr with ⟨h1, h⟩ | ⟨b', h⟩
      · cases h
        rw [← h1]
        exact lastEvent hr t o (Or.inr ⟨_, hu⟩)
      · exact ih b' h
    | user p x _ _ =>
      rcases snoc_eq htr with ⟨_, h⟩ | ⟨b', h⟩
      · cases h
      · exact ih b' h

/-- The call of `Model/CatSystem` is the call made alone with its answer forgotten. -/
theorem alone_run (o : LCall) (st : St) : (o.op.run env st).1.returns = (Spec.alone env o st).1.returns ∧ (o.op.run env st).2 = (Spec.alone env o st).2 ∧
    ((Spec.alone env o st).1 = .crash → (o.op.run env st).1 = .crash) := by
  have key : ∀ {α : Type} (x : CM α) (f : α → Answer), (CM.void x st).1.returns = ((do return f (← x) : CM Answer) st).1.returns ∧
      (CM.void x st).2 = ((do return f (← x) : CM Answer) st).2 ∧ (((do return f (← x) : CM Answer) st).1 = .crash → (CM.void x st).1 = .crash) := by
    intro α x f
    unfold CM.void
    simp only [IOM.bind_apply]
    cases x st with
    | mk r s1 => cases r <;> exact ⟨rfl, rfl, fun h => by cases h <;> rfl⟩
  have key2 : ∀ (x : CM Unit), (x st).1.returns = ((do x; return Answer.nothing : CM Answer) st).1.returns ∧
      (x st).2 = ((do x; return Answer.nothing : CM Answer) st).2 ∧ (((do x; return Answer.nothing : CM Answer) st).1 = .crash → (x st).1 = .crash) := by
    intro x
    simp only [IOM.bind_apply]
    cases x st with
    | mk r s1 => cases r <;> exact ⟨rfl, rfl, fun h => by cases h <;> rfl⟩
  cases o with
  | share p => exact key _ _
  | unshare h => exact key2 _
  | register s cs h n => exact key _ _
  | list o => exact key _ _
  | get h => exact key _ _
  | complete h => exact key _ _
  | missing h => exact key _ _
  | save h c d => exact key2 _
  | reader h c ch => exact key _ _

theorem reach_snoc {s t : Sys} (h : Reach env d dl s) (hs : Step env d dl s t) : Reach env d dl t := by
  obtain ⟨fs, h1, h2⟩ := h
  exact ⟨fs, h1, h2.step hs⟩

theorem reach_alone (o : LCall) (st : St) (h : Reach env d dl (.running st.cat st.fs)) (hsafe : o.op.Safe d st.cat)
    (hr : (Spec.alone env o st).1.returns = true) : Reach env d dl (.running (Spec.alone env o st).2.cat (Spec.alone env o st).2.fs) := by
  have := reach_snoc h (Step.call o.op st.faults st.cat st.fs hsafe)
  obtain ⟨h1, h2, _⟩ := alone_run (env := env) o st
  rw [hr] at h1
  rw [← h2]
  have e : (⟨st.cat, st.fs, st.faults⟩ : St) = st := rfl
  rw [e] at this
  cases ho : (o.op.run env st).1 with
  | ok _ => rw [ho] at this; exact this
  | err _ => rw [ho] at this; exact this
  | panic => rw [ho] at h1; cases h1
  | exit => rw [ho] at h1; cases h1
  | crash => rw [ho] at h1; cases h1

theorem stop_alone (o : LCall) (st : St) (h : Reach env d dl (.running st.cat st.fs)) (hsafe : o.op.Safe d st.cat) :
    Reach env d dl (.stopped (Spec.alone env o st).2.fs) := by
  have := reach_snoc h (Step.call o.op st.faults st.cat st.fs hsafe)
  obtain ⟨_, h2, _⟩ := alone_run (env := env) o st
  rw [← h2]
  have e : (⟨st.cat, st.fs, st.faults⟩ : St) = st := rfl
  rw [e] at this
  cases ho : (o.op.run env st).1 with
  | ok _ => rw [ho] at this; exact reach_snoc this (Step.kill _ _)
  | err _ => rw [ho] at this; exact reach_snoc this (Step.kill _ _)
  | panic => rw [ho] at this; exact this
  | exit => rw [ho] at this; exact this
  | crash => rw [ho] at this; exact this

theorem Turn.reach {st0 : St} {tr : List CEv} {s : CSys} (h0 : Reach env d dl (.running st0.cat st0.fs)) (h : CRun env d (CSys.quiet st0) tr s) :
    ∃ st1, Turn env d st0 st1 tr s ∧ Reach env d dl (.running st1.cat st1.fs) := by
  induction h with
  | refl => exact ⟨st0, Turn.start st0, h0⟩
  | step _ hs ih =>
    obtain ⟨st1, h1, h2⟩ := ih
    obtain ⟨st2, h3, h4⟩ := h1.step hs
    refine ⟨st2, h3, ?_⟩
    rcases h4 with h4 | ⟨p, x, hp, h4⟩ | ⟨o, r, h4, h5, h6⟩
    · rw [h4]; exact h2
    · rw [h4]; exact reach_snoc h2 (Step.userRunning _ _ p x hp)
    · have := reach_alone (env := env) o st1 h2 h6 (by rw [h4]; exact h5)
      rw [h4] at this
      exact this

/-- C110, what follows: whenever nobody holds the lock, the daemon is in a state it could be in had all calls been made one at a time; so everything proved about such states holds of a
daemon whose goroutines make calls at the same time. -/
theorem C110_reach (st0 : St) (h0 : Reach env d dl (.running st0.cat st0.fs)) (tr : List CEv) (s : CSys) (h : CRun env d (CSys.quiet st0) tr s)
    (hfree : s.holder = none) : Reach env d dl (.running s.st.cat s.st.fs) := by
  obtain ⟨st1, h1, h2⟩ := Turn.reach h0 h
  rw [h1.free hfree]; exact h2

/-- C111: at every instant of every execution, also between two bytes of a write, the files are those of a daemon that made its calls one at a time and died at an operation on files
(or between two calls). -/
theorem C111_killed (st0 : St) (h0 : Reach env d dl (.running st0.cat st0.fs)) (tr : List CEv) (s : CSys) (h : CRun env d (CSys.quiet st0) tr s) :
    Reach env d dl (.stopped s.st.fs) := by
  obtain ⟨st1, h1, h2⟩ := Turn.reach h0 h
  cases hh : s.holder with
  | none => rw [h1.free hh]; exact reach_snoc h2 (Step.kill _ _)
  | some t =>
    obtain ⟨o, p, hp⟩ := h1.held t hh
    obtain ⟨_, _, hsafe, hmid, _⟩ := h1.inside t o p hp
    have hend := stop_alone (env := env) o st1 h2 hsafe
    have hrun := run_prog (env := env) o
    rcases (Prog.good_prog env o).2 st1 with ⟨_, hall⟩ | hst
    · rcases hall _ hmid with ⟨fl, s', hc, hf⟩ | hf
      · have := stop_alone (env := env) o (st1.withFaults fl) h2 hsafe
        rw [hrun] at hc
        rw [hc, hf] at this
        exact this
      · rw [hrun] at hf; rw [hf]; exact hend
    · rw [hst _ hmid]; exact reach_snoc h2 (Step.kill _ _)

/-- C111, one call: at every instant the files are those before the call, those after it, or those it leaves when it dies at an operation on files. -/
theorem C111_one (st0 : St) (tr : List CEv) (s : CSys) (h : CRun env d (CSys.quiet st0) tr s) :
    ∃ st1, Spec.InTurn env st0 tr st1 ∧ (s.st.fs = st1.fs ∨
      ∃ t o, s.holder = some t ∧ (s.st.fs = (Spec.alone env o st1).2.fs ∨ ∃ fl s', Spec.alone env o { st1 with faults := fl } = (.crash, s') ∧ s'.fs = s.st.fs)) := by
  obtain ⟨st1, h1⟩ := Turn.run h
  refine ⟨st1, h1.inTurn, ?_⟩
  cases hh : s.holder with
  | none => exact Or.inl (by rw [h1.free hh])
  | some t =>
    obtain ⟨o, p, hp⟩ := h1.held t hh
    obtain ⟨_, _, _, hmid, _⟩ := h1.inside t o p hp
    have hrun := run_prog (env := env) o
    rcases (Prog.good_prog env o).2 st1 with ⟨_, hall⟩ | hst
    · rcases hall _ hmid with ⟨fl, s', hc, hf⟩ | hf
      · rw [hrun] at hc
        exact Or.inr ⟨t, o, rfl, Or.inr ⟨fl, s', hc, hf⟩⟩
      · rw [hrun] at hf
        exact Or.inr ⟨t, o, rfl, Or.inl hf⟩
    · exact Or.inl (hst _ hmid)

theorem alone_dry (o : LCall) (st : St) (h : st.faults = []) : (Spec.alone env o st).2.faults = [] := by
  rw [← run_prog]
  exact ((Prog.good_prog env o).1 st).1 h

theorem Turn.clean {st0 : St} {tr : List CEv} {s : CSys} (h0 : CleanReach env d dl (.running st0.cat st0.fs)) (hf : st0.faults = []) (h : CRun env d (CSys.quiet st0) tr s) :
    ∃ st1, Turn env d st0 st1 tr s ∧ CleanReach env d dl (.running st1.cat st1.fs) ∧ st1.faults = [] := by
  induction h with
  | refl => exact ⟨st0, Turn.start st0, h0, hf⟩
  | step _ hs ih =>
    obtain ⟨st1, h1, h2, h3⟩ := ih
    obtain ⟨st2, h4, h5⟩ := h1.step hs
    refine ⟨st2, h4, ?_⟩
    rcases h5 with h5 | ⟨p, x, hp, h5⟩ | ⟨o, r, h5, h6, h7⟩
    · rw [h5]; exact ⟨h2, h3⟩
    · rw [h5]; exact ⟨CleanReach.userRunning _ _ p x hp h2, h3⟩
    · obtain ⟨k1, k2, _⟩ := alone_run (env := env) o st1
      have k3 := alone_dry (env := env) o st1 h3
      rw [h5] at k1 k2 k3
      refine ⟨?_, k3⟩
      have e : (⟨st1.cat, st1.fs, []⟩ : St) = st1 := by rw [← h3]
      refine CleanReach.call o.op st1.cat st1.fs (o.op.run env st1).1 st2 h2 h7 ?_ (by rw [k1]; exact h6)
      rw [e]; exact Prod.ext rfl k2

/-- C111, what follows for a daemon that met no errors: killed at an instant at which no call is changing the catalogue (nobody holds the lock, or the call that holds it is `ListFiles`,
`Get`, `FileComplete`, `MissingChunks` or `GetChunkReader`), however many calls are waiting, it can be started again and `ListFiles` works. -/
theorem C111_usable (hh : Healthy env d) (st0 : St) (h0 : CleanReach env d dl (.running st0.cat st0.fs)) (hf : st0.faults = []) (tr : List CEv) (s : CSys)
    (h : CRun env d (CSys.quiet st0) tr s) (hq : ∀ t o p, s.phase t = .inside o p → o.op.readOnly = true) : Usable env d dl s.st.fs := by
  obtain ⟨st1, h1, h2, h3⟩ := Turn.clean h0 hf h
  obtain ⟨k1, k2, _⟩ := C31_partial hh h2
  cases hho : s.holder with
  | none => rw [h1.free hho]; exact k1
  | some t =>
    obtain ⟨o, p, hp⟩ := h1.held t hho
    obtain ⟨_, _, _, hmid, _⟩ := h1.inside t o p hp
    have hro : ∀ fl, (Spec.alone env o (st1.withFaults fl)).2.fs = st1.fs := by
      intro fl
      rw [← (alone_run (env := env) o (st1.withFaults fl)).2.1]
      exact k2 o.op fl _ _ (hq t o p hp) rfl
    have hrun := run_prog (env := env) o
    have : s.st.fs = st1.fs := by
      rcases (Prog.good_prog env o).2 st1 with ⟨_, hall⟩ | hst
      · rcases hall _ hmid with ⟨fl, s', hc, hf⟩ | hf
        · rw [hrun] at hc
          have := hro fl
          rw [hc] at this
          rw [← hf, ← this]
        · rw [hrun] at hf
          rw [hf]
          exact hro st1.faults
      · exact hst _ hmid
    rw [this]; exact k1

/-- A call that holds the lock can be carried to its end. -/
theorem carry {s0 : CSys} {tr : List CEv} (t : Nat) (o : LCall) (p : Prog Answer) : ∀ s, CRun env d s0 tr s → s.phase t = .inside o p →
    ∃ s', CRun env d s0 tr s' ∧ s'.phase t = .inside o (.done (p.run s.st).1) ∧ s'.st = (p.run s.st).2 ∧ s'.holder = s.holder ∧ ∀ u, u ≠ t → s'.phase u = s.phase u := by
  induction p with
  | done r => intro s h hp; exact ⟨s, h, hp, rfl, rfl, fun _ _ => rfl⟩
  | step act next ih =>
    intro s h hp
    have h1 := h.step (CStep.go s t o act next hp)
    rw [List.append_nil] at h1
    obtain ⟨s', k1, k2, k3, k4, k5⟩ := ih s.st _ h1 (to_same s t _)
    exact ⟨s', k1, k2, k3, k4, fun u hu => (k5 u hu).trans (to_other s _ hu)⟩

/-- The claim is not empty: two goroutines make calls at the same time, and the second waits until the first is done.  Both orders of the calls are possible. -/
theorem C110_both (st0 : St) (o1 o2 : LCall) (r1 r2 : Res Answer) (st1 st2 : St) (h1 : Spec.alone env o1 st0 = (r1, st1)) (h2 : Spec.alone env o2 st1 = (r2, st2))
    (hr1 : r1.returns = true) (hr2 : r2.returns = true) (hs1 : o1.op.Safe d st0.cat) (hs2 : o2.op.Safe d st1.cat) :
    ∃ s, CRun env d (CSys.quiet st0) [.made 1 o2, .made 0 o1, .returned 0 o1 r1, .returned 1 o2 r2] s ∧ s.st = st2 := by
  have a1 := (CRun.refl (env := env) (d := d) (s0 := CSys.quiet st0)).step (CStep.make _ 1 o2 rfl)
  have a2 := a1.step (CStep.make _ 0 o1 rfl)
  have a3 := a2.step (CStep.lock _ 0 o1 rfl rfl hs1)
  rw [List.append_nil] at a3
  obtain ⟨s4, b1, b2, b3, b4, b5⟩ := carry 0 o1 _ _ a3 (to_same (((CSys.quiet st0).to 1 (.waiting o2)).to 0 (.waiting o1)) 0 _)
  have e1 : (o1.prog env).run st0 = (r1, st1) := by rw [run_prog]; exact h1
  have b2 : s4.phase 0 = .inside o1 (.done r1) := by rw [b2]; show Phase.inside o1 (Prog.done ((o1.prog env).run st0).1) = _; rw [e1]
  have b3 : s4.st = st1 := by rw [b3]; show ((o1.prog env).run st0).2 = _; rw [e1]
  have a5 := b1.step (CStep.unlock s4 0 o1 r1 b2 hr1)
  have hw : s4.phase 1 = .waiting o2 := by rw [b5 1 (by decide)]; rfl
  have a6 := a5.step (CStep.lock _ 1 o2 ((to_other s4 (t := 0) (u := 1) .idle (by decide)).trans hw) rfl (by show o2.op.Safe d s4.st.cat; rw [b3]; exact hs2))
  rw [List.append_nil] at a6
  obtain ⟨s7, c1, c2, c3, c4, c5⟩ := carry 1 o2 _ _ a6 (to_same { s4.to 0 .idle with holder := none } 1 _)
  have e2 : (o2.prog env).run s4.st = (r2, st2) := by rw [run_prog, b3]; exact h2
  have c2 : s7.phase 1 = .inside o2 (.done r2) := by rw [c2]; show Phase.inside o2 (Prog.done ((o2.prog env).run s4.st).1) = _; rw [e2]
  have c3 : s7.st = st2 := by rw [c3]; show ((o2.prog env).run s4.st).2 = _; rw [e2]
  exact ⟨_, c1.step (CStep.unlock s7 1 o2 r2 c2 hr2), c3⟩

/-- The hypotheses are met: in a daemon just started on an empty directory, one goroutine lists the files while another asks for a chunk of a file that is not there. -/
example (sha1 : Bytes → Sha1Hash) (json : JsonCodec) (h : Sha1Hash) : ∃ st0 : St, CleanReach (exEnv sha1 json) exDir exDown (.running st0.cat st0.fs) ∧ st0.faults = [] ∧
    ∃ s, CRun (exEnv sha1 json) exDir (CSys.quiet st0) [.made 1 (.reader h 0 []), .made 0 (.list []), .returned 0 (.list []) (.ok (.entries [])),
      .returned 1 (.reader h 0 []) (.err .fileNotFound)] s ∧ s.st = st0 := by
  refine ⟨⟨⟨exDir, exDown, some (freshIdx (exEnv sha1 json) exDir)⟩, exFS1 sha1 json, []⟩, CleanReach.fresh (exEnv sha1 json) exDir exDown (ex_healthy sha1 json).utf8 exFS ex_fs_clean, rfl, ?_⟩
  exact C110_both _ _ _ _ _ _ _ rfl rfl rfl rfl trivial trivial

/-- Every moment of a call that holds the lock is met by an execution. -/
theorem reaches {s0 : CSys} {tr : List CEv} (t : Nat) (o : LCall) (p : Prog Answer) : ∀ s f, CRun env d s0 tr s → s.phase t = .inside o p → p.Mid s.st f →
    ∃ s', CRun env d s0 tr s' ∧ s'.st.fs = f ∧ s'.holder = s.holder := by
  induction p with
  | done r => intro s f h hp hf; exact ⟨s, h, hf.symm, rfl⟩
  | step act next ih =>
    intro s f h hp hf
    rcases hf with hf | hf
    · exact ⟨s, h, hf.symm, rfl⟩
    · have h1 := h.step (CStep.go s t o act next hp)
      rw [List.append_nil] at h1
      obtain ⟨s', k1, k2, k3⟩ := ih s.st _ f h1 (to_same s t _) hf
      exact ⟨s', k1, k2, k3⟩

theorem mid_left {α β : Type} (p : Prog α) (k : α → Prog β) : ∀ s f, p.Mid s f → (p >>= k).Mid s f := by
  show ∀ s f, p.Mid s f → (p.bind k).Mid s f
  induction p with
  | done r =>
    intro s f hf
    cases r with
    | ok a => rw [show f = s.fs from hf]; exact mid_start _ _
    | err _ => exact hf
    | panic => exact hf
    | exit => exact hf
    | crash => exact hf
  | step act next ih =>
    intro s f hf
    rcases hf with hf | hf
    · exact Or.inl hf
    · exact Or.inr (ih s _ f hf)

theorem mid_right {α β : Type} (p : Prog α) (k : α → Prog β) : ∀ s f a s1, p.run s = (.ok a, s1) → (k a).Mid s1 f → (p >>= k).Mid s f := by
  show ∀ s f a s1, p.run s = (.ok a, s1) → (k a).Mid s1 f → (p.bind k).Mid s f
  induction p with
  | done r => intro s f a s1 h hf; cases h; exact hf
  | step act next ih => intro s f a s1 h hf; exact Or.inr (ih s _ f a s1 h hf)

theorem mid_writes (p : Path) (g : Nat → Bytes) (n k : Nat) (hk : k ≤ n) : ∀ s : St, (Prog.writeUpTo p g n).Mid s (s.fs.put p (some (g k))) := by
  induction n with
  | zero => intro s; have : k = 0 := by omega
            subst this; exact Or.inr rfl
  | succ n ih =>
    intro s
    unfold Prog.writeUpTo
    by_cases h : k ≤ n
    · exact mid_left _ _ _ _ (ih h s)
    · have : k = n + 1 := by omega
      subst this
      refine mid_right _ _ s _ () _ (by rw [Prog.run_writeUpTo]; rfl) (Or.inr ?_)
      exact (Prog.FS_put_put _ _ _ _).symm

/-- C111 speaks of every byte: while a download is registered the daemon can be caught with any number of bytes of the new index in the file. -/
theorem C111_every_byte (st0 : St) (ind : IndexFile) (hi : st0.cat.indexFile = some ind) (size : UInt64) (cs : UInt32) (h : Sha1Hash) (name : GoString)
    (hn : mapGet ind.index h = none) (hf : st0.faults = []) (k : Nat) :
    ∃ s r, CRun env d (CSys.quiet st0) [.made 0 (.register size cs h name)] s ∧ s.holder = some 0 ∧
      s.st.fs = st0.fs.put (indexPath ind.dataDir) (some ((env.json.enc ({ ind with index := mapPut ind.index h r } : IndexFile).toJSON).take k)) := by
  have a1 := (CRun.refl (env := env) (d := d) (s0 := CSys.quiet st0)).step (CStep.make _ 0 (.register size cs h name) rfl)
  have a2 := a1.step (CStep.lock _ 0 _ rfl rfl trivial)
  rw [List.append_nil] at a2
  let r : Record := { filePath := joinPath [st0.cat.downloadsDir, name], sizeInBytes := asInt64 size, sha1Hash := h, progressFile := none, chunkSize := cs.toNat }
  let ind' : IndexFile := { ind with index := mapPut ind.index h r }
  let data := env.json.enc ind'.toJSON
  obtain ⟨s', k1, k2, k3⟩ := reaches 0 _ _ _ (st0.fs.put (indexPath ind.dataDir) (some (data.take k))) a2 (to_same ((CSys.quiet st0).to 0 (.waiting (.register size cs h name))) 0 _) (by
    refine mid_left _ _ _ _ ?_
    refine mid_right _ _ _ _ st0.cat st0 rfl ?_
    refine mid_left _ _ _ _ ?_
    have hg : getIndex st0 = (.ok ind, st0) := by
      unfold getIndex
      rw [IOM.bind_apply, getCat_apply]
      simp only [hi]; rfl
    refine mid_right _ _ _ _ ind st0 hg ?_
    simp only [hn]
    let st1 : St := { st0 with cat := { st0.cat with indexFile := some ind' } }
    refine mid_right _ _ _ _ () st1 rfl ?_
    refine mid_right _ _ _ _ ind' st1 rfl ?_
    refine mid_right _ _ _ _ Fault.none st1 (by show nextFault st1 = _; unfold nextFault; rw [show st1.faults = [] from hf]) ?_
    have := mid_writes (indexPath ind.dataDir) data.take data.length (min k data.length) (by omega) st1
    rw [show data.take (min k data.length) = data.take k by simp [List.take_eq_take_iff]] at this
    exact this)
  exact ⟨s', r, k1, k3, k2⟩

example (sha1 : Bytes → Sha1Hash) (json : JsonCodec) (h : Sha1Hash) : ∃ st0 : St, ∃ ind, CleanReach (exEnv sha1 json) exDir exDown (.running st0.cat st0.fs) ∧
    st0.faults = [] ∧ st0.cat.indexFile = some ind ∧ mapGet ind.index h = none :=
  ⟨⟨⟨exDir, exDown, some (freshIdx (exEnv sha1 json) exDir)⟩, exFS1 sha1 json, []⟩, _,
    CleanReach.fresh (exEnv sha1 json) exDir exDown (ex_healthy sha1 json).utf8 exFS ex_fs_clean, rfl, rfl, rfl⟩

end Flu
