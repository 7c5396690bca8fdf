import Verif.Model.CleanMany
import Verif.Props.Clean
import Verif.Props.Unshare
import Verif.Props.DownloadLoop
import Verif.Props.Requests
import Verif.Props.LiveShare
/-!
# `clean` while other commands run
-/
namespace Flu

namespace Spec

/-- Nothing is wrong with the file of `h`: whenever the catalogue has it, it can be read and has the content the hash names or is an unfinished download; and no chunk is saved
that the file does not have. -/
def Undamaged (env : Env) (h : Sha1Hash) (s : CmState) (a : CmAct) : Prop :=
  (∀ e, observe s.cat s.fs h = .ok e → Sound env s.fs e) ∧
  ∀ n b, a = .call (.save h n b) → ∀ e, observe s.cat s.fs h = .ok e → (n.toNat : Int) < e.progress.sizeOf

/-- No file is added to the catalogue. -/
def NothingNew (_ : CmState) (a : CmAct) : Prop := (∀ p, a ≠ .call (.share p)) ∧ ∀ size cs h name, a ≠ .call (.register size cs h name)

end Spec

/-- The files a running `clean` has yet to look at. -/
def ClPos.left : ClPos → List Export
  | .loop todo _ => todo
  | .removing _ _ _ todo _ => todo
  | .over _ => []

section
variable {env : Env} {d dl : Path} {c : Cat} {fs : FS}

theorem CleanReach.shown (hh : Healthy env d) (hreach : CleanReach env d dl (.running c fs)) (h : Sha1Hash) :
    observe c fs h = .err .fileNotFound ∨ ∃ e, observe c fs h = .ok e ∧ e.sha1Hash = h := by
  obtain ⟨ind, rfl, hs⟩ := hreach.sync hh.abs hh.utf8
  have own := fun e he => C27_own hh hreach.reach h e he
  rw [observe_eq] at own ⊢
  unfold obsRec at own ⊢
  rcases hm : mapGet ind.index h with _ | r
  · exact .inl rfl
  · obtain ⟨p, hp, -⟩ := hs.prog h r hm
    rw [hm] at own
    simp only [hp] at own ⊢
    exact .inr ⟨_, rfl, own _ rfl⟩

theorem rehashCall_unknown (hh : Healthy env d) (hreach : CleanReach env d dl (.running c fs)) (h : Sha1Hash) (hx : observe c fs h = .err .fileNotFound) :
    rehashCall env h ⟨c, fs, []⟩ = (.ok (none, some .fileNotFound), ⟨c, fs, []⟩) := by
  have hI : Inv env d dl c fs := hreach.reach.inv hh.abs hh.utf8
  obtain ⟨ind, rfl, hw⟩ := hI.split
  rw [observe_eq, obsRec_notFound] at hx
  unfold rehashCall
  rw [IOM.bind_apply, attempt_apply]
  simp only [getIndexRecord_nil, hx]
  rfl

/-- What looking at a file does. -/
theorem clStep_look (hh : Healthy env d) (hreach : CleanReach env d dl (.running c fs)) (f : Export) (todo : List Export) (items : List CleanItem)
    (hf : ∃ b, f.progress.full = .ok b) : ∃ pos' s', clStep env (.loop (f :: todo) items) ⟨c, fs, []⟩ = (.ok pos', s') ∧ s'.fs = fs ∧ s'.faults = [] ∧
      (∀ k, observe s'.cat s'.fs k = observe c fs k) ∧ CleanReach env d dl (.running s'.cat s'.fs) ∧
      ((observe c fs f.sha1Hash = .err .fileNotFound ∧ pos' = .removing f none .missing todo items) ∨
       ∃ e, observe c fs f.sha1Hash = .ok e ∧
        ((fs e.filePath = none ∧ pos' = .removing f (some Sha1Hash.blank) .missing todo items) ∨
         ∃ content, fs e.filePath = some content ∧
          ((f.progress.full = .ok false ∧ pos' = .loop todo (items ++ [⟨f.filePath, f.sha1Hash, env.sha1 content, .inProgress⟩])) ∨
           (f.progress.full = .ok true ∧ env.sha1 content ≠ f.sha1Hash ∧ pos' = .removing f (some (env.sha1 content)) .changed todo items) ∨
           (f.progress.full = .ok true ∧ env.sha1 content = f.sha1Hash ∧ pos' = .loop todo (items ++ [⟨f.filePath, f.sha1Hash, env.sha1 content, .fine⟩])))))
    := by
  simp only [clStep]
  rcases hreach.shown hh f.sha1Hash with hx | ⟨e, hx, -⟩
  · rw [IOM.bind_apply, rehashCall_unknown hh hreach _ hx]
    exact ⟨_, _, rfl, rfl, rfl, fun _ => rfl, hreach, .inl ⟨hx, rfl⟩⟩
  · obtain ⟨c', hc⟩ := rehashCall_nil hh hreach.reach _ e hx
    have hc1 : ∀ o er, rehashCall env f.sha1Hash ⟨c, fs, []⟩ = (.ok (o, er), ⟨c', fs, []⟩) →
        CleanReach env d dl (.running c' fs) ∧ ∀ k, observe c' fs k = observe c fs k := by
      intro o er h
      exact ⟨hreach.returns (.rehash f.sha1Hash) trivial _ (rehashCall_run _ _ _ _ _ h), (rehashCall_ok hh hreach.reach _ e hx [] _ _ _ h).2.1⟩
    rcases hfp : fs e.filePath with _ | content
    · rw [hfp] at hc
      obtain ⟨g1, g2⟩ := hc1 _ _ hc
      rw [IOM.bind_apply, hc]
      exact ⟨_, _, rfl, rfl, rfl, g2, g1, .inr ⟨e, hx, .inl ⟨hfp, rfl⟩⟩⟩
    · rw [hfp] at hc
      obtain ⟨g1, g2⟩ := hc1 _ _ hc
      rw [IOM.bind_apply, hc]
      obtain ⟨b, hb⟩ := hf
      simp only [IOM.bind_apply, IOM.lift_apply, hb]
      cases b with
      | false =>
        refine ⟨_, _, rfl, rfl, rfl, g2, g1, .inr ⟨e, hx, .inr ⟨content, hfp, .inl ⟨rfl, rfl⟩⟩⟩⟩
      | true =>
        by_cases hne : env.sha1 content = f.sha1Hash
        · have : ¬ (some (env.sha1 content) ≠ some f.sha1Hash) := fun h => h (by rw [hne])
          simp only [Bool.not_true, Bool.false_eq_true, if_false, if_neg this]
          exact ⟨_, _, rfl, rfl, rfl, g2, g1, .inr ⟨e, hx, .inr ⟨content, hfp, .inr (.inr ⟨trivial, hne, rfl⟩)⟩⟩⟩
        · have : some (env.sha1 content) ≠ some f.sha1Hash := fun h => hne (by injection h)
          simp only [Bool.not_true, Bool.false_eq_true, if_false, if_pos this]
          exact ⟨_, _, rfl, rfl, rfl, g2, g1, .inr ⟨e, hx, .inr ⟨content, hfp, .inr (.inl ⟨trivial, hne, rfl⟩)⟩⟩⟩

/-- What removing a file does. -/
theorem clStep_remove (hh : Healthy env d) (hreach : CleanReach env d dl (.running c fs)) (f : Export) (found : Option Sha1Hash) (act : Action) (todo : List Export)
    (items : List CleanItem) :
    (observe c fs f.sha1Hash = .err .fileNotFound ∧
      clStep env (.removing f found act todo items) ⟨c, fs, []⟩ = (.ok (.over (.error .fileNotFound)), ⟨c, fs, []⟩)) ∨
    ∃ e s', observe c fs f.sha1Hash = .ok e ∧ Gone d c fs f.sha1Hash s' ∧ s'.faults = [] ∧ CleanReach env d dl (.running s'.cat s'.fs) ∧
      clStep env (.removing f found act todo items) ⟨c, fs, []⟩ = clAnswer f found act todo items s' := by
  rw [clStep]
  rcases hreach.shown hh f.sha1Hash with hx | ⟨e, hx, -⟩
  · left
    refine ⟨hx, ?_⟩
    rw [IOM.bind_apply, attempt_apply, C28_unknown hh hreach.reach _ [] hx]
    rfl
  · right
    obtain ⟨s', hs⟩ := unshare_total hh hreach _ e hx
    obtain ⟨-, g1, g2, g3, g4⟩ := C28_unshare hh hreach.reach _ [] s' hs
    have hfl : s'.faults = [] := by
      have := OkClean.unshareFile env f.sha1Hash _ _ _ hs
      rw [St.quiet_eq] at this
      simp only at this
      rw [hs] at this
      exact congrArg (fun x => x.2.faults) this
    refine ⟨e, s', hx, ⟨g1, g3, fun q hq => g4 q (fun he => hq (.inl he)) (fun he => hq (.inr ⟨_, he⟩))⟩, hfl, CleanReach.call (.unshare f.sha1Hash) c fs _ s' hreach trivial hs rfl, ?_⟩
    rw [IOM.bind_apply, attempt_apply, hs]

/-- What beginning does. -/
theorem clBegin_run (hh : Healthy env d) (hreach : CleanReach env d dl (.running c fs)) (order : List Sha1Hash) (ho : MapOrder c order) :
    ∃ es s', listFiles order ⟨c, fs, []⟩ = (.ok es, s') ∧ clBegin order ⟨c, fs, []⟩ = (.ok (.loop es []), s') ∧ s'.fs = fs ∧ s'.faults = [] ∧
      (∀ k, observe s'.cat s'.fs k = observe c fs k) ∧ CleanReach env d dl (.running s'.cat s'.fs) ∧ ∀ f ∈ es, observe c fs f.sha1Hash = .ok f := by
  obtain ⟨es, s1, h1⟩ := C38_total hh hreach.reach order ho (fun h hx => by
    rcases hreach.shown hh h with h' | ⟨e, h', -⟩
    · exact absurd h' hx
    · exact ⟨e, h'⟩)
  obtain ⟨g1, g2, g3, g4, g5⟩ := C38_list hh hreach.reach order ho [] es s1 h1
  have hfl : s1.faults = [] := by
    have := OkClean.listFiles order _ _ _ h1
    rw [St.quiet_eq] at this
    simp only at this
    rw [h1] at this
    exact congrArg (fun x => x.2.faults) this
  refine ⟨es, s1, h1, ?_, g4, hfl, g5, hreach.returns (.list order) trivial s1 (.inl (CM.void_ok _ _ _ _ h1)), ?_⟩
  · unfold clBegin
    rw [IOM.bind_apply, attempt_apply, h1]
    rfl
  · intro e he
    have : Res.ok e ∈ order.map (observe c fs) := by rw [g1]; exact List.mem_map.2 ⟨e, he, rfl⟩
    obtain ⟨h, -, hh'⟩ := List.mem_map.1 this
    rw [C27_own hh hreach.reach h e hh']; exact hh'

/-- What holds in every state of a run. -/
structure CmInv (env : Env) (d dl : Path) (s : CmState) : Prop where
  clean : CleanReach env d dl (.running s.cat s.fs)
  left : ∀ t pos, s.threads t = some pos → ∀ f ∈ pos.left, ∃ b, f.progress.full = .ok b

theorem CmInv.start {s : CmState} (hreach : CleanReach env d dl (.running s.cat s.fs)) (h0 : ∀ t, s.threads t = none) : CmInv env d dl s :=
  ⟨hreach, fun t pos ht => by rw [h0 t] at ht; cases ht⟩

theorem clThreads_upd {α : Type} {f : Nat → Option α} {t t' : Nat} {pos pos' : α} (h : upd f t (some pos) t' = some pos') :
    (t' = t ∧ pos' = pos) ∨ f t' = some pos' := by
  by_cases e : t' = t
  · subst e
    rw [upd_same] at h
    injection h with h
    exact .inl ⟨rfl, h.symm⟩
  · rw [upd_other _ _ e] at h
    exact .inr h

theorem clAnswer_ok {f : Export} {found : Option Sha1Hash} {act : Action} {todo : List Export} {items : List CleanItem} {st st' : St} {pos : ClPos}
    (h : clAnswer f found act todo items st = (.ok pos, st')) : st' = st ∧ ∃ x, found = some x ∧ pos = .loop todo (items ++ [⟨f.filePath, f.sha1Hash, x, act⟩]) := by
  unfold clAnswer at h
  cases found with
  | none => cases h
  | some x => cases h; exact ⟨rfl, x, rfl, rfl⟩

/-- What a step of a running `clean` that returns does to the catalogue. -/
theorem clStep_ok (hh : Healthy env d) (hreach : CleanReach env d dl (.running c fs)) (pos pos' : ClPos) (s' : St) (hl : ∀ f ∈ pos.left, ∃ b, f.progress.full = .ok b)
    (hrun : clStep env pos ⟨c, fs, []⟩ = (.ok pos', s')) :
    CleanReach env d dl (.running s'.cat s'.fs) ∧ (∀ f ∈ pos'.left, f ∈ pos.left) ∧
    ((∀ k, observe s'.cat s'.fs k = observe c fs k) ∨ ∃ f found act todo items, pos = .removing f found act todo items ∧ Gone d c fs f.sha1Hash s') := by
  cases pos with
  | loop todo items =>
    cases todo with
    | nil => rw [clStep] at hrun; cases hrun; exact ⟨hreach, (fun f hf => by cases hf), .inl fun _ => rfl⟩
    | cons f todo =>
      obtain ⟨p, s1, h1, -, -, h3, h4, h5⟩ := clStep_look hh hreach f todo items (hl f (List.mem_cons_self ..))
      rw [h1] at hrun; cases hrun
      refine ⟨h4, ?_, .inl h3⟩
      intro g hg
      apply List.mem_cons_of_mem
      rcases h5 with ⟨-, rfl⟩ | ⟨e, -, ⟨-, rfl⟩ | ⟨_, -, ⟨-, rfl⟩ | ⟨-, -, rfl⟩ | ⟨-, -, rfl⟩⟩⟩ <;> exact hg
  | removing f found act todo items =>
    rcases clStep_remove hh hreach f found act todo items with ⟨-, h1⟩ | ⟨e, s1, -, h2, -, h3, h4⟩
    · rw [h1] at hrun; cases hrun; exact ⟨hreach, (fun f hf => by cases hf), .inl fun _ => rfl⟩
    · rw [h4] at hrun
      obtain ⟨rfl, x, rfl, rfl⟩ := clAnswer_ok hrun
      exact ⟨h3, fun g hg => hg, .inr ⟨f, _, act, todo, items, rfl, h2⟩⟩
  | over r => rw [clStep] at hrun; cases hrun; exact ⟨hreach, (fun f hf => by cases hf), .inl fun _ => rfl⟩

theorem CmInv.step (hh : Healthy env d) {s s2 : CmState} {a : CmAct} (hI : CmInv env d dl s) (h : CmStep env d a s (.alive s2)) : CmInv env d dl s2 := by
  cases h with
  | «begin» t order s pos s' ht ho hrun =>
    obtain ⟨es, s1, -, h1, -, -, -, h2, h3⟩ := clBegin_run hh hI.clean order ho
    rw [h1] at hrun; cases hrun
    refine ⟨h2, fun t' pos' ht' f hf => ?_⟩
    rcases clThreads_upd ht' with ⟨-, rfl⟩ | ht'
    · exact full_total hh hI.clean _ f (h3 f hf)
    · exact hI.left t' pos' ht' f hf
  | work t s pos pos' s' ht hrun =>
    obtain ⟨h1, h2, -⟩ := clStep_ok hh hI.clean pos pos' s' (hI.left t pos ht) hrun
    refine ⟨h1, fun t' p ht' f hf => ?_⟩
    rcases clThreads_upd ht' with ⟨-, rfl⟩ | ht'
    · exact hI.left t pos ht f (h2 f hf)
    · exact hI.left t' p ht' f hf
  | call o s r s' hno hsafe hrun hr => exact ⟨CleanReach.call o _ _ r s' hI.clean hsafe hrun hr, hI.left⟩
  | user p x s hp => exact ⟨CleanReach.userRunning _ _ p x hp hI.clean, hI.left⟩

theorem CmInv.run (hh : Healthy env d) {G : CmState → CmAct → Prop} {s s2 : CmState} (hI : CmInv env d dl s) (h : CmRun env d G s (.alive s2)) : CmInv env d dl s2 := by
  generalize hx : CmSys.alive s2 = x at h
  induction h generalizing s2 with
  | refl => cases hx; exact hI
  | step h hG h' ih => subst hx; exact (ih rfl).step hh h'

/-- C125: in every state of every run, a step of a `clean` ends the daemon exactly if it is the removal of a file that was not in the catalogue when it looked and is in it now. -/
theorem C125_dies_iff_partial (hh : Healthy env d) (G : CmState → CmAct → Prop) (s0 s : CmState) (hreach : CleanReach env d dl (.running s0.cat s0.fs)) (h0 : ∀ t, s0.threads t = none)
    (hrun : CmRun env d G s0 (.alive s)) (t : Nat) :
    (∃ left, CmStep env d (.clean t) s (.dead left)) ↔ ∃ f act todo items e, s.threads t = some (.removing f none act todo items) ∧ observe s.cat s.fs f.sha1Hash = .ok e := by
  have hI := (CmInv.start hreach h0).run hh hrun
  constructor
  · rintro ⟨left, h⟩
    cases h with
    | beginDies t order s r s' ht ho hrun hr =>
      obtain ⟨es, s1, -, h1, -⟩ := clBegin_run hh hI.clean order ho
      rw [h1] at hrun; cases hrun; cases hr
    | workDies t s pos r s' ht hrun hr =>
      cases pos with
      | loop todo items =>
        cases todo with
        | nil => rw [clStep] at hrun; cases hrun; cases hr
        | cons f todo =>
          obtain ⟨p, s1, h1, -⟩ := clStep_look hh hI.clean f todo items (hI.left t _ ht f (List.mem_cons_self ..))
          rw [h1] at hrun; cases hrun; cases hr
      | removing f found act todo items =>
        rcases clStep_remove hh hI.clean f found act todo items with ⟨-, h1⟩ | ⟨e, s1, h2, -, -, -, h4⟩
        · rw [h1] at hrun; cases hrun; cases hr
        · rw [h4] at hrun
          cases found with
          | none => exact ⟨f, act, todo, items, e, ht, h2⟩
          | some x => unfold clAnswer at hrun; cases hrun; cases hr
      | over r => rw [clStep] at hrun; cases hrun; cases hr
  · rintro ⟨f, act, todo, items, e, ht, ho⟩
    rcases clStep_remove hh hI.clean f none act todo items with ⟨h1, -⟩ | ⟨e', s1, -, -, -, -, h4⟩
    · rw [ho] at h1; cases h1
    · exact ⟨_, CmStep.workDies t s _ _ s1 ht (h4.trans rfl) rfl⟩

theorem readOnly_same (hh : Healthy env d) (hreach : Reach env d dl (.running c fs)) (o : Op) (hro : o.readOnly = true) (fl : List Fault) (r : Res Unit) (s' : St)
    (hrun : o.run env ⟨c, fs, fl⟩ = (r, s')) (hr : r.returns = true) (k : Sha1Hash) : observe s'.cat s'.fs k = observe c fs k := by
  have hI : Inv env d dl c fs := hreach.inv hh.abs hh.utf8
  obtain ⟨ind, rfl, hw⟩ := hI.split
  have ht := ro_op (d := d) (dl := dl) (ind := ind) (fs0 := fs) env hw.ownGet o hro ⟨_, fs, fl⟩ (RO.init _ _ _ _)
  rcases Res.returns_cases hr with rfl | ⟨e, rfl⟩
  · exact (RO.same (ht.1 _ s' hrun)).2 k
  · exact (RO.same (ht.2 _ s' hrun (fun a e => by cases e))).2 k

/-- A file that is not in the catalogue gets into it only by being shared or registered. -/
theorem unknown_call (hh : Healthy env d) (hreach : CleanReach env d dl (.running c fs)) (h : Sha1Hash) (hx : observe c fs h = .err .fileNotFound) (o : Op) (hsafe : o.Safe d c)
    (h1 : ∀ k, o ≠ .unshare k) (h2 : ∀ p, o ≠ .share p) (h3 : ∀ a b c' n, o ≠ .register a b c' n) (r : Res Unit) (s' : St)
    (hrun : o.run env ⟨c, fs, []⟩ = (r, s')) (hr : r.returns = true) : observe s'.cat s'.fs h = .err .fileNotFound := by
  by_cases hro : o.readOnly = true
  · rw [readOnly_same hh hreach.reach o hro [] r s' hrun hr, hx]
  cases o with
  | share p => exact absurd rfl (h2 p)
  | register a b c' n => exact absurd rfl (h3 a b c' n)
  | unshare k => exact absurd rfl (h1 k)
  | save k n data =>
    by_cases hk : h = k
    · subst hk
      have := saveChunk_unknown hh hreach.reach h hx n data []
      rw [show saveChunk h n data ⟨c, fs, []⟩ = (r, s') from hrun] at this
      simp only at this
      subst this; cases hr
    · rw [((C32_save hh hreach.reach k n data [] hsafe r s' hrun).others h hk).2, hx]
  | list o => exact absurd rfl hro
  | rehash h => exact absurd rfl hro
  | contains h => exact absurd rfl hro
  | get h => exact absurd rfl hro
  | complete h => exact absurd rfl hro
  | missing h => exact absurd rfl hro
  | reader h n ch => exact absurd rfl hro

/-- A complete file stays in the catalogue and complete, whatever calls other than `UnshareFile` are made, provided no chunk is saved that it does not have. -/
theorem known_call (hh : Healthy env d) (hreach : CleanReach env d dl (.running c fs)) (h : Sha1Hash) (e : Export) (ho : observe c fs h = .ok e) (o : Op) (hsafe : o.Safe d c)
    (h1 : ∀ k, o ≠ .unshare k) (h2 : ∀ n b, o = .save h n b → (n.toNat : Int) < e.progress.sizeOf) (r : Res Unit) (s' : St) (hrun : o.run env ⟨c, fs, []⟩ = (r, s'))
    (hr : r.returns = true) : ∃ e', observe s'.cat s'.fs h = .ok e' ∧ e' = { e with progress := e'.progress } ∧ (e.progress.full = .ok true → e'.progress.full = .ok true) := by
  by_cases htch : o.Touches h
  · cases o with
    | unshare k => exact absurd rfl (h1 k)
    | save k n data =>
      obtain rfl : k = h := htch
      obtain ⟨s1, hs1⟩ := saveChunk_total hh hreach.reach k n data e ho
      have hrun' : saveChunk k n data ⟨c, fs, []⟩ = (r, s') := hrun
      rw [hs1] at hrun'; cases hrun'
      obtain ⟨e0, e', g1, g2, g3, g4, g5, -⟩ := saveChunk_effect hh hreach.reach k n data [] hsafe s' hs1
      rw [ho] at g1; cases g1
      have hn := h2 n data rfl
      have hclean' : CleanReach env d dl (.running s'.cat s'.fs) := CleanReach.call (.save k n data) c fs _ s' hreach hsafe hrun rfl
      refine ⟨e', g2, g3, fun hf => ?_⟩
      obtain ⟨b, hb⟩ := full_total hh hclean' k e' g2
      have w := (progress_wf hh hreach k e ho).loaded
      have w' := (progress_wf hh hclean' k e' g2).loaded
      have hall := (w.full_iff _ hf).1 rfl
      rw [hb, (w'.full_iff _ hb).2 (fun i hi => ?_)]
      have hlt : i < 2 ^ 63 := by
        have := w'.size_lt
        unfold Bitset.sizeOf at hi
        omega
      refine (g5 i hlt).2 (.inl (hall i ?_))
      rw [g4] at hi
      omega
    | share p => exact htch.elim
    | register a b c' n => exact htch.elim
    | list o => exact htch.elim
    | rehash h => exact htch.elim
    | contains h => exact htch.elim
    | get h => exact htch.elim
    | complete h => exact htch.elim
    | missing h => exact htch.elim
    | reader h n ch => exact htch.elim
  · rw [observe_other hh hreach.reach h (by rw [ho]; intro hx; cases hx) o hsafe htch [] r s' hrun, ho]
    exact ⟨e, rfl, rfl, id⟩

/-- What holds of a file nothing is wrong with: the catalogue has it, no `clean` is about to remove it, and what a `clean` takes for complete is complete. -/
structure Safely (h : Sha1Hash) (e0 : Export) (s : CmState) (e : Export) : Prop where
  shown : observe s.cat s.fs h = .ok e
  same : e = { e0 with progress := e.progress }
  full : ∀ t pos, s.threads t = some pos → ∀ f ∈ pos.left, f.sha1Hash = h → f.progress.full = .ok true → e.progress.full = .ok true
  kept : ∀ t f found act todo items, s.threads t = some (.removing f found act todo items) → f.sha1Hash ≠ h

theorem Safely.step (hh : Healthy env d) {h : Sha1Hash} {e0 e : Export} {s s2 : CmState} {a : CmAct} (hI : CmInv env d dl s) (hS : Safely h e0 s e)
    (hG : Spec.Undamaged env h s a) (hst : CmStep env d a s (.alive s2)) : ∃ e', Safely h e0 s2 e' := by
  cases hst with
  | «begin» t order s pos s' ht ho hrun =>
    obtain ⟨es, s1, -, h1, -, -, h5, h2, h3⟩ := clBegin_run hh hI.clean order ho
    rw [h1] at hrun; cases hrun
    refine ⟨e, (h5 h).trans hS.shown, hS.same, fun t' pos' ht' f hf hfh hff => ?_, fun t' f found act todo items ht' => ?_⟩
    · rcases clThreads_upd ht' with ⟨-, rfl⟩ | ht'
      · have := h3 f hf
        rw [hfh, hS.shown] at this
        cases this
        exact hff
      · exact hS.full t' pos' ht' f hf hfh hff
    · rcases clThreads_upd ht' with ⟨-, hp⟩ | ht'
      · cases hp
      · exact hS.kept t' f found act todo items ht'
  | work t s pos pos' s' ht hrun =>
    obtain ⟨h1, h2, h3⟩ := clStep_ok hh hI.clean pos pos' s' (hI.left t pos ht) hrun
    have hobs : observe s'.cat s'.fs h = observe s.cat s.fs h := by
      rcases h3 with h3 | ⟨f, found, act, todo, items, rfl, h3⟩
      · exact h3 h
      · exact h3.2.1 h (fun hx => hS.kept t f found act todo items ht hx.symm)
    refine ⟨e, hobs.trans hS.shown, hS.same, fun t' p ht' f hf hfh hff => ?_, fun t' f found act todo items ht' => ?_⟩
    · rcases clThreads_upd ht' with ⟨-, rfl⟩ | ht'
      · exact hS.full t pos ht f (h2 f hf) hfh hff
      · exact hS.full t' p ht' f hf hfh hff
    · rcases clThreads_upd ht' with ⟨-, rfl⟩ | ht'
      · intro hfh
        cases pos with
        | loop rest its =>
          cases rest with
          | nil => rw [clStep] at hrun; cases hrun
          | cons g rest =>
            obtain ⟨p, s1, k1, -, -, -, -, k5⟩ := clStep_look hh hI.clean g rest its (hI.left t _ ht g (List.mem_cons_self ..))
            rw [k1] at hrun; cases hrun
            rcases k5 with ⟨k6, hp⟩ | ⟨e', k6, k7⟩
            · cases hp
              rw [hfh, hS.shown] at k6; cases k6
            · have hge : g.sha1Hash = h → e' = e := by
                intro hg
                rw [hg, hS.shown] at k6; cases k6; rfl
              obtain ⟨content, q1, q2⟩ := hG.1 e hS.shown
              rcases k7 with ⟨k8, hp⟩ | ⟨y, k8, ⟨-, hp⟩ | ⟨k9, k10, hp⟩ | ⟨-, -, hp⟩⟩
              · cases hp
                rw [hge hfh, q1] at k8; cases k8
              · cases hp
              · cases hp
                rw [hge hfh, q1] at k8; cases k8
                have hfull := hS.full t _ ht f (List.mem_cons_self ..) hfh k9
                rcases q2 with q2 | q2
                · rw [hfull] at q2; cases q2
                · exact k10 (by rw [q2, hfh, C27_own hh hI.clean.reach h e hS.shown])
              · cases hp
        | removing g fd ac td its =>
          rcases clStep_remove hh hI.clean g fd ac td its with ⟨-, k1⟩ | ⟨_, s1, -, -, -, -, k4⟩
          · rw [k1] at hrun; cases hrun
          · rw [k4] at hrun
            obtain ⟨-, x, -, hp⟩ := clAnswer_ok hrun
            cases hp
        | over r => rw [clStep] at hrun; cases hrun
      · exact hS.kept t' f found act todo items ht'
  | call o s r s' hno hsafe hrun hr =>
    obtain ⟨e', k1, k2, k3⟩ := known_call hh hI.clean h e hS.shown o hsafe hno (fun n b ho => hG.2 n b (by rw [ho]) e hS.shown) r s' hrun hr
    refine ⟨e', k1, ?_, fun t' p ht' f hf hfh hff => k3 (hS.full t' p ht' f hf hfh hff), hS.kept⟩
    rw [k2, hS.same]
  | user p x s hp =>
    exact ⟨e, (observe_user hh hI.clean.reach p x hp h).trans hS.shown, hS.same, hS.full, hS.kept⟩

/-- C125: a file with which nothing is ever wrong stays in the catalogue, whatever `clean` commands and other commands run at the same time. -/
theorem C125_sound_partial (hh : Healthy env d) (s0 s : CmState) (hreach : CleanReach env d dl (.running s0.cat s0.fs)) (h0 : ∀ t, s0.threads t = none) (h : Sha1Hash) (e : Export)
    (ho : observe s0.cat s0.fs h = .ok e) (hrun : CmRun env d (Spec.Undamaged env h) s0 (.alive s)) :
    ∃ e', observe s.cat s.fs h = .ok e' ∧ e' = { e with progress := e'.progress } := by
  have key : ∀ x, CmRun env d (Spec.Undamaged env h) s0 x → ∀ s, x = .alive s → CmInv env d dl s ∧ ∃ e', Safely h e s e' := by
    intro x hx
    induction hx with
    | refl =>
      rintro s ⟨⟩
      exact ⟨CmInv.start hreach h0, e, ho, rfl, (fun t pos ht => by rw [h0 t] at ht; cases ht), (fun t f found act todo items ht => by rw [h0 t] at ht; cases ht)⟩
    | step hr hG hst ih =>
      rintro s2 rfl
      obtain ⟨hI, e1, hS⟩ := ih _ rfl
      exact ⟨hI.step hh hst, hS.step hh hI hG hst⟩
  obtain ⟨-, e', hS⟩ := key _ hrun s rfl
  exact ⟨e', hS.shown, hS.same⟩

/-- C125: while no file is added to the catalogue, no number of `clean` commands ends the daemon. -/
theorem C125_alive_partial (hh : Healthy env d) (s0 s : CmState) (hreach : CleanReach env d dl (.running s0.cat s0.fs)) (h0 : ∀ t, s0.threads t = none)
    (hrun : CmRun env d Spec.NothingNew s0 (.alive s)) (t : Nat) (left : FS) : ¬ CmStep env d (.clean t) s (.dead left) := by
  have key : ∀ x, CmRun env d Spec.NothingNew s0 x → ∀ s, x = .alive s →
      CmInv env d dl s ∧ ∀ t f act todo items, s.threads t = some (.removing f none act todo items) → observe s.cat s.fs f.sha1Hash = .err .fileNotFound := by
    intro x hx
    induction hx with
    | refl =>
      rintro s ⟨⟩
      exact ⟨CmInv.start hreach h0, fun t f act todo items ht => by rw [h0 t] at ht; cases ht⟩
    | @step s1 a x hr hG hst ih =>
      rintro s2 rfl
      obtain ⟨hI, hN⟩ := ih _ rfl
      refine ⟨hI.step hh hst, ?_⟩
      cases hst with
      | «begin» t order s pos s' ht ho hrun =>
        obtain ⟨es, s1, -, h1, -, -, h5, h2, h3⟩ := clBegin_run hh hI.clean order ho
        rw [h1] at hrun; cases hrun
        intro t' f act todo items ht'
        rcases clThreads_upd ht' with ⟨-, hp⟩ | ht'
        · cases hp
        · exact (h5 _).trans (hN t' f act todo items ht')
      | work t s pos pos' s' ht hrun =>
        obtain ⟨h1, h2, h3⟩ := clStep_ok hh hI.clean pos pos' s' (hI.left t pos ht) hrun
        have hobs : ∀ k, observe s1.cat s1.fs k = .err .fileNotFound → observe s'.cat s'.fs k = .err .fileNotFound := by
          intro k hk
          rcases h3 with h3 | ⟨f, found, act, todo, items, rfl, h3⟩
          · exact (h3 k).trans hk
          · by_cases hkf : k = f.sha1Hash
            · rw [hkf]; exact h3.1
            · exact (h3.2.1 k hkf).trans hk
        intro t' f act todo items ht'
        rcases clThreads_upd ht' with ⟨-, rfl⟩ | ht'
        · apply hobs
          cases pos with
          | loop rest its =>
            cases rest with
            | nil => rw [clStep] at hrun; cases hrun
            | cons g rest =>
              obtain ⟨p, s1, k1, -, -, -, -, k5⟩ := clStep_look hh hI.clean g rest its (hI.left t _ ht g (List.mem_cons_self ..))
              rw [k1] at hrun; cases hrun
              rcases k5 with ⟨k6, hp⟩ | ⟨e', k6, ⟨k8, hp⟩ | ⟨y, k8, ⟨-, hp⟩ | ⟨k9, k10, hp⟩ | ⟨-, -, hp⟩⟩⟩ <;> cases hp
              exact k6
          | removing g fd ac td its =>
            rcases clStep_remove hh hI.clean g fd ac td its with ⟨-, k1⟩ | ⟨_, s1, -, -, -, -, k4⟩
            · rw [k1] at hrun; cases hrun
            · rw [k4] at hrun
              obtain ⟨-, x, -, hp⟩ := clAnswer_ok hrun
              cases hp
          | over r => rw [clStep] at hrun; cases hrun
        · exact hobs _ (hN t' f act todo items ht')
      | call o s r s' hno hsafe hrun hr =>
        intro t' f act todo items ht'
        exact unknown_call hh hI.clean _ (hN t' f act todo items ht') o hsafe hno (fun p hp => hG.1 p (by rw [hp])) (fun a b c' n hp => hG.2 a b c' n (by rw [hp])) r s' hrun hr
      | user p x s hp =>
        intro t' f act todo items ht'
        exact (observe_user hh hI.clean.reach p x hp _).trans (hN t' f act todo items ht')
  intro hdead
  obtain ⟨f, act, todo, items, e, h1, h2⟩ := (C125_dies_iff_partial hh _ s0 s hreach h0 hrun t).1 ⟨left, hdead⟩
  rw [(key _ hrun s rfl).2 t f act todo items h1] at h2
  cases h2

/-- A run of steps of one `clean`, and of nothing else, from where it is in the loop to its end does what the rest of the loop does. -/
theorem clean_alone_loop (hh : Healthy env d) (t : Nat) : ∀ (todo : List Export) (items its : List CleanItem) (s : CmState) (s' : St), CleanReach env d dl (.running s.cat s.fs) →
    (∀ f ∈ todo, ∃ b, f.progress.full = .ok b) → s.threads t = some (.loop todo items) → cleanLoop env todo ⟨s.cat, s.fs, []⟩ = (.ok its, s') →
    ∃ s2, CmRun env d (fun _ a => a = .clean t) s (.alive s2) ∧ s2.cat = s'.cat ∧ s2.fs = s'.fs ∧ s2.threads t = some (.loop [] (items ++ its)) := by
  intro todo
  induction todo with
  | nil =>
    intro items its s s' hreach _ ht hrun
    cases hrun
    exact ⟨s, .refl, rfl, rfl, by rw [ht, List.append_nil]⟩
  | cons f todo ih =>
    intro items its s s' hreach hf ht hrun
    unfold cleanLoop at hrun
    obtain ⟨it, s1, h1, hrun⟩ := (IOM.bind_ok_iff _ _ _ _ _).1 hrun
    obtain ⟨its', s2, h2, hrun⟩ := (IOM.bind_ok_iff _ _ _ _ _).1 hrun
    cases hrun
    have hf1 := hf f (List.mem_cons_self ..)
    have hf2 : ∀ g ∈ todo, ∃ b, g.progress.full = .ok b := fun g hg => hf g (List.mem_cons_of_mem _ hg)
    -- one iteration is one step or two
    have one : s1.faults = [] ∧ CleanReach env d dl (.running s1.cat s1.fs) ∧ ∃ s3, CmRun env d (fun _ a => a = .clean t) s (.alive s3) ∧ s3.cat = s1.cat ∧ s3.fs = s1.fs ∧
        s3.threads t = some (.loop todo (items ++ [it])) := by
      obtain ⟨pos, q, k1, k2, k3, k4, k5, k6⟩ := clStep_look hh hreach f todo items hf1
      have hst := CmStep.work (d := d) t s _ pos q ht k1
      have hrunA : CmRun env d (fun _ a => a = .clean t) s (.alive ⟨q.cat, q.fs, upd s.threads t (some pos)⟩) := .step .refl rfl hst
      simp only [clStep] at k1
      unfold cleanOne at h1
      obtain ⟨⟨o, er⟩, q1, m1, h1⟩ := (IOM.bind_ok_iff _ _ _ _ _).1 h1
      rw [IOM.bind_apply, m1] at k1
      obtain ⟨ac, q2, m2, h1⟩ := (IOM.bind_ok_iff _ _ _ _ _).1 h1
      cases o with
      | none => cases h1
      | some x =>
      cases h1
      have finish : ∀ (act : Action), pos = .removing f (some x) act todo items → q = q1 → unshareFile env f.sha1Hash q1 = (.ok (), s1) → ac = act →
          s1.faults = [] ∧ CleanReach env d dl (.running s1.cat s1.fs) ∧ ∃ s3, CmRun env d (fun _ a => a = .clean t) s (.alive s3) ∧ s3.cat = s1.cat ∧ s3.fs = s1.fs ∧
            s3.threads t = some (.loop todo (items ++ [⟨f.filePath, f.sha1Hash, x, ac⟩])) := by
        rintro act rfl rfl hu rfl
        have hq : q = ⟨q.cat, q.fs, []⟩ := by rw [← k3]
        rcases clStep_remove hh k5 f (some x) ac todo items with ⟨n1, -⟩ | ⟨e, w, -, -, n3, n4, n5⟩
        · rw [hq, C28_unknown hh k5.reach _ [] n1] at hu; cases hu
        · have hw : w = s1 := by
            rw [clStep, IOM.bind_apply, attempt_apply, ← hq, hu] at n5
            have := congrArg Prod.snd n5
            exact this.symm
          subst hw
          refine ⟨n3, n4, _, .step hrunA rfl (CmStep.work t _ _ _ w (upd_same _ _ _) (n5.trans rfl)), rfl, rfl, upd_same _ _ _⟩
      cases er with
      | some er =>
        obtain ⟨u, q3, m3, m4⟩ := (IOM.bind_ok_iff _ _ _ _ _).1 m2
        cases m4; cases k1
        exact finish .missing rfl rfl m3 rfl
      | none =>
        obtain ⟨b, hb⟩ := hf1
        simp only [IOM.bind_apply, IOM.lift_apply, hb] at m2 k1
        have stay : ∀ act, pos = .loop todo (items ++ [⟨f.filePath, f.sha1Hash, x, act⟩]) → q = q1 → ac = act → s1 = q1 →
            s1.faults = [] ∧ CleanReach env d dl (.running s1.cat s1.fs) ∧ ∃ s3, CmRun env d (fun _ a => a = .clean t) s (.alive s3) ∧ s3.cat = s1.cat ∧ s3.fs = s1.fs ∧
            s3.threads t = some (.loop todo (items ++ [⟨f.filePath, f.sha1Hash, x, ac⟩])) := by
          rintro act rfl rfl rfl rfl
          exact ⟨k3, k5, _, hrunA, rfl, rfl, upd_same _ _ _⟩
        cases b with
        | false =>
          cases m2; cases k1
          exact stay .inProgress rfl rfl rfl rfl
        | true =>
          by_cases hne : some x ≠ some f.sha1Hash
          · simp only [Bool.not_true, Bool.false_eq_true, if_false, if_pos hne] at m2 k1
            obtain ⟨u, q3, m3, m4⟩ := (IOM.bind_ok_iff _ _ _ _ _).1 m2
            cases m4; cases k1
            exact finish .changed rfl rfl m3 rfl
          · simp only [Bool.not_true, Bool.false_eq_true, if_false, if_neg hne] at m2 k1
            cases m2; cases k1
            exact stay .fine rfl rfl rfl rfl
    obtain ⟨o1, o2, s3, o3, o4, o5, o6⟩ := one
    have hs1 : s1 = ⟨s3.cat, s3.fs, []⟩ := by rw [o4, o5, ← o1]
    rw [hs1] at h2
    obtain ⟨s4, p1, p2, p3, p4⟩ := ih (items ++ [it]) its' s3 s' (by rw [o4, o5]; exact o2) hf2 o6 h2
    refine ⟨s4, ?_, p2, p3, by rw [p4, List.append_assoc]; rfl⟩
    clear p2 p3 p4 h2 hrun
    generalize hx : CmSys.alive s4 = x at p1
    clear hx
    induction p1 with
    | refl => exact o3
    | step _ hG hst ih2 => exact .step ih2 hG hst

/-- C125: a `clean` that runs alone, step by step, does what the whole command does, and answers the same. -/
theorem C125_alone (hh : Healthy env d) (s : CmState) (hreach : CleanReach env d dl (.running s.cat s.fs)) (t : Nat) (ht : s.threads t = none) (order : List Sha1Hash)
    (ho : MapOrder s.cat order) (items : List CleanItem) (s' : St) (hrun : clean env order ⟨s.cat, s.fs, []⟩ = (.ok items, s')) :
    ∃ s2, CmRun env d (fun _ a => a = .clean t) s (.alive s2) ∧ s2.cat = s'.cat ∧ s2.fs = s'.fs ∧ s2.threads t = some (.over (.ok items)) := by
  obtain ⟨es, s1, h1, h2, h3, h4, h5, h6, h7⟩ := clBegin_run hh hreach order ho
  unfold clean at hrun
  rw [IOM.bind_apply, h1] at hrun
  simp only at hrun
  have hs1 : s1 = ⟨s1.cat, s1.fs, []⟩ := by rw [← h4]
  rw [hs1] at hrun
  obtain ⟨s2, g1, g2, g3, g4⟩ := clean_alone_loop (d := d) hh t es [] items ⟨s1.cat, s1.fs, upd s.threads t (some (.loop es []))⟩ s' h6
    (fun f hf => full_total hh hreach _ f (h7 f hf)) (upd_same _ _ _) hrun
  have hfirst : CmRun env d (fun _ a => a = .clean t) s (.alive ⟨s1.cat, s1.fs, upd s.threads t (some (.loop es []))⟩) := .step .refl rfl (CmStep.begin t order s _ s1 ht ho h2)
  have hall : ∀ x, CmRun env d (fun _ a => a = .clean t) ⟨s1.cat, s1.fs, upd s.threads t (some (.loop es []))⟩ x → CmRun env d (fun _ a => a = .clean t) s x := by
    intro x hx
    induction hx with
    | refl => exact hfirst
    | step _ hG hst ih => exact .step ih hG hst
  refine ⟨⟨s2.cat, s2.fs, upd s2.threads t (some (.over (.ok items)))⟩, ?_, g2, g3, upd_same _ _ _⟩
  exact .step (hall _ g1) rfl (CmStep.work t s2 _ _ ⟨s2.cat, s2.fs, []⟩ g4 (by rw [clStep]; rfl))

/-- C125, as one would want it: no `clean` ends the daemon or removes a file that is there and as it should be. -/
def C125_statement (env : Env) (d dl : Path) : Prop :=
  ∀ (s0 s : CmState) (t : Nat) (x : CmSys), CleanReach env d dl (.running s0.cat s0.fs) → (∀ t, s0.threads t = none) → CmRun env d (fun _ _ => True) s0 (.alive s) →
    CmStep env d (.clean t) s x → ∃ s2, x = .alive s2 ∧ ∀ h e, observe s.cat s.fs h = .ok e → Sound env s.fs e → observe s2.cat s2.fs h = .ok e

/-- Beginning to clean a catalogue with one file. -/
theorem clBegin_one (hh : Healthy env d) (hreach : CleanReach env d dl (.running c fs)) (h : Sha1Hash) (e : Export) (hobs : observe c fs h = .ok e)
    (hone : ∀ k, k ≠ h → observe c fs k = .err .fileNotFound) : ∃ order s', MapOrder c order ∧ clBegin order ⟨c, fs, []⟩ = (.ok (.loop [e] []), s') ∧ s'.fs = fs ∧
      (∀ k, observe s'.cat s'.fs k = observe c fs k) ∧ CleanReach env d dl (.running s'.cat s'.fs) := by
  have hI : Inv env d dl c fs := hreach.reach.inv hh.abs hh.utf8
  obtain ⟨ind, rfl, hw⟩ := hI.split
  have ho : MapOrder ⟨d, dl, some ind⟩ (ind.index.map (·.1)) := ⟨ind, rfl, List.Perm.refl _⟩
  obtain ⟨es, s', h1, h2, h3, -, h5, h6, -⟩ := clBegin_run hh hreach _ ho
  obtain ⟨g1, g2, g3, -⟩ := C38_list hh hreach.reach _ ho [] es s' h1
  generalize ind.index.map (·.1) = order at ho h1 h2 g1 g2 g3
  refine ⟨order, s', ho, ?_, h3, h5, h6⟩
  have hmem : ∀ k ∈ order, k = h := by
    intro k hk
    by_cases hkh : k = h
    · exact hkh
    · exact absurd (hone k hkh) ((g3 k).1 hk)
  have hin : h ∈ order := (g3 h).2 (by rw [hobs]; intro hx; cases hx)
  have hord : order = [h] := by
    cases order with
    | nil => cases hin
    | cons a as =>
      cases as with
      | nil => rw [hmem a (List.mem_cons_self ..)]
      | cons b bs =>
        rw [List.nodup_cons] at g2
        rw [hmem a (List.mem_cons_self ..)] at g2
        exact absurd (by rw [hmem b (List.mem_cons_of_mem _ (List.mem_cons_self ..))]; exact List.mem_cons_self ..) g2.1
  rw [hord] at g1
  have hes : es = [e] := by
    cases es with
    | nil => cases g1
    | cons a as =>
      simp only [List.map_cons, List.map_nil, List.cons.injEq] at g1
      obtain ⟨g1, g4⟩ := g1
      rw [hobs] at g1
      cases g1
      cases as with
      | nil => rfl
      | cons b bs => cases g4
  rw [h2, hes]

/-- C125, what goes wrong when a file comes back: two `clean` commands, one of which removes the only file, which had gone missing; the file is put back and shared again; the other
`clean`, which has found nothing in the catalogue, ends the daemon. -/
theorem C125_back (hh : Healthy env d) (hreach : CleanReach env d dl (.running c fs)) (file : GoString) (F : Bytes) (hF : F.length < 2 ^ 63) (hfile : ¬ CatFile d (absPath env.cwd file))
    (e : Export) (hobs : observe c fs (env.sha1 F) = .ok e) (hpath : e.filePath = absPath env.cwd file) (hone : ∀ k, k ≠ env.sha1 F → observe c fs k = .err .fileNotFound) :
    ∃ s e', CmRun env d (fun _ _ => True) ⟨c, fs, fun _ => none⟩ (.alive s) ∧ observe s.cat s.fs (env.sha1 F) = .ok e' ∧ Sound env s.fs e' ∧
      ∃ left, CmStep env d (.clean 0) s (.dead left) := by
  have hown := C27_own hh hreach.reach _ e hobs
  -- the file goes missing
  have r1 : CmRun env d (fun _ _ => True) ⟨c, fs, fun _ => none⟩ (.alive ⟨c, fs.put (absPath env.cwd file) none, fun _ => none⟩) :=
    .step .refl trivial (CmStep.user (absPath env.cwd file) none _ hfile)
  have c1 := CleanReach.userRunning c fs (absPath env.cwd file) none hfile hreach
  have o1 : ∀ k, observe c (fs.put (absPath env.cwd file) none) k = observe c fs k := observe_user hh hreach.reach _ none hfile
  have m1 : (fs.put (absPath env.cwd file) none) (absPath env.cwd file) = none := FS.put_same _ _ _
  generalize fs.put (absPath env.cwd file) none = fs1 at r1 c1 o1 m1
  -- both list
  obtain ⟨ord2, s2, mo2, b2, f2, o2, c2⟩ := clBegin_one hh c1 _ e ((o1 _).trans hobs) (fun k hk => (o1 k).trans (hone k hk))
  have r2 := r1.step trivial (CmStep.begin 0 ord2 _ _ s2 rfl mo2 b2)
  obtain ⟨ord3, s3, mo3, b3, f3, o3, c3⟩ := clBegin_one hh c2 _ e ((o2 _).trans ((o1 _).trans hobs)) (fun k hk => (o2 k).trans ((o1 k).trans (hone k hk)))
  have r3 := r2.step trivial (CmStep.begin 1 ord3 _ _ s3 rfl mo3 b3)
  have k3 : observe s3.cat s3.fs e.sha1Hash = .ok e := by rw [hown]; exact (o3 _).trans ((o2 _).trans ((o1 _).trans hobs))
  have n3 : s3.fs e.filePath = none := by rw [f3, f2, hpath]; exact m1
  have hfull := full_total hh c3 _ e k3
  -- the second looks and removes
  obtain ⟨p4, s4, w4, f4, -, o4, c4, q4⟩ := clStep_look hh c3 e [] [] hfull
  have hp4 : p4 = .removing e (some Sha1Hash.blank) .missing [] [] := by
    rcases q4 with ⟨q, -⟩ | ⟨e', q, ⟨-, hp⟩ | ⟨y, q', -⟩⟩
    · rw [k3] at q; cases q
    · exact hp
    · rw [k3] at q; cases q; rw [n3] at q'; cases q'
  subst hp4
  have r4 := r3.step trivial (CmStep.work 1 _ _ _ s4 rfl w4)
  rcases clStep_remove hh c4 e (some Sha1Hash.blank) .missing [] [] with ⟨q, -⟩ | ⟨e5, s5, -, g5, -, c5, w5⟩
  · rw [o4, k3] at q; cases q
  have r5 := r4.step trivial (CmStep.work 1 _ _ _ s5 rfl (w5.trans rfl))
  -- the first looks
  obtain ⟨p6, s6, w6, f6, -, o6, c6, q6⟩ := clStep_look hh c5 e [] [] hfull
  have hp6 : p6 = .removing e none .missing [] [] := by
    rcases q6 with ⟨-, hp⟩ | ⟨e', q, -⟩
    · exact hp
    · rw [g5.1] at q; cases q
  subst hp6
  have r6 := r5.step trivial (CmStep.work 0 _ _ _ s6 rfl w6)
  -- the file comes back and is shared
  have r7 := r6.step trivial (CmStep.user (absPath env.cwd file) (some F) _ hfile)
  have c7 := CleanReach.userRunning _ _ (absPath env.cwd file) (some F) hfile c6
  have o7 := observe_user hh c6.reach (absPath env.cwd file) (some F) hfile
  have m7 : (s6.fs.put (absPath env.cwd file) (some F)) (absPath env.cwd file) = some F := FS.put_same _ _ _
  have u7 : observe s6.cat (s6.fs.put (absPath env.cwd file) (some F)) (env.sha1 F) = .err .fileNotFound := by
    rw [o7, o6, ← hown]; exact g5.1
  simp only at r7
  generalize s6.fs.put (absPath env.cwd file) (some F) = fs7 at r7 c7 o7 m7 u7
  have hsh : ∃ r s8, shareFile env file ⟨s6.cat, fs7, []⟩ = (.ok r, s8) := by
    obtain ⟨ind, hc, -⟩ := Inv.split (c7.reach.inv hh.abs hh.utf8)
    rw [hc] at c7 u7 ⊢
    exact shareFile_total env file d dl ind fs7 F m7 (unknown_of_notFound hh c7 _ u7) hF
  obtain ⟨r, s8, hsh⟩ := hsh
  obtain ⟨F', t1, -, t3, -, t5⟩ := C26_share hh c7.reach file [] r s8 hsh
  rw [m7] at t1; cases t1
  obtain ⟨b, t6, -, t7, -⟩ := t3 hF
  have r8 := r7.step trivial (CmStep.call (.share file) _ (.ok ()) s8 (fun _ hx => by cases hx) trivial (CM.void_ok _ _ _ _ hsh) rfl)
  refine ⟨_, _, r8, t6, ⟨F, ?_, .inr rfl⟩, ?_⟩
  · show s8.fs _ = some F
    rw [t5 _ (fun hx => hfile (.inl hx)) (fun hx => hfile (.inr ⟨_, hx⟩))]
    exact m7
  · refine (C125_dies_iff_partial hh _ ⟨c, fs, fun _ => none⟩ _ hreach (fun _ => rfl) r8 0).2 ⟨e, .missing, [], [], ⟨absPath env.cwd file, F.length, env.sha1 F, b, 4194304⟩, rfl, ?_⟩
    rw [hown]; exact t6

/-- C125, what goes wrong when a file comes back in time: a `clean` that found the only file missing removes it although it is there again, the same as before. -/
theorem C125_restored (hh : Healthy env d) (hreach : CleanReach env d dl (.running c fs)) (h : Sha1Hash) (e : Export) (hobs : observe c fs h = .ok e) (hs : Sound env fs e)
    (hfile : ¬ CatFile d e.filePath) (hone : ∀ k, k ≠ h → observe c fs k = .err .fileNotFound) :
    ∃ s s2, CmRun env d (fun _ _ => True) ⟨c, fs, fun _ => none⟩ (.alive s) ∧ observe s.cat s.fs h = .ok e ∧ s.fs = fs ∧ Sound env s.fs e ∧
      CmStep env d (.clean 0) s (.alive s2) ∧ observe s2.cat s2.fs h = .err .fileNotFound := by
  have hown := C27_own hh hreach.reach _ e hobs
  obtain ⟨content, hc, hs'⟩ := hs
  have r1 : CmRun env d (fun _ _ => True) ⟨c, fs, fun _ => none⟩ (.alive ⟨c, fs.put e.filePath none, fun _ => none⟩) :=
    .step .refl trivial (CmStep.user e.filePath none _ hfile)
  have c1 := CleanReach.userRunning c fs e.filePath none hfile hreach
  have o1 := observe_user hh hreach.reach e.filePath none hfile
  obtain ⟨ord2, s2, mo2, b2, f2, o2, c2⟩ := clBegin_one hh c1 _ e ((o1 _).trans hobs) (fun k hk => (o1 k).trans (hone k hk))
  have r2 := r1.step trivial (CmStep.begin 0 ord2 _ _ s2 rfl mo2 b2)
  have k2 : observe s2.cat s2.fs e.sha1Hash = .ok e := by rw [hown]; exact (o2 _).trans ((o1 _).trans hobs)
  obtain ⟨p3, s3, w3, f3, -, o3, c3, q3⟩ := clStep_look hh c2 e [] [] (full_total hh c2 _ e k2)
  have hp3 : p3 = .removing e (some Sha1Hash.blank) .missing [] [] := by
    rcases q3 with ⟨q, -⟩ | ⟨e', q, ⟨-, hp⟩ | ⟨y, q', -⟩⟩
    · rw [k2] at q; cases q
    · exact hp
    · rw [k2] at q; cases q; rw [f2, FS.put_same] at q'; cases q'
  subst hp3
  have r3 := r2.step trivial (CmStep.work 0 _ _ _ s3 rfl w3)
  have r4 := r3.step trivial (CmStep.user e.filePath (some content) _ hfile)
  have c4 := CleanReach.userRunning _ _ e.filePath (some content) hfile c3
  have o4 := observe_user hh c3.reach e.filePath (some content) hfile
  have hfs : s3.fs.put e.filePath (some content) = fs := by
    rw [f3, f2]
    funext q
    by_cases hq : q = e.filePath
    · rw [hq, FS.put_same, hc]
    · rw [FS.put_other _ _ _ _ hq, FS.put_other _ _ _ _ hq]
  have k4 : observe s3.cat (s3.fs.put e.filePath (some content)) e.sha1Hash = .ok e := (o4 _).trans ((o3 _).trans k2)
  rcases clStep_remove hh c4 e (some Sha1Hash.blank) .missing [] [] with ⟨q, -⟩ | ⟨e5, s5, -, g5, -, c5, w5⟩
  · rw [k4] at q; cases q
  refine ⟨_, _, r4, by rw [← hown]; exact k4, hfs, ⟨content, (congrFun hfs _).trans hc, hs'⟩, CmStep.work 0 _ _ _ s5 rfl (w5.trans rfl), ?_⟩
  rw [← hown]; exact g5.1

/-- The catalogue of `ex_clean` has nothing else. -/
theorem ex_only (sha1 : Bytes → Sha1Hash) (json : JsonCodec) {c : Cat} {fs : FS} {h : Sha1Hash} (h1 : CleanReach (exEnv sha1 json) exDir exDown (.running c fs)) (ho : MapOrder c [h])
    (k : Sha1Hash) (hk : k ≠ h) : observe c fs k = .err .fileNotFound := by
  have hh := ex_healthy sha1 json
  obtain ⟨es, s', hl, -⟩ := clBegin_run hh h1 _ ho
  obtain ⟨-, -, g3, -⟩ := C38_list hh h1.reach _ ho [] es s' hl
  rcases h1.shown hh k with h7 | ⟨e, h7, -⟩
  · exact h7
  · exact absurd (List.mem_singleton.1 ((g3 k).2 (by rw [h7]; intro hy; cases hy))) hk

theorem ex_102 (sha1 : Bytes → Sha1Hash) (json : JsonCodec) : absPath (exEnv sha1 json).cwd [102] = absOf [[102]] := by
  show absPath [47] [102] = [47, 102]
  decide

theorem C125_refuted (sha1 : Bytes → Sha1Hash) (json : JsonCodec) : ¬ C125_statement (exEnv sha1 json) exDir exDown := by
  intro hall
  obtain ⟨c, fs, b, h1, h2, h3, h4, h5, h6⟩ := ex_clean sha1 json
  have hh := ex_healthy sha1 json
  obtain ⟨s, e', k1, k2, k3, left, k4⟩ := C125_back hh h1 [102] [1, 2, 3] (by decide) (by rw [ex_102]; exact ex_not_catFile 102 (by simp)) _ h3 (ex_102 sha1 json).symm
    (ex_only sha1 json h1 h6)
  obtain ⟨s2, hx, -⟩ := hall _ s 0 _ h1 (fun _ => rfl) k1 k4
  cases hx

end

/-! ### Cases -/

/-- A whole `clean` of one file that is as it should be, and in between nothing: its run meets the hypotheses of `C125_sound_partial` and of `C125_alive_partial`, and it ends. -/
example (sha1 : Bytes → Sha1Hash) (json : JsonCodec) : ∃ (c : Cat) (fs : FS) (e : Export) (s : CmState) (items : List CleanItem),
    CleanReach (exEnv sha1 json) exDir exDown (.running c fs) ∧ observe c fs (sha1 [1, 2, 3]) = .ok e ∧
    CmRun (exEnv sha1 json) exDir (Spec.Undamaged (exEnv sha1 json) (sha1 [1, 2, 3])) ⟨c, fs, fun _ => none⟩ (.alive s) ∧
    CmRun (exEnv sha1 json) exDir Spec.NothingNew ⟨c, fs, fun _ => none⟩ (.alive s) ∧ s.threads 0 = some (.over (.ok items)) := by
  obtain ⟨c, fs, b, h1, h2, h3, h4, h5, h6⟩ := ex_clean sha1 json
  have hh := ex_healthy sha1 json
  have hfull := full_total hh h1 _ _ h3
  obtain ⟨ord, s1, m1, b1, f1, o1, c1⟩ := clBegin_one hh h1 _ _ h3 (ex_only sha1 json h1 h6)
  obtain ⟨p2, s2, w2, f2, -, o2, c2, q2⟩ := clStep_look hh c1 _ [] [] hfull
  have hp : ∃ its, p2 = .loop [] its := by
    rcases q2 with ⟨q, -⟩ | ⟨e', q, q'⟩
    · rw [o1, h3] at q; cases q
    rw [o1, h3] at q; cases q
    rw [f1, h2] at q'
    rcases q' with ⟨q', -⟩ | ⟨y, q', ⟨-, hp⟩ | ⟨-, q4, -⟩ | ⟨-, -, hp⟩⟩
    · cases q'
    · exact ⟨_, hp⟩
    · cases q'; exact absurd rfl q4
    · exact ⟨_, hp⟩
  obtain ⟨its, rfl⟩ := hp
  have key : ∀ G : CmState → CmAct → Prop, (∀ s : CmState, s.fs = fs → (∀ k, observe s.cat s.fs k = observe c fs k) → G s (.clean 0)) →
      CmRun (exEnv sha1 json) exDir G ⟨c, fs, fun _ => none⟩ (.alive ⟨s2.cat, s2.fs, upd (upd (upd (fun _ => none) 0 (some (.loop [⟨absOf [[102]], 3, sha1 [1, 2, 3], b, 4194304⟩] []))) 0 (some (.loop [] its))) 0 (some (.over (.ok its)))⟩) := by
    intro G hG
    refine .step (.step (.step .refl (hG _ rfl (fun _ => rfl)) (CmStep.begin 0 ord _ _ s1 rfl m1 b1)) (hG _ f1 o1) (CmStep.work 0 _ _ _ s2 rfl w2))
      (hG _ (f2.trans f1) (fun k => (o2 k).trans (o1 k))) (CmStep.work 0 _ _ _ ⟨s2.cat, s2.fs, []⟩ rfl (by rw [clStep]; rfl))
  refine ⟨c, fs, _, _, its, h1, h3, key _ (fun s hfs hobs => ⟨fun e he => ?_, fun n b hx => by cases hx⟩), key _ (fun s _ _ => ⟨(fun p hx => by cases hx), (fun _ _ _ _ hx => by cases hx)⟩), rfl⟩
  rw [hobs, h3] at he; cases he
  exact ⟨_, by rw [hfs]; exact h2, .inr rfl⟩

/-- `C125_alone`: the whole command returns, so there is such a run. -/
example (sha1 : Bytes → Sha1Hash) (json : JsonCodec) : ∃ (c : Cat) (fs : FS) (items : List CleanItem) (s' : St),
    CleanReach (exEnv sha1 json) exDir exDown (.running c fs) ∧ MapOrder c [sha1 [1, 2, 3]] ∧ clean (exEnv sha1 json) [sha1 [1, 2, 3]] ⟨c, fs, []⟩ = (.ok items, s') := by
  obtain ⟨c, fs, b, h1, h2, h3, h4, h5, h6⟩ := ex_clean sha1 json
  obtain ⟨items, s', h7, -⟩ := C39_total (ex_healthy sha1 json) h1 _ h6
  exact ⟨c, fs, items, s', h1, h6, h7⟩

/-- `C125_restored` and `C125_back`: a catalogue with one file that is as it should be. -/
example (sha1 : Bytes → Sha1Hash) (json : JsonCodec) : ∃ (c : Cat) (fs : FS) (e : Export), CleanReach (exEnv sha1 json) exDir exDown (.running c fs) ∧
    observe c fs (sha1 [1, 2, 3]) = .ok e ∧ Sound (exEnv sha1 json) fs e ∧ ¬ CatFile exDir e.filePath ∧ e.filePath = absPath (exEnv sha1 json).cwd [102] ∧
    ∀ k, k ≠ sha1 [1, 2, 3] → observe c fs k = .err .fileNotFound := by
  obtain ⟨c, fs, b, h1, h2, h3, h4, h5, h6⟩ := ex_clean sha1 json
  exact ⟨c, fs, _, h1, h3, ⟨_, h2, .inr rfl⟩, ex_not_catFile 102 (by simp), (ex_102 sha1 json).symm, ex_only sha1 json h1 h6⟩

end Flu
