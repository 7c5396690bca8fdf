import Verif.Model.Daemon
import Verif.Props.GetAgain
import Verif.Props.DownloadLock
import Verif.Props.ServeReadOnly
/-!
# One daemon, with everything that runs in it
-/
namespace Flu
open Spec

/-- The calls that handlers make. -/
def Op.Asks : Op → Prop
  | .contains _ | .list _ | .reader _ _ _ => True
  | _ => False

section
variable {env : Env} {d dl : Path} {port : Nat}

theorem attempt_returns {σ α : Type} (x : IOM σ α) (s s' : σ) (r : Except Err α) (h : IOM.attempt x s = (.ok r, s')) : (x s).1.returns = true ∧ (x s).2 = s' := by
  unfold IOM.attempt at h
  rcases hx : x s with ⟨a, s1⟩
  rw [hx] at h
  cases a <;> simp_all [Res.returns]

theorem bind_returns {σ α β : Type} (x : IOM σ α) (f : α → IOM σ β) (s s' : σ) (r : Res β) (h : (x >>= f) s = (r, s')) (hret : r.returns = true) :
    (∃ a s1, x s = (.ok a, s1) ∧ f a s1 = (r, s')) ∨ ∃ e, x s = (.err e, s') ∧ r = .err e := by
  rw [IOM.bind_apply] at h
  rcases hx : x s with ⟨a, s1⟩
  rw [hx] at h
  cases a with
  | ok a => exact .inl ⟨a, s1, rfl, h⟩
  | err e => cases h; exact .inr ⟨e, rfl, rfl⟩
  | panic => cases h; cases hret
  | exit => cases h; cases hret
  | crash => cases h; cases hret

theorem void_returns {α : Type} (x : CM α) (s : St) (hret : (x s).1.returns = true) : ∃ r', CM.void x s = (r', (x s).2) ∧ r'.returns = true := by
  unfold CM.void
  rw [IOM.bind_apply]
  rcases hx : x s with ⟨a, s1⟩
  rw [hx] at hret
  cases a with
  | ok a => exact ⟨_, rfl, rfl⟩
  | err e => exact ⟨_, rfl, rfl⟩
  | panic => cases hret
  | exit => cases hret
  | crash => cases hret

theorem lift_state {σ α : Type} (x : Res α) (s s' : σ) (r : Res α) (h : IOM.lift x s = (r, s')) : s' = s := by
  rw [IOM.lift_apply] at h
  exact (Prod.mk.inj h).2.symm

theorem orExit_ok {σ α : Type} (x : IOM σ α) (s s' : σ) (r : Res α) (h : IOM.orExit x s = (r, s')) (hret : r.returns = true) : ∃ a, x s = (.ok a, s') ∧ r = .ok a := by
  unfold IOM.orExit at h
  rcases hx : x s with ⟨a, s1⟩
  rw [hx] at h
  cases a with
  | ok a => cases h; exact ⟨a, rfl, rfl⟩
  | err e => cases h; cases hret
  | panic => cases h; cases hret
  | exit => cases h; cases hret
  | crash => cases h; cases hret

/-- A handler that answers at once has called the catalogue once, or not at all. -/
theorem reply_call {w : Wire} {ret : Addr} {m : Msg} {f : SM Done} (hm : replyTo port w ret m = some f) {st : St} {u : UpKey → Option Up} {r : Res Done} {s' : Srv} (hrun : f ⟨st, u⟩ = (r, s')) (hret : r.returns = true) :
    s'.st = st ∨ ∃ o : Op, o.Asks ∧ ∃ r', o.run env st = (r', s'.st) ∧ r'.returns = true := by
  have tail : ∀ {bytes : Bytes} {dn : Done} {s1 : Srv}, (do IOM.lift (udpSend w.sends bytes); return dn : SM Done) s1 = (r, s') → s'.st = s1.st := by
    intro bytes dn s1 h
    rcases bind_returns _ _ _ _ _ h hret with ⟨a, s2, h1, h2⟩ | ⟨e, h1, -⟩
    · have := lift_state _ _ _ _ h1
      subst this
      cases h2
      rfl
    · rw [lift_state _ _ _ _ h1]
  have called : ∀ {α : Type} (x : CM α) (o : Op), o.Asks → o.run env = CM.void x → ∀ (a : Res α) (s1 : Srv), SM.cat x ⟨st, u⟩ = (a, s1) → a.returns = true →
      ∃ o : Op, o.Asks ∧ ∃ r', o.run env st = (r', s1.st) ∧ r'.returns = true := by
    intro α x o ho hop a s1 h1 h2
    unfold SM.cat at h1
    obtain ⟨rfl, rfl⟩ := Prod.mk.inj h1
    obtain ⟨r', g1, g2⟩ := void_returns x st h2
    exact ⟨o, ho, r', by rw [hop, g1], g2⟩
  unfold replyTo at hm
  split at hm
  · cases hm
    unfold respondToDiscoverHosts at hrun
    rcases bind_returns _ _ _ _ _ hrun hret with ⟨ip, s1, h1, hrun⟩ | ⟨e, h1, -⟩
    · obtain rfl := lift_state _ _ _ _ h1
      rcases bind_returns _ _ _ _ _ hrun hret with ⟨ad, s1, h1, hrun⟩ | ⟨e, h1, -⟩
      · obtain rfl := lift_state _ _ _ _ h1
        rcases bind_returns _ _ _ _ _ hrun hret with ⟨cs, s1, h1, hrun⟩ | ⟨e, h1, -⟩
        · rw [tail hrun]
          unfold answerChunks at h1
          split at h1
          · cases h1; exact .inl rfl
          · rcases bind_returns _ _ _ _ _ h1 rfl with ⟨x, s2, h2, h3⟩ | ⟨e, h2, -⟩
            · obtain ⟨g1, g2⟩ := attempt_returns _ _ _ _ h2
              have := called _ (.contains _) trivial rfl _ _ (Prod.ext rfl g2 : SM.cat (contains _) ⟨st, u⟩ = (_, s2)) g1
              have hs : s1 = s2 := by
                split at h3
                · exact (Prod.mk.inj h3).2.symm
                · exact lift_state _ _ _ _ h3
              rw [hs]
              exact .inr this
            · unfold IOM.attempt at h2
              split at h2 <;> cases h2
        · unfold answerChunks at h1
          split at h1
          · cases h1
          · rcases bind_returns _ _ _ _ _ h1 rfl with ⟨x, s2, h2, h3⟩ | ⟨e, h2, -⟩
            · obtain ⟨g1, g2⟩ := attempt_returns _ _ _ _ h2
              have := called _ (.contains _) trivial rfl _ _ (Prod.ext rfl g2 : SM.cat (contains _) ⟨st, u⟩ = (_, s2)) g1
              have hs : s' = s2 := by
                split at h3
                · exact (Prod.mk.inj h3).2.symm
                · exact lift_state _ _ _ _ h3
              rw [hs]
              exact .inr this
            · unfold IOM.attempt at h2
              split at h2 <;> cases h2
      · rw [lift_state _ _ _ _ h1]; exact .inl rfl
    · rw [lift_state _ _ _ _ h1]; exact .inl rfl
  · cases hm
    unfold respondToListFiles at hrun
    split at hrun
    · rcases bind_returns _ _ _ _ _ hrun hret with ⟨fls, s1, h1, hrun⟩ | ⟨e, h1, -⟩
      · obtain ⟨a, g1, -⟩ := orExit_ok _ _ _ _ h1 rfl
        rw [tail hrun]
        exact .inr (called _ (.list _) trivial rfl _ _ g1 rfl)
      · obtain ⟨a, g1, g2⟩ := orExit_ok _ _ _ _ h1 rfl
        cases g2
    · rcases bind_returns _ _ _ _ _ hrun hret with ⟨f, s1, h1, hrun⟩ | ⟨e, h1, -⟩
      · obtain ⟨a, g1, -⟩ := orExit_ok _ _ _ _ h1 rfl
        rcases bind_returns _ _ _ _ _ hrun hret with ⟨fls, s2, h2, hrun⟩ | ⟨e, h2, -⟩
        · cases h2
          rw [tail hrun]
          exact .inr (called _ (.contains _) trivial rfl _ _ g1 rfl)
        · cases h2
      · obtain ⟨a, g1, g2⟩ := orExit_ok _ _ _ _ h1 rfl
        cases g2
  · cases hm

/-- A step of the daemon is a step of a download, of a command or of another program; or it calls the catalogue to ask it something; or it has nothing to do with the catalogue. -/
theorem DmStep.project {s s' : Daemon} {e : DmEv} {o : Option Out} (h : DmStep env d port s e o (.alive s')) :
    (∃ a, e = .loop a ∧ DLStep env d a s.loop (.alive s'.loop) ∧ s'.uploads = s.uploads ∧ s'.table = s.table ∧ s'.handlers = s.handlers ∧ o = none) ∨
    (∀ a, e ≠ .loop a) ∧ (s'.loop = s.loop ∨ ∃ op : Op, op.Asks ∧ DLStep env d (.call op) s.loop (.alive s'.loop)) := by
  have ask : ∀ {op : Op} {fl : List Fault} {r : Res Unit} {st : St} {t : Nat} {hd : Handler} {pos : HPos}, op.Asks → op.run env (s.st fl) = (r, st) → r.returns = true →
      DLStep env d (.call op) s.loop (.alive (s.after st t hd pos).loop) := by
    intro op fl r st t hd pos hop hrun hret
    exact .call op s.loop fl r st (by cases op <;> first | trivial | cases hop) hrun hret
  have noOp : ∀ {α : Type} {x : CM α} {op : Op} {fl : List Fault} {r : Res α} {st : St} {t : Nat} {hd : Handler} {pos : HPos}, op.Asks → op.run env = CM.void x → x (s.st fl) = (r, st) → r.returns = true →
      ∃ op : Op, op.Asks ∧ DLStep env d (.call op) s.loop (.alive (s.after st t hd pos).loop) := by
    intro α x op fl r st t hd pos hop hv hrun hret
    obtain ⟨r', g1, g2⟩ := void_returns x (s.st fl) (by rw [hrun]; exact hret)
    rw [hrun] at g1
    exact ⟨op, hop, ask hop (by rw [hv, g1]) g2⟩
  have same : ∀ {st : St} {fl : List Fault} {t : Nat} {hd : Handler} {pos : HPos}, st = s.st fl → (s.after st t hd pos).loop = s.loop := by
    rintro st fl t hd pos rfl; rfl
  cases h with
  | loop a l h => exact .inl ⟨a, rfl, h, rfl, rfl, rfl, rfl⟩
  | replies t h m w fl f ip to bytes s' ht hp hm hrun =>
    refine .inr ⟨fun a => nofun, ?_⟩
    rcases reply_call (env := env) hm hrun rfl with h1 | ⟨op, h1, r', h2, h3⟩
    · exact .inl (same h1)
    · exact .inr ⟨op, h1, ask h1 h2 h3⟩
  | replyFails t h m w fl f e s' ht hp hm hrun =>
    refine .inr ⟨fun a => nofun, ?_⟩
    rcases reply_call (env := env) hm hrun rfl with h1 | ⟨op, h1, r', h2, h3⟩
    · exact .inl (same h1)
    · exact .inr ⟨op, h1, ask h1 h2 h3⟩
  | looks t h hash chunk cap fl e s' ht hp hrun => exact .inr ⟨fun a => nofun, .inr (noOp (op := .contains hash) trivial rfl hrun rfl)⟩
  | looksFails t h hash chunk cap fl e s' ht hp hrun => exact .inr ⟨fun a => nofun, .inr (noOp (op := .contains hash) trivial rfl hrun rfl)⟩
  | opens t h hash chunk cap choices fl reader s' path content host ht hp hrun => exact .inr ⟨fun a => nofun, .inr (noOp (op := .reader hash chunk.toNat choices) trivial rfl hrun rfl)⟩
  | opensNever t h hash chunk cap choices fl s' ht hp hrun => exact .inr ⟨fun a => nofun, .inr (noOp (op := .reader hash chunk.toNat choices) trivial rfl hrun rfl)⟩
  | opensNot t h hash chunk cap choices fl reader s' ht hp hrun => exact .inr ⟨fun a => nofun, .inr (noOp (op := .reader hash chunk.toNat choices) trivial rfl hrun rfl)⟩
  | opensFails t h hash chunk cap choices fl e s' ht hp hrun => exact .inr ⟨fun a => nofun, .inr (noOp (op := .reader hash chunk.toNat choices) trivial rfl hrun rfl)⟩
  | _ => exact .inr ⟨fun a => nofun, .inl rfl⟩

/-- What the daemon as a whole does to the catalogue, the disk and the downloads is what downloads, commands, other programs and questions to the catalogue do. -/
theorem DmRun.project {s0 : Daemon} {tr : List (DmEv × Option Out × DmSys)} {s : Daemon} (h : DmRun env d port s0 tr (.alive s)) :
    DLRun env d (fun a _ => (∃ x ∈ tr, x.1 = .loop a) ∨ ∃ op : Op, op.Asks ∧ a = .call op) s0.loop (.alive s.loop) := by
  suffices key : ∀ x, DmRun env d port s0 tr x → ∀ s, x = .alive s → DLRun env d (fun a _ => (∃ x ∈ tr, x.1 = .loop a) ∨ ∃ op : Op, op.Asks ∧ a = .call op) s0.loop (.alive s.loop) from key _ h s rfl
  intro x hx
  clear h
  induction hx with
  | refl => rintro s hs; cases hs; exact .refl
  | @step tr s1 x e o h1 hst ih =>
    rintro s rfl
    have i := DLRun.mono (ok' := fun a _ => (∃ x ∈ tr ++ [(e, o, .alive s)], x.1 = .loop a) ∨ ∃ op : Op, op.Asks ∧ a = .call op) (fun a _ h => by
      rcases h with ⟨x, hx, h⟩ | h
      · exact .inl ⟨x, List.mem_append_left _ hx, h⟩
      · exact .inr h) (ih s1 rfl)
    rcases hst.project with ⟨a, rfl, h2, -⟩ | ⟨-, h2 | ⟨op, h2, h3⟩⟩
    · exact .step a i h2 (.inl ⟨_, List.mem_append_right _ (List.mem_singleton.2 rfl), rfl⟩)
    · rw [h2]; exact i
    · exact .step (.call op) i h3 (.inr ⟨op, h2, rfl⟩)

theorem DmStep.reach {s s' : Daemon} {e : DmEv} {o : Option Out} (h : DmStep env d port s e o (.alive s')) (hreach : Reach env d dl (.running s.loop.cat s.loop.fs)) :
    Reach env d dl (.running s'.loop.cat s'.loop.fs) := by
  rcases h.project with ⟨a, -, h2, -⟩ | ⟨-, h2 | ⟨op, -, h3⟩⟩
  · exact h2.reach hreach
  · rw [h2]; exact hreach
  · exact h3.reach hreach

theorem DmRun.reach {s0 : Daemon} {tr : List (DmEv × Option Out × DmSys)} {s : Daemon} (h : DmRun env d port s0 tr (.alive s)) (h0 : Reach env d dl (.running s0.loop.cat s0.loop.fs)) :
    Reach env d dl (.running s.loop.cat s.loop.fs) := by
  suffices key : ∀ x, DmRun env d port s0 tr x → ∀ s, x = .alive s → Reach env d dl (.running s.loop.cat s.loop.fs) from key _ h s rfl
  intro x hx
  clear h
  induction hx with
  | refl => rintro s hs; cases hs; exact h0
  | @step tr s1 x e o h1 hst ih => rintro s rfl; exact hst.reach (ih s1 rfl)

/-- A question to the catalogue changes no file and no answer of the catalogue. -/
theorem asks_harmless (hh : Healthy env d) {c c' : Cat} {fs fs' : FS} {fl fl' : List Fault} (hreach : Reach env d dl (.running c fs)) {op : Op} (hop : op.Asks) {r : Res Unit}
    (hrun : op.run env ⟨c, fs, fl⟩ = (r, ⟨c', fs', fl'⟩)) : fs' = fs ∧ ∀ k, observe c' fs' k = observe c fs k := by
  have hI : Inv env d dl c fs := hreach.inv hh.abs hh.utf8
  obtain ⟨ind, rfl, hw⟩ := hI.split
  have key : ∀ {α : Type} (x : CM α), Triple (RO d dl ind fs) x (fun _ => RO d dl ind fs) (RO d dl ind fs) → CM.void x ⟨⟨d, dl, some ind⟩, fs, fl⟩ = (r, ⟨c', fs', fl'⟩) →
      fs' = fs ∧ ∀ k, observe c' fs' k = observe ⟨d, dl, some ind⟩ fs k := by
    intro α x hx hr
    have h1 := Triple.kept hx ⟨⟨d, dl, some ind⟩, fs, fl⟩ (RO.init d dl ind fs)
    have h2 : (x ⟨⟨d, dl, some ind⟩, fs, fl⟩).2 = ⟨c', fs', fl'⟩ := by
      unfold CM.void at hr
      rw [IOM.bind_apply] at hr
      rcases hx : x ⟨⟨d, dl, some ind⟩, fs, fl⟩ with ⟨a, s1⟩
      rw [hx] at hr
      cases a <;> exact (Prod.mk.inj hr).2
    rw [h2] at h1
    obtain ⟨g1, g2⟩ := RO.same (s' := ⟨c', fs', fl'⟩) h1
    exact ⟨g1, g2⟩
  cases op with
  | contains h => exact key _ ((ro_contains hw.ownGet h).post (fun _ _ _ h => h.1)) hrun
  | list o => exact key _ (ro_listFiles hw.ownGet o) hrun
  | reader h n ch => exact key _ ((ro_reader env hw.ownGet h n ch).post (fun _ _ _ h => h.1)) hrun
  | _ => cases hop

/-- C88, in a daemon where everything happens at once: no datagram, no goroutine that serves a datagram, no upload and no search for hosts creates, changes or removes a file, or
changes what the catalogue says about any file, whatever downloads, commands and other programs do meanwhile. -/
theorem C88_daemon (hh : Healthy env d) {s0 s s' : Daemon} {tr : List (DmEv × Option Out × DmSys)} (h0 : Reach env d dl (.running s0.loop.cat s0.loop.fs))
    (hrun : DmRun env d port s0 tr (.alive s)) {e : DmEv} {o : Option Out} (hstep : DmStep env d port s e o (.alive s')) (he : ∀ a, e ≠ .loop a) :
    s'.loop.fs = s.loop.fs ∧ ∀ k, observe s'.loop.cat s'.loop.fs k = observe s.loop.cat s.loop.fs k := by
  rcases hstep.project with ⟨a, h1, -⟩ | ⟨-, h1 | ⟨op, h1, h2⟩⟩
  · exact absurd h1 (he a)
  · rw [h1]; exact ⟨rfl, fun _ => rfl⟩
  · generalize s'.loop = l at h2
    generalize hs0 : s.loop = l0 at h2
    have hr := hrun.reach h0
    rw [hs0] at hr
    cases h2 with
    | call o _ fl r s' hs hrun' hret => exact asks_harmless (fl' := s'.faults) hh hr h1 hrun'

/-- C70 in a daemon where everything happens at once. -/
theorem C70_daemon {c : Cat} {fs : FS} {tr : List (DmEv × Option Out × DmSys)} {s : Daemon} (h : DmRun env d port (.fresh c fs) tr (.alive s)) :
    (∀ t t' k k', Transfers s.loop t k → Transfers s.loop t' k' → t = t') ∧ (s.loop.locked = true ↔ ∃ t k, Transfers s.loop t k) ∧
      ∀ k, s.loop.downloads k = true ↔ ∃ t, Transfers s.loop t k :=
  C70_one ⟨rfl, fun _ => rfl, fun t k ⟨th, h1, _⟩ => by cases h1⟩ h.project

end
end Flu
