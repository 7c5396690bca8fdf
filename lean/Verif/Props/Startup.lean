import Verif.Model.Startup
/-!
# C94: starting the daemon a second time
-/
namespace Flu
namespace Spec

/-- A daemon does its work: commands of the user and datagrams reach it. -/
def Serves (m : Machine) (p : Nat) : Prop := (∃ x, m.procs p = some x) ∧ m.answers = some p ∧ m.port = some p

/-- A machine on which daemons were started, killed and restarted in any way. -/
def Lived (m : Machine) : Prop := ∃ stale tr, DRun (.idle stale) tr m

end Spec
open Spec

/-- What is true of every machine. -/
structure MInv (m : Machine) : Prop where
  old : ∀ p x, m.procs p = some x → p < m.next
  sockOld : ∀ p, m.sock = some p → p < m.next
  owner : ∀ p, m.port = some p ↔ ∃ x, m.procs p = some x ∧ x.udp ≠ .binding
  mine : ∀ p x, m.sock = some p → m.procs p = some x → x.rpc = .serving

theorem MInv.idle (stale : Bool) : MInv (.idle stale) := by
  constructor
  · intro p x h; simp [Machine.idle] at h
  · intro p h; cases stale <;> simp [Machine.idle] at h ⊢; omega
  · intro p; simp [Machine.idle]
  · intro p x _ h; simp [Machine.idle] at h

theorem MInv.ending {m : Machine} (hi : MInv m) (p : Nat) : MInv (m.ending p) := by
  constructor
  · intro q x h
    simp only [Machine.ending] at h ⊢
    split at h
    · cases h
    · exact hi.old q x h
  · intro q h; exact hi.sockOld q h
  · intro q
    simp only [Machine.ending]
    by_cases hq : q = p
    · subst hq
      simp only [if_true]
      constructor
      · intro h
        split at h
        · cases h
        · rename_i hne; exact absurd h hne
      · rintro ⟨x, h, _⟩; cases h
    · simp only [if_neg hq]
      rw [← hi.owner q]
      split
      · rename_i he
        rw [he]
        constructor
        · intro h; cases h
        · intro h; exact absurd (Option.some.inj h).symm hq
      · exact Iff.rfl
  · intro q x hs h
    simp only [Machine.ending] at h hs
    split at h
    · cases h
    · exact hi.mine q x hs h

theorem MInv.step {m m' : Machine} {e : DEv} (hi : MInv m) (h : DStep m e m') : MInv m' := by
  cases h with
  | start =>
    have hnone : m.procs m.next = none := by
      cases hx : m.procs m.next with
      | none => rfl
      | some x => have := hi.old _ _ hx; omega
    constructor
    · intro q x hq
      simp only [Machine.put] at hq ⊢
      split at hq
      · omega
      · have := hi.old q x hq; omega
    · intro q hq
      have := hi.sockOld q hq
      simp only [Machine.put]; omega
    · intro q
      simp only [Machine.put]
      rw [hi.owner q]
      by_cases hq : q = m.next
      · subst hq
        simp only [if_true]
        constructor
        · rintro ⟨x, hx, _⟩; rw [hnone] at hx; cases hx
        · rintro ⟨x, hx, hb⟩; cases hx; exact absurd rfl hb
      · simp only [if_neg hq]
    · intro q x hs hq
      simp only [Machine.put] at hs hq
      split at hq
      · rename_i he; have := hi.sockOld q hs; omega
      · exact hi.mine q x hs hq
  | remove p x hx hpos =>
    constructor
    · intro q y hq
      simp only [Machine.put] at hq ⊢
      split at hq
      · rename_i he; rw [he]; exact hi.old p x hx
      · exact hi.old q y hq
    · intro q hq; simp [Machine.put] at hq
    · intro q
      simp only [Machine.put]
      rw [hi.owner q]
      by_cases hq : q = p
      · subst hq
        simp only [if_true, hx]
        constructor
        · rintro ⟨y, hy, hb⟩; cases hy; exact ⟨_, rfl, hb⟩
        · rintro ⟨y, hy, hb⟩; cases hy; exact ⟨_, rfl, hb⟩
      · simp only [if_neg hq]
    · intro q y hs; simp [Machine.put] at hs
  | listen p x hx hpos hfree =>
    constructor
    · intro q y hq
      simp only [Machine.put] at hq ⊢
      split at hq
      · rename_i he; rw [he]; exact hi.old p x hx
      · exact hi.old q y hq
    · intro q hq
      simp only [Machine.put, Option.some.injEq] at hq ⊢
      rw [← hq]; exact hi.old p x hx
    · intro q
      simp only [Machine.put]
      rw [hi.owner q]
      by_cases hq : q = p
      · subst hq
        simp only [if_true, hx]
        constructor
        · rintro ⟨y, hy, hb⟩; cases hy; exact ⟨_, rfl, hb⟩
        · rintro ⟨y, hy, hb⟩; cases hy; exact ⟨_, rfl, hb⟩
      · simp only [if_neg hq]
    · intro q y hs hq
      simp only [Machine.put, Option.some.injEq] at hs hq
      rw [if_pos hs.symm] at hq
      cases hq; rfl
  | listenFails p x hx hpos hused => exact hi.ending p
  | bind p x hx hpos hfree =>
    constructor
    · intro q y hq
      simp only [Machine.put] at hq ⊢
      split at hq
      · rename_i he; rw [he]; exact hi.old p x hx
      · exact hi.old q y hq
    · intro q hq; exact hi.sockOld q hq
    · intro q
      simp only [Machine.put]
      by_cases hq : q = p
      · subst hq
        simp only [if_true]
        exact ⟨fun _ => ⟨_, rfl, by simp⟩, fun _ => trivial⟩
      · simp only [if_neg hq]
        rw [← hi.owner q, hfree]
        constructor
        · intro h; exact absurd (Option.some.inj h).symm hq
        · intro h; cases h
    · intro q y hs hq
      simp only [Machine.put] at hs hq
      split at hq
      · rename_i he
        subst he
        cases hq
        exact hi.mine q x hs hx
      · exact hi.mine q y hs hq
  | bindFails p x hx hpos hused => exact hi.ending p
  | print p x hx hpos ip addrs hip =>
    constructor
    · intro q y hq
      simp only [Machine.put] at hq ⊢
      split at hq
      · rename_i he; rw [he]; exact hi.old p x hx
      · exact hi.old q y hq
    · intro q hq; exact hi.sockOld q hq
    · intro q
      simp only [Machine.put]
      rw [hi.owner q]
      by_cases hq : q = p
      · subst hq
        simp only [if_true]
        constructor
        · intro _; exact ⟨_, rfl, by simp⟩
        · intro _; exact ⟨x, hx, by rw [hpos]; simp⟩
      · simp only [if_neg hq]
    · intro q y hs hq
      simp only [Machine.put] at hs hq
      split at hq
      · rename_i he
        subst he
        cases hq
        exact hi.mine q x hs hx
      · exact hi.mine q y hs hq
  | printFails p x hx hpos addrs hip => exact hi.ending p
  | ends p x hx => exact hi.ending p

theorem MInv.run {m m' : Machine} {tr : List DEv} (hi : MInv m) (h : DRun m tr m') : MInv m' := by
  induction h with
  | refl => exact hi
  | step _ h' ih => exact ih.step h'

theorem Spec.Lived.inv {m : Machine} (h : Lived m) : MInv m := by
  obtain ⟨stale, tr, h⟩ := h
  exact (MInv.idle stale).run h

theorem Spec.Lived.run {m m' : Machine} {tr : List DEv} (h : Lived m) (h' : DRun m tr m') : Lived m' := by
  obtain ⟨stale, tr0, h0⟩ := h
  refine ⟨stale, tr0 ++ tr, ?_⟩
  induction h' with
  | refl => rw [List.append_nil]; exact h0
  | step _ hs ih => rw [← List.append_assoc]; exact .step ih hs

theorem answers_iff (m : Machine) (p : Nat) : m.answers = some p ↔ m.sock = some p ∧ ∃ x, m.procs p = some x := by
  unfold Machine.answers
  cases hs : m.sock with
  | none => simp
  | some q =>
    cases hx : m.procs q with
    | none =>
      simp only [hx, Option.isSome_none]
      constructor
      · intro h; simp at h
      · rintro ⟨h, x, hy⟩
        cases h
        rw [hx] at hy; cases hy
    | some x =>
      simp only [hx, Option.isSome_some, if_true]
      constructor
      · intro h; cases h; exact ⟨rfl, x, hx⟩
      · rintro ⟨h, -⟩; exact h

/-- A process that does not end stays. -/
theorem DStep.stays {m m' : Machine} {e : DEv} {p : Nat} (h : DStep m e m') (hne : e ≠ .ended p) {x : Proc} (hx : m.procs p = some x) : ∃ y, m'.procs p = some y := by
  cases h with
  | start => simp only [Machine.put]; split <;> simp_all
  | remove q y => simp only [Machine.put]; split <;> simp_all
  | listen q y => simp only [Machine.put]; split <;> simp_all
  | bind q y => simp only [Machine.put]; split <;> simp_all
  | print q y => simp only [Machine.put]; split <;> simp_all
  | listenFails q y | bindFails q y | printFails q y | ends q y =>
    simp only [Machine.ending]
    split
    · rename_i he; exact absurd (by rw [he]) hne
    · exact ⟨x, hx⟩

theorem DRun.stays {m m' : Machine} {tr : List DEv} {p : Nat} (h : DRun m tr m') (hne : .ended p ∉ tr) {x : Proc} (hx : m.procs p = some x) : ∃ y, m'.procs p = some y := by
  induction h with
  | refl => exact ⟨x, hx⟩
  | step h h' ih =>
    obtain ⟨y, hy⟩ := ih (fun hm => hne (List.mem_append_left _ hm))
    exact h'.stays (fun he => hne (by rw [he]; simp)) hy

/-- A daemon that has the port keeps it. -/
theorem DStep.port {m m' : Machine} {e : DEv} {p : Nat} (h : DStep m e m') (hne : e ≠ .ended p) (hp : m.port = some p) : m'.port = some p := by
  cases h with
  | start => exact hp
  | remove q y => exact hp
  | listen q y => exact hp
  | bind q y _ _ hfree => rw [hp] at hfree; cases hfree
  | print q y => exact hp
  | listenFails q y | bindFails q y | printFails q y | ends q y =>
    simp only [Machine.ending]
    rw [hp]
    split
    · rename_i he; cases he; exact absurd rfl hne
    · rfl

/-- C94: datagrams reach at most one daemon, the one that got the port; it keeps it for as long as it runs, whatever other daemons are started. -/
theorem C94_port {m m' : Machine} {tr : List DEv} {p : Nat} (h : DRun m tr m') (hne : .ended p ∉ tr) (hp : m.port = some p) : m'.port = some p := by
  induction h with
  | refl => exact hp
  | step h h' ih => exact h'.port (fun he => hne (by rw [he]; simp)) (ih (fun hm => hne (List.mem_append_left _ hm)))

/-- A daemon that listens and is not the owner of the socket's file is cut off for ever. -/
theorem DStep.sock {m m' : Machine} {e : DEv} {p : Nat} (hi : MInv m) (h : DStep m e m') (hne : e ≠ .ended p) {x : Proc} (hx : m.procs p = some x) (hs : x.rpc = .serving) :
    (m'.sock = some p ↔ m.sock = some p ∧ ∀ q, e ≠ .removed q) ∧ ∃ y, m'.procs p = some y ∧ y.rpc = .serving := by
  cases h with
  | start =>
    have := hi.old p x hx
    refine ⟨by simp [Machine.put], x, ?_, hs⟩
    simp only [Machine.put]; rw [if_neg (by omega)]; exact hx
  | remove q y hy hpos =>
    have hqp : p ≠ q := by intro he; subst he; rw [hx] at hy; cases hy; rw [hs] at hpos; cases hpos
    refine ⟨by simp [Machine.put], x, ?_, hs⟩
    simp only [Machine.put]; rw [if_neg hqp]; exact hx
  | listen q y hy hpos hfree =>
    have hqp : p ≠ q := by intro he; subst he; rw [hx] at hy; cases hy; rw [hs] at hpos; cases hpos
    refine ⟨?_, x, ?_, hs⟩
    · simp only [Machine.put, hfree]
      constructor
      · intro h; cases h; exact absurd rfl hqp
      · rintro ⟨h, -⟩; cases h
    · simp only [Machine.put]; rw [if_neg hqp]; exact hx
  | bind q y hy hpos hfree =>
    refine ⟨by simp [Machine.put], ?_⟩
    simp only [Machine.put]
    split
    · rename_i he; subst he; rw [hx] at hy; cases hy; exact ⟨_, rfl, hs⟩
    · exact ⟨x, hx, hs⟩
  | print q y hy hpos =>
    refine ⟨by simp [Machine.put], ?_⟩
    simp only [Machine.put]
    split
    · rename_i he; subst he; rw [hx] at hy; cases hy; exact ⟨_, rfl, hs⟩
    · exact ⟨x, hx, hs⟩
  | listenFails q y | bindFails q y | printFails q y | ends q y =>
    refine ⟨by simp [Machine.ending], x, ?_, hs⟩
    simp only [Machine.ending]
    split
    · rename_i he; exact absurd (by rw [he]) hne
    · exact hx

theorem DRun.sock {m m' : Machine} {tr : List DEv} {p : Nat} (hi : MInv m) (h : DRun m tr m') (hne : .ended p ∉ tr) {x : Proc} (hx : m.procs p = some x) (hs : x.rpc = .serving) :
    (m'.sock = some p ↔ m.sock = some p ∧ ∀ q, .removed q ∉ tr) ∧ ∃ y, m'.procs p = some y ∧ y.rpc = .serving := by
  induction h with
  | refl => exact ⟨by simp, x, hx, hs⟩
  | step h h' ih =>
    obtain ⟨hiff, y, hy, hys⟩ := ih (fun hm => hne (List.mem_append_left _ hm))
    obtain ⟨h1, h2⟩ := h'.sock (hi.run h) (fun he => hne (by rw [he]; simp)) hy hys
    refine ⟨?_, h2⟩
    rw [h1, hiff]
    constructor
    · rintro ⟨⟨ha, hb⟩, hc⟩
      refine ⟨ha, fun q hm => ?_⟩
      rcases List.mem_append.1 hm with h | h
      · exact hb q h
      · exact hc q (List.mem_singleton.1 h).symm
    · rintro ⟨ha, hb⟩
      exact ⟨⟨ha, fun q hm => hb q (List.mem_append_left _ hm)⟩, fun q he => hb q (by rw [he]; simp)⟩

/-- C94, the exact condition: commands still reach a daemon that runs and was reached before if and only if no other daemon has got to `os.RemoveAll` since. -/
theorem C94_partial {m m' : Machine} {tr : List DEv} {p : Nat} (hm : Lived m) (hp : m.answers = some p) (h : DRun m tr m') (hne : .ended p ∉ tr) :
    m'.answers = some p ↔ ∀ q, .removed q ∉ tr := by
  obtain ⟨hsock, x, hx⟩ := (answers_iff m p).1 hp
  obtain ⟨hiff, y, hy, -⟩ := h.sock hm.inv hne hx (hm.inv.mine p x hsock hx)
  rw [answers_iff, hiff]
  exact ⟨fun h => h.1.2, fun h => ⟨⟨hsock, h⟩, y, hy⟩⟩

/-- C94 as one would like it: a daemon that does its work goes on doing it until it ends, whatever else is started. -/
def C94_statement : Prop :=
  ∀ m m' tr p, Lived m → Serves m p → DRun m tr m' → .ended p ∉ tr → Serves m' p

/-- While a daemon has the port, every other one can only end: the goroutine that binds the port panics. -/
theorem C94_second {m : Machine} (hm : Lived m) {p q : Nat} (hp : m.port = some p) (hqp : q ≠ p) {x : Proc} (hx : m.procs q = some x) :
    x.udp = .binding ∧ DStep m (.ended q) (m.ending q) := by
  have hb : x.udp = .binding := by
    cases hu : x.udp with
    | binding => rfl
    | printing =>
      have := (hm.inv.owner q).2 ⟨x, hx, by rw [hu]; simp⟩
      rw [hp] at this; cases this; exact absurd rfl hqp
    | serving =>
      have := (hm.inv.owner q).2 ⟨x, hx, by rw [hu]; simp⟩
      rw [hp] at this; cases this; exact absurd rfl hqp
  exact ⟨hb, .bindFails m q x hx hb (by rw [hp]; simp)⟩

/-- C94: whenever a daemon does its work, starting another one can cut it off: the new one takes the socket's place, then cannot get the port and ends.  The first one runs
on and still has the port, all other processes are as before, and no command reaches any daemon. -/
theorem C94_harm {m : Machine} (hm : Lived m) {p : Nat} (hp : Serves m p) :
    ∃ m', DRun m [.start, .removed m.next, .listened m.next, .ended m.next] m' ∧ m'.procs = m.procs ∧ m'.port = some p ∧ m'.answers = none := by
  obtain ⟨⟨x, hx⟩, ha, hport⟩ := hp
  have hi := hm.inv
  have hnone : m.procs m.next = none := by
    cases hx : m.procs m.next with
    | none => rfl
    | some x => have := hi.old _ _ hx; omega
  have hlt := hi.old p x hx
  have e1 : DRun m [.start] { m.put m.next ⟨.removing, .binding⟩ with next := m.next + 1 } := .step (.refl m) (.start m)
  have e2 := DRun.step e1 (.remove _ m.next ⟨.removing, .binding⟩ (by simp [Machine.put]) rfl)
  have e3 := DRun.step e2 (.listen _ m.next ⟨.listening, .binding⟩ (by simp [Machine.put]) rfl (by simp [Machine.put]))
  have e4 := DRun.step e3 (.bindFails _ m.next ⟨.serving, .binding⟩ (by simp [Machine.put]) rfl (by simp [Machine.put, hport]))
  have hprocs : ∀ q, (if q = m.next then none else m.procs q) = m.procs q := by
    intro q
    split
    · rename_i he; rw [he, hnone]
    · rfl
  refine ⟨_, e4, ?_, ?_, ?_⟩
  · funext q
    simp only [Machine.ending, Machine.put]
    split
    · rename_i he; rw [he, hnone]
    · rfl
  · simp only [Machine.ending, Machine.put, hport]
    rw [if_neg (by intro h; cases h; omega)]
  · simp [Machine.answers, Machine.ending, Machine.put]

/-- C94: and that lasts.  If every daemon that runs listens already and no command reaches any of them, then no command reaches any daemon until a new one is started. -/
theorem C94_lasts {m m' : Machine} {tr : List DEv} (hall : ∀ q x, m.procs q = some x → x.rpc = .serving) (ha : m.answers = none) (h : DRun m tr m')
    (hns : .start ∉ tr) : m'.answers = none := by
  have key : (∀ q x, m'.procs q = some x → x.rpc = .serving) ∧ ∀ p, m'.answers ≠ some p := by
    induction h with
    | refl => exact ⟨hall, by simp [ha]⟩
    | @step n _ _ _ h h' ih =>
      obtain ⟨hall1, ha1⟩ := ih (fun hx => hns (List.mem_append_left _ hx))
      have hno : ∀ p, n.sock = some p → n.procs p = none := fun p hs => by
        cases hx : n.procs p with
        | none => rfl
        | some x => exact absurd ((answers_iff n p).2 ⟨hs, x, hx⟩) (ha1 p)
      have hput : ∀ (q : Nat) (y z : Proc) (k : Option Nat), n.procs q = some y → z.rpc = y.rpc →
          (∀ r x, ({ n.put q z with port := k } : Machine).procs r = some x → x.rpc = .serving) ∧ ∀ p, ({ n.put q z with port := k } : Machine).answers ≠ some p := by
        intro q y z k hy hz
        refine ⟨fun r x hr => ?_, fun p hp => ?_⟩
        · simp only [Machine.put] at hr
          split at hr
          · cases hr; rw [hz]; exact hall1 q y hy
          · exact hall1 r x hr
        · obtain ⟨hs, x, hx⟩ := (answers_iff _ p).1 hp
          simp only [Machine.put] at hs hx
          split at hx
          · rename_i he; subst he; rw [hno p hs] at hy; cases hy
          · rw [hno p hs] at hx; cases hx
      have hend : ∀ q, (∀ r x, (n.ending q).procs r = some x → x.rpc = .serving) ∧ ∀ p, (n.ending q).answers ≠ some p := by
        intro q
        refine ⟨fun r x hr => ?_, fun p hp => ?_⟩
        · simp only [Machine.ending] at hr
          split at hr
          · cases hr
          · exact hall1 r x hr
        · obtain ⟨hs, x, hx⟩ := (answers_iff _ p).1 hp
          simp only [Machine.ending] at hs hx
          split at hx
          · cases hx
          · rw [hno p hs] at hx; cases hx
      cases h' with
      | start => exact absurd (by simp) hns
      | remove q y hy hpos => have := hall1 q y hy; rw [hpos] at this; cases this
      | listen q y hy hpos hfree => have := hall1 q y hy; rw [hpos] at this; cases this
      | listenFails q y hy hpos => have := hall1 q y hy; rw [hpos] at this; cases this
      | bind q y hy hpos hfree => exact hput q y _ (some q) hy rfl
      | print q y hy hpos => exact hput q y _ _ hy rfl
      | bindFails q y | printFails q y | ends q y => exact hend q
  cases hx : m'.answers with
  | none => rfl
  | some p => exact absurd hx (key.2 p)

/-- A daemon of which there is just one, after its start. -/
def freshMachine (m : Machine) : Machine := { m.put m.next ⟨.removing, .binding⟩ with next := m.next + 1 }

/-- The machine while the daemon `p` is the only one. -/
structure Only (m : Machine) (p : Nat) : Prop where
  alone : ∀ q x, m.procs q = some x → q = p
  sock : ∀ x, m.procs p = some x → (x.rpc = .removing ∨ (x.rpc = .listening ∧ m.sock = none) ∨ (x.rpc = .serving ∧ m.sock = some p))
  port : ∀ x, m.procs p = some x → ((x.udp = .binding ∧ m.port = none) ∨ (x.udp ≠ .binding ∧ m.port = some p))

theorem Only.step {m m' : Machine} {e : DEv} {p : Nat} (ho : Only m p) (h : DStep m e m') (hs : e ≠ .start) : Only m' p := by
  have hend : ∀ q x, m.procs q = some x → Only (m.ending q) p := by
    intro q x hx
    have hq := ho.alone q x hx
    subst hq
    have hn : ∀ r y, (m.ending q).procs r = some y → False := by
      intro r y hy
      simp only [Machine.ending] at hy
      split at hy
      · cases hy
      · rename_i hne; exact hne (ho.alone r y hy)
    exact ⟨fun r y hy => (hn r y hy).elim, fun y hy => (hn q y hy).elim, fun y hy => (hn q y hy).elim⟩
  have hal : ∀ q (x y : Proc) (f : Machine → Machine) , (∀ n : Machine, (f n).procs = n.procs) → m.procs q = some x → ∀ r z, (f (m.put q y)).procs r = some z → r = p := by
    intro q x y f hf hx r z hz
    rw [hf] at hz
    simp only [Machine.put] at hz
    split at hz
    · rename_i he; rw [he]; exact ho.alone q x hx
    · exact ho.alone r z hz
  cases h with
  | start => exact absurd rfl hs
  | remove q x hx hpos =>
    have hq := ho.alone q x hx; subst hq
    refine ⟨hal q x _ (fun n => { n with sock := none }) (fun _ => rfl) hx, ?_, ?_⟩
    · intro y hy; simp only [Machine.put, if_true, Option.some.injEq] at hy ⊢; subst hy; exact .inr (.inl ⟨rfl, trivial⟩)
    · intro y hy; simp only [Machine.put, if_true, Option.some.injEq] at hy ⊢; subst hy; exact ho.port x hx
  | listen q x hx hpos hfree =>
    have hq := ho.alone q x hx; subst hq
    refine ⟨hal q x _ (fun n => { n with sock := some q }) (fun _ => rfl) hx, ?_, ?_⟩
    · intro y hy; simp only [Machine.put, if_true, Option.some.injEq] at hy ⊢; subst hy; exact .inr (.inr ⟨rfl, trivial⟩)
    · intro y hy; simp only [Machine.put, if_true, Option.some.injEq] at hy ⊢; subst hy; exact ho.port x hx
  | bind q x hx hpos hfree =>
    have hq := ho.alone q x hx; subst hq
    refine ⟨hal q x _ (fun n => { n with port := some q }) (fun _ => rfl) hx, ?_, ?_⟩
    · intro y hy; simp only [Machine.put, if_true, Option.some.injEq] at hy ⊢; subst hy; exact ho.sock x hx
    · intro y hy; simp only [Machine.put, if_true, Option.some.injEq] at hy ⊢; subst hy; exact .inr ⟨by simp, trivial⟩
  | print q x hx hpos ip addrs hip =>
    have hq := ho.alone q x hx; subst hq
    refine ⟨hal q x _ (fun n => n) (fun _ => rfl) hx, ?_, ?_⟩
    · intro y hy; simp only [Machine.put, if_true, Option.some.injEq] at hy ⊢; subst hy; exact ho.sock x hx
    · intro y hy; simp only [Machine.put, if_true, Option.some.injEq] at hy ⊢; subst hy
      rcases ho.port x hx with h | h
      · rw [h.1] at hpos; cases hpos
      · exact .inr ⟨by simp, h.2⟩
  | listenFails q x hx | bindFails q x hx | printFails q x hx | ends q x hx => exact hend q x hx

theorem Only.run {m m' : Machine} {tr : List DEv} {p : Nat} (ho : Only m p) (h : DRun m tr m') (hs : .start ∉ tr) : Only m' p := by
  induction h with
  | refl => exact ho
  | step h h' ih => exact (ih (fun hm => hs (List.mem_append_left _ hm))).step h' (fun he => hs (by rw [he]; simp))

/-- C94: a daemon started when no other one runs, whatever earlier ones left behind, and not joined by another one, never fails to get the socket or the port: both
goroutines can always go on, and once both have got there, it does its work. -/
theorem C94_alone_partial {m m' : Machine} {tr : List DEv} (hm : Lived m) (hnone : ∀ q, m.procs q = none) (h : DRun (freshMachine m) tr m') (hs : .start ∉ tr) {x : Proc}
    (hx : m'.procs m.next = some x) :
    (x.rpc = .listening → m'.sock = none) ∧ (x.udp = .binding → m'.port = none) ∧ (x.rpc = .serving → x.udp ≠ .binding → Serves m' m.next) := by
  have h0 : Only (freshMachine m) m.next := by
    refine ⟨?_, ?_, ?_⟩
    · intro q y hq
      simp only [freshMachine, Machine.put] at hq
      split at hq
      · assumption
      · rw [hnone] at hq; cases hq
    · intro y hy
      simp only [freshMachine, Machine.put, if_true, Option.some.injEq] at hy
      subst hy; exact .inl rfl
    · intro y hy
      simp only [freshMachine, Machine.put, if_true, Option.some.injEq] at hy
      subst hy
      refine .inl ⟨rfl, ?_⟩
      show m.port = none
      cases hp : m.port with
      | none => rfl
      | some p =>
        obtain ⟨z, hz, -⟩ := (hm.inv.owner p).1 hp
        rw [hnone] at hz; cases hz
  have ho := h0.run h hs
  refine ⟨fun hr => ?_, fun hu => ?_, fun hr hu => ⟨⟨x, hx⟩, ?_, ?_⟩⟩
  · rcases ho.sock x hx with h | h | h
    · rw [hr] at h; cases h
    · exact h.2
    · rw [hr] at h; cases h.1
  · rcases ho.port x hx with h | h
    · exact h.2
    · exact absurd hu h.1
  · rcases ho.sock x hx with h | h | h
    · rw [hr] at h; cases h
    · rw [hr] at h; cases h.1
    · exact (answers_iff _ _).2 ⟨h.2, x, hx⟩
  · rcases ho.port x hx with h | h
    · exact absurd h.1 hu
    · exact h.2

/-- One daemon, started alone, that does its work. -/
theorem serves_somewhere (stale : Bool) (ip : Bytes) (addrs : Option (List Bytes)) (hip : localIP addrs = .ok (some ip)) :
    ∃ m, DRun (.idle stale) [.start, .removed 1, .listened 1, .bound 1, .printed 1 addrs] m ∧ Serves m 1 ∧ ∀ q x, m.procs q = some x → x.rpc = .serving := by
  have e1 : DRun (.idle stale) [.start] _ := .step (.refl _) (.start _)
  have e2 := DRun.step e1 (.remove _ 1 ⟨.removing, .binding⟩ (by simp [Machine.put, Machine.idle]) rfl)
  have e3 := DRun.step e2 (.listen _ 1 ⟨.listening, .binding⟩ (by simp [Machine.put]) rfl (by simp [Machine.put]))
  have e4 := DRun.step e3 (.bind _ 1 ⟨.serving, .binding⟩ (by simp [Machine.put]) rfl (by simp [Machine.put, Machine.idle]))
  have e5 := DRun.step e4 (.print _ 1 ⟨.serving, .printing⟩ (by simp [Machine.put]) rfl ip addrs hip)
  refine ⟨_, e5, ⟨⟨⟨.serving, .serving⟩, by simp [Machine.put]⟩, ?_, by simp [Machine.put]⟩, ?_⟩
  · rw [answers_iff]; simp [Machine.put]
  · intro q x hq
    simp only [Machine.put] at hq
    have hn : (Machine.idle stale).next = 1 := rfl
    split at hq
    · cases hq; rfl
    · rename_i hne
      rw [hn, if_neg hne] at hq
      simp [Machine.idle] at hq

/-- C94 is false of the code. -/
theorem C94_refuted : ¬ C94_statement := by
  intro hst
  obtain ⟨m, hrun, hserves, -⟩ := serves_somewhere false [192, 168, 0, 1] (some [[192, 168, 0, 1]]) (by decide)
  have hl : Lived m := ⟨false, _, hrun⟩
  obtain ⟨m', hrun', -, -, ha⟩ := C94_harm hl hserves
  have hlt := hl.inv.old 1 _ hserves.1.choose_spec
  have := hst m m' _ 1 hl hserves hrun' (by simp; omega)
  have h2 := this.2.1
  rw [ha] at h2
  cases h2

/-- The hypotheses of `C94_partial`, `C94_second`, `C94_harm` and `C94_lasts` can be met, also after an earlier daemon left its file. -/
example : ∃ (m m' : Machine), Lived m ∧ Serves m 1 ∧ m'.answers = none ∧ Lived m' ∧ (∀ q x, m'.procs q = some x → x.rpc = .serving) ∧
    DRun m [.start, .removed m.next, .listened m.next, .ended m.next] m' ∧ .ended 1 ∉ [DEv.start, .removed m.next, .listened m.next, .ended m.next] := by
  obtain ⟨m, hrun, hserves, hall⟩ := serves_somewhere true [192, 168, 0, 1] (some [[192, 168, 0, 1]]) (by decide)
  have hl : Lived m := ⟨true, _, hrun⟩
  obtain ⟨m', hrun', hp, -, ha⟩ := C94_harm hl hserves
  have hlt := hl.inv.old 1 _ hserves.1.choose_spec
  exact ⟨m, m', hl, hserves, ha, hl.run hrun', by rw [hp]; exact hall, hrun', by simp; omega⟩

/-- The hypotheses of `C94_alone_partial` can be met. -/
example : ∃ (m' : Machine) (tr : List DEv) (x : Proc), DRun (freshMachine (.idle true)) tr m' ∧ .start ∉ tr ∧ m'.procs 1 = some x ∧ x.rpc = .serving ∧ x.udp ≠ .binding := by
  have e2 := DRun.step (.refl (freshMachine (.idle true))) (.remove _ 1 ⟨.removing, .binding⟩ (by simp [freshMachine, Machine.put, Machine.idle]) rfl)
  have e3 := DRun.step e2 (.listen _ 1 ⟨.listening, .binding⟩ (by simp [Machine.put]) rfl (by simp [Machine.put]))
  have e4 := DRun.step e3 (.bind _ 1 ⟨.serving, .binding⟩ (by simp [Machine.put]) rfl (by simp [freshMachine, Machine.put, Machine.idle]))
  exact ⟨_, _, ⟨.serving, .printing⟩, e4, by simp, by simp [Machine.put], rfl, by simp⟩

end Flu
