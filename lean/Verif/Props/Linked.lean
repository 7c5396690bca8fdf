import Verif.Model.Linked
import Verif.Props.Daemon
import Verif.Props.Requests
import Verif.Props.Discovery
import Verif.Props.StartDownload
/-!
# C122: the hosts that a download turns to
-/
namespace Flu

variable {env : Env} {d : Path} {port : Nat}

/-- A datagram with this message has arrived at the daemon. -/
def Spec.Came (tr : List (DmEv × Option Out × DmSys)) (m : Msg) : Prop := ∃ dg ret o x, (DmEv.datagram dg ret, o, x) ∈ tr ∧ parse (udpBuffer dg) = .ok m

/-- The hosts that a download turns to now or will turn to in this round, and its own address. -/
def Spec.turnsTo : DLPos → List HostResp
  | .hosts _ _ todo => todo
  | .fetching _ _ r todo => r :: todo
  | _ => []

/-- The address that a download takes for its own. -/
def Spec.ownOf : DLPos → Option (ByteArr 4)
  | .test own | .want own | .search own _ | .hosts own _ _ | .fetching own _ _ _ => some own
  | _ => none

open Spec

/-! ## The daemon's table of requests -/

/-- A step of the daemon leaves the table alone, or is a step of one goroutine of the table. -/
theorem DmStep.table {s s' : Daemon} {e : DmEv} {o : Option Out} (h : DmStep env d port s e o (.alive s')) : s'.table = s.table ∨ ∃ t, TStep t s.table s'.table := by
  cases h with
  | delivers t t' hd m i table ht hp hm hi hfree htable => subst htable; exact .inr ⟨t', .arrive s.table i m hfree hm hi⟩
  | discovery t table h => exact .inr ⟨t, h⟩
  | _ => exact .inl rfl

/-- What happens to the daemon's table is what happens to the table of `Model/Requests.lean`: so C50, C51, C92 and C106 hold in the whole daemon. -/
theorem DmRun.table {s0 s : Daemon} {tr : List (DmEv × Option Out × DmSys)} (h : DmRun env d port s0 tr (.alive s)) : TRun s0.table s.table := by
  suffices key : ∀ x, DmRun env d port s0 tr x → ∀ s, x = .alive s → TRun s0.table s.table from key _ h s rfl
  intro x hx
  clear h
  induction hx with
  | refl => rintro s hs; cases hs; exact .refl _
  | @step tr s1 x e o h1 hst ih =>
    rintro s rfl
    rcases hst.table with h2 | ⟨t, h2⟩
    · rw [h2]; exact ih s1 rfl
    · exact .step (ih s1 rfl) t h2

theorem all2_mem {α β : Type} {R : α → β → Prop} {as : List α} {bs : List β} (h : All2 R as bs) : ∀ b ∈ bs, ∃ a ∈ as, R a b := by
  induction h with
  | nil => exact fun _ h => nomatch h
  | @cons a b as bs h1 h2 ih =>
    intro b' hb
    rcases List.mem_cons.1 hb with rfl | hb
    · exact ⟨a, List.mem_cons_self .., h1⟩
    · obtain ⟨a', ha, hr⟩ := ih b' hb
      exact ⟨a', List.mem_cons_of_mem _ ha, hr⟩

theorem LinkStep.daemon {s s' : Linked} {e : DmEv} {o : Option Out} (h : LinkStep env d port s e o s') : DmStep env d port s.dm e o (.alive s'.dm) := by
  cases h with
  | begins t b th table ht hp hl hb htable =>
    subst htable
    have e := upd_same s.dm.table.threads b (.wantRegister ⟨(generateRequestID s.dm.table.reqID).1, 1⟩)
    exact .discovery s.dm b _ (.discover s.dm.table hb) (fun key m _ h => nomatch e.symm.trans h) (fun h => nomatch e.symm.trans h)
  | finds t th own c x key ch got rs ht hp hl ho hb hr => exact .loop s.dm _ _ (.search t _ th own c rs ht hp)
  | sets t th b x key ch got w rs fl own st ht hp hl ho hb hr hw hrun => exact .loop s.dm _ _ (.setup t _ th fl w b own st ht hp hrun)
  | refuses t th b x key ch got w rs fl e st ht hp hl ho hb hr hw hrun => exact .loop s.dm _ _ (.refuse t _ th fl w b e st ht hp hrun)
  | other _ _ dm h hno => exact h

/-- Every run with linked searches is a run of the daemon, with the same events. -/
theorem LinkRun.daemon {s0 s : Linked} {tr : List (DmEv × Option Out × DmSys)} (h : LinkRun env d port s0 tr s) : DmRun env d port s0.dm tr (.alive s.dm) := by
  induction h with
  | refl => exact .refl
  | step _ h' ih => exact .step ih h'.daemon

theorem LinkRun.trans {s0 s s' : Linked} {tr tr' : List (DmEv × Option Out × DmSys)} (h : LinkRun env d port s0 tr s) (h' : LinkRun env d port s tr' s') : LinkRun env d port s0 (tr ++ tr') s' := by
  induction h' with
  | refl => rw [List.append_nil]; exact h
  | step _ h' ih => rw [← List.append_assoc]; exact .step ih h'

/-! ## Where the messages come from -/

/-- What a goroutine of the table has in its hands came in a datagram. -/
def CameThread (tr : List (DmEv × Option Out × DmSys)) : Thread → Prop
  | .collecting _ _ got | .wantUnregister _ _ got | .returned _ _ got => ∀ m ∈ got, Came tr m
  | .wantDeliver _ m | .sending _ m => Came tr m
  | _ => True

structure CameInv (tr : List (DmEv × Option Out × DmSys)) (s : Daemon) : Prop where
  asked : ∀ k h m, s.handlers k = some h → h.pos = .asked m → Came tr m
  threads : ∀ k, CameThread tr (s.table.threads k)
  chans : ∀ c, ∀ m ∈ s.table.chans c, Came tr m

theorem Spec.Came.more {tr tr' : List (DmEv × Option Out × DmSys)} {m : Msg} (h : Came tr m) : Came (tr ++ tr') m := by
  obtain ⟨dg, ret, o, x, h1, h2⟩ := h
  exact ⟨dg, ret, o, x, List.mem_append_left _ h1, h2⟩

theorem CameThread.more {tr tr' : List (DmEv × Option Out × DmSys)} {th : Thread} (h : CameThread tr th) : CameThread (tr ++ tr') th := by
  cases th with
  | collecting | wantUnregister | returned => exact fun m hm => (h m hm).more
  | wantDeliver | sending => exact Spec.Came.more h
  | _ => trivial

theorem CameInv.more {tr tr' : List (DmEv × Option Out × DmSys)} {s : Daemon} (h : CameInv tr s) : CameInv (tr ++ tr') s :=
  ⟨fun k hd m h1 h2 => (h.asked k hd m h1 h2).more, fun k => (h.threads k).more, fun c m hm => (h.chans c m hm).more⟩

theorem asked_upd {P : Msg → Prop} {f : Nat → Option Handler} (h : ∀ k h m, f k = some h → h.pos = .asked m → P m) (t : Nat) (hd : Handler) (hpos : ∀ m, hd.pos = .asked m → P m) :
    ∀ k h m, upd f t (some hd) k = some h → h.pos = .asked m → P m := by
  intro k h' m h1 h2
  by_cases e : k = t
  · subst e
    rw [upd_same] at h1
    cases h1
    exact hpos m h2
  · rw [upd_other _ _ e] at h1
    exact h k h' m h1 h2

theorem threads_upd {P : Thread → Prop} {f : Nat → Thread} (h : ∀ k, P (f k)) (t : Nat) (th : Thread) (ht : P th) : ∀ k, P (upd f t th k) := by
  intro k
  by_cases e : k = t
  · subst e; rw [upd_same]; exact ht
  · rw [upd_other _ _ e]; exact h k

theorem came_table {tr : List (DmEv × Option Out × DmSys)} {s s' : Table} {t : Nat} (hs : TStep t s s') (hnew : ∀ key m, s.threads t = .idle → s'.threads t ≠ .wantDeliver key m)
    (h1 : ∀ k, CameThread tr (s.threads k)) (h2 : ∀ c, ∀ m ∈ s.chans c, Came tr m) : (∀ k, CameThread tr (s'.threads k)) ∧ ∀ c, ∀ m ∈ s'.chans c, Came tr m := by
  have hT := h1 t
  have hch : ∀ (c : Nat) (l : List Msg), (∀ m ∈ l, Came tr m) → ∀ c', ∀ m ∈ upd s.chans c l c', Came tr m := by
    intro c l hl c' m hm
    by_cases e : c' = c
    · subst e; rw [upd_same] at hm; exact hl m hm
    · rw [upd_other _ _ e] at hm; exact h2 c' m hm
  cases hs with
  | discover h => exact ⟨threads_upd h1 t _ trivial, h2⟩
  | other h => exact ⟨h1, h2⟩
  | register key h hl => exact ⟨threads_upd h1 t _ (fun m hm => nomatch hm), hch _ _ (fun m hm => nomatch hm)⟩
  | collect key c got m rest h hb =>
    rw [h] at hT
    have hm : Came tr m := h2 c m (by rw [hb]; exact List.mem_cons_self ..)
    refine ⟨threads_upd h1 t _ ?_, hch _ _ (fun m' hm' => h2 c m' (by rw [hb]; exact List.mem_cons_of_mem _ hm'))⟩
    split
    · intro m' hm'
      rcases List.mem_append.1 hm' with h' | h'
      · exact hT m' h'
      · rw [List.mem_singleton.1 h']; exact hm
    · trivial
  | timeout key c got h => rw [h] at hT; exact ⟨threads_upd h1 t _ hT, h2⟩
  | unregister key c got h hl => rw [h] at hT; exact ⟨threads_upd h1 t _ hT, h2⟩
  | arrive i m h hm hi => exact absurd (upd_same _ _ _) (hnew _ m h)
  | reject key m h hl hk => exact ⟨threads_upd h1 t _ trivial, h2⟩
  | find key m c h hl hk => rw [h] at hT; exact ⟨threads_upd h1 t _ hT, h2⟩
  | send c m h hb =>
    rw [h] at hT
    exact ⟨threads_upd h1 t _ trivial, hch _ _ (fun m' hm' => by rw [List.mem_singleton.1 hm']; exact hT)⟩

theorem CameInv.step {tr : List (DmEv × Option Out × DmSys)} {s s' : Daemon} {e : DmEv} {o : Option Out} (hi : CameInv tr s) (h : DmStep env d port s e o (.alive s')) :
    CameInv (tr ++ [(e, o, .alive s')]) s' := by
  have hm := hi.more (tr' := [(e, o, .alive s')])
  cases h with
  | loop a l h => exact ⟨hm.asked, hm.threads, hm.chans⟩
  | arrives t dg ret m ht hp =>
    exact ⟨asked_upd hm.asked t _ (fun m' h => by cases h; exact ⟨dg, ret, _, _, List.mem_append_right _ (List.mem_singleton.2 rfl), hp⟩), hm.threads, hm.chans⟩
  | garbage dg ret e hp => exact hm
  | delivers t t' hd m i table ht hp hty hid hfree htable =>
    subst htable
    exact ⟨asked_upd hm.asked t _ nofun, threads_upd hm.threads t' _ (hm.asked t hd m ht hp), hm.chans⟩
  | discovery t table h hnew hlive =>
    obtain ⟨g1, g2⟩ := came_table h hnew hm.threads hm.chans
    exact ⟨hm.asked, g1, g2⟩
  | uploads => exact ⟨hm.asked, hm.threads, hm.chans⟩
  | sees => exact ⟨hm.asked, hm.threads, hm.chans⟩
  | _ => exact ⟨asked_upd hm.asked _ _ nofun, hm.threads, hm.chans⟩

/-- Every message that a goroutine of the daemon has in its hands came in a datagram. -/
theorem DmRun.came {c : Cat} {fs : FS} {s : Daemon} {tr : List (DmEv × Option Out × DmSys)} (h : DmRun env d port (.fresh c fs) tr (.alive s)) : CameInv tr s := by
  suffices key : ∀ x, DmRun env d port (.fresh c fs) tr x → ∀ s, x = .alive s → CameInv tr s from key _ h s rfl
  intro x hx
  clear h
  induction hx with
  | refl => rintro s hs; cases hs; exact ⟨nofun, fun _ => trivial, fun _ _ h => nomatch h⟩
  | step h1 hst ih => rintro s rfl; exact (ih _ rfl).step hst

/-- There are always goroutines left to start. -/
theorem TRun.room {s : Table} (h : TRun .fresh s) : ∃ n, ∀ k, n ≤ k → s.threads k = .idle := by
  generalize he : Table.fresh = s0 at h
  induction h with
  | refl => subst he; exact ⟨0, fun _ _ => rfl⟩
  | @step u v hr t hs ih =>
    obtain ⟨n, hn⟩ := ih
    have key : ∀ th, ∀ k, n + t + 1 ≤ k → upd u.threads t th k = .idle := fun th k hk => by rw [upd_other _ _ (by omega)]; exact hn k (by omega)
    refine ⟨n + t + 1, ?_⟩
    cases hs with
    | other => exact fun k hk => hn k (by omega)
    | _ => exact key _

/-! ## The link -/

/-- The request of a call of `DiscoverHosts`. -/
def Thread.request? : Thread → Option RequestKey
  | .wantRegister key | .collecting key _ _ | .wantUnregister key _ _ | .returned key _ _ => some key
  | _ => none

theorem request_step {t : Nat} {s s' : Table} (h : TStep t s s') (hdead : s'.threads t ≠ .dead) {k : Nat} {key : RequestKey} (hk : (s.threads k).request? = some key) :
    (s'.threads k).request? = some key := by
  have put : ∀ th, (t = k → Thread.request? th = some key) → (upd s.threads t th k).request? = some key := by
    intro th hth
    by_cases e : k = t
    · subst e; rw [upd_same]; exact hth rfl
    · rw [upd_other _ _ e]; exact hk
  cases h with
  | other => exact hk
  | collect key' c got m rest h hb =>
    refine put _ (fun e => ?_)
    subst e
    rw [h] at hk
    split
    · exact hk
    · rename_i hm; exact absurd (by show upd s.threads t _ t = _; rw [upd_same, if_neg hm]) hdead
  | register _ h | timeout _ _ _ h | unregister _ _ _ h => exact put _ (fun e => by subst e; rw [h] at hk; exact hk)
  | discover h | arrive _ _ h | reject _ _ h | find _ _ _ h | send _ _ h => exact put _ (fun e => by subst e; rw [h] at hk; cases hk)

theorem searches_none {pos : DLPos} (h : pos.searches) : turnsTo pos = [] := by
  cases pos with
  | setup | search => rfl
  | _ => cases h

/-- What holds of a host that a download turns to. -/
def Named (tr : List (DmEv × Option Out × DmSys)) (link : Option Search) (own : Option (ByteArr 4)) (r : HostResp) : Prop :=
  ∃ x, link = some x ∧ x.over = true ∧ r.reqID = x.id ∧ Came tr (.discoverResp r.reqID r.addr r.port r.chunks) ∧ r.chunks ≠ [] ∧ own ≠ some r.addr

theorem Named.more {tr tr' : List (DmEv × Option Out × DmSys)} {l : Option Search} {own : Option (ByteArr 4)} {r : HostResp} (h : Named tr l own r) : Named (tr ++ tr') l own r := by
  obtain ⟨x, h1, h2, h3, h4, h5⟩ := h
  exact ⟨x, h1, h2, h3, h4.more, h5⟩

structure LinkInv (tr : List (DmEv × Option Out × DmSys)) (s : Linked) : Prop where
  link : ∀ t x, s.link t = some x → (s.dm.table.threads x.runs).request? = some ⟨x.id, 1⟩
  named : ∀ t th, s.dm.loop.threads t = some th → ∀ r ∈ turnsTo th.pos, Named tr (s.link t) (ownOf th.pos) r

/-- A step of a download that does not search leaves it with the hosts it had, or fewer. -/
theorem loop_turns {a : Actor} {s s' : DLState} (h : DLStep env d a s (.alive s')) (hno : ∀ t th, a = .thread t → s.threads t = some th → ¬ th.pos.searches) {t : Nat} {th' : DLThread}
    (hnow : s'.threads t = some th') : turnsTo th'.pos = [] ∨ ∃ th, s.threads t = some th ∧ (∀ r ∈ turnsTo th'.pos, r ∈ turnsTo th.pos) ∧ ownOf th'.pos = ownOf th.pos := by
  have stay : s'.threads t = s.threads t → turnsTo th'.pos = [] ∨ ∃ th, s.threads t = some th ∧ (∀ r ∈ turnsTo th'.pos, r ∈ turnsTo th.pos) ∧ ownOf th'.pos = ownOf th.pos :=
    fun e => .inr ⟨th', e ▸ hnow, fun _ h => h, rfl⟩
  have moved : ∀ (u : Nat) (new : DLThread), s'.threads = upd s.threads u (some new) →
      (u = t → turnsTo new.pos = [] ∨ ∃ th, s.threads u = some th ∧ (∀ r ∈ turnsTo new.pos, r ∈ turnsTo th.pos) ∧ ownOf new.pos = ownOf th.pos) →
      turnsTo th'.pos = [] ∨ ∃ th, s.threads t = some th ∧ (∀ r ∈ turnsTo th'.pos, r ∈ turnsTo th.pos) ∧ ownOf th'.pos = ownOf th.pos := by
    intro u new hu hnew
    by_cases e : t = u
    · subst e
      rw [hu, upd_same] at hnow
      cases hnow
      exact hnew rfl
    · exact stay (by rw [hu, upd_other _ _ e])
  cases h with
  | start u h _ ht => exact moved u _ rfl (fun _ => .inl rfl)
  | check u _ th fl b s' ht hp hrun => exact moved u _ rfl (fun _ => .inl rfl)
  | setup u _ th fl w b own s' ht hp hrun => exact absurd (by rw [hp]; trivial) (hno u th rfl ht)
  | refuse u _ th fl w b e s' ht hp hrun => exact absurd (by rw [hp]; trivial) (hno u th rfl ht)
  | test u _ th fl own v s' ht hp hrun => exact moved u _ rfl (fun _ => .inl (by cases v <;> rfl))
  | want u _ th fl own r rest s' ht hp hrun => exact moved u _ rfl (fun _ => .inl rfl)
  | search u _ th own c rs ht hp => exact absurd (by rw [hp]; trivial) (hno u th rfl ht)
  | again u _ th own c ht hp => exact moved u _ rfl (fun _ => .inl rfl)
  | skip u _ th own c r todo ht hp hl hk => exact moved u _ rfl (fun _ => .inr ⟨th, ht, fun r' h => by rw [hp]; exact List.mem_cons_of_mem _ h, by rw [hp]; rfl⟩)
  | dial u _ th own c r todo ht hp hl hk => exact moved u _ rfl (fun _ => .inr ⟨th, ht, fun r' h => by rw [hp]; exact h, by rw [hp]; rfl⟩)
  | fetched u _ th fl own c r todo queue ok s' ht hp hsafe hrun =>
    exact moved u _ rfl (fun _ => .inr ⟨th, ht, fun r' h => by rw [hp]; exact List.mem_cons_of_mem _ h, by rw [hp]; rfl⟩)
  | gaveUp u _ th fl own c r todo queue s' ht hp hrun =>
    exact moved u _ rfl (fun _ => .inr ⟨th, ht, fun r' h => by rw [hp]; exact List.mem_cons_of_mem _ h, by rw [hp]; rfl⟩)
  | call o _ fl r s' hsafe hrun hret => exact stay rfl
  | user p _ content hp => exact stay rfl

/-- The threads of downloads change only in steps of downloads. -/
theorem DmStep.downloads {s s' : Daemon} {e : DmEv} {o : Option Out} (h : DmStep env d port s e o (.alive s')) (he : ∀ a, e ≠ .loop a) : s'.loop.threads = s.loop.threads := by
  cases h with
  | loop a l h => exact absurd rfl (he a)
  | _ => rfl

/-- No step of the daemon makes a search forget its request. -/
theorem DmStep.request {s s' : Daemon} {e : DmEv} {o : Option Out} (h : DmStep env d port s e o (.alive s')) {k : Nat} {key : RequestKey} (hk : (s.table.threads k).request? = some key) :
    (s'.table.threads k).request? = some key := by
  cases h with
  | delivers t t' hd m i table ht hp hm hi hfree htable =>
    subst htable
    exact request_step (.arrive s.table i m hfree hm hi) (by show upd s.table.threads t' _ t' ≠ _; rw [upd_same]; nofun) hk
  | discovery t table h hnew hlive => exact request_step h hlive hk
  | _ => exact hk

theorem LinkInv.step {c : Cat} {fs : FS} {tr : List (DmEv × Option Out × DmSys)} {s s' : Linked} {e : DmEv} {o : Option Out} (hrun : LinkRun env d port (.fresh c fs) tr s)
    (hi : LinkInv tr s) (h : LinkStep env d port s e o s') : LinkInv (tr ++ [(e, o, .alive s'.dm)]) s' := by
  have keep : ∀ t x, s.link t = some x → (s'.dm.table.threads x.runs).request? = some ⟨x.id, 1⟩ := fun t x hx => h.daemon.request (hi.link t x hx)
  have over : ∀ (t : Nat) (x : Search), s.link t = some x → s'.link = upd s.link t (some { x with over := true }) → ∀ u y, s'.link u = some y →
      (s'.dm.table.threads y.runs).request? = some ⟨y.id, 1⟩ := by
    intro t x hx hl u y hy
    by_cases e : u = t
    · subst e
      rw [hl, upd_same] at hy
      cases hy
      exact keep u x hx
    · rw [hl, upd_other _ _ e] at hy
      exact keep u y hy
  have moved : ∀ (t : Nat) (new : DLThread) (l : Option Search), s'.dm.loop.threads = upd s.dm.loop.threads t (some new) → s'.link = upd s.link t l →
      (∀ r ∈ turnsTo new.pos, Named (tr ++ [(e, o, .alive s'.dm)]) l (ownOf new.pos) r) → ∀ u th, s'.dm.loop.threads u = some th →
      ∀ r ∈ turnsTo th.pos, Named (tr ++ [(e, o, .alive s'.dm)]) (s'.link u) (ownOf th.pos) r := by
    intro t new l h1 h2 hnew u th hu r hr
    by_cases e : u = t
    · subst e
      rw [h1, upd_same] at hu
      cases hu
      rw [h2, upd_same]
      exact hnew r hr
    · rw [h1, upd_other _ _ e] at hu
      rw [h2, upd_other _ _ e]
      exact (hi.named u th hu r hr).more
  cases h with
  | begins t b th table ht hp hl hb htable =>
    refine ⟨fun u y hy => ?_, fun u th' hu r hr => ?_⟩
    · by_cases e : u = t
      · subst e
        have hy : upd s.link u _ u = some y := hy
        rw [upd_same] at hy
        cases hy
        subst htable
        show (upd s.dm.table.threads b _ b).request? = _
        rw [upd_same]; rfl
      · have hy : upd s.link t _ u = some y := hy
        rw [upd_other _ _ e] at hy
        exact keep u y hy
    · by_cases e : u = t
      · subst e
        rw [show (s.dm.loop.threads u) = _ from ht] at hu
        cases hu
        rw [searches_none hp] at hr
        cases hr
      · show Named _ (upd s.link t _ u) _ r
        rw [upd_other _ _ e]
        exact (hi.named u th' hu r hr).more
  | finds t th own c x key ch got rs ht hp hl ho hb hr =>
    refine ⟨over t x hl rfl, moved t _ _ rfl rfl (fun r hr' => ?_)⟩
    have hT := hi.link t x hl
    rw [hb] at hT
    have hkey : key = ⟨x.id, 1⟩ := Option.some.inj hT
    obtain ⟨rs', g1, g2⟩ := C92_collects s.dm.table hrun.daemon.table x.runs key (by rw [hkey]) ch got (.inr (.inr hb))
    rw [hr] at g1
    cases g1
    obtain ⟨k1, k2, k3⟩ := ((C55_hosts own rs).2.1 r).1 hr'
    obtain ⟨m, hm, j1, j2⟩ := all2_mem g2 r k1
    have hC := hrun.daemon.came.threads x.runs
    rw [hb] at hC
    refine ⟨_, rfl, rfl, ?_, ?_, k2, ?_⟩
    · rw [j2, hkey]
    · rw [← j1]; exact (hC m hm).more
    · intro e
      exact k3 (Option.some.inj e).symm
  | sets t th b x key ch got w rs fl own st ht hp hl ho hb hr hw hrun => exact ⟨over t x hl rfl, moved t _ _ rfl rfl (fun r hr => nomatch hr)⟩
  | refuses t th b x key ch got w rs fl e st ht hp hl ho hb hr hw hrun => exact ⟨over t x hl rfl, moved t _ _ rfl rfl (fun r hr => nomatch hr)⟩
  | other _ _ dm h hno =>
    refine ⟨keep, fun u th hu r hr => ?_⟩
    by_cases he : ∃ a, e = .loop a
    · obtain ⟨a, rfl⟩ := he
      rcases h.project with ⟨a', ha, h2, -⟩ | ⟨h2, -⟩
      · cases ha
        rcases loop_turns h2 (fun t th e => hno t th (by rw [e])) hu with g | ⟨th0, g1, g2, g3⟩
        · rw [g] at hr; cases hr
        · rw [g3]; exact (hi.named u th0 g1 r (g2 r hr)).more
      · exact absurd rfl (h2 a)
    · have h2 := h.downloads (fun a ha => he ⟨a, ha⟩)
      rw [show dm.loop.threads u = _ from congrFun h2 u] at hu
      exact (hi.named u th hu r hr).more

theorem LinkRun.linked {c : Cat} {fs : FS} {tr : List (DmEv × Option Out × DmSys)} {s : Linked} (h : LinkRun env d port (.fresh c fs) tr s) : LinkInv tr s := by
  generalize hs0 : Linked.fresh c fs = s0 at h
  induction h with
  | refl => subst hs0; exact ⟨nofun, nofun⟩
  | step h h' ih => subst hs0; exact ih.step h h'

/-- C122: whatever happens, every host that a download turns to is one that a datagram named that has arrived at this daemon, as an answer with the identifier of the search that this
download made last, with at least one chunk; and it is not the download's own address. -/
theorem C122_hosts {c : Cat} {fs : FS} {tr : List (DmEv × Option Out × DmSys)} {s : Linked} (h : LinkRun env d port (.fresh c fs) tr s) (t : Nat) (th : DLThread)
    (ht : s.dm.loop.threads t = some th) (r : HostResp) (hr : r ∈ turnsTo th.pos) :
    ∃ x, s.link t = some x ∧ x.over = true ∧ Came tr (.discoverResp x.id r.addr r.port r.chunks) ∧ r.chunks ≠ [] ∧ ownOf th.pos ≠ some r.addr := by
  obtain ⟨x, h1, h2, h3, h4, h5, h6⟩ := h.linked.named t th ht r hr
  rw [h3] at h4
  exact ⟨x, h1, h2, h4, h5, h6⟩

/-! ## When the table is wedged -/

/-- A step of somebody else leaves a download where it is. -/
theorem loop_others {a : Actor} {s s' : DLState} (h : DLStep env d a s (.alive s')) {t : Nat} (ha : a ≠ .thread t) : s'.threads t = s.threads t := by
  have put : ∀ (u : Nat) (x : Option DLThread), a = .thread u → upd s.threads u x t = s.threads t := fun u x hu => upd_other _ _ (fun e => ha (by rw [hu, e]))
  cases h with
  | call o _ fl r s' hsafe hrun hret => rfl
  | user p _ content hp => rfl
  | _ => exact put _ _ rfl

/-- The search of a download has not returned, or has not begun. -/
def Spec.NoResult (s : Linked) (t : Nat) : Prop := ∀ x, s.link t = some x → x.over = false → ∀ key ch got, s.dm.table.threads x.runs ≠ .returned key ch got

theorem wedged_link {c : Cat} {fs : FS} {tr : List (DmEv × Option Out × DmSys)} {s s' : Linked} {e : DmEv} {o : Option Out} (hrun : LinkRun env d port (.fresh c fs) tr s)
    (hw : Wedged s.dm.table) (h : LinkStep env d port s e o s') {t : Nat} {th : DLThread} (ht : s.dm.loop.threads t = some th) (hp : th.pos.searches) (hno : NoResult s t) :
    Wedged s'.dm.table ∧ s'.dm.loop.threads t = some th ∧ NoResult s' t := by
  have hT : TRun s.dm.table s'.dm.table := by
    rcases h.daemon.table with g | ⟨k, g⟩
    · rw [g]; exact .refl _
    · exact .step (.refl _) k g
  obtain ⟨w1, w2, -, -⟩ := C51_wedged _ _ hrun.daemon.table hw hT
  have same : s'.link t = s.link t → NoResult s' t := fun e x hx ho key ch got hk => hno x (e ▸ hx) ho key ch got (w2 _ key ch got hk)
  have mine : ∀ (u : Nat) (x : Search) (key : RequestKey) (ch : Nat) (got : List Msg), s.link u = some x → x.over = false → s.dm.table.threads x.runs = .returned key ch got → t ≠ u := by
    rintro u x key ch got h1 h2 h3 rfl
    exact hno x h1 h2 key ch got h3
  cases h with
  | begins u b th' table hu hp' hl hb htable =>
    refine ⟨w1, ht, ?_⟩
    by_cases e : t = u
    · subst e
      intro x hx ho key ch got hk
      have hx : upd s.link t _ t = some x := hx
      rw [upd_same] at hx
      cases hx
      subst htable
      have := (upd_same s.dm.table.threads b _).symm.trans hk
      cases this
    · exact same (upd_other _ _ e)
  | finds u th' own c x key ch got rs hu hp' hl ho hb hr =>
    have e := mine u x key ch got hl ho hb
    exact ⟨w1, (upd_other _ _ e).trans ht, same (upd_other _ _ e)⟩
  | sets u th' b x key ch got w rs fl own st hu hp' hl ho hb hr hw' hrun' =>
    have e := mine u x key ch got hl ho hb
    exact ⟨w1, (upd_other _ _ e).trans ht, same (upd_other _ _ e)⟩
  | refuses u th' b x key ch got w rs fl e st hu hp' hl ho hb hr hw' hrun' =>
    have e := mine u x key ch got hl ho hb
    exact ⟨w1, (upd_other _ _ e).trans ht, same (upd_other _ _ e)⟩
  | other _ _ dm h hfree =>
    refine ⟨w1, ?_, same rfl⟩
    by_cases he : ∃ a, e = .loop a
    · obtain ⟨a, rfl⟩ := he
      rcases h.project with ⟨a', ha, h2, -⟩ | ⟨h2, -⟩
      · cases ha
        exact (loop_others h2 (fun e => hfree t th (by rw [e]) ht hp)).trans ht
      · exact absurd rfl (h2 a)
    · exact (congrFun (h.downloads (fun a ha => he ⟨a, ha⟩)) t).trans ht

/-- C122: once a delivery is stuck with the lock of the table (C51), a download that searches, or is about to, whose search has not returned, searches for ever: it gets no further chunk and
does not end, whatever arrives and whatever anybody does. -/
theorem C122_wedged {c : Cat} {fs : FS} {tr tr' : List (DmEv × Option Out × DmSys)} {s s' : Linked} (hrun : LinkRun env d port (.fresh c fs) tr s) (hw : Wedged s.dm.table)
    (h : LinkRun env d port s tr' s') (t : Nat) (th : DLThread) (ht : s.dm.loop.threads t = some th) (hp : th.pos.searches) (hno : NoResult s t) : s'.dm.loop.threads t = some th := by
  suffices key : Wedged s'.dm.table ∧ s'.dm.loop.threads t = some th ∧ NoResult s' t from key.2.1
  induction h with
  | refl => exact ⟨hw, ht, hno⟩
  | step h h' ih => exact wedged_link (hrun.trans h) ih.1 h' ih.2.1 hp ih.2.2

/-! ## When it is not -/

theorem hosts_of_got {c : Cat} {fs : FS} {tr : List (DmEv × Option Out × DmSys)} {s : Linked} (hrun : LinkRun env d port (.fresh c fs) tr s) {t : Nat} {x : Search} (hl : s.link t = some x)
    {key : RequestKey} {ch : Nat} {got : List Msg} (hb : s.dm.table.threads x.runs = .returned key ch got) : ∃ rs, hostResps got = .ok rs := by
  have hT := hrun.linked.link t x hl
  rw [hb] at hT
  obtain ⟨rs, h, -⟩ := C92_collects s.dm.table hrun.daemon.table x.runs key (by rw [Option.some.inj hT]) ch got (.inr (.inr hb))
  exact ⟨rs, h⟩

/-- The goroutines of the table can go on within the daemon. -/
theorem quiet_link {T : Table} {s : Linked} (h0 : TRun .fresh s.dm.table) (h : TQuiet s.dm.table T) : ∃ tr, LinkRun env d port s tr ⟨{ s.dm with table := T }, s.link⟩ := by
  generalize hT : s.dm.table = T0 at h
  induction h with
  | refl => subst hT; exact ⟨[], .refl⟩
  | @step u v h k hs hn ih =>
    obtain ⟨tr, ih⟩ := ih
    have hv : TRun .fresh v := by rw [hT] at h0; exact .step (h0.trans h.run) k hs
    exact ⟨_, .step ih (.other ⟨{ s.dm with table := u }, s.link⟩ (.discovery k) none { s.dm with table := v }
      (.discovery { s.dm with table := u } k v hs (fun _ _ hi => absurd hi hn) (C50_only_answers v hv k).2) nofun)⟩

theorem not_wedged_discover {s : Table} {b : Nat} (hb : s.threads b = .idle) (key : RequestKey) (n : Nat) (hw : ¬ Wedged s) :
    ¬ Wedged { s with reqID := n, threads := upd s.threads b (.wantRegister key) } := by
  rintro ⟨k, ch, m, h1, h2, h3⟩
  have h1 : upd s.threads b _ k = _ := h1
  have e : k ≠ b := by rintro rfl; rw [upd_same] at h1; cases h1
  rw [upd_other _ _ e] at h1
  refine hw ⟨k, ch, m, h1, h2, fun u key' got hu => ?_⟩
  have e : u ≠ b := by rintro rfl; rw [hb] at hu; cases hu
  exact h3 u key' got ((upd_other _ _ e).trans hu)

/-- C122: exactly then: a download's search can end, and the download go on to the hosts found, if and only if no delivery is stuck with the lock of the table, or the search has
returned already. -/
theorem C122_search_iff {c : Cat} {fs : FS} {tr : List (DmEv × Option Out × DmSys)} {s : Linked} (hrun : LinkRun env d port (.fresh c fs) tr s) (t : Nat) (th : DLThread) (own : ByteArr 4)
    (chunk : UInt16) (ht : s.dm.loop.threads t = some th) (hp : th.pos = .search own chunk) :
    (∃ tr' s' th', LinkRun env d port s tr' s' ∧ s'.dm.loop.threads t = some th' ∧ ∃ rs, th'.pos = .hosts own chunk rs) ↔ ¬ Wedged s.dm.table ∨ ¬ NoResult s t := by
  constructor
  · rintro ⟨tr', s', th', h, ht', rs, hp'⟩
    apply Classical.byContradiction
    intro hn
    have hw : Wedged s.dm.table := Classical.byContradiction (fun h => hn (.inl h))
    have hno : NoResult s t := Classical.byContradiction (fun h => hn (.inr h))
    have := C122_wedged hrun hw h t th ht (by rw [hp]; trivial) hno
    rw [ht'] at this
    cases this
    rw [hp] at hp'
    cases hp'
  · -- from a state in which the search has begun
    have fin : ∀ (tr1 : List (DmEv × Option Out × DmSys)) (s1 : Linked), LinkRun env d port s tr1 s1 → s1.dm.loop.threads t = some th → ∀ x, s1.link t = some x → x.over = false →
        ∀ key ch got, s1.dm.table.threads x.runs = .returned key ch got → ∃ tr' s' th', LinkRun env d port s tr' s' ∧ s'.dm.loop.threads t = some th' ∧ ∃ rs, th'.pos = .hosts own chunk rs := by
      intro tr1 s1 h1 ht1 x hx ho key ch got hk
      obtain ⟨rs, hrs⟩ := hosts_of_got (hrun.trans h1) hx hk
      exact ⟨_, _, { th with pos := .hosts own chunk (goodHosts own rs) }, h1.step (.finds s1 t th own chunk x key ch got rs ht1 hp hx ho hk hrs), upd_same _ _ _, _, rfl⟩
    have go : ∀ (tr1 : List (DmEv × Option Out × DmSys)) (s1 : Linked), LinkRun env d port s tr1 s1 → s1.dm.loop.threads t = some th → ∀ x, s1.link t = some x → x.over = false →
        ¬ Wedged s1.dm.table → ∃ tr' s' th', LinkRun env d port s tr' s' ∧ s'.dm.loop.threads t = some th' ∧ ∃ rs, th'.pos = .hosts own chunk rs := by
      intro tr1 s1 h1 ht1 x hx ho hw
      have hq := (hrun.trans h1).linked.link t x hx
      have hT := (hrun.trans h1).daemon.table
      by_cases hret : ∃ key ch got, s1.dm.table.threads x.runs = .returned key ch got
      · obtain ⟨key, ch, got, hk⟩ := hret
        exact fin tr1 s1 h1 ht1 x hx ho key ch got hk
      · have hcan : ∃ T, TQuiet s1.dm.table T ∧ ∃ ch got, T.threads x.runs = .returned ⟨x.id, 1⟩ ch got := by
          refine returns_quiet hT hw x.runs ⟨x.id, 1⟩ ?_
          revert hq hret
          rcases s1.dm.table.threads x.runs with _ | key | ⟨key, ch, got⟩ | ⟨key, ch, got⟩ | ⟨key, ch, got⟩ | _ | _ | _ | _ | _ <;> intro hq hret
          all_goals first | cases hq; done | skip
          · cases hq; exact .inl rfl
          · cases hq; exact .inr ⟨ch, got, .inl rfl⟩
          · cases hq; exact .inr ⟨ch, got, .inr rfl⟩
          · exact absurd ⟨key, ch, got, rfl⟩ hret
        obtain ⟨T, hT1, ch, got, hk⟩ := hcan
        obtain ⟨tr2, h2⟩ := quiet_link (env := env) (d := d) (port := port) hT hT1
        exact fin _ ⟨{ s1.dm with table := T }, s1.link⟩ (h1.trans h2) ht1 x hx ho _ ch got hk
    rintro (hw | hno)
    · by_cases hl : ∃ x, s.link t = some x ∧ x.over = false
      · obtain ⟨x, hx, ho⟩ := hl
        exact go [] s .refl ht x hx ho hw
      · obtain ⟨b, hb⟩ := hrun.daemon.table.room
        have hb := hb b (Nat.le_refl b)
        have h1 := LinkRun.step (env := env) (d := d) (port := port) (.refl (s0 := s)) (.begins s t b th _ ht (by rw [hp]; trivial) (fun x hx => by
          cases ho : x.over with
          | true => rfl
          | false => exact absurd ⟨x, hx, ho⟩ hl) hb rfl)
        exact go _ _ h1 ht _ (upd_same _ _ _) rfl (not_wedged_discover hb _ _ hw)
    · have : ∃ x, s.link t = some x ∧ x.over = false ∧ ∃ key ch got, s.dm.table.threads x.runs = .returned key ch got := by
        apply Classical.byContradiction
        intro h
        exact hno (fun x hx ho key ch got hk => h ⟨x, hx, ho, key, ch, got, hk⟩)
      obtain ⟨x, hx, ho, key, ch, got, hk⟩ := this
      exact fin [] s .refl ht x hx ho key ch got hk

/-! ## Any answer will do -/

theorem quiet_answer {T : Table} {b k n : Nat} {key : RequestKey} {m : Msg} (hb : T.threads b = .collecting key n []) (hk : T.threads k = .wantDeliver key m) (hl : T.locked = false)
    (hmap : T.resMap key = some n) (hch : T.chans n = []) (hty : m.type = 1) : ∃ T', TQuiet T T' ∧ T'.threads b = .returned key n [m] ∧ T'.locked = false ∧ T'.reqID = T.reqID := by
  have hbk : b ≠ k := by rintro rfl; rw [hb] at hk; cases hk
  have r1 := (TQuiet.refl T).step k (.find T key m n hk hl hmap) (by rw [hk]; nofun)
  have e1 : upd T.threads k (.sending n m) k = .sending n m := upd_same _ _ _
  have r2 := r1.step k (.send _ n m e1 hch) (fun h => nomatch e1.symm.trans h)
  have e2 : upd (upd T.threads k (.sending n m)) k .delivered b = .collecting key n [] := by rw [upd_other _ _ hbk, upd_other _ _ hbk, hb]
  have r3 := r2.step b (.collect _ key n [] m [] e2 (upd_same _ _ _)) (fun h => nomatch e2.symm.trans h)
  have e3 : upd (upd (upd T.threads k (.sending n m)) k .delivered) b (if m.type = 1 then .collecting key n ([] ++ [m]) else .dead) b = .collecting key n [m] := by
    rw [upd_same, if_pos hty]; rfl
  have r4 := r3.step b (.timeout _ key n [m] e3) (fun h => nomatch e3.symm.trans h)
  exact ⟨_, r4.step b (.unregister _ key n [m] (upd_same _ _ _) rfl) (fun h => nomatch (upd_same _ b (Thread.wantUnregister key n [m])).symm.trans h), upd_same _ _ _, rfl, rfl⟩

theorem quiet_first {T : Table} {b k n : Nat} {key : RequestKey} {m : Msg} (hb : T.threads b = .collecting key n []) (hk : T.threads k = .wantDeliver key m) (hl : T.locked = false)
    (hmap : T.resMap key = some n) (hch : T.chans n = []) : ∃ T', TQuiet T T' ∧ T'.threads b = .collecting key n [] ∧ T'.locked = false ∧ T'.resMap key = some n ∧ T'.chans n ≠ [] := by
  have hbk : b ≠ k := by rintro rfl; rw [hb] at hk; cases hk
  have r1 := (TQuiet.refl T).step k (.find T key m n hk hl hmap) (by rw [hk]; nofun)
  have e1 : upd T.threads k (.sending n m) k = .sending n m := upd_same _ _ _
  have r2 := r1.step k (.send _ n m e1 hch) (fun h => nomatch e1.symm.trans h)
  have e2 : upd (upd T.threads k (.sending n m)) k .delivered b = .collecting key n [] := by rw [upd_other _ _ hbk, upd_other _ _ hbk, hb]
  exact ⟨_, r2, e2, rfl, hmap, fun h => nomatch (upd_same T.chans n [m]).symm.trans h⟩

theorem quiet_wedge {T : Table} {b k n : Nat} {key : RequestKey} {m : Msg} (hT : TRun .fresh T) (hb : T.threads b = .collecting key n []) (hk : T.threads k = .wantDeliver key m)
    (hl : T.locked = false) (hmap : T.resMap key = some n) (hch : T.chans n ≠ []) : ∃ T', TQuiet T T' ∧ Wedged T' ∧ T'.threads b = .wantUnregister key n [] := by
  have hbk : b ≠ k := by rintro rfl; rw [hb] at hk; cases hk
  have r1 := (TQuiet.refl T).step k (.find T key m n hk hl hmap) (by rw [hk]; nofun)
  have e1 : upd T.threads k (.sending n m) b = .collecting key n [] := by rw [upd_other _ _ hbk, hb]
  have r2 := r1.step b (.timeout _ key n [] e1) (fun h => nomatch e1.symm.trans h)
  have e2 : upd (upd T.threads k (.sending n m)) b (.wantUnregister key n []) b = .wantUnregister key n [] := upd_same _ _ _
  refine ⟨_, r2, ⟨k, n, m, ?_, hch, ?_⟩, e2⟩
  · exact (upd_other _ _ (Ne.symm hbk)).trans (upd_same _ _ _)
  · intro u key' got hu
    have h1 := ((C50_only_answers _ (hT.trans r2.run) b).1 key n [] (.inr (.inl e2))).2.2 u key' got (.inl hu)
    subst h1
    exact nomatch e2.symm.trans hu

/-- There are always goroutines left for datagrams. -/
theorem DmRun.room {c : Cat} {fs : FS} {s : Daemon} {tr : List (DmEv × Option Out × DmSys)} (h : DmRun env d port (.fresh c fs) tr (.alive s)) : ∃ n, ∀ k, n ≤ k → s.handlers k = none := by
  suffices key : ∀ x, DmRun env d port (.fresh c fs) tr x → ∀ s, x = .alive s → ∃ n, ∀ k, n ≤ k → s.handlers k = none from key _ h s rfl
  intro x hx
  clear h
  induction hx with
  | refl => rintro s hs; cases hs; exact ⟨0, fun _ _ => rfl⟩
  | @step tr s1 x e o h1 hst ih =>
    rintro s rfl
    obtain ⟨n, hn⟩ := ih s1 rfl
    have put : ∀ t hd, ∃ n, ∀ k, n ≤ k → upd s1.handlers t (some hd) k = none := fun t hd => ⟨n + t + 1, fun k hk => by rw [upd_other _ _ (by omega)]; exact hn k (by omega)⟩
    cases hst with
    | loop | garbage | uploads | sees | discovery => exact ⟨n, hn⟩
    | _ => exact put _ _

/-- A download that searches has its request in the table, and nothing has come yet. -/
structure Waits (s : Linked) (t b n : Nat) (i : UInt16) : Prop where
  link : s.link t = some ⟨b, i, false⟩
  collects : s.dm.table.threads b = .collecting ⟨i, 1⟩ n []
  free : s.dm.table.locked = false
  map : s.dm.table.resMap ⟨i, 1⟩ = some n
  empty : s.dm.table.chans n = []

theorem registers {c : Cat} {fs : FS} {tr : List (DmEv × Option Out × DmSys)} {s : Linked} (hrun : LinkRun env d port (.fresh c fs) tr s) {t : Nat} {th : DLThread}
    (ht : s.dm.loop.threads t = some th) (hp : th.pos.searches) (hl : ∀ x, s.link t = some x → x.over = true) (hfree : s.dm.table.locked = false) :
    ∃ tr' s' b n, LinkRun env d port s tr' s' ∧ s'.dm.loop = s.dm.loop ∧ s'.dm.handlers = s.dm.handlers ∧ Waits s' t b n (generateRequestID s.dm.table.reqID).1 ∧
      s'.dm.table.reqID = (generateRequestID s.dm.table.reqID).2 := by
  obtain ⟨b, hb⟩ := hrun.daemon.table.room
  have hb := hb b (Nat.le_refl b)
  have a1 := LinkRun.step (env := env) (d := d) (port := port) (.refl (s0 := s)) (.begins s t b th _ ht hp hl hb rfl)
  generalize hs1 : Linked.mk _ (upd s.link t _) = s1 at a1
  have f1 : s1.dm.table.threads b = .wantRegister ⟨(generateRequestID s.dm.table.reqID).1, 1⟩ := by subst hs1; exact upd_same _ _ _
  have f3 : s1.dm.table.locked = false := by subst hs1; exact hfree
  have f4 : s1.dm.handlers = s.dm.handlers := by subst hs1; rfl
  have f5 : s1.dm.loop = s.dm.loop := by subst hs1; rfl
  have f6 : s1.link t = some ⟨b, (generateRequestID s.dm.table.reqID).1, false⟩ := by subst hs1; exact upd_same _ _ _
  have f7 : s1.dm.table.reqID = (generateRequestID s.dm.table.reqID).2 := by subst hs1; rfl
  clear hs1
  have q := (TQuiet.refl s1.dm.table).step b (.register _ _ f1 f3) (by rw [f1]; nofun)
  obtain ⟨tr2, a2⟩ := quiet_link (env := env) (d := d) (port := port) (hrun.trans a1).daemon.table q
  exact ⟨_, _, b, _, a1.trans a2, f5, f4, ⟨f6, upd_same _ _ _, f3, upd_same _ _ _, upd_same _ _ _⟩, f7⟩

/-- A datagram arrives that answers a request, and a goroutine is about to deliver it. -/
theorem arrives_link {c : Cat} {fs : FS} {tr : List (DmEv × Option Out × DmSys)} {s : Linked} (hrun : LinkRun env d port (.fresh c fs) tr s) (dg : Bytes) (ret : Addr) (r : HostResp)
    (hparse : parse (udpBuffer dg) = .ok (.discoverResp r.reqID r.addr r.port r.chunks)) :
    ∃ tr' s' k, LinkRun env d port s tr' s' ∧ s'.dm.loop = s.dm.loop ∧ s'.link = s.link ∧ s.dm.table.threads k = .idle ∧
      s'.dm.table = { s.dm.table with threads := upd s.dm.table.threads k (.wantDeliver ⟨r.reqID, 1⟩ (.discoverResp r.reqID r.addr r.port r.chunks)) } := by
  obtain ⟨k, hk⟩ := hrun.daemon.table.room
  have hk := hk k (Nat.le_refl k)
  obtain ⟨j, hj⟩ := hrun.daemon.room
  have hj := hj j (Nat.le_refl j)
  have a3 := LinkRun.step (env := env) (d := d) (port := port) (.refl (s0 := s)) (.other _ _ none _ (.arrives _ j dg ret _ hj hparse) nofun)
  have a4 := a3.step (.other _ (.handler j) none _ (.delivers _ j k _ _ r.reqID _ (upd_same _ _ _) rfl (.inl rfl) rfl hk rfl) nofun)
  exact ⟨_, _, k, a4, rfl, rfl, hk, rfl⟩

theorem answered {c : Cat} {fs : FS} {tr : List (DmEv × Option Out × DmSys)} {s : Linked} (hrun : LinkRun env d port (.fresh c fs) tr s) {t : Nat} {th : DLThread}
    (ht : s.dm.loop.threads t = some th) (hp : th.pos.searches) (hl : ∀ x, s.link t = some x → x.over = true) (hfree : s.dm.table.locked = false)
    (dg : Bytes) (ret : Addr) (r : HostResp) (hparse : parse (udpBuffer dg) = .ok (.discoverResp r.reqID r.addr r.port r.chunks))
    (hid : r.reqID = (generateRequestID s.dm.table.reqID).1) :
    ∃ tr' s' b n, LinkRun env d port s tr' s' ∧ s'.dm.loop = s.dm.loop ∧ s'.link t = some ⟨b, r.reqID, false⟩ ∧
      s'.dm.table.threads b = .returned ⟨r.reqID, 1⟩ n [.discoverResp r.reqID r.addr r.port r.chunks] ∧ s'.dm.table.locked = false ∧ s'.dm.table.reqID = (generateRequestID s.dm.table.reqID).2 := by
  obtain ⟨tr1, s1, b, n, h1, h2, -, hw, h3⟩ := registers hrun ht hp hl hfree
  rw [← hid] at hw
  obtain ⟨tr2, s2, k, h4, h5, h6, h7, h8⟩ := arrives_link (hrun.trans h1) dg ret r hparse
  have hbk : b ≠ k := by rintro rfl; rw [hw.collects] at h7; cases h7
  obtain ⟨T, q, g1, g2, g3⟩ := quiet_answer (T := s2.dm.table) (b := b) (k := k) (n := n) (key := ⟨r.reqID, 1⟩) (m := .discoverResp r.reqID r.addr r.port r.chunks)
    (by rw [h8]; exact (upd_other _ _ hbk).trans hw.collects) (by rw [h8]; exact upd_same _ _ _) (by rw [h8]; exact hw.free) (by rw [h8]; exact hw.map) (by rw [h8]; exact hw.empty) rfl
  obtain ⟨tr3, h9⟩ := quiet_link (env := env) (d := d) (port := port) (hrun.trans (h1.trans h4)).daemon.table q
  refine ⟨_, _, b, n, (h1.trans h4).trans h9, h5.trans h2, by rw [h6]; exact hw.link, g1, g2, ?_⟩
  rw [← h3]
  exact g3.trans (by rw [h8])

/-- C122: and any answer will do: whoever sends a datagram, from wherever, that answers the search of a download by its identifier, has the download turn to the host that the datagram names,
at the port that it names, if it names a chunk, any chunk, and not the download's own address. -/
theorem C122_any {c : Cat} {fs : FS} {tr : List (DmEv × Option Out × DmSys)} {s : Linked} (hrun : LinkRun env d port (.fresh c fs) tr s) (t : Nat) (th : DLThread) (own : ByteArr 4)
    (chunk : UInt16) (ht : s.dm.loop.threads t = some th) (hp : th.pos = .search own chunk) (hl : ∀ x, s.link t = some x → x.over = true) (hfree : s.dm.table.locked = false)
    (dg : Bytes) (ret : Addr) (r : HostResp) (hparse : parse (udpBuffer dg) = .ok (.discoverResp r.reqID r.addr r.port r.chunks))
    (hid : r.reqID = (generateRequestID s.dm.table.reqID).1) (hchunks : r.chunks ≠ []) (hown : r.addr ≠ own) :
    ∃ tr' s', LinkRun env d port s tr' s' ∧ s'.dm.loop.threads t = some { th with pos := .hosts own chunk [r] } := by
  obtain ⟨tr', s', b, n, h1, h2, h3, h4, -⟩ := answered hrun ht (by rw [hp]; trivial) hl hfree dg ret r hparse hid
  refine ⟨_, _, h1.step (.finds s' t th own chunk _ _ _ _ [r] (by rw [h2]; exact ht) hp h3 rfl h4 rfl), (upd_same _ _ _).trans ?_⟩
  have : goodHosts own [r] = [r] := by simp [goodHosts, hchunks, hown]
  rw [this]

/-- C122: but two answers that come as its time is over stop it for ever, and with it every download that searches later: whoever can send two datagrams to the daemon can stop all its
downloads. -/
theorem C122_stopped {c : Cat} {fs : FS} {tr : List (DmEv × Option Out × DmSys)} {s : Linked} (hrun : LinkRun env d port (.fresh c fs) tr s) (t : Nat) (th : DLThread)
    (ht : s.dm.loop.threads t = some th) (hp : th.pos.searches) (hl : ∀ x, s.link t = some x → x.over = true) (hfree : s.dm.table.locked = false)
    (dg dg' : Bytes) (ret ret' : Addr) (r r' : HostResp) (hparse : parse (udpBuffer dg) = .ok (.discoverResp r.reqID r.addr r.port r.chunks))
    (hparse' : parse (udpBuffer dg') = .ok (.discoverResp r'.reqID r'.addr r'.port r'.chunks)) (hid : r.reqID = (generateRequestID s.dm.table.reqID).1) (hid' : r'.reqID = r.reqID) :
    ∃ tr' s', LinkRun env d port s tr' s' ∧ Wedged s'.dm.table ∧ s'.dm.loop.threads t = some th ∧ NoResult s' t := by
  obtain ⟨tr1, s1, b, n, h1, h2, -, hw, -⟩ := registers hrun ht hp hl hfree
  rw [← hid] at hw
  obtain ⟨tr2, s2, k, h4, h5, h6, h7, h8⟩ := arrives_link (hrun.trans h1) dg ret r hparse
  have hbk : b ≠ k := by rintro rfl; rw [hw.collects] at h7; cases h7
  obtain ⟨T, q, g1, g2, g3, g4⟩ := quiet_first (T := s2.dm.table) (b := b) (k := k) (n := n) (key := ⟨r.reqID, 1⟩) (m := .discoverResp r.reqID r.addr r.port r.chunks)
    (by rw [h8]; exact (upd_other _ _ hbk).trans hw.collects) (by rw [h8]; exact upd_same _ _ _) (by rw [h8]; exact hw.free) (by rw [h8]; exact hw.map) (by rw [h8]; exact hw.empty)
  obtain ⟨tr3, h9⟩ := quiet_link (env := env) (d := d) (port := port) (hrun.trans (h1.trans h4)).daemon.table q
  have r3 := (h1.trans h4).trans h9
  obtain ⟨tr4, s4, k', j4, j5, j6, j7, j8⟩ := arrives_link (hrun.trans r3) dg' ret' r' hparse'
  have j7 : T.threads k' = .idle := j7
  have hbk' : b ≠ k' := by rintro rfl; rw [g1] at j7; cases j7
  have r4 := r3.trans j4
  obtain ⟨T5, q5, w1, w2⟩ := quiet_wedge (T := s4.dm.table) (b := b) (k := k') (n := n) (key := ⟨r.reqID, 1⟩) (m := .discoverResp r'.reqID r'.addr r'.port r'.chunks) (hrun.trans r4).daemon.table
    (by rw [j8]; exact (upd_other _ _ hbk').trans g1) (by rw [j8, ← hid']; exact upd_same _ _ _) (by rw [j8]; exact g2) (by rw [j8]; exact g3) (by rw [j8]; exact g4)
  obtain ⟨tr5, h10⟩ := quiet_link (env := env) (d := d) (port := port) (hrun.trans r4).daemon.table q5
  refine ⟨_, _, r4.trans h10, w1, ?_, ?_⟩
  · rw [← ht, ← h2, ← h5, show s2.dm.loop = s4.dm.loop from j5.symm]
  · intro x hx ho key ch got hk
    have hx : s4.link t = some x := hx
    rw [j6] at hx
    have hx : s2.link t = some x := hx
    rw [h6, hw.link] at hx
    cases hx
    have hk : T5.threads b = _ := hk
    rw [w2] at hk
    cases hk

/-! ## A download in a daemon -/

/-- The answer of a host with the file, to request `i`. -/
def exAnswer (i : UInt16) : HostResp := ⟨i, ⟨[10, 0, 0, 2], rfl⟩, 61696, [0, 2]⟩

theorem ex_answer (i : UInt16) : parse (udpBuffer ((Msg.discoverResp i (exAnswer i).addr (exAnswer i).port (exAnswer i).chunks).serialize ++ [])) =
    .ok (.discoverResp (exAnswer i).reqID (exAnswer i).addr (exAnswer i).port (exAnswer i).chunks) := by
  exact parse_buffer (.discoverResp i _ _ _) (show [0, 2].length ≤ 255 by decide) (by simp [Msg.serialize, exAnswer, put16, serializeChunks]) []

theorem LinkRun.download {s0 s : Linked} {tr : List (DmEv × Option Out × DmSys)} (h : LinkRun env d port s0 tr s) {t : Nat} {l : DLState} (hs : DLStep env d (.thread t) s.dm.loop (.alive l))
    (hno : ∀ th, s.dm.loop.threads t = some th → ¬ th.pos.searches) : ∃ tr', LinkRun env d port s0 tr' ⟨{ s.dm with loop := l }, s.link⟩ :=
  ⟨_, h.step (.other s (.loop (.thread t)) none { s.dm with loop := l } (.loop s.dm _ l hs) (by intro u th hu hth; cases hu; exact hno th hth))⟩

/-- A daemon in which a file is being downloaded: the download has found a host in its first search, and is about to search for hosts for its first chunk. -/
theorem ex_searching (sha1 : Bytes → Sha1Hash) (json : JsonCodec) (h : Sha1Hash) : ∃ c fs tr s th chunk, LinkRun (exEnv sha1 json) exDir 61696 (.fresh c fs) tr s ∧
    s.dm.loop.threads 1 = some th ∧ th.pos = .search exOwn chunk ∧ (∀ x, s.link 1 = some x → x.over = true) ∧ s.dm.table.locked = false ∧ s.dm.table.reqID = 1 := by
  have hh := ex_healthy sha1 json
  obtain ⟨s0, e, hr, -, hmiss⟩ := ex_ready sha1 json h (fun t => if t = 1 then some ⟨h, .test exOwn, []⟩ else none) rfl
  obtain ⟨known, st, k1, k2, k3, k4, k5, k6⟩ := startCheck_clean hh hr.clean h
  have hknown : known = true := by
    rcases k6 with ⟨k, -⟩ | ⟨-, k⟩
    · exact k
    · rw [hr.obs] at k; cases k
  subst hknown
  have ho : observe st.cat st.fs h = .ok e := by rw [k5, hr.obs]
  -- the command, up to its search
  obtain ⟨tr1, a1⟩ := LinkRun.download (env := exEnv sha1 json) (d := exDir) (port := 61696) (.refl (s0 := .fresh s0.cat s0.fs)) (.start 1 h _ rfl) nofun
  have p1 : ∀ th, upd (fun _ : Nat => (none : Option DLThread)) 1 (some ⟨h, .check, []⟩) 1 = some th → ¬ th.pos.searches := by
    intro th hth; rw [upd_same] at hth; cases hth; exact id
  obtain ⟨tr2, a2⟩ := a1.download (.check 1 _ ⟨h, .check, []⟩ [] true st rfl rfl k1) p1
  -- its search
  obtain ⟨tr3, s3, b, n, a3, e1, e2, e3, e4, e5⟩ := answered (t := 1) (th := ⟨h, .setup true, []⟩) a2 rfl trivial nofun rfl _ ⟨.exact [10, 0, 0, 2], 61696⟩ (exAnswer 0) (ex_answer 0) rfl
  have a3 := a2.trans a3
  have hs3 : s3.dm.loop.threads 1 = some ⟨h, .setup true, []⟩ := by rw [e1]; rfl
  have hc3 : s3.dm.loop.cat = st.cat ∧ s3.dm.loop.fs = st.fs := by rw [e1]; exact ⟨rfl, rfl⟩
  obtain ⟨c1, c2⟩ := hc3
  have a4 := a3.step (.sets s3 1 ⟨h, .setup true, []⟩ true _ _ _ _ ⟨some [[10, 0, 0, 1]], some [exAnswer 0], fun _ => .silence⟩ [exAnswer 0] [] exOwn ⟨st.cat, st.fs, []⟩ hs3 rfl e2 rfl e3 rfl rfl
    (by rw [c1, c2]; rfl))
  -- the goroutine, up to its search
  obtain ⟨⟨v, st1, q1⟩, -⟩ := C34_total hh k3 h e ho
  have hv : v = false := by
    cases v with
    | false => rfl
    | true =>
      obtain ⟨e', g1, g2, -⟩ := C34_complete hh k3.reach h [] true st1 q1
      rw [ho] at g1
      cases g1
      have h0 : 0 ∈ missingList e := by rw [hmiss]; decide
      obtain ⟨m1, m2⟩ := (mem_missingList e 0).1 h0
      exact absurd (g2.1 rfl 0 (by omega)) m2
  subst hv
  have k7 := k3.returns (.complete h) trivial st1 (.inl (CM.void_ok _ _ _ _ q1))
  have ho1 : observe st1.cat st1.fs h = .ok e := by
    obtain ⟨e', g1, -, -, g2⟩ := C34_complete hh k3.reach h [] false st1 q1
    rw [g2, ho]
  obtain ⟨rs, st2, q2⟩ := (C34_total hh k7 h e ho1).2 hr.size
  have hrs : rs ≠ [] := by
    rintro rfl
    obtain ⟨e', g1, -, -, g2⟩ := C34_missing hh k7.reach h [] [] st2 q2
    rw [ho1] at g1
    cases g1
    have h0 : 0 ∈ missingList e := by rw [hmiss]; decide
    obtain ⟨m1, m2⟩ := (mem_missingList e 0).1 h0
    exact absurd ((g2 hr.size).2.1.1 rfl 0 (by omega)) m2
  obtain ⟨r, rest, rfl⟩ := List.exists_cons_of_ne_nil hrs
  have p4 : ∀ th, upd s3.dm.loop.threads 1 (some ⟨h, .test exOwn, []⟩) 1 = some th → ¬ th.pos.searches := by
    intro th hth; rw [upd_same] at hth; cases hth; exact id
  obtain ⟨tr5, a5⟩ := a4.download (.test 1 _ ⟨h, .test exOwn, []⟩ [] exOwn false st1 rfl rfl q1) p4
  have p5 : ∀ th, upd (upd s3.dm.loop.threads 1 (some ⟨h, .test exOwn, []⟩)) 1 (some ⟨h, .want exOwn, []⟩) 1 = some th → ¬ th.pos.searches := by
    intro th hth; rw [upd_same] at hth; cases hth; exact id
  obtain ⟨tr6, a6⟩ := a5.download (.want 1 _ ⟨h, .want exOwn, []⟩ [] exOwn r rest st2 rfl rfl q2) p5
  refine ⟨_, _, tr6, _, _, r.start, a6, rfl, rfl, ?_, e4, e5⟩
  intro x hx
  have hx := (upd_same s3.link 1 (some ⟨b, 0, true⟩)).symm.trans hx
  cases hx
  rfl

/-- `C122_hosts`: the download turns to the host that has answered. -/
example (sha1 : Bytes → Sha1Hash) (json : JsonCodec) (h : Sha1Hash) : ∃ c fs tr s th, LinkRun (exEnv sha1 json) exDir 61696 (.fresh c fs) tr s ∧ s.dm.loop.threads 1 = some th ∧
    turnsTo th.pos = [exAnswer 1] := by
  obtain ⟨c, fs, tr, s, th, chunk, h1, h2, h3, h4, h5, h6⟩ := ex_searching sha1 json h
  obtain ⟨tr', s', g1, g2⟩ := C122_any h1 1 th exOwn chunk h2 h3 h4 h5 _ ⟨.exact [10, 0, 0, 9], 1⟩ (exAnswer 1) (ex_answer 1) (by rw [h6]; rfl) (by decide) (by decide)
  exact ⟨c, fs, _, s', _, h1.trans g1, g2, rfl⟩

/-- `C122_wedged`, `C122_stopped`: two answers at the end of the search, and the download searches for ever. -/
example (sha1 : Bytes → Sha1Hash) (json : JsonCodec) (h : Sha1Hash) : ∃ c fs tr s th, LinkRun (exEnv sha1 json) exDir 61696 (.fresh c fs) tr s ∧ Wedged s.dm.table ∧
    s.dm.loop.threads 1 = some th ∧ th.pos.searches ∧ NoResult s 1 := by
  obtain ⟨c, fs, tr, s, th, chunk, h1, h2, h3, h4, h5, h6⟩ := ex_searching sha1 json h
  obtain ⟨tr', s', g1, g2, g3, g4⟩ := C122_stopped h1 1 th h2 (by rw [h3]; trivial) h4 h5 _ _ ⟨.exact [10, 0, 0, 9], 1⟩ ⟨.exact [10, 0, 0, 9], 1⟩ (exAnswer 1) (exAnswer 1) (ex_answer 1) (ex_answer 1)
    (by rw [h6]; rfl) rfl
  exact ⟨c, fs, _, s', th, h1.trans g1, g2, g3, by rw [h3]; trivial, g4⟩

end Flu
