import Verif.Spec.Locks
/-!
# Locks and shared tables: the daemon ended by the Go runtime, and goroutines waiting for each other
-/
namespace Flu

/-- An order in which locks are taken. -/
def Mutex.rank : Mutex → Nat
  | .transfer => 0
  | .cat | .reqID | .resMap => 1
  | .progress => 2

/-- All of them. -/
def Mutex.all : List Mutex := [.cat, .progress, .reqID, .resMap, .transfer]

theorem Mutex.mem_all (m : Mutex) : m ∈ Mutex.all := by cases m <;> simp [Mutex.all]

/-- From `own` on, locks are taken in order, given back only by their owner and all given back in the end, and the tables that `g` puts under a lock are used only
while holding it. -/
def okFrom (g : MapTab → Option Mutex) : (Mutex → Bool) → List LAct → Bool
  | own, [] => Mutex.all.all fun m => !own m
  | own, .lock m :: rest => (Mutex.all.all fun k => !own k || decide (k.rank < m.rank)) && okFrom g (fun k => if k = m then true else own k) rest
  | own, .unlock m :: rest => own m && okFrom g (fun k => if k = m then false else own k) rest
  | own, .get t :: rest => (match g t with | none => true | some m => own m) && okFrom g own rest
  | own, .put t :: rest => (match g t with | none => true | some m => own m) && okFrom g own rest

/-- Nothing held. -/
def noLocks : Mutex → Bool := fun _ => false

theorem okFrom_nil {g own} (h : okFrom g own [] = true) : own = noLocks := by
  funext m
  have := List.all_eq_true.1 h m (Mutex.mem_all m)
  simpa [noLocks] using this

theorem okFrom_append {g : MapTab → Option Mutex} {b : List LAct} (hb : okFrom g noLocks b = true) :
    ∀ {a : List LAct} {own : Mutex → Bool}, okFrom g own a = true → okFrom g own (a ++ b) = true
  | [], own, h => by rw [okFrom_nil h]; exact hb
  | .lock m :: a, own, h => by
    simp only [okFrom, Bool.and_eq_true, List.cons_append] at h ⊢
    exact ⟨h.1, okFrom_append hb h.2⟩
  | .unlock m :: a, own, h => by
    simp only [okFrom, Bool.and_eq_true, List.cons_append] at h ⊢
    exact ⟨h.1, okFrom_append hb h.2⟩
  | .get m :: a, own, h => by
    simp only [okFrom, Bool.and_eq_true, List.cons_append] at h ⊢
    exact ⟨h.1, okFrom_append hb h.2⟩
  | .put m :: a, own, h => by
    simp only [okFrom, Bool.and_eq_true, List.cons_append] at h ⊢
    exact ⟨h.1, okFrom_append hb h.2⟩

/-! ### The invariant -/

/-- What `i` holds. -/
def LWorld.own (w : LWorld) (i : Nat) : Mutex → Bool := fun m => decide (w.held m = some i)

/-- Every goroutine follows the rules with the locks it really holds. -/
structure LInv (g : MapTab → Option Mutex) (w : LWorld) : Prop where
  ok : ∀ i, okFrom g (w.own i) (w.threads i).rest = true
  fin : ∃ n, ∀ i, n ≤ i → w.threads i = ⟨[], false⟩
  mid : ∀ i, (w.threads i).inside = true → ∃ t rest, (w.threads i).rest = .get t :: rest ∨ (w.threads i).rest = .put t :: rest

theorem mid_out {w : LWorld} {i : Nat} {l : List LAct}
    (h : ∀ i, (w.threads i).inside = true → ∃ t rest, (w.threads i).rest = .get t :: rest ∨ (w.threads i).rest = .put t :: rest) :
    ∀ j, ((w.set i ⟨l, false⟩).threads j).inside = true →
      ∃ t rest, ((w.set i ⟨l, false⟩).threads j).rest = .get t :: rest ∨ ((w.set i ⟨l, false⟩).threads j).rest = .put t :: rest := by
  intro j hj
  by_cases hji : j = i
  · subst hji; simp [LWorld.set] at hj
  · have he : (w.set i ⟨l, false⟩).threads j = w.threads j := by simp [LWorld.set, hji]
    rw [he] at hj ⊢
    exact h j hj

theorem LWorld.set_self (w : LWorld) (i : Nat) (x : LThread) : (w.set i x).threads i = x := by simp [LWorld.set]
theorem LWorld.set_other {w : LWorld} {i j : Nat} {x : LThread} (h : j ≠ i) : (w.set i x).threads j = w.threads j := by simp [LWorld.set, h]

theorem fin_set {w : LWorld} {i : Nat} {x : LThread} (h : ∃ n, ∀ j, n ≤ j → w.threads j = ⟨[], false⟩) :
    ∃ n, ∀ j, n ≤ j → (w.set i x).threads j = ⟨[], false⟩ := by
  obtain ⟨n, hn⟩ := h
  refine ⟨max n (i + 1), fun j hj => ?_⟩
  have h1 := Nat.le_trans (Nat.le_max_left n (i + 1)) hj
  have h2 := Nat.le_trans (Nat.le_max_right n (i + 1)) hj
  rw [LWorld.set_other (by omega)]
  exact hn j h1

theorem linv_start (g) : LInv g LWorld.start := by
  refine ⟨fun i => ?_, ⟨0, fun i _ => rfl⟩, fun i h => by cases h⟩
  show okFrom g (fun m => decide ((none : Option Nat) = some i)) [] = true
  simp [okFrom]

theorem linv_step {g : MapTab → Option Mutex} {P : List LAct → Prop} (hP : ∀ l, P l → okFrom g noLocks l = true) {w w' : LWorld} (hinv : LInv g w)
    (hs : LkStep P w (.alive w')) : LInv g w' := by
  cases hs with
  | start i l hp hi =>
    refine ⟨fun j => ?_, fin_set hinv.fin, mid_out hinv.mid⟩
    by_cases hj : j = i
    · subst hj
      have h0 := hinv.ok j
      rw [hi] at h0
      rw [LWorld.set_self]
      show okFrom g (w.own j) l = true
      rw [okFrom_nil h0]
      exact hP l hp
    · rw [LWorld.set_other hj]; exact hinv.ok j
  | lock i m rest hi hm =>
    refine ⟨fun j => ?_, fin_set hinv.fin, mid_out hinv.mid⟩
    by_cases hj : j = i
    · subst hj
      have h0 := hinv.ok j
      rw [hi] at h0
      simp only [okFrom, Bool.and_eq_true] at h0
      show okFrom g _ ((w.set j ⟨rest, false⟩).threads j).rest = true
      rw [LWorld.set_self]
      refine Eq.trans (congrArg (fun o => okFrom g o rest) (funext fun k => ?_)) h0.2
      show decide ((if k = m then some j else w.held k) = some j) = _
      by_cases hk : k = m
      · simp [hk]
      · simp [hk, LWorld.own]
    · show okFrom g _ ((w.set i ⟨rest, false⟩).threads j).rest = true
      rw [LWorld.set_other hj]
      refine Eq.trans (congrArg (fun o => okFrom g o _) (funext fun k => ?_)) (hinv.ok j)
      show decide ((if k = m then some i else w.held k) = some j) = decide (w.held k = some j)
      by_cases hk : k = m
      · subst hk; simp [hm, Ne.symm hj]
      · simp [hk]
  | unlock i m rest hi hm =>
    have h0 := hinv.ok i
    rw [hi] at h0
    simp only [okFrom, Bool.and_eq_true] at h0
    have hmi : w.held m = some i := by simpa [LWorld.own] using h0.1
    refine ⟨fun j => ?_, fin_set hinv.fin, mid_out hinv.mid⟩
    by_cases hj : j = i
    · subst hj
      show okFrom g _ ((w.set j ⟨rest, false⟩).threads j).rest = true
      rw [LWorld.set_self]
      refine Eq.trans (congrArg (fun o => okFrom g o rest) (funext fun k => ?_)) h0.2
      show decide ((if k = m then none else w.held k) = some j) = _
      by_cases hk : k = m
      · simp [hk]
      · simp [hk, LWorld.own]
    · show okFrom g _ ((w.set i ⟨rest, false⟩).threads j).rest = true
      rw [LWorld.set_other hj]
      refine Eq.trans (congrArg (fun o => okFrom g o _) (funext fun k => ?_)) (hinv.ok j)
      show decide ((if k = m then none else w.held k) = some j) = decide (w.held k = some j)
      by_cases hk : k = m
      · subst hk; simp [hmi, Ne.symm hj]
      · simp [hk]
  | enter i a t rest ha hi hw =>
    refine ⟨fun j => ?_, fin_set hinv.fin, fun j hj => ?_⟩
    by_cases hj : j = i
    · subst hj
      have h0 := hinv.ok j
      rw [hi] at h0
      rw [LWorld.set_self]
      exact h0
    · rw [LWorld.set_other hj]; exact hinv.ok j
    · by_cases hji : j = i
      · subst hji
        rw [LWorld.set_self]
        rcases ha with rfl | rfl
        · exact ⟨t, rest, .inl rfl⟩
        · exact ⟨t, rest, .inr rfl⟩
      · rw [LWorld.set_other hji] at hj ⊢
        exact hinv.mid j hj
  | leave i a rest hi =>
    refine ⟨fun j => ?_, fin_set hinv.fin, mid_out hinv.mid⟩
    by_cases hj : j = i
    · subst hj
      have h0 := hinv.ok j
      obtain ⟨t, r, hr⟩ := hinv.mid j (by rw [hi])
      rw [hi] at h0 hr
      rw [LWorld.set_self]
      rcases hr with hr | hr <;> cases hr <;> simp only [okFrom, Bool.and_eq_true] at h0 <;> exact h0.2
    · rw [LWorld.set_other hj]; exact hinv.ok j

theorem linv_run {g : MapTab → Option Mutex} {P : List LAct → Prop} (hP : ∀ l, P l → okFrom g noLocks l = true) {w : LWorld} {o : LOutcome}
    (hr : LkRun P w o) : ∀ w', o = .alive w' → LInv g w → LInv g w' := by
  induction hr with
  | refl => rintro w' ⟨⟩ h; exact h
  | step h hs ih => rintro w' rfl hi; exact linv_step hP (ih _ rfl hi) hs

theorem LInv.of_run {g : MapTab → Option Mutex} {P : List LAct → Prop} (hP : ∀ l, P l → okFrom g noLocks l = true) {w : LWorld}
    (hr : LkRun P LWorld.start (.alive w)) : LInv g w := linv_run hP hr w rfl (linv_start g)

/-- Who uses a table that `g` puts under a lock holds the lock. -/
theorem LInv.holds {g : MapTab → Option Mutex} {w : LWorld} (h : LInv g w) {i : Nat} {t : MapTab} {m : Mutex} (hg : g t = some m) {a : LAct} {rest : List LAct}
    (ha : a = .get t ∨ a = .put t) (hi : (w.threads i).rest = a :: rest) : w.held m = some i := by
  have h0 := h.ok i
  rw [hi] at h0
  rcases ha with rfl | rfl <;> simp only [okFrom, hg, Bool.and_eq_true] at h0 <;> simpa [LWorld.own] using h0.1

theorem using_rest {x : LThread} {t : MapTab} {b : Bool} (h : x.using = some (t, b)) :
    ∃ rest, x.rest = (if b then .put t else .get t) :: rest := by
  unfold LThread.using at h
  split at h
  · split at h
    · cases h; exact ⟨_, by assumption⟩
    · cases h; exact ⟨_, by assumption⟩
    · cases h
  · cases h

theorem LInv.uses_holds {g : MapTab → Option Mutex} {w : LWorld} (h : LInv g w) {i : Nat} {t : MapTab} {b : Bool} {m : Mutex} (hg : g t = some m)
    (hu : (w.threads i).using = some (t, b)) : w.held m = some i := by
  obtain ⟨rest, hr⟩ := using_rest hu
  refine h.holds hg ?_ hr
  cases b
  · exact .inl rfl
  · exact .inr rfl

/-- No race on a table under a lock, and no end of the process because of it. -/
theorem LInv.noRace {g : MapTab → Option Mutex} {w : LWorld} (h : LInv g w) {t : MapTab} {m : Mutex} (hg : g t = some m) : ¬ Spec.Race w t := by
  rintro ⟨i, j, hne, h1, b, h2⟩
  have e1 := h.uses_holds hg h1
  have e2 := h.uses_holds hg h2
  rw [e1] at e2
  exact hne (Option.some.inj e2)

theorem LInv.noThrow {g : MapTab → Option Mutex} {P : List LAct → Prop} {w : LWorld} (h : LInv g w) {t : MapTab} {m : Mutex} (hg : g t = some m) :
    ¬ LkStep P w (.dead t) := by
  intro hs
  cases hs with
  | throw i a _ rest ha hi hw =>
    obtain ⟨j, hne, hj⟩ := hw
    have e1 := h.holds hg ha (by rw [hi])
    have e2 := h.uses_holds hg hj
    rw [e1] at e2
    exact hne (Option.some.inj e2).symm

theorem LInv.noBadUnlock {g : MapTab → Option Mutex} {P : List LAct → Prop} {w : LWorld} (h : LInv g w) {m : Mutex} : ¬ LkStep P w (.badUnlock m) := by
  intro hs
  cases hs with
  | unlockFree i _ rest hi hm =>
    have h0 := h.ok i
    rw [hi] at h0
    simp only [okFrom, Bool.and_eq_true] at h0
    have : w.held m = some i := by simpa [LWorld.own] using h0.1
    rw [hm] at this
    cases this

/-! ### Everything the daemon runs follows the rules -/

/-- The tables that are always used under a lock. -/
def daemonGuard : MapTab → Option Mutex
  | .resMap => some .resMap
  | .downloads => some .transfer
  | .index | .uploads => none

theorem ok_catWrites {g : MapTab → Option Mutex} (hg : g .index = none ∨ g .index = some .cat) {l : List LAct} (h : CatWrites l) : okFrom g noLocks l = true := by
  rcases hg with hg | hg <;> cases h <;> simp [okFrom, locked, hg, noLocks, Mutex.all]

theorem ok_hosts {l : List LAct} (h : HostActs l) : okFrom daemonGuard noLocks l = true := by
  induction h with
  | nil => rfl
  | busy rest h ih => exact okFrom_append ih (by decide)
  | gaveUp rest h ih => exact okFrom_append ih (by decide)
  | saved rest h ih => exact okFrom_append ih (by decide)

theorem ok_download {l : List LAct} (h : DownloadActs l) : okFrom daemonGuard noLocks l = true := by
  induction h with
  | complete => decide
  | round hosts rest hh h ih => exact okFrom_append ih (okFrom_append (ok_hosts hh) (by decide))

theorem ok_clean {l : List LAct} (h : CleanActs l) : okFrom daemonGuard noLocks l = true := by
  induction h with
  | nil => rfl
  | keep rest h ih => exact okFrom_append ih (by decide)
  | drop w rest hw h ih => exact okFrom_append ih (okFrom_append (ok_catWrites (.inl rfl) hw) (by decide))

theorem ok_daemon {l : List LAct} (h : DaemonActs l) : okFrom daemonGuard noLocks l = true := by
  cases h with
  | handler h => cases h <;> decide
  | download h => exact ok_download h
  | command h =>
    cases h with
    | share => exact ok_catWrites (.inl rfl) (by assumption)
    | clean l hl => exact okFrom_append (ok_clean hl) (by decide)
    | getNew w hw => exact okFrom_append (ok_catWrites (.inl rfl) hw) (by decide)
    | _ => decide



/-! ### C82: the runtime ends the process when a map is used while another goroutine changes it -/

/-- **C82, as one would like it.**  The daemon is never ended because two goroutines used the same map at the same time. -/
def C82_statement : Prop := ∀ t, ¬ LkRun DaemonActs LWorld.start (.dead t)

theorem LkRun.inv_dead {g : MapTab → Option Mutex} {P : List LAct → Prop} (hP : ∀ l, P l → okFrom g noLocks l = true) {t : MapTab} {m : Mutex} (hg : g t = some m) :
    ¬ LkRun P LWorld.start (.dead t) := by
  intro h
  cases h with
  | step hr hs => exact (LInv.of_run hP hr).noThrow hg hs

/-- **C82, the part that holds.**  Responses and downloads: whatever goroutines run, at most one of them uses these tables at a time, and the runtime never ends the process
because of them. -/
theorem C82_partial :
    (∀ t, LkRun DaemonActs LWorld.start (.dead t) → t = .index ∨ t = .uploads) ∧
    (∀ w, LkRun DaemonActs LWorld.start (.alive w) → ¬ Spec.Race w .resMap ∧ ¬ Spec.Race w .downloads) := by
  refine ⟨fun t h => ?_, fun w h => ?_⟩
  · cases t with
    | index => exact .inl rfl
    | uploads => exact .inr rfl
    | resMap => exact absurd h (LkRun.inv_dead (fun l => ok_daemon) (m := .resMap) rfl)
    | downloads => exact absurd h (LkRun.inv_dead (fun l => ok_daemon) (m := .transfer) rfl)
  · have hi := LInv.of_run (fun l => ok_daemon) h
    exact ⟨hi.noRace (m := .resMap) rfl, hi.noRace (m := .transfer) rfl⟩

theorem run_step {P : List LAct → Prop} {w0 w : LWorld} (h : LkRun P w0 (.alive w)) {o : LOutcome} (hs : LkStep P w o) : LkRun P w0 o := h.step hs

/-- Two goroutines that use a table without any lock end the process, if one of them changes it. -/
theorem run_throw {P : List LAct → Prop} {a : LAct} {t : MapTab} {r1 r2 : List LAct} (ha : a = .get t ∨ a = .put t)
    {w : LWorld} (hw : LkRun P LWorld.start (.alive w)) (h0 : w.threads 0 = ⟨.put t :: r1, false⟩) (hno : ∀ j, j ≠ 0 → w.threads j = ⟨[], false⟩)
    (hp : P (a :: r2)) : LkRun P LWorld.start (.dead t) := by
  have s1 := run_step hw (.enter w 0 (.put t) t r1 (.inr rfl) h0 (by
    rintro ⟨j, hj, hu⟩
    rw [hno j hj] at hu
    simp [LThread.using] at hu))
  have s2 := run_step s1 (.start _ 1 (a :: r2) hp (by
    rw [LWorld.set_other (by omega)]
    exact hno 1 (by omega)))
  refine run_step s2 (.throw _ 1 a t r2 ha (LWorld.set_self _ _ _) ⟨0, by omega, ?_⟩)
  rw [LWorld.set_other (by omega), LWorld.set_self]
  rfl

/-- Whether a goroutine can do this while it is alone. -/
def canAlone : (Mutex → Bool) → List LAct → Bool
  | _, [] => true
  | own, .lock m :: rest => !own m && canAlone (fun k => if k = m then true else own k) rest
  | own, .unlock m :: rest => own m && canAlone (fun k => if k = m then false else own k) rest
  | own, .get _ :: rest => canAlone own rest
  | own, .put _ :: rest => canAlone own rest

theorem run_alone {P : List LAct → Prop} (rest : List LAct) : ∀ (pre : List LAct) (own : Mutex → Bool) (w : LWorld), LkRun P LWorld.start (.alive w) →
    w.threads 0 = ⟨pre ++ rest, false⟩ → (∀ j, j ≠ 0 → w.threads j = ⟨[], false⟩) → (∀ m, (w.held m).isSome = own m) → canAlone own pre = true →
    ∃ w', LkRun P LWorld.start (.alive w') ∧ w'.threads 0 = ⟨rest, false⟩ ∧ ∀ j, j ≠ 0 → w'.threads j = ⟨[], false⟩
  | [], _, w, hr, h0, hj, _, _ => ⟨w, hr, h0, hj⟩
  | .lock m :: pre, own, w, hr, h0, hj, hm, hc => by
    simp only [canAlone, Bool.and_eq_true, Bool.not_eq_true'] at hc
    have hfree : w.held m = none := by
      have := hm m
      rw [hc.1] at this
      simpa using this
    refine run_alone rest pre _ _ (run_step hr (.lock w 0 m (pre ++ rest) h0 hfree)) (LWorld.set_self w 0 _) (fun j h => ?_) (fun k => ?_) hc.2
    · exact (LWorld.set_other h).trans (hj j h)
    · show (if k = m then some 0 else w.held k).isSome = _
      split <;> simp [hm]
  | .unlock m :: pre, own, w, hr, h0, hj, hm, hc => by
    simp only [canAlone, Bool.and_eq_true] at hc
    have hheld : w.held m ≠ none := by
      intro he
      have := hm m
      rw [hc.1, he] at this
      cases this
    refine run_alone rest pre _ _ (run_step hr (.unlock w 0 m (pre ++ rest) h0 hheld)) (LWorld.set_self w 0 _) (fun j h => ?_) (fun k => ?_) hc.2
    · exact (LWorld.set_other h).trans (hj j h)
    · show (if k = m then none else w.held k).isSome = _
      split <;> simp [hm]
  | .get t :: pre, own, w, hr, h0, hj, hm, hc => by
    simp only [canAlone] at hc
    have s1 := run_step hr (.enter w 0 (.get t) t (pre ++ rest) (.inl rfl) h0 (by
      rintro ⟨j, h, hu⟩
      rw [hj j h] at hu
      simp [LThread.using] at hu))
    have s2 := run_step s1 (.leave _ 0 (.get t) (pre ++ rest) (LWorld.set_self _ _ _))
    refine run_alone rest pre own _ s2 (LWorld.set_self _ _ _) (fun j h => ?_) hm hc
    rw [LWorld.set_other h, LWorld.set_other h]
    exact hj j h
  | .put t :: pre, own, w, hr, h0, hj, hm, hc => by
    simp only [canAlone] at hc
    have s1 := run_step hr (.enter w 0 (.put t) t (pre ++ rest) (.inr rfl) h0 (by
      rintro ⟨j, h, hu⟩
      rw [hj j h] at hu
      simp [LThread.using] at hu))
    have s2 := run_step s1 (.leave _ 0 (.put t) (pre ++ rest) (LWorld.set_self _ _ _))
    refine run_alone rest pre own _ s2 (LWorld.set_self _ _ _) (fun j h => ?_) hm hc
    rw [LWorld.set_other h, LWorld.set_other h]
    exact hj j h

theorem run_race {P : List LAct → Prop} (pre : List LAct) {a : LAct} {t : MapTab} {r1 r2 : List LAct} (ha : a = .get t ∨ a = .put t)
    (h1 : P (pre ++ .put t :: r1)) (h2 : P (a :: r2)) (hc : canAlone noLocks pre = true) : LkRun P LWorld.start (.dead t) := by
  have s1 := run_step (.refl LWorld.start) (.start _ 0 _ h1 rfl)
  obtain ⟨w, hw, h0, hj⟩ := run_alone (.put t :: r1) pre noLocks _ s1 (LWorld.set_self _ _ _) (fun j h => (LWorld.set_other h).trans rfl) (fun m => rfl) hc
  exact run_throw ha hw h0 hj h2

/-- A peer that asks for a chunk while an acknowledgement of another upload arrives. -/
theorem C82_uploads : LkRun DaemonActs LWorld.start (.dead .uploads) :=
  run_race (plainLookup ++ lockedLookup ++ [.get .uploads]) (r1 := [.get .uploads]) (a := .get .uploads) (r2 := []) (.inl rfl)
    (.handler _ .openNew) (.handler _ .ack) (by decide)

/-- A file is shared while a peer asks who has a file. -/
theorem C82_index : LkRun DaemonActs LWorld.start (.dead .index) :=
  run_race [.lock .cat, .get .index] (r1 := [.get .index, .unlock .cat]) (a := .get .index) (r2 := []) (.inl rfl)
    (.command _ (.share _ .done)) (.handler _ .discover) (by decide)

/-- Which tables can end the daemon: exactly the index and the uploads. -/
theorem C82_exactly (t : MapTab) : LkRun DaemonActs LWorld.start (.dead t) ↔ t = .index ∨ t = .uploads :=
  ⟨C82_partial.1 t, by rintro (rfl | rfl); exact C82_index; exact C82_uploads⟩

/-- **C82 as stated does not hold.** -/
theorem C82_refuted : ¬ C82_statement := fun h => h .uploads C82_uploads

/-- Handlers of datagrams alone are enough. -/
theorem C82_peers_alone : LkRun HandlerActs LWorld.start (.dead .uploads) :=
  run_race (plainLookup ++ lockedLookup ++ [.get .uploads]) (r1 := [.get .uploads]) (a := .get .uploads) (r2 := []) (.inl rfl) .openNew .ack (by decide)

/-! What keeps the other two tables safe. -/

theorem noput_run {P : List LAct → Prop} {t : MapTab} (hP : ∀ l, P l → .put t ∉ l) {w : LWorld} {o : LOutcome} (hr : LkRun P w o) :
    ∀ w', o = .alive w' → (∀ i, .put t ∉ (w.threads i).rest) → ∀ i, .put t ∉ (w'.threads i).rest := by
  induction hr with
  | refl => rintro w' ⟨⟩ h; exact h
  | @step w1 o h hs ih =>
    rintro w' rfl h0
    have hi := ih _ rfl h0
    intro i
    cases hs with
    | start j l hp hj =>
      by_cases hij : i = j
      · subst hij; rw [LWorld.set_self]; exact hP l hp
      · rw [LWorld.set_other hij]; exact hi i
    | lock j m rest hj hm =>
      show LAct.put t ∉ ((w1.set j ⟨rest, false⟩).threads i).rest
      by_cases hij : i = j
      · subst hij; rw [LWorld.set_self]
        have := hi i
        rw [hj] at this
        exact fun hm => this (List.mem_cons_of_mem _ hm)
      · rw [LWorld.set_other hij]; exact hi i
    | unlock j m rest hj hm =>
      show LAct.put t ∉ ((w1.set j ⟨rest, false⟩).threads i).rest
      by_cases hij : i = j
      · subst hij; rw [LWorld.set_self]
        have := hi i
        rw [hj] at this
        exact fun hm => this (List.mem_cons_of_mem _ hm)
      · rw [LWorld.set_other hij]; exact hi i
    | enter j a t' rest ha hj hw =>
      by_cases hij : i = j
      · subst hij; rw [LWorld.set_self]
        have := hi i
        rw [hj] at this
        exact this
      · rw [LWorld.set_other hij]; exact hi i
    | leave j a rest hj =>
      by_cases hij : i = j
      · subst hij; rw [LWorld.set_self]
        have := hi i
        rw [hj] at this
        exact fun hm => this (List.mem_cons_of_mem _ hm)
      · rw [LWorld.set_other hij]; exact hi i

/-- As long as nothing changes the index — no share, no new download, no clean — or nothing begins an upload to a new address, the tables in question cannot end the daemon. -/
theorem C82_no_change_partial (t : MapTab) : ¬ LkRun (fun l => DaemonActs l ∧ .put t ∉ l) LWorld.start (.dead t) := by
  intro h
  cases h with
  | @step w _ hr hs =>
    have hn := noput_run (t := t) (fun l hl => hl.2) hr w rfl (fun i => by simp [LWorld.start])
    cases hs with
    | throw i a _ rest ha hi hw =>
      obtain ⟨j, _, hj⟩ := hw
      obtain ⟨r, hr⟩ := using_rest hj
      exact hn j (by rw [hr]; simp)

/-- What the user does on this machine, apart from `clean` and the start of a download. -/
inductive LocalActs : List LAct → Prop where
  | share (w : List LAct) (hw : CatWrites w) : LocalActs w
  | list : LocalActs lockedLookup
  | download (l : List LAct) (h : DownloadActs l) : LocalActs l

/-- Shares, listings and running downloads use the index only under its lock: together they cannot end the daemon. -/
theorem C82_local_partial (t : MapTab) : ¬ LkRun LocalActs LWorld.start (.dead t) := by
  have ok : ∀ l, LocalActs l → okFrom (fun t => match t with | .resMap => some .resMap | .downloads => some .transfer | .index => some .cat | .uploads => some .cat)
      noLocks l = true := by
    intro l hl
    cases hl with
    | share => exact ok_catWrites (.inr rfl) (by assumption)
    | list => decide
    | download =>
      rename_i h
      induction h with
      | complete => decide
      | round hosts rest hh h ih =>
        refine okFrom_append ih (okFrom_append ?_ (by decide))
        induction hh with
        | nil => rfl
        | busy rest h ih => exact okFrom_append ih (by decide)
        | gaveUp rest h ih => exact okFrom_append ih (by decide)
        | saved rest h ih => exact okFrom_append ih (by decide)
  cases t with
  | index => exact LkRun.inv_dead ok (m := .cat) rfl
  | uploads => exact LkRun.inv_dead ok (m := .cat) rfl
  | resMap => exact LkRun.inv_dead ok (m := .resMap) rfl
  | downloads => exact LkRun.inv_dead ok (m := .transfer) rfl

/-! ### C83: nobody waits for ever for a lock -/

theorem wants_rank {g : MapTab → Option Mutex} {w : LWorld} (h : LInv g w) {j : Nat} {m m' : Mutex} {rest : List LAct} (hm : w.held m = some j)
    (hj : (w.threads j).rest = .lock m' :: rest) : m.rank < m'.rank := by
  have h0 := h.ok j
  rw [hj] at h0
  simp only [okFrom, Bool.and_eq_true] at h0
  have := List.all_eq_true.1 h0.1 m (Mutex.mem_all m)
  have ho : w.own j m = true := by simp [LWorld.own, hm]
  simpa [ho] using this

theorem chain_rank {g : MapTab → Option Mutex} {w : LWorld} (h : LInv g w) {i k : Nat} (hc : Spec.WaitChain w i k) :
    ∀ {m m' : Mutex} {r r' : List LAct}, (w.threads i).rest = .lock m :: r → (w.threads k).rest = .lock m' :: r' → m.rank < m'.rank := by
  induction hc with
  | one hw =>
    intro m m' r r' hi hk
    obtain ⟨m0, r0, h0, hh⟩ := hw
    rw [h0] at hi
    cases hi
    exact wants_rank h hh hk
  | more hw hr ih =>
    intro m m' r r' hi hk
    obtain ⟨m0, r0, h0, hh⟩ := hw
    rw [h0] at hi
    cases hi
    rename_i i0 j0 k0
    have : ∃ m1 r1, (w.threads j0).rest = .lock m1 :: r1 := by
      cases hr with
      | one h1 => obtain ⟨m1, r1, h1, _⟩ := h1; exact ⟨m1, r1, by rw [h1]⟩
      | more h1 _ => obtain ⟨m1, r1, h1, _⟩ := h1; exact ⟨m1, r1, by rw [h1]⟩
    obtain ⟨m1, r1, h1⟩ := this
    exact Nat.lt_trans (wants_rank h hh h1) (ih h1 hk)

/-- **C83.**  No goroutine ever waits, directly or through others, for a lock that it will only give back itself. -/
theorem C83_no_circle (w : LWorld) (hr : LkRun DaemonActs LWorld.start (.alive w)) (i : Nat) : ¬ Spec.WaitChain w i i := by
  intro hc
  have hinv := LInv.of_run (fun l => ok_daemon) hr
  have : ∃ m1 r1, (w.threads i).rest = .lock m1 :: r1 := by
    cases hc with
    | one h1 => obtain ⟨m1, r1, h1, _⟩ := h1; exact ⟨m1, r1, by rw [h1]⟩
    | more h1 _ => obtain ⟨m1, r1, h1, _⟩ := h1; exact ⟨m1, r1, by rw [h1]⟩
  obtain ⟨m, r, h⟩ := this
  exact Nat.lt_irrefl _ (chain_rank hinv hc h h)

/-- A goroutine can do its next action. -/
def LMoves (w : LWorld) : Prop := ∃ o, LkStep (fun _ => False) w o

theorem moves_of {g : MapTab → Option Mutex} {w : LWorld} (h : LInv g w) : ∀ (n i : Nat), (w.threads i).rest ≠ [] →
    (∀ m r, (w.threads i).rest = .lock m :: r → 3 ≤ m.rank + n) → LMoves w
  | n, i, hne, hn => by
    generalize hx : w.threads i = x at hne hn
    obtain ⟨rest, inside⟩ := x
    cases inside with
    | true =>
      cases rest with
      | nil => exact absurd rfl hne
      | cons a r => exact ⟨_, .leave w i a r hx⟩
    | false =>
      match rest, hne, hn, hx with
      | .get t :: r, _, _, hx =>
        by_cases hw : w.writing i t
        · exact ⟨_, .throw w i _ t r (.inl rfl) hx hw⟩
        · exact ⟨_, .enter w i _ t r (.inl rfl) hx hw⟩
      | .put t :: r, _, _, hx =>
        by_cases hw : w.writing i t
        · exact ⟨_, .throw w i _ t r (.inr rfl) hx hw⟩
        · exact ⟨_, .enter w i _ t r (.inr rfl) hx hw⟩
      | .unlock m :: r, _, _, hx =>
        by_cases hm : w.held m = none
        · exact ⟨_, .unlockFree w i m r hx hm⟩
        · exact ⟨_, .unlock w i m r hx hm⟩
      | .lock m :: r, _, hn, hx =>
        cases hm : w.held m with
        | none => exact ⟨_, .lock w i m r hx hm⟩
        | some j =>
          have hb := hn m r rfl
          have hjne : (w.threads j).rest ≠ [] := by
            intro he
            have h0 := h.ok j
            rw [he] at h0
            have := congrFun (okFrom_nil h0) m
            simp [LWorld.own, hm, noLocks] at this
          match n, hb with
          | 0, hb => cases m <;> simp [Mutex.rank] at hb
          | n + 1, hb =>
            refine moves_of h n j hjne fun m' r' hj => ?_
            have := wants_rank h hm hj
            omega

/-- **C83.**  As long as some goroutine has something left to do, one of them can do it. -/
theorem C83_someone_moves (w : LWorld) (hr : LkRun DaemonActs LWorld.start (.alive w)) (hq : ¬ Spec.Quiet w) : LMoves w := by
  have hinv := LInv.of_run (fun l => ok_daemon) hr
  by_cases h : ∃ i, (w.threads i).rest ≠ []
  · obtain ⟨i, hi⟩ := h
    exact moves_of hinv 3 i hi fun m r _ => by omega
  · exfalso
    refine hq ⟨fun i => Classical.byContradiction fun hi => h ⟨i, hi⟩, fun m => ?_⟩
    cases hm : w.held m with
    | none => rfl
    | some j =>
      exfalso
      refine h ⟨j, fun he => ?_⟩
      have h0 := hinv.ok j
      rw [he] at h0
      have := congrFun (okFrom_nil h0) m
      simp [LWorld.own, hm, noLocks] at this

/-! Without new goroutines everything comes to an end. -/

/-- What a goroutine has left to do. -/
def LThread.left (x : LThread) : Nat := 2 * x.rest.length + (if x.inside then 0 else 1)

/-- A sum. -/
def sumTo (f : Nat → Nat) : Nat → Nat
  | 0 => 0
  | n + 1 => sumTo f n + f n

theorem sumTo_congr {f f' : Nat → Nat} : ∀ {n : Nat}, (∀ j, j < n → f' j = f j) → sumTo f' n = sumTo f n
  | 0, _ => rfl
  | n + 1, h => by
    simp only [sumTo]
    rw [sumTo_congr fun j hj => h j (by omega), h n (by omega)]

theorem sumTo_lt {f f' : Nat → Nat} {i : Nat} (hi : f' i < f i) (ho : ∀ j, j ≠ i → f' j = f j) : ∀ {n : Nat}, i < n → sumTo f' n < sumTo f n
  | 0, h => absurd h (by omega)
  | n + 1, h => by
    simp only [sumTo]
    by_cases hn : i = n
    · subst hn
      rw [sumTo_congr fun j hj => ho j (by omega)]
      omega
    · have := sumTo_lt hi ho (n := n) (by omega)
      rw [ho n (Ne.symm hn)]
      omega

/-- What all goroutines have left to do. -/
def LWorld.left (w : LWorld) (n : Nat) : Nat := sumTo (fun i => (w.threads i).left) n

theorem set_left {w : LWorld} {n i : Nat} {x : LThread} (hb : ∀ j, n ≤ j → w.threads j = ⟨[], false⟩) (hne : w.threads i ≠ ⟨[], false⟩)
    (hlt : x.left < (w.threads i).left) : (w.set i x).left n < w.left n ∧ ∀ j, n ≤ j → (w.set i x).threads j = ⟨[], false⟩ := by
  have hin : i < n := Nat.lt_of_not_le fun h => hne (hb i h)
  refine ⟨sumTo_lt (i := i) ?_ (fun j hj => ?_) hin, fun j hj => ?_⟩
  · show ((w.set i x).threads i).left < _
    rw [LWorld.set_self]; exact hlt
  · show ((w.set i x).threads j).left = _
    rw [LWorld.set_other hj]
  · rw [LWorld.set_other (by omega)]; exact hb j hj

theorem step_left {w w' : LWorld} {n : Nat} (hb : ∀ j, n ≤ j → w.threads j = ⟨[], false⟩) (hs : LkStep (fun _ => False) w (.alive w')) :
    w'.left n < w.left n ∧ ∀ j, n ≤ j → w'.threads j = ⟨[], false⟩ := by
  cases hs with
  | start i l hp hi => exact hp.elim
  | lock i m rest hi hm => exact set_left (x := ⟨rest, false⟩) hb (by rw [hi]; simp) (by rw [hi]; simp [LThread.left])
  | unlock i m rest hi hm => exact set_left (x := ⟨rest, false⟩) hb (by rw [hi]; simp) (by rw [hi]; simp [LThread.left])
  | enter i a t rest ha hi hw => exact set_left hb (by rw [hi]; simp) (by rw [hi]; simp [LThread.left])
  | leave i a rest hi => exact set_left hb (by rw [hi]; simp) (by rw [hi]; simp [LThread.left]; omega)

theorem steps_left {k n : Nat} {w : LWorld} {o : LOutcome} (h : Spec.StepsIn k w o) : (∀ j, n ≤ j → w.threads j = ⟨[], false⟩) → k ≤ w.left n + 1 := by
  induction h with
  | zero => intro _; omega
  | succ hs _ ih =>
    intro hb
    have := step_left hb hs
    have := ih this.2
    omega
  | last => intro _; omega
  | bad => intro _; omega

theorem steps_run {k : Nat} {w : LWorld} {o : LOutcome} (h : Spec.StepsIn k w o) : ∀ w0, LkRun DaemonActs w0 (.alive w) → LkRun DaemonActs w0 o := by
  have up : ∀ {w : LWorld} {o : LOutcome}, LkStep (fun _ => False) w o → LkStep DaemonActs w o := by
    intro w o hs
    cases hs with
    | start i l hp hi => exact hp.elim
    | lock i m rest hi hm => exact .lock w i m rest hi hm
    | unlock i m rest hi hm => exact .unlock w i m rest hi hm
    | unlockFree i m rest hi hm => exact .unlockFree w i m rest hi hm
    | enter i a t rest ha hi hw => exact .enter w i a t rest ha hi hw
    | leave i a rest hi => exact .leave w i a rest hi
    | throw i a t rest ha hi hw => exact .throw w i a t rest ha hi hw
  induction h with
  | zero => exact fun _ h => h
  | succ hs _ ih => exact fun w0 h => ih w0 (h.step (up hs))
  | last hs => exact fun w0 h => h.step (up hs)
  | bad hs => exact fun w0 h => h.step (up hs)

/-- **C83.**  From any state of the daemon on: if no goroutine is started any more, then however the others are scheduled they stop after a bounded number of steps; and where they
stop, either every one of them has done everything and all locks are free, or the runtime has ended the process because of the index or the uploads.  A lock that is
not held is never given back. -/
theorem C83_all_finish (w : LWorld) (hr : LkRun DaemonActs LWorld.start (.alive w)) :
    (∃ bound, ∀ k o, Spec.StepsIn k w o → k ≤ bound) ∧
    ∀ k o, Spec.StepsIn k w o →
      match o with
      | .alive w' => LMoves w' ∨ Spec.Quiet w'
      | .dead t => t = .index ∨ t = .uploads
      | .badUnlock _ => False := by
  obtain ⟨n, hn⟩ := (LInv.of_run (fun l => ok_daemon) hr).fin
  refine ⟨⟨w.left n + 1, fun k o h => steps_left h hn⟩, fun k o h => ?_⟩
  have hrun := steps_run h _ hr
  match o, hrun with
  | .alive w', hrun =>
    by_cases hq : Spec.Quiet w'
    · exact .inr hq
    · exact .inl (C83_someone_moves w' hrun hq)
  | .dead t, hrun => exact C82_partial.1 t hrun
  | .badUnlock m, hrun =>
    cases hrun with
    | step hr hs => exact (LInv.of_run (fun l => ok_daemon) hr).noBadUnlock hs

/-- A goroutine that waits: a peer asks for the list while a file is being shared. -/
example : ∃ w, LkRun DaemonActs LWorld.start (.alive w) ∧ Spec.WaitsFor w 1 0 ∧ ¬ Spec.Quiet w := by
  have s1 := run_step (P := DaemonActs) (.refl LWorld.start) (.start _ 0 _ (.command _ (.share _ .done)) rfl)
  have s2 := run_step s1 (.lock _ 0 .cat _ (LWorld.set_self _ _ _) rfl)
  have s3 := run_step s2 (.start _ 1 _ (.handler _ .listAll) rfl)
  refine ⟨_, s3, ⟨.cat, _, LWorld.set_self _ _ _, rfl⟩, fun h => ?_⟩
  have := h.2 .cat
  cases this

end Flu
