import Verif.Props.Leaves
import Verif.Props.Linked
/-!
# How much a host can be made to send (C127)

Whoever sends a datagram can write any address into it as its sender.  What the daemon sends in answer goes to that address, whether or not the host there asked for it.
-/
namespace Flu

/-- How often something happened in the course of a run. -/
noncomputable def Spec.times (P : DmEv × Option Out × DmSys → Prop) (tr : List (DmEv × Option Out × DmSys)) : Nat :=
  open Classical in tr.countP (fun x => decide (P x))

/-- A packet of an upload leaves for the address. -/
def Spec.Leaves (key : UpKey) (x : DmEv × Option Out × DmSys) : Prop := ∃ p, x.2.1 = some (.packet key p)

/-- A datagram arrives that says it is from the address. -/
def Spec.Comes (key : UpKey) (x : DmEv × Option Out × DmSys) : Prop := ∃ dg ret, x.1 = .datagram dg ret ∧ Spec.From key ret

/-- Such a datagram asks for a chunk, with a window of `cap` packets. -/
def Spec.Opens (key : UpKey) (cap : UInt16) (x : DmEv × Option Out × DmSys) : Prop :=
  ∃ dg ret h n, x.1 = .datagram dg ret ∧ Spec.From key ret ∧ parse (udpBuffer dg) = .ok (.openReq h n cap)

/-- Such a datagram acknowledges a packet. -/
def Spec.Acks (key : UpKey) (x : DmEv × Option Out × DmSys) : Prop := ∃ dg ret off, x.1 = .datagram dg ret ∧ Spec.From key ret ∧ parse (udpBuffer dg) = .ok (.ack off)

/-- The answer to a search or a listing leaves for the host. -/
def Spec.Replies (ip : Bytes) (x : DmEv × Option Out × DmSys) : Prop := ∃ port bytes, x.2.1 = some (.answer ip port bytes)

/-- A datagram arrives that searches or asks for a listing and says it is from the host. -/
def Spec.Queries (ip : Bytes) (x : DmEv × Option Out × DmSys) : Prop :=
  ∃ dg ret, x.1 = .datagram dg ret ∧ ret.ip.bytes = ip ∧ ((∃ r h q, parse (udpBuffer dg) = .ok (.discoverReq r h q)) ∨ ∃ r h, parse (udpBuffer dg) = .ok (.listReq r h))

/-- C127, as it should be: at most `K` packets of an upload leave for an address for every datagram that came from there. -/
def C127_statement (K : Nat) : Prop := ∀ (env : Env) (d dl : Path) (port : Nat) (c : Cat) (fs : FS) (tr : List (DmEv × Option Out × DmSys)) (s : Daemon) (key : UpKey),
  Healthy env d → Reach env d dl (.running c fs) → DmRun env d port (.fresh c fs) tr (.alive s) → Spec.times (Spec.Leaves key) tr ≤ K * Spec.times (Spec.Comes key) tr

/-! ## Counting -/

section
variable {env : Env} {d dl : Path} {port : Nat} {tr : List (DmEv × Option Out × DmSys)}

theorem times_nil (P : DmEv × Option Out × DmSys → Prop) : Spec.times P [] = 0 := rfl

theorem times_yes {P : DmEv × Option Out × DmSys → Prop} {x : DmEv × Option Out × DmSys} (h : P x) : Spec.times P (tr ++ [x]) = Spec.times P tr + 1 := by
  unfold Spec.times
  rw [List.countP_append, List.countP_singleton, if_pos (by simpa using h)]

theorem times_no {P : DmEv × Option Out × DmSys → Prop} {x : DmEv × Option Out × DmSys} (h : ¬ P x) : Spec.times P (tr ++ [x]) = Spec.times P tr := by
  unfold Spec.times
  rw [List.countP_append, List.countP_singleton, if_neg (by simpa using h), Nat.add_zero]

theorem times_le (P : DmEv × Option Out × DmSys → Prop) (x : DmEv × Option Out × DmSys) : Spec.times P tr ≤ Spec.times P (tr ++ [x]) := by
  by_cases h : P x
  · rw [times_yes h]; omega
  · rw [times_no h]; omega

theorem times_zero {P : DmEv × Option Out × DmSys → Prop} : Spec.times P tr = 0 ↔ ∀ x ∈ tr, ¬ P x := by
  unfold Spec.times
  rw [List.countP_eq_zero]
  simp

/-- There are at most so many. -/
def AtMost (p : Nat → Prop) (n : Nat) : Prop := ∃ l : List Nat, l.length ≤ n ∧ ∀ i, p i → i ∈ l

theorem AtMost.mono {p q : Nat → Prop} {n : Nat} (h : AtMost p n) (hle : ∀ i, q i → p i) : AtMost q n := by
  obtain ⟨l, h1, h2⟩ := h
  exact ⟨l, h1, fun i hi => h2 i (hle i hi)⟩

theorem AtMost.add {p q : Nat → Prop} {n : Nat} (h : AtMost p n) (t : Nat) (hle : ∀ i, i ≠ t → q i → p i) : AtMost q (n + 1) := by
  obtain ⟨l, h1, h2⟩ := h
  refine ⟨t :: l, by simp; omega, fun i hi => ?_⟩
  by_cases ht : i = t
  · rw [ht]; exact List.mem_cons_self
  · exact List.mem_cons_of_mem _ (h2 i (hle i ht hi))

theorem AtMost.drop {p q : Nat → Prop} {n t : Nat} (h : AtMost p n) (hp : p t) (hq : ¬ q t) (hle : ∀ i, q i → p i) : ∃ m, n = m + 1 ∧ AtMost q m := by
  obtain ⟨l, h1, h2⟩ := h
  have ht := h2 t hp
  have hpos := List.length_pos_of_mem ht
  refine ⟨n - 1, by omega, l.erase t, by rw [List.length_erase_of_mem ht]; omega, fun i hi => ?_⟩
  exact (List.mem_erase_of_ne (by rintro rfl; exact hq hi)).2 (h2 i (hle i hi))

theorem AtMost.pos {p : Nat → Prop} {n t : Nat} (h : AtMost p n) (hp : p t) : 1 ≤ n := by
  obtain ⟨m, rfl, -⟩ := h.drop (q := fun _ => False) hp (fun h => h) (fun _ h => h.elim)
  omega

theorem AtMost.two {p : Nat → Prop} {n i j : Nat} (h : AtMost p n) (hi : p i) (hj : p j) (hne : i ≠ j) : 2 ≤ n := by
  obtain ⟨m, rfl, h1⟩ := h.drop (q := fun k => p k ∧ k ≠ i) hi (fun h => h.2 rfl) (fun _ h => h.1)
  have := h1.pos ⟨hj, fun e => hne e.symm⟩
  omega

/-! ## What a step does to one address -/

/-- The goroutine is going to start an upload to the address, with this window if there is none yet. -/
def Handler.Owes (key : UpKey) (cap : UInt16) (h : Handler) : Prop :=
  match h.pos with
  | .asked (.openReq _ _ c) => Spec.From key h.ret ∧ c = cap
  | .known _ _ c => Spec.From key h.ret ∧ c = cap
  | .opened k _ _ _ c => k = key ∧ c = cap
  | _ => False

/-- The goroutine is going to pass on an acknowledgement from the address. -/
def Handler.Acking (key : UpKey) (h : Handler) : Prop :=
  match h.pos with
  | .asked (.ack _) => Spec.From key h.ret
  | _ => False

def Daemon.Owing (s : Daemon) (key : UpKey) (t : Nat) : Prop := ∃ h cap, s.handlers t = some h ∧ h.Owes key cap
def Daemon.Acking (s : Daemon) (key : UpKey) (t : Nat) : Prop := ∃ h, s.handlers t = some h ∧ h.Acking key

/-- No goroutine of a datagram has more to do for the address than before. -/
def FloodCalm (key : UpKey) (s s' : Daemon) : Prop :=
  ∀ t h', s'.handlers t = some h' → (∀ cap, h'.Owes key cap → ∃ h, s.handlers t = some h ∧ h.Owes key cap) ∧ (h'.Acking key → ∃ h, s.handlers t = some h ∧ h.Acking key)

/-- What a step does, as far as one address is concerned. -/
inductive Moves (key : UpKey) (s s' : Daemon) (x : DmEv × Option Out × DmSys) : Prop
  | other (hc : FloodCalm key s s') (hu : s'.uploads key = s.uploads key) (hx : ¬ Spec.Leaves key x) (ho : ∀ cap, ¬ Spec.Opens key cap x) (ha : ¬ Spec.Acks key x)
  | opens (t : Nat) (h : Handler) (cap : UInt16) (hs : s'.handlers = upd s.handlers t (some h)) (ht : s.handlers t = none) (hh : h.Owes key cap) (hn : ¬ h.Acking key)
      (hu : s'.uploads key = s.uploads key) (hx : ¬ Spec.Leaves key x) (ho : Spec.Opens key cap x) (ha : ¬ Spec.Acks key x)
  | acks (t : Nat) (h : Handler) (hs : s'.handlers = upd s.handlers t (some h)) (ht : s.handlers t = none) (hh : h.Acking key) (hn : ∀ cap, ¬ h.Owes key cap)
      (hu : s'.uploads key = s.uploads key) (hx : ¬ Spec.Leaves key x) (ho : ∀ cap, ¬ Spec.Opens key cap x) (ha : Spec.Acks key x)
  | kicks (t : Nat) (cap : UInt16) (h h' : Handler) (u : UpConn) (i : Nat) (hash : Sha1Hash) (size : Nat) (ht : s.handlers t = some h) (hh : h.Owes key cap)
      (hs : s'.handlers = upd s.handlers t (some h')) (hd : h'.pos = .done)
      (hu : s.uploads key = some u ∨ s.uploads key = none ∧ ∃ r content, u.mu = .init r cap content) (hi : u.mu.threads i = .none)
      (hu' : s'.uploads key = some { u with mu := (u.mu.set i (.reset hash size .none)).move u.mu.reader.base })
      (hx : ¬ Spec.Leaves key x) (ho : ∀ cap, ¬ Spec.Opens key cap x) (ha : ¬ Spec.Acks key x)
  | passes (t : Nat) (h h' : Handler) (u : UpConn) (ht : s.handlers t = some h) (hh : h.Acking key) (hs : s'.handlers = upd s.handlers t (some h')) (hd : h'.pos = .done)
      (hu : s.uploads key = some u) (hu' : s'.uploads key = some { u with mu := { u.mu with pending := u.mu.pending + 1 } })
      (hx : ¬ Spec.Leaves key x) (ho : ∀ cap, ¬ Spec.Opens key cap x) (ha : ¬ Spec.Acks key x)
  | runs (u : UpConn) (p : Option Packet) (mu : MuState) (hs : s'.handlers = s.handlers) (hu : s.uploads key = some u) (hm : MuStep u.mu p mu)
      (hnew : ∀ i, u.mu.threads i = .none → mu.threads i = .none) (hack : mu.pending ≤ u.mu.pending) (hu' : s'.uploads key = some { u with mu := mu })
      (hx : Spec.Leaves key x ↔ p ≠ none) (ho : ∀ cap, ¬ Spec.Opens key cap x) (ha : ¬ Spec.Acks key x)
  | sees (u : UpConn) (now : Bytes) (before : List Bytes) (hs : s'.handlers = s.handlers) (hu : s.uploads key = some u)
      (hu' : s'.uploads key = some { u with mu := { u.mu with now := now, before := before } }) (hx : ¬ Spec.Leaves key x) (ho : ∀ cap, ¬ Spec.Opens key cap x) (ha : ¬ Spec.Acks key x)

theorem calm_refl (key : UpKey) (s : Daemon) (l : DLState) (u : UpKey → Option UpConn) (tb : Table) : FloodCalm key s { s with loop := l, uploads := u, table := tb } :=
  fun _ h' h1 => ⟨fun _ h2 => ⟨h', h1, h2⟩, fun h2 => ⟨h', h1, h2⟩⟩

/-- A goroutine goes on. -/
theorem calm_upd {key : UpKey} {s s' : Daemon} {t : Nat} {h h' : Handler} (ht : s.handlers t = some h) (hs : s'.handlers = upd s.handlers t (some h'))
    (h1 : ∀ cap, h'.Owes key cap → h.Owes key cap) (h2 : h'.Acking key → h.Acking key) : FloodCalm key s s' := by
  intro t' g hg
  rw [hs] at hg
  by_cases e : t' = t
  · subst e
    rw [upd_same] at hg
    cases hg
    exact ⟨fun cap g1 => ⟨h, ht, h1 cap g1⟩, fun g1 => ⟨h, ht, h2 g1⟩⟩
  · rw [upd_other _ _ e] at hg
    exact ⟨fun cap g1 => ⟨g, hg, g1⟩, fun g1 => ⟨g, hg, g1⟩⟩

theorem quiet_none {key : UpKey} {e : DmEv} {x : DmSys} : ¬ Spec.Leaves key (e, none, x) := fun ⟨_, h⟩ => nomatch h

theorem DmStep.moves {s s' : Daemon} {e : DmEv} {o : Option Out} (hs : DmStep env d port s e o (.alive s')) (key : UpKey) : Moves key s s' (e, o, .alive s') := by
  have no : ∀ {e : DmEv} {o : Option Out} {x : DmSys}, (∀ dg ret, e ≠ .datagram dg ret) → (∀ cap, ¬ Spec.Opens key cap (e, o, x)) ∧ ¬ Spec.Acks key (e, o, x) :=
    fun h => ⟨fun _ ⟨dg, ret, _, _, h1, _⟩ => h dg ret h1, fun ⟨dg, ret, _, h1, _⟩ => h dg ret h1⟩
  -- the goroutine of a datagram ends
  have ends : ∀ {t : Nat} {h : Handler} {s' : Daemon} {o : Option Out}, s.handlers t = some h → s'.handlers = upd s.handlers t (some ⟨h.ret, .done⟩) → s'.uploads key = s.uploads key →
      ¬ Spec.Leaves key (.handler t, o, .alive s') → Moves key s s' (.handler t, o, .alive s') := by
    intro t h s' o ht h1 h2 h3
    exact .other (calm_upd ht h1 (fun _ h => h.elim) (fun h => h.elim)) h2 h3 (no (by intro _ _ h; cases h)).1 (no (by intro _ _ h; cases h)).2
  cases hs with
  | loop a l h => exact .other (calm_refl _ _ _ _ _) rfl quiet_none (no (by intro _ _ h; cases h)).1 (no (by intro _ _ h; cases h)).2
  | arrives t dg ret m ht hp =>
    by_cases h1 : ∃ cap, (Handler.mk ret (.asked m)).Owes key cap
    · obtain ⟨cap, h1⟩ := h1
      cases m with
      | openReq h n c =>
        obtain ⟨h2, rfl⟩ := h1
        refine .opens t _ c rfl ht ⟨h2, rfl⟩ (fun h => h) rfl quiet_none ⟨dg, ret, h, n, rfl, h2, hp⟩ ?_
        rintro ⟨dg', ret', off, h3, -, h4⟩
        cases h3
        rw [hp] at h4
        cases h4
      | _ => exact h1.elim
    · by_cases h2 : (Handler.mk ret (.asked m)).Acking key
      · cases m with
        | ack off =>
          refine .acks t _ rfl ht h2 (fun _ h => h) rfl quiet_none ?_ ⟨dg, ret, off, rfl, h2, hp⟩
          rintro cap ⟨dg', ret', h, n, h3, -, h4⟩
          cases h3
          rw [hp] at h4
          cases h4
        | _ => exact h2.elim
      · refine .other ?_ rfl quiet_none ?_ ?_
        · intro t' g hg
          by_cases e : t' = t
          · subst e
            have : some g = some (Handler.mk ret (.asked m)) := hg.symm.trans (upd_same _ _ _)
            cases this
            exact ⟨fun cap h => absurd ⟨cap, h⟩ h1, fun h => absurd h h2⟩
          · have hg' : s.handlers t' = some g := (upd_other s.handlers _ e).symm.trans hg
            exact ⟨fun cap g1 => ⟨g, hg', g1⟩, fun g1 => ⟨g, hg', g1⟩⟩
        · rintro cap ⟨dg', ret', h, n, h3, h5, h4⟩
          cases h3
          rw [hp] at h4
          cases h4
          exact h1 ⟨cap, h5, rfl⟩
        · rintro ⟨dg', ret', off, h3, h5, h4⟩
          cases h3
          rw [hp] at h4
          cases h4
          exact h2 h5
  | garbage dg ret e hp =>
    refine .other (calm_refl _ _ _ _ _) rfl quiet_none ?_ ?_
    · rintro cap ⟨dg', ret', h, n, h3, h5, h4⟩
      cases h3
      rw [hp] at h4
      cases h4
    · rintro ⟨dg', ret', off, h3, h5, h4⟩
      cases h3
      rw [hp] at h4
      cases h4
  | replies t h m w fl f ip to bytes s' ht hp hm hrun => exact ends ht rfl rfl (fun ⟨_, h⟩ => nomatch h)
  | replyFails t h m w fl f e s' ht => exact ends ht rfl rfl quiet_none
  | looks t h hash chunk cap fl e s' ht hp hrun =>
    refine .other (calm_upd ht rfl ?_ (fun h => h.elim)) rfl quiet_none (no (by intro _ _ h; cases h)).1 (no (by intro _ _ h; cases h)).2
    rintro c ⟨h1, h2⟩
    rcases h with ⟨ret, pos⟩
    cases hp
    exact ⟨h1, h2⟩
  | looksFails t h hash chunk cap fl e s' ht => exact ends ht rfl rfl quiet_none
  | opens t h hash chunk cap choices fl reader s' path content host ht hp hrun hsize hip hpath hfile =>
    refine .other (calm_upd ht rfl ?_ (fun h => h.elim)) rfl quiet_none (no (by intro _ _ h; cases h)).1 (no (by intro _ _ h; cases h)).2
    rintro c ⟨h1, h2⟩
    rcases h with ⟨ret, pos⟩
    cases hp
    subst h1
    exact ⟨⟨hip, rfl⟩, h2⟩
  | opensNever t h hash chunk cap choices fl s' ht =>
    exact .other (calm_upd ht rfl (fun _ h => h.elim) (fun h => h.elim)) rfl quiet_none (no (by intro _ _ h; cases h)).1 (no (by intro _ _ h; cases h)).2
  | opensNot t h hash chunk cap choices fl reader s' ht => exact ends ht rfl rfl quiet_none
  | opensFails t h hash chunk cap choices fl e s' ht => exact ends ht rfl rfl quiet_none
  | kicks t h k path content reader cap i u ht hp hu hi =>
    by_cases hk : key = k
    · subst hk
      refine .kicks t cap h ⟨h.ret, .done⟩ u i reader.hash reader.size ht ?_ rfl rfl ?_ hi (upd_same _ _ _) quiet_none (no (by intro _ _ h; cases h)).1 (no (by intro _ _ h; cases h)).2
      · rcases h with ⟨ret, pos⟩
        cases hp
        exact ⟨rfl, rfl⟩
      · cases hup : s.uploads key with
        | some u0 => rw [hup] at hu; exact .inl (by rw [hu]; rfl)
        | none => rw [hup] at hu; exact .inr ⟨rfl, reader.reader, content, by rw [hu]; rfl⟩
    · exact ends ht rfl (upd_other _ _ hk) quiet_none
  | acks t h off host u ht hp hip hu =>
    by_cases hk : key = ⟨host, UInt16.ofNat h.ret.port⟩
    · refine .passes t h ⟨h.ret, .done⟩ u ht ?_ rfl rfl (by rw [hk]; exact hu) (by rw [hk]; exact upd_same _ _ _) quiet_none (no (by intro _ _ h; cases h)).1 (no (by intro _ _ h; cases h)).2
      rcases h with ⟨ret, pos⟩
      cases hp
      rw [hk]
      exact ⟨hip, rfl⟩
    · exact ends ht rfl (upd_other _ _ hk) quiet_none
  | acksNone t h off host ht => exact ends ht rfl rfl quiet_none
  | acksFails t h off e ht => exact ends ht rfl rfl quiet_none
  | delivers t t' h m i table ht => exact ends ht rfl rfl quiet_none
  | uploads k u p mu hu hm hnew hack hsee hlive =>
    by_cases hk : key = k
    · subst hk
      refine .runs u p mu rfl hu hm hnew hack (upd_same _ _ _) ⟨?_, ?_⟩ (no (by intro _ _ h; cases h)).1 (no (by intro _ _ h; cases h)).2
      · rintro ⟨q, hq⟩ rfl
        cases hq
      · intro hp
        cases p with
        | none => exact absurd rfl hp
        | some q => exact ⟨q, rfl⟩
    · refine .other (calm_refl _ _ _ _ _) (upd_other _ _ hk) ?_ (no (by intro _ _ h; cases h)).1 (no (by intro _ _ h; cases h)).2
      rintro ⟨q, hq⟩
      cases p with
      | none => cases hq
      | some r => cases hq; exact hk rfl
  | sees k u new hu hnew =>
    by_cases hk : key = k
    · subst hk
      exact .sees u new _ rfl hu (upd_same _ _ _) quiet_none (no (by intro _ _ h; cases h)).1 (no (by intro _ _ h; cases h)).2
    · exact .other (calm_refl _ _ _ _ _) (upd_other _ _ hk) quiet_none (no (by intro _ _ h; cases h)).1 (no (by intro _ _ h; cases h)).2
  | discovery t table h => exact .other (calm_refl _ _ _ _ _) rfl quiet_none (no (by intro _ _ h; cases h)).1 (no (by intro _ _ h; cases h)).2

/-! ## Requests that nobody acknowledges -/

/-- The goroutine has not yet sent its first packet. -/
def MuThread.unsent : MuThread → Prop
  | .reset _ _ _ | .first _ _ _ | .announce _ _ _ => True
  | _ => False

/-- The goroutine has taken no acknowledgement. -/
def MuThread.early : MuThread → Prop
  | .none | .reset _ _ _ | .first _ _ _ | .announce _ _ _ | .firstLoad | .firstStore _ | .select | .exited | .dead => True
  | _ => False

/-- No acknowledgement has come. -/
structure Unacked (key : UpKey) (opens sends : Nat) (s : Daemon) : Prop where
  none : ∀ t, ¬ s.Acking key t
  early : ∀ u, s.uploads key = some u → u.mu.pending = 0 ∧ ∀ i, (u.mu.threads i).early
  count : ∃ a b, AtMost (s.Owing key) a ∧ AtMost (fun i => ∃ u, s.uploads key = some u ∧ (u.mu.threads i).unsent) b ∧ sends + a + b ≤ opens

theorem mu_unacked {s t : MuState} {p : Option Packet} (hm : MuStep s p t) (hp : s.pending = 0) (he : ∀ i, (s.threads i).early) (hnew : ∀ i, s.threads i = .none → t.threads i = .none)
    (hack : t.pending ≤ s.pending) :
    (∀ i, (t.threads i).early) ∧ (∀ i, (t.threads i).unsent → (s.threads i).unsent) ∧ (p ≠ none → ∃ i, (s.threads i).unsent ∧ ¬ (t.threads i).unsent) := by
  have mv : ∀ {t : MuState} (i : Nat) (y : MuThread), t.threads = (s.set i y).threads → y.early → (y.unsent → (s.threads i).unsent) →
      (∀ i, (t.threads i).early) ∧ (∀ i, (t.threads i).unsent → (s.threads i).unsent) := by
    intro t i y h1 h2 h3
    refine ⟨fun j => ?_, fun j => ?_⟩ <;> rw [h1] <;> by_cases hj : j = i
    · subst hj; rw [MuState.set_self]; exact h2
    · rw [MuState.set_other hj]; exact he j
    · subst hj; rw [MuState.set_self]; exact h3
    · rw [MuState.set_other hj]; exact fun h => h
  have qt : ∀ {t : MuState} (i : Nat) (y : MuThread), t.threads = (s.set i y).threads → y.early → (y.unsent → (s.threads i).unsent) →
      (∀ i, (t.threads i).early) ∧ (∀ i, (t.threads i).unsent → (s.threads i).unsent) ∧ ((none : Option Packet) ≠ none → ∃ i, (s.threads i).unsent ∧ ¬ (t.threads i).unsent) := by
    intro t i y h1 h2 h3
    exact ⟨(mv i y h1 h2 h3).1, (mv i y h1 h2 h3).2, fun h => absurd rfl h⟩
  have late : ∀ {i : Nat} {x : MuThread}, s.threads i = x → ¬ x.early → False := fun h1 h2 => h2 (h1 ▸ he _)
  cases hm with
  | edit new => exact ⟨he, fun _ h => h, fun h => absurd rfl h⟩
  | kickstart i hash size h => exact nomatch (MuState.set_self s i _).symm.trans (hnew i h)
  | resetLoad i hash size h => exact qt i _ rfl trivial (fun _ => by rw [h]; trivial)
  | resetStore i hash size a h =>
    refine qt i _ rfl ?_ (fun _ => by rw [h]; trivial)
    split <;> trivial
  | firstStep i hash size pc rd h => exact qt i _ rfl trivial (fun _ => by rw [h]; trivial)
  | firstDone i hash size o got err h => exact qt i _ rfl trivial (fun _ => by rw [h]; trivial)
  | firstFails i hash size o got h => exact qt i _ rfl trivial (fun h => h.elim)
  | firstDies i hash size h => exact qt i _ rfl trivial (fun h => h.elim)
  | sendFirst i hash size got h =>
    refine ⟨(mv i .firstLoad rfl trivial (fun h => h.elim)).1, (mv i .firstLoad rfl trivial (fun h => h.elim)).2, fun _ => ⟨i, by rw [h]; trivial, ?_⟩⟩
    rw [MuState.set_self]
    exact fun h => h
  | sendFirstFails i hash size got h => exact qt i _ rfl trivial (fun h => h.elim)
  | firstLoad i h => exact qt i _ rfl trivial (fun h => h.elim)
  | firstStore i w h => exact qt i _ rfl trivial (fun h => h.elim)
  | arrive => exact absurd hack (by show ¬ s.pending + 1 ≤ s.pending; omega)
  | take i h hp' => omega
  | takeLoad i h => exact (late h (fun h => h)).elim
  | takeStore i w h => exact (late h (fun h => h)).elim
  | cancel i h hc => exact qt i _ rfl trivial (fun h => h.elim)
  | more i ends h hw => exact (late h (fun h => h)).elim
  | full i ends h hw => exact (late h (fun h => h)).elim
  | readStep i ends pc rd h hb => exact (late h (fun h => h)).elim
  | readDone i ends o got err h hb => exact (late h (fun h => h)).elim
  | readFails i ends o got h => exact (late h (fun h => h)).elim
  | readDies i ends h => exact (late h (fun h => h)).elim
  | send i ends o got h => exact (late h (fun h => h)).elim
  | sendFails i ends o got h => exact (late h (fun h => h)).elim
  | sentLoad i ends h => exact (late h (fun h => h)).elim
  | sentStore i ends w h => exact (late h (fun h => h)).elim
  | terminate i left failed h hc => exact (late h (fun h => h)).elim
  | ret i failed h => exact (late h (fun h => h)).elim

theorem FloodCalm.owing {key : UpKey} {s s' : Daemon} (h : FloodCalm key s s') (t : Nat) : s'.Owing key t → s.Owing key t := by
  rintro ⟨h', cap, h1, h2⟩
  obtain ⟨g, h3, h4⟩ := (h t h' h1).1 cap h2
  exact ⟨g, cap, h3, h4⟩

theorem FloodCalm.acking {key : UpKey} {s s' : Daemon} (h : FloodCalm key s s') (t : Nat) : s'.Acking key t → s.Acking key t := by
  rintro ⟨h', h1, h2⟩
  exact (h t h' h1).2 h2

theorem owing_upd {key : UpKey} {s s' : Daemon} {t : Nat} {h : Handler} (hs : s'.handlers = upd s.handlers t (some h)) (i : Nat) (hi : i ≠ t) : s'.Owing key i → s.Owing key i := by
  rintro ⟨h', cap, h1, h2⟩
  rw [hs, upd_other _ _ hi] at h1
  exact ⟨h', cap, h1, h2⟩

theorem acking_upd {key : UpKey} {s s' : Daemon} {t : Nat} {h : Handler} (hs : s'.handlers = upd s.handlers t (some h)) (i : Nat) (hi : i ≠ t) : s'.Acking key i → s.Acking key i := by
  rintro ⟨h', h1, h2⟩
  rw [hs, upd_other _ _ hi] at h1
  exact ⟨h', h1, h2⟩

theorem not_owing_done {key : UpKey} {s' : Daemon} {f : Nat → Option Handler} {t : Nat} {h : Handler} (hs : s'.handlers = upd f t (some h)) (hd : h.pos = .done) : ¬ s'.Owing key t := by
  rintro ⟨h', cap, h1, h2⟩
  rw [hs, upd_same] at h1
  cases h1
  unfold Handler.Owes at h2
  rw [hd] at h2
  exact h2

theorem not_acking_done {key : UpKey} {s' : Daemon} {f : Nat → Option Handler} {t : Nat} {h : Handler} (hs : s'.handlers = upd f t (some h)) (hd : h.pos = .done) : ¬ s'.Acking key t := by
  rintro ⟨h', h1, h2⟩
  rw [hs, upd_same] at h1
  cases h1
  unfold Handler.Acking at h2
  rw [hd] at h2
  exact h2

/-- Requests for chunks, with whatever window. -/
def Spec.OpensAny (key : UpKey) (x : DmEv × Option Out × DmSys) : Prop := ∃ cap, Spec.Opens key cap x

theorem unacked_step {key : UpKey} {s s' : Daemon} {x : DmEv × Option Out × DmSys} (h : Unacked key (Spec.times (Spec.OpensAny key) tr) (Spec.times (Spec.Leaves key) tr) s)
    (hm : Moves key s s' x) (hx : ¬ Spec.Acks key x) : Unacked key (Spec.times (Spec.OpensAny key) (tr ++ [x])) (Spec.times (Spec.Leaves key) (tr ++ [x])) s' := by
  obtain ⟨h1, h2, a, b, h3, h4, h5⟩ := h
  cases hm with
  | other hc hu hs ho ha =>
    rw [times_no hs, times_no (fun ⟨cap, h⟩ => ho cap h)]
    refine ⟨fun t ht => h1 t (hc.acking t ht), by rw [hu]; exact h2, a, b, h3.mono hc.owing, ?_, h5⟩
    rw [hu]; exact h4
  | opens t hd cap hs ht hh hn hu hx ho ha =>
    rw [times_no hx, times_yes ⟨cap, ho⟩]
    refine ⟨fun i hi => ?_, by rw [hu]; exact h2, a + 1, b, h3.add t (owing_upd hs), by rw [hu]; exact h4, by omega⟩
    by_cases e : i = t
    · subst e
      obtain ⟨h', g1, g2⟩ := hi
      rw [hs, upd_same] at g1
      cases g1
      exact hn g2
    · exact h1 i (acking_upd hs i e hi)
  | acks t hd hs ht hh hn hu hx' ho ha => exact absurd ha hx
  | kicks t cap hd hd' u i hash size ht hh hs hdone hu hi hu' hx ho ha =>
    rw [times_no hx, times_no (fun ⟨cap, h⟩ => ho cap h)]
    obtain ⟨m, rfl, h6⟩ := h3.drop (q := s'.Owing key) (t := t) ⟨hd, cap, ht, hh⟩ (not_owing_done hs hdone) (fun i hi => by
      by_cases e : i = t
      · subst e; exact absurd hi (not_owing_done hs hdone)
      · exact owing_upd hs i e hi)
    have hu2 : u.mu.pending = 0 ∧ ∀ i, (u.mu.threads i).early := by
      rcases hu with hu | ⟨-, r, content, hu⟩
      · exact h2 u hu
      · rw [hu]; exact ⟨rfl, fun _ => trivial⟩
    refine ⟨fun i hi => ?_, ?_, m, b + 1, h6, h4.add i ?_, by omega⟩
    · by_cases e : i = t
      · subst e; exact not_acking_done hs hdone hi
      · exact h1 i (acking_upd hs i e hi)
    · intro v hv
      rw [hu'] at hv
      cases hv
      refine ⟨hu2.1, fun j => ?_⟩
      show ((u.mu.set i _).threads j).early
      by_cases hj : j = i
      · subst hj; rw [MuState.set_self]; trivial
      · rw [MuState.set_other hj]; exact hu2.2 j
    · rintro j hj ⟨v, hv, hv2⟩
      rw [hu'] at hv
      cases hv
      have hv3 : ((u.mu.set i (.reset hash size .none)).threads j).unsent := hv2
      rw [MuState.set_other hj] at hv3
      rcases hu with hu | ⟨-, r, content, hu⟩
      · exact ⟨u, hu, hv3⟩
      · rw [hu] at hv3; exact hv3.elim
  | passes t hd hd' u ht hh => exact absurd ⟨hd, ht, hh⟩ (h1 t)
  | runs u p mu hs hu hm hnew hack hu' hx ho ha =>
    rw [times_no (fun ⟨cap, h⟩ => ho cap h)]
    obtain ⟨g0, g0'⟩ := h2 u hu
    obtain ⟨g1, g2, g3⟩ := mu_unacked hm g0 g0' hnew hack
    have hown : ∀ i, s'.Owing key i → s.Owing key i := fun i => by unfold Daemon.Owing; rw [hs]; exact fun h => h
    have hle : ∀ i, (∃ v, s'.uploads key = some v ∧ (v.mu.threads i).unsent) → ∃ v, s.uploads key = some v ∧ (v.mu.threads i).unsent := by
      rintro i ⟨v, hv, hv2⟩
      rw [hu'] at hv
      cases hv
      exact ⟨u, hu, g2 i hv2⟩
    have e1 : ∀ t, ¬ s'.Acking key t := fun t => by unfold Daemon.Acking; rw [hs]; exact h1 t
    have e2 : ∀ v, s'.uploads key = some v → v.mu.pending = 0 ∧ ∀ i, (v.mu.threads i).early := by
      intro v hv
      rw [hu'] at hv
      cases hv
      exact ⟨by show mu.pending = 0; omega, g1⟩
    by_cases hp : p = none
    · rw [times_no (fun h => hx.1 h hp)]
      exact ⟨e1, e2, a, b, h3.mono hown, h4.mono hle, h5⟩
    · obtain ⟨i, i1, i2⟩ := g3 hp
      obtain ⟨m, rfl, h6⟩ := h4.drop (q := fun i => ∃ v, s'.uploads key = some v ∧ (v.mu.threads i).unsent) (t := i) ⟨u, hu, i1⟩ (by
        rintro ⟨v, hv, hv2⟩
        rw [hu'] at hv
        cases hv
        exact i2 hv2) hle
      rw [times_yes (hx.2 hp)]
      exact ⟨e1, e2, a, m, h3.mono hown, h6, by omega⟩
  | sees u now before hs hu hu' hx ho ha =>
    rw [times_no hx, times_no (fun ⟨cap, h⟩ => ho cap h)]
    refine ⟨fun t => by unfold Daemon.Acking; rw [hs]; exact h1 t, ?_, a, b, h3.mono (fun i => by unfold Daemon.Owing; rw [hs]; exact fun h => h), h4.mono ?_, h5⟩
    · intro v hv
      rw [hu'] at hv
      cases hv
      exact h2 u hu
    · rintro i ⟨v, hv, hv2⟩
      rw [hu'] at hv
      cases hv
      exact ⟨u, hu, hv2⟩

theorem atMost_none {p : Nat → Prop} (h : ∀ i, ¬ p i) : AtMost p 0 := ⟨[], Nat.le_refl 0, fun i hi => absurd hi (h i)⟩

/-- Death sends nothing to an upload. -/
theorem DmRun.sends_dead {s0 : Daemon} (h : DmRun env d port s0 tr .dead) : ∃ tr' x s, tr = tr' ++ [x] ∧ DmRun env d port s0 tr' (.alive s) ∧ ∀ key, ¬ Spec.Leaves key x := by
  generalize hx : DmSys.dead = x at h
  cases h with
  | refl => cases hx
  | step h1 hst =>
    subst hx
    exact ⟨_, _, _, rfl, h1, fun key ⟨p, hp⟩ => hst.quiet key p hp⟩

/-- **C127, the part that holds: requests that nobody acknowledges.**  Whatever arrives from whatever hosts, and whatever else the daemon does: as long as no acknowledgement came from an
address, no more packets have left for it than requests for chunks came from there.  Missing: a bound when acknowledgements come, see `C127_floods`. -/
theorem C127_unacked_partial {c : Cat} {fs : FS} {x : DmSys} (h : DmRun env d port (.fresh c fs) tr x) (key : UpKey) (ha : ∀ x ∈ tr, ¬ Spec.Acks key x) :
    Spec.times (Spec.Leaves key) tr ≤ Spec.times (Spec.OpensAny key) tr := by
  have main : ∀ {tr x}, DmRun env d port (.fresh c fs) tr x → (∀ x ∈ tr, ¬ Spec.Acks key x) → ∀ s, x = .alive s →
      Unacked key (Spec.times (Spec.OpensAny key) tr) (Spec.times (Spec.Leaves key) tr) s := by
    intro tr x h ha
    induction h with
    | refl =>
      rintro s hs
      cases hs
      refine ⟨fun t ⟨_, h, _⟩ => (nomatch h), fun u h => (nomatch h), 0, 0, atMost_none ?_, atMost_none ?_, Nat.le_refl 0⟩
      · rintro t ⟨_, _, h, _⟩; cases h
      · rintro t ⟨_, h, _⟩; cases h
    | step h1 hst ih =>
      rintro s rfl
      exact unacked_step (ih (fun x hx => ha x (List.mem_append_left _ hx)) _ rfl) (hst.moves key) (ha _ (List.mem_append_right _ List.mem_cons_self))
  have fin : ∀ {tr s}, DmRun env d port (.fresh c fs) tr (.alive s) → (∀ x ∈ tr, ¬ Spec.Acks key x) → Spec.times (Spec.Leaves key) tr ≤ Spec.times (Spec.OpensAny key) tr := by
    intro tr s h ha
    obtain ⟨-, -, a, b, -, -, h5⟩ := main h ha s rfl
    omega
  cases x with
  | alive s => exact fin h ha
  | dead =>
    obtain ⟨tr', y, s, rfl, h1, h2⟩ := h.sends_dead
    rw [times_no (h2 key)]
    exact Nat.le_trans (fin h1 (fun x hx => ha x (List.mem_append_left _ hx))) (times_le _ _)

/-! ## One request -/

/-- The only goroutine of an upload: `n` packets were sent, `k` acknowledgements were taken, `j` times the counter went below zero. -/
def Alone (m n k j : Nat) (cap ws : UInt16) : MuThread → Prop
  | .none => False
  | .reset _ _ _ | .first _ _ _ | .announce _ _ _ => n = 0 ∧ k = 0 ∧ j = 0 ∧ ws = 0
  | .firstLoad => n = 1 ∧ k = 0 ∧ j = 0 ∧ ws = 0
  | .firstStore w => n = 1 ∧ k = 0 ∧ j = 0 ∧ w = 0
  | .takeLoad => n + 1 + 65536 * j = k + ws.toNat ∧ n + 1 ≤ k + m
  | .takeStore w => w = ws ∧ n + 1 + 65536 * j = k + ws.toNat ∧ n + 1 ≤ k + m
  | .reading _ _ | .sending _ _ _ => n + 65536 * j = k + ws.toNat ∧ ws.toNat < cap.toNat
  | .sentLoad _ => n + 65536 * j = k + ws.toNat + 1 ∧ ws.toNat < cap.toNat
  | .sentStore _ w => w = ws ∧ n + 65536 * j = k + ws.toNat + 1 ∧ ws.toNat < cap.toNat
  | _ => n + 65536 * j = k + ws.toNat ∧ n ≤ k + m

theorem Alone.bound {m n k j : Nat} {cap ws : UInt16} {x : MuThread} (h : Alone m n k j cap ws x) (hm : 1 ≤ m) (hc : cap.toNat ≤ m) : n ≤ k + m := by
  cases x <;> simp only [Alone] at h <;> omega

/-- The upload of an address from which one request came. -/
structure OneUp (m n k : Nat) (u : MuState) : Prop where
  cap : u.windowCap.toNat ≤ m
  one : ∃ i j, (∀ l, l ≠ i → u.threads l = .none) ∧ Alone m n k j u.windowCap u.windowSize (u.threads i)

theorem mu_one {m n k : Nat} {s t : MuState} {p : Option Packet} (hm : MuStep s p t) (h : OneUp m n k s) (hm1 : 1 ≤ m) (hnew : ∀ i, s.threads i = .none → t.threads i = .none)
    (hack : t.pending ≤ s.pending) : ∃ k', OneUp m (if p = none then n else n + 1) k' t ∧ k' + t.pending = k + s.pending := by
  obtain ⟨hcap, i, j, hall, hal⟩ := h
  have act : ∀ {l : Nat} {x : MuThread}, s.threads l = x → x ≠ .none → l = i := by
    intro l x h1 h2
    apply Classical.byContradiction
    intro h3
    exact h2 (h1.symm.trans (hall l h3))
  have mv : ∀ {t : MuState} {n' k' : Nat} (l j' : Nat) (x y : MuThread), s.threads l = x → x ≠ .none → t.threads = (s.set l y).threads → t.windowCap = s.windowCap →
      (Alone m n k j s.windowCap s.windowSize x → Alone m n' k' j' s.windowCap t.windowSize y) → k' + t.pending = k + s.pending → ∃ k', OneUp m n' k' t ∧ k' + t.pending = k + s.pending := by
    intro t n' k' l j' x y h1 h2 h3 h4 h5 h6
    obtain rfl := act h1 h2
    refine ⟨k', ⟨by rw [h4]; exact hcap, l, j', fun l' hl => ?_, ?_⟩, h6⟩
    · rw [h3, MuState.set_other hl]; exact hall l' hl
    · rw [h3, MuState.set_self, h4]
      rw [h1] at hal
      exact h5 hal
  have hlt := s.windowCap.toNat_lt
  cases hm with
  | edit new => exact ⟨k, ⟨hcap, i, j, hall, hal⟩, rfl⟩
  | kickstart l hash size h => exact nomatch (MuState.set_self s l _).symm.trans (hnew l h)
  | resetLoad l hash size h => exact mv l j _ _ h nofun rfl rfl (fun h => h) rfl
  | resetStore l hash size a h =>
    by_cases hp : (RdPc.next s.reader s.now 0 .good (.seekStore a)).1 = .panicked
    · refine mv (k' := k) l j _ .dead h nofun (by rw [if_pos hp]; rfl) rfl (fun h => ?_) rfl
      obtain ⟨rfl, rfl, rfl, h4⟩ := h
      show 0 + 65536 * 0 = 0 + s.windowSize.toNat ∧ 0 ≤ 0 + m
      rw [h4]
      exact ⟨rfl, Nat.zero_le _⟩
    · exact mv (k' := k) l j _ (.first hash size .seek) h nofun (by rw [if_neg hp]; rfl) rfl (fun h => h) rfl
  | firstStep l hash size pc rd h => exact mv l j _ _ h nofun rfl rfl (fun h => h) rfl
  | firstDone l hash size o got err h => exact mv l j _ _ h nofun rfl rfl (fun h => h) rfl
  | firstFails l hash size o got h =>
    refine mv (k' := k) l j _ .exited h nofun rfl rfl (fun h => ?_) rfl
    obtain ⟨rfl, rfl, rfl, h4⟩ := h
    show 0 + 65536 * 0 = 0 + s.windowSize.toNat ∧ 0 ≤ 0 + m
    rw [h4]
    exact ⟨rfl, Nat.zero_le _⟩
  | firstDies l hash size h =>
    refine mv (k' := k) l j _ .dead h nofun rfl rfl (fun h => ?_) rfl
    obtain ⟨rfl, rfl, rfl, h4⟩ := h
    show 0 + 65536 * 0 = 0 + s.windowSize.toNat ∧ 0 ≤ 0 + m
    rw [h4]
    exact ⟨rfl, Nat.zero_le _⟩
  | sendFirst l hash size got h =>
    refine mv (k' := k) l j _ .firstLoad h nofun rfl rfl (fun h => ?_) rfl
    obtain ⟨rfl, rfl, rfl, h4⟩ := h
    exact ⟨rfl, rfl, rfl, h4⟩
  | sendFirstFails l hash size got h =>
    refine mv (k' := k) l j _ .exited h nofun rfl rfl (fun h => ?_) rfl
    obtain ⟨rfl, rfl, rfl, h4⟩ := h
    show 0 + 65536 * 0 = 0 + s.windowSize.toNat ∧ 0 ≤ 0 + m
    rw [h4]
    exact ⟨rfl, Nat.zero_le _⟩
  | firstLoad l h => exact mv l j _ (.firstStore _) h nofun rfl rfl (fun h => h) rfl
  | firstStore l w h =>
    refine mv (k' := k) l j _ .select h nofun rfl rfl (fun h => ?_) rfl
    obtain ⟨rfl, rfl, rfl, rfl⟩ := h
    exact ⟨rfl, by show 1 ≤ 0 + m; omega⟩
  | arrive => exact absurd hack (by show ¬ s.pending + 1 ≤ s.pending; omega)
  | take l h hp =>
    refine mv (k' := k + 1) l j _ .takeLoad h nofun rfl rfl (fun h => ?_) (by show k + 1 + (s.pending - 1) = _; omega)
    obtain ⟨h1, h2⟩ := h
    exact ⟨by show n + 1 + _ = k + 1 + s.windowSize.toNat; omega, by show n + 1 ≤ k + 1 + m; omega⟩
  | takeLoad l h => exact mv l j _ (.takeStore _) h nofun rfl rfl (fun h => ⟨rfl, h⟩) rfl
  | takeStore l w h =>
    by_cases hw : w = 0
    · subst hw
      refine mv (k' := k) l (j + 1) _ (.loop 0) h nofun rfl rfl (fun h => ?_) rfl
      obtain ⟨h0, h1, h2⟩ := h
      rw [← h0] at h1
      have h1 : n + 1 + 65536 * j = k + 0 := h1
      show n + 65536 * (j + 1) = k + 65535 ∧ n ≤ k + m
      omega
    · refine mv (k' := k) l j _ (.loop 0) h nofun rfl rfl (fun h => ?_) rfl
      obtain ⟨h0, h1, h2⟩ := h
      have hpos : 1 ≤ w.toNat := by
        rcases Nat.eq_zero_or_pos w.toNat with h | h
        · exact absurd (UInt16.toNat_inj.1 h) hw
        · exact h
      have e : (w - 1).toNat = w.toNat - 1 := UInt16.toNat_sub_of_le _ _ (by rw [UInt16.le_iff_toNat_le]; exact hpos)
      show n + 65536 * j = k + (w - 1).toNat ∧ n ≤ k + m
      rw [e]
      rw [← h0] at h1
      omega
  | cancel l h hc => exact mv l j _ .exited h nofun rfl rfl (fun h => h) rfl
  | more l ends h hw =>
    refine mv (k' := k) l j _ (.reading _ _) h nofun rfl rfl (fun h => ⟨h.1, ?_⟩) rfl
    rw [UInt16.lt_iff_toNat_lt] at hw
    exact hw
  | full l ends h hw => exact mv l j _ (.defers _ _) h nofun rfl rfl (fun h => h) rfl
  | readStep l ends pc rd h hb => exact mv l j _ (.reading _ _) h nofun rfl rfl (fun h => h) rfl
  | readDone l ends o got err h hb => exact mv l j _ (.sending _ _ _) h nofun rfl rfl (fun h => h) rfl
  | readFails l ends o got h => exact mv (k' := k) l j _ (.defers _ _) h nofun rfl rfl (fun h => ⟨h.1, h.bound hm1 hcap⟩) rfl
  | readDies l ends h => exact mv (k' := k) l j _ (.defers _ _) h nofun rfl rfl (fun h => ⟨h.1, h.bound hm1 hcap⟩) rfl
  | send l ends o got h =>
    refine mv (k' := k) l j _ (.sentLoad _) h nofun rfl rfl (fun h => ?_) rfl
    exact ⟨by show n + 1 + _ = k + s.windowSize.toNat + 1; have := h.1; omega, h.2⟩
  | sendFails l ends o got h => exact mv (k' := k) l j _ (.defers _ _) h nofun rfl rfl (fun h => ⟨h.1, h.bound hm1 hcap⟩) rfl
  | sentLoad l ends h => exact mv l j _ (.sentStore _ _) h nofun rfl rfl (fun h => ⟨rfl, h⟩) rfl
  | sentStore l ends w h =>
    refine mv (k' := k) l j _ (.loop _) h nofun rfl rfl (fun h => ?_) rfl
    obtain ⟨h0, h1, h2⟩ := h
    have e : (w + 1).toNat = w.toNat + 1 := by
      rw [UInt16.toNat_add, h0]
      show (s.windowSize.toNat + 1) % 65536 = _
      omega
    show n + 65536 * j = k + (w + 1).toNat ∧ n ≤ k + m
    rw [e, h0]
    omega
  | terminate l left failed h hc => exact mv l j _ (.defers _ _) h nofun rfl rfl (fun h => h) rfl
  | ret l failed h =>
    refine mv (k' := k) l j _ _ h nofun rfl rfl (fun h => ?_) rfl
    cases failed <;> exact h

/-- One request has come. -/
structure Once (key : UpKey) (m opens sends acks : Nat) (s : Daemon) : Prop where
  caps : ∀ t h cap, s.handlers t = some h → h.Owes key cap → cap.toNat ≤ m
  count : ∃ a b, AtMost (s.Owing key) a ∧ AtMost (fun i => ∃ u, s.uploads key = some u ∧ u.mu.threads i ≠ .none) b ∧ a + b ≤ opens
  win : ∃ g, AtMost (s.Acking key) g ∧ (s.uploads key = none → sends = 0 ∧ g ≤ acks) ∧ ∀ u, s.uploads key = some u → ∃ k, OneUp m sends k u.mu ∧ g + u.mu.pending + k ≤ acks

theorem once_step {key : UpKey} {m : Nat} {s s' : Daemon} {x : DmEv × Option Out × DmSys} (hm1 : 1 ≤ m)
    (h : Once key m (Spec.times (Spec.OpensAny key) tr) (Spec.times (Spec.Leaves key) tr) (Spec.times (Spec.Acks key) tr) s)
    (hm : Moves key s s' x) (hx : ∀ cap, Spec.Opens key cap x → cap.toNat ≤ m) (hle : Spec.times (Spec.OpensAny key) (tr ++ [x]) ≤ 1) :
    Once key m (Spec.times (Spec.OpensAny key) (tr ++ [x])) (Spec.times (Spec.Leaves key) (tr ++ [x])) (Spec.times (Spec.Acks key) (tr ++ [x])) s' := by
  obtain ⟨h1, ⟨a, b, h2, h3, h4⟩, g, h5, h6, h7⟩ := h
  have capsUpd : ∀ {t : Nat} {hd : Handler}, s'.handlers = upd s.handlers t (some hd) → (∀ cap, hd.Owes key cap → cap.toNat ≤ m) →
      ∀ t h cap, s'.handlers t = some h → h.Owes key cap → cap.toNat ≤ m := by
    intro t hd hs hcap t' h cap g1 g2
    rw [hs] at g1
    by_cases e : t' = t
    · subst e; rw [upd_same] at g1; cases g1; exact hcap cap g2
    · rw [upd_other _ _ e] at g1; exact h1 t' h cap g1 g2
  have done : ∀ {hd : Handler}, hd.pos = .done → ∀ cap, hd.Owes key cap → cap.toNat ≤ m := by
    intro hd h cap h2
    unfold Handler.Owes at h2
    rw [h] at h2
    exact h2.elim
  cases hm with
  | other hc hu hs ho ha =>
    rw [times_no hs, times_no (fun ⟨cap, h⟩ => ho cap h), times_no ha]
    refine ⟨fun t h cap g1 g2 => ?_, ⟨a, b, h2.mono hc.owing, by rw [hu]; exact h3, h4⟩, g, h5.mono hc.acking, by rw [hu]; exact h6, by rw [hu]; exact h7⟩
    obtain ⟨h', g3, g4⟩ := (hc t h g1).1 cap g2
    exact h1 t h' cap g3 g4
  | opens t hd cap hs ht hh hn hu hx' ho ha =>
    rw [times_no hx', times_yes ⟨cap, ho⟩, times_no ha]
    refine ⟨capsUpd hs fun cap' h' => ?_, ⟨a + 1, b, h2.add t (owing_upd hs), by rw [hu]; exact h3, by omega⟩, g, h5.mono fun i hi => ?_, by rw [hu]; exact h6, by rw [hu]; exact h7⟩
    · have : cap' = cap := by
        rcases hd with ⟨ret, pos⟩
        cases pos with
        | asked m =>
          cases m with
          | openReq => exact h'.2.symm.trans hh.2
          | _ => exact hh.elim
        | known => exact h'.2.symm.trans hh.2
        | opened => exact h'.2.symm.trans hh.2
        | _ => exact hh.elim
      rw [this]; exact hx cap ho
    · by_cases e : i = t
      · subst e
        obtain ⟨h', g1, g2⟩ := hi
        rw [hs, upd_same] at g1
        cases g1
        exact absurd g2 hn
      · exact acking_upd hs i e hi
  | acks t hd hs ht hh hn hu hx' ho ha =>
    rw [times_no hx', times_no (fun ⟨cap, h⟩ => ho cap h), times_yes ha]
    refine ⟨capsUpd hs fun cap h => absurd h (hn cap), ⟨a, b, h2.mono fun i hi => ?_, by rw [hu]; exact h3, h4⟩, g + 1, h5.add t (acking_upd hs), fun hu0 => ?_, fun u hu0 => ?_⟩
    · by_cases e : i = t
      · subst e
        obtain ⟨h', cap, g1, g2⟩ := hi
        rw [hs, upd_same] at g1
        cases g1
        exact absurd g2 (hn cap)
      · exact owing_upd hs i e hi
    · rw [hu] at hu0
      have := h6 hu0
      omega
    · rw [hu] at hu0
      obtain ⟨k, g1, g2⟩ := h7 u hu0
      exact ⟨k, g1, by omega⟩
  | kicks t cap hd hd' u i hash size ht hh hs hdone hu hi hu' hx' ho ha =>
    have hle' : Spec.times (Spec.OpensAny key) tr ≤ 1 := Nat.le_trans (times_le _ _) hle
    have hpos := h2.pos (t := t) ⟨hd, cap, ht, hh⟩
    obtain ⟨hu0, r, content, hinit⟩ : s.uploads key = none ∧ ∃ r content, u.mu = .init r cap content := by
      rcases hu with hu | hu
      · obtain ⟨k, ⟨-, l, j, -, hal⟩, -⟩ := h7 u hu
        have := h3.pos (t := l) ⟨u, hu, fun e => by rw [e] at hal; exact hal⟩
        omega
      · exact hu
    rw [times_no hx', times_no (fun ⟨cap, h⟩ => ho cap h), times_no ha]
    obtain ⟨e1, e2⟩ := h6 hu0
    obtain ⟨q, rfl, h8⟩ := h2.drop (q := s'.Owing key) (t := t) ⟨hd, cap, ht, hh⟩ (not_owing_done hs hdone) (fun i hi => by
      by_cases e : i = t
      · subst e; exact absurd hi (not_owing_done hs hdone)
      · exact owing_upd hs i e hi)
    refine ⟨capsUpd hs (done hdone), ⟨q, b + 1, h8, h3.add i ?_, by omega⟩, g, h5.mono fun l hl => ?_, fun h => ?_, fun v hv => ?_⟩
    · rintro j hj ⟨v, hv, hv2⟩
      rw [hu'] at hv
      cases hv
      have hv3 : (u.mu.set i (.reset hash size .none)).threads j ≠ .none := hv2
      rw [MuState.set_other hj, hinit] at hv3
      exact absurd rfl hv3
    · by_cases e : l = t
      · subst e; exact absurd hl (not_acking_done hs hdone)
      · exact acking_upd hs l e hl
    · rw [hu'] at h; cases h
    · rw [hu'] at hv
      cases hv
      rw [hinit, e1]
      refine ⟨0, ⟨h1 t hd cap ht hh, i, 0, fun l hl => ?_, ?_⟩, ?_⟩
      · show ((MuState.init r cap content).set i _).threads l = _
        rw [MuState.set_other hl]; rfl
      · show Alone m 0 0 0 cap 0 (((MuState.init r cap content).set i _).threads i)
        rw [MuState.set_self]
        exact ⟨rfl, rfl, rfl, rfl⟩
      · show g + 0 + 0 ≤ _
        omega
  | passes t hd hd' u ht hh hs hdone hu hu' hx' ho ha =>
    rw [times_no hx', times_no (fun ⟨cap, h⟩ => ho cap h), times_no ha]
    obtain ⟨q, rfl, h8⟩ := h5.drop (q := s'.Acking key) (t := t) ⟨hd, ht, hh⟩ (not_acking_done hs hdone) (fun i hi => by
      by_cases e : i = t
      · subst e; exact absurd hi (not_acking_done hs hdone)
      · exact acking_upd hs i e hi)
    refine ⟨capsUpd hs (done hdone), ⟨a, b, h2.mono fun i hi => ?_, h3.mono ?_, h4⟩, q, h8, fun h => ?_, fun v hv => ?_⟩
    · by_cases e : i = t
      · subst e; exact absurd hi (not_owing_done hs hdone)
      · exact owing_upd hs i e hi
    · rintro i ⟨v, hv, hv2⟩
      rw [hu'] at hv
      cases hv
      exact ⟨u, hu, hv2⟩
    · rw [hu'] at h; cases h
    · rw [hu'] at hv
      cases hv
      obtain ⟨k, ⟨g1, g2⟩, g3⟩ := h7 u hu
      exact ⟨k, ⟨g1, g2⟩, by show q + (u.mu.pending + 1) + k ≤ _; omega⟩
  | runs u p mu hs hu hm hnew hack hu' hx' ho ha =>
    rw [times_no (fun ⟨cap, h⟩ => ho cap h), times_no ha]
    obtain ⟨k, g1, g2⟩ := h7 u hu
    obtain ⟨k', g3, g4⟩ := mu_one hm g1 hm1 hnew hack
    have e : Spec.times (Spec.Leaves key) (tr ++ [x]) = if p = none then Spec.times (Spec.Leaves key) tr else Spec.times (Spec.Leaves key) tr + 1 := by
      split
      · rename_i hp; rw [times_no (fun h => hx'.1 h hp)]
      · rename_i hp; rw [times_yes (hx'.2 hp)]
    refine ⟨by rw [hs]; exact h1, ⟨a, b, h2.mono (fun i => by unfold Daemon.Owing; rw [hs]; exact fun h => h), h3.mono ?_, h4⟩, g,
      h5.mono (fun i => by unfold Daemon.Acking; rw [hs]; exact fun h => h), fun h => ?_, fun v hv => ?_⟩
    · rintro i ⟨v, hv, hv2⟩
      rw [hu'] at hv
      cases hv
      exact ⟨u, hu, fun h => hv2 (hnew i h)⟩
    · rw [hu'] at h; cases h
    · rw [hu'] at hv
      cases hv
      exact ⟨k', by rw [e]; exact g3, by show g + mu.pending + k' ≤ _; omega⟩
  | sees u now before hs hu hu' hx' ho ha =>
    rw [times_no hx', times_no (fun ⟨cap, h⟩ => ho cap h), times_no ha]
    refine ⟨by rw [hs]; exact h1, ⟨a, b, h2.mono (fun i => by unfold Daemon.Owing; rw [hs]; exact fun h => h), h3.mono ?_, h4⟩, g,
      h5.mono (fun i => by unfold Daemon.Acking; rw [hs]; exact fun h => h), fun h => ?_, fun v hv => ?_⟩
    · rintro i ⟨v, hv, hv2⟩
      rw [hu'] at hv
      cases hv
      exact ⟨u, hu, hv2⟩
    · rw [hu'] at h; cases h
    · rw [hu'] at hv
      cases hv
      obtain ⟨k, ⟨g1, g2⟩, g3⟩ := h7 u hu
      exact ⟨k, ⟨g1, g2⟩, g3⟩

/-- **C127, the part that holds: one request.**  Whatever arrives from whatever hosts, and whatever else the daemon does: if no more than one request for a chunk came from an address, with a
window of at most `m` packets, then the packets that have left for it are at most those that were acknowledged and `m` more (one, if `m` is zero), even if acknowledgements came for
packets that were not sent.  Missing: several requests, see C104. -/
theorem C127_once_partial {c : Cat} {fs : FS} {x : DmSys} (h : DmRun env d port (.fresh c fs) tr x) (key : UpKey) (m : Nat) (ho : Spec.times (Spec.OpensAny key) tr ≤ 1)
    (hw : ∀ x ∈ tr, ∀ cap, Spec.Opens key cap x → cap.toNat ≤ m) : Spec.times (Spec.Leaves key) tr ≤ Spec.times (Spec.Acks key) tr + max 1 m := by
  have main : ∀ {tr x}, DmRun env d port (.fresh c fs) tr x → Spec.times (Spec.OpensAny key) tr ≤ 1 → (∀ x ∈ tr, ∀ cap, Spec.Opens key cap x → cap.toNat ≤ m) → ∀ s, x = .alive s →
      Once key (max 1 m) (Spec.times (Spec.OpensAny key) tr) (Spec.times (Spec.Leaves key) tr) (Spec.times (Spec.Acks key) tr) s := by
    intro tr x h ho hw
    induction h with
    | refl =>
      rintro s hs
      cases hs
      refine ⟨fun t h cap h1 => (nomatch h1), ⟨0, 0, atMost_none ?_, atMost_none ?_, Nat.le_refl 0⟩, 0, atMost_none ?_, fun _ => ⟨rfl, Nat.zero_le _⟩, fun u h => (nomatch h)⟩
      · rintro t ⟨_, _, h, _⟩; cases h
      · rintro t ⟨_, h, _⟩; cases h
      · rintro t ⟨_, h, _⟩; cases h
    | step h1 hst ih =>
      rintro s rfl
      refine once_step (by omega) (ih (Nat.le_trans (times_le _ _) ho) (fun x hx => hw x (List.mem_append_left _ hx)) _ rfl) (hst.moves key) (fun cap hc => ?_) ho
      have := hw _ (List.mem_append_right _ List.mem_cons_self) cap hc
      omega
  have fin : ∀ {tr s}, DmRun env d port (.fresh c fs) tr (.alive s) → Spec.times (Spec.OpensAny key) tr ≤ 1 → (∀ x ∈ tr, ∀ cap, Spec.Opens key cap x → cap.toNat ≤ m) →
      Spec.times (Spec.Leaves key) tr ≤ Spec.times (Spec.Acks key) tr + max 1 m := by
    intro tr s h ho hw
    obtain ⟨-, -, g, -, h1, h2⟩ := main h ho hw s rfl
    cases hu : s.uploads key with
    | none => have := h1 hu; omega
    | some u =>
      obtain ⟨k, ⟨hc, i, j, -, hal⟩, h3⟩ := h2 u hu
      have := hal.bound (by omega) hc
      omega
  cases x with
  | alive s => exact fin h ho hw
  | dead =>
    obtain ⟨tr', y, s, rfl, h1, h2⟩ := h.sends_dead
    rw [times_no (h2 key)]
    have g1 := fin h1 (Nat.le_trans (times_le _ _) ho) (fun x hx => hw x (List.mem_append_left _ hx))
    have g2 := times_le (tr := tr') (Spec.Acks key) y
    omega

/-! ## Answers -/

theorem udpSend_small {b : Bool} {bytes : Bytes} {s s' : Srv} {u : Unit} (h : IOM.lift (udpSend b bytes) s = (.ok u, s')) : bytes.length ≤ 65507 := by
  rw [IOM.lift_apply] at h
  have h1 := (Prod.mk.inj h).1
  unfold udpSend at h1
  split at h1
  · rename_i h2; exact h2.2
  · cases h1

/-- An answer goes to who asked, and fits a datagram. -/
theorem replyTo_sent {w : Wire} {ret : Addr} {m : Msg} {f : SM Done} {s s' : Srv} {ip bytes : Bytes} {to : Nat} (hm : replyTo port w ret m = some f) (hrun : f s = (.ok (.sent ip to bytes), s')) :
    ip = ret.ip.bytes ∧ bytes.length ≤ 65507 := by
  unfold replyTo at hm
  split at hm
  · cases hm
    unfold respondToDiscoverHosts at hrun
    obtain ⟨_, _, -, hrun⟩ := (IOM.bind_ok_iff _ _ _ _ _).1 hrun
    obtain ⟨_, _, -, hrun⟩ := (IOM.bind_ok_iff _ _ _ _ _).1 hrun
    obtain ⟨_, _, -, hrun⟩ := (IOM.bind_ok_iff _ _ _ _ _).1 hrun
    obtain ⟨_, _, h3, hrun⟩ := (IOM.bind_ok_iff _ _ _ _ _).1 hrun
    cases hrun
    exact ⟨rfl, udpSend_small h3⟩
  · cases hm
    unfold respondToListFiles at hrun
    split at hrun
    · obtain ⟨_, _, -, hrun⟩ := (IOM.bind_ok_iff _ _ _ _ _).1 hrun
      obtain ⟨_, _, h3, hrun⟩ := (IOM.bind_ok_iff _ _ _ _ _).1 hrun
      cases hrun
      exact ⟨rfl, udpSend_small h3⟩
    · obtain ⟨_, _, -, hrun⟩ := (IOM.bind_ok_iff _ _ _ _ _).1 hrun
      obtain ⟨_, _, -, hrun⟩ := (IOM.bind_ok_iff _ _ _ _ _).1 hrun
      obtain ⟨_, _, h3, hrun⟩ := (IOM.bind_ok_iff _ _ _ _ _).1 hrun
      cases hrun
      exact ⟨rfl, udpSend_small h3⟩
  · cases hm

/-- The goroutine is going to answer the host. -/
def Handler.Due (ip : Bytes) (h : Handler) : Prop :=
  match h.pos with
  | .asked (.discoverReq _ _ _) | .asked (.listReq _ _) => h.ret.ip.bytes = ip
  | _ => False

def Daemon.Due (s : Daemon) (ip : Bytes) (t : Nat) : Prop := ∃ h, s.handlers t = some h ∧ h.Due ip

theorem due_step {ip : Bytes} {s s' : Daemon} {e : DmEv} {o : Option Out} (hs : DmStep env d port s e o (.alive s')) {n : Nat} (h : AtMost (s.Due ip) n)
    (hn : Spec.times (Spec.Replies ip) tr + n ≤ Spec.times (Spec.Queries ip) tr) :
    ∃ n', AtMost (s'.Due ip) n' ∧ Spec.times (Spec.Replies ip) (tr ++ [(e, o, .alive s')]) + n' ≤ Spec.times (Spec.Queries ip) (tr ++ [(e, o, .alive s')]) := by
  have quiet : ∀ {o : Option Out} {e : DmEv} {x : DmSys}, (∀ i p b, o ≠ some (.answer i p b)) → ¬ Spec.Replies ip (e, o, x) := fun h ⟨p, b, h1⟩ => h _ p b h1
  have same : ∀ {s' : Daemon} {e : DmEv} {o : Option Out}, (∀ i p b, o ≠ some (.answer i p b)) → (∀ t, s'.Due ip t → s.Due ip t) →
      ∃ n', AtMost (s'.Due ip) n' ∧ Spec.times (Spec.Replies ip) (tr ++ [(e, o, .alive s')]) + n' ≤ Spec.times (Spec.Queries ip) (tr ++ [(e, o, .alive s')]) := by
    intro s' e o h1 h2
    refine ⟨n, h.mono h2, ?_⟩
    rw [times_no (quiet h1)]
    have := times_le (tr := tr) (Spec.Queries ip) (e, o, .alive s')
    omega
  have upds : ∀ {s' : Daemon} {t : Nat} {hd : Handler}, s'.handlers = upd s.handlers t (some hd) → ¬ hd.Due ip → ∀ t', s'.Due ip t' → s.Due ip t' := by
    rintro s' t hd h1 h2 t' ⟨h', g1, g2⟩
    rw [h1] at g1
    by_cases e : t' = t
    · subst e; rw [upd_same] at g1; cases g1; exact absurd g2 h2
    · rw [upd_other _ _ e] at g1; exact ⟨h', g1, g2⟩
  cases hs with
  | loop a l h => exact same nofun (fun _ h => h)
  | arrives t dg ret m ht hp =>
    by_cases h1 : (Handler.mk ret (.asked m)).Due ip
    · refine ⟨n + 1, h.add t ?_, ?_⟩
      · rintro t' hne ⟨h', g1, g2⟩
        exact ⟨h', (upd_other s.handlers _ hne).symm.trans g1, g2⟩
      · rw [times_no (quiet (by intro _ _ _ h; cases h)), times_yes]
        · omega
        · refine ⟨dg, ret, rfl, ?_⟩
          cases m with
          | discoverReq r h q => exact ⟨h1, .inl ⟨r, h, q, hp⟩⟩
          | listReq r h => exact ⟨h1, .inr ⟨r, h, hp⟩⟩
          | _ => exact h1.elim
    · exact same nofun (upds rfl h1)
  | garbage dg ret e hp => exact same nofun (fun _ h => h)
  | replies t hd m w fl f ip' to bytes s' ht hp hm hrun =>
    obtain ⟨rfl, hb⟩ := replyTo_sent hm hrun
    by_cases hi : hd.ret.ip.bytes = ip
    · obtain ⟨q, rfl, h8⟩ := h.drop (q := (s.after s'.st t hd .done).Due ip) (t := t) ⟨hd, ht, by
        unfold Handler.Due
        rw [hp]
        unfold replyTo at hm
        split at hm
        · exact hi
        · exact hi
        · cases hm⟩ (by
        rintro ⟨h', g1, g2⟩
        have g1 : upd s.handlers t _ t = some h' := g1
        rw [upd_same] at g1
        cases g1
        exact g2) (upds rfl (fun h => h))
      refine ⟨q, h8, ?_⟩
      rw [times_yes ⟨to, bytes, by rw [hi]⟩]
      have := times_le (tr := tr) (Spec.Queries ip) (.handler t, some (.answer hd.ret.ip.bytes to bytes), .alive (s.after s'.st t hd .done))
      omega
    · refine ⟨n, h.mono (upds rfl (fun h => h)), ?_⟩
      rw [times_no]
      · have := times_le (tr := tr) (Spec.Queries ip) (.handler t, some (.answer hd.ret.ip.bytes to bytes), .alive (s.after s'.st t hd .done))
        omega
      · rintro ⟨p, b, h⟩
        cases h
        exact hi rfl
  | uploads k u p mu =>
    refine same ?_ (fun _ h => h)
    intro _ _ _ h
    cases p <;> cases h
  | sees | discovery => exact same nofun (fun _ h => h)
  | _ => exact same (by intro _ _ _ h; cases h) (upds rfl (fun h => h))

/-- **C127, for searches and listings.**  Whatever arrives from whatever hosts, and whatever else the daemon does: no more answers have left for a host than searches and requests for a listing
came from it, and no answer is longer than one datagram can be. -/
theorem C127_answers {c : Cat} {fs : FS} {x : DmSys} (h : DmRun env d port (.fresh c fs) tr x) (ip : Bytes) :
    Spec.times (Spec.Replies ip) tr ≤ Spec.times (Spec.Queries ip) tr ∧ ∀ e to bytes y, (e, some (.answer ip to bytes), y) ∈ tr → bytes.length ≤ 65507 := by
  refine ⟨?_, ?_⟩
  · have main : ∀ {tr x}, DmRun env d port (.fresh c fs) tr x → ∀ s, x = .alive s → ∃ n, AtMost (s.Due ip) n ∧ Spec.times (Spec.Replies ip) tr + n ≤ Spec.times (Spec.Queries ip) tr := by
      intro tr x h
      induction h with
      | refl =>
        rintro s hs
        cases hs
        exact ⟨0, atMost_none (by rintro t ⟨_, h, _⟩; cases h), Nat.le_refl 0⟩
      | step h1 hst ih =>
        rintro s rfl
        obtain ⟨n, h2, h3⟩ := ih _ rfl
        exact due_step hst h2 h3
    cases x with
    | alive s =>
      obtain ⟨n, -, h2⟩ := main h s rfl
      omega
    | dead =>
      generalize hx : DmSys.dead = x at h
      cases h with
      | refl => cases hx
      | @step tr s x e o h1 hst =>
        subst hx
        obtain ⟨n, -, h2⟩ := main h1 s rfl
        have hno : ¬ Spec.Replies ip (e, o, .dead) := by
          rintro ⟨p, b, hp⟩
          have hp : o = some (.answer ip p b) := hp
          subst hp
          generalize hz : some (Out.answer ip p b) = o at hst
          generalize hx : DmSys.dead = x at hst
          cases hst <;> first | (cases hx; done) | (cases hz; done)
        rw [times_no hno]
        have := times_le (tr := tr) (Spec.Queries ip) (e, o, .dead)
        omega
  · intro e to bytes y hmem
    induction h with
    | refl => cases hmem
    | step h1 hst ih =>
      rcases List.mem_append.1 hmem with hmem | hmem
      · exact ih hmem
      · cases List.mem_singleton.1 hmem
        generalize hz : some (Out.answer ip to bytes) = o at hst
        cases hst with
        | replies t hd m w fl f ip' to' bytes' s' ht hp hm hrun =>
          cases hz
          exact (replyTo_sent hm hrun).2
        | uploads k u p mu => cases p <;> cases hz
        | _ => cases hz

/-! ## Two datagrams, and a whole chunk leaves -/

/-- An upload with one goroutine. -/
def MuState.solo (r : SectionReader) (off : Nat) (ws cap : UInt16) (pending : Nat) (content : Bytes) (x : MuThread) : MuState :=
  ⟨{ r with off := off }, ws, cap, pending, false, fun j => if j = 0 then x else .none, content, []⟩

/-- In some run the upload to `key` is this, `n` packets have left for it, and one request and `q` acknowledgements have come from there. -/
def Drawn (env : Env) (d : Path) (port : Nat) (c : Cat) (fs : FS) (key : UpKey) (n q : Nat) (path : Path) (mu : MuState) : Prop :=
  ∃ tr s, DmRun env d port (.fresh c fs) tr (.alive s) ∧ s.uploads key = some ⟨path, mu⟩ ∧ Spec.times (Spec.Leaves key) tr = n ∧ Spec.times (Spec.Acks key) tr = q ∧
    Spec.times (Spec.OpensAny key) tr = 1 ∧ Spec.times (Spec.Comes key) tr = 1 + q

/-- Other events than datagrams do not count. -/
theorem not_comes {key : UpKey} {ev : DmEv} {o : Option Out} {x : DmSys} (h : ∀ dg ret, ev ≠ .datagram dg ret) :
    ¬ Spec.Acks key (ev, o, x) ∧ ¬ Spec.OpensAny key (ev, o, x) ∧ ¬ Spec.Comes key (ev, o, x) :=
  ⟨fun ⟨dg, ret, _, h1, _⟩ => h dg ret h1, fun ⟨_, dg, ret, _, _, h1, _⟩ => h dg ret h1, fun ⟨dg, ret, h1, _⟩ => h dg ret h1⟩

section
variable {c : Cat} {fs : FS} {key : UpKey} {n q : Nat} {path : Path} {r : SectionReader} {off : Nat} {ws cap : UInt16} {pending : Nat} {content : Bytes} {x : MuThread}

theorem Drawn.next {p : Option Packet} {mu : MuState} (h : Drawn env d port c fs key n q path (.solo r off ws cap pending content x))
    (hs : MuStep (.solo r off ws cap pending content x) p mu) (off' : Nat) (ws' : UInt16) (pending' : Nat) (y : MuThread) (he : mu = .solo r off' ws' cap pending' content y) (hx : x ≠ .none) (hy : y ≠ .dead)
    (hp : pending' ≤ pending) : Drawn env d port c fs key (if p = none then n else n + 1) q path (.solo r off' ws' cap pending' content y) := by
  obtain ⟨tr, s, h1, h2, h3, h4, h5, h6⟩ := h
  subst he
  have no : ∀ {o : Option Out} {x : DmSys}, ¬ Spec.Acks key (.upload key, o, x) ∧ ¬ Spec.OpensAny key (.upload key, o, x) ∧ ¬ Spec.Comes key (.upload key, o, x) :=
    not_comes (by intro _ _ h; cases h)
  refine ⟨_, _, .step h1 (.uploads s key _ p _ h2 hs ?_ hp rfl ?_), upd_same _ _ _, ?_, by rw [times_no no.1, h4], by rw [times_no no.2.1, h5], by rw [times_no no.2.2, h6]⟩
  · intro i hi
    have : i ≠ 0 := by
      rintro rfl
      exact hx hi
    show (if i = 0 then y else MuThread.none) = .none
    rw [if_neg this]
  · intro i
    show (if i = 0 then y else MuThread.none) ≠ .dead
    split
    · exact hy
    · nofun
  · cases p with
    | none => rw [if_pos rfl, times_no (fun ⟨_, h⟩ => nomatch h), h3]
    | some p => rw [if_neg (by simp), times_yes ⟨p, rfl⟩, h3]

theorem solo_set (off' : Nat) (y : MuThread) : ((MuState.solo r off ws cap pending content x).set 0 y).move off' = .solo r off' ws cap pending content y := by
  unfold MuState.solo MuState.set MuState.move
  congr 1
  funext j
  simp only []
  by_cases h : j = 0
  · rw [if_pos h, if_pos h]
  · rw [if_neg h, if_neg h, if_neg h]

theorem solo_set' (ws' : UInt16) (pending' : Nat) (y : MuThread) :
    { (MuState.solo r off ws cap pending content x).set 0 y with windowSize := ws', pending := pending' } = .solo r off ws' cap pending' content y := by
  exact congrArg (fun s : MuState => { s with windowSize := ws', pending := pending' }) (solo_set off y)

/-- One access in `Read` by the worker. -/
theorem Drawn.reads {ends : Nat} {pc pc' : RdPc} {off' : Nat} (h : Drawn env d port c fs key n q path (.solo r off ws cap pending content (.reading ends pc)))
    (hb : pc.busy = true) (hn : RdPc.next { r with off := off } content 1024 .good pc = (pc', off')) :
    Drawn env d port c fs key n q path (.solo r off' ws cap pending content (.reading ends pc')) := by
  refine h.next (p := none) (.readStep _ 0 ends pc .good rfl hb) off' ws pending (.reading ends pc') ?_ nofun nofun (Nat.le_refl _)
  rw [show RdPc.next (MuState.solo r off ws cap pending content (.reading ends pc)).reader (MuState.solo r off ws cap pending content (.reading ends pc)).now 1024 .good pc = (pc', off') from hn]
  exact solo_set _ _

/-- The worker reads, whatever is left of the section and of the file. -/
theorem Drawn.read {ends : Nat} (h : Drawn env d port c fs key n q path (.solo r off ws cap pending content (.reading ends .seek))) (h1 : r.base ≤ off) (h2 : off ≤ r.base + 4294967295)
    (h3 : r.limit ≤ r.base + 4294967295) :
    ∃ off' o got err, r.base ≤ off' ∧ off' ≤ r.base + 4294967295 ∧ err ≠ some .other ∧ Drawn env d port c fs key n q path (.solo r off' ws cap pending content (.reading ends (.done o got err))) := by
  have b1 := h.reads rfl rfl
  have b2 := b1.reads (pc' := .test (UInt32.ofNat (off - r.base))) (off' := off) rfl (by
    show (if off < r.base then _ else if 4294967295 < off - r.base then _ else _) = _
    rw [if_neg (by omega), if_neg (by omega)])
  by_cases hl : r.limit ≤ off
  · have b3 := b2.reads (pc' := .done (UInt32.ofNat (off - r.base)) [] (some .eof)) (off' := off) rfl (by
      show ((if r.limit ≤ off then _ else _), off) = _
      rw [if_pos hl])
    exact ⟨_, _, _, some .eof, h1, h2, nofun, b3⟩
  · have b3 := b2.reads (pc' := .clip (UInt32.ofNat (off - r.base))) (off' := off) rfl (by
      show ((if r.limit ≤ off then _ else _), off) = _
      rw [if_neg hl])
    have b4 := b3.reads (pc' := .fetch (UInt32.ofNat (off - r.base)) (min 1024 (r.limit - off))) (off' := off) rfl (by
      show ((if r.limit < off then _ else _), off) = _
      rw [if_neg (by omega)])
    have b5 := b4.reads rfl rfl
    have b6 := b5.reads rfl rfl
    have b7 := b6.reads rfl rfl
    refine ⟨_, _, _, _, ?_, ?_, ?_, b7⟩
    · exact Nat.le_trans h1 (Nat.le_add_right _ _)
    · have : ((content.drop off).take (min 1024 (r.limit - off))).length ≤ r.limit - off := by simp; omega
      show off + ((content.drop off).take (min 1024 (r.limit - off))).length ≤ _
      omega
    · show (if _ then _ else _) ≠ _
      split <;> nofun

/-- The worker sends a packet: of the chunk, or an empty one if the end was reached. -/
theorem Drawn.packet {ends : Nat} (h : Drawn env d port c fs key n q path (.solo r off ws cap pending content (.loop ends))) (hw : ws.toNat < cap.toNat) (h1 : r.base ≤ off)
    (h2 : off ≤ r.base + 4294967295) (h3 : r.limit ≤ r.base + 4294967295) :
    ∃ off' ends', r.base ≤ off' ∧ off' ≤ r.base + 4294967295 ∧ Drawn env d port c fs key (n + 1) q path (.solo r off' (ws + 1) cap pending content (.loop ends')) := by
  have b1 := h.next (p := none) (.more _ 0 ends rfl (by rw [UInt16.lt_iff_toNat_lt]; exact hw)) off ws pending (.reading ends .seek) (solo_set off _) nofun nofun (Nat.le_refl _)
  obtain ⟨off', o, got, err, g1, g2, g3, b2⟩ := b1.read h1 h2 h3
  have b3 := b2.next (p := none) (.readDone _ 0 ends o got err rfl g3) off' ws pending _ (solo_set off' _) nofun nofun (Nat.le_refl _)
  have b4 := b3.next (.send _ 0 _ o got rfl) off' ws pending _ (solo_set off' _) nofun nofun (Nat.le_refl _)
  have b5 := b4.next (p := none) (.sentLoad _ 0 _ rfl) off' ws pending (.sentStore _ ws) (solo_set off' _) nofun nofun (Nat.le_refl _)
  have b6 := b5.next (p := none) (.sentStore _ 0 _ ws rfl) off' (ws + 1) pending (.loop _) (solo_set' (ws + 1) pending _) nofun nofun (Nat.le_refl _)
  exact ⟨off', _, g1, g2, b6⟩

/-- The worker fills the window. -/
theorem Drawn.fills (k : Nat) {off ends n : Nat} {ws : UInt16} (h : Drawn env d port c fs key n q path (.solo r off ws cap pending content (.loop ends))) (hw : ws.toNat + k ≤ cap.toNat)
    (h1 : r.base ≤ off) (h2 : off ≤ r.base + 4294967295) (h3 : r.limit ≤ r.base + 4294967295) :
    ∃ off' ends' ws', Drawn env d port c fs key (n + k) q path (.solo r off' ws' cap pending content (.loop ends')) := by
  induction k generalizing off ends n ws with
  | zero => exact ⟨_, _, _, h⟩
  | succ k ih =>
    obtain ⟨off', ends', g1, g2, g3⟩ := h.packet (by omega) h1 h2 h3
    have hc := cap.toNat_lt
    have e : (ws + 1).toNat = ws.toNat + 1 := by
      rw [UInt16.toNat_add]
      show (ws.toNat + 1) % 65536 = _
      omega
    obtain ⟨a1, a2, a3, a4⟩ := ih g3 (by omega) g1 g2
    exact ⟨a1, a2, a3, by rw [show n + (k + 1) = n + 1 + k by omega]; exact a4⟩

/-- One access in `Read` by `kickstart`. -/
theorem Drawn.begins {hash : Sha1Hash} {size : Nat} {pc pc' : RdPc} {off' : Nat} (h : Drawn env d port c fs key n q path (.solo r off ws cap pending content (.first hash size pc)))
    (hb : pc.busy = true) (hn : RdPc.next { r with off := off } content 1000 .good pc = (pc', off')) :
    Drawn env d port c fs key n q path (.solo r off' ws cap pending content (.first hash size pc')) := by
  refine h.next (p := none) (.firstStep _ 0 hash size pc .good rfl hb) off' ws pending (.first hash size pc') ?_ nofun nofun (Nat.le_refl _)
  rw [show RdPc.next (MuState.solo r off ws cap pending content (.first hash size pc)).reader (MuState.solo r off ws cap pending content (.first hash size pc)).now 1000 .good pc = (pc', off') from hn]
  exact solo_set _ _

/-- `kickstart` sends the first packet. -/
theorem Drawn.first {hash : Sha1Hash} {size : Nat} (h : Drawn env d port c fs key n q path (.solo r r.base 0 cap pending content (.reset hash size none))) (h3 : r.limit ≤ r.base + 4294967295) :
    ∃ off, r.base ≤ off ∧ off ≤ r.base + 4294967295 ∧ Drawn env d port c fs key (n + 1) q path (.solo r off 1 cap pending content .select) := by
  have b1 := h.next (p := none) (.resetLoad _ 0 hash size rfl) r.base 0 pending (.reset hash size (some r.base)) (solo_set _ _) nofun nofun (Nat.le_refl _)
  have b2 := b1.next (p := none) (.resetStore _ 0 hash size r.base rfl) r.base 0 pending (.first hash size .seek) (by
    rw [show RdPc.next (MuState.solo r r.base 0 cap pending content (.reset hash size (some r.base))).reader (MuState.solo r r.base 0 cap pending content (.reset hash size (some r.base))).now 0
      .good (.seekStore r.base) = (.test 0, r.base) by simp [RdPc.next, MuState.solo]]
    exact solo_set _ _) nofun nofun (Nat.le_refl _)
  have b3 := b2.begins rfl rfl
  have b4 := b3.begins (pc' := .test 0) (off' := r.base) rfl (by simp [RdPc.next])
  have fin : ∀ {off : Nat} {o : UInt32} {got : Bytes} {err : Option ReadErr}, Drawn env d port c fs key n q path (.solo r off 0 cap pending content (.first hash size (.done o got err))) →
      err ≠ some .other → Drawn env d port c fs key (n + 1) q path (.solo r off 1 cap pending content .select) := by
    intro off o got err c1 he
    have c2 := c1.next (p := none) (.firstDone _ 0 hash size o got err rfl he) off 0 pending _ (solo_set off _) nofun nofun (Nat.le_refl _)
    have c3 := c2.next (.sendFirst _ 0 hash size got rfl) off 0 pending _ (solo_set off _) nofun nofun (Nat.le_refl _)
    have c4 := c3.next (p := none) (.firstLoad _ 0 rfl) off 0 pending (.firstStore 0) (solo_set off _) nofun nofun (Nat.le_refl _)
    exact c4.next (p := none) (.firstStore _ 0 0 rfl) off (0 + 1) pending .select (solo_set' (0 + 1) pending _) nofun nofun (Nat.le_refl _)
  by_cases hl : r.limit ≤ r.base
  · have b5 := b4.begins (pc' := .done 0 [] (some .eof)) (off' := r.base) rfl (by
      show ((if r.limit ≤ r.base then _ else _), r.base) = _
      rw [if_pos hl])
    exact ⟨_, Nat.le_refl _, by omega, fin b5 nofun⟩
  · have b5 := b4.begins (pc' := .clip 0) (off' := r.base) rfl (by
      show ((if r.limit ≤ r.base then _ else _), r.base) = _
      rw [if_neg hl])
    have b6 := b5.begins (pc' := .fetch 0 (min 1000 (r.limit - r.base))) (off' := r.base) rfl (by
      show ((if r.limit < r.base then _ else _), r.base) = _
      rw [if_neg (by omega)])
    have b7 := ((b6.begins rfl rfl).begins rfl rfl).begins rfl rfl
    refine ⟨_, ?_, ?_, fin b7 ?_⟩
    · exact Nat.le_add_right _ _
    · have : ((content.drop r.base).take (min 1000 (r.limit - r.base))).length ≤ r.limit - r.base := by simp; omega
      show r.base + ((content.drop r.base).take (min 1000 (r.limit - r.base))).length ≤ _
      omega
    · show (if _ then _ else _) ≠ _
      split <;> nofun

/-- An acknowledgement arrives and is passed on. -/
theorem Drawn.acked (h : Drawn env d port c fs key n q path (.solo r off ws cap pending content x)) (dg : Bytes) (ret : Addr) (o : UInt32) (hp : parse (udpBuffer dg) = .ok (.ack o))
    (hf : Spec.From key ret) : Drawn env d port c fs key n (q + 1) path (.solo r off ws cap (pending + 1) content x) := by
  obtain ⟨tr, s, h1, h2, h3, h4, h5, h6⟩ := h
  obtain ⟨t, ht⟩ := h1.room
  have a1 := h1.step (.arrives s t dg ret _ (ht t (Nat.le_refl t)) hp)
  obtain ⟨host, kport⟩ := key
  obtain ⟨hf1, hf2⟩ := hf
  have hf2 : kport = UInt16.ofNat ret.port := hf2
  subst hf2
  have a2 := a1.step (.acks _ t ⟨ret, .asked (.ack o)⟩ o host _ (upd_same _ _ _) rfl hf1 h2)
  have no : ∀ {t : Nat} {o : Option Out} {x : DmSys} {key : UpKey}, ¬ Spec.Acks key (.handler t, o, x) ∧ ¬ Spec.OpensAny key (.handler t, o, x) ∧ ¬ Spec.Comes key (.handler t, o, x) :=
    not_comes (by intro _ _ h; cases h)
  refine ⟨_, _, a2, upd_same _ _ _, ?_, ?_, ?_, ?_⟩
  · rw [times_no quiet_none, times_no quiet_none, h3]
  · rw [times_no no.1, times_yes ⟨dg, ret, o, rfl, ⟨hf1, rfl⟩, hp⟩, h4]
  · rw [times_no no.2.1, times_no, h5]
    rintro ⟨_, dg', ret', _, _, h, -, h'⟩
    cases h
    rw [hp] at h'
    cases h'
  · rw [times_no no.2.2, times_yes ⟨dg, ret, rfl, hf1, rfl⟩, h6, Nat.add_assoc]

end

/-- The first packet of a chunk that the catalogue has leaves for who asks, in some run. -/
theorem draws (hh : Healthy env d) {c : Cat} {fs : FS} (hreach : Reach env d dl (.running c fs)) (dg : Bytes) (ret : Addr) (host : ByteArr 4) (h : Sha1Hash) (n cap : UInt16) (e : Export)
    (content : Bytes) (hp : parse (udpBuffer dg) = .ok (.openReq h n cap)) (hip : newIpv4 ret.ip = .ok host) (ho : observe c fs h = .ok e)
    (hn : e.saved n.toNat) (hf : fs e.filePath = some content) :
    ∃ r off, r.base ≤ off ∧ off ≤ r.base + 4294967295 ∧ r.limit ≤ r.base + 4294967295 ∧
      Drawn env d port c fs ⟨host, UInt16.ofNat ret.port⟩ 1 0 e.filePath (.solo r off 1 cap 0 content .select) := by
  obtain ⟨hc1, hc2⟩ := observe_chunkSize hh hreach h e ho
  -- `Contains`
  rcases hcon : contains h ⟨c, fs, []⟩ with ⟨r0, s1⟩
  have hr0 : r0 = .ok e := by
    have : (contains h ⟨c, fs, []⟩).1 = .ok e := ho
    rw [hcon] at this; exact this
  subst hr0
  obtain ⟨g1, g2, -, g4⟩ := contains_effect hh hreach h [] _ _ hcon
  have hr1 := g4 rfl
  have ho1 : observe s1.cat s1.fs h = .ok e := by rw [g2]; exact ho
  have hown := C27_own hh hreach h e ho
  -- `GetChunkReader`
  obtain ⟨cr, s2, hread⟩ := C35_serves hh hr1 h n.toNat (List.replicate (e.chunkSize.toNat + 1) .good) e content ho1 hn (by rw [g1]; exact hf) (by simp [List.countP_replicate])
  obtain ⟨k1, k2⟩ := C35_harmless hh hr1 h n.toNat _ [] _ _ hread
  have hr2 : Reach env d dl (.running s2.cat s2.fs) := Reach.call hr1 (.reader h n.toNat _) trivial _ _ (CM.void_ok _ _ _ _ hread)
  have hI1 : Inv env d dl s1.cat s1.fs := hr1.inv hh.abs hh.utf8
  obtain ⟨ind, hind, hw⟩ := hI1.split
  have hread' := hread
  rw [hind] at hread'
  obtain ⟨-, e2, content2, m2, m3, m4, m5⟩ :=
    ((ro_reader (dl := dl) (fs0 := s1.fs) env hw.ownGet h n.toNat _) ⟨_, s1.fs, []⟩ (RO.init d dl ind s1.fs)).1 _ _ hread'
  rw [← observe_eq d dl, ← hind, ho1] at m2
  cases m2
  rw [g1, hf] at m4
  cases m4
  obtain ⟨q1, q2, -, q4⟩ := C23_describes env.sha1 content _ _ _ cr m5.symm
  have hsz : cr.size ≤ 4294967295 := by
    rw [q2]
    unfold Spec.slice
    simp
    omega
  have hpath : s2.cat.pathOf h = some e.filePath := observe_path hh hr2 h e (by rw [k2]; exact ho1)
  -- the datagram, and its goroutine
  have a1 := DmRun.step (env := env) (d := d) (port := port) (DmRun.refl (s0 := .fresh c fs)) (.arrives _ 0 dg ret _ rfl hp)
  have a2 := DmRun.step a1 (.looks _ 0 ⟨ret, .asked (.openReq h n cap)⟩ h n cap [] e s1 rfl rfl hcon)
  have a3 := DmRun.step a2 (.opens _ 0 ⟨ret, .known e.sha1Hash n cap⟩ e.sha1Hash n cap (List.replicate (e.chunkSize.toNat + 1) .good) [] cr s2 e.filePath content host rfl rfl
    (by rw [hown]; exact hread) hsz hip (by rw [hown]; exact hpath) (by rw [k1, g1]; exact hf))
  have a4 := DmRun.step a3 (.kicks _ 0 ⟨ret, .opened ⟨host, UInt16.ofNat ret.port⟩ e.filePath content cr cap⟩ _ _ _ _ _ 0 ⟨e.filePath, .init cr.reader cap content⟩ rfl rfl rfl rfl)
  have no : ∀ {t : Nat} {o : Option Out} {x : DmSys} {key : UpKey}, ¬ Spec.Acks key (.handler t, o, x) ∧ ¬ Spec.OpensAny key (.handler t, o, x) ∧ ¬ Spec.Comes key (.handler t, o, x) :=
    not_comes (by intro _ _ h; cases h)
  have b0 : Drawn env d port c fs ⟨host, UInt16.ofNat ret.port⟩ 0 0 e.filePath (.solo cr.reader cr.reader.base 0 cap 0 content (.reset cr.hash cr.size none)) := by
    refine ⟨_, _, a4, ?_, ?_, ?_, ?_, ?_⟩
    · show upd _ _ _ _ = _
      unfold upd
      rw [if_pos rfl]
      rfl
    · rw [times_no quiet_none, times_no quiet_none, times_no quiet_none, times_no quiet_none, times_nil]
    · rw [times_no no.1, times_no no.1, times_no no.1, times_no, times_nil]
      rintro ⟨dg', ret', _, h, -, h'⟩
      cases h
      rw [hp] at h'
      cases h'
    · rw [times_no no.2.1, times_no no.2.1, times_no no.2.1, times_yes ⟨cap, dg, ret, h, n, rfl, ⟨hip, rfl⟩, hp⟩, times_nil]
    · rw [times_no no.2.2, times_no no.2.2, times_no no.2.2, times_yes ⟨dg, ret, rfl, hip, rfl⟩, times_nil]
  have hlim : cr.reader.limit ≤ cr.reader.base + 4294967295 := by
    rw [q4]
    show n.toNat * e.chunkSize.toNat + e.chunkSize.toNat ≤ n.toNat * e.chunkSize.toNat + 4294967295
    omega
  obtain ⟨off, f1, f2, b1⟩ := b0.first hlim
  exact ⟨_, off, f1, f2, hlim, b1⟩

/-- **C127 is false: two datagrams and a whole window.**  For every chunk that the catalogue has, of whatever length, and every window: there is a run in which two datagrams come
from an address, a request for the chunk and one acknowledgement, and in answer as many packets leave for that address as the window says, and one more. -/
theorem C127_floods (hh : Healthy env d) {c : Cat} {fs : FS} (hreach : Reach env d dl (.running c fs)) (dg dg' : Bytes) (ret : Addr) (host : ByteArr 4) (h : Sha1Hash) (n cap : UInt16) (o : UInt32) (e : Export)
    (content : Bytes) (hp : parse (udpBuffer dg) = .ok (.openReq h n cap)) (hp' : parse (udpBuffer dg') = .ok (.ack o)) (hip : newIpv4 ret.ip = .ok host) (ho : observe c fs h = .ok e)
    (hn : e.saved n.toNat) (hf : fs e.filePath = some content) :
    ∃ tr s, DmRun env d port (.fresh c fs) tr (.alive s) ∧ Spec.times (Spec.Comes ⟨host, UInt16.ofNat ret.port⟩) tr = 2 ∧
      Spec.times (Spec.OpensAny ⟨host, UInt16.ofNat ret.port⟩) tr = 1 ∧ Spec.times (Spec.Acks ⟨host, UInt16.ofNat ret.port⟩) tr = 1 ∧
      Spec.times (Spec.Leaves ⟨host, UInt16.ofNat ret.port⟩) tr = 1 + cap.toNat := by
  obtain ⟨r, off, f1, f2, hlim, b1⟩ := draws (port := port) hh hreach dg ret host h n cap e content hp hip ho hn hf
  have b2 := b1.acked dg' ret o hp' ⟨hip, rfl⟩
  have b3 := b2.next (p := none) (.take _ 0 rfl (Nat.succ_pos _)) off 1 0 .takeLoad (solo_set' 1 0 _) nofun nofun (Nat.zero_le _)
  have b4 := b3.next (p := none) (.takeLoad _ 0 rfl) off 1 0 (.takeStore 1) (solo_set off _) nofun nofun (Nat.le_refl _)
  have b5 := b4.next (p := none) (.takeStore _ 0 1 rfl) off (1 - 1) 0 (.loop 0) (solo_set' (1 - 1) 0 _) nofun nofun (Nat.le_refl _)
  obtain ⟨-, -, -, tr, s, z1, -, z3, z4, z5, z6⟩ := Drawn.fills cap.toNat b5 (by show 0 + cap.toNat ≤ _; omega) f1 f2 hlim
  exact ⟨tr, s, z1, z6, z5, z4, z3⟩

/-- **C127 is false** for every factor below 32768, already for a chunk of two bytes. -/
theorem C127_refuted (K : Nat) (hK : K < 32768) : ¬ C127_statement K := by
  intro hall
  obtain ⟨c, fs, e, h1, h2, h3, h4, h5, h6, h7, h8, h9⟩ := ex_complete (fun _ => Sha1Hash.zero) goJson Sha1Hash.zero
  have hh := ex_healthy (fun _ => Sha1Hash.zero) goJson
  have hp := parse_buffer (.openReq Sha1Hash.zero 1 65535) trivial (by decide) []
  have hp' := parse_buffer (.ack 0) trivial (by decide) []
  obtain ⟨tr, s, hrun, g1, -, -, g2⟩ := C127_floods (port := 7) hh h1.reach _ _ exAddr ⟨[10, 0, 0, 2], rfl⟩ Sha1Hash.zero 1 65535 0 e [1, 2, 3, 4, 5] hp hp' (by rfl) h2 h7 h4
  have := hall _ _ _ _ _ _ _ _ ⟨⟨[10, 0, 0, 2], rfl⟩, UInt16.ofNat exAddr.port⟩ hh h1.reach hrun
  rw [g1, g2] at this
  have e : (65535 : UInt16).toNat = 65535 := rfl
  rw [e] at this
  omega

/-- There are runs with a request, one packet, and no acknowledgement; `C127_unacked_partial` allows no second one. -/
example (sha1 : Bytes → Sha1Hash) (json : JsonCodec) : ∃ c fs tr s key, Reach (exEnv sha1 json) exDir exDown (.running c fs) ∧ DmRun (exEnv sha1 json) exDir 7 (.fresh c fs) tr (.alive s) ∧
    (∀ x ∈ tr, ¬ Spec.Acks key x) ∧ Spec.times (Spec.OpensAny key) tr = 1 ∧ Spec.times (Spec.Leaves key) tr = 1 := by
  obtain ⟨c, fs, e, h1, h2, h3, h4, h5, h6, h7, h8, h9⟩ := ex_complete sha1 json Sha1Hash.zero
  have hp := parse_buffer (.openReq Sha1Hash.zero 1 65535) trivial (by decide) []
  obtain ⟨r, off, -, -, -, tr, s, z1, -, z3, z4, z5, -⟩ := draws (port := 7) (ex_healthy sha1 json) h1.reach _ exAddr ⟨[10, 0, 0, 2], rfl⟩ Sha1Hash.zero 1 65535 e [1, 2, 3, 4, 5] hp (by rfl) h2 h7 h4
  exact ⟨c, fs, tr, s, _, h1.reach, z1, times_zero.1 z4, z5, z3⟩

/-- The bound of `C127_once_partial` is reached: one request with a window of `cap` packets, one acknowledgement, `cap` and one more packets. -/
example (sha1 : Bytes → Sha1Hash) (json : JsonCodec) (cap : UInt16) (hc : 0 < cap.toNat) : ∃ c fs tr s key, Reach (exEnv sha1 json) exDir exDown (.running c fs) ∧
    DmRun (exEnv sha1 json) exDir 7 (.fresh c fs) tr (.alive s) ∧ Spec.times (Spec.OpensAny key) tr ≤ 1 ∧ Spec.times (Spec.Leaves key) tr = Spec.times (Spec.Acks key) tr + max 1 cap.toNat := by
  obtain ⟨c, fs, e, h1, h2, h3, h4, h5, h6, h7, h8, h9⟩ := ex_complete sha1 json Sha1Hash.zero
  have hp := parse_buffer (.openReq Sha1Hash.zero 1 cap) trivial (by have : (Msg.openReq Sha1Hash.zero 1 cap).serialize.length = 32 := rfl; omega) []
  have hp' := parse_buffer (.ack 0) trivial (by decide) []
  obtain ⟨tr, s, hrun, g1, g2, g3, g4⟩ := C127_floods (port := 7) (ex_healthy sha1 json) h1.reach _ _ exAddr ⟨[10, 0, 0, 2], rfl⟩ Sha1Hash.zero 1 cap 0 e [1, 2, 3, 4, 5] hp hp' (by rfl) h2 h7 h4
  exact ⟨c, fs, tr, s, _, h1.reach, hrun, Nat.le_of_eq g2, by rw [g3, g4]; omega⟩

/-- A search is answered once; `C127_answers` allows no second answer. -/
example (env : Env) (d : Path) (c : Cat) (fs : FS) : ∃ tr s, DmRun env d 7 (.fresh c fs) tr (.alive s) ∧ Spec.times (Spec.Queries [10, 0, 0, 2]) tr = 1 ∧ Spec.times (Spec.Replies [10, 0, 0, 2]) tr = 1 := by
  have hp := parse_buffer (.discoverReq 5 Sha1Hash.blank []) (Nat.zero_le _) (by decide) []
  have a1 := DmRun.step (env := env) (d := d) (port := 7) (DmRun.refl (s0 := .fresh c fs)) (.arrives _ 0 _ exAddr _ rfl hp)
  have a2 := a1.step (.replies _ 0 ⟨exAddr, .asked (.discoverReq 5 Sha1Hash.blank [])⟩ _ ⟨some [[10, 0, 0, 3]], [], [], .good, true⟩ [] _ [10, 0, 0, 2] 7 (Msg.discoverResp 5 ⟨[10, 0, 0, 3], rfl⟩ 7 []).serialize ⟨⟨c, fs, []⟩, fun _ => none⟩ rfl rfl rfl (by rfl))
  refine ⟨_, _, a2, ?_, ?_⟩
  · rw [times_no, times_yes ⟨_, exAddr, rfl, rfl, .inl ⟨_, _, _, hp⟩⟩, times_nil]
    rintro ⟨dg, ret, h, -⟩
    cases h
  · rw [times_yes ⟨7, _, rfl⟩, times_no, times_nil]
    rintro ⟨p, b, h⟩
    cases h

end
end Flu
