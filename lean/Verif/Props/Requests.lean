import Verif.Model.Requests
/-!
# Request identifiers and responses (C49-C51)
-/
namespace Flu

/-! ## C49 -/

/-- The identifiers drawn one after the other from a counter. -/
def Spec.drawn : Nat → Nat → List UInt16
  | _, 0 => []
  | c, n + 1 => (generateRequestID c).1 :: Spec.drawn (generateRequestID c).2 n

theorem drawn_get (n : Nat) : ∀ (c : Nat), c < 65536 → ∀ i, i < n → (Spec.drawn c n)[i]? = some (UInt16.ofNat ((c + i) % 65536)) := by
  induction n with
  | zero => intro c _ i hi; omega
  | succ n ih =>
    intro c hc i hi
    cases i with
    | zero => simp only [Spec.drawn, generateRequestID, List.getElem?_cons_zero, Nat.add_zero]; rw [Nat.mod_eq_of_lt hc]
    | succ i =>
      simp only [Spec.drawn, List.getElem?_cons_succ]
      rw [ih _ (by simp only [generateRequestID]; omega) i (by omega)]
      simp only [generateRequestID]
      congr 2
      omega

/-- C49: of the identifiers drawn since the server started, two are equal exactly if their numbers differ by a multiple of 65536. -/
theorem C49_distinct (n i j : Nat) (hi : i < n) (hj : j < n) : (Spec.drawn 0 n)[i]? = (Spec.drawn 0 n)[j]? ↔ i % 65536 = j % 65536 := by
  rw [drawn_get n 0 (by omega) i hi, drawn_get n 0 (by omega) j hj, Nat.zero_add, Nat.zero_add]
  constructor
  · intro h
    have := congrArg UInt16.toNat (Option.some.inj h)
    rw [UInt16.toNat_ofNat', UInt16.toNat_ofNat'] at this
    omega
  · intro h; rw [h]

/-- C49: any 65536 consecutive ones are pairwise distinct. -/
theorem C49_window (n i j : Nat) (hij : i < j) (hj : j < i + 65536) (hn : j < n) : (Spec.drawn 0 n)[i]? ≠ (Spec.drawn 0 n)[j]? := by
  intro h
  have := (C49_distinct n i j (by omega) hn).1 h
  omega

/-! ## The invariant -/

/-- The message answers a request with that key. -/
def Spec.Answers (key : RequestKey) (m : Msg) : Prop := m.type = key.msgType ∧ m.reqID? = some key.reqID

open Spec

/-- The channel a goroutine reads or has read from. -/
def Thread.chan? : Thread → Option Nat
  | .collecting _ c _ | .wantUnregister _ c _ | .returned _ c _ => some c
  | _ => none

/-- What holds of a requester with that key and channel that has received `got`. -/
def OnChan (own : Nat → RequestKey) (s : Table) (key : RequestKey) (c : Nat) (got : List Msg) : Prop :=
  c < s.nchans ∧ own c = key ∧ key.msgType = 1 ∧ (∀ m ∈ got, Answers key m) ∧ got ++ s.chans c = s.sent c

/-- What holds of one goroutine. -/
def TOK (own : Nat → RequestKey) (s : Table) : Thread → Prop
  | .wantRegister key => key.msgType = 1
  | .collecting key c got | .wantUnregister key c got | .returned key c got => OnChan own s key c got
  | .wantDeliver key m => Answers key m
  | .sending c m => c < s.nchans ∧ Answers (own c) m ∧ s.locked = true
  | .dead => False
  | _ => True

structure RTInv (own : Nat → RequestKey) (s : Table) : Prop where
  threads : ∀ t, TOK own s (s.threads t)
  map : ∀ key c, s.resMap key = some c → c < s.nchans ∧ own c = key
  chan : ∀ c m, m ∈ s.chans c → Answers (own c) m
  one : ∀ c, (s.chans c).length ≤ 1
  new : ∀ c, s.nchans ≤ c → s.chans c = []
  holder : ∀ t t' c c' m m', s.threads t = .sending c m → s.threads t' = .sending c' m' → t = t'
  held : s.locked = true → ∃ t c m, s.threads t = .sending c m
  single : ∀ t t' c, (s.threads t).chan? = some c → (s.threads t').chan? = some c → t = t'

theorem upd_same [DecidableEq α] (f : α → β) (a : α) (b : β) : upd f a b a = b := by simp [upd]
theorem upd_other [DecidableEq α] (f : α → β) {a x : α} (b : β) (h : x ≠ a) : upd f a b x = f x := by simp [upd, h]

theorem chan_lt {own : Nat → RequestKey} {s : Table} {th : Thread} {c : Nat} (h : TOK own s th) (hc : th.chan? = some c) : c < s.nchans := by
  cases th <;> simp only [Thread.chan?, Option.some.injEq, reduceCtorEq] at hc
  all_goals subst hc; exact h.1

/-- Properties of goroutines survive changes of the shared state that keep their channels. -/
theorem TOK.mono {own own' : Nat → RequestKey} {s s' : Table} {th : Thread} (h : TOK own s th) (hn : s.nchans ≤ s'.nchans)
    (ho : ∀ c, c < s.nchans → own' c = own c) (hc : ∀ c got, th.chan? = some c → got ++ s.chans c = s.sent c → got ++ s'.chans c = s'.sent c)
    (hl : ∀ c m, th = .sending c m → s.locked = true → s'.locked = true) : TOK own' s' th := by
  cases th with
  | idle => trivial
  | wantRegister key => exact h
  | collecting key c got => exact ⟨by have := h.1; omega, by rw [ho c h.1]; exact h.2.1, h.2.2.1, h.2.2.2.1, hc c got rfl h.2.2.2.2⟩
  | wantUnregister key c got => exact ⟨by have := h.1; omega, by rw [ho c h.1]; exact h.2.1, h.2.2.1, h.2.2.2.1, hc c got rfl h.2.2.2.2⟩
  | returned key c got => exact ⟨by have := h.1; omega, by rw [ho c h.1]; exact h.2.1, h.2.2.1, h.2.2.2.1, hc c got rfl h.2.2.2.2⟩
  | wantDeliver key m => exact h
  | sending c m => exact ⟨by have := h.1; omega, by rw [ho c h.1]; exact h.2.1, hl c m rfl h.2.2⟩
  | delivered => trivial
  | rejected => trivial
  | dead => exact h

/-- A step that touches only one goroutine, the counter and the entries of the table. -/
theorem RTInv.local {own : Nat → RequestKey} {s : Table} (hi : RTInv own s) (t : Nat) (th : Thread) (n : Nat) (rm : RequestKey → Option Nat)
    (hth : TOK own s th) (hrm : ∀ key c, rm key = some c → s.resMap key = some c)
    (hns : ∀ c m, th ≠ .sending c m) (hns' : ∀ c m, s.threads t ≠ .sending c m) (hch : th.chan? = none ∨ th.chan? = (s.threads t).chan?) :
    RTInv own { s with reqID := n, resMap := rm, threads := upd s.threads t th } := by
  have hch' : ∀ x c, (upd s.threads t th x).chan? = some c → (s.threads x).chan? = some c := by
    intro x c h
    by_cases hx : x = t
    · subst hx
      rw [upd_same] at h
      rcases hch with h' | h'
      · rw [h'] at h; cases h
      · rw [← h']; exact h
    · rwa [upd_other _ _ hx] at h
  have hsend : ∀ x c m, upd s.threads t th x = .sending c m → s.threads x = .sending c m := by
    intro x c m h
    by_cases hx : x = t
    · subst hx; rw [upd_same] at h; exact absurd h (hns c m)
    · rwa [upd_other _ _ hx] at h
  refine ⟨?_, fun key c h => hi.map key c (hrm key c h), hi.chan, hi.one, hi.new, ?_, ?_, ?_⟩
  · intro x
    show TOK own _ (upd s.threads t th x)
    by_cases hx : x = t
    · subst hx; rw [upd_same]; exact hth.mono (Nat.le_refl _) (fun _ _ => rfl) (fun _ _ _ h => h) (fun _ _ _ h => h)
    · rw [upd_other _ _ hx]; exact (hi.threads x).mono (Nat.le_refl _) (fun _ _ => rfl) (fun _ _ _ h => h) (fun _ _ _ h => h)
  · intro x y c c' m m' h1 h2
    exact hi.holder x y c c' m m' (hsend _ _ _ h1) (hsend _ _ _ h2)
  · intro hl
    obtain ⟨x, c, m, hx⟩ := hi.held hl
    refine ⟨x, c, m, ?_⟩
    show upd s.threads t th x = _
    rw [upd_other _ _ (by intro e; subst e; exact hns' c m hx)]
    exact hx
  · intro x y c h1 h2
    exact hi.single x y c (hch' _ _ h1) (hch' _ _ h2)

theorem rtinv_step {own : Nat → RequestKey} {s s' : Table} {t : Nat} (hs : TStep t s s') (hi : RTInv own s) :
    ∃ own', RTInv own' s' ∧ ∀ c, c < s.nchans → own' c = own c := by
  have hT := hi.threads t
  cases hs with
  | discover h =>
    exact ⟨own, hi.local t _ _ _ rfl (fun _ _ h => h) (by simp) (by simp [h]) (.inl rfl), fun _ _ => rfl⟩
  | other h =>
    refine ⟨own, ⟨fun x => ?_, hi.map, hi.chan, hi.one, hi.new, hi.holder, hi.held, hi.single⟩, fun _ _ => rfl⟩
    exact (hi.threads x).mono (Nat.le_refl _) (fun _ _ => rfl) (fun _ _ _ h => h) (fun _ _ _ h => h)
  | timeout key c got h =>
    rw [h] at hT
    exact ⟨own, hi.local t _ _ _ hT (fun _ _ h => h) (by simp) (by simp [h]) (.inr (by rw [h]; rfl)), fun _ _ => rfl⟩
  | unregister key c got h hl =>
    rw [h] at hT
    refine ⟨own, hi.local t _ _ _ hT ?_ (by simp) (by simp [h]) (.inr (by rw [h]; rfl)), fun _ _ => rfl⟩
    intro k c'
    by_cases hk : k = key
    · subst hk; rw [upd_same]; intro h; cases h
    · rw [upd_other _ _ hk]; exact id
  | arrive i m h hm hid => exact ⟨own, hi.local t _ _ _ ⟨rfl, hid⟩ (fun _ _ h => h) (by simp) (by simp [h]) (.inl rfl), fun _ _ => rfl⟩
  | reject key m h hl hk => exact ⟨own, hi.local t _ _ _ trivial (fun _ _ h => h) (by simp) (by simp [h]) (.inl rfl), fun _ _ => rfl⟩
  | register key h hl =>
    rw [h] at hT
    have hold : ∀ c, c < s.nchans → upd own s.nchans key c = own c := fun c hc => upd_other _ _ (by omega)
    refine ⟨upd own s.nchans key, ⟨?_, ?_, ?_, ?_, ?_, ?_, ?_, ?_⟩, hold⟩
    · intro x
      show TOK _ _ (upd s.threads t _ x)
      by_cases hx : x = t
      · subst hx
        rw [upd_same]
        refine ⟨Nat.lt_succ_self _, upd_same _ _ _, hT, by simp, ?_⟩
        show [] ++ upd s.chans s.nchans [] s.nchans = upd s.sent s.nchans [] s.nchans
        rw [upd_same, upd_same]; rfl
      · rw [upd_other _ _ hx]
        refine (hi.threads x).mono (Nat.le_succ _) hold ?_ (fun _ _ _ h => h)
        intro c got hc h
        have := chan_lt (hi.threads x) hc
        show got ++ upd s.chans s.nchans [] c = upd s.sent s.nchans [] c
        rwa [upd_other _ _ (by omega), upd_other _ _ (by omega)]
    · intro k c
      show upd s.resMap key (some s.nchans) k = some c → c < s.nchans + 1 ∧ _
      by_cases hk : k = key
      · subst hk
        rw [upd_same]
        intro hc
        injection hc with hc
        subst hc
        exact ⟨Nat.lt_succ_self _, upd_same _ _ _⟩
      · rw [upd_other _ _ hk]
        intro hc
        obtain ⟨h1, h2⟩ := hi.map k c hc
        exact ⟨by omega, by rw [hold c h1]; exact h2⟩
    · intro c m
      show m ∈ upd s.chans s.nchans [] c → _
      by_cases hc : c = s.nchans
      · subst hc; rw [upd_same]; intro h; cases h
      · rw [upd_other _ _ hc]
        intro hm
        have hlt : c < s.nchans := by
          apply Classical.byContradiction
          intro hge
          rw [hi.new c (by omega)] at hm
          cases hm
        rw [hold c hlt]
        exact hi.chan c m hm
    · intro c
      show (upd s.chans s.nchans [] c).length ≤ 1
      by_cases hc : c = s.nchans
      · subst hc; rw [upd_same]; simp
      · rw [upd_other _ _ hc]; exact hi.one c
    · intro c (hc : s.nchans + 1 ≤ c)
      show upd s.chans s.nchans [] c = []
      rw [upd_other _ _ (by omega)]
      exact hi.new c (by omega)
    · intro x y c c' m m' h1 h2
      have hsend : ∀ x c m, upd s.threads t (.collecting key s.nchans []) x = .sending c m → s.threads x = .sending c m := by
        intro x c m h
        by_cases hx : x = t
        · subst hx; rw [upd_same] at h; cases h
        · rwa [upd_other _ _ hx] at h
      exact hi.holder x y c c' m m' (hsend _ _ _ h1) (hsend _ _ _ h2)
    · intro h'
      have h' : s.locked = true := h'
      rw [hl] at h'; cases h'
    · have hch : ∀ x c, (upd s.threads t (.collecting key s.nchans []) x).chan? = some c → (x = t ∧ c = s.nchans) ∨ (x ≠ t ∧ (s.threads x).chan? = some c ∧ c < s.nchans) := by
        intro x c h
        by_cases hx : x = t
        · subst hx; rw [upd_same] at h; cases h; exact .inl ⟨rfl, rfl⟩
        · rw [upd_other _ _ hx] at h; exact .inr ⟨hx, h, chan_lt (hi.threads x) h⟩
      intro x y c h1 h2
      rcases hch x c h1 with ⟨a1, a2⟩ | ⟨a1, a2, a3⟩ <;> rcases hch y c h2 with ⟨b1, b2⟩ | ⟨b1, b2, b3⟩
      · rw [a1, b1]
      · omega
      · omega
      · exact hi.single x y c a2 b2
  | collect key c got m rest h hb =>
    rw [h] at hT
    obtain ⟨h1, h2, h3, h4, h5⟩ := hT
    have hm : Answers key m := by rw [← h2]; exact hi.chan c m (by rw [hb]; exact List.mem_cons_self ..)
    have ht : m.type = 1 := by rw [hm.1, h3]
    refine ⟨own, ?_, fun _ _ => rfl⟩
    rw [if_pos ht]
    refine ⟨?_, hi.map, ?_, ?_, ?_, ?_, ?_, ?_⟩
    · intro x
      show TOK _ _ (upd s.threads t _ x)
      by_cases hx : x = t
      · subst hx
        rw [upd_same]
        refine ⟨h1, h2, h3, ?_, ?_⟩
        · intro m' hm'
          rcases List.mem_append.1 hm' with h | h
          · exact h4 m' h
          · rw [List.mem_singleton.1 h]; exact hm
        · show got ++ [m] ++ upd s.chans c rest c = s.sent c
          rw [upd_same, ← h5, hb, List.append_assoc]; rfl
      · rw [upd_other _ _ hx]
        refine (hi.threads x).mono (Nat.le_refl _) (fun _ _ => rfl) ?_ (fun _ _ _ h => h)
        intro c' got' hc' h'
        show got' ++ upd s.chans c rest c' = s.sent c'
        rwa [upd_other]
        intro e
        subst e
        exact hx (hi.single x t c' hc' (by rw [h]; rfl))
    · intro c' m'
      show m' ∈ upd s.chans c rest c' → _
      by_cases hc : c' = c
      · subst hc; rw [upd_same]; intro hm'; exact hi.chan c' m' (by rw [hb]; exact List.mem_cons_of_mem _ hm')
      · rw [upd_other _ _ hc]; exact hi.chan c' m'
    · intro c'
      show (upd s.chans c rest c').length ≤ 1
      by_cases hc : c' = c
      · subst hc; rw [upd_same]; have := hi.one c'; rw [hb] at this; simp at this; simp [this]
      · rw [upd_other _ _ hc]; exact hi.one c'
    · intro c' (hc' : s.nchans ≤ c')
      show upd s.chans c rest c' = []
      rw [upd_other _ _ (by omega)]
      exact hi.new c' hc'
    · intro x y c1 c2 m1 m2 g1 g2
      have hsend : ∀ x c1 m1, upd s.threads t (.collecting key c (got ++ [m])) x = .sending c1 m1 → s.threads x = .sending c1 m1 := by
        intro x c1 m1 h
        by_cases hx : x = t
        · subst hx; rw [upd_same] at h; cases h
        · rwa [upd_other _ _ hx] at h
      exact hi.holder x y c1 c2 m1 m2 (hsend _ _ _ g1) (hsend _ _ _ g2)
    · intro hl
      obtain ⟨x, c', m', hx⟩ := hi.held hl
      refine ⟨x, c', m', ?_⟩
      show upd s.threads t _ x = _
      rw [upd_other _ _ (by intro e; subst e; rw [h] at hx; cases hx)]
      exact hx
    · have hch : ∀ x c', (upd s.threads t (.collecting key c (got ++ [m])) x).chan? = some c' → (s.threads x).chan? = some c' := by
        intro x c' h'
        by_cases hx : x = t
        · subst hx; rw [upd_same] at h'; rw [h]; exact h'
        · rwa [upd_other _ _ hx] at h'
      exact fun x y c' g1 g2 => hi.single x y c' (hch _ _ g1) (hch _ _ g2)
  | find key m c h hl hk =>
    rw [h] at hT
    obtain ⟨h1, h2⟩ := hi.map key c hk
    refine ⟨own, ⟨?_, hi.map, hi.chan, hi.one, hi.new, ?_, ?_, ?_⟩, fun _ _ => rfl⟩
    · intro x
      show TOK _ _ (upd s.threads t _ x)
      by_cases hx : x = t
      · subst hx; rw [upd_same]; exact ⟨h1, by rw [h2]; exact hT, rfl⟩
      · rw [upd_other _ _ hx]
        exact (hi.threads x).mono (Nat.le_refl _) (fun _ _ => rfl) (fun _ _ _ h => h) (fun _ _ _ _ => rfl)
    · have hsend : ∀ x c1 m1, upd s.threads t (.sending c m) x = .sending c1 m1 → x = t := by
        intro x c1 m1 h'
        apply Classical.byContradiction
        intro hx
        rw [upd_other _ _ hx] at h'
        have := hi.threads x
        rw [h'] at this
        have := this.2.2
        rw [hl] at this
        cases this
      exact fun x y c1 c2 m1 m2 g1 g2 => (hsend _ _ _ g1).trans (hsend _ _ _ g2).symm
    · intro _; exact ⟨t, c, m, upd_same _ _ _⟩
    · have hch : ∀ x c', (upd s.threads t (.sending c m) x).chan? = some c' → (s.threads x).chan? = some c' := by
        intro x c' h'
        by_cases hx : x = t
        · subst hx; rw [upd_same] at h'; cases h'
        · rwa [upd_other _ _ hx] at h'
      exact fun x y c' g1 g2 => hi.single x y c' (hch _ _ g1) (hch _ _ g2)
  | send c m h hb =>
    rw [h] at hT
    obtain ⟨h1, h2, h3⟩ := hT
    have hns : ∀ x c1 m1, upd s.threads t .delivered x = .sending c1 m1 → False := by
      intro x c1 m1 h'
      by_cases hx : x = t
      · subst hx; rw [upd_same] at h'; cases h'
      · rw [upd_other _ _ hx] at h'; exact hx (hi.holder x t _ _ _ _ h' h)
    refine ⟨own, ⟨?_, hi.map, ?_, ?_, ?_, ?_, ?_, ?_⟩, fun _ _ => rfl⟩
    · intro x
      show TOK _ _ (upd s.threads t _ x)
      by_cases hx : x = t
      · subst hx; rw [upd_same]; trivial
      · rw [upd_other _ _ hx]
        refine (hi.threads x).mono (Nat.le_refl _) (fun _ _ => rfl) ?_ ?_
        · intro c' got' hc' h'
          show got' ++ upd s.chans c [m] c' = upd s.sent c (s.sent c ++ [m]) c'
          by_cases hcc : c' = c
          · subst hcc; rw [upd_same, upd_same, ← h', hb, List.append_nil]
          · rwa [upd_other _ _ hcc, upd_other _ _ hcc]
        · intro c1 m1 h' _; exact absurd (hi.holder x t _ _ _ _ h' h) hx
    · intro c' m'
      show m' ∈ upd s.chans c [m] c' → _
      by_cases hc : c' = c
      · subst hc; rw [upd_same]; intro hm'; rw [List.mem_singleton.1 hm']; exact h2
      · rw [upd_other _ _ hc]; exact hi.chan c' m'
    · intro c'
      show (upd s.chans c [m] c').length ≤ 1
      by_cases hc : c' = c
      · subst hc; rw [upd_same]; simp
      · rw [upd_other _ _ hc]; exact hi.one c'
    · intro c' (hc' : s.nchans ≤ c')
      show upd s.chans c [m] c' = []
      rw [upd_other _ _ (by omega)]
      exact hi.new c' hc'
    · exact fun x y c1 c2 m1 m2 g1 _ => (hns x c1 m1 g1).elim
    · intro h'; cases h'
    · have hch : ∀ x c', (upd s.threads t .delivered x).chan? = some c' → (s.threads x).chan? = some c' := by
        intro x c' h'
        by_cases hx : x = t
        · subst hx; rw [upd_same] at h'; cases h'
        · rwa [upd_other _ _ hx] at h'
      exact fun x y c' g1 g2 => hi.single x y c' (hch _ _ g1) (hch _ _ g2)

theorem TRun.inv {s : Table} (h : TRun .fresh s) : ∃ own, RTInv own s := by
  generalize he : Table.fresh = s0 at h
  induction h with
  | refl =>
    subst he
    exact ⟨fun _ => ⟨0, 0⟩, fun t => trivial, fun _ _ h => (by cases h), fun _ _ h => (by cases h), fun _ => Nat.zero_le _, fun _ _ => rfl,
      fun _ _ _ _ _ _ h => (by cases h), fun h => (by cases h), fun _ _ _ h => (by cases h)⟩
  | step _ t hs ih =>
    obtain ⟨own, hi⟩ := ih
    obtain ⟨own', hi', -⟩ := rtinv_step hs hi
    exact ⟨own', hi'⟩

/-! ## C50 -/

/-- C50: in every interleaving, what a request has received so far, or returned, answers this request, and is exactly what was sent on its channel, in order, none lost
or repeated (except what is still in the channel); and no goroutine panics. -/
theorem C50_only_answers (s : Table) (h : TRun .fresh s) (t : Nat) :
    (∀ key c got, s.threads t = .collecting key c got ∨ s.threads t = .wantUnregister key c got ∨ s.threads t = .returned key c got →
      (∀ m ∈ got, m.type = key.msgType ∧ m.reqID? = some key.reqID) ∧ got ++ s.chans c = s.sent c ∧
      ∀ t' key' got', s.threads t' = .collecting key' c got' ∨ s.threads t' = .wantUnregister key' c got' ∨ s.threads t' = .returned key' c got' → t' = t) ∧
    s.threads t ≠ .dead := by
  obtain ⟨own, hi⟩ := h.inv
  have hT := hi.threads t
  have hch : ∀ x key c got, s.threads x = .collecting key c got ∨ s.threads x = .wantUnregister key c got ∨ s.threads x = .returned key c got →
      (s.threads x).chan? = some c := by
    rintro x key c got (h | h | h) <;> rw [h] <;> rfl
  constructor
  · intro key c got hc
    have h1 : OnChan own s key c got := by rcases hc with h | h | h <;> rw [h] at hT <;> exact hT
    exact ⟨h1.2.2.2.1, h1.2.2.2.2, fun t' key' got' h' => hi.single t' t c (hch _ _ _ _ h') (hch _ _ _ _ hc)⟩
  · intro h'
    rw [h'] at hT
    exact hT

/-- C50: handling a response waits for the lock; then, if no request with its identifier and type is pending, it is rejected and nothing else changes, and
otherwise the channel it goes to is the one registered last for that identifier and type. -/
theorem C50_lookup (s s' : Table) (t : Nat) (key : RequestKey) (m : Msg) (hw : s.threads t = .wantDeliver key m) (hs : TStep t s s') :
    s.locked = false ∧ s'.reqID = s.reqID ∧ s'.resMap = s.resMap ∧ s'.chans = s.chans ∧ (∀ t', t' ≠ t → s'.threads t' = s.threads t') ∧
      (s.resMap key = none ∧ s'.threads t = .rejected ∧ s'.locked = false ∨ ∃ c, s.resMap key = some c ∧ s'.threads t = .sending c m) := by
  cases hs with
  | reject key' m' h hl hk =>
    rw [hw] at h
    cases h
    exact ⟨hl, rfl, rfl, rfl, fun t' ht => upd_other _ _ ht, .inl ⟨hk, upd_same _ _ _, hl⟩⟩
  | find key' m' c h hl hk =>
    rw [hw] at h
    cases h
    exact ⟨hl, rfl, rfl, rfl, fun t' ht => upd_other _ _ ht, .inr ⟨c, hk, upd_same _ _ _⟩⟩
  | discover h => rw [hw] at h; cases h
  | other h => rw [hw] at h; cases h
  | register _ h _ => rw [hw] at h; cases h
  | collect _ _ _ _ _ h _ => rw [hw] at h; cases h
  | timeout _ _ _ h => rw [hw] at h; cases h
  | unregister _ _ _ h _ => rw [hw] at h; cases h
  | arrive _ _ h _ _ => rw [hw] at h; cases h
  | send _ _ h _ => rw [hw] at h; cases h

/-- C50: a listing response arriving at the daemon's port is always rejected: only discovery registers (listings are answered on a socket of their own). -/
theorem C50_listing (s : Table) (h : TRun .fresh s) (i : UInt16) : s.resMap ⟨i, 3⟩ = none := by
  have : ∀ key, key.msgType ≠ 1 → s.resMap key = none := by
    generalize he : Table.fresh = s0 at h
    induction h with
    | refl => subst he; intro _ _; rfl
    | @step u v hr t hs ih =>
      intro key hk
      have ih := ih key hk
      subst he
      obtain ⟨own, hi⟩ := hr.inv
      have hT := hi.threads t
      cases hs with
      | register k h hl =>
        rw [h] at hT
        show upd u.resMap k _ key = none
        rw [upd_other _ _ (by intro e; subst e; exact hk hT)]
        exact ih
      | unregister k c got h hl =>
        show upd u.resMap k _ key = none
        by_cases e : key = k
        · subst e; exact upd_same _ _ _
        · rw [upd_other _ _ e]; exact ih
      | _ => exact ih
  exact this _ (by intro h; exact absurd h (by decide : (3 : UInt8) ≠ 1))

/-! ## C51 -/

/-- A goroutine holds the lock, sending on a full channel from which nobody takes any more. -/
def Spec.Wedged (s : Table) : Prop := ∃ d c m, s.threads d = .sending c m ∧ s.chans c ≠ [] ∧ ∀ t key got, s.threads t ≠ .collecting key c got

/-- C51, full statement: a discovery can always still return. -/
def C51_statement : Prop := ∀ s, TRun .fresh s → ∀ t key, (∃ c got, s.threads t = .collecting key c got ∨ s.threads t = .wantUnregister key c got) →
  ∃ s', TRun s s' ∧ ∃ c got, s'.threads t = .returned key c got

theorem wedged_step {s s' : Table} {own : Nat → RequestKey} (hi : RTInv own s) {t : Nat} (hs : TStep t s s') {d c : Nat} {m : Msg} (h1 : s.threads d = .sending c m) (h2 : s.chans c ≠ [])
    (h3 : ∀ t key got, s.threads t ≠ .collecting key c got) :
    (s'.threads d = .sending c m ∧ s'.chans c ≠ [] ∧ ∀ t key got, s'.threads t ≠ .collecting key c got) ∧
    (∀ t key c got, s'.threads t = .returned key c got → s.threads t = .returned key c got) ∧
    (∀ t, s'.threads t = .delivered → s.threads t = .delivered) ∧ s'.resMap = s.resMap := by
  have hlock : s.locked = true := by
    have := hi.threads d
    rw [h1] at this
    exact this.2.2
  have loc : ∀ th, (∀ c m, s.threads t ≠ .sending c m) → (∀ key got, th ≠ .collecting key c got) → (∀ key c got, th ≠ .returned key c got) → th ≠ .delivered →
      (upd s.threads t th d = .sending c m ∧ s.chans c ≠ [] ∧ ∀ x key got, upd s.threads t th x ≠ .collecting key c got) ∧
      (∀ x key c got, upd s.threads t th x = .returned key c got → s.threads x = .returned key c got) ∧
      (∀ x, upd s.threads t th x = .delivered → s.threads x = .delivered) := by
    intro th g1 g2 g3 g4
    refine ⟨⟨?_, h2, ?_⟩, ?_, ?_⟩
    · rw [upd_other _ _ (by intro e; subst e; exact g1 c m h1)]; exact h1
    · intro x key got
      by_cases hx : x = t
      · subst hx; rw [upd_same]; exact g2 key got
      · rw [upd_other _ _ hx]; exact h3 x key got
    · intro x key c' got
      by_cases hx : x = t
      · subst hx; rw [upd_same]; intro h; exact absurd h (g3 _ _ _)
      · rw [upd_other _ _ hx]; exact id
    · intro x
      by_cases hx : x = t
      · subst hx; rw [upd_same]; intro h; exact absurd h g4
      · rw [upd_other _ _ hx]; exact id
  cases hs with
  | discover h =>
    obtain ⟨g1, g2, g3⟩ := loc (.wantRegister ⟨(generateRequestID s.reqID).1, 1⟩) (by simp [h]) (by simp) (by simp) (by simp)
    exact ⟨g1, g2, g3, rfl⟩
  | other h => exact ⟨⟨h1, h2, h3⟩, fun _ _ _ _ h => h, fun _ h => h, rfl⟩
  | register key h hl => rw [hlock] at hl; cases hl
  | collect key c' got m' rest h hb =>
    have hcc : c ≠ c' := by intro e; subst e; exact h3 _ _ _ h
    have hth : (if m'.type = 1 then Thread.collecting key c' (got ++ [m']) else .dead) = .collecting key c' (got ++ [m']) ∨
        (if m'.type = 1 then Thread.collecting key c' (got ++ [m']) else .dead) = .dead := by split <;> simp
    obtain ⟨⟨g1, -, g2⟩, g3, g4⟩ := loc (if m'.type = 1 then Thread.collecting key c' (got ++ [m']) else .dead) (by simp [h])
      (by rcases hth with e | e <;> rw [e] <;> simp [Ne.symm hcc]) (by rcases hth with e | e <;> rw [e] <;> simp) (by rcases hth with e | e <;> rw [e] <;> simp)
    exact ⟨⟨g1, by show upd s.chans c' rest c ≠ []; rw [upd_other _ _ hcc]; exact h2, g2⟩, g3, g4, rfl⟩
  | timeout key c' got h =>
    obtain ⟨g1, g2, g3⟩ := loc (.wantUnregister key c' got) (by simp [h]) (by simp) (by simp) (by simp)
    exact ⟨g1, g2, g3, rfl⟩
  | unregister key c' got h hl => rw [hlock] at hl; cases hl
  | arrive i m' h hm hid =>
    obtain ⟨g1, g2, g3⟩ := loc (.wantDeliver ⟨i, m'.type⟩ m') (by simp [h]) (by simp) (by simp) (by simp)
    exact ⟨g1, g2, g3, rfl⟩
  | reject key m' h hl hk => rw [hlock] at hl; cases hl
  | find key m' c' h hl hk => rw [hlock] at hl; cases hl
  | send c' m' h hb =>
    have : t = d := hi.holder t d _ _ _ _ h h1
    subst this
    rw [h1] at h
    cases h
    exact absurd hb h2

theorem TRun.trans {s u v : Table} (h : TRun s u) (h' : TRun u v) : TRun s v := by
  induction h' with
  | refl => exact h
  | step _ t hs ih => exact .step ih t hs

/-- C51: once wedged, for ever: no discovery ever returns again, no response is delivered again, no request registered or removed. -/
theorem C51_wedged (s s' : Table) (h : TRun .fresh s) (hw : Wedged s) (hr : TRun s s') :
    Wedged s' ∧ (∀ t key c got, s'.threads t = .returned key c got → s.threads t = .returned key c got) ∧ (∀ t, s'.threads t = .delivered → s.threads t = .delivered) ∧
      s'.resMap = s.resMap := by
  induction hr with
  | refl => exact ⟨hw, fun _ _ _ _ h => h, fun _ h => h, rfl⟩
  | step hr t hs ih =>
    obtain ⟨⟨d, c, m, g1, g2, g3⟩, i2, i3, i4⟩ := ih
    obtain ⟨own, hi⟩ := (h.trans hr).inv
    obtain ⟨k1, k2, k3, k4⟩ := wedged_step hi hs g1 g2 g3
    exact ⟨⟨d, c, m, k1⟩, fun t key c got h => i2 t key c got (k2 t key c got h), fun t h => i3 t (k3 t h), k4.trans i4⟩

/-- Any interleaving of goroutines that have been started: nobody begins a search, and nothing arrives. -/
inductive TQuiet : Table → Table → Prop
  | refl (s : Table) : TQuiet s s
  | step {s u v : Table} (h : TQuiet s u) (t : Nat) (h' : TStep t u v) (hn : u.threads t ≠ .idle) : TQuiet s v

theorem TQuiet.run {s u : Table} (h : TQuiet s u) : TRun s u := by
  induction h with
  | refl => exact .refl _
  | step _ t h' _ ih => exact .step ih t h'

/-- Unless wedged, the lock can be released without disturbing a given requester that is not taking part. -/
theorem unlock {s : Table} (h : TRun .fresh s) (hw : ¬ Wedged s) : ∃ s', TQuiet s s' ∧ s'.locked = false ∧
    (∀ t key c got, s.threads t = .collecting key c got → ∃ got', s'.threads t = .collecting key c got') ∧
    (∀ t key c got, s.threads t = .wantUnregister key c got → s'.threads t = .wantUnregister key c got) ∧
    (∀ t key, s.threads t = .wantRegister key → s'.threads t = .wantRegister key) := by
  obtain ⟨own, hi⟩ := h.inv
  cases hl : s.locked with
  | false => exact ⟨s, .refl s, hl, fun t key c got h => ⟨got, h⟩, fun _ _ _ _ h => h, fun _ _ h => h⟩
  | true =>
    obtain ⟨d, c, m, hd⟩ := hi.held hl
    by_cases hb : s.chans c = []
    · refine ⟨_, .step (.refl s) d (.send s c m hd hb) (by rw [hd]; nofun), rfl, ?_, ?_, ?_⟩
      · intro t key c' got h'
        exact ⟨got, by show upd s.threads d _ t = _; rw [upd_other _ _ (by intro e; subst e; rw [hd] at h'; cases h')]; exact h'⟩
      · intro t key c' got h'
        show upd s.threads d _ t = _; rw [upd_other _ _ (by intro e; subst e; rw [hd] at h'; cases h')]; exact h'
      · intro t key h'
        show upd s.threads d _ t = _; rw [upd_other _ _ (by intro e; subst e; rw [hd] at h'; cases h')]; exact h'
    · have : ∃ x key got, s.threads x = .collecting key c got := by
        apply Classical.byContradiction
        intro hno
        exact hw ⟨d, c, m, hd, hb, fun t key got h' => hno ⟨t, key, got, h'⟩⟩
      obtain ⟨x, key, got, hx⟩ := this
      rcases hbb : s.chans c with _ | ⟨m', rest⟩
      · exact absurd hbb hb
      have hrest : rest = [] := by have := hi.one c; rw [hbb] at this; simp at this; exact this
      subst hrest
      have hT := hi.threads x
      rw [hx] at hT
      have ht : m'.type = 1 := by
        have := hi.chan c m' (by rw [hbb]; exact List.mem_cons_self ..)
        rw [this.1, hT.2.1, hT.2.2.1]
      have st := TStep.collect (t := x) s key c got m' [] hx hbb
      rw [if_pos ht] at st
      have hdx : d ≠ x := by intro e; subst e; rw [hd] at hx; cases hx
      refine ⟨_, .step (.step (.refl s) x st (by rw [hx]; nofun)) d (.send _ c m (by show upd s.threads x _ d = _; rw [upd_other _ _ hdx]; exact hd) (upd_same _ _ _))
        (by show upd s.threads x _ d ≠ _; rw [upd_other _ _ hdx, hd]; nofun), rfl, ?_, ?_, ?_⟩
      · intro t key' c' got' h'
        show ∃ g, upd (upd s.threads x _) d _ t = _
        rw [upd_other _ _ (by intro e; subst e; rw [hd] at h'; cases h')]
        by_cases e : t = x
        · subst e
          rw [hx] at h'
          cases h'
          exact ⟨_, upd_same _ _ _⟩
        · rw [upd_other _ _ e]; exact ⟨got', h'⟩
      · intro t key' c' got' h'
        show upd (upd s.threads x _) d _ t = _
        rw [upd_other _ _ (by intro e; subst e; rw [hd] at h'; cases h'), upd_other _ _ (by intro e; subst e; rw [hx] at h'; cases h')]
        exact h'
      · intro t key' h'
        show upd (upd s.threads x _) d _ t = _
        rw [upd_other _ _ (by intro e; subst e; rw [hd] at h'; cases h'), upd_other _ _ (by intro e; subst e; rw [hx] at h'; cases h')]
        exact h'

/-- Unless wedged, every discovery under way can return, with nothing else arriving. -/
theorem returns_quiet {s : Table} (h : TRun .fresh s) (hw : ¬ Wedged s) (t : Nat) (key : RequestKey)
    (ht : s.threads t = .wantRegister key ∨ ∃ c got, s.threads t = .collecting key c got ∨ s.threads t = .wantUnregister key c got) :
    ∃ s', TQuiet s s' ∧ ∃ c got, s'.threads t = .returned key c got := by
  obtain ⟨u, hu, hl, k1, k2, k3⟩ := unlock h hw
  have fin : ∀ v c got, TQuiet s v → v.locked = false → v.threads t = .wantUnregister key c got → ∃ s', TQuiet s s' ∧ ∃ c got, s'.threads t = .returned key c got :=
    fun v c got hv hl hvt => ⟨_, .step hv t (.unregister v key c got hvt hl) (by rw [hvt]; nofun), c, got, upd_same _ _ _⟩
  rcases ht with ht | ⟨c, got, g | g⟩
  · have h3 := k3 t key ht
    have hv := TQuiet.step hu t (.register u key h3 hl) (by rw [h3]; nofun)
    have e1 : (upd u.threads t (Thread.collecting key u.nchans [])) t = .collecting key u.nchans [] := upd_same _ _ _
    exact fin _ _ _ (hv.step t (.timeout _ key u.nchans [] e1) (by show upd u.threads t _ t ≠ _; rw [e1]; nofun)) hl (upd_same _ _ _)
  · obtain ⟨got', hg⟩ := k1 t key c got g
    exact fin _ c got' (.step hu t (.timeout u key c got' hg) (by rw [hg]; nofun)) hl (upd_same _ _ _)
  · exact fin u c got hu hl (k2 t key c got g)

/-- C51, what holds, exactly: a discovery under way can still return if and only if the server is not wedged. -/
theorem C51_returns_iff_partial (s : Table) (h : TRun .fresh s) (t : Nat) (key : RequestKey)
    (ht : ∃ c got, s.threads t = .collecting key c got ∨ s.threads t = .wantUnregister key c got) :
    (∃ s', TRun s s' ∧ ∃ c got, s'.threads t = .returned key c got) ↔ ¬ Wedged s := by
  constructor
  · rintro ⟨s', hr, c, got, h'⟩ hw
    have := (C51_wedged s s' h hw hr).2.1 t key c got h'
    obtain ⟨c', got', g | g⟩ := ht <;> rw [this] at g <;> cases g
  · intro hw
    obtain ⟨s', h1, h2⟩ := returns_quiet h hw t key (.inr ht)
    exact ⟨s', h1.run, h2⟩

/-- C51: and a discovery that has not registered yet can if and only if the server is not wedged. -/
theorem C51_registers_iff (s : Table) (h : TRun .fresh s) (t : Nat) (key : RequestKey) (ht : s.threads t = .wantRegister key) :
    (∃ s', TRun s s' ∧ ∃ c got, s'.threads t = .returned key c got) ↔ ¬ Wedged s := by
  constructor
  · rintro ⟨s', hr, c, got, h'⟩ hw
    have := (C51_wedged s s' h hw hr).2.1 t key c got h'
    rw [this] at ht; cases ht
  · intro hw
    obtain ⟨s', h1, h2⟩ := returns_quiet h hw t key (.inl ht)
    exact ⟨s', h1.run, h2⟩

/-! ## The deadlock happens -/

/-- One discovery, and two more responses than it takes before its time is over. -/
theorem ex_wedged : ∃ s, TRun .fresh s ∧ Wedged s ∧ ∃ c got, s.threads 0 = .wantUnregister ⟨0, 1⟩ c got := by
  let m : Msg := .discoverResp 0 ⟨[10, 0, 0, 2], rfl⟩ 61696 [0, 1]
  have r1 := (TRun.refl .fresh).step 0 (.discover _ rfl)
  have r2 := r1.step 0 (.register _ ⟨0, 1⟩ rfl rfl)
  have r3 := r2.step 1 (.arrive _ 0 m rfl (.inl rfl) rfl)
  have r4 := r3.step 1 (.find _ ⟨0, 1⟩ m 0 rfl rfl rfl)
  have r5 := r4.step 1 (.send _ 0 m rfl rfl)
  have r6 := r5.step 2 (.arrive _ 0 m rfl (.inl rfl) rfl)
  have r7 := r6.step 2 (.find _ ⟨0, 1⟩ m 0 rfl rfl rfl)
  have r8 := r7.step 0 (.timeout _ ⟨0, 1⟩ 0 [] rfl)
  refine ⟨_, r8, ⟨2, 0, m, rfl, ?_, ?_⟩, 0, [], rfl⟩
  · show [m] ≠ []
    simp
  · intro t key got
    match t with
    | 0 => intro h; cases h
    | 1 => intro h; cases h
    | 2 => intro h; cases h
    | n + 3 => intro h; simp [upd, Table.fresh] at h

/-- The full statement of C51 is false. -/
theorem C51_refuted : ¬ C51_statement := by
  intro h
  obtain ⟨s, hs, hw, c, got, ht⟩ := ex_wedged
  exact (C51_returns_iff_partial s hs 0 _ ⟨c, got, .inr ht⟩).1 (h s hs 0 _ ⟨c, got, .inr ht⟩) hw

/-- A discovery that returns with a response. -/
example : ∃ s, TRun .fresh s ∧ ∃ c m, s.threads 0 = .returned ⟨0, 1⟩ c [m] ∧ s.threads 1 = .delivered := by
  let m : Msg := .discoverResp 0 ⟨[10, 0, 0, 2], rfl⟩ 61696 [0, 1]
  have r1 := (TRun.refl .fresh).step 0 (.discover _ rfl)
  have r2 := r1.step 0 (.register _ ⟨0, 1⟩ rfl rfl)
  have r3 := r2.step 1 (.arrive _ 0 m rfl (.inl rfl) rfl)
  have r4 := r3.step 1 (.find _ ⟨0, 1⟩ m 0 rfl rfl rfl)
  have r5 := r4.step 1 (.send _ 0 m rfl rfl)
  have r6 := r5.step 0 (.collect _ ⟨0, 1⟩ 0 [] m [] rfl rfl)
  have r7 := r6.step 0 (.timeout _ ⟨0, 1⟩ 0 [m] rfl)
  have r8 := r7.step 0 (.unregister _ ⟨0, 1⟩ 0 [m] rfl rfl)
  exact ⟨_, r8, 0, m, rfl, rfl⟩

/-- An answer to a listing that comes while a discovery with the same identifier waits does not reach it. -/
example : ∃ s c, TRun .fresh s ∧ s.threads 1 = .rejected ∧ s.threads 0 = .collecting ⟨0, 1⟩ c [] ∧ s.chans c = [] := by
  let m : Msg := .listResp 0 []
  have r1 := (TRun.refl .fresh).step 0 (.discover _ rfl)
  have r2 := r1.step 0 (.register _ ⟨0, 1⟩ rfl rfl)
  have r3 := r2.step 1 (.arrive _ 0 m rfl (.inr rfl) rfl)
  have r4 := r3.step 1 (.reject _ ⟨0, 3⟩ m rfl rfl rfl)
  exact ⟨_, 0, r4, rfl, rfl, rfl⟩

/-- The identifiers come round again. -/
example : (Spec.drawn 0 65537)[0]? = (Spec.drawn 0 65537)[65536]? ∧ (Spec.drawn 0 65537)[0]? ≠ (Spec.drawn 0 65537)[65535]? :=
  ⟨(C49_distinct 65537 0 65536 (by omega) (by omega)).2 rfl, C49_window 65537 0 65535 (by omega) (by omega) (by omega)⟩

end Flu
