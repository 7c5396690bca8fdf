import Verif.Props.Requests
/-!
# An answer that comes in time reaches the discovery that asked (C106)
-/
namespace Flu

/-- The identifier under which a discovery is under way: from the moment it draws it until it returns. -/
def Spec.underWay : Thread → Option RequestKey
  | .wantRegister key | .collecting key _ _ | .wantUnregister key _ _ => some key
  | _ => none

/-- An execution of the daemon with the number `n` of identifiers drawn so far and, for every goroutine, how many had been drawn before its own.  At every moment all discoveries that are under way are
among the last 65536 requests. -/
inductive Spec.Timely : Table → Nat → (Nat → Nat) → Prop
  | init : Spec.Timely .fresh 0 (fun _ => 0)
  | draw {s s' : Table} {n : Nat} {born : Nat → Nat} (h : Spec.Timely s n born) (t : Nat) (hs : TStep t s s') (hd : s'.reqID ≠ s.reqID)
      (ho : ∀ u, (Spec.underWay (s'.threads u)).isSome → n + 1 ≤ (if u = t then n else born u) + 65536) : Spec.Timely s' (n + 1) (fun u => if u = t then n else born u)
  | step {s s' : Table} {n : Nat} {born : Nat → Nat} (h : Spec.Timely s n born) (t : Nat) (hs : TStep t s s') (hd : s'.reqID = s.reqID) : Spec.Timely s' n born

theorem Spec.Timely.run {s : Table} {n : Nat} {born : Nat → Nat} (h : Spec.Timely s n born) : TRun .fresh s := by
  induction h with
  | init => exact .refl _
  | draw _ t hs _ _ ih => exact ih.step t hs
  | step _ t hs _ ih => exact ih.step t hs

/-- The entry of the table and the goroutine it is for. -/
def Spec.waitsAt : Thread → Option (RequestKey × Nat)
  | .collecting key c _ | .wantUnregister key c _ => some (key, c)
  | _ => none

/-- **C106, nothing is left behind**: every entry of the table belongs to a discovery that has not returned. -/
theorem C106_no_leftover (s : Table) (h : TRun .fresh s) (key : RequestKey) (c : Nat) (hk : s.resMap key = some c) : ∃ t, Spec.waitsAt (s.threads t) = some (key, c) := by
  generalize h0 : Table.fresh = s0 at h
  induction h generalizing key c with
  | refl => subst h0; cases hk
  | @step u v hr t hs ih =>
    have keep : ∀ (th : Thread), v.resMap = u.resMap → v.threads = upd u.threads t th → (∀ x, Spec.waitsAt (u.threads t) = some x → Spec.waitsAt th = some x) → ∃ t, Spec.waitsAt (v.threads t) = some (key, c) := by
      intro th h1 h2 h3
      rw [h1] at hk
      obtain ⟨t', ht'⟩ := ih key c hk
      refine ⟨t', ?_⟩
      rw [h2]
      by_cases e : t' = t
      · subst e; rw [upd_same]; exact h3 _ ht'
      · rw [upd_other _ _ e]; exact ht'
    cases hs with
    | discover h => exact keep _ rfl rfl (by rw [h]; simp [Spec.waitsAt])
    | other h => exact ih key c hk
    | register key' h hl =>
      by_cases e : key = key'
      · subst e
        refine ⟨t, ?_⟩
        simp only [upd_same, Option.some.injEq] at hk ⊢
        subst hk
        rfl
      · simp only [upd_other _ _ e] at hk
        obtain ⟨t', ht'⟩ := ih key c hk
        refine ⟨t', ?_⟩
        by_cases e' : t' = t
        · subst e'; rw [h] at ht'; cases ht'
        · simp only [upd_other _ _ e']; exact ht'
    | collect key' c' got m rest h hb =>
      obtain ⟨own, hi⟩ := (h0 ▸ hr : TRun .fresh u).inv
      have hc := hi.threads t
      rw [h] at hc
      have hm := hi.chan c' m (by rw [hb]; exact List.mem_cons_self ..)
      have : m.type = 1 := by rw [hm.1, hc.2.1]; exact hc.2.2.1
      exact keep (.collecting key' c' (got ++ [m])) rfl (by simp only [this, if_true]) (by rw [h]; exact fun _ h => h)
    | timeout key' c' got h => exact keep _ rfl rfl (by rw [h]; exact fun _ h => h)
    | unregister key' c' got h hl =>
      by_cases e : key = key'
      · subst e; simp only [upd_same] at hk; cases hk
      · simp only [upd_other _ _ e] at hk
        obtain ⟨t', ht'⟩ := ih key c hk
        refine ⟨t', ?_⟩
        by_cases e' : t' = t
        · subst e'; rw [h] at ht'; cases ht'; exact absurd rfl e
        · simp only [upd_other _ _ e']; exact ht'
    | arrive i m h hm hi => exact keep _ rfl rfl (by rw [h]; simp [Spec.waitsAt])
    | reject key' m h hl hk' => exact keep _ rfl rfl (by rw [h]; simp [Spec.waitsAt])
    | find key' m c' h hl hk' => exact keep _ rfl rfl (by rw [h]; simp [Spec.waitsAt])
    | send c' m h hb => exact keep _ rfl rfl (by rw [h]; simp [Spec.waitsAt])

/-- What holds in a timely execution. -/
structure TimelyInv (s : Table) (n : Nat) (born : Nat → Nat) : Prop where
  next : s.reqID = n % 65536
  key : ∀ t k, Spec.underWay (s.threads t) = some k → born t < n ∧ n ≤ born t + 65536 ∧ k = ⟨UInt16.ofNat (born t % 65536), 1⟩
  one : ∀ t u, (Spec.underWay (s.threads t)).isSome → (Spec.underWay (s.threads u)).isSome → born t = born u → t = u
  entry : ∀ t k c, Spec.waitsAt (s.threads t) = some (k, c) → s.resMap k = some c

theorem underWay_of_waits {th : Thread} {k : RequestKey} {c : Nat} (h : Spec.waitsAt th = some (k, c)) : Spec.underWay th = some k := by
  cases th <;> simp [Spec.waitsAt] at h <;> exact congrArg some h.1

theorem TimelyInv.alone {s : Table} {n : Nat} {born : Nat → Nat} (h : TimelyInv s n born) {t u : Nat} {k : RequestKey} (ht : Spec.underWay (s.threads t) = some k)
    (hu : Spec.underWay (s.threads u) = some k) : t = u := by
  obtain ⟨a1, a2, a3⟩ := h.key t k ht
  obtain ⟨b1, b2, b3⟩ := h.key u k hu
  have e : UInt16.ofNat (born t % 65536) = UInt16.ofNat (born u % 65536) := congrArg RequestKey.reqID (a3.symm.trans b3)
  have e2 := congrArg UInt16.toNat e
  rw [UInt16.toNat_ofNat', UInt16.toNat_ofNat'] at e2
  exact h.one t u (by rw [ht]; rfl) (by rw [hu]; rfl) (by omega)

/-- A step of a goroutine that draws nothing and changes neither the table nor what it waits for. -/
theorem TimelyInv.stay {s s' : Table} {n : Nat} {born : Nat → Nat} {t : Nat} {th : Thread} (h : TimelyInv s n born) (h1 : s'.reqID = s.reqID) (h2 : s'.resMap = s.resMap)
    (h3 : s'.threads = upd s.threads t th) (h4 : ∀ k, Spec.underWay th = some k → Spec.underWay (s.threads t) = some k) (h5 : ∀ x, Spec.waitsAt th = some x → Spec.waitsAt (s.threads t) = some x) :
    TimelyInv s' n born := by
  have hu : ∀ u k, Spec.underWay (s'.threads u) = some k → Spec.underWay (s.threads u) = some k := by
    intro u k
    rw [h3]
    by_cases e : u = t
    · subst e; rw [upd_same]; exact h4 k
    · rw [upd_other _ _ e]; exact id
  have hi : ∀ u, (Spec.underWay (s'.threads u)).isSome → (Spec.underWay (s.threads u)).isSome := by
    intro u hs
    obtain ⟨k, hk⟩ := Option.isSome_iff_exists.1 hs
    rw [hu u k hk]; rfl
  refine ⟨h1.trans h.next, fun u k hk => h.key u k (hu u k hk), fun u v h1 h2 => h.one u v (hi u h1) (hi v h2), fun u k c hk => ?_⟩
  rw [h2]
  apply h.entry u k c
  rw [h3] at hk
  by_cases e : u = t
  · subst e; rw [upd_same] at hk; exact h5 _ hk
  · rw [upd_other _ _ e] at hk; exact hk

theorem timely_inv {s : Table} {n : Nat} {born : Nat → Nat} (h : Spec.Timely s n born) : TimelyInv s n born := by
  induction h with
  | init => exact ⟨rfl, fun t k h => (by cases h), fun t u h => (by cases h), fun t k c h => (by cases h)⟩
  | @draw s s' n born h t hs hd ho ih =>
    have other : ∀ u, u ≠ t → (if u = t then n else born u) = born u := fun u e => if_neg e
    cases hs with
    | discover hi =>
      have old : ∀ u k, u ≠ t → Spec.underWay (upd s.threads t (.wantRegister ⟨(generateRequestID s.reqID).1, 1⟩) u) = some k → Spec.underWay (s.threads u) = some k := by
        intro u k e; rw [upd_other _ _ e]; exact id
      refine ⟨?_, fun u k hk => ?_, fun u v hu hv huv => ?_, fun u k c hk => ?_⟩
      · show (s.reqID + 1) % 65536 = _
        rw [ih.next]; omega
      · have hle := ho u (by rw [hk]; rfl)
        by_cases e : u = t
        · subst e
          simp only [upd_same, Spec.underWay, Option.some.injEq] at hk
          simp only [if_true]
          refine ⟨Nat.lt_succ_self n, by omega, ?_⟩
          rw [← hk, ← ih.next]; rfl
        · have := ih.key u k (old u k e hk)
          simp only [if_neg e] at hle ⊢
          exact ⟨by omega, hle, this.2.2⟩
      · have lt : ∀ w, w ≠ t → (Spec.underWay (upd s.threads t (.wantRegister ⟨(generateRequestID s.reqID).1, 1⟩) w)).isSome → born w < n ∧ (Spec.underWay (s.threads w)).isSome := by
          intro w e hw
          obtain ⟨k, hk⟩ := Option.isSome_iff_exists.1 hw
          exact ⟨(ih.key w k (old w k e hk)).1, by rw [old w k e hk]; rfl⟩
        by_cases e : u = t <;> by_cases e' : v = t
        · rw [e, e']
        · have := (lt v e' hv).1
          rw [if_pos e, if_neg e'] at huv; omega
        · have := (lt u e hu).1
          rw [if_neg e, if_pos e'] at huv; omega
        · rw [if_neg e, if_neg e'] at huv
          exact ih.one u v (lt u e hu).2 (lt v e' hv).2 huv
      · by_cases e : u = t
        · subst e; simp only [upd_same] at hk; cases hk
        · simp only [upd_other _ _ e] at hk; exact ih.entry u k c hk
    | other hi =>
      have ne : ∀ u, (Spec.underWay (s.threads u)).isSome → u ≠ t := by
        rintro u hu rfl
        rw [hi] at hu; cases hu
      refine ⟨?_, fun u k hk => ?_, fun u v hu hv huv => ?_, ih.entry⟩
      · show (s.reqID + 1) % 65536 = _
        rw [ih.next]; omega
      · have hle := ho u (by rw [hk]; rfl)
        have e := ne u (by rw [hk]; rfl)
        have := ih.key u k hk
        simp only [if_neg e] at hle ⊢
        exact ⟨by omega, hle, this.2.2⟩
      · simp only [if_neg (ne u hu), if_neg (ne v hv)] at huv
        exact ih.one u v hu hv huv
    | register key h hl => exact absurd rfl hd
    | collect key c got m rest h hb => exact absurd rfl hd
    | timeout key c got h => exact absurd rfl hd
    | unregister key c got h hl => exact absurd rfl hd
    | arrive i m h hm hi => exact absurd rfl hd
    | reject key m h hl hk => exact absurd rfl hd
    | find key m c h hl hk => exact absurd rfl hd
    | send c m h hb => exact absurd rfl hd
  | @step s s' n born hT t hs hd ih =>
    cases hs with
    | discover hi =>
      exfalso
      have : (s.reqID + 1) % 65536 = s.reqID := hd
      omega
    | other hi =>
      exfalso
      have : (s.reqID + 1) % 65536 = s.reqID := hd
      omega
    | register key hi hl =>
      have hT' : Spec.underWay (s.threads t) = some key := by rw [hi]; rfl
      have same : ∀ u k, Spec.underWay (upd s.threads t (.collecting key s.nchans []) u) = some k → Spec.underWay (s.threads u) = some k := by
        intro u k hk
        by_cases e : u = t
        · subst e; rw [upd_same] at hk; rw [hT']; exact hk
        · rw [upd_other _ _ e] at hk; exact hk
      refine ⟨ih.next, fun u k hk => ih.key u k (same u k hk), fun u v hu hv => ?_, fun u k c hk => ?_⟩
      · obtain ⟨k, hk⟩ := Option.isSome_iff_exists.1 hu
        obtain ⟨k', hk'⟩ := Option.isSome_iff_exists.1 hv
        exact ih.one u v (by rw [same u k hk]; rfl) (by rw [same v k' hk']; rfl)
      · by_cases e : u = t
        · subst e
          simp only [upd_same, Spec.waitsAt, Option.some.injEq, Prod.mk.injEq] at hk
          obtain ⟨rfl, rfl⟩ := hk
          exact upd_same _ _ _
        · simp only [upd_other _ _ e] at hk
          have : k ≠ key := by
            rintro rfl
            exact e (ih.alone (underWay_of_waits hk) hT')
          simp only [upd_other _ _ this]
          exact ih.entry u k c hk
    | collect key c got m rest hi hb =>
      refine ih.stay (t := t) rfl rfl rfl ?_ ?_
      · intro k; rw [hi]; split
        · exact id
        · intro h; cases h
      · intro k; rw [hi]; split
        · exact id
        · intro h; cases h
    | timeout key c got hi => exact ih.stay (t := t) rfl rfl rfl (by rw [hi]; exact fun _ h => h) (by rw [hi]; exact fun _ h => h)
    | unregister key c got hi hl =>
      have hT' : Spec.underWay (s.threads t) = some key := by rw [hi]; rfl
      have same : ∀ u k, Spec.underWay (upd s.threads t (.returned key c got) u) = some k → u ≠ t ∧ Spec.underWay (s.threads u) = some k := by
        intro u k hk
        by_cases e : u = t
        · subst e; rw [upd_same] at hk; cases hk
        · rw [upd_other _ _ e] at hk; exact ⟨e, hk⟩
      refine ⟨ih.next, fun u k hk => ih.key u k (same u k hk).2, fun u v hu hv => ?_, fun u k c' hk => ?_⟩
      · obtain ⟨k, hk⟩ := Option.isSome_iff_exists.1 hu
        obtain ⟨k', hk'⟩ := Option.isSome_iff_exists.1 hv
        exact ih.one u v (by rw [(same u k hk).2]; rfl) (by rw [(same v k' hk').2]; rfl)
      · have e := (same u k (underWay_of_waits hk)).1
        simp only [upd_other _ _ e] at hk
        have : k ≠ key := by
          rintro rfl
          exact e (ih.alone (underWay_of_waits hk) hT')
        simp only [upd_other _ _ this]
        exact ih.entry u k c' hk
    | arrive i m hi hm hi' => exact ih.stay (t := t) rfl rfl rfl (fun k h => by cases h) (fun k h => by cases h)
    | reject key m hi hl hk => exact ih.stay (t := t) rfl rfl rfl (fun k h => by cases h) (fun k h => by cases h)
    | find key m c hi hl hk => exact ih.stay (t := t) rfl rfl rfl (fun k h => by cases h) (fun k h => by cases h)
    | send c m hi hb => exact ih.stay (t := t) rfl rfl rfl (fun k h => by cases h) (fun k h => by cases h)

/-- **C106**: in an execution in which every discovery that is under way is among the last 65536 requests, no two of them have the same identifier, and the handler of an answer that gets the lock
rejects it if no discovery with its identifier waits for answers, and otherwise goes on to put it into the channel of this discovery. -/
theorem C106_reaches (s s' : Table) (n : Nat) (born : Nat → Nat) (h : Spec.Timely s n born) :
    (∀ t u k, Spec.underWay (s.threads t) = some k → Spec.underWay (s.threads u) = some k → t = u) ∧
    ∀ d key m, s.threads d = .wantDeliver key m → TStep d s s' →
      (∀ t c, Spec.waitsAt (s.threads t) = some (key, c) → s'.threads d = .sending c m) ∧
      ((∀ t c, Spec.waitsAt (s.threads t) ≠ some (key, c)) → s'.threads d = .rejected) := by
  have hi := timely_inv h
  refine ⟨fun t u k => hi.alone, fun d key m hd hs => ⟨fun t c hw => ?_, fun hn => ?_⟩⟩
  · have he := hi.entry t key c hw
    cases hs <;> simp_all [upd]
  · have : s.resMap key = none := by
      cases hr : s.resMap key with
      | none => rfl
      | some c =>
        obtain ⟨t, ht⟩ := C106_no_leftover s h.run key c hr
        exact absurd ht (hn t c)
    cases hs <;> simp_all [upd]

/-- One message is taken from the channel. -/
theorem takes_one {s : Table} (h : TRun .fresh s) {t : Nat} {key : RequestKey} {c : Nat} {got : List Msg} {m : Msg} {rest : List Msg} (ht : s.threads t = .collecting key c got)
    (hb : s.chans c = m :: rest) : TStep t s { s with chans := upd s.chans c rest, threads := upd s.threads t (.collecting key c (got ++ [m])) } := by
  obtain ⟨own, hi⟩ := h.inv
  have hc := hi.threads t
  rw [ht] at hc
  have hm := hi.chan c m (by rw [hb]; exact List.mem_cons_self ..)
  have e : m.type = 1 := by rw [hm.1, hc.2.1]; exact hc.2.2.1
  have := TStep.collect s key c got m rest ht hb
  rw [if_pos e] at this
  exact this

/-- **C106**: an answer that is on its way into the channel of a discovery that still collects can be collected by it. -/
theorem C106_collected (s : Table) (h : TRun .fresh s) (d t : Nat) (key : RequestKey) (c : Nat) (got : List Msg) (m : Msg) (hd : s.threads d = .sending c m)
    (ht : s.threads t = .collecting key c got) : ∃ s' got', TRun s s' ∧ s'.threads t = .collecting key c (got ++ got' ++ [m]) := by
  have hne : t ≠ d := by rintro rfl; rw [ht] at hd; cases hd
  have room : ∀ (s : Table) (got : List Msg), TRun .fresh s → s.threads d = .sending c m → s.threads t = .collecting key c got → s.chans c = [] →
      ∃ s', TRun s s' ∧ s'.threads t = .collecting key c (got ++ [m]) := by
    intro s got h hd ht hb
    have r1 := (TRun.refl s).step d (.send s c m hd hb)
    have ht' : (upd s.threads d .delivered) t = .collecting key c got := by rw [upd_other _ _ hne]; exact ht
    have r2 := takes_one (h.trans r1) (t := t) (key := key) (c := c) (got := got) (m := m) (rest := []) ht' (by show upd s.chans c [m] c = _; rw [upd_same])
    exact ⟨_, r1.step t r2, by show upd _ _ _ _ = _; rw [upd_same]⟩
  obtain ⟨own, hi⟩ := h.inv
  cases hb : s.chans c with
  | nil =>
    obtain ⟨s', hr, hs⟩ := room s got h hd ht hb
    exact ⟨s', [], hr, by rw [List.append_nil]; exact hs⟩
  | cons x rest =>
    have hl := hi.one c
    rw [hb] at hl
    obtain rfl : rest = [] := by
      cases rest with
      | nil => rfl
      | cons => simp at hl
    have r1 := (TRun.refl s).step t (takes_one h ht hb)
    obtain ⟨s', hr, hs⟩ := room { s with chans := upd s.chans c [], threads := upd s.threads t (.collecting key c (got ++ [x])) } (got ++ [x]) (h.trans r1)
      (by show upd _ _ _ _ = _; rw [upd_other _ _ hne.symm]; exact hd) (by show upd _ _ _ _ = _; rw [upd_same]) (by show upd _ _ _ _ = _; rw [upd_same])
    exact ⟨s', [x], r1.trans hr, hs⟩

/-- The hypotheses of `C106_reaches` and `C106_collected` can be met: a discovery asks, and an answer arrives. -/
example : ∃ s s' born c got key m, Spec.Timely s 1 born ∧ s.threads 1 = .wantDeliver key m ∧ TStep 1 s s' ∧ Spec.waitsAt (s.threads 0) = some (key, c) ∧ TRun .fresh s' ∧
    s'.threads 1 = .sending c m ∧ s'.threads 0 = .collecting key c got := by
  let m : Msg := .discoverResp 0 ⟨[1, 2, 3, 4], rfl⟩ 61696 []
  have h0 := Spec.Timely.init.draw 0 (.discover .fresh rfl) (by decide) (fun u hu => by
    by_cases e : u = 0
    · simp [e]
    · simp [upd, e, Table.fresh, Spec.underWay] at hu)
  have h1 := h0.step 0 (.register _ _ rfl rfl) rfl
  have h2 := h1.step 1 (.arrive _ 0 m rfl (.inl rfl) rfl) rfl
  exact ⟨_, _, _, _, _, _, _, h2, rfl, .find _ ⟨0, 1⟩ m 0 rfl rfl rfl, rfl, h2.run.step 1 (.find _ ⟨0, 1⟩ m 0 rfl rfl rfl), rfl, rfl⟩

end Flu
