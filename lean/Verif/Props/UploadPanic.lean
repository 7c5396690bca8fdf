import Verif.Props.WindowMany
/-!
# Can a peer end the daemon by asking for a chunk twice? (C105)
-/
namespace Flu

/-- Any number of steps, all of which satisfy `ok`. -/
inductive Spec.Steps (ok : MuState → MuState → Prop) (s0 : MuState) : MuState → Prop
  | refl : Spec.Steps ok s0 s0
  | step {s t : MuState} {p : Option Packet} (h : Spec.Steps ok s0 s) (hs : MuStep s p t) (hok : ok s t) : Spec.Steps ok s0 t

/-- A section of at most 2^32 - 1 bytes. -/
def Spec.Small (r : SectionReader) : Prop := r.base ≤ r.limit ∧ r.limit - r.base ≤ 4294967295

/-- C105, as it should be: as long as no read from the disk and no write to the socket fails, no goroutine of an upload panics. -/
def C105_statement : Prop := ∀ (r : SectionReader) (cap : UInt16) (file : Bytes) (s : MuState), Spec.Small r → Spec.Steps Spec.Sound (.init r cap file) s → ∀ i, s.threads i ≠ .dead

/-- The position is in the section, and so is what is read. -/
def PcIn (r : SectionReader) : RdPc → Prop
  | .seek | .test _ => r.base ≤ r.off ∧ r.off ≤ r.limit
  | .seekStore a => r.base ≤ r.off ∧ r.off ≤ r.limit ∧ r.base ≤ a ∧ a ≤ r.limit
  | .clip _ => r.base ≤ r.off ∧ r.off < r.limit
  | .fetch _ want => r.base ≤ r.off ∧ r.off + want ≤ r.limit
  | .add _ got err => r.base ≤ r.off ∧ r.off + got.length ≤ r.limit ∧ err ≠ some .other
  | .addStore _ got err a => r.base ≤ a ∧ a + got.length ≤ r.limit ∧ err ≠ some .other
  | .done _ _ err => r.base ≤ r.off ∧ r.off ≤ r.limit ∧ err ≠ some .other
  | .panicked => False

/-- What holds of the goroutine at work when requests do not overlap. -/
def ThIn (r : SectionReader) : MuThread → Prop
  | .none | .exited => True
  | .dead | .defers _ true => False
  | .reset _ _ .none => r.base ≤ r.off ∧ r.off ≤ r.limit
  | .reset _ _ (some a) => r.base ≤ r.off ∧ r.off ≤ r.limit ∧ r.base ≤ a ∧ a ≤ r.limit
  | .first _ _ pc | .reading _ pc => PcIn r pc
  | _ => r.base ≤ r.off ∧ r.off ≤ r.limit

theorem pcIn_next {r : SectionReader} {now : Bytes} {n : Nat} {rd : AtChoice} {pc : RdPc} (hr : Spec.Small r) (h : PcIn r pc) (hb : pc.busy = true)
    (hs : ∀ o want got, pc = .fetch o want → (pc.next r now n rd).1 ≠ .add o got (some .other)) : PcIn { r with off := (pc.next r now n rd).2 } (pc.next r now n rd).1 := by
  cases pc with
  | seek => exact ⟨h.1, h.2, h.1, h.2⟩
  | seekStore a =>
    have := hr.2
    simp only [RdPc.next]
    have h3 := h.2.2.1
    have h4 := h.2.2.2
    rw [if_neg (by omega), if_neg (by omega)]
    exact ⟨h3, h4⟩
  | test o =>
    simp only [RdPc.next]
    split
    · exact ⟨h.1, h.2, by simp⟩
    · exact ⟨h.1, by show r.off < r.limit; omega⟩
  | clip o =>
    simp only [RdPc.next]
    have h2 := h.2
    rw [if_neg (by omega)]
    exact ⟨h.1, by show r.off + min n (r.limit - r.off) ≤ r.limit; omega⟩
  | fetch o want =>
    have hl : (osReadAt now r.off want rd).1.length ≤ want := by
      cases rd with
      | good => show ((now.drop r.off).take want).length ≤ want; rw [List.length_take]; omega
      | fail k => show ((now.drop r.off).take (min k want)).length ≤ want; rw [List.length_take]; omega
    have h2 := h.2
    refine ⟨h.1, by show r.off + (osReadAt now r.off want rd).1.length ≤ r.limit; omega, fun he => ?_⟩
    exact hs o want _ rfl (congrArg (RdPc.add o (osReadAt now r.off want rd).1) he)
  | add o got err => exact ⟨h.1, h.2.1, h.2.2⟩
  | addStore o got err a => exact ⟨Nat.le_trans h.1 (Nat.le_add_right _ _), h.2.1, h.2.2⟩
  | done => cases hb
  | panicked => cases hb

/-- What holds when requests do not overlap and nothing fails. -/
def SafeInv (r0 : SectionReader) (s : MuState) : Prop := s.reader.base = r0.base ∧ s.reader.limit = r0.limit ∧ (∀ j, s.threads j ≠ .dead) ∧
  ∃ i, (∀ j, j ≠ i → (s.threads j).idle = true) ∧ ThIn s.reader (s.threads i)

theorem safe_step {r0 : SectionReader} {s t : MuState} {p : Option Packet} (hr0 : Spec.Small r0) (h : SafeInv r0 s) (hs : MuStep s p t) (ha : Spec.Apart s t)
    (hf : Spec.Sound s t) : SafeInv r0 t := by
  obtain ⟨hb, hl, hd, i, hid, hin⟩ := h
  have hsm : Spec.Small s.reader := by unfold Spec.Small; rw [hb, hl]; exact hr0
  have act : ∀ {j : Nat} {x : MuThread}, s.threads j = x → x.idle = false → j = i := by
    intro j x hx hj
    apply Classical.byContradiction
    intro hne
    have := hid j hne
    rw [hx, hj] at this
    cases this
  have mv : ∀ (j : Nat) (x y : MuThread), s.threads j = x → x.idle = false → t.threads = (s.set j y).threads → t.reader.base = s.reader.base → t.reader.limit = s.reader.limit →
      (ThIn s.reader x → ThIn t.reader y ∧ y ≠ .dead) → SafeInv r0 t := by
    intro j x y hx hxi ht h1 h2 hgo
    obtain rfl := act hx hxi
    rw [hx] at hin
    obtain ⟨g1, g2⟩ := hgo hin
    refine ⟨h1.trans hb, h2.trans hl, fun l => ?_, j, fun l hl' => ?_, ?_⟩
    · rw [ht]
      by_cases hl' : l = j
      · rw [hl', MuState.set_self]; exact g2
      · rw [MuState.set_other hl']; exact hd l
    · rw [ht, MuState.set_other hl']; exact hid l hl'
    · rw [ht, MuState.set_self]; exact g1
  have fl : ∀ (j : Nat) (x y : MuThread), s.threads j = x → t.threads = (s.set j y).threads → ¬ Spec.FailsAt x y := by
    intro j x y hx ht
    have := hf j
    rwa [ht, MuState.set_self, hx] at this
  cases hs with
  | edit new => exact ⟨hb, hl, hd, i, hid, hin⟩
  | arrive => exact ⟨hb, hl, hd, i, hid, hin⟩
  | kickstart j hash size hj =>
    have hth : ∀ l, (MuState.move (s.set j (.reset hash size .none)) s.reader.base).threads l = (s.set j (.reset hash size .none)).threads l := fun _ => rfl
    refine ⟨hb, hl, fun l => ?_, j, fun l hl' => ?_, ?_⟩
    · rw [hth]
      by_cases hl' : l = j
      · rw [hl', MuState.set_self]; simp
      · rw [MuState.set_other hl']; exact hd l
    · rw [hth, MuState.set_other hl']
      exact ha j hj (by rw [hth, MuState.set_self]; simp) l hl'
    · rw [hth, MuState.set_self]; exact ⟨Nat.le_refl _, hsm.1⟩
  | resetLoad j hash size hj => exact mv j _ _ hj rfl rfl rfl rfl (fun h => ⟨⟨h.1, h.2, h.1, h.2⟩, by simp⟩)
  | resetStore j hash size a hj =>
    refine mv j _ _ hj rfl rfl rfl rfl (fun h => ?_)
    have hn := pcIn_next (now := s.now) (n := 0) (rd := .good) (pc := .seekStore a) hsm h rfl (by simp)
    have hne : (RdPc.next s.reader s.now 0 .good (.seekStore a)).1 ≠ .panicked := fun e => by rw [e] at hn; exact hn
    rw [if_neg hne]
    refine ⟨?_, by simp⟩
    revert hn hne
    simp only [RdPc.next]
    split
    · exact fun _ h => absurd rfl h
    · split
      · exact fun _ h => absurd rfl h
      · exact fun h _ => h
  | firstStep j hash size pc rd hj hp =>
    refine mv j _ _ hj rfl rfl rfl rfl (fun h => ⟨pcIn_next hsm h hp (fun o want got e1 e2 => ?_), by simp⟩)
    subst e1
    have := fl j _ _ hj rfl
    rw [e2] at this
    exact this trivial
  | firstDone j hash size o got err hj he => exact mv j _ _ hj rfl rfl rfl rfl (fun h => ⟨⟨h.1, h.2.1⟩, by simp⟩)
  | firstFails j hash size o got hj => exact mv j _ _ hj rfl rfl rfl rfl (fun h => absurd rfl h.2.2)
  | firstDies j hash size hj => exact mv j _ _ hj rfl rfl rfl rfl (fun h => h.elim)
  | sendFirst j hash size got hj => exact mv j _ _ hj rfl rfl rfl rfl (fun h => ⟨h, by simp⟩)
  | sendFirstFails j hash size got hj => exact absurd trivial (fl j _ _ hj rfl)
  | firstLoad j hj => exact mv j _ _ hj rfl rfl rfl rfl (fun h => ⟨h, by simp⟩)
  | firstStore j w hj => exact mv j _ _ hj rfl rfl rfl rfl (fun h => ⟨h, by simp⟩)
  | take j hj hp => exact mv j _ _ hj rfl rfl rfl rfl (fun h => ⟨h, by simp⟩)
  | takeLoad j hj => exact mv j _ _ hj rfl rfl rfl rfl (fun h => ⟨h, by simp⟩)
  | takeStore j w hj => exact mv j _ _ hj rfl rfl rfl rfl (fun h => ⟨h, by simp⟩)
  | cancel j hj hc => exact mv j _ _ hj rfl rfl rfl rfl (fun _ => ⟨trivial, by simp⟩)
  | more j ends hj hw => exact mv j _ _ hj rfl rfl rfl rfl (fun h => ⟨h, by simp⟩)
  | full j ends hj hw => exact mv j _ _ hj rfl rfl rfl rfl (fun h => ⟨h, by simp⟩)
  | readStep j ends pc rd hj hp =>
    refine mv j _ _ hj rfl rfl rfl rfl (fun h => ⟨pcIn_next hsm h hp (fun o want got e1 e2 => ?_), by simp⟩)
    subst e1
    have := fl j _ _ hj rfl
    rw [e2] at this
    exact this trivial
  | readDone j ends o got err hj he => exact mv j _ _ hj rfl rfl rfl rfl (fun h => ⟨⟨h.1, h.2.1⟩, by simp⟩)
  | readFails j ends o got hj => exact mv j _ _ hj rfl rfl rfl rfl (fun h => absurd rfl h.2.2)
  | readDies j ends hj => exact mv j _ _ hj rfl rfl rfl rfl (fun h => h.elim)
  | send j ends o got hj => exact mv j _ _ hj rfl rfl rfl rfl (fun h => ⟨h, by simp⟩)
  | sendFails j ends o got hj => exact absurd trivial (fl j _ _ hj rfl)
  | sentLoad j ends hj => exact mv j _ _ hj rfl rfl rfl rfl (fun h => ⟨h, by simp⟩)
  | sentStore j ends w hj => exact mv j _ _ hj rfl rfl rfl rfl (fun h => ⟨h, by simp⟩)
  | terminate j left failed hj hc =>
    refine mv j _ _ hj rfl rfl rfl rfl (fun h => ?_)
    cases failed with
    | true => exact h.elim
    | false => exact ⟨h, by simp⟩
  | ret j failed hj =>
    refine mv j _ _ hj rfl rfl rfl rfl (fun h => ?_)
    cases failed with
    | true => exact h.elim
    | false => exact ⟨h, by simp⟩

/-- **C105, the part that holds.**  If requests do not overlap and nothing fails, then no goroutine of an upload panics.  Missing: requests that overlap, see `C105_panics`. -/
theorem C105_partial (r : SectionReader) (cap : UInt16) (file : Bytes) (s : MuState) (hr : Spec.Small r)
    (h : Spec.Steps (fun s t => Spec.Apart s t ∧ Spec.Sound s t) (.init r cap file) s) (i : Nat) : s.threads i ≠ .dead := by
  have : SafeInv r s := by
    induction h with
    | refl => exact ⟨rfl, rfl, fun _ => by simp [MuState.init], 0, fun _ _ => rfl, trivial⟩
    | step _ hs hok ih => exact safe_step hr ih hs hok.1 hok.2
  exact this.2.2.1 i

theorem Spec.Flow.steps {ok : MuState → MuState → Prop} {s0 s : MuState} {r n a : Nat} (h : Spec.Flow ok s0 r n a s) : Spec.Steps ok s0 s := by
  induction h with
  | refl => exact .refl
  | step _ hs _ _ _ _ hok ih => exact ih.step hs hok

theorem Spec.Steps.quietly {s0 s t : MuState} (h : Spec.Steps (fun s t => Spec.Apart s t ∧ Spec.Sound s t) s0 s) (hq : Quietly s t) :
    Spec.Steps (fun s t => Spec.Apart s t ∧ Spec.Sound s t) s0 t := by
  induction hq with
  | refl => exact h
  | step _ hs _ ht hf ih => exact ih.step hs ⟨fun i h1 h2 => absurd (ht i h1) h2, hf⟩

/-- The hypotheses of `C105_partial` can be met: a request is served and the first packet after the announcement is on its way. -/
example (cap : UInt16) (file : Bytes) (hc : 0 < cap) (hf : 3000 ≤ file.length) :
    ∃ s, Spec.Small ⟨0, 0, 3000⟩ ∧ Spec.Steps (fun s t => Spec.Apart s t ∧ Spec.Sound s t) (.init ⟨0, 0, 3000⟩ cap file) s ∧ s.reader.off = 2024 := by
  rw [pair_init]
  have s0 := (Spec.Steps.refl (ok := fun s t => Spec.Apart s t ∧ Spec.Sound s t) (s0 := pairState 3000 cap file 0 0 0 .none .none)).step
    (pair0 (off' := 0) (a' := .reset .zero 0 .none) (.kickstart _ 0 .zero 0 rfl) rfl)
    ⟨fun i _ _ j _ => by show (twoThreads .none .none j).idle = true; unfold twoThreads; split <;> (try split) <;> rfl, sound0 (fun h => h)⟩
  have s1 := s0.quietly (request0 (by omega) (by omega))
  have hs := pair0 (limit := 3000) (cap := cap) (file := file) (off := 1000) (b := .none) (ws := 0) (q := 0) (a' := .firstLoad) (.sendFirst _ 0 .zero 0 (file.take 1000) rfl) rfl
  have s2 := (s1.step hs ⟨send_apart hs, sound0 (fun h => h)⟩).quietly count0
  have s3 := s2.step (.arrive _) ⟨fun i h1 h2 => absurd h1 h2, fun i => failsAt_self _⟩
  have s4 : Spec.Steps (fun s t => Spec.Apart s t ∧ Spec.Sound s t) (pairState 3000 cap file 0 0 0 .none .none) (pairState 3000 cap file 1000 (0 + 1) (0 + 1) .select .none) := s3
  have s5 := s4.quietly ack0
  have s6 := s5.quietly ((Quietly.refl _).next0 (pair0 (a' := .reading 0 .seek) (.more _ 0 0 rfl hc) rfl))
  have s7 := (s6.quietly (read0_offset (by omega))).quietly (read0_rest (by omega) (by omega))
  exact ⟨_, ⟨by decide, by decide⟩, s7, rfl⟩

section
variable {limit : Nat} {cap : UInt16} {file : Bytes} {s0 : MuState}

/-- The first goroutine sends a packet, undisturbed. -/
theorem one_packet {off q r n a : Nat} {w : UInt16} (h : Spec.Flow Spec.Sound s0 r n a (pairState limit cap file off w q (.loop 0) (.loop 0))) (hw : w < cap) (h1 : off + 1024 ≤ limit)
    (h2 : off + 1024 ≤ file.length) (h3 : off ≤ 4294967295) : Spec.Flow Spec.Sound s0 r (n + 1) a (pairState limit cap file (off + 1024) (w + 1) q (.loop 0) (.loop 0)) := by
  have s1 := h.quietly ((Quietly.refl _).next0 (pair0 (a' := .reading 0 .seek) (.more _ 0 0 rfl hw) rfl))
  have s2 := (s1.quietly (read0_offset (by omega))).quietly (read0_rest (by omega) (by omega))
  have s3 := s2.quietly ((Quietly.refl _).next0 (pair0 (a' := .sending 0 _ _) (.readDone _ 0 0 _ _ none rfl (by simp)) rfl))
  have s4 := s3.sends (pair0 (a' := .sentLoad 0) (.send _ 0 0 _ _ rfl) rfl) (sound0 (fun h => h))
  have s5 := s4.quietly ((Quietly.refl _).next0 (pair0 (a' := .sentStore 0 w) (.sentLoad _ 0 0 rfl) rfl))
  exact s5.quietly ((Quietly.refl _).next0 (pair0 (a' := .loop 0) (.sentStore _ 0 0 w rfl) rfl))

/-- Two requests, and then `m` packets; both goroutines are about to send more. -/
theorem packets_sent (hcap : 2 ≤ cap.toNat) (m : Nat) (h1 : 1000 + m * 1024 ≤ limit) (h2 : 1000 + m * 1024 ≤ file.length) (h3 : 1000 + m * 1024 ≤ 4294967295) :
    ∃ n a w, Spec.Flow Spec.Sound (.init ⟨0, 0, limit⟩ cap file) 2 n a (pairState limit cap file (1000 + m * 1024) w 0 (.loop 0) (.loop 0)) ∧ n = a + w.toNat ∧ w < cap := by
  have hc := cap.toNat_lt
  induction m with
  | zero =>
    rw [pair_init]
    have s0 := (Spec.Flow.refl (ok := Spec.Sound) (s0 := pairState limit cap file 0 0 0 .none .none)).asked
      (pair0 (off' := 0) (a' := .reset .zero 0 .none) (.kickstart _ 0 .zero 0 rfl) rfl) (asks0 (by simp)) rfl (sound0 (fun h => h))
    have s1 := s0.quietly (request0 (by omega) (by omega))
    have s2 := (s1.sends (pair0 (a' := .firstLoad) (.sendFirst _ 0 _ _ _ rfl) rfl) (sound0 (fun h => h))).quietly count0
    have s3 := (s2.asked (pair1 (off' := 0) (b' := .reset .zero 0 .none) (.kickstart _ 1 .zero 0 rfl) rfl) (asks1 (by simp)) rfl (sound1 (fun h => h))).quietly (request1 (by omega) (by omega))
    have s4 := (s3.sends (pair1 (b' := .firstLoad) (.sendFirst _ 1 _ _ _ rfl) rfl) (sound1 (fun h => h))).quietly count1
    have s5 := (s4.acked (by omega) (fun i => failsAt_self _)).acked (by omega) (fun i => failsAt_self _)
    have s6 : Spec.Flow Spec.Sound (pairState limit cap file 0 0 0 .none .none) 2 2 2 (pairState limit cap file 1000 2 (0 + 1 + 1) .select .select) := s5
    have s7 := (s6.quietly ack0).quietly ack1
    exact ⟨2, 2, 2 - 1 - 1, s7, rfl, by rw [UInt16.lt_iff_toNat_lt]; show 0 < cap.toNat; omega⟩
  | succ m ih =>
    have le : 1000 + m * 1024 ≤ 1000 + (m + 1) * 1024 := Nat.add_le_add_left (Nat.mul_le_mul_right _ (Nat.le_succ m)) _
    have e0 : 1000 + m * 1024 + 1024 = 1000 + (m + 1) * 1024 := by rw [Nat.succ_mul, Nat.add_assoc]
    obtain ⟨n, a, w, s1, hn, hw⟩ := ih (Nat.le_trans le h1) (Nat.le_trans le h2) (Nat.le_trans le h3)
    rw [← e0] at h1 h2 h3 ⊢
    have s2 := one_packet s1 hw h1 h2 (Nat.le_trans (Nat.le_add_right _ _) h3)
    rw [UInt16.lt_iff_toNat_lt] at hw
    have e : (w + 1).toNat = w.toNat + 1 := by
      rw [UInt16.toNat_add]
      show (w.toNat + 1) % 65536 = _
      omega
    by_cases hf : w + 1 < cap
    · exact ⟨_, _, _, s2, by omega, hf⟩
    · rw [UInt16.lt_iff_toNat_lt] at hf
      have hwc : w + 1 = cap := UInt16.toNat_inj.1 (by omega)
      rw [hwc] at s2 e
      have s3 := two_acks s2 (by omega)
      have c1 : (1 : UInt16) ≤ cap := by rw [UInt16.le_iff_toNat_le]; show 1 ≤ cap.toNat; omega
      have e1 : (cap - 1).toNat = cap.toNat - 1 := UInt16.toNat_sub_of_le _ _ c1
      have c2 : (1 : UInt16) ≤ cap - 1 := by rw [UInt16.le_iff_toNat_le, e1]; show 1 ≤ cap.toNat - 1; omega
      have e2 : (cap - 1 - 1).toNat = cap.toNat - 1 - 1 := by rw [UInt16.toNat_sub_of_le _ _ c2, e1]; rfl
      exact ⟨_, _, _, s3, by omega, by rw [UInt16.lt_iff_toNat_lt]; omega⟩

/-- Near the end of the section: the first goroutine has read when the second one reads and moves the position; the first one then moves it past the end, while the second one is between its test for
the end and the computation of what is left. -/
theorem past_end {off q r n a : Nat} {w : UInt16} (h : Spec.Flow Spec.Sound s0 r n a (pairState limit cap file off w q (.loop 0) (.loop 0))) (ha : a ≤ n) (hw0 : w < cap)
    (h1 : off + 1024 < limit) (h2 : limit < off + 2048) (h3 : limit ≤ file.length) (h4 : limit ≤ 4294967295) :
    ∃ n' a' s, Spec.Flow Spec.Sound s0 r n' a' s ∧ s.before = [] ∧ s.threads 1 = .dead := by
  have hl : ((file.drop off).take 1024).length = 1024 := by simp; omega
  -- the first goroutine reads
  have s1 := h.quietly ((Quietly.refl _).next0 (pair0 (a' := .reading 0 .seek) (.more _ 0 0 rfl hw0) rfl))
  have s2 := s1.quietly (read0_offset (by omega))
  have s3 := s2.quietly ((((Quietly.refl _).next0 (read0 rfl (next_test 0 off limit 1024 file _ (by omega)))).next0
    (read0 rfl (next_clip 0 off limit 1024 file _ (by omega)))).next0 (read0 rfl (next_fetch 0 off limit 1024 file _ (by omega))))
  -- the second goroutine reads, moves the position and sends
  have t1 := s3.quietly ((Quietly.refl _).next1 (pair1 (b' := .reading 0 .seek) (.more _ 1 0 rfl hw0) rfl))
  have t2 := (t1.quietly (read1_offset (by omega))).quietly (read1_rest (by omega) (by omega))
  have t3 := t2.quietly ((Quietly.refl _).next1 (pair1 (b' := .sending 0 _ _) (.readDone _ 1 0 _ _ none rfl (by simp)) rfl))
  have t4 := t3.sends (pair1 (b' := .sentLoad 0) (.send _ 1 0 _ _ rfl) rfl) (sound1 (fun h => h))
  have t5 := t4.quietly ((Quietly.refl _).next1 (pair1 (b' := .sentStore 0 w) (.sentLoad _ 1 0 rfl) rfl))
  have t6 := t5.quietly ((Quietly.refl _).next1 (pair1 (b' := .loop 0) (.sentStore _ 1 0 w rfl) rfl))
  -- it goes on, if need be after an acknowledgement, and tests for the end
  obtain ⟨n', a', w', t6', hw⟩ : ∃ n' a' w', Spec.Flow Spec.Sound s0 r n' a' (pairState limit cap file (off + 1024) w' q
      (.reading 0 (.add (UInt32.ofNat off) ((file.drop off).take 1024) none)) (.loop 0)) ∧ w' < cap := by
    by_cases hw : w + 1 < cap
    · exact ⟨_, _, _, t6, hw⟩
    · have v1 := t6.quietly ((Quietly.refl _).next1 (pair1 (b' := .defers 0 false) (.full _ 1 0 rfl hw) rfl))
      have v2 := v1.quietly ((Quietly.refl _).next1 (pair1 (b' := .select) (.ret _ 1 false rfl) rfl))
      have v3 := v2.acked (by omega) (fun i => failsAt_self _)
      have v4 : Spec.Flow Spec.Sound s0 r (n + 1) (a + 1) (pairState limit cap file (off + 1024) (w + 1) (q + 1)
        (.reading 0 (.add (UInt32.ofNat off) ((file.drop off).take 1024) none)) .select) := v3
      refine ⟨_, _, _, v4.quietly ack1, ?_⟩
      have e : w + 1 - 1 = w := by rw [UInt16.add_sub_cancel]
      rw [e]; exact hw0
  have t7 := t6'.quietly ((Quietly.refl _).next1 (pair1 (b' := .reading 0 .seek) (.more _ 1 0 rfl hw) rfl))
  have t8 := t7.quietly (read1_offset (by omega))
  have t9 := t8.quietly ((Quietly.refl _).next1 (read1 rfl (next_test 0 (off + 1024) limit 1024 file _ h1)))
  -- the first goroutine moves the position
  have s4 := t9.quietly (((Quietly.refl _).next0 (read0 rfl (next_add 0 (off + 1024) limit 1024 file _ _ none))).next0
    (read0 rfl (next_addStore 0 (off + 1024) limit 1024 (off + 1024) file _ _ none)))
  rw [hl] at s4
  -- the second goroutine computes what is left
  have hp : RdPc.next ⟨0, off + 1024 + 1024, limit⟩ file 1024 .good (.clip (UInt32.ofNat (off + 1024))) = (.panicked, off + 1024 + 1024) := by
    simp only [RdPc.next]
    rw [if_pos (by omega)]
  have u1 := s4.quietly ((Quietly.refl _).next1 (read1 rfl hp))
  have u2 := u1.quietly ((Quietly.refl _).next1 (pair1 (b' := .defers 0 true) (.readDies _ 1 0 rfl) rfl))
  exact ⟨_, _, _, u2.quietly ((Quietly.refl _).next1 (pair1 (b' := .dead) (.ret _ 1 true rfl) rfl)), rfl, rfl⟩

end

/-- Two requests that overlap, and a goroutine that panics; nobody writes to the file. -/
theorem two_panic (limit : Nat) (cap : UInt16) (file : Bytes) (hcap : 2 ≤ cap.toNat) (h1 : 2024 < limit) (h2 : limit ≤ file.length) (h3 : limit ≤ 4294967295)
    (h4 : (limit - 1000) % 1024 ≠ 0) : ∃ n a s, Spec.Flow Spec.Sound (.init ⟨0, 0, limit⟩ cap file) 2 n a s ∧ s.before = [] ∧ s.threads 1 = .dead := by
  have hm : limit - 1000 = 1024 * ((limit - 1000) / 1024) + (limit - 1000) % 1024 := (Nat.div_add_mod _ _).symm
  have hlt : (limit - 1000) % 1024 < 1024 := Nat.mod_lt _ (by decide)
  have hq : 1 ≤ (limit - 1000) / 1024 := (Nat.le_div_iff_mul_le (by decide)).2 (by omega)
  generalize hq' : (limit - 1000) / 1024 = d at hm hq
  generalize (limit - 1000) % 1024 = e at hm hlt h4
  obtain ⟨m, rfl⟩ : ∃ m, d = m + 1 := ⟨d - 1, by omega⟩
  have hx : limit = 1000 + m * 1024 + 1024 + e := by
    have : 1024 * (m + 1) = m * 1024 + 1024 := by rw [Nat.mul_comm, Nat.succ_mul]
    omega
  generalize hy : m * 1024 = y at hx
  have g : 1000 + m * 1024 ≤ limit := by omega
  obtain ⟨n, a, w, s1, hn, hw⟩ := packets_sent (limit := limit) (file := file) hcap m g (Nat.le_trans g h2) (Nat.le_trans g h3)
  rw [hy] at s1
  exact past_end s1 (by omega) hw (by omega) (by omega) h2 h3

/-- **Two requests that overlap can end the daemon**: for every chunk of more than 2024 bytes whose last piece is not a full packet, every window of at least two packets, with nothing failing. -/
theorem C105_panics (limit : Nat) (cap : UInt16) (file : Bytes) (hcap : 2 ≤ cap.toNat) (h1 : 2024 < limit) (h2 : limit ≤ file.length) (h3 : limit ≤ 4294967295)
    (h4 : (limit - 1000) % 1024 ≠ 0) : ∃ s, Spec.Steps Spec.Sound (.init ⟨0, 0, limit⟩ cap file) s ∧ s.threads 1 = .dead := by
  obtain ⟨n, a, s, g1, -, g2⟩ := two_panic limit cap file hcap h1 h2 h3 h4
  exact ⟨s, g1.steps, g2⟩

/-- The hypotheses of `C105_panics` can be met: a chunk of 3000 bytes and a window of 10 packets. -/
example : ∃ s, Spec.Steps Spec.Sound (.init ⟨0, 0, 3000⟩ 10 (List.replicate 3000 7)) s ∧ s.threads 1 = .dead :=
  C105_panics 3000 10 _ (by decide) (by decide) (by rw [List.length_replicate]; exact Nat.le_refl _) (by decide) (by decide)

theorem C105_refuted : ¬ C105_statement := by
  intro h
  obtain ⟨s, hs, hd⟩ := C105_panics 3000 10 (List.replicate 3000 7) (by decide) (by decide) (by rw [List.length_replicate]; exact Nat.le_refl _) (by decide) (by decide)
  exact h _ _ _ s ⟨by decide, by decide⟩ hs 1 hd

end Flu
