import Verif.Props.Workers
/-!
# The window of an upload that was asked for more than once (C104)

C41 is about an upload with one goroutine.  Here there are any number of them, started by requests that do or do not overlap.
-/
namespace Flu

/-- A request arrives. -/
def Spec.Asks (s t : MuState) : Prop := ∃ i, s.threads i = .none ∧ t.threads i ≠ .none

/-- A request arrives only when the goroutines of earlier requests have ended. -/
def Spec.Apart (s t : MuState) : Prop := ∀ i, s.threads i = .none → t.threads i ≠ .none → ∀ j, j ≠ i → (s.threads j).idle = true

/-- An upload so far: how many requests and how many acknowledgements have arrived, and how many packets were sent.  Never have more acknowledgements arrived than packets were
sent.  All steps satisfy `ok`. -/
inductive Spec.Flow (ok : MuState → MuState → Prop) (s0 : MuState) : (requests sent acked : Nat) → MuState → Prop
  | refl : Spec.Flow ok s0 0 0 0 s0
  | step {r n a r' n' a' : Nat} {s t : MuState} {p : Option Packet} (h : Spec.Flow ok s0 r n a s) (hs : MuStep s p t) (hr : Spec.Counts (Spec.Asks s t) r r')
      (hn : Spec.Counts (p ≠ none) n n') (ha : Spec.Counts (t.pending = s.pending + 1) a a') (hack : a' ≤ n') (hok : ok s t) : Spec.Flow ok s0 r' n' a' t

theorem Spec.Flow.mono {ok ok' : MuState → MuState → Prop} {s0 s : MuState} {r n a : Nat} (h : Spec.Flow ok s0 r n a s) (hle : ∀ s t, ok s t → ok' s t) : Spec.Flow ok' s0 r n a s := by
  induction h with
  | refl => exact .refl
  | step _ hs hr hn ha hack hok ih => exact ih.step hs hr hn ha hack (hle _ _ hok)

/-- C104, as it should be: packets that were sent and not acknowledged never exceed the window, however many requests arrived. -/
def C104_statement : Prop := ∀ (r : SectionReader) (cap : UInt16) (file : Bytes) (q n a : Nat) (s : MuState), Spec.Flow (fun _ _ => True) (.init r cap file) q n a s →
  n ≤ a + max 1 cap.toNat

/-- The window against the packets sent (`n`) and the acknowledgements taken (`k`). -/
def Owed (n k : Nat) (ws : UInt16) : MuThread → Prop
  | .firstLoad | .sentLoad _ => n = k + ws.toNat + 1
  | .firstStore w | .sentStore _ w => w = ws ∧ n = k + ws.toNat + 1
  | .takeLoad => n + 1 = k + ws.toNat
  | .takeStore w => w = ws ∧ n + 1 = k + ws.toNat
  | _ => n = k + ws.toNat

/-- There is room for the packet that the goroutine is going to send. -/
def Room (m n k r : Nat) : MuThread → Prop
  | .reset _ _ _ | .first _ _ _ | .announce _ _ _ | .reading _ _ | .sending _ _ _ => n + 2 ≤ k + m + r
  | _ => n + 1 ≤ k + m + r

/-- What holds when requests do not overlap. -/
def WinInv (cap : UInt16) (r n a : Nat) (s : MuState) : Prop := ∃ i k, (∀ j, j ≠ i → (s.threads j).idle = true) ∧ a = k + s.pending ∧ Owed n k s.windowSize (s.threads i) ∧
  Room (max 1 cap.toNat) n k r (s.threads i) ∧ (∀ j, s.threads j ≠ .none → 1 ≤ r) ∧ s.windowCap = cap

theorem asks_move {s t : MuState} {i : Nat} {y : MuThread} (ht : t.threads = (s.set i y).threads) (hi : s.threads i ≠ .none) : ¬ Spec.Asks s t := by
  rintro ⟨j, h1, h2⟩
  rw [ht] at h2
  by_cases hj : j = i
  · subst hj; exact hi h1
  · rw [MuState.set_other hj] at h2; exact h2 h1

theorem win_step {cap : UInt16} {r n a r' n' a' : Nat} {s t : MuState} {p : Option Packet} (h : WinInv cap r n a s) (hs : MuStep s p t)
    (hr : Spec.Counts (Spec.Asks s t) r r') (hn : Spec.Counts (p ≠ none) n n') (ha : Spec.Counts (t.pending = s.pending + 1) a a') (hack : a' ≤ n')
    (hq : Spec.Apart s t) (hm : cap.toNat + r' < 65536) : WinInv cap r' n' a' t := by
  obtain ⟨i, k, hid, hk, how, hro, hr1, hcap⟩ := h
  have act : ∀ {j : Nat} {x : MuThread}, s.threads j = x → x.idle = false → j = i := by
    intro j x hx hj
    apply Classical.byContradiction
    intro hne
    have := hid j hne
    rw [hx, hj] at this
    cases this
  -- a step of the goroutine at work that takes no acknowledgement
  have mv : ∀ (j : Nat) (x y : MuThread) (k' : Nat), s.threads j = x → x.idle = false → y ≠ .none → t.threads = (s.set j y).threads → t.windowCap = s.windowCap →
      (t.pending ≤ s.pending) → (n' = n → a' = a → r' = r → 1 ≤ r → j = i → k' + t.pending = k + s.pending ∧ Owed n' k' t.windowSize y ∧ Room (max 1 cap.toNat) n' k' r' y) → p = none →
      WinInv cap r' n' a' t := by
    intro j x y k' hx hxi hy ht hc hpd hgo hp
    have hxn : s.threads j ≠ .none := by rw [hx]; intro e; rw [e] at hxi; cases hxi
    have e1 := counts_no hr (asks_move ht hxn)
    have e2 := counts_no hn (fun h => h hp)
    have e3 := counts_no ha (by omega)
    obtain rfl := act hx hxi
    have hr1' := hr1 j hxn
    obtain ⟨g1, g2, g3⟩ := hgo e2 e3 e1 hr1' rfl
    refine ⟨j, k', fun l hl => ?_, by omega, ?_, ?_, fun _ _ => by omega, by rw [hc, hcap]⟩
    · rw [ht, MuState.set_other hl]; exact hid l hl
    · rw [ht, MuState.set_self]; exact g2
    · rw [ht, MuState.set_self]; exact g3
  cases hs with
  | edit new =>
    rw [counts_no hr (fun ⟨j, h1, h2⟩ => h2 h1), counts_no hn (fun h => h rfl), counts_no ha (by show ¬ s.pending = _; omega)]
    exact ⟨i, k, hid, hk, how, hro, hr1, hcap⟩
  | arrive =>
    rw [counts_no hr (fun ⟨j, h1, h2⟩ => h2 h1), counts_no hn (fun h => h rfl), counts_yes ha rfl]
    exact ⟨i, k, hid, by show a + 1 = k + (s.pending + 1); omega, how, hro, hr1, hcap⟩
  | kickstart j hash size hj =>
    have hth : ∀ l, (MuState.move (s.set j (.reset hash size .none)) s.reader.base).threads l = (s.set j (.reset hash size .none)).threads l := fun _ => rfl
    have hne : (MuState.move (s.set j (.reset hash size .none)) s.reader.base).threads j ≠ .none := by rw [hth, MuState.set_self]; simp
    have e1 := counts_yes hr ⟨j, hj, hne⟩
    have e2 := counts_no hn (fun h => h rfl)
    have e3 := counts_no ha (by show ¬ s.pending = _; omega)
    have hidle : ∀ l, (s.threads l).idle = true := by
      intro l
      by_cases hl : l = j
      · rw [hl, hj]; rfl
      · exact hq j hj hne l hl
    have ho : n = k + s.windowSize.toNat ∧ n + 1 ≤ k + max 1 cap.toNat + r := by
      have := hidle i
      revert how hro this
      cases s.threads i <;> simp [Owed, Room, MuThread.idle]
      all_goals intro h1 h2; exact ⟨h1, h2⟩
    refine ⟨j, k, fun l hl => ?_, by rw [e3]; exact hk, ?_, ?_, fun _ _ => by omega, hcap⟩
    · rw [hth, MuState.set_other hl]; exact hidle l
    · rw [hth, MuState.set_self, e2]; exact ho.1
    · rw [hth, MuState.set_self, e2, e1]; show n + 2 ≤ _; omega
  | resetLoad j hash size hj =>
    refine mv j _ (.reset hash size (some s.reader.off)) k hj rfl (by simp) rfl rfl (Nat.le_refl _) (fun e2 e3 e1 e4 e5 => ?_) rfl
    subst e5; rw [hj] at how hro; rw [e2, e1]
    exact ⟨rfl, how, hro⟩
  | resetStore j hash size a0 hj =>
    by_cases h1 : (RdPc.next s.reader s.now 0 .good (.seekStore a0)).1 = .panicked
    · refine mv j _ .dead k hj rfl (by simp) (by rw [if_pos h1]; rfl) rfl (Nat.le_refl _) (fun e2 e3 e1 e4 e5 => ?_) rfl
      subst e5; rw [hj] at how hro; rw [e2, e1]
      exact ⟨rfl, how, Nat.le_of_succ_le hro⟩
    · refine mv j _ (.first hash size .seek) k hj rfl (by simp) (by rw [if_neg h1]; rfl) rfl (Nat.le_refl _) (fun e2 e3 e1 e4 e5 => ?_) rfl
      subst e5; rw [hj] at how hro; rw [e2, e1]
      exact ⟨rfl, how, hro⟩
  | firstStep j hash size pc rd hj hb =>
    refine mv j _ (.first hash size (pc.next s.reader s.now 1000 rd).1) k hj rfl (by simp) rfl rfl (Nat.le_refl _) (fun e2 e3 e1 e4 e5 => ?_) rfl
    subst e5; rw [hj] at how hro; rw [e2, e1]
    exact ⟨rfl, how, hro⟩
  | firstDone j hash size o got err hj he =>
    refine mv j _ (.announce hash size got) k hj rfl (by simp) rfl rfl (Nat.le_refl _) (fun e2 e3 e1 e4 e5 => ?_) rfl
    subst e5; rw [hj] at how hro; rw [e2, e1]
    exact ⟨rfl, how, hro⟩
  | firstFails j hash size o got hj =>
    refine mv j _ .exited k hj rfl (by simp) rfl rfl (Nat.le_refl _) (fun e2 e3 e1 e4 e5 => ?_) rfl
    subst e5; rw [hj] at how hro; rw [e2, e1]
    exact ⟨rfl, how, Nat.le_of_succ_le hro⟩
  | firstDies j hash size hj =>
    refine mv j _ .dead k hj rfl (by simp) rfl rfl (Nat.le_refl _) (fun e2 e3 e1 e4 e5 => ?_) rfl
    subst e5; rw [hj] at how hro; rw [e2, e1]
    exact ⟨rfl, how, Nat.le_of_succ_le hro⟩
  | sendFirst j hash size got hj =>
    obtain rfl := act hj rfl
    have hjn : s.threads j ≠ .none := by rw [hj]; simp
    have e1 := counts_no hr (asks_move rfl hjn)
    have e2 := counts_yes hn (by simp)
    have e3 := counts_no ha (by show ¬ s.pending = _; omega)
    rw [hj] at how hro
    refine ⟨j, k, fun l hl => by rw [MuState.set_other hl]; exact hid l hl, by rw [e3]; exact hk, ?_, ?_, fun _ _ => by rw [e1]; exact hr1 j hjn, hcap⟩
    · rw [MuState.set_self, e2]; exact congrArg (· + 1) how
    · rw [MuState.set_self, e2, e1]; exact hro
  | sendFirstFails j hash size got hj =>
    refine mv j _ .exited k hj rfl (by simp) rfl rfl (Nat.le_refl _) (fun e2 e3 e1 e4 e5 => ?_) rfl
    subst e5; rw [hj] at how hro; rw [e2, e1]
    exact ⟨rfl, how, Nat.le_of_succ_le hro⟩
  | firstLoad j hj =>
    refine mv j _ (.firstStore s.windowSize) k hj rfl (by simp) rfl rfl (Nat.le_refl _) (fun e2 e3 e1 e4 e5 => ?_) rfl
    subst e5; rw [hj] at how hro; rw [e2, e1]
    exact ⟨rfl, ⟨rfl, how⟩, hro⟩
  | firstStore j w hj =>
    refine mv j _ .select k hj rfl (by simp) rfl rfl (Nat.le_refl _) (fun e2 e3 e1 e4 e5 => ?_) rfl
    subst e5; rw [hj] at how hro; rw [e2, e1]
    obtain ⟨rfl, how⟩ := how
    have hro' : n + 1 ≤ k + max 1 cap.toNat + r := hro
    refine ⟨rfl, ?_, hro⟩
    show n = k + (s.windowSize + 1).toNat
    rw [UInt16.toNat_add]
    show n = k + (s.windowSize.toNat + 1) % 65536
    omega
  | take j hj hp =>
    obtain rfl := act hj rfl
    have hjn : s.threads j ≠ .none := by rw [hj]; simp
    refine mv j _ .takeLoad (k + 1) hj rfl (by simp) rfl rfl (Nat.sub_le _ _) (fun e2 e3 e1 e4 e5 => ?_) rfl
    rw [hj] at how hro; rw [e2, e1]
    refine ⟨?_, ?_, ?_⟩
    · show k + 1 + (s.pending - 1) = _; omega
    · have how : n = k + s.windowSize.toNat := how
      show n + 1 = k + 1 + s.windowSize.toNat; omega
    · have hro : n + 1 ≤ k + max 1 cap.toNat + r := hro
      show n + 1 ≤ k + 1 + max 1 cap.toNat + r; omega
  | takeLoad j hj =>
    refine mv j _ (.takeStore s.windowSize) k hj rfl (by simp) rfl rfl (Nat.le_refl _) (fun e2 e3 e1 e4 e5 => ?_) rfl
    subst e5; rw [hj] at how hro; rw [e2, e1]
    exact ⟨rfl, ⟨rfl, how⟩, hro⟩
  | takeStore j w hj =>
    refine mv j _ (.loop 0) k hj rfl (by simp) rfl rfl (Nat.le_refl _) (fun e2 e3 e1 e4 e5 => ?_) rfl
    subst e5; rw [hj] at how hro; rw [e2, e1]
    obtain ⟨rfl, how⟩ := how
    have h1 : 1 ≤ s.windowSize := by rw [UInt16.le_iff_toNat_le]; show 1 ≤ s.windowSize.toNat; omega
    refine ⟨rfl, ?_, hro⟩
    show n = k + (s.windowSize - 1).toNat
    rw [UInt16.toNat_sub_of_le _ _ h1]
    show n = k + (s.windowSize.toNat - 1)
    rw [UInt16.le_iff_toNat_le] at h1
    have h1 : 1 ≤ s.windowSize.toNat := h1
    omega
  | cancel j hj hc =>
    refine mv j _ .exited k hj rfl (by simp) rfl rfl (Nat.le_refl _) (fun e2 e3 e1 e4 e5 => ?_) rfl
    subst e5; rw [hj] at how hro; rw [e2, e1]
    exact ⟨rfl, how, hro⟩
  | more j ends hj hw =>
    refine mv j _ (.reading ends .seek) k hj rfl (by simp) rfl rfl (Nat.le_refl _) (fun e2 e3 e1 e4 e5 => ?_) rfl
    subst e5; rw [hj] at how hro; rw [e2, e1]
    rw [hcap, UInt16.lt_iff_toNat_lt] at hw
    have how' : n = k + s.windowSize.toNat := how
    refine ⟨rfl, how, ?_⟩
    show n + 2 ≤ k + max 1 cap.toNat + r
    omega
  | full j ends hj hw =>
    refine mv j _ (.defers ends false) k hj rfl (by simp) rfl rfl (Nat.le_refl _) (fun e2 e3 e1 e4 e5 => ?_) rfl
    subst e5; rw [hj] at how hro; rw [e2, e1]
    exact ⟨rfl, how, hro⟩
  | readStep j ends pc rd hj hb =>
    refine mv j _ (.reading ends (pc.next s.reader s.now 1024 rd).1) k hj rfl (by simp) rfl rfl (Nat.le_refl _) (fun e2 e3 e1 e4 e5 => ?_) rfl
    subst e5; rw [hj] at how hro; rw [e2, e1]
    exact ⟨rfl, how, hro⟩
  | readDone j ends o got err hj he =>
    refine mv j _ (.sending (if err = some .eof then ends + 1 else ends) o got) k hj rfl (by simp) rfl rfl (Nat.le_refl _) (fun e2 e3 e1 e4 e5 => ?_) rfl
    subst e5; rw [hj] at how hro; rw [e2, e1]
    exact ⟨rfl, how, hro⟩
  | readFails j ends o got hj =>
    refine mv j _ (.defers ends true) k hj rfl (by simp) rfl rfl (Nat.le_refl _) (fun e2 e3 e1 e4 e5 => ?_) rfl
    subst e5; rw [hj] at how hro; rw [e2, e1]
    exact ⟨rfl, how, Nat.le_of_succ_le hro⟩
  | readDies j ends hj =>
    refine mv j _ (.defers ends true) k hj rfl (by simp) rfl rfl (Nat.le_refl _) (fun e2 e3 e1 e4 e5 => ?_) rfl
    subst e5; rw [hj] at how hro; rw [e2, e1]
    exact ⟨rfl, how, Nat.le_of_succ_le hro⟩
  | send j ends o got hj =>
    obtain rfl := act hj rfl
    have hjn : s.threads j ≠ .none := by rw [hj]; simp
    have e1 := counts_no hr (asks_move rfl hjn)
    have e2 := counts_yes hn (by simp)
    have e3 := counts_no ha (by show ¬ s.pending = _; omega)
    rw [hj] at how hro
    refine ⟨j, k, fun l hl => by rw [MuState.set_other hl]; exact hid l hl, by rw [e3]; exact hk, ?_, ?_, fun _ _ => by rw [e1]; exact hr1 j hjn, hcap⟩
    · rw [MuState.set_self, e2]; exact congrArg (· + 1) how
    · rw [MuState.set_self, e2, e1]; exact hro
  | sendFails j ends o got hj =>
    refine mv j _ (.defers ends true) k hj rfl (by simp) rfl rfl (Nat.le_refl _) (fun e2 e3 e1 e4 e5 => ?_) rfl
    subst e5; rw [hj] at how hro; rw [e2, e1]
    exact ⟨rfl, how, Nat.le_of_succ_le hro⟩
  | sentLoad j ends hj =>
    refine mv j _ (.sentStore ends s.windowSize) k hj rfl (by simp) rfl rfl (Nat.le_refl _) (fun e2 e3 e1 e4 e5 => ?_) rfl
    subst e5; rw [hj] at how hro; rw [e2, e1]
    exact ⟨rfl, ⟨rfl, how⟩, hro⟩
  | sentStore j ends w hj =>
    refine mv j _ (.loop ends) k hj rfl (by simp) rfl rfl (Nat.le_refl _) (fun e2 e3 e1 e4 e5 => ?_) rfl
    subst e5; rw [hj] at how hro; rw [e2, e1]
    obtain ⟨rfl, how⟩ := how
    have hro' : n + 1 ≤ k + max 1 cap.toNat + r := hro
    refine ⟨rfl, ?_, hro⟩
    show n = k + (s.windowSize + 1).toNat
    rw [UInt16.toNat_add]
    show n = k + (s.windowSize.toNat + 1) % 65536
    omega
  | terminate j left failed hj hc =>
    refine mv j _ (.defers left failed) k hj rfl (by simp) rfl rfl (Nat.le_refl _) (fun e2 e3 e1 e4 e5 => ?_) rfl
    subst e5; rw [hj] at how hro; rw [e2, e1]
    exact ⟨rfl, how, hro⟩
  | ret j failed hj =>
    refine mv j _ (if failed then .dead else .select) k hj rfl (by cases failed <;> simp) rfl rfl (Nat.le_refl _) (fun e2 e3 e1 e4 e5 => ?_) rfl
    subst e5; rw [hj] at how hro; rw [e2, e1]
    cases failed <;> exact ⟨rfl, how, hro⟩

theorem flow_acks {P : MuState → MuState → Prop} {s0 s : MuState} {r n a : Nat} (h : Spec.Flow P s0 r n a s) : a ≤ n := by
  cases h with
  | refl => exact Nat.le_refl _
  | step _ _ _ _ _ hack _ => exact hack

theorem flow_win {r0 : SectionReader} {cap : UInt16} {file : Bytes} {r n a : Nat} {s : MuState} (h : Spec.Flow Spec.Apart (.init r0 cap file) r n a s) (hm : cap.toNat + r < 65536) :
    WinInv cap r n a s := by
  induction h with
  | refl => exact ⟨0, 0, fun _ _ => rfl, rfl, rfl, by show 0 + 1 ≤ _; omega, fun j hj => absurd rfl hj, rfl⟩
  | @step r n a r' n' a' s t p h hs hr hn ha hack hq ih =>
    have hle : r ≤ r' := by rcases hr with ⟨-, e⟩ | ⟨-, e⟩ <;> omega
    exact win_step (ih (by omega)) hs hr hn ha hack hq hm

/-- **C104, the part that holds.**  If requests do not overlap (and there are not 65536 of them), then the packets that were sent and not acknowledged are at most the window and
one more for every request after the first.  Missing: requests that overlap, see `C104_no_bound`. -/
theorem C104_partial (r0 : SectionReader) (cap : UInt16) (file : Bytes) (r n a : Nat) (s : MuState) (h : Spec.Flow Spec.Apart (.init r0 cap file) r n a s) (hm : cap.toNat + r < 65536) :
    n ≤ a + max 1 cap.toNat + (r - 1) := by
  obtain ⟨i, k, -, hk, -, hro, hr1, -⟩ := flow_win h hm
  have h1 : n + 1 ≤ k + max 1 cap.toNat + r := by
    revert hro
    cases s.threads i <;> simp only [Room] <;> omega
  omega

/-! ### Two requests that overlap -/

section
variable {s0 s t : MuState} {r n a : Nat}

theorem Spec.Flow.quietly (h : Spec.Flow Spec.Sound s0 r n a s) (hq : Quietly s t) : Spec.Flow Spec.Sound s0 r n a t := by
  induction hq with
  | refl => exact h
  | step _ hs hp ht hf ih =>
    exact ih.step hs (.inr ⟨fun ⟨i, h1, h2⟩ => h2 (ht i h1), rfl⟩) (.inr ⟨fun h => h rfl, rfl⟩) (.inr ⟨by omega, rfl⟩) (flow_acks h) hf

theorem Spec.Flow.sends {P : MuState → MuState → Prop} {p : Packet} (h : Spec.Flow P s0 r n a s) (hs : MuStep s (some p) t) (hok : P s t) : Spec.Flow P s0 r (n + 1) a t := by
  have hh : ¬ Spec.Asks s t ∧ t.pending = s.pending := by
    cases hs with
    | sendFirst i hash size got hi => exact ⟨asks_move rfl (by rw [hi]; simp), rfl⟩
    | send i ends o got hi => exact ⟨asks_move rfl (by rw [hi]; simp), rfl⟩
  exact h.step hs (.inr ⟨hh.1, rfl⟩) (.inl ⟨by simp, rfl⟩) (.inr ⟨by omega, rfl⟩) (Nat.le_succ_of_le (flow_acks h)) hok

theorem Spec.Flow.acked {P : MuState → MuState → Prop} (h : Spec.Flow P s0 r n a s) (ha : a < n) (hok : P s { s with pending := s.pending + 1 }) : Spec.Flow P s0 r n (a + 1) { s with pending := s.pending + 1 } :=
  h.step (.arrive s) (.inr ⟨fun ⟨_, h1, h2⟩ => h2 h1, rfl⟩) (.inr ⟨fun h => h rfl, rfl⟩) (.inl ⟨rfl, rfl⟩) ha hok

theorem Spec.Flow.asked (h : Spec.Flow Spec.Sound s0 r n a s) (hs : MuStep s none t) (ha : Spec.Asks s t) (hp : t.pending = s.pending) (hok : Spec.Sound s t) : Spec.Flow Spec.Sound s0 (r + 1) n a t :=
  h.step hs (.inl ⟨ha, rfl⟩) (.inr ⟨fun h => h rfl, rfl⟩) (.inr ⟨by omega, rfl⟩) (flow_acks h) hok

end

section
variable {limit : Nat} {cap : UInt16} {file : Bytes} {off : Nat} {w : UInt16} {q : Nat} {s0 : MuState} {r n a : Nat}

/-- Both goroutines send a packet, and one of the two increments is lost. -/
theorem lost_count (h : Spec.Flow Spec.Sound s0 r n a (pairState limit cap file off w q (.loop 0) (.loop 0))) (hw : w < cap) (h1 : off + 2048 ≤ limit) (h2 : off + 2048 ≤ file.length)
    (h3 : off + 1024 ≤ 4294967295) : Spec.Flow Spec.Sound s0 r (n + 2) a (pairState limit cap file (off + 2048) (w + 1) q (.loop 0) (.loop 0)) := by
  have s1 := h.quietly ((Quietly.refl _).next0 (pair0 (a' := .reading 0 .seek) (.more _ 0 0 rfl hw) rfl))
  have s2 := (s1.quietly (read0_offset (by omega))).quietly (read0_rest (by omega) (by omega))
  have s3 := s2.quietly ((Quietly.refl _).next0 (pair0 (a' := .sending 0 _ _) (.readDone _ 0 0 _ _ none rfl (by simp)) rfl))
  have s4 := s3.sends (pair0 (a' := .sentLoad 0) (.send _ 0 0 _ _ rfl) rfl) (sound0 (fun h => h))
  have s5 := s4.quietly ((Quietly.refl _).next1 (pair1 (b' := .reading 0 .seek) (.more _ 1 0 rfl hw) rfl))
  have s6 := (s5.quietly (read1_offset (by omega))).quietly (read1_rest (by omega) (by omega))
  have s7 := s6.quietly ((Quietly.refl _).next1 (pair1 (b' := .sending 0 _ _) (.readDone _ 1 0 _ _ none rfl (by simp)) rfl))
  have s8 := s7.sends (pair1 (b' := .sentLoad 0) (.send _ 1 0 _ _ rfl) rfl) (sound1 (fun h => h))
  have s9 := s8.quietly ((Quietly.refl _).next0 (pair0 (a' := .sentStore 0 w) (.sentLoad _ 0 0 rfl) rfl))
  have s10 := s9.quietly ((Quietly.refl _).next1 (pair1 (b' := .sentStore 0 w) (.sentLoad _ 1 0 rfl) rfl))
  have s11 := s10.quietly ((Quietly.refl _).next0 (pair0 (a' := .loop 0) (.sentStore _ 0 0 w rfl) rfl))
  exact s11.quietly ((Quietly.refl _).next1 (pair1 (b' := .loop 0) (.sentStore _ 1 0 w rfl) rfl))

/-- So the window fills up with two packets for every place. -/
theorem lost_counts (m : Nat) : ∀ {off : Nat} {w : UInt16} {n : Nat}, Spec.Flow Spec.Sound s0 r n a (pairState limit cap file off w q (.loop 0) (.loop 0)) → w.toNat + m ≤ cap.toNat →
    off + m * 2048 ≤ limit → off + m * 2048 ≤ file.length → off + m * 2048 ≤ 4294967296 →
    ∃ w', w'.toNat = w.toNat + m ∧ Spec.Flow Spec.Sound s0 r (n + 2 * m) a (pairState limit cap file (off + m * 2048) w' q (.loop 0) (.loop 0)) := by
  induction m with
  | zero => exact fun h _ _ _ _ => ⟨_, rfl, h⟩
  | succ m ih =>
    intro off w n h hw h1 h2 h3
    have hc := cap.toNat_lt
    have s1 := lost_count h (by rw [UInt16.lt_iff_toNat_lt]; omega) (by omega) (by omega) (by omega)
    have e : (w + 1).toNat = w.toNat + 1 := by
      rw [UInt16.toNat_add]
      show (w.toNat + 1) % 65536 = _
      omega
    obtain ⟨w', hw', s2⟩ := ih s1 (by omega) (by omega) (by omega) (by omega)
    refine ⟨w', by omega, ?_⟩
    rw [show n + 2 * (m + 1) = n + 2 + 2 * m by omega, show off + (m + 1) * 2048 = off + 2048 + m * 2048 by omega]
    exact s2

/-- The window is full; two acknowledgements arrive and each goroutine takes one. -/
theorem two_acks (h : Spec.Flow Spec.Sound s0 r n a (pairState limit cap file off cap q (.loop 0) (.loop 0))) (ha : a + 2 ≤ n) :
    Spec.Flow Spec.Sound s0 r n (a + 2) (pairState limit cap file off (cap - 1 - 1) q (.loop 0) (.loop 0)) := by
  have hf : ¬ cap < cap := UInt16.lt_irrefl _
  have s1 := h.quietly ((Quietly.refl _).next0 (pair0 (a' := .defers 0 false) (.full _ 0 0 rfl hf) rfl))
  have s2 := s1.quietly ((Quietly.refl _).next0 (pair0 (a' := .select) (.ret _ 0 false rfl) rfl))
  have s3 := s2.quietly ((Quietly.refl _).next1 (pair1 (b' := .defers 0 false) (.full _ 1 0 rfl hf) rfl))
  have s4 := s3.quietly ((Quietly.refl _).next1 (pair1 (b' := .select) (.ret _ 1 false rfl) rfl))
  have s5 := (s4.acked (by omega) (fun i => failsAt_self _)).acked (by omega) (fun i => failsAt_self _)
  have s6 : Spec.Flow Spec.Sound s0 r n (a + 2) (pairState limit cap file off cap (q + 1 + 1) .select .select) := s5
  exact (s6.quietly ack0).quietly ack1

end

theorem asks0 {limit : Nat} {cap : UInt16} {file : Bytes} {off off' : Nat} {w w' : UInt16} {q q' : Nat} {x b b' : MuThread} (hx : x ≠ .none) :
    Spec.Asks (pairState limit cap file off w q .none b) (pairState limit cap file off' w' q' x b') := ⟨0, rfl, hx⟩
theorem asks1 {limit : Nat} {cap : UInt16} {file : Bytes} {off off' : Nat} {w w' : UInt16} {q q' : Nat} {x a a' : MuThread} (hx : x ≠ .none) :
    Spec.Asks (pairState limit cap file off w q a .none) (pairState limit cap file off' w' q' a' x) := ⟨1, rfl, hx⟩

/-- Two requests that overlap, with increments that get lost; nobody writes to the file. -/
theorem two_overrun (limit : Nat) (cap : UInt16) (file : Bytes) (k : Nat) (hcap : 2 ≤ cap.toNat) (h1 : 1000 + cap.toNat * 2048 + k * 4096 ≤ limit)
    (h2 : 1000 + cap.toNat * 2048 + k * 4096 ≤ file.length) (h3 : 1000 + cap.toNat * 2048 + k * 4096 ≤ 4294967296) :
    Spec.Flow Spec.Sound (.init ⟨0, 0, limit⟩ cap file) 2 (2 + 2 * cap.toNat + 4 * k) (2 + 2 * k)
      (pairState limit cap file (1000 + cap.toNat * 2048 + k * 4096) cap 0 (.loop 0) (.loop 0)) := by
  have hc := cap.toNat_lt
  induction k with
  | zero =>
    rw [pair_init]
    have s0 := (Spec.Flow.refl (ok := Spec.Sound) (s0 := pairState limit cap file 0 0 0 .none .none)).asked
      (pair0 (off' := 0) (a' := .reset .zero 0 .none) (.kickstart _ 0 .zero 0 rfl) rfl) (asks0 (by simp)) rfl (sound0 (fun h => h))
    have s1 := s0.quietly (request0 (by omega) (by omega))
    have s2 := (s1.sends (pair0 (a' := .firstLoad) (.sendFirst _ 0 _ _ _ rfl) rfl) (sound0 (fun h => h))).quietly count0
    have s3 := (s2.asked (pair1 (off' := 0) (b' := .reset .zero 0 .none) (.kickstart _ 1 .zero 0 rfl) rfl) (asks1 (by simp)) rfl (sound1 (fun h => h))).quietly (request1 (by omega) (by omega))
    have s4 := (s3.sends (pair1 (b' := .firstLoad) (.sendFirst _ 1 _ _ _ rfl) rfl) (sound1 (fun h => h))).quietly count1
    have s5 := (s4.acked (by omega) (fun i => failsAt_self _)).acked (by omega) (fun i => failsAt_self _)
    have s6 : Spec.Flow Spec.Sound (pairState limit cap file 0 0 0 .none .none) 2 2 2 (pairState limit cap file 1000 2 (0 + 1 + 1) .select .select) := s5
    have s7 := (s6.quietly ack0).quietly ack1
    obtain ⟨w', hw', s8⟩ := lost_counts cap.toNat s7 (by show 0 + _ ≤ _; omega) (by omega) (by omega) (by omega)
    have : w' = cap := UInt16.toNat_inj.1 (hw'.trans (Nat.zero_add _))
    rw [this] at s8
    exact s8
  | succ k ih =>
    have le : 1000 + cap.toNat * 2048 + k * 4096 ≤ 1000 + cap.toNat * 2048 + (k + 1) * 4096 := Nat.add_le_add_left (Nat.mul_le_mul_right _ (Nat.le_succ k)) _
    have s1 := two_acks (ih (Nat.le_trans le h1) (Nat.le_trans le h2) (Nat.le_trans le h3)) (by omega)
    have c1 : (1 : UInt16) ≤ cap := by rw [UInt16.le_iff_toNat_le]; show 1 ≤ cap.toNat; omega
    have e1 : (cap - 1).toNat = cap.toNat - 1 := UInt16.toNat_sub_of_le _ _ c1
    have c2 : (1 : UInt16) ≤ cap - 1 := by rw [UInt16.le_iff_toNat_le, e1]; show 1 ≤ cap.toNat - 1; omega
    have e2 : (cap - 1 - 1).toNat = cap.toNat - 1 - 1 := by rw [UInt16.toNat_sub_of_le _ _ c2, e1]; rfl
    obtain ⟨w', hw', s2⟩ := lost_counts 2 s1 (by omega) (by omega) (by omega) (by omega)
    have : w' = cap := UInt16.toNat_inj.1 (by omega)
    rw [this] at s2
    rw [show 2 + 2 * cap.toNat + 4 * (k + 1) = 2 + 2 * cap.toNat + 4 * k + 2 * 2 by omega, show 2 + 2 * (k + 1) = 2 + 2 * k + 2 by omega,
      show 1000 + cap.toNat * 2048 + (k + 1) * 4096 = 1000 + cap.toNat * 2048 + k * 4096 + 2 * 2048 by omega]
    exact s2

/-- **There is no bound in terms of the window when requests overlap.**  Two requests suffice, and every acknowledgement answers a packet of its own, and no read or write fails: because increments of the shared
counter get lost, `2 * cap + 2 * k` packets can be outstanding, for every `k` for which the chunk is long enough (that is, up to about half of the packets of the chunk). -/
theorem C104_no_bound (limit : Nat) (cap : UInt16) (file : Bytes) (k : Nat) (hcap : 2 ≤ cap.toNat) (h1 : 1000 + cap.toNat * 2048 + k * 4096 ≤ limit)
    (h2 : 1000 + cap.toNat * 2048 + k * 4096 ≤ file.length) (h3 : 1000 + cap.toNat * 2048 + k * 4096 ≤ 4294967296) :
    ∃ s, Spec.Flow Spec.Sound (.init ⟨0, 0, limit⟩ cap file) 2 (2 + 2 * cap.toNat + 4 * k) (2 + 2 * k) s :=
  ⟨_, two_overrun limit cap file k hcap h1 h2 h3⟩

/-- **C104 as stated does not hold.** -/
theorem C104_refuted : ¬ C104_statement := by
  intro h
  obtain ⟨s, hs⟩ := C104_no_bound 5096 2 (List.replicate 5096 0) 0 (by decide) (by decide) (by rw [List.length_replicate]; decide) (by decide)
  have := h _ _ _ _ _ _ _ (hs.mono (fun _ _ _ => trivial))
  revert this
  decide

theorem send_apart {s t : MuState} {p : Packet} (hs : MuStep s (some p) t) : Spec.Apart s t := by
  intro i h1 h2
  cases hs with
  | sendFirst k hash size got hk => exact absurd ⟨i, h1, h2⟩ (asks_move (i := k) rfl (by rw [hk]; simp))
  | send k ends o got hk => exact absurd ⟨i, h1, h2⟩ (asks_move (i := k) rfl (by rw [hk]; simp))

/-- The bound of `C104_partial` is reached: two requests for an empty chunk, one after the other, window 1, one acknowledgement, and two packets are outstanding. -/
theorem C104_tight : ∃ s, Spec.Flow Spec.Apart (.init ⟨0, 0, 0⟩ 1 []) 2 3 1 s := by
  let S (ws : UInt16) (pend : Nat) (cancel : Bool) (a b : MuThread) : MuState := ⟨⟨0, 0, 0⟩, ws, 1, pend, cancel, twoThreads a b, [], []⟩
  let F := Spec.Flow Spec.Apart (.init ⟨0, 0, 0⟩ 1 [])
  have noask0 : ∀ {ws ws' q q' k k' a a' b}, a ≠ .none → ¬ Spec.Asks (S ws q k a b) (S ws' q' k' a' b) := by
    intro ws ws' q q' k k' a a' b ha
    exact asks_move (i := 0) (by rw [twoThreads_set0 (S ws q k a b) a b a' rfl]) ha
  have noask1 : ∀ {ws ws' q q' k k' a b b'}, b ≠ .none → ¬ Spec.Asks (S ws q k a b) (S ws' q' k' a b') := by
    intro ws ws' q q' k k' a b b' hb
    exact asks_move (i := 1) (by rw [twoThreads_set1 (S ws q k a b) a b b' rfl]) hb
  have quiet : ∀ {r n a : Nat} {s t : MuState}, F r n a s → MuStep s none t → ¬ Spec.Asks s t → t.pending ≤ s.pending → F r n a t := fun h hs hn hp =>
    h.step hs (.inr ⟨hn, rfl⟩) (.inr ⟨fun h => h rfl, rfl⟩) (.inr ⟨by omega, rfl⟩) (flow_acks h) (fun i h1 h2 => absurd ⟨i, h1, h2⟩ hn)
  have quiet0 : ∀ {r n m : Nat} {ws ws' q q' k k' a a' b}, F r n m (S ws q k a b) →
      MuStep (S ws q k a b) none { (S ws q k a b).set 0 a' with windowSize := ws', pending := q', cancel := k' } → a ≠ .none → (hq : q' ≤ q := by first | exact Nat.le_refl _ | exact Nat.zero_le _) → F r n m (S ws' q' k' a' b) := by
    intro r n m ws ws' q q' k k' a a' b h hs ha hq
    rw [twoThreads_set0 (S ws q k a b) a b a' rfl] at hs
    exact quiet h hs (noask0 ha) hq
  have quiet1 : ∀ {r n m : Nat} {ws ws' q q' k k' a b b'}, F r n m (S ws q k a b) →
      MuStep (S ws q k a b) none { (S ws q k a b).set 1 b' with windowSize := ws', pending := q', cancel := k' } → b ≠ .none → (hq : q' ≤ q := by first | exact Nat.le_refl _ | exact Nat.zero_le _) → F r n m (S ws' q' k' a b') := by
    intro r n m ws ws' q q' k k' a b b' h hs ha hq
    rw [twoThreads_set1 (S ws q k a b) a b b' rfl] at hs
    exact quiet h hs (noask1 ha) hq
  have send0 : ∀ {r n m : Nat} {ws q k a a' b} {p : Packet}, F r n m (S ws q k a b) → MuStep (S ws q k a b) (some p) ((S ws q k a b).set 0 a') → F r (n + 1) m (S ws q k a' b) := by
    intro r n m ws q k a a' b p h hs
    rw [twoThreads_set0 (S ws q k a b) a b a' rfl] at hs
    exact h.sends hs (send_apart hs)
  have send1 : ∀ {r n m : Nat} {ws q k a b b'} {p : Packet}, F r n m (S ws q k a b) → MuStep (S ws q k a b) (some p) ((S ws q k a b).set 1 b') → F r (n + 1) m (S ws q k a b') := by
    intro r n m ws q k a b b' p h hs
    rw [twoThreads_set1 (S ws q k a b) a b b' rfl] at hs
    exact h.sends hs (send_apart hs)
  have ask0 : ∀ {r n m : Nat} {ws q}, F r n m (S ws q false .none .none) → F (r + 1) n m (S ws q false (.reset .zero 0 .none) .none) := by
    intro r n m ws q h
    have hs := MuStep.kickstart (S ws q false .none .none) 0 .zero 0 rfl
    rw [twoThreads_set0 (S ws q false .none .none) .none .none _ rfl] at hs
    exact h.step hs (.inl ⟨⟨0, rfl, fun e => MuThread.noConfusion (show MuThread.reset .zero 0 .none = .none from e)⟩, rfl⟩) (.inr ⟨fun h => h rfl, rfl⟩) (.inr ⟨Nat.ne_of_lt (Nat.lt_succ_self _), rfl⟩) (flow_acks h)
      (fun i h1 h2 j hj => by show (twoThreads .none .none j).idle = true; unfold twoThreads; split <;> (try split) <;> rfl)
  have ask1 : ∀ {r n m : Nat} {ws q}, F r n m (S ws q false .exited .none) → F (r + 1) n m (S ws q false .exited (.reset .zero 0 .none)) := by
    intro r n m ws q h
    have hs := MuStep.kickstart (S ws q false .exited .none) 1 .zero 0 rfl
    rw [twoThreads_set1 (S ws q false .exited .none) .exited .none _ rfl] at hs
    exact h.step hs (.inl ⟨⟨1, rfl, fun e => MuThread.noConfusion (show MuThread.reset .zero 0 .none = .none from e)⟩, rfl⟩) (.inr ⟨fun h => h rfl, rfl⟩) (.inr ⟨Nat.ne_of_lt (Nat.lt_succ_self _), rfl⟩) (flow_acks h)
      (fun i h1 h2 j hj => by show (twoThreads .exited .none j).idle = true; unfold twoThreads; split <;> (try split) <;> rfl)
  have s0 : F 0 0 0 (S 0 0 false .none .none) := by
    have : MuState.init ⟨0, 0, 0⟩ 1 [] = S 0 0 false .none .none := by
      have : (fun _ => MuThread.none) = twoThreads .none .none := by funext j; simp [twoThreads]
      unfold MuState.init
      rw [this]
    show Spec.Flow Spec.Apart _ 0 0 0 _
    rw [this]; exact .refl
  have a0 : F 1 0 0 (S 0 0 false (.reset .zero 0 .none) .none) := ask0 s0
  have a1 : F 1 0 0 (S 0 0 false (.reset .zero 0 (some 0)) .none) := quiet0 a0 (.resetLoad _ 0 .zero 0 rfl) (by simp)
  have a2 : F 1 0 0 (S 0 0 false (.first .zero 0 .seek) .none) := quiet0 a1 (.resetStore _ 0 .zero 0 0 rfl) (by simp)
  have a3 : F 1 0 0 (S 0 0 false (.first .zero 0 (.seekStore 0)) .none) := quiet0 a2 (.firstStep _ 0 .zero 0 .seek .good rfl rfl) (by simp)
  have a4 : F 1 0 0 (S 0 0 false (.first .zero 0 (.test 0)) .none) := quiet0 a3 (.firstStep _ 0 .zero 0 (.seekStore 0) .good rfl rfl) (by simp)
  have a5 : F 1 0 0 (S 0 0 false (.first .zero 0 (.done 0 [] (some .eof))) .none) := quiet0 a4 (.firstStep _ 0 .zero 0 (.test 0) .good rfl rfl) (by simp)
  have a6 : F 1 0 0 (S 0 0 false (.announce .zero 0 []) .none) := quiet0 a5 (.firstDone _ 0 .zero 0 0 [] _ rfl (by simp)) (by simp)
  have a7 : F 1 1 0 (S 0 0 false (.firstLoad) .none) := send0 a6 (.sendFirst _ 0 .zero 0 [] rfl)
  have b1 : F 1 1 0 (S 0 0 false (.firstStore 0) .none) := quiet0 a7 (.firstLoad _ 0 rfl) (by simp)
  have b2 : F 1 1 0 (S 1 0 false .select .none) := quiet0 (ws' := 0 + 1) b1 (.firstStore _ 0 0 rfl) (by simp)
  have b3 : F 1 1 1 (S 1 1 false .select .none) := (b2).acked (by omega) (fun i h1 h2 => absurd h1 h2)
  have b4 : F 1 1 1 (S 1 0 false .takeLoad .none) := quiet0 (q' := 1 - 1) b3 (.take _ 0 rfl (Nat.zero_lt_succ _)) (by simp)
  have b5 : F 1 1 1 (S 1 0 false (.takeStore 1) .none) := quiet0 b4 (.takeLoad _ 0 rfl) (by simp)
  have b6 : F 1 1 1 (S 0 0 false (.loop 0) .none) := quiet0 (ws' := 1 - 1) b5 (.takeStore _ 0 1 rfl) (by simp)
  have b7 : F 1 1 1 (S 0 0 false (.reading 0 .seek) .none) := quiet0 b6 (.more _ 0 0 rfl (by decide)) (by simp)
  have b8 : F 1 1 1 (S 0 0 false (.reading 0 (.seekStore 0)) .none) := quiet0 b7 (.readStep _ 0 0 .seek .good rfl rfl) (by simp)
  have b9 : F 1 1 1 (S 0 0 false (.reading 0 (.test 0)) .none) := quiet0 b8 (.readStep _ 0 0 (.seekStore 0) .good rfl rfl) (by simp)
  have c0 : F 1 1 1 (S 0 0 false (.reading 0 (.done 0 [] (some .eof))) .none) := quiet0 b9 (.readStep _ 0 0 (.test 0) .good rfl rfl) (by simp)
  have c1 : F 1 1 1 (S 0 0 false (.sending 1 0 []) .none) := quiet0 c0 (.readDone _ 0 0 0 [] (some .eof) rfl (by simp)) (by simp)
  have c2 : F 1 2 1 (S 0 0 false (.sentLoad 1) .none) := send0 c1 (.send _ 0 1 0 [] rfl)
  have c3 : F 1 2 1 (S 0 0 false (.sentStore 1 0) .none) := quiet0 c2 (.sentLoad _ 0 1 rfl) (by simp)
  have c4 : F 1 2 1 (S 1 0 false (.loop 1) .none) := quiet0 (ws' := 0 + 1) c3 (.sentStore _ 0 1 0 rfl) (by simp)
  have c5 : F 1 2 1 (S 1 0 false (.defers 1 false) .none) := quiet0 c4 (.full _ 0 1 rfl (by decide)) (by simp)
  have c6 : F 1 2 1 (S 1 0 true (.defers 0 false) .none) := quiet0 (k' := true) c5 (.terminate _ 0 0 false rfl rfl) (by simp)
  have c7 : F 1 2 1 (S 1 0 true .select .none) := quiet0 c6 (.ret _ 0 false rfl) (by simp)
  have c8 : F 1 2 1 (S 1 0 false .exited .none) := quiet0 (k' := false) c7 (.cancel _ 0 rfl rfl) (by simp)
  have d0 : F 2 2 1 (S 1 0 false .exited (.reset .zero 0 .none)) := ask1 c8
  have d1 : F 2 2 1 (S 1 0 false .exited (.reset .zero 0 (some 0))) := quiet1 d0 (.resetLoad _ 1 .zero 0 rfl) (by simp)
  have d2 : F 2 2 1 (S 1 0 false .exited (.first .zero 0 .seek)) := quiet1 d1 (.resetStore _ 1 .zero 0 0 rfl) (by simp)
  have d3 : F 2 2 1 (S 1 0 false .exited (.first .zero 0 (.seekStore 0))) := quiet1 d2 (.firstStep _ 1 .zero 0 .seek .good rfl rfl) (by simp)
  have d4 : F 2 2 1 (S 1 0 false .exited (.first .zero 0 (.test 0))) := quiet1 d3 (.firstStep _ 1 .zero 0 (.seekStore 0) .good rfl rfl) (by simp)
  have d5 : F 2 2 1 (S 1 0 false .exited (.first .zero 0 (.done 0 [] (some .eof)))) := quiet1 d4 (.firstStep _ 1 .zero 0 (.test 0) .good rfl rfl) (by simp)
  have d6 : F 2 2 1 (S 1 0 false .exited (.announce .zero 0 [])) := quiet1 d5 (.firstDone _ 1 .zero 0 0 [] _ rfl (by simp)) (by simp)
  have d7 : F 2 3 1 (S 1 0 false .exited (.firstLoad)) := send1 d6 (.sendFirst _ 1 .zero 0 [] rfl)
  exact ⟨_, d7⟩

end Flu
