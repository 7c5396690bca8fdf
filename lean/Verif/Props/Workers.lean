import Verif.Props.SenderMany
/-!
# The goroutines of an upload that was asked for more than once (C101)

Every `OpenConnectionRequest` for the same upload starts one more worker on it.  A worker stops when it takes a signal from a channel of capacity one; every read that
meets the end of the chunk gives one signal.  Here the two are counted.
-/
namespace Flu

/-- Nothing is left of the section, or the file ends before the read is complete: what a read that is at `pc` finds. -/
def Spec.AtEnd (s : MuState) : RdPc → Prop
  | .test _ => s.reader.limit ≤ s.reader.off
  | .fetch _ want => s.now.length - s.reader.off < want
  | _ => False

/-- A worker begins. -/
def Spec.WorkerBegins (s t : MuState) : Prop := ∃ i w, s.threads i = .firstStore w ∧ t.threads i = .select
/-- A worker reads and meets the end. -/
def Spec.MeetsEnd (s t : MuState) : Prop := ∃ i n pc pc', s.threads i = .reading n pc ∧ Spec.AtEnd s pc ∧ t.threads i = .reading n pc' ∧ pc' ≠ pc ∧
  ∀ o got, pc' ≠ .add o got (some .other)
/-- A worker stops. -/
def Spec.Stops (s t : MuState) : Prop := s.threads ≠ t.threads ∧ ∃ i, s.threads i = .select ∧ t.threads i = .exited

/-- One more if it happened, otherwise the same. -/
def Spec.Counts (P : Prop) (n n' : Nat) : Prop := (P ∧ n' = n + 1) ∨ (¬ P ∧ n' = n)

/-- An upload so far: how many workers began, how many reads met the end, and how many workers stopped. -/
inductive Spec.Tally (s0 : MuState) : Nat → Nat → Nat → MuState → Prop
  | refl : Spec.Tally s0 0 0 0 s0
  | step {w e x w' e' x' : Nat} {s t : MuState} {p : Option Packet} (h : Spec.Tally s0 w e x s) (hs : MuStep s p t)
      (hw : Spec.Counts (Spec.WorkerBegins s t) w w') (he : Spec.Counts (Spec.MeetsEnd s t) e e') (hx : Spec.Counts (Spec.Stops s t) x x') : Spec.Tally s0 w' e' x' t

/-- Nothing happens any more to the goroutines that there are (only a new request could start another one). -/
def Spec.Rests (s : MuState) : Prop := ∀ p t i, MuStep s p t → t.threads i ≠ s.threads i → s.threads i = .none

/-- The goroutine is a worker that has begun and not stopped. -/
def MuThread.works : MuThread → Nat
  | .select | .takeLoad | .takeStore _ | .loop _ | .reading _ _ | .sending _ _ _ | .sentLoad _ | .sentStore _ _ | .defers _ _ => 1
  | _ => 0

/-- The read has met the end. -/
def RdPc.ended : RdPc → Nat
  | .add _ _ (some .eof) | .addStore _ _ (some .eof) _ | .done _ _ (some .eof) => 1
  | _ => 0

/-- How many signals the goroutine still has to give. -/
def MuThread.owes : MuThread → Nat
  | .reading n pc => n + pc.ended
  | .loop n | .sending n _ _ | .sentLoad n | .sentStore n _ | .defers n _ => n
  | _ => 0

/-- The sum over all goroutines. -/
def total (f : MuThread → Nat) (th : Nat → MuThread) : Nat → Nat
  | 0 => 0
  | n + 1 => total f th n + f (th n)

theorem total_set (f : MuThread → Nat) (s : MuState) (i : Nat) (x : MuThread) : ∀ n, total f (s.set i x).threads n + (if i < n then f (s.threads i) else 0) =
    total f s.threads n + (if i < n then f x else 0)
  | 0 => by simp [total]
  | n + 1 => by
    have ih := total_set f s i x n
    rcases Nat.lt_trichotomy i n with h | h | h
    · rw [if_pos h, if_pos h] at ih
      rw [if_pos (by omega), if_pos (by omega), total, total, MuState.set_other (by omega)]
      omega
    · subst h
      rw [if_neg (by omega), if_neg (by omega)] at ih
      rw [if_pos (by omega), if_pos (by omega), total, total, MuState.set_self]
      omega
    · rw [if_neg (by omega), if_neg (by omega)] at ih
      rw [if_neg (by omega), if_neg (by omega), total, total, MuState.set_other (by omega)]
      omega

theorem total_more (f : MuThread → Nat) (hf : f .none = 0) (th : Nat → MuThread) (n : Nat) (h : ∀ j, n ≤ j → th j = .none) : ∀ m, n ≤ m → total f th m = total f th n
  | 0, hm => by
    have : n = 0 := by omega
    rw [this]
  | m + 1, hm => by
    by_cases he : n = m + 1
    · rw [he]
    · rw [total, total_more f hf th n h m (by omega), h m (by omega), hf]; rfl

theorem total_pos (f : MuThread → Nat) (th : Nat → MuThread) (i : Nat) : ∀ n, i < n → f (th i) ≤ total f th n
  | 0, h => by omega
  | n + 1, h => by
    rw [total]
    by_cases he : i = n
    · rw [he]; omega
    · have := total_pos f th i n (by omega); omega

theorem total_zero (f : MuThread → Nat) (th : Nat → MuThread) : ∀ n, (∀ i, f (th i) = 0) → total f th n = 0
  | 0, _ => rfl
  | n + 1, h => by rw [total, total_zero f th n h, h]

theorem total_le (f g : MuThread → Nat) (th : Nat → MuThread) (h : ∀ i, f (th i) ≤ g (th i)) : ∀ n, total f th n ≤ total g th n
  | 0 => Nat.le_refl _
  | n + 1 => by
    have := total_le f g th h n
    have := h n
    rw [total, total]; omega

/-- The signal in the channel. -/
def signal (s : MuState) : Nat := if s.cancel then 1 else 0

/-- The books of an upload: some goroutine has died, or workers and signals add up. -/
structure Books (w e x : Nat) (s : MuState) : Prop where
  fin : ∃ n, ∀ j, n ≤ j → s.threads j = .none
  workers : ∀ n, (∀ j, n ≤ j → s.threads j = .none) → w = x + total MuThread.works s.threads n
  signals : ∀ n, (∀ j, n ≤ j → s.threads j = .none) → e = x + signal s + total MuThread.owes s.threads n
  heard : s.cancel = true → ∃ i, (s.threads i).works = 1

theorem counts_no {P : Prop} {n n' : Nat} (h : Spec.Counts P n n') (hp : ¬ P) : n' = n := by
  rcases h with ⟨h, -⟩ | ⟨-, h⟩
  · exact absurd h hp
  · exact h
theorem counts_yes {P : Prop} {n n' : Nat} (h : Spec.Counts P n n') (hp : P) : n' = n + 1 := by
  rcases h with ⟨-, h⟩ | ⟨h, -⟩
  · exact h
  · exact absurd hp h

/-- One goroutine moves: the books are kept if what it did is entered. -/
theorem Books.move {w e x w' e' x' : Nat} {s t : MuState} {i : Nat} {y : MuThread} (h : Books w e x s) (ht : t.threads = (s.set i y).threads) (hy : y ≠ .none)
    (h1 : w' + (s.threads i).works + x = w + y.works + x') (h2 : e' + x + signal s + (s.threads i).owes = e + x' + signal t + y.owes)
    (h3 : t.cancel = true → y.works = 1 ∨ (s.cancel = true ∧ (s.threads i).works = 0)) : Books w' e' x' t := by
  obtain ⟨n0, hn0⟩ := h.fin
  have key : ∀ n, (∀ j, n ≤ j → t.threads j = .none) → i < n ∧ ∀ j, n ≤ j → s.threads j = .none := by
    intro n hn
    have hi : i < n := by
      refine Nat.lt_of_not_le (fun hle => hy ?_)
      have := hn i hle
      rw [ht, MuState.set_self] at this
      exact this
    refine ⟨hi, fun j hj => ?_⟩
    have := hn j hj
    rwa [ht, MuState.set_other (by omega)] at this
  refine ⟨⟨max n0 (i + 1), fun j hj => ?_⟩, fun n hn => ?_, fun n hn => ?_, fun hc => ?_⟩
  · rw [ht, MuState.set_other (by omega)]
    exact hn0 j (by omega)
  · obtain ⟨hi, hs⟩ := key n hn
    have a := h.workers n hs
    have b := total_set MuThread.works s i y n
    rw [if_pos hi, if_pos hi] at b
    rw [ht]; omega
  · obtain ⟨hi, hs⟩ := key n hn
    have a := h.signals n hs
    have b := total_set MuThread.owes s i y n
    rw [if_pos hi, if_pos hi] at b
    rw [ht]; omega
  · rcases h3 hc with h4 | ⟨h4, h5⟩
    · exact ⟨i, by rw [ht, MuState.set_self]; exact h4⟩
    · obtain ⟨j, hj⟩ := h.heard h4
      have : j ≠ i := by rintro rfl; omega
      exact ⟨j, by rw [ht, MuState.set_other this]; exact hj⟩

/-- What one access of a read finds. -/
theorem next_ended (s : MuState) (n : Nat) (rd : AtChoice) (pc : RdPc) (hb : pc.busy = true) : (pc.next s.reader s.now n rd).1 ≠ pc ∧
    (Spec.AtEnd s pc → (∀ o got, (pc.next s.reader s.now n rd).1 ≠ .add o got (some .other)) → (pc.next s.reader s.now n rd).1.ended = pc.ended + 1) ∧
    (¬ (Spec.AtEnd s pc ∧ ∀ o got, (pc.next s.reader s.now n rd).1 ≠ .add o got (some .other)) → (pc.next s.reader s.now n rd).1.ended = pc.ended) := by
  cases pc with
  | seek => exact ⟨by simp [RdPc.next], fun h => h.elim, fun _ => rfl⟩
  | seekStore a =>
    simp only [RdPc.next]
    split
    · exact ⟨by simp, fun h => h.elim, fun _ => rfl⟩
    · split
      · exact ⟨by simp, fun h => h.elim, fun _ => rfl⟩
      · exact ⟨by simp, fun h => h.elim, fun _ => rfl⟩
  | test o =>
    simp only [RdPc.next, Spec.AtEnd]
    split
    · rename_i h
      exact ⟨by simp, fun _ _ => rfl, fun h' => absurd ⟨h, by simp⟩ h'⟩
    · rename_i h
      exact ⟨by simp, fun h' => absurd h' h, fun _ => rfl⟩
  | clip o =>
    simp only [RdPc.next]
    split
    · exact ⟨by simp, fun h => h.elim, fun _ => rfl⟩
    · exact ⟨by simp, fun h => h.elim, fun _ => rfl⟩
  | fetch o want =>
    simp only [RdPc.next, Spec.AtEnd]
    refine ⟨by simp, ?_⟩
    cases rd with
    | fail k => exact ⟨fun _ h => absurd rfl (h _ _), fun _ => rfl⟩
    | good =>
      have hl : ((s.now.drop s.reader.off).take want).length < want ↔ s.now.length - s.reader.off < want := by
        rw [List.length_take, List.length_drop]; omega
      simp only [osReadAt]
      by_cases h : s.now.length - s.reader.off < want
      · rw [if_pos (hl.2 h)]
        exact ⟨fun _ _ => rfl, fun h' => absurd ⟨h, by simp⟩ h'⟩
      · rw [if_neg (fun h' => h (hl.1 h'))]
        exact ⟨fun h' => absurd h' h, fun _ => rfl⟩
  | add o got err => exact ⟨by simp [RdPc.next], fun h => h.elim, fun _ => by cases err with | none => rfl | some e => cases e <;> rfl⟩
  | addStore o got err a => exact ⟨by simp [RdPc.next], fun h => h.elim, fun _ => by cases err with | none => rfl | some e => cases e <;> rfl⟩
  | done o got err => cases hb
  | panicked => cases hb

theorem begins_same {s t : MuState} (h : t.threads = s.threads) : ¬ Spec.WorkerBegins s t := by
  rintro ⟨i, a, h1, h2⟩; rw [h, h1] at h2; cases h2
theorem meets_same {s t : MuState} (h : t.threads = s.threads) : ¬ Spec.MeetsEnd s t := by
  rintro ⟨i, n, pc, pc', h1, -, h2, h3, -⟩; rw [h, h1] at h2; cases h2; exact h3 rfl
theorem stops_same {s t : MuState} (h : t.threads = s.threads) : ¬ Spec.Stops s t := fun h' => h'.1 h.symm

section
variable {s t : MuState} {i : Nat} {y : MuThread}

theorem begins_move (ht : t.threads = (s.set i y).threads) : Spec.WorkerBegins s t ↔ (∃ w, s.threads i = .firstStore w) ∧ y = .select := by
  constructor
  · rintro ⟨j, a, h1, h2⟩
    by_cases hj : j = i
    · subst hj
      rw [ht, MuState.set_self] at h2
      exact ⟨⟨_, h1⟩, h2⟩
    · rw [ht, MuState.set_other hj, h1] at h2; cases h2
  · rintro ⟨⟨a, h1⟩, rfl⟩
    exact ⟨i, a, h1, by rw [ht, MuState.set_self]⟩

theorem meets_move (ht : t.threads = (s.set i y).threads) : Spec.MeetsEnd s t ↔ ∃ n pc pc', s.threads i = .reading n pc ∧ Spec.AtEnd s pc ∧ y = .reading n pc' ∧ pc' ≠ pc ∧
    ∀ o got, pc' ≠ .add o got (some .other) := by
  constructor
  · rintro ⟨j, n, pc, pc', h1, h2, h3, h4, h5⟩
    by_cases hj : j = i
    · subst hj
      rw [ht, MuState.set_self] at h3
      exact ⟨_, _, _, h1, h2, h3, h4, h5⟩
    · rw [ht, MuState.set_other hj, h1] at h3; cases h3; exact absurd rfl h4
  · rintro ⟨n, pc, pc', h1, h2, rfl, h4, h5⟩
    exact ⟨i, n, pc, pc', h1, h2, by rw [ht, MuState.set_self], h4, h5⟩

theorem stops_move (ht : t.threads = (s.set i y).threads) : Spec.Stops s t ↔ s.threads i = .select ∧ y = .exited := by
  constructor
  · rintro ⟨-, j, h1, h2⟩
    by_cases hj : j = i
    · subst hj
      rw [ht, MuState.set_self] at h2
      exact ⟨h1, h2⟩
    · rw [ht, MuState.set_other hj, h1] at h2; cases h2
  · rintro ⟨h1, rfl⟩
    refine ⟨fun h => ?_, i, h1, by rw [ht, MuState.set_self]⟩
    rw [h, ht, MuState.set_self] at h1; cases h1

end

theorem dead_stays {s t : MuState} {p : Option Packet} {i : Nat} (h : s.threads i = .dead) (hs : MuStep s p t) : t.threads i = .dead := by
  have key : ∀ j y, s.threads j ≠ .dead → (s.set j y).threads i = .dead := by
    intro j y hj
    rw [MuState.set_other (fun e => hj (by rw [← e]; exact h))]; exact h
  cases hs
  case edit => exact h
  case arrive => exact h
  all_goals exact key _ _ (fun e => by simp_all)

theorem books_step {w e x w' e' x' : Nat} {s t : MuState} {p : Option Packet} (h : Books w e x s) (hs : MuStep s p t) (hw : Spec.Counts (Spec.WorkerBegins s t) w w')
    (he : Spec.Counts (Spec.MeetsEnd s t) e e') (hx : Spec.Counts (Spec.Stops s t) x x') (hd : ∀ i, t.threads i ≠ .dead) : Books w' e' x' t := by
  -- a step of goroutine `i`
  have mv : ∀ (i : Nat) (y : MuThread), t.threads = (s.set i y).threads → y ≠ .none → t.cancel = s.cancel → ¬ ((∃ w, s.threads i = .firstStore w) ∧ y = .select) →
      ¬ (∃ n pc pc', s.threads i = .reading n pc ∧ y = .reading n pc') → ¬ (s.threads i = .select ∧ y = .exited) → (s.threads i).works = y.works → (s.threads i).owes = y.owes → Books w' e' x' t := by
    intro i y ht hy hc h1 h2 h3 h4 h5
    have hc' : signal t = signal s := by unfold signal; rw [hc]
    have e1 := counts_no hw (fun hb => h1 ((begins_move ht).1 hb))
    have e2 := counts_no he (fun hb => by
      obtain ⟨n, pc, pc', a1, -, a2, -⟩ := (meets_move ht).1 hb
      exact h2 ⟨n, pc, pc', a1, a2⟩)
    have e3 := counts_no hx (fun hb => h3 ((stops_move ht).1 hb))
    refine h.move ht hy (by omega) (by omega) (fun hcn => ?_)
    by_cases hz : y.works = 1
    · exact .inl hz
    · refine .inr ⟨by rw [← hc]; exact hcn, ?_⟩
      rw [h4]
      revert hz
      cases y <;> simp [MuThread.works]
  have same : t.threads = s.threads → t.cancel = s.cancel → Books w' e' x' t := by
    intro ht hc
    rw [counts_no hw (begins_same ht), counts_no he (meets_same ht), counts_no hx (stops_same ht)]
    refine ⟨by rw [ht]; exact h.fin, by rw [ht]; exact h.workers, ?_, by rw [ht, hc]; exact h.heard⟩
    have : signal t = signal s := by unfold signal; rw [hc]
    rw [ht, this]; exact h.signals
  cases hs with
  | edit new => exact same rfl rfl
  | arrive => exact same rfl rfl
  | kickstart i hash size hi =>
    exact mv i _ rfl (by simp) rfl (by simp [hi]) (by simp [hi]) (by simp [hi]) (by simp [hi, MuThread.works])
      (by simp [hi, MuThread.owes])
  | resetLoad i hash size hi =>
    exact mv i _ rfl (by simp) rfl (by simp [hi]) (by simp [hi]) (by simp [hi]) (by simp [hi, MuThread.works])
      (by simp [hi, MuThread.owes])
  | resetStore i hash size a hi =>
    by_cases h1 : (RdPc.next s.reader s.now 0 .good (.seekStore a)).1 = .panicked
    · exact absurd ((MuState.set_self s i _).trans (if_pos h1)) (hd i)
    · exact mv i (.first hash size .seek) (by rw [if_neg h1]; rfl) (by simp) rfl (by simp [hi]) (by simp [hi]) (by simp [hi]) (by simp [hi, MuThread.works])
        (by simp [hi, MuThread.owes])
  | firstStep i hash size pc rd hi hp =>
    exact mv i _ rfl (by simp) rfl (by simp [hi]) (by simp [hi]) (by simp [hi]) (by simp [hi, MuThread.works])
      (by simp [hi, MuThread.owes])
  | firstDone i hash size o got err hi he' =>
    exact mv i _ rfl (by simp) rfl (by simp [hi]) (by simp [hi]) (by simp [hi]) (by simp [hi, MuThread.works])
      (by simp [hi, MuThread.owes])
  | firstFails i hash size o got hi =>
    exact mv i _ rfl (by simp) rfl (by simp [hi]) (by simp [hi]) (by simp [hi]) (by simp [hi, MuThread.works])
      (by simp [hi, MuThread.owes])
  | firstDies i hash size hi => exact absurd (MuState.set_self _ _ _) (hd i)
  | sendFirst i hash size got hi =>
    exact mv i _ rfl (by simp) rfl (by simp [hi]) (by simp [hi]) (by simp [hi]) (by simp [hi, MuThread.works])
      (by simp [hi, MuThread.owes])
  | sendFirstFails i hash size got hi =>
    exact mv i _ rfl (by simp) rfl (by simp [hi]) (by simp [hi]) (by simp [hi]) (by simp [hi, MuThread.works])
      (by simp [hi, MuThread.owes])
  | firstLoad i hi =>
    exact mv i _ rfl (by simp) rfl (by simp [hi]) (by simp [hi]) (by simp [hi]) (by simp [hi, MuThread.works])
      (by simp [hi, MuThread.owes])
  | firstStore i c hi =>
    have e1 := counts_yes hw ((begins_move (i := i) rfl).2 ⟨⟨_, hi⟩, rfl⟩)
    have e2 := counts_no he (fun hb => by have := (meets_move (s := s) (i := i) (y := .select) rfl).1 hb; simp [hi] at this)
    have e3 := counts_no hx (fun hb => by have := (stops_move (s := s) (i := i) (y := .select) rfl).1 hb; simp [hi] at this)
    refine h.move (i := i) rfl (by simp) (by simp [hi, MuThread.works]; omega) ?_ (fun _ => .inl rfl)
    rw [hi]
    show e' + x + signal s + 0 = e + x' + signal s + 0
    omega
  | take i hi hp =>
    exact mv i _ rfl (by simp) rfl (by simp [hi]) (by simp [hi]) (by simp [hi]) (by simp [hi, MuThread.works])
      (by simp [hi, MuThread.owes])
  | takeLoad i hi =>
    exact mv i _ rfl (by simp) rfl (by simp [hi]) (by simp [hi]) (by simp [hi]) (by simp [hi, MuThread.works])
      (by simp [hi, MuThread.owes])
  | takeStore i c hi =>
    exact mv i _ rfl (by simp) rfl (by simp [hi]) (by simp [hi]) (by simp [hi]) (by simp [hi, MuThread.works])
      (by simp [hi, MuThread.owes])
  | cancel i hi hc =>
    have e1 := counts_no hw (fun hb => by have := (begins_move (s := s) (i := i) (y := .exited) rfl).1 hb; simp [hi] at this)
    have e2 := counts_no he (fun hb => by have := (meets_move (s := s) (i := i) (y := .exited) rfl).1 hb; simp [hi] at this)
    have e3 := counts_yes hx ((stops_move (i := i) rfl).2 ⟨hi, rfl⟩)
    refine h.move (i := i) rfl (by simp) (by simp [hi, MuThread.works]; omega) ?_ (fun hc' => by cases hc')
    simp only [hi, MuThread.owes, signal, hc]; simp; omega
  | more i ends hi hwin =>
    exact mv i _ rfl (by simp) rfl (by simp [hi]) (by simp [hi]) (by simp [hi]) (by simp [hi, MuThread.works])
      (by simp [hi, MuThread.owes, RdPc.ended])
  | full i ends hi hwin =>
    exact mv i _ rfl (by simp) rfl (by simp [hi]) (by simp [hi]) (by simp [hi]) (by simp [hi, MuThread.works])
      (by simp [hi, MuThread.owes])
  | readStep i ends pc rd hi hp =>
    obtain ⟨n1, n2, n3⟩ := next_ended s 1024 rd pc hp
    have e1 := counts_no hw (fun hb => by have := (begins_move (s := s) (i := i) (y := _) rfl).1 hb; simp at this)
    have e3 := counts_no hx (fun hb => by have := (stops_move (s := s) (i := i) (y := _) rfl).1 hb; simp at this)
    refine h.move (i := i) rfl (by simp) (by simp [hi, MuThread.works]; omega) ?_ (fun _ => .inl rfl)
    rw [hi]
    show e' + x + signal s + (ends + pc.ended) = e + x' + signal s + (ends + (pc.next s.reader s.now 1024 rd).1.ended)
    by_cases hend : Spec.AtEnd s pc ∧ ∀ o got, (pc.next s.reader s.now 1024 rd).1 ≠ .add o got (some .other)
    · have e2 := counts_yes he ((meets_move (i := i) rfl).2 ⟨ends, pc, _, hi, hend.1, rfl, n1, hend.2⟩)
      have := n2 hend.1 hend.2
      omega
    · have e2 := counts_no he (fun hb => by
        obtain ⟨n, pc1, pc2, a1, a2, a3, -, a5⟩ := (meets_move (i := i) rfl).1 hb
        rw [hi] at a1
        cases a1; cases a3
        exact hend ⟨a2, a5⟩)
      have := n3 hend
      omega
  | readDone i ends o got err hi he' =>
    exact mv i _ rfl (by simp) rfl (by simp [hi]) (by simp [hi]) (by simp [hi]) (by simp [hi, MuThread.works])
      (by rw [hi]; cases err with | none => rfl | some k => cases k with | eof => rfl | other => exact absurd rfl he')
  | readFails i ends o got hi =>
    exact mv i _ rfl (by simp) rfl (by simp [hi]) (by simp [hi]) (by simp [hi]) (by simp [hi, MuThread.works]) (by rw [hi]; rfl)
  | readDies i ends hi =>
    exact mv i _ rfl (by simp) rfl (by simp [hi]) (by simp [hi]) (by simp [hi]) (by simp [hi, MuThread.works]) (by rw [hi]; rfl)
  | send i ends o got hi =>
    exact mv i _ rfl (by simp) rfl (by simp [hi]) (by simp [hi]) (by simp [hi]) (by simp [hi, MuThread.works])
      (by simp [hi, MuThread.owes])
  | sendFails i ends o got hi =>
    exact mv i _ rfl (by simp) rfl (by simp [hi]) (by simp [hi]) (by simp [hi]) (by simp [hi, MuThread.works])
      (by simp [hi, MuThread.owes])
  | sentLoad i ends hi =>
    exact mv i _ rfl (by simp) rfl (by simp [hi]) (by simp [hi]) (by simp [hi]) (by simp [hi, MuThread.works])
      (by simp [hi, MuThread.owes])
  | sentStore i ends c hi =>
    exact mv i _ rfl (by simp) rfl (by simp [hi]) (by simp [hi]) (by simp [hi]) (by simp [hi, MuThread.works])
      (by simp [hi, MuThread.owes])
  | terminate i left failed hi hc =>
    have e1 := counts_no hw (fun hb => by have := (begins_move (s := s) (i := i) (y := .defers left failed) rfl).1 hb; simp [hi] at this)
    have e2 := counts_no he (fun hb => by have := (meets_move (s := s) (i := i) (y := .defers left failed) rfl).1 hb; simp [hi] at this)
    have e3 := counts_no hx (fun hb => by have := (stops_move (s := s) (i := i) (y := .defers left failed) rfl).1 hb; simp [hi] at this)
    refine h.move (i := i) rfl (by simp) (by simp [hi, MuThread.works]; omega) ?_ (fun _ => .inl rfl)
    simp only [hi, MuThread.owes, signal, hc]; simp; omega
  | ret i failed hi =>
    cases failed with
    | true => exact absurd (MuState.set_self _ _ _) (hd i)
    | false =>
      exact mv i _ rfl (by simp) rfl (by simp [hi]) (by simp [hi]) (by simp [hi]) (by simp [hi, MuThread.works])
        (by simp [hi, MuThread.owes])

theorem books {r : SectionReader} {cap : UInt16} {file : Bytes} {w e x : Nat} {s : MuState} (h : Spec.Tally (.init r cap file) w e x s) :
    (∀ i, s.threads i ≠ .dead) → Books w e x s := by
  induction h with
  | refl =>
    intro _
    refine ⟨⟨0, fun j _ => rfl⟩, fun n _ => ?_, fun n _ => ?_, fun h => by cases h⟩
    · rw [total_zero _ _ _ (fun i => rfl)]
    · rw [total_zero _ _ _ (fun i => rfl)]; rfl
  | step h hs hw he hx ih =>
    intro hd
    exact books_step (ih (fun i hi => hd i (dead_stays hi hs))) hs hw he hx hd

/-- Where goroutines are when nothing happens any more. -/
theorem rests_at {s : MuState} (h : Spec.Rests s) (i : Nat) : s.threads i = .none ∨ s.threads i = .exited ∨ s.threads i = .dead ∨
    (s.threads i = .select ∧ s.cancel = false) ∨ ∃ k f, s.threads i = .defers (k + 1) f ∧ s.cancel = true := by
  have go : ∀ p t y, MuStep s p t → t.threads i = y → y ≠ s.threads i → s.threads i ≠ .none → False := fun p t y hs hy hne hn => hn (h p t i hs (by rw [hy]; exact hne))
  cases hi : s.threads i with
  | none => simp
  | exited => simp
  | dead => simp
  | reset hash size a =>
    cases a with
    | none => exact (go _ _ _ (.resetLoad s i hash size hi) (MuState.set_self s i _) (by simp [hi]) (by simp [hi])).elim
    | some a => exact (go _ _ _ (.resetStore s i hash size a hi) (MuState.set_self s i _) (by rw [hi]; split <;> simp) (by simp [hi])).elim
  | first hash size pc =>
    by_cases hp : pc.busy = true
    · have := (next_ended s 1000 .good pc hp).1
      exact (go _ _ _ (.firstStep s i hash size pc .good hi hp) (MuState.set_self s i _) (by rw [hi]; simpa using this) (by simp [hi])).elim
    · cases pc with
      | done o got err =>
        by_cases he : err = some .other
        · subst he; exact (go _ _ _ (.firstFails s i hash size o got hi) (MuState.set_self s i _) (by simp [hi]) (by simp [hi])).elim
        · exact (go _ _ _ (.firstDone s i hash size o got err hi he) (MuState.set_self s i _) (by simp [hi]) (by simp [hi])).elim
      | panicked => exact (go _ _ _ (.firstDies s i hash size hi) (MuState.set_self s i _) (by simp [hi]) (by simp [hi])).elim
      | _ => exact absurd rfl hp
  | announce hash size got => exact (go _ _ _ (.sendFirst s i hash size got hi) (MuState.set_self s i _) (by simp [hi]) (by simp [hi])).elim
  | firstLoad => exact (go _ _ _ (.firstLoad s i hi) (MuState.set_self s i _) (by simp [hi]) (by simp [hi])).elim
  | firstStore c => exact (go _ _ _ (.firstStore s i c hi) (MuState.set_self s i _) (by simp [hi]) (by simp [hi])).elim
  | takeLoad => exact (go _ _ _ (.takeLoad s i hi) (MuState.set_self s i _) (by simp [hi]) (by simp [hi])).elim
  | takeStore c => exact (go _ _ _ (.takeStore s i c hi) (MuState.set_self s i _) (by simp [hi]) (by simp [hi])).elim
  | sentLoad ends => exact (go _ _ _ (.sentLoad s i ends hi) (MuState.set_self s i _) (by simp [hi]) (by simp [hi])).elim
  | sentStore ends c => exact (go _ _ _ (.sentStore s i ends c hi) (MuState.set_self s i _) (by simp [hi]) (by simp [hi])).elim
  | select =>
    refine .inr (.inr (.inr (.inl ⟨rfl, ?_⟩)))
    cases hc : s.cancel with
    | false => rfl
    | true => exact (go _ _ _ (.cancel s i hi hc) (MuState.set_self _ _ _) (by simp [hi]) (by simp [hi])).elim
  | loop ends =>
    exfalso
    by_cases hw : s.windowSize < s.windowCap
    · exact go _ _ _ (.more s i ends hi hw) (MuState.set_self _ _ _) (by simp [hi]) (by simp [hi])
    · exact go _ _ _ (.full s i ends hi hw) (MuState.set_self _ _ _) (by simp [hi]) (by simp [hi])
  | reading ends pc =>
    by_cases hp : pc.busy = true
    · have := (next_ended s 1024 .good pc hp).1
      exact (go _ _ _ (.readStep s i ends pc .good hi hp) (MuState.set_self s i _) (by rw [hi]; simpa using this) (by simp [hi])).elim
    · cases pc with
      | done o got err =>
        by_cases he : err = some .other
        · subst he; exact (go _ _ _ (.readFails s i ends o got hi) (MuState.set_self s i _) (by simp [hi]) (by simp [hi])).elim
        · exact (go _ _ _ (.readDone s i ends o got err hi he) (MuState.set_self s i _) (by simp [hi]) (by simp [hi])).elim
      | panicked => exact (go _ _ _ (.readDies s i ends hi) (MuState.set_self s i _) (by simp [hi]) (by simp [hi])).elim
      | _ => exact absurd rfl hp
  | sending ends o got => exact (go _ _ _ (.send s i ends o got hi) (MuState.set_self _ _ _) (by simp [hi]) (by simp [hi])).elim
  | defers n f =>
    cases n with
    | zero => exact (go _ _ _ (.ret s i f hi) (MuState.set_self _ _ _) (by simp [hi]; cases f <;> simp) (by simp [hi])).elim
    | succ k =>
      refine .inr (.inr (.inr (.inr ⟨k, f, rfl, ?_⟩)))
      cases hc : s.cancel with
      | true => rfl
      | false => exact (go _ _ _ (.terminate s i k f hi hc) (MuState.set_self _ _ _) (by simp [hi]) (by simp [hi])).elim

/-- The goroutines that satisfy a test, listed. -/
theorem total_list (q : MuThread → Bool) (th : Nat → MuThread) : ∀ n, ∃ l : List Nat, l.Nodup ∧ l.length = total (fun x => if q x then 1 else 0) th n ∧ ∀ i, i ∈ l ↔ i < n ∧ q (th i) = true
  | 0 => ⟨[], by simp, rfl, by simp⟩
  | n + 1 => by
    obtain ⟨l, h1, h2, h3⟩ := total_list q th n
    cases hq : q (th n) with
    | false =>
      refine ⟨l, h1, by simp [total, h2, hq], fun i => ?_⟩
      rw [h3]
      constructor
      · rintro ⟨a, b⟩; exact ⟨by omega, b⟩
      · rintro ⟨a, b⟩
        refine ⟨?_, b⟩
        by_cases he : i = n
        · rw [he, hq] at b; cases b
        · omega
    | true =>
      refine ⟨n :: l, List.nodup_cons.2 ⟨fun h => ?_, h1⟩, by simp [total, h2, hq], fun i => ?_⟩
      · have := ((h3 n).1 h).1; omega
      · rw [List.mem_cons, h3]
        constructor
        · rintro (rfl | ⟨a, b⟩)
          · exact ⟨by omega, hq⟩
          · exact ⟨by omega, b⟩
        · rintro ⟨a, b⟩
          by_cases he : i = n
          · exact .inl he
          · exact .inr ⟨by omega, b⟩

/-- The goroutine has ended, or there never was one. -/
def Spec.Gone (x : MuThread) : Prop := x = .none ∨ x = .exited

/-- C101, as it should be: when the end of the chunk has been met and nothing happens any more, all goroutines of the upload have ended. -/
def C101_statement : Prop := ∀ (r : SectionReader) (cap : UInt16) (file : Bytes) (w e x : Nat) (s : MuState), Spec.Tally (.init r cap file) w e x s →
  (∀ i, s.threads i ≠ .dead) → Spec.Rests s → 0 < e → ∀ i, Spec.Gone (s.threads i)

/-- What of C101 is true, exactly: if `w` workers began and `e` reads met the end, then all goroutines end if `e = w`; if `e < w` then `e` workers stop and `w - e` wait for
ever; and if `w < e` then no worker waits, and some worker hangs giving a signal that nobody takes.  Missing: that `e = w` always holds. -/
theorem C101_partial (r : SectionReader) (cap : UInt16) (file : Bytes) (w e x : Nat) (s : MuState) (h : Spec.Tally (.init r cap file) w e x s)
    (hd : ∀ i, s.threads i ≠ .dead) (hr : Spec.Rests s) :
    ((∀ i, Spec.Gone (s.threads i)) ↔ e = w) ∧
    (e ≤ w → x = e ∧ ∃ l : List Nat, l.Nodup ∧ l.length = w - e ∧ ∀ i, i ∈ l ↔ s.threads i = .select) ∧
    (w < e → (∀ i, s.threads i ≠ .select) ∧ ∃ i n f, s.threads i = .defers n f) := by
  have hb := books h hd
  obtain ⟨n, hn⟩ := hb.fin
  have h1 := hb.workers n hn
  have h2 := hb.signals n hn
  have hat := rests_at hr
  have hlt : ∀ i, s.threads i ≠ .none → i < n := fun i hi => Nat.lt_of_not_le (fun hle => hi (hn i hle))
  cases hc : s.cancel with
  | false =>
    have hsig : signal s = 0 := by unfold signal; rw [hc]; rfl
    have howe : total MuThread.owes s.threads n = 0 := by
      refine total_zero _ _ _ (fun i => ?_)
      rcases hat i with h | h | h | ⟨h, -⟩ | ⟨k, f, -, h⟩
      · rw [h]; rfl
      · rw [h]; rfl
      · rw [h]; rfl
      · rw [h]; rfl
      · rw [hc] at h; cases h
    obtain ⟨l, l1, l2, l3⟩ := total_list (fun y => decide (y = .select)) s.threads n
    have hsame : ∀ i, (s.threads i).works = (if (decide (s.threads i = .select)) = true then 1 else 0) := by
      intro i
      rcases hat i with h | h | h | ⟨h, -⟩ | ⟨k, f, -, h⟩
      · rw [h]; rfl
      · rw [h]; rfl
      · rw [h]; rfl
      · rw [h]; rfl
      · rw [hc] at h; cases h
    have hl : l.length = total MuThread.works s.threads n := by
      rw [l2]
      exact Nat.le_antisymm (total_le _ _ _ (fun i => Nat.le_of_eq (hsame i).symm) n) (total_le _ _ _ (fun i => Nat.le_of_eq (hsame i)) n)
    have l3' : ∀ i, i ∈ l ↔ s.threads i = .select := by
      intro i
      rw [l3, decide_eq_true_iff]
      exact ⟨fun h => h.2, fun h => ⟨hlt i (by rw [h]; simp), h⟩⟩
    refine ⟨⟨fun hg => ?_, fun he i => ?_⟩, fun hle => ⟨by omega, l, l1, by omega, l3'⟩, fun hlt => absurd hlt (by omega)⟩
    · have : total MuThread.works s.threads n = 0 := by
        refine total_zero _ _ _ (fun i => ?_)
        rcases hg i with h | h <;> rw [h] <;> rfl
      omega
    · rcases hat i with h | h | h | ⟨h, -⟩ | ⟨k, f, -, h⟩
      · exact .inl h
      · exact .inr h
      · exact absurd h (hd i)
      · have hm := (l3' i).2 h
        have : 0 < l.length := List.length_pos_of_mem hm
        omega
      · rw [hc] at h; cases h
  | true =>
    have hsig : signal s = 1 := by unfold signal; rw [hc]; rfl
    have hle : total MuThread.works s.threads n ≤ total MuThread.owes s.threads n := by
      refine total_le _ _ _ (fun i => ?_) n
      rcases hat i with h | h | h | ⟨-, h⟩ | ⟨k, f, h, -⟩
      · rw [h]; exact Nat.le_refl _
      · rw [h]; exact Nat.le_refl _
      · rw [h]; exact Nat.le_refl _
      · rw [hc] at h; cases h
      · rw [h]; simp [MuThread.works, MuThread.owes]
    obtain ⟨j, hj⟩ := hb.heard hc
    have hblocked : ∃ k f, s.threads j = .defers (k + 1) f := by
      rcases hat j with h | h | h | ⟨-, h⟩ | ⟨k, f, h, -⟩
      · rw [h] at hj; cases hj
      · rw [h] at hj; cases hj
      · rw [h] at hj; cases hj
      · rw [hc] at h; cases h
      · exact ⟨k, f, h⟩
    obtain ⟨k, f, hk⟩ := hblocked
    refine ⟨⟨fun hg => ?_, fun he => absurd he (by omega)⟩, fun h => absurd h (by omega), fun _ => ⟨fun i hi => ?_, j, _, _, hk⟩⟩
    · rcases hg j with h | h <;> rw [h] at hk <;> cases hk
    · rcases hat i with h | h | h | ⟨-, h⟩ | ⟨k, f, h, -⟩
      · rw [h] at hi; cases hi
      · rw [h] at hi; cases hi
      · rw [h] at hi; cases hi
      · rw [hc] at h; cases h
      · rw [h] at hi; cases hi

/-- No worker stops before the end was met, and never more workers than that. -/
theorem C101_stops (r : SectionReader) (cap : UInt16) (file : Bytes) (w e x : Nat) (s : MuState) (h : Spec.Tally (.init r cap file) w e x s)
    (hd : ∀ i, s.threads i ≠ .dead) : x ≤ e ∧ x ≤ w := by
  have hb := books h hd
  obtain ⟨n, hn⟩ := hb.fin
  have h1 := hb.workers n hn
  have h2 := hb.signals n hn
  omega

/-! ### Two requests and one acknowledgement -/

theorem Spec.Tally.next {s0 s t : MuState} {w e x : Nat} {p : Option Packet} (h : Spec.Tally s0 w e x s) (hs : MuStep s p t) : ∃ w' e' x', Spec.Tally s0 w' e' x' t := by
  have c : ∀ (P : Prop) (n : Nat), ∃ n', Spec.Counts P n n' := fun P n => by
    by_cases hp : P
    · exact ⟨n + 1, .inl ⟨hp, rfl⟩⟩
    · exact ⟨n, .inr ⟨hp, rfl⟩⟩
  obtain ⟨w', hw⟩ := c (Spec.WorkerBegins s t) w
  obtain ⟨e', he⟩ := c (Spec.MeetsEnd s t) e
  obtain ⟨x', hx⟩ := c (Spec.Stops s t) x
  exact ⟨w', e', x', h.step hs hw he hx⟩

theorem rests_of {s : MuState} (h : ∀ i, s.threads i = .none ∨ s.threads i = .exited ∨ s.threads i = .select) (hc : s.cancel = false) (hp : s.pending = 0) : Spec.Rests s := by
  intro p t i hs hne
  have key : ∀ j y, (s.threads j = .none ∨ i ≠ j) → (s.set j y).threads i ≠ s.threads i → s.threads i = .none := by
    intro j y hj hn
    by_cases he : i = j
    · rcases hj with hj | hj
      · rw [he]; exact hj
      · exact absurd he hj
    · exact absurd (MuState.set_other he) hn
  have no : ∀ j y, s.threads j = y → y ≠ .none → y ≠ .exited → y ≠ .select → False := by
    intro j y hj h1 h2 h3
    rcases h j with e | e | e <;> rw [hj] at e
    · exact h1 e
    · exact h2 e
    · exact h3 e
  cases hs with
  | edit new => exact absurd rfl hne
  | arrive => exact absurd rfl hne
  | kickstart j hash size hj => exact key j _ (.inl hj) hne
  | take j hj hq => rw [hp] at hq; exact absurd hq (by omega)
  | cancel j hj hq => rw [hc] at hq; cases hq
  | resetLoad j hash size hj => exact (no j _ hj (by simp) (by simp) (by simp)).elim
  | resetStore j hash size a hj => exact (no j _ hj (by simp) (by simp) (by simp)).elim
  | firstStep j hash size pc rd hj => exact (no j _ hj (by simp) (by simp) (by simp)).elim
  | firstDone j hash size o got err hj => exact (no j _ hj (by simp) (by simp) (by simp)).elim
  | firstFails j hash size o got hj => exact (no j _ hj (by simp) (by simp) (by simp)).elim
  | firstDies j hash size hj => exact (no j _ hj (by simp) (by simp) (by simp)).elim
  | sendFirst j hash size got hj => exact (no j _ hj (by simp) (by simp) (by simp)).elim
  | sendFirstFails j hash size got hj => exact (no j _ hj (by simp) (by simp) (by simp)).elim
  | firstLoad j hj => exact (no j _ hj (by simp) (by simp) (by simp)).elim
  | firstStore j c hj => exact (no j _ hj (by simp) (by simp) (by simp)).elim
  | takeLoad j hj => exact (no j _ hj (by simp) (by simp) (by simp)).elim
  | takeStore j c hj => exact (no j _ hj (by simp) (by simp) (by simp)).elim
  | more j ends hj => exact (no j _ hj (by simp) (by simp) (by simp)).elim
  | full j ends hj => exact (no j _ hj (by simp) (by simp) (by simp)).elim
  | readStep j ends pc rd hj => exact (no j _ hj (by simp) (by simp) (by simp)).elim
  | readDone j ends o got err hj => exact (no j _ hj (by simp) (by simp) (by simp)).elim
  | readFails j ends o got hj => exact (no j _ hj (by simp) (by simp) (by simp)).elim
  | readDies j ends hj => exact (no j _ hj (by simp) (by simp) (by simp)).elim
  | send j ends o got hj => exact (no j _ hj (by simp) (by simp) (by simp)).elim
  | sendFails j ends o got hj => exact (no j _ hj (by simp) (by simp) (by simp)).elim
  | sentLoad j ends hj => exact (no j _ hj (by simp) (by simp) (by simp)).elim
  | sentStore j ends c hj => exact (no j _ hj (by simp) (by simp) (by simp)).elim
  | terminate j left failed hj => exact (no j _ hj (by simp) (by simp) (by simp)).elim
  | ret j failed hj => exact (no j _ hj (by simp) (by simp) (by simp)).elim

/-- The state of an upload of an empty chunk with two workers and room for two packets. -/
def exPair (ws : UInt16) (pend : Nat) (cancel : Bool) (a b : MuThread) : MuState := ⟨⟨0, 0, 0⟩, ws, 2, pend, cancel, twoThreads a b, [], []⟩

/-- An upload reached by some steps. -/
def Tallied (s : MuState) : Prop := ∃ w e x, Spec.Tally (.init ⟨0, 0, 0⟩ 2 []) w e x s

theorem Tallied.next {s t : MuState} {p : Option Packet} (h : Tallied s) (hs : MuStep s p t) : Tallied t := by
  obtain ⟨w, e, x, h⟩ := h
  exact h.next hs

theorem Tallied.step0 {ws ws' : UInt16} {q q' : Nat} {k k' : Bool} {a a' b : MuThread} {p : Option Packet} (h : Tallied (exPair ws q k a b))
    (hs : MuStep (exPair ws q k a b) p { (exPair ws q k a b).set 0 a' with windowSize := ws', pending := q', cancel := k' }) : Tallied (exPair ws' q' k' a' b) := by
  have := h.next hs
  rw [twoThreads_set0 _ a b a' rfl] at this
  exact this

theorem Tallied.step1 {ws ws' : UInt16} {q q' : Nat} {k k' : Bool} {a b b' : MuThread} {p : Option Packet} (h : Tallied (exPair ws q k a b))
    (hs : MuStep (exPair ws q k a b) p { (exPair ws q k a b).set 1 b' with windowSize := ws', pending := q', cancel := k' }) : Tallied (exPair ws' q' k' a b') := by
  have := h.next hs
  rw [twoThreads_set1 _ a b b' rfl] at this
  exact this

/-- Two requests, one acknowledgement: the worker that takes it meets the end and gives the signal. -/
theorem exPair_signal : Tallied (exPair 2 0 true (.defers 0 false) .select) := by
  have e0 : MuState.init ⟨0, 0, 0⟩ 2 [] = exPair 0 0 false .none .none := by
    have : (fun _ => MuThread.none) = twoThreads .none .none := by funext j; simp [twoThreads]
    unfold MuState.init
    rw [this]; rfl
  have s0 : Tallied (exPair 0 0 false .none .none) := ⟨0, 0, 0, by rw [e0]; exact .refl⟩
  have a0 : Tallied (exPair 0 0 false (.reset .zero 0 .none) .none) := s0.step0 (.kickstart _ 0 .zero 0 rfl)
  have a1 : Tallied (exPair 0 0 false (.reset .zero 0 (some 0)) .none) := a0.step0 (.resetLoad _ 0 .zero 0 rfl)
  have a3 : Tallied (exPair 0 0 false (.first .zero 0 .seek) .none) := a1.step0 (.resetStore _ 0 .zero 0 0 rfl)
  have a4 : Tallied (exPair 0 0 false (.first .zero 0 (.seekStore 0)) .none) := a3.step0 (.firstStep _ 0 .zero 0 .seek .good rfl rfl)
  have a5 : Tallied (exPair 0 0 false (.first .zero 0 (.test 0)) .none) := a4.step0 (.firstStep _ 0 .zero 0 (.seekStore 0) .good rfl rfl)
  have a6 : Tallied (exPair 0 0 false (.first .zero 0 (.done 0 [] (some .eof))) .none) := a5.step0 (.firstStep _ 0 .zero 0 (.test 0) .good rfl rfl)
  have a7 : Tallied (exPair 0 0 false (.announce .zero 0 []) .none) := a6.step0 (.firstDone _ 0 .zero 0 0 [] _ rfl (by simp))
  have a8 : Tallied (exPair 0 0 false (.firstLoad) .none) := a7.step0 (.sendFirst _ 0 .zero 0 [] rfl)
  have a9 : Tallied (exPair 0 0 false (.firstStore 0) .none) := a8.step0 (.firstLoad _ 0 rfl)
  have s3 : Tallied (exPair 1 0 false .select .none) := a9.step0 (ws' := 0 + 1) (.firstStore _ 0 0 rfl)
  have b0 : Tallied (exPair 1 0 false .select (.reset .zero 0 .none)) := s3.step1 (.kickstart _ 1 .zero 0 rfl)
  have b1 : Tallied (exPair 1 0 false .select (.reset .zero 0 (some 0))) := b0.step1 (.resetLoad _ 1 .zero 0 rfl)
  have b3 : Tallied (exPair 1 0 false .select (.first .zero 0 .seek)) := b1.step1 (.resetStore _ 1 .zero 0 0 rfl)
  have b4 : Tallied (exPair 1 0 false .select (.first .zero 0 (.seekStore 0))) := b3.step1 (.firstStep _ 1 .zero 0 .seek .good rfl rfl)
  have b5 : Tallied (exPair 1 0 false .select (.first .zero 0 (.test 0))) := b4.step1 (.firstStep _ 1 .zero 0 (.seekStore 0) .good rfl rfl)
  have b6 : Tallied (exPair 1 0 false .select (.first .zero 0 (.done 0 [] (some .eof)))) := b5.step1 (.firstStep _ 1 .zero 0 (.test 0) .good rfl rfl)
  have b7 : Tallied (exPair 1 0 false .select (.announce .zero 0 [])) := b6.step1 (.firstDone _ 1 .zero 0 0 [] _ rfl (by simp))
  have b8 : Tallied (exPair 1 0 false .select (.firstLoad)) := b7.step1 (.sendFirst _ 1 .zero 0 [] rfl)
  have b9 : Tallied (exPair 1 0 false .select (.firstStore 1)) := b8.step1 (.firstLoad _ 1 rfl)
  have s6 : Tallied (exPair 2 0 false .select .select) := b9.step1 (ws' := 1 + 1) (.firstStore _ 1 1 rfl)
  have s7 : Tallied (exPair 2 1 false .select .select) := s6.next (.arrive _)
  have c1 : Tallied (exPair 2 0 false .takeLoad .select) := s7.step0 (q' := 1 - 1) (.take _ 0 rfl (Nat.zero_lt_succ _))
  have c2 : Tallied (exPair 2 0 false (.takeStore 2) .select) := c1.step0 (.takeLoad _ 0 rfl)
  have s8 : Tallied (exPair 1 0 false (.loop 0) .select) := c2.step0 (ws' := 2 - 1) (.takeStore _ 0 2 rfl)
  have d1 : Tallied (exPair 1 0 false (.reading 0 .seek) .select) := s8.step0 (.more _ 0 0 rfl (by decide))
  have d2 : Tallied (exPair 1 0 false (.reading 0 (.seekStore 0)) .select) := d1.step0 (.readStep _ 0 0 .seek .good rfl rfl)
  have d3 : Tallied (exPair 1 0 false (.reading 0 (.test 0)) .select) := d2.step0 (.readStep _ 0 0 (.seekStore 0) .good rfl rfl)
  have d4 : Tallied (exPair 1 0 false (.reading 0 (.done 0 [] (some .eof))) .select) := d3.step0 (.readStep _ 0 0 (.test 0) .good rfl rfl)
  have s11 : Tallied (exPair 1 0 false (.sending 1 0 []) .select) := d4.step0 (.readDone _ 0 0 0 [] (some .eof) rfl (by simp))
  have f1 : Tallied (exPair 1 0 false (.sentLoad 1) .select) := s11.step0 (.send _ 0 1 0 [] rfl)
  have f2 : Tallied (exPair 1 0 false (.sentStore 1 1) .select) := f1.step0 (.sentLoad _ 0 1 rfl)
  have s12 : Tallied (exPair 2 0 false (.loop 1) .select) := f2.step0 (ws' := 1 + 1) (.sentStore _ 0 1 1 rfl)
  have s13 : Tallied (exPair 2 0 false (.defers 1 false) .select) := s12.step0 (.full _ 0 1 rfl (by decide))
  exact s13.step0 (k' := true) (.terminate _ 0 0 false rfl rfl)

theorem exPair_threads {ws : UInt16} {q : Nat} {k : Bool} {a b : MuThread} (i : Nat) : (exPair ws q k a b).threads i = a ∨ (exPair ws q k a b).threads i = b ∨
    (exPair ws q k a b).threads i = .none := by
  show twoThreads a b i = a ∨ _
  unfold twoThreads
  split
  · exact .inl rfl
  split
  · refine .inr (.inl ?_); simp [exPair, twoThreads, *]
  · refine .inr (.inr ?_); simp [exPair, twoThreads, *]

/-- **C101 as stated does not hold**: two requests for the same (empty) chunk and one acknowledgement; one worker gives the signal, the other one takes it, and the first
waits for ever. -/
theorem C101_refuted : ¬ C101_statement := by
  intro h
  obtain ⟨w, e, x, h1⟩ := exPair_signal
  have hst : Spec.Stops (exPair 2 0 true (.defers 0 false) .select) (exPair 2 0 false (.defers 0 false) .exited) :=
    ⟨fun he => (by have := congrFun he 1; cases this), 1, rfl, rfl⟩
  have hstep : MuStep (exPair 2 0 true (.defers 0 false) .select) none (exPair 2 0 false (.defers 0 false) .exited) := by
    have := MuStep.cancel (exPair 2 0 true (.defers 0 false) .select) 1 rfl rfl
    rw [twoThreads_set1 _ (.defers 0 false) .select .exited rfl] at this
    exact this
  have hb : ¬ Spec.WorkerBegins (exPair 2 0 true (.defers 0 false) .select) (exPair 2 0 false (.defers 0 false) .exited) := by
    rintro ⟨i, a, h2, -⟩
    rcases exPair_threads (ws := 2) (q := 0) (k := true) (a := .defers 0 false) (b := .select) i with h | h | h <;> rw [h] at h2 <;> cases h2
  have hm : ¬ Spec.MeetsEnd (exPair 2 0 true (.defers 0 false) .select) (exPair 2 0 false (.defers 0 false) .exited) := by
    rintro ⟨i, a, b, c, h2, -⟩
    rcases exPair_threads (ws := 2) (q := 0) (k := true) (a := .defers 0 false) (b := .select) i with h | h | h <;> rw [h] at h2 <;> cases h2
  have h2 := h1.step hstep (.inr ⟨hb, rfl⟩) (.inr ⟨hm, rfl⟩) (.inl ⟨hst, rfl⟩)
  have hpos : 0 < e := by
    have := (C101_stops _ _ _ _ _ _ _ h2 (fun i hi => by
      rcases exPair_threads (ws := 2) (q := 0) (k := false) (a := .defers 0 false) (b := .exited) i with h | h | h <;> rw [h] at hi <;> cases hi)).1
    omega
  have hret : MuStep (exPair 2 0 false (.defers 0 false) .exited) none (exPair 2 0 false .select .exited) := by
    have := MuStep.ret (exPair 2 0 false (.defers 0 false) .exited) 0 false rfl
    rw [twoThreads_set0 _ (.defers 0 false) .exited _ rfl] at this
    exact this
  have hm' : ¬ Spec.MeetsEnd (exPair 2 0 false (.defers 0 false) .exited) (exPair 2 0 false .select .exited) := by
    rintro ⟨i, a, b, c, h2, -⟩
    rcases exPair_threads (ws := 2) (q := 0) (k := false) (a := .defers 0 false) (b := .exited) i with h | h | h <;> rw [h] at h2 <;> cases h2
  have h3 : ∃ w' x', Spec.Tally (.init ⟨0, 0, 0⟩ 2 []) w' e x' (exPair 2 0 false .select .exited) := by
    have c : ∀ (P : Prop) (n : Nat), ∃ n', Spec.Counts P n n' := fun P n => by
      by_cases hp : P
      · exact ⟨n + 1, .inl ⟨hp, rfl⟩⟩
      · exact ⟨n, .inr ⟨hp, rfl⟩⟩
    obtain ⟨w', hw⟩ := c (Spec.WorkerBegins (exPair 2 0 false (.defers 0 false) .exited) (exPair 2 0 false .select .exited)) w
    obtain ⟨x', hx⟩ := c (Spec.Stops (exPair 2 0 false (.defers 0 false) .exited) (exPair 2 0 false .select .exited)) (x + 1)
    exact ⟨w', x', h2.step hret hw (.inr ⟨hm', rfl⟩) hx⟩
  obtain ⟨w', x', h3⟩ := h3
  have hth := exPair_threads (ws := 2) (q := 0) (k := false) (a := .select) (b := .exited)
  have hrest : Spec.Rests (exPair 2 0 false .select .exited) := rests_of (fun i => by
    rcases hth i with h | h | h
    · exact .inr (.inr h)
    · exact .inr (.inl h)
    · exact .inl h) rfl rfl
  rcases h _ _ _ _ _ _ _ h3 (fun i hi => by rcases hth i with h | h | h <;> rw [h] at hi <;> cases hi) hrest hpos 0 with h4 | h4
  · cases h4
  · cases h4

end Flu
