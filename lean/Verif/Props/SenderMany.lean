import Verif.Spec.Stream
import Verif.Model.SenderMany
/-!
# C85: packets carry the bytes of the file at the offset they name
-/
namespace Flu

theorem MuState.set_self (s : MuState) (i : Nat) (x : MuThread) : (s.set i x).threads i = x := by simp [MuState.set]
theorem MuState.set_other {s : MuState} {i j : Nat} {x : MuThread} (h : j ≠ i) : (s.set i x).threads j = s.threads j := by simp [MuState.set, h]

theorem fromFile_more {vs : List Bytes} {pos : Nat} {d v : Bytes} (h : Spec.FromFile vs pos d) : Spec.FromFile (v :: vs) pos d := by
  obtain ⟨w, hw, hd⟩ := h
  exact ⟨w, List.mem_cons_of_mem _ hw, hd⟩

theorem stream_more {vs : List Bytes} {base pos : Nat} {ps : List Packet} {v : Bytes} (h : Spec.Stream vs base ps pos) : Spec.Stream (v :: vs) base ps pos := by
  induction h with
  | nil => exact .nil
  | first h hash size d hd ih => exact .first ih hash size d (fromFile_more hd)
  | next h o d ho hd ih => exact .next ih o d ho (fromFile_more hd)

/-- What holds of the only goroutine at work while it is in `Read`, which began at `pos`. -/
def RdOk (versions : List Bytes) (base off pos : Nat) : RdPc → Prop
  | .seek => off = base + pos
  | .seekStore a => off = base + pos ∧ a = base + pos
  | .test o | .clip o | .fetch o _ => off = base + pos ∧ o.toNat = pos
  | .add o got _ => off = base + pos ∧ o.toNat = pos ∧ Spec.FromFile versions (base + pos) got
  | .addStore o got _ a => a = base + pos ∧ o.toNat = pos ∧ Spec.FromFile versions (base + pos) got
  | .done o got _ => off = base + pos + got.length ∧ o.toNat = pos ∧ Spec.FromFile versions (base + pos) got
  | .panicked => True

theorem RdOk.more {vs : List Bytes} {base off pos : Nat} {pc : RdPc} {v : Bytes} (h : RdOk vs base off pos pc) : RdOk (v :: vs) base off pos pc := by
  cases pc with
  | add => exact ⟨h.1, h.2.1, fromFile_more h.2.2⟩
  | addStore => exact ⟨h.1, h.2.1, fromFile_more h.2.2⟩
  | done => exact ⟨h.1, h.2.1, fromFile_more h.2.2⟩
  | _ => exact h

theorem RdOk.next {r : SectionReader} {now : Bytes} {before : List Bytes} {pos : Nat} {pc : RdPc} (h : RdOk (now :: before) r.base r.off pos pc) (n : Nat) (rd : AtChoice) :
    RdOk (now :: before) r.base (pc.next r now n rd).2 pos (pc.next r now n rd).1 := by
  cases pc with
  | seek => exact ⟨h, h⟩
  | seekStore a =>
    obtain ⟨h1, rfl⟩ := h
    simp only [RdPc.next]
    rw [if_neg (by omega), Nat.add_sub_cancel_left]
    by_cases h3 : 4294967295 < pos
    · rw [if_pos h3]; trivial
    · rw [if_neg h3]
      refine ⟨rfl, ?_⟩
      rw [UInt32.toNat_ofNat']
      omega
  | test o =>
    simp only [RdPc.next]
    split
    · exact ⟨h.1, h.2, now, .head _, List.nil_prefix⟩
    · exact h
  | clip o =>
    simp only [RdPc.next]
    split
    · trivial
    · exact h
  | fetch o want =>
    refine ⟨h.1, h.2, now, .head _, ?_⟩
    rw [← h.1]
    cases rd with
    | good => exact List.take_prefix _ _
    | fail k => exact List.take_prefix _ _
  | add o got err => exact ⟨h.1, h.2.1, h.2.2⟩
  | addStore o got err a => exact ⟨by rw [← h.1]; rfl, h.2.1, h.2.2⟩
  | done o got err => exact h
  | panicked => trivial

/-- What holds of the only goroutine that is at work. -/
def MuOk (s : MuState) (ps : List Packet) : MuThread → Prop
  | .none | .exited | .dead | .defers _ true => ∃ pos, Spec.Stream (s.now :: s.before) s.reader.base ps pos
  | .reset _ _ .none => s.reader.off = s.reader.base ∧ ∃ pos, Spec.Stream (s.now :: s.before) s.reader.base ps pos
  | .reset _ _ (some a) => (s.reader.off = s.reader.base ∧ a = s.reader.base) ∧ ∃ pos, Spec.Stream (s.now :: s.before) s.reader.base ps pos
  | .first _ _ pc => RdOk (s.now :: s.before) s.reader.base s.reader.off 0 pc ∧ ∃ pos, Spec.Stream (s.now :: s.before) s.reader.base ps pos
  | .announce _ _ got => Spec.FromFile (s.now :: s.before) s.reader.base got ∧ s.reader.off = s.reader.base + got.length ∧
      ∃ pos, Spec.Stream (s.now :: s.before) s.reader.base ps pos
  | .firstLoad | .firstStore _ | .select | .takeLoad | .takeStore _ | .loop _ | .sentLoad _ | .sentStore _ _ | .defers _ false =>
      ∃ pos, Spec.Stream (s.now :: s.before) s.reader.base ps pos ∧ s.reader.off = s.reader.base + pos
  | .reading _ pc => ∃ pos, Spec.Stream (s.now :: s.before) s.reader.base ps pos ∧ RdOk (s.now :: s.before) s.reader.base s.reader.off pos pc
  | .sending _ o got => ∃ pos, Spec.Stream (s.now :: s.before) s.reader.base ps pos ∧ s.reader.off = s.reader.base + pos + got.length ∧ o.toNat = pos ∧
      Spec.FromFile (s.now :: s.before) (s.reader.base + pos) got

theorem MuOk.stream {s : MuState} {ps : List Packet} {x : MuThread} (h : MuOk s ps x) : ∃ pos, Spec.Stream (s.now :: s.before) s.reader.base ps pos := by
  cases x with
  | none => exact h
  | exited => exact h
  | dead => exact h
  | defers n failed => cases failed with
    | true => exact h
    | false => obtain ⟨pos, h, -⟩ := h; exact ⟨pos, h⟩
  | reset _ _ a => cases a <;> exact h.2
  | first => exact h.2
  | announce => exact h.2.2
  | _ => obtain ⟨pos, h, -⟩ := h; exact ⟨pos, h⟩

theorem MuOk.edit {s : MuState} {ps : List Packet} {x : MuThread} (h : MuOk s ps x) (new : Bytes) : MuOk { s with now := new, before := s.now :: s.before } ps x := by
  cases x with
  | none => obtain ⟨pos, h⟩ := h; exact ⟨pos, stream_more h⟩
  | exited => obtain ⟨pos, h⟩ := h; exact ⟨pos, stream_more h⟩
  | dead => obtain ⟨pos, h⟩ := h; exact ⟨pos, stream_more h⟩
  | defers n failed =>
    cases failed with
    | true => obtain ⟨pos, h⟩ := h; exact ⟨pos, stream_more h⟩
    | false => obtain ⟨pos, h, ho⟩ := h; exact ⟨pos, stream_more h, ho⟩
  | reset _ _ a => cases a <;> (obtain ⟨ho, pos, h⟩ := h; exact ⟨ho, pos, stream_more h⟩)
  | first => obtain ⟨ho, pos, h⟩ := h; exact ⟨ho.more, pos, stream_more h⟩
  | announce => obtain ⟨hd, ho, pos, h⟩ := h; exact ⟨fromFile_more hd, ho, pos, stream_more h⟩
  | reading => obtain ⟨pos, h, ho⟩ := h; exact ⟨pos, stream_more h, ho.more⟩
  | sending => obtain ⟨pos, h, ho, h1, h2⟩ := h; exact ⟨pos, stream_more h, ho, h1, fromFile_more h2⟩
  | _ => obtain ⟨pos, h, ho⟩ := h; exact ⟨pos, stream_more h, ho⟩

/-- At most one goroutine is at work, and it is where it should be. -/
def MuInv (s : MuState) (ps : List Packet) : Prop := ∃ i, (∀ j, j ≠ i → (s.threads j).idle = true) ∧ MuOk s ps (s.threads i)

/-- Steps in which a request is handled only when the goroutines of earlier requests from the same address have ended. -/
inductive SeqRun (s0 : MuState) : List Packet → MuState → Prop where
  | refl : SeqRun s0 [] s0
  | quiet {s t : MuState} {ps : List Packet} (h : SeqRun s0 ps s) (hs : MuStep s .none t)
      (hq : ∀ i, s.threads i = .none → t.threads i ≠ .none → ∀ j, j ≠ i → (s.threads j).idle = true) : SeqRun s0 ps t
  | sent {s t : MuState} {ps : List Packet} {p : Packet} (h : SeqRun s0 ps s) (hs : MuStep s (some p) t) : SeqRun s0 (ps ++ [p]) t

theorem mu_step {s t : MuState} {ps : List Packet} {e : Option Packet} (h : MuInv s ps) (hs : MuStep s e t)
    (hq : ∀ i, s.threads i = .none → t.threads i ≠ .none → ∀ j, j ≠ i → (s.threads j).idle = true) :
    MuInv t (match (e : Option Packet) with | none => ps | some p => ps ++ [p]) ∧ t.reader.base = s.reader.base := by
  obtain ⟨a, hid, hok⟩ := h
  have act : ∀ {i : Nat} {x : MuThread}, s.threads i = x → x.idle = false → i = a := by
    intro i x hx hi
    apply Classical.byContradiction
    intro hne
    have := hid i hne
    rw [hx, hi] at this
    cases this
  have oth : ∀ (x : MuThread) (j : Nat), j ≠ a → ((s.set a x).threads j).idle = true := by
    intro x j hj
    rw [MuState.set_other hj]
    exact hid j hj
  cases hs with
  | edit new => exact ⟨⟨a, hid, hok.edit new⟩, rfl⟩
  | arrive => exact ⟨⟨a, hid, hok⟩, rfl⟩
  | kickstart i hash size hi =>
    obtain ⟨pos, hst⟩ := hok.stream
    refine ⟨⟨i, fun j hj => ?_, ?_⟩, rfl⟩
    · show ((s.set i _).threads j).idle = true
      rw [MuState.set_other hj]
      refine hq i hi ?_ j hj
      show (s.set i (.reset hash size .none)).threads i ≠ _
      rw [MuState.set_self]
      exact fun h => by cases h
    · show MuOk _ ps ((s.set i (.reset hash size .none)).threads i)
      rw [MuState.set_self]
      exact ⟨rfl, pos, hst⟩
  | resetLoad i hash size hi =>
    obtain rfl := act hi rfl
    rw [hi] at hok
    refine ⟨⟨i, oth _, ?_⟩, rfl⟩
    rw [MuState.set_self]
    exact ⟨⟨hok.1, hok.1⟩, hok.2⟩
  | resetStore i hash size a hi =>
    obtain rfl := act hi rfl
    rw [hi] at hok
    refine ⟨⟨i, oth _, ?_⟩, rfl⟩
    show MuOk _ ps ((s.set i _).threads i)
    rw [MuState.set_self]
    have hn := RdOk.next (r := s.reader) (now := s.now) (before := s.before) (pos := 0) (pc := .seekStore a) hok.1 0 .good
    by_cases h1 : (RdPc.next s.reader s.now 0 .good (.seekStore a)).1 = .panicked
    · rw [if_pos h1]; exact hok.2
    · rw [if_neg h1]
      refine ⟨?_, hok.2⟩
      show (RdPc.next s.reader s.now 0 .good (.seekStore a)).2 = _
      revert hn h1
      simp only [RdPc.next]
      split
      · exact fun _ h => absurd rfl h
      · split
        · exact fun _ h => absurd rfl h
        · exact fun h _ => h.1
  | firstStep i hash size pc rd hi hp =>
    obtain rfl := act hi rfl
    rw [hi] at hok
    refine ⟨⟨i, oth _, ?_⟩, rfl⟩
    show MuOk _ ps ((s.set i _).threads i)
    rw [MuState.set_self]
    exact ⟨hok.1.next 1000 rd, hok.2⟩
  | firstDone i hash size o got err hi he =>
    obtain rfl := act hi rfl
    rw [hi] at hok
    refine ⟨⟨i, oth _, ?_⟩, rfl⟩
    rw [MuState.set_self]
    exact ⟨hok.1.2.2, hok.1.1, hok.2⟩
  | firstFails i hash size o got hi =>
    obtain rfl := act hi rfl
    refine ⟨⟨i, oth _, ?_⟩, rfl⟩
    rw [MuState.set_self]
    exact hok.stream
  | firstDies i hash size hi =>
    obtain rfl := act hi rfl
    refine ⟨⟨i, oth _, ?_⟩, rfl⟩
    rw [MuState.set_self]
    exact hok.stream
  | sendFirst i hash size got hi =>
    obtain rfl := act hi rfl
    rw [hi] at hok
    obtain ⟨hd, ho, pos, hst⟩ := hok
    refine ⟨⟨i, oth _, ?_⟩, rfl⟩
    show MuOk _ _ ((s.set i .firstLoad).threads i)
    rw [MuState.set_self]
    exact ⟨got.length, .first hst hash _ got hd, ho⟩
  | sendFirstFails i hash size got hi =>
    obtain rfl := act hi rfl
    refine ⟨⟨i, oth _, ?_⟩, rfl⟩
    rw [MuState.set_self]
    exact hok.stream
  | firstLoad i hi =>
    obtain rfl := act hi rfl
    rw [hi] at hok
    refine ⟨⟨i, oth _, ?_⟩, rfl⟩
    rw [MuState.set_self]
    exact hok
  | firstStore i w hi =>
    obtain rfl := act hi rfl
    rw [hi] at hok
    refine ⟨⟨i, oth _, ?_⟩, rfl⟩
    show MuOk _ _ ((s.set i .select).threads i)
    rw [MuState.set_self]
    exact hok
  | take i hi hp =>
    obtain rfl := act hi rfl
    rw [hi] at hok
    refine ⟨⟨i, oth _, ?_⟩, rfl⟩
    show MuOk _ _ ((s.set i .takeLoad).threads i)
    rw [MuState.set_self]
    exact hok
  | takeLoad i hi =>
    obtain rfl := act hi rfl
    rw [hi] at hok
    refine ⟨⟨i, oth _, ?_⟩, rfl⟩
    rw [MuState.set_self]
    exact hok
  | takeStore i w hi =>
    obtain rfl := act hi rfl
    rw [hi] at hok
    refine ⟨⟨i, oth _, ?_⟩, rfl⟩
    show MuOk _ _ ((s.set i (.loop 0)).threads i)
    rw [MuState.set_self]
    exact hok
  | cancel i hi hc =>
    obtain rfl := act hi rfl
    refine ⟨⟨i, oth _, ?_⟩, rfl⟩
    show MuOk _ _ ((s.set i .exited).threads i)
    rw [MuState.set_self]
    exact hok.stream
  | more i ends hi hw =>
    obtain rfl := act hi rfl
    rw [hi] at hok
    refine ⟨⟨i, oth _, ?_⟩, rfl⟩
    rw [MuState.set_self]
    exact hok
  | full i ends hi hw =>
    obtain rfl := act hi rfl
    rw [hi] at hok
    refine ⟨⟨i, oth _, ?_⟩, rfl⟩
    rw [MuState.set_self]
    exact hok
  | readStep i ends pc rd hi hp =>
    obtain rfl := act hi rfl
    rw [hi] at hok
    obtain ⟨pos, hst, hrd⟩ := hok
    refine ⟨⟨i, oth _, ?_⟩, rfl⟩
    show MuOk _ ps ((s.set i _).threads i)
    rw [MuState.set_self]
    exact ⟨pos, hst, hrd.next 1024 rd⟩
  | readDone i ends o got err hi he =>
    obtain rfl := act hi rfl
    rw [hi] at hok
    obtain ⟨pos, hst, hrd⟩ := hok
    refine ⟨⟨i, oth _, ?_⟩, rfl⟩
    rw [MuState.set_self]
    exact ⟨pos, hst, hrd⟩
  | readFails i ends o got hi =>
    obtain rfl := act hi rfl
    refine ⟨⟨i, oth _, ?_⟩, rfl⟩
    rw [MuState.set_self]
    exact hok.stream
  | readDies i ends hi =>
    obtain rfl := act hi rfl
    refine ⟨⟨i, oth _, ?_⟩, rfl⟩
    rw [MuState.set_self]
    exact hok.stream
  | send i ends o got hi =>
    obtain rfl := act hi rfl
    rw [hi] at hok
    obtain ⟨pos, hst, hp, hop, hd⟩ := hok
    refine ⟨⟨i, oth _, ?_⟩, rfl⟩
    show MuOk _ _ ((s.set i (.sentLoad ends)).threads i)
    rw [MuState.set_self]
    exact ⟨pos + got.length, .next hst o got hop hd, by show s.reader.off = _; rw [hp]; exact Nat.add_assoc _ _ _⟩
  | sendFails i ends o got hi =>
    obtain rfl := act hi rfl
    refine ⟨⟨i, oth _, ?_⟩, rfl⟩
    rw [MuState.set_self]
    exact hok.stream
  | sentLoad i ends hi =>
    obtain rfl := act hi rfl
    rw [hi] at hok
    refine ⟨⟨i, oth _, ?_⟩, rfl⟩
    rw [MuState.set_self]
    exact hok
  | sentStore i ends w hi =>
    obtain rfl := act hi rfl
    rw [hi] at hok
    refine ⟨⟨i, oth _, ?_⟩, rfl⟩
    show MuOk _ _ ((s.set i (.loop ends)).threads i)
    rw [MuState.set_self]
    exact hok
  | terminate i left failed hi hc =>
    obtain rfl := act hi rfl
    rw [hi] at hok
    refine ⟨⟨i, oth _, ?_⟩, rfl⟩
    show MuOk _ _ ((s.set i (.defers left failed)).threads i)
    rw [MuState.set_self]
    cases failed <;> exact hok
  | ret i failed hi =>
    obtain rfl := act hi rfl
    rw [hi] at hok
    refine ⟨⟨i, oth _, ?_⟩, rfl⟩
    rw [MuState.set_self]
    cases failed <;> exact hok

theorem seq_inv {r : SectionReader} {cap : UInt16} {file : Bytes} {ps : List Packet} {s : MuState} (h : SeqRun (.init r cap file) ps s) :
    MuInv s ps ∧ s.reader.base = r.base := by
  induction h with
  | refl => exact ⟨⟨0, fun j _ => rfl, 0, .nil⟩, rfl⟩
  | quiet h hs hq ih =>
    obtain ⟨h1, h2⟩ := mu_step ih.1 hs hq
    exact ⟨h1, h2.trans ih.2⟩
  | @sent s t ps p h hs ih =>
    obtain ⟨h1, h2⟩ := mu_step ih.1 hs (by
      intro i hi hti
      exfalso
      apply hti
      cases hs with
      | sendFirst k hash size got hk =>
        show (s.set k _).threads i = _
        have : i ≠ k := by rintro rfl; rw [hk] at hi; cases hi
        rw [MuState.set_other this]; exact hi
      | send k ends o got hk =>
        show (s.set k _).threads i = _
        have : i ≠ k := by rintro rfl; rw [hk] at hi; cases hi
        rw [MuState.set_other this]; exact hi)
    exact ⟨h1, h2.trans ih.2⟩

/-- **C85, as one would like it.**  Every packet carries what it says, whatever requests and acknowledgements arrive. -/
def C85_statement : Prop := ∀ (r : SectionReader) (cap : UInt16) (file : Bytes) (ps : List Packet) (s : MuState), MuRun (.init r cap file) ps s →
  ∀ p ∈ ps, Spec.Honest (s.now :: s.before) r.base p

/-- **C85, the part that holds.**  If a request from an address arrives only when the goroutines of the earlier ones from there have ended, then — even if the file is being changed — the
packets are announcements with the first bytes of the chunk, each followed by pieces of the file that begin where the one before ended, every one as the file was at some
moment of the upload.  Missing: requests that arrive earlier, for example because the network duplicated one. -/
theorem C85_partial (r : SectionReader) (cap : UInt16) (file : Bytes) (ps : List Packet) (s : MuState) (h : SeqRun (.init r cap file) ps s) :
    ∃ pos, Spec.Stream (s.now :: s.before) r.base ps pos := by
  obtain ⟨⟨i, -, hok⟩, hb⟩ := seq_inv h
  rw [← hb]
  exact hok.stream

theorem stream_honest {vs : List Bytes} {base pos : Nat} {ps : List Packet} (h : Spec.Stream vs base ps pos) : ∀ p ∈ ps, Spec.Honest vs base p := by
  induction h with
  | nil => exact fun p hp => by cases hp
  | first h hash size d hd ih =>
    intro p hp
    rcases List.mem_append.1 hp with hp | hp
    · exact ih p hp
    · rw [List.mem_singleton.1 hp]
      exact .inl ⟨rfl, hash, size, d, rfl, hd⟩
  | next h o d ho hd ih =>
    intro p hp
    rcases List.mem_append.1 hp with hp | hp
    · exact ih p hp
    · rw [List.mem_singleton.1 hp]
      exact .inr (by rw [ho]; exact hd)

/-- In particular every packet carries what it says. -/
theorem C85_honest_partial (r : SectionReader) (cap : UInt16) (file : Bytes) (ps : List Packet) (s : MuState) (h : SeqRun (.init r cap file) ps s) :
    ∀ p ∈ ps, Spec.Honest (s.now :: s.before) r.base p := by
  obtain ⟨pos, h⟩ := C85_partial r cap file ps s h
  exact stream_honest h

/-! ### Two requests -/

/-- Two goroutines. -/
def twoThreads (a b : MuThread) : Nat → MuThread := fun j => if j = 0 then a else if j = 1 then b else .none

theorem twoThreads_set0 (s : MuState) (a b x : MuThread) (h : s.threads = twoThreads a b) : s.set 0 x = { s with threads := twoThreads x b } := by
  unfold MuState.set
  congr 1
  funext j
  rw [h]
  by_cases hj : j = 0 <;> simp [twoThreads, hj]

theorem twoThreads_set1 (s : MuState) (a b x : MuThread) (h : s.threads = twoThreads a b) : s.set 1 x = { s with threads := twoThreads a x } := by
  unfold MuState.set
  congr 1
  funext j
  rw [h]
  by_cases hj : j = 1 <;> simp [twoThreads, hj]

/-- One access to the position by a read inside the section. -/
theorem next_seek (base off limit n : Nat) (now : Bytes) : RdPc.next ⟨base, off, limit⟩ now n .good .seek = (.seekStore off, off) := rfl
theorem next_seekStore (off p limit n : Nat) (now : Bytes) (h : p ≤ 4294967295) : RdPc.next ⟨0, off, limit⟩ now n .good (.seekStore p) = (.test (UInt32.ofNat p), p) := by
  simp only [RdPc.next]
  rw [if_neg (by omega), if_neg (by omega), Nat.sub_zero]
theorem next_test (base off limit n : Nat) (now : Bytes) (o : UInt32) (h : off < limit) : RdPc.next ⟨base, off, limit⟩ now n .good (.test o) = (.clip o, off) := by
  simp only [RdPc.next]
  rw [if_neg (by omega)]
theorem next_clip (base off limit n : Nat) (now : Bytes) (o : UInt32) (h : off + n ≤ limit) : RdPc.next ⟨base, off, limit⟩ now n .good (.clip o) = (.fetch o n, off) := by
  simp only [RdPc.next]
  rw [if_neg (by omega), Nat.min_eq_left (by omega)]
theorem next_fetch (base off limit n : Nat) (now : Bytes) (o : UInt32) (h : off + n ≤ now.length) :
    RdPc.next ⟨base, off, limit⟩ now n .good (.fetch o n) = (.add o ((now.drop off).take n) none, off) := by
  have : ((now.drop off).take n).length = n := by simp; omega
  simp only [RdPc.next, osReadAt, this]
  rw [if_neg (by omega)]
theorem next_add (base off limit n : Nat) (now got : Bytes) (o : UInt32) (err : Option ReadErr) :
    RdPc.next ⟨base, off, limit⟩ now n .good (.add o got err) = (.addStore o got err off, off) := rfl
theorem next_addStore (base off limit n a : Nat) (now got : Bytes) (o : UInt32) (err : Option ReadErr) :
    RdPc.next ⟨base, off, limit⟩ now n .good (.addStore o got err a) = (.done o got err, a + got.length) := rfl

/-- An upload that two goroutines work on. -/
def pairState (limit : Nat) (cap : UInt16) (file : Bytes) (off : Nat) (ws : UInt16) (pend : Nat) (a b : MuThread) : MuState :=
  ⟨⟨0, off, limit⟩, ws, cap, pend, false, twoThreads a b, file, []⟩

section
variable {limit : Nat} {cap : UInt16} {file : Bytes} {off off' p : Nat} {ws ws' : UInt16} {q q' : Nat} {a a' b b' : MuThread} {ends : Nat} {o : UInt32}

/-- The steps of the first goroutine, as steps of the pair. -/
theorem pair0 {t : MuState} {e : Option Packet} (hs : MuStep (pairState limit cap file off ws q a b) e t)
    (ht : t = { (pairState limit cap file off ws q a b).set 0 a' with reader := ⟨0, off', limit⟩, windowSize := ws', pending := q' }) :
    MuStep (pairState limit cap file off ws q a b) e (pairState limit cap file off' ws' q' a' b) := by
  rw [twoThreads_set0 _ a b a' rfl] at ht
  rwa [ht] at hs
theorem pair1 {t : MuState} {e : Option Packet} (hs : MuStep (pairState limit cap file off ws q a b) e t)
    (ht : t = { (pairState limit cap file off ws q a b).set 1 b' with reader := ⟨0, off', limit⟩, windowSize := ws', pending := q' }) :
    MuStep (pairState limit cap file off ws q a b) e (pairState limit cap file off' ws' q' a b') := by
  rw [twoThreads_set1 _ a b b' rfl] at ht
  rwa [ht] at hs

/-- A read from the disk or a write to the socket fails, as one goroutine sees it. -/
def Spec.FailsAt : MuThread → MuThread → Prop
  | .reading _ (.fetch _ _), .reading _ (.add _ _ (some .other)) => True
  | .first _ _ (.fetch _ _), .first _ _ (.add _ _ (some .other)) => True
  | .announce _ _ _, .exited => True
  | .sending _ _ _, .defers _ true => True
  | _, _ => False

/-- No read from the disk and no write to the socket fails. -/
def Spec.Sound (s t : MuState) : Prop := ∀ i, ¬ Spec.FailsAt (s.threads i) (t.threads i)

theorem failsAt_self (x : MuThread) : ¬ Spec.FailsAt x x := by
  unfold Spec.FailsAt
  split <;> simp_all

/-- Steps with which nothing is sent, no acknowledgement arrives and no request arrives. -/
inductive Quietly : MuState → MuState → Prop
  | refl (s : MuState) : Quietly s s
  | step {s t u : MuState} (h : Quietly s t) (hs : MuStep t .none u) (hq : u.pending ≤ t.pending) (ht : ∀ i, t.threads i = .none → u.threads i = .none)
      (hf : Spec.Sound t u) : Quietly s u

theorem sound0 (hf : ¬ Spec.FailsAt a a') : Spec.Sound (pairState limit cap file off ws q a b) (pairState limit cap file off' ws' q' a' b) := by
  intro i
  show ¬ Spec.FailsAt (twoThreads a b i) (twoThreads a' b i)
  unfold twoThreads
  by_cases h0 : i = 0
  · rw [if_pos h0, if_pos h0]; exact hf
  · rw [if_neg h0, if_neg h0]; exact failsAt_self _
theorem sound1 (hf : ¬ Spec.FailsAt b b') : Spec.Sound (pairState limit cap file off ws q a b) (pairState limit cap file off' ws' q' a b') := by
  intro i
  show ¬ Spec.FailsAt (twoThreads a b i) (twoThreads a b' i)
  unfold twoThreads
  by_cases h0 : i = 0
  · rw [if_pos h0, if_pos h0]; exact failsAt_self _
  · rw [if_neg h0, if_neg h0]
    by_cases h1 : i = 1
    · rw [if_pos h1, if_pos h1]; exact hf
    · rw [if_neg h1, if_neg h1]; exact failsAt_self _

theorem Quietly.next0 {s : MuState} (h : Quietly s (pairState limit cap file off ws q a b)) (hs : MuStep (pairState limit cap file off ws q a b) .none (pairState limit cap file off' ws' q' a' b))
    (ha : a ≠ .none := by simp) (hq : q' ≤ q := by first | exact Nat.le_refl _ | exact Nat.le_succ _) (hf : ¬ Spec.FailsAt a a' := by exact fun h => h) : Quietly s (pairState limit cap file off' ws' q' a' b) := by
  refine h.step hs hq (fun i hi => ?_) (sound0 hf)
  have hi : twoThreads a b i = .none := hi
  show twoThreads a' b i = .none
  unfold twoThreads at hi ⊢
  by_cases h0 : i = 0
  · rw [if_pos h0] at hi; exact absurd hi ha
  · rw [if_neg h0] at hi ⊢; exact hi
theorem Quietly.next1 {s : MuState} (h : Quietly s (pairState limit cap file off ws q a b)) (hs : MuStep (pairState limit cap file off ws q a b) .none (pairState limit cap file off' ws' q' a b'))
    (hb : b ≠ .none := by simp) (hq : q' ≤ q := by first | exact Nat.le_refl _ | exact Nat.le_succ _) (hf : ¬ Spec.FailsAt b b' := by exact fun h => h) : Quietly s (pairState limit cap file off' ws' q' a b') := by
  refine h.step hs hq (fun i hi => ?_) (sound1 hf)
  have hi : twoThreads a b i = .none := hi
  show twoThreads a b' i = .none
  unfold twoThreads at hi ⊢
  by_cases h0 : i = 0
  · rw [if_pos h0] at hi ⊢; exact hi
  · rw [if_neg h0] at hi ⊢
    by_cases h1 : i = 1
    · rw [if_pos h1] at hi; exact absurd hi hb
    · rw [if_neg h1]

theorem Quietly.trans {s t u : MuState} (h : Quietly s t) (h' : Quietly t u) : Quietly s u := by
  induction h' with
  | refl => exact h
  | step _ hs hq ht hf ih => exact ih.step hs hq ht hf

theorem MuRun.quietly {s0 s t : MuState} {ps : List Packet} (h : MuRun s0 ps s) (hq : Quietly s t) : MuRun s0 ps t := by
  induction hq with
  | refl => exact h
  | step _ hs _ _ _ ih => exact ih.quiet hs

/-- One access of a read. -/
theorem read0 {pc pc' : RdPc} (hb : pc.busy = true) (h : RdPc.next ⟨0, off, limit⟩ file 1024 .good pc = (pc', off')) :
    MuStep (pairState limit cap file off ws q (.reading ends pc) b) .none (pairState limit cap file off' ws q (.reading ends pc') b) :=
  pair0 (.readStep _ 0 ends pc .good rfl hb) (by show MuState.move (MuState.set _ 0 (.reading ends (RdPc.next ⟨0, off, limit⟩ file 1024 .good pc).1)) (RdPc.next ⟨0, off, limit⟩ file 1024 .good pc).2 = _; rw [h]; rfl)
theorem read1 {pc pc' : RdPc} (hb : pc.busy = true) (h : RdPc.next ⟨0, off, limit⟩ file 1024 .good pc = (pc', off')) :
    MuStep (pairState limit cap file off ws q a (.reading ends pc)) .none (pairState limit cap file off' ws q a (.reading ends pc')) :=
  pair1 (.readStep _ 1 ends pc .good rfl hb) (by show MuState.move (MuState.set _ 1 (.reading ends (RdPc.next ⟨0, off, limit⟩ file 1024 .good pc).1)) (RdPc.next ⟨0, off, limit⟩ file 1024 .good pc).2 = _; rw [h]; rfl)
theorem first0 {hash : Sha1Hash} {size : Nat} {pc pc' : RdPc} (hb : pc.busy = true) (h : RdPc.next ⟨0, off, limit⟩ file 1000 .good pc = (pc', off')) :
    MuStep (pairState limit cap file off ws q (.first hash size pc) b) .none (pairState limit cap file off' ws q (.first hash size pc') b) :=
  pair0 (.firstStep _ 0 hash size pc .good rfl hb) (by show MuState.move (MuState.set _ 0 (.first hash size (RdPc.next ⟨0, off, limit⟩ file 1000 .good pc).1)) (RdPc.next ⟨0, off, limit⟩ file 1000 .good pc).2 = _; rw [h]; rfl)
theorem first1 {hash : Sha1Hash} {size : Nat} {pc pc' : RdPc} (hb : pc.busy = true) (h : RdPc.next ⟨0, off, limit⟩ file 1000 .good pc = (pc', off')) :
    MuStep (pairState limit cap file off ws q a (.first hash size pc)) .none (pairState limit cap file off' ws q a (.first hash size pc')) :=
  pair1 (.firstStep _ 1 hash size pc .good rfl hb) (by show MuState.move (MuState.set _ 1 (.first hash size (RdPc.next ⟨0, off, limit⟩ file 1000 .good pc).1)) (RdPc.next ⟨0, off, limit⟩ file 1000 .good pc).2 = _; rw [h]; rfl)

/-- `Read` after `Offset`, undisturbed. -/
theorem read0_rest (h1 : off + 1024 ≤ limit) (h2 : off + 1024 ≤ file.length) : Quietly (pairState limit cap file off ws q (.reading ends (.test o)) b)
    (pairState limit cap file (off + 1024) ws q (.reading ends (.done o ((file.drop off).take 1024) none)) b) := by
  have hl : ((file.drop off).take 1024).length = 1024 := by simp; omega
  have s1 := (Quietly.refl _).next0 (read0 (cap := cap) (ws := ws) (q := q) (b := b) (ends := ends) rfl (next_test 0 off limit 1024 file o (by omega)))
  have s2 := s1.next0 (read0 rfl (next_clip 0 off limit 1024 file o (by omega)))
  have s3 := s2.next0 (read0 rfl (next_fetch 0 off limit 1024 file o h2))
  have s4 := s3.next0 (read0 rfl (next_add 0 off limit 1024 file _ o none))
  have s5 := s4.next0 (read0 rfl (next_addStore 0 off limit 1024 _ file _ o none))
  rwa [hl] at s5
theorem read1_rest (h1 : off + 1024 ≤ limit) (h2 : off + 1024 ≤ file.length) : Quietly (pairState limit cap file off ws q a (.reading ends (.test o)))
    (pairState limit cap file (off + 1024) ws q a (.reading ends (.done o ((file.drop off).take 1024) none))) := by
  have hl : ((file.drop off).take 1024).length = 1024 := by simp; omega
  have s1 := (Quietly.refl _).next1 (read1 (cap := cap) (ws := ws) (q := q) (a := a) (ends := ends) rfl (next_test 0 off limit 1024 file o (by omega)))
  have s2 := s1.next1 (read1 rfl (next_clip 0 off limit 1024 file o (by omega)))
  have s3 := s2.next1 (read1 rfl (next_fetch 0 off limit 1024 file o h2))
  have s4 := s3.next1 (read1 rfl (next_add 0 off limit 1024 file _ o none))
  have s5 := s4.next1 (read1 rfl (next_addStore 0 off limit 1024 _ file _ o none))
  rwa [hl] at s5

/-- `Offset`, undisturbed. -/
theorem read0_offset (h : off ≤ 4294967295) : Quietly (pairState limit cap file off ws q (.reading ends .seek) b)
    (pairState limit cap file off ws q (.reading ends (.test (UInt32.ofNat off))) b) :=
  ((Quietly.refl _).next0 (read0 rfl (next_seek 0 off limit 1024 file))).next0 (read0 rfl (next_seekStore off off limit 1024 file h))
theorem read1_offset (h : off ≤ 4294967295) : Quietly (pairState limit cap file off ws q a (.reading ends .seek))
    (pairState limit cap file off ws q a (.reading ends (.test (UInt32.ofNat off)))) :=
  ((Quietly.refl _).next1 (read1 rfl (next_seek 0 off limit 1024 file))).next1 (read1 rfl (next_seekStore off off limit 1024 file h))

/-- A request that has arrived, until its packet is about to be sent. -/
theorem request0 {hash : Sha1Hash} {size : Nat} (h1 : 1000 ≤ limit) (h2 : 1000 ≤ file.length) : Quietly (pairState limit cap file 0 ws q (.reset hash size .none) b)
    (pairState limit cap file 1000 ws q (.announce hash size (file.take 1000)) b) := by
  have hl : ((file.drop 0).take 1000).length = 1000 := by simp; omega
  have s2 : Quietly (pairState limit cap file 0 ws q (.reset hash size .none) b) (pairState limit cap file 0 ws q (.reset hash size (some 0)) b) :=
    (Quietly.refl _).next0 (pair0 (.resetLoad _ 0 hash size rfl) rfl)
  have s4 : Quietly (pairState limit cap file 0 ws q (.reset hash size .none) b) (pairState limit cap file 0 ws q (.first hash size .seek) b) :=
    s2.next0 (pair0 (.resetStore _ 0 hash size 0 rfl) rfl)
  have s5 := s4.next0 (first0 rfl (next_seek 0 0 limit 1000 file))
  have s6 := s5.next0 (first0 rfl (next_seekStore 0 0 limit 1000 file (by omega)))
  have s7 := s6.next0 (first0 rfl (next_test 0 0 limit 1000 file _ (by omega)))
  have s8 := s7.next0 (first0 rfl (next_clip 0 0 limit 1000 file _ (by omega)))
  have s9 := s8.next0 (first0 rfl (next_fetch 0 0 limit 1000 file _ (by omega)))
  have s10 := s9.next0 (first0 rfl (next_add 0 0 limit 1000 file _ _ none))
  have s11 := s10.next0 (first0 rfl (next_addStore 0 0 limit 1000 _ file _ _ none))
  rw [hl] at s11
  exact s11.next0 (pair0 (.firstDone _ 0 hash size _ _ none rfl (by simp)) rfl)
theorem request1 {hash : Sha1Hash} {size : Nat} (h1 : 1000 ≤ limit) (h2 : 1000 ≤ file.length) : Quietly (pairState limit cap file 0 ws q a (.reset hash size .none))
    (pairState limit cap file 1000 ws q a (.announce hash size (file.take 1000))) := by
  have hl : ((file.drop 0).take 1000).length = 1000 := by simp; omega
  have s2 : Quietly (pairState limit cap file 0 ws q a (.reset hash size .none)) (pairState limit cap file 0 ws q a (.reset hash size (some 0))) :=
    (Quietly.refl _).next1 (pair1 (.resetLoad _ 1 hash size rfl) rfl)
  have s4 : Quietly (pairState limit cap file 0 ws q a (.reset hash size .none)) (pairState limit cap file 0 ws q a (.first hash size .seek)) :=
    s2.next1 (pair1 (.resetStore _ 1 hash size 0 rfl) rfl)
  have s5 := s4.next1 (first1 rfl (next_seek 0 0 limit 1000 file))
  have s6 := s5.next1 (first1 rfl (next_seekStore 0 0 limit 1000 file (by omega)))
  have s7 := s6.next1 (first1 rfl (next_test 0 0 limit 1000 file _ (by omega)))
  have s8 := s7.next1 (first1 rfl (next_clip 0 0 limit 1000 file _ (by omega)))
  have s9 := s8.next1 (first1 rfl (next_fetch 0 0 limit 1000 file _ (by omega)))
  have s10 := s9.next1 (first1 rfl (next_add 0 0 limit 1000 file _ _ none))
  have s11 := s10.next1 (first1 rfl (next_addStore 0 0 limit 1000 _ file _ _ none))
  rw [hl] at s11
  exact s11.next1 (pair1 (.firstDone _ 1 hash size _ _ none rfl (by simp)) rfl)

/-- `windowSize++`, undisturbed, and the worker begins. -/
theorem count0 : Quietly (pairState limit cap file off ws q .firstLoad b) (pairState limit cap file off (ws + 1) q .select b) :=
  ((Quietly.refl _).next0 (pair0 (a' := .firstStore ws) (.firstLoad _ 0 rfl) rfl)).next0 (pair0 (.firstStore _ 0 ws rfl) rfl)
theorem count1 : Quietly (pairState limit cap file off ws q a .firstLoad) (pairState limit cap file off (ws + 1) q a .select) :=
  ((Quietly.refl _).next1 (pair1 (b' := .firstStore ws) (.firstLoad _ 1 rfl) rfl)).next1 (pair1 (.firstStore _ 1 ws rfl) rfl)

/-- An acknowledgement that has arrived is taken, undisturbed. -/
theorem ack0 : Quietly (pairState limit cap file off ws (q + 1) .select b) (pairState limit cap file off (ws - 1) q (.loop 0) b) :=
  (((Quietly.refl _).next0 (pair0 (q' := q) (a' := .takeLoad) (.take _ 0 rfl (Nat.succ_pos _)) rfl)).next0 (pair0 (a' := .takeStore ws) (.takeLoad _ 0 rfl) rfl)).next0 (pair0 (.takeStore _ 0 ws rfl) rfl)
theorem ack1 : Quietly (pairState limit cap file off ws (q + 1) a .select) (pairState limit cap file off (ws - 1) q a (.loop 0)) :=
  (((Quietly.refl _).next1 (pair1 (q' := q) (b' := .takeLoad) (.take _ 1 rfl (Nat.succ_pos _)) rfl)).next1 (pair1 (b' := .takeStore ws) (.takeLoad _ 1 rfl) rfl)).next1 (pair1 (.takeStore _ 1 ws rfl) rfl)

theorem pair_init : MuState.init ⟨0, 0, limit⟩ cap file = pairState limit cap file 0 0 0 .none .none := by
  have : (fun _ => MuThread.none) = twoThreads .none .none := by funext j; simp [twoThreads]
  unfold MuState.init pairState
  rw [this]

/-- Two requests, and both goroutines wait for acknowledgements. -/
theorem two_requests (h1 : 1000 ≤ limit) (h2 : 1000 ≤ file.length) (hash : Sha1Hash) (size : Nat) : ∃ p1 p2,
    MuRun (.init ⟨0, 0, limit⟩ cap file) [p1, p2] (pairState limit cap file 1000 2 0 .select .select) := by
  rw [pair_init]
  have s0 : MuRun (pairState limit cap file 0 0 0 .none .none) [] (pairState limit cap file 0 0 0 (.reset hash size .none) .none) := MuRun.refl.quiet (pair0 (.kickstart _ 0 hash size rfl) rfl)
  have s1 := s0.quietly (request0 h1 h2)
  have s2 := (s1.sent (pair0 (a' := .firstLoad) (.sendFirst _ 0 _ _ _ rfl) rfl)).quietly count0
  have s3 := (s2.quiet (pair1 (off' := 0) (b' := .reset hash size .none) (.kickstart _ 1 hash size rfl) rfl)).quietly (request1 h1 h2)
  have s4 := (s3.sent (pair1 (b' := .firstLoad) (.sendFirst _ 1 _ _ _ rfl) rfl)).quietly count1
  exact ⟨_, _, s4⟩

end

/-- Two requests from one address, two acknowledgements: the first goroutine has asked for its offset when the second one reads, and then reads what comes after it. -/
theorem C85_wrong_bytes (limit : Nat) (cap : UInt16) (hcap : 2 ≤ cap.toNat) (file : Bytes) (h1 : 3048 ≤ limit) (h2 : 3048 ≤ file.length) (hash : Sha1Hash) (size : Nat) :
    ∃ ps s, MuRun (.init ⟨0, 0, limit⟩ cap file) ps s ∧ s.now = file ∧ s.before = [] ∧ ⟨1000, (file.drop 2024).take 1024⟩ ∈ ps := by
  have w0 : (2 : UInt16) - 1 - 1 < cap := by rw [UInt16.lt_iff_toNat_lt]; show 0 < cap.toNat; omega
  obtain ⟨p1, p2, s2⟩ := two_requests (cap := cap) (show 1000 ≤ limit by omega) (show 1000 ≤ file.length by omega) hash size
  have s3 : MuRun (.init ⟨0, 0, limit⟩ cap file) [p1, p2] (pairState limit cap file 1000 2 2 .select .select) := (s2.quiet (.arrive _)).quiet (.arrive _)
  have s4 := (s3.quietly ack0).quietly ack1
  have s5 := s4.quiet (pair0 (a' := .reading 0 .seek) (.more _ 0 0 rfl w0) rfl)
  have s6 := s5.quiet (pair1 (b' := .reading 0 .seek) (.more _ 1 0 rfl w0) rfl)
  have s7 := s6.quietly (read0_offset (by decide))
  have s8 := s7.quietly (read1_offset (by decide))
  have s9 := s8.quietly (read1_rest (by omega) (by omega))
  have s10 := s9.quietly (read0_rest (by omega) (by omega))
  have s11 := s10.quiet (pair0 (a' := .sending 0 1000 ((file.drop 2024).take 1024)) (.readDone _ 0 0 _ _ none rfl (by simp)) rfl)
  exact ⟨_, _, s11.sent (.send _ 0 _ _ _ rfl), rfl, rfl, List.mem_append.2 (.inr (.head _))⟩

/-- **C85 as stated does not hold.** -/
theorem C85_refuted : ¬ C85_statement := by
  intro h
  generalize hA : List.replicate 2024 (0 : UInt8) = A
  generalize hB : List.replicate 1024 (1 : UInt8) = B
  have lA : A.length = 2024 := by rw [← hA, List.length_replicate]
  have lB : B.length = 1024 := by rw [← hB, List.length_replicate]
  obtain ⟨ps, s, hr, h1, h2, hm⟩ := C85_wrong_bytes 3048 2 (by decide) (A ++ B) (by omega) (by rw [List.length_append]; omega) Sha1Hash.zero 3048
  have hb := h _ _ _ _ _ hr _ hm
  rw [h1, h2] at hb
  rcases hb with ⟨h0, -⟩ | ⟨v, hv, l, hl⟩
  · have h0 : (1000 : UInt32) = 0 := h0
    revert h0; decide
  · rw [List.mem_singleton.1 hv] at hl
    have hl' : (((A ++ B).drop 2024).take 1024 ++ l)[0]? = ((A ++ B).drop 1000)[0]? := congrArg (fun x => x[0]?) hl
    have e1 : ((A ++ B).drop 2024).take 1024 = B := by
      rw [List.drop_append_of_le_length (by omega), List.drop_of_length_le (by omega), List.nil_append, List.take_of_length_le (by omega)]
    rw [e1, List.getElem?_append_left (by omega), List.getElem?_drop, List.getElem?_append_left (by omega), ← hA, ← hB, List.getElem?_replicate,
      List.getElem?_replicate] at hl'
    revert hl'; decide

/-- A file that changes in the middle of an upload, and a request that arrives when all is done: runs that C85_partial covers. -/
example (file new : Bytes) (hn : 1000 ≤ new.length) (hash : Sha1Hash) (size : Nat) : ∃ ps s, SeqRun (.init ⟨0, 0, 1000⟩ 1 file) ps s ∧ s.now = new ∧ ps ≠ [] := by
  have alone : ∀ {s t : MuState} {x : MuThread}, (∀ j, j ≠ 0 → s.threads j = .none) → t.threads = (s.set 0 x).threads →
      ∀ i, s.threads i = .none → t.threads i ≠ .none → ∀ j, j ≠ i → (s.threads j).idle = true := by
    intro s t x h ht i h1 h2 j hj
    by_cases hi : i = 0
    · subst hi
      rw [h j hj]; rfl
    · exfalso; apply h2
      rw [ht, MuState.set_other hi]; exact h1
  have keep : ∀ {s t : MuState} {x : MuThread}, (∀ j, j ≠ 0 → s.threads j = .none) → t.threads = (s.set 0 x).threads → ∀ j, j ≠ 0 → t.threads j = .none := by
    intro s t x h ht j hj
    rw [ht, MuState.set_other hj]; exact h j hj
  have key : ∀ {pc pc' : RdPc} {off off' : Nat} {s : MuState} {ps : List Packet}, SeqRun (.init ⟨0, 0, 1000⟩ 1 file) ps s → s.threads 0 = .first hash size pc →
      (∀ j, j ≠ 0 → s.threads j = .none) → s.now = new → s.reader = ⟨0, off, 1000⟩ → pc.busy = true → RdPc.next ⟨0, off, 1000⟩ new 1000 .good pc = (pc', off') →
      ∃ s', SeqRun (.init ⟨0, 0, 1000⟩ 1 file) ps s' ∧ s'.threads 0 = .first hash size pc' ∧ (∀ j, j ≠ 0 → s'.threads j = .none) ∧ s'.now = new ∧ s'.reader = ⟨0, off', 1000⟩ := by
    intro pc pc' off off' s ps h h0 hj hn hr hb he
    have st := MuStep.firstStep s 0 hash size pc .good h0 hb
    rw [hr, hn, he] at st
    exact ⟨_, h.quiet st (alone hj rfl), (MuState.set_self s 0 _ :), keep hj rfl, hn, by rw [MuState.move]; show SectionReader.mk s.reader.base off' s.reader.limit = _; rw [hr]⟩
  have n0 : ∀ j, j ≠ 0 → (MuState.init ⟨0, 0, 1000⟩ 1 file).threads j = .none := fun j _ => rfl
  have s1 := SeqRun.quiet (.refl (s0 := .init ⟨0, 0, 1000⟩ 1 file)) (.kickstart _ 0 hash size rfl) (alone (x := .reset hash size .none) n0 rfl)
  have n1 := keep (t := (MuState.set (.init ⟨0, 0, 1000⟩ 1 file) 0 (.reset hash size .none)).move 0) n0 rfl
  have s2 := s1.quiet (.edit _ new) (fun i h1 h2 => absurd h1 h2)
  have s3 := s2.quiet (.resetLoad _ 0 hash size rfl) (alone n1 rfl)
  have s5 := s3.quiet (.resetStore _ 0 hash size 0 rfl) (alone (keep n1 rfl) rfl)
  obtain ⟨t1, h1, a1, b1, c1, d1⟩ := key s5 rfl (keep (keep n1 rfl) rfl) rfl rfl rfl (next_seek 0 0 1000 1000 new)
  obtain ⟨t2, h2, a2, b2, c2, d2⟩ := key h1 a1 b1 c1 d1 rfl (next_seekStore 0 0 1000 1000 new (by omega))
  obtain ⟨t3, h3, a3, b3, c3, d3⟩ := key h2 a2 b2 c2 d2 rfl (next_test 0 0 1000 1000 new _ (by omega))
  obtain ⟨t4, h4, a4, b4, c4, d4⟩ := key h3 a3 b3 c3 d3 rfl (next_clip 0 0 1000 1000 new _ (by omega))
  obtain ⟨t5, h5, a5, b5, c5, d5⟩ := key h4 a4 b4 c4 d4 rfl (next_fetch 0 0 1000 1000 new _ (by omega))
  obtain ⟨t6, h6, a6, b6, c6, d6⟩ := key h5 a5 b5 c5 d5 rfl (next_add 0 0 1000 1000 new _ _ _)
  obtain ⟨t7, h7, a7, b7, c7, d7⟩ := key h6 a6 b6 c6 d6 rfl (next_addStore 0 0 1000 1000 _ new _ _ _)
  have s8 := h7.quiet (.firstDone _ 0 hash size _ _ none a7 (by simp)) (alone b7 rfl)
  exact ⟨_, _, s8.sent (.sendFirst _ 0 hash size _ (MuState.set_self _ _ _)), c7, by simp⟩

end Flu
