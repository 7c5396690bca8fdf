import Verif.Model.RecvThread
import Verif.Props.Transfer
/-!
# The two goroutines of a receiving transfer (C77, C78)
-/
namespace Flu
open Spec

/-! ## Specification -/

instance (d : Bytes) : Decidable (isEnd d) := inferInstanceAs (Decidable (_ ∧ _))

/-- What was read after the first end marker. -/
def Spec.late : List (Option Bytes) → List (Option Bytes)
  | [] => []
  | none :: r => Spec.late r
  | some d :: r => if isEnd d then r else Spec.late r

/-- The datagrams among the readings. -/
def Spec.datagrams (q : List (Option Bytes)) : List Bytes := q.filterMap id

/-- Nothing is left of the transfer: the goroutine has returned and the socket is closed. -/
def Spec.Released (s : RT) : Prop := s.reader = .done ∧ s.closed = true

/-! ## The loop on a queue -/

section
variable {sha1 : Bytes → Sha1Hash}

theorem recvLoop_on {c : RConn} {d : Bytes} {p : Packet} {rest : List (Option Bytes)} (hd : readPacket d = .ok p) {c' : RConn} {act : RAct} :
    onPacket sha1 c p = .ok (c', act) → recvLoop sha1 c (some d :: rest) = match act with
      | .finish b ok => .ok ([], .finished b ok)
      | .ack o => recvLoop sha1 c' rest >>= fun y => .ok (o :: y.1, y.2) := by
  intro hp
  rw [recvLoop_cons, hd, Res.bind_ok, hp, Res.bind_ok]
  cases act <;> rfl

theorem recvLoop_more : ∀ (q r : List (Option Bytes)) (c0 c : RConn) (acks : List UInt32), recvLoop sha1 c0 q = .ok (acks, .waiting c) →
    recvLoop sha1 c0 (q ++ r) = recvLoop sha1 c r >>= fun y => .ok (acks ++ y.1, y.2) := by
  intro q
  induction q with
  | nil =>
    intro r c0 c acks h
    cases h
    rcases h : recvLoop sha1 c0 r with y | _ | _ | _ | _ <;> simp [h] <;> rfl
  | cons x q ih =>
    intro r c0 c acks h
    cases x with
    | none => cases h
    | some d =>
      rcases hd : readPacket d with p | _ | _ | _ | _
      case ok =>
        rcases hp : onPacket sha1 c0 p with ⟨c', act⟩ | _ | _ | _ | _
        case ok =>
          rw [recvLoop_on hd hp] at h
          rw [List.cons_append, recvLoop_on hd hp]
          cases act with
          | finish b ok => cases h
          | ack o =>
            rcases hq : recvLoop sha1 c' q with ⟨a, out⟩ | _ | _ | _ | _
            case ok =>
              rw [hq] at h
              cases h
              simp only []
              rw [ih r c' c a hq]
              rcases h : recvLoop sha1 c r with y | _ | _ | _ | _ <;> rfl
            all_goals rw [hq] at h; cases h
        all_goals (rw [recvLoop_cons, hd, Res.bind_ok, hp] at h; cases h)
      all_goals (rw [recvLoop_cons, hd] at h; cases h)

theorem recvLoop_over : ∀ (q r : List (Option Bytes)) (c0 : RConn) (acks : List UInt32) (out : ROut), recvLoop sha1 c0 q = .ok (acks, out) →
    (∀ c, out ≠ .waiting c) → recvLoop sha1 c0 (q ++ r) = .ok (acks, out) := by
  intro q
  induction q with
  | nil => intro r c0 acks out h hn; cases h; exact absurd rfl (hn c0)
  | cons x q ih =>
    intro r c0 acks out h hn
    cases x with
    | none => exact h
    | some d =>
      rcases hd : readPacket d with p | _ | _ | _ | _
      case ok =>
        rcases hp : onPacket sha1 c0 p with ⟨c', act⟩ | _ | _ | _ | _
        case ok =>
          rw [recvLoop_on hd hp] at h
          rw [List.cons_append, recvLoop_on hd hp]
          cases act with
          | finish b ok => exact h
          | ack o =>
            rcases hq : recvLoop sha1 c' q with ⟨a, out'⟩ | _ | _ | _ | _
            case ok =>
              rw [hq] at h
              cases h
              simp only []
              rw [ih r c' a out' hq hn]
              rfl
            all_goals rw [hq] at h; cases h
        all_goals (rw [recvLoop_cons, hd, Res.bind_ok, hp] at h; cases h)
      all_goals (rw [recvLoop_cons, hd] at h; cases h)

/-- A packet ends the loop exactly if it was an end marker. -/
theorem finish_iff_isEnd {c c' : RConn} {d : Bytes} {p : Packet} {act : RAct} (hd : readPacket d = .ok p) (hp : onPacket sha1 c p = .ok (c', act)) :
    (∃ b ok, act = .finish b ok) ↔ isEnd d := by
  rw [readPacket_eq] at hd
  split at hd
  · cases hd
  rename_i h5
  cases hd
  have hlen : ((d.take 1029).drop 5).length = min 1029 d.length - 5 := by simp
  unfold onPacket at hp
  simp only [ofNat_dgOffset_zero] at hp
  unfold isEnd
  by_cases h0 : dgOffset d = 0
  · rw [if_pos h0] at hp
    rcases hs : splitFirst ⟨(d.take 1029).drop 5, ((d.take 1029).drop 5).length⟩ with ⟨h, sz, dt⟩ | _ | _ | _ | _
    case ok =>
      rw [hs, Res.bind_ok] at hp
      simp only [] at hp
      rcases hcp : copyAt (List.replicate sz.toNat 0) 0 dt with bf | _ | _ | _ | _
      case ok =>
        rw [hcp] at hp; cases hp
        exact ⟨(by rintro ⟨_, _, h⟩; cases h), fun h => absurd h0 h.2⟩
      all_goals rw [hcp] at hp; cases hp
    all_goals rw [hs] at hp; cases hp
  · rw [if_neg h0] at hp
    by_cases hl : 0 < ((d.take 1029).drop 5).length
    · rw [if_pos hl] at hp
      rcases hcp : copyAt c.buffer (UInt32.ofNat (dgOffset d)).toNat ((d.take 1029).drop 5) with bf | _ | _ | _ | _
      case ok =>
        rw [hcp] at hp; cases hp
        exact ⟨(by rintro ⟨_, _, h⟩; cases h), fun h => by omega⟩
      all_goals rw [hcp] at hp; cases hp
    · rw [if_neg hl] at hp
      rcases hh : c.hash with _ | h
      · rw [hh] at hp; cases hp
      · rw [hh] at hp; cases hp
        exact ⟨fun _ => ⟨by omega, h0⟩, fun _ => ⟨_, _, rfl⟩⟩

/-! ## What the goroutines have done -/

/-- What the goroutine makes of a reading. -/
def readItem : Option Bytes → Res (Option Packet)
  | none => .ok none
  | some d => readPacket d >>= fun p => .ok (some p)

def Reader.pending : Reader → List (Option Packet)
  | .sending x => [x]
  | _ => []

def Reader.Ended : Reader → Prop
  | .reading => False
  | .sending x => x = none
  | .done => True

/-- The loop has taken `eaten`; `flight` is read but not taken. -/
structure ThreadInv (sha1 : Bytes → Sha1Hash) (q eaten flight : List (Option Bytes)) (s : RT) : Prop where
  split : q = eaten ++ flight
  parsed : flight.map readItem = (s.chan ++ s.reader.pending).map .ok
  cap : s.chan.length ≤ 10
  waiting : ∀ c, s.loop = .waiting c → (∃ acks, recvLoop sha1 .fresh eaten = .ok (acks, .waiting c)) ∧ (∀ d, some d ∈ eaten → ¬ isEnd d) ∧ none ∉ eaten
  finished : ∀ b ok, s.loop = .finished b ok → (∃ acks, recvLoop sha1 .fresh eaten = .ok (acks, .finished b ok)) ∧
    ∃ seen d, eaten = seen ++ [some d] ∧ isEnd d ∧ ∀ d, some d ∈ seen → ¬ isEnd d
  gaveUp : s.loop = .gaveUp → (∃ acks, recvLoop sha1 .fresh eaten = .ok (acks, .closed)) ∧ none ∈ eaten ∧ ∀ d, some d ∈ eaten → ¬ isEnd d
  ended : none ∈ q ↔ s.reader.Ended
  closed : s.closed = true ↔ s.reader.Ended
  last : ∀ a b, q = a ++ none :: b → b = []

theorem readings_append (t u : List REv) : readings (t ++ u) = readings t ++ readings u := by
  induction t with
  | nil => rfl
  | cons e t ih => cases e <;> simp [readings, ih]

theorem ThreadInv.init : ThreadInv sha1 [] [] [] .init := by
  refine ⟨rfl, rfl, by decide, ?_, ?_, ?_, ?_, ?_, by intro a b h; cases a <;> cases h⟩
  · intro c h; cases h; exact ⟨⟨[], rfl⟩, (by intro d hd; cases hd), (by intro h; cases h)⟩
  · intro b ok h; cases h
  · intro h; cases h
  · exact ⟨(by intro h; cases h), False.elim⟩
  · exact ⟨(by intro h; cases h), False.elim⟩

theorem readItem_ok {x : Option Bytes} {p : Packet} (h : readItem x = .ok (some p)) : ∃ d, x = some d ∧ readPacket d = .ok p := by
  cases x with
  | none => cases h
  | some d =>
    refine ⟨d, rfl, ?_⟩
    simp only [readItem] at h
    rcases hd : readPacket d with p' | _ | _ | _ | _ <;> rw [hd] at h <;> cases h
    rfl

theorem readItem_none {x : Option Bytes} (h : readItem x = .ok none) : x = none := by
  cases x with
  | none => rfl
  | some d =>
    simp only [readItem] at h
    rcases hd : readPacket d with p' | _ | _ | _ | _ <;> rw [hd] at h <;> cases h

theorem ThreadInv.step {q eaten flight : List (Option Bytes)} {s s' : RT} {e : REv} (hi : ThreadInv sha1 q eaten flight s) (hs : RTStep sha1 s e (.alive s')) :
    ∃ eaten' flight', ThreadInv sha1 (q ++ readings [e]) eaten' flight' s' := by
  generalize hy : RTSys.alive s' = y at hs
  cases hs with
  | read d p hr hp =>
    cases hy
    refine ⟨eaten, flight ++ [some d], ?_, ?_, hi.cap, hi.waiting, hi.finished, hi.gaveUp, ?_, ?_, ?_⟩
    · rw [hi.split]; simp [readings]
    · have := hi.parsed
      rw [hr] at this
      simp only [Reader.pending, List.append_nil] at this
      simp [Reader.pending, this, readItem, hp]
    · have := hi.ended
      rw [hr] at this
      simp only [readings, List.mem_append, Reader.Ended] at this ⊢
      simp [this]
    · have := hi.closed
      rw [hr] at this
      simp only [Reader.Ended] at this ⊢
      simp [this]
    · intro a b h
      have hm : none ∈ q ++ readings [.datagram d] := by rw [h]; simp
      simp only [readings, List.mem_append, List.mem_singleton] at hm
      have := hi.ended.1 (hm.resolve_right (by simp))
      rw [hr] at this
      exact this.elim
  | readDies => cases hy
  | timeout hr =>
    cases hy
    refine ⟨eaten, flight ++ [none], ?_, ?_, hi.cap, hi.waiting, hi.finished, hi.gaveUp, ?_, ?_, ?_⟩
    · rw [hi.split]; simp [readings]
    · have := hi.parsed
      rw [hr] at this
      simp only [Reader.pending, List.append_nil] at this
      simp [Reader.pending, this, readItem]
    · simp [readings, Reader.Ended]
    · simp [Reader.Ended]
    · intro a b h
      apply Classical.byContradiction
      intro hb
      have hm : none ∈ q := by
        have h1 : q = (a ++ none :: b).dropLast := by rw [← h]; simp [readings]
        rw [h1, List.dropLast_append_of_ne_nil (by simp), List.dropLast_cons_of_ne_nil hb]
        simp
      have := hi.ended.1 hm
      rw [hr] at this
      exact this
  | send x hr hc =>
    cases hy
    refine ⟨eaten, flight, ?_, ?_, ?_, hi.waiting, hi.finished, hi.gaveUp, ?_, ?_, (by simpa [readings] using hi.last)⟩
    · rw [hi.split]; simp [readings]
    · have := hi.parsed
      rw [hr] at this
      rw [this]
      cases x <;> simp [Reader.pending]
    · simp only [List.length_append, List.length_singleton]; omega
    · have := hi.ended
      rw [hr] at this
      cases x <;> simpa [readings, Reader.Ended] using this
    · have := hi.closed
      rw [hr] at this
      cases x <;> simpa [Reader.Ended] using this
  | take c c' p rest act hl hc hp =>
    cases hy
    have hf := hi.parsed
    rw [hc] at hf
    cases flight with
    | nil => simp at hf
    | cons x fl =>
      simp only [List.map_cons, List.cons_append, List.cons.injEq] at hf
      obtain ⟨d, rfl, hd⟩ := readItem_ok hf.1
      obtain ⟨⟨acks, ha⟩, hw, hnn⟩ := hi.waiting c hl
      have hex := recvLoop_more (r := [some d]) _ _ _ _ ha
      rw [recvLoop_on hd hp] at hex
      have hiff := finish_iff_isEnd hd hp
      refine ⟨eaten ++ [some d], fl, ?_, hf.2, ?_, ?_, ?_, ?_, ?_, hi.closed, (by simpa [readings] using hi.last)⟩
      · rw [hi.split]; simp [readings]
      · have := hi.cap; rw [hc] at this; simp only [List.length_cons] at this; show rest.length ≤ 10; omega
      · intro c2 h2
        cases act with
        | finish b ok => cases h2
        | ack o =>
          cases h2
          refine ⟨⟨_, hex⟩, ?_, by simpa using hnn⟩
          intro d' hd'
          rcases List.mem_append.1 hd' with h | h
          · exact hw d' h
          · cases List.mem_singleton.1 h
            intro he
            obtain ⟨_, _, h⟩ := hiff.2 he
            cases h
      · intro b ok h2
        cases act with
        | ack o => cases h2
        | finish b' ok' =>
          cases h2
          exact ⟨⟨_, hex⟩, eaten, d, rfl, hiff.1 ⟨_, _, rfl⟩, hw⟩
      · intro h2
        cases act <;> cases h2
      · simpa [readings] using hi.ended
  | takeDies => cases hy
  | takeNil c rest hl hc =>
    cases hy
    have hf := hi.parsed
    rw [hc] at hf
    cases flight with
    | nil => simp at hf
    | cons x fl =>
      simp only [List.map_cons, List.cons_append, List.cons.injEq] at hf
      have hx := readItem_none hf.1
      subst hx
      obtain ⟨⟨acks, ha⟩, hw, hnn⟩ := hi.waiting c hl
      have hex := recvLoop_more (r := [none]) _ _ _ _ ha
      have hfl : fl = [] := hi.last eaten fl hi.split
      refine ⟨eaten ++ [none], fl, ?_, hf.2, ?_, ?_, ?_, ?_, ?_, hi.closed, (by simpa [readings] using hi.last)⟩
      · rw [hi.split]; simp [readings]
      · have := hi.cap; rw [hc] at this; simp only [List.length_cons] at this; show rest.length ≤ 10; omega
      · intro c2 h2; cases h2
      · intro b ok h2; cases h2
      · intro _
        refine ⟨⟨_, hex⟩, by simp, ?_⟩
        intro d' hd'
        rcases List.mem_append.1 hd' with h | h
        · exact hw d' h
        · cases List.mem_singleton.1 h
      · simpa [readings] using hi.ended

theorem RTRun.inv {tr : List REv} {s : RT} (h : RTRun sha1 .init tr (.alive s)) : ∃ eaten flight, ThreadInv sha1 (readings tr) eaten flight s := by
  generalize hy : RTSys.alive s = y at h
  induction h generalizing s with
  | refl => cases hy; exact ⟨[], [], ThreadInv.init⟩
  | @step t tr e x hr hs ih =>
    subst hy
    obtain ⟨e1, f1, hi⟩ := ih rfl
    rw [readings_append]
    exact hi.step hs

theorem late_none (a b : List (Option Bytes)) (ha : ∀ d, some d ∈ a → ¬ isEnd d) : late (a ++ b) = late b := by
  induction a with
  | nil => rfl
  | cons x a ih =>
    have := ih (fun d hd => ha d (.tail _ hd))
    cases x with
    | none => exact this
    | some d => simp only [List.cons_append, late]; rw [if_neg (ha d (.head _)), this]

theorem late_length_le (a : List (Option Bytes)) : (late a).length ≤ a.length := by
  induction a with
  | nil => exact Nat.le_refl _
  | cons x a ih =>
    cases x with
    | none => simp only [late, List.length_cons]; omega
    | some d => simp only [late]; split <;> simp only [List.length_cons] <;> omega

/-- What is in the channel and in the goroutine's hand: all that was read after the end marker, once the loop is finished, and never less. -/
theorem RTRun.late {tr : List REv} {s : RT} (h : RTRun sha1 .init tr (.alive s)) :
    s.chan.length ≤ 10 ∧ (late (readings tr)).length ≤ s.chan.length + s.reader.pending.length ∧
    (∀ b ok, s.loop = .finished b ok → (late (readings tr)).length = s.chan.length + s.reader.pending.length) ∧
    (none ∈ readings tr ↔ s.reader.Ended) ∧ (s.closed = true ↔ s.reader.Ended) ∧ (∀ a b, readings tr = a ++ none :: b → b = []) := by
  obtain ⟨e, f, hi⟩ := h.inv
  have hlen : f.length = s.chan.length + s.reader.pending.length := by
    have := congrArg List.length hi.parsed
    simpa using this
  have hfin : ∀ b ok, s.loop = .finished b ok → (Spec.late (readings tr)).length = s.chan.length + s.reader.pending.length := by
    intro b ok hl
    obtain ⟨-, seen, d, rfl, hd, hs⟩ := hi.finished b ok hl
    rw [hi.split, List.append_assoc, late_none _ _ hs]
    simp only [List.singleton_append, Spec.late, if_pos hd]
    exact hlen
  refine ⟨hi.cap, ?_, hfin, hi.ended, hi.closed, hi.last⟩
  rcases hl : s.loop with c | ⟨b, ok⟩ | _
  · rw [hi.split, late_none _ _ (hi.waiting c hl).2.1, ← hlen]; exact late_length_le f
  · exact Nat.le_of_eq (hfin b ok hl)
  · rw [hi.split, late_none _ _ (hi.gaveUp hl).2.2, ← hlen]; exact late_length_le f

theorem recvLoop_ok_or_panic (q : List (Option Bytes)) : (∃ x, recvLoop sha1 .fresh q = .ok x) ∨ recvLoop sha1 .fresh q = .panic := by
  by_cases h : Kills [] q
  · exact .inr ((recvLoop_panics sha1 q _ [] RConn.fresh_knows).1 h)
  · exact .inl ((recvLoop_panics sha1 q _ [] RConn.fresh_knows).2 h)

theorem recvLoop_closed_mem : ∀ (q : List (Option Bytes)) (c : RConn) (acks : List UInt32), recvLoop sha1 c q = .ok (acks, .closed) → none ∈ q := by
  intro q
  induction q with
  | nil => intro c acks h; cases h
  | cons x q ih =>
    intro c acks h
    cases x with
    | none => simp
    | some d =>
      right
      rcases hd : readPacket d with p | _ | _ | _ | _
      case ok =>
        rcases hp : onPacket sha1 c p with ⟨c', act⟩ | _ | _ | _ | _
        case ok =>
          rw [recvLoop_on hd hp] at h
          cases act with
          | finish b ok => cases h
          | ack o =>
            rcases hq : recvLoop sha1 c' q with ⟨a, out'⟩ | _ | _ | _ | _
            case ok => rw [hq] at h; cases h; exact ih c' a hq
            all_goals rw [hq] at h; cases h
        all_goals (rw [recvLoop_cons, hd, Res.bind_ok, hp] at h; cases h)
      all_goals (rw [recvLoop_cons, hd] at h; cases h)

/-! ## C77 -/

/-- What becomes of a transfer depends only on what was read, in what order, and not on how the two goroutines are scheduled: if the loop is over, it ended as
`recvLoop` says; if the daemon died, then either `recvLoop` panics on what was read, or an end marker had been read and the last datagram is shorter than a header. -/
theorem C77_result (tr : List REv) :
    (∀ s, RTRun sha1 .init tr (.alive s) →
      (∀ b ok, s.loop = .finished b ok → ∃ acks, recvLoop sha1 .fresh (readings tr) = .ok (acks, .finished b ok)) ∧
      (s.loop = .gaveUp → ∃ acks, recvLoop sha1 .fresh (readings tr) = .ok (acks, .closed)) ∧
      (∀ c, s.loop = .waiting c → s.chan = [] → s.reader.pending = [] → ∃ acks, recvLoop sha1 .fresh (readings tr) = .ok (acks, .waiting c))) ∧
    (RTRun sha1 .init tr .dead → recvLoop sha1 .fresh (readings tr) = .panic ∨
      ((∃ acks b ok, recvLoop sha1 .fresh (readings tr) = .ok (acks, .finished b ok)) ∧ ∃ q d, readings tr = q ++ [some d] ∧ d.length < 5)) := by
  refine ⟨?_, ?_⟩
  · intro s h
    obtain ⟨e, f, hi⟩ := h.inv
    refine ⟨?_, ?_, ?_⟩
    · intro b ok hl
      obtain ⟨⟨acks, ha⟩, -⟩ := hi.finished b ok hl
      exact ⟨acks, by rw [hi.split]; exact recvLoop_over _ _ _ _ _ ha (by intro c h; cases h)⟩
    · intro hl
      obtain ⟨⟨acks, ha⟩, -⟩ := hi.gaveUp hl
      exact ⟨acks, by rw [hi.split]; exact recvLoop_over _ _ _ _ _ ha (by intro c h; cases h)⟩
    · intro c hl hc hp
      have hf := hi.parsed
      rw [hc, hp] at hf
      have hf : f = [] := List.map_eq_nil_iff.1 hf
      rw [hi.split, hf, List.append_nil]
      exact (hi.waiting c hl).1
  · intro h
    generalize hy : RTSys.dead = y at h
    cases h with
    | refl => cases hy
    | @step s tr e x hr hs =>
      subst hy
      obtain ⟨eaten, fl, hi⟩ := hr.inv
      rw [readings_append]
      generalize hz : RTSys.dead = z at hs
      cases hs with
      | read => cases hz
      | timeout => cases hz
      | send => cases hz
      | take => cases hz
      | takeNil => cases hz
      | readDies d hrd hp =>
        have hd : readPacket d = .panic := by
          rw [readPacket_eq] at hp ⊢
          split at hp
          · rename_i h; rw [if_pos h]
          · exact absurd rfl (hp _)
        have hd5 : d.length < 5 := by
          rw [readPacket_eq] at hd
          split at hd
          · assumption
          · cases hd
        rcases recvLoop_ok_or_panic (sha1 := sha1) (readings tr ++ readings [.datagram d]) with ⟨x, hx⟩ | hx
        · right
          refine ⟨?_, readings tr, d, rfl, hd5⟩
          rcases recvLoop_ok_or_panic (sha1 := sha1) (readings tr) with ⟨⟨acks, out⟩, hq⟩ | hq
          · rcases out with c | _ | ⟨b, ok⟩
            · rw [recvLoop_more _ _ _ _ _ hq] at hx
              simp only [readings] at hx
              rw [recvLoop_cons, hd] at hx
              cases hx
            · have := hi.ended.1 (recvLoop_closed_mem _ _ _ hq)
              rw [hrd] at this
              exact this.elim
            · exact ⟨acks, b, ok, recvLoop_over _ _ _ _ _ hq (by intro c h; cases h)⟩
          · exfalso
            obtain ⟨seen, d', rest, h1, h2, h3⟩ := (C20_panics_iff_partial sha1 _).1 hq
            have := (C20_panics_iff_partial sha1 (readings tr ++ readings [.datagram d])).2
              ⟨seen, d', rest ++ readings [.datagram d], by rw [h1]; simp, h2, h3⟩
            rw [this] at hx
            cases hx
        · exact .inl hx
      | takeDies c p rest hl hc hp =>
        left
        have hf := hi.parsed
        rw [hc] at hf
        cases fl with
        | nil => simp at hf
        | cons x fl =>
          simp only [List.map_cons, List.cons_append, List.cons.injEq] at hf
          obtain ⟨d, rfl, hd⟩ := readItem_ok hf.1
          obtain ⟨⟨acks, ha⟩, -⟩ := hi.waiting c hl
          rcases recvLoop_ok_or_panic (sha1 := sha1) (readings tr ++ readings [.tau]) with ⟨x, hx⟩ | hx
          · exfalso
            simp only [readings, List.append_nil] at hx
            rw [hi.split, recvLoop_more _ _ _ _ _ ha, recvLoop_cons, hd, Res.bind_ok] at hx
            rcases ho : onPacket sha1 c p with y | _ | _ | _ | _
            · exact hp _ ho
            all_goals (rw [ho] at hx; cases hx)
          · exact hx

theorem finished_step {s : RT} {e : REv} {x : RTSys} {b : Bytes} {ok : Bool} (hl : s.loop = .finished b ok) (hs : RTStep sha1 s e x) :
    (x = .dead ∧ s.reader = .reading ∧ ∃ d, e = .datagram d ∧ d.length < 5) ∨ ∃ s', x = .alive s' ∧ s'.loop = .finished b ok := by
  cases hs with
  | read => exact .inr ⟨_, rfl, hl⟩
  | readDies d hr hp =>
    refine .inl ⟨rfl, hr, d, rfl, ?_⟩
    rw [readPacket_eq] at hp
    split at hp
    · assumption
    · exact absurd rfl (hp _)
  | timeout => exact .inr ⟨_, rfl, hl⟩
  | send => exact .inr ⟨_, rfl, hl⟩
  | take c _ _ _ _ h => rw [hl] at h; cases h
  | takeDies c _ _ h => rw [hl] at h; cases h
  | takeNil c _ h => rw [hl] at h; cases h
end

/-- C77, in full: once the chunk has been received, whatever is read afterwards changes neither the result nor harms the daemon. -/
def C77_statement (sha1 : Bytes → Sha1Hash) : Prop :=
  ∀ tr s b ok, RTRun sha1 .init tr (.alive s) → s.loop = .finished b ok →
    ∀ tr' x, RTRun sha1 s tr' x → ∃ s', x = .alive s' ∧ s'.loop = .finished b ok

/-- C77, what holds: it is so if everything read afterwards is at least as long as a header. -/
theorem C77_partial (sha1 : Bytes → Sha1Hash) (s : RT) (b : Bytes) (ok : Bool) (hl : s.loop = .finished b ok) (tr : List REv) (x : RTSys)
    (h : RTRun sha1 s tr x) (hlen : ∀ d, .datagram d ∈ tr → 5 ≤ d.length) : ∃ s', x = .alive s' ∧ s'.loop = .finished b ok := by
  induction h with
  | refl => exact ⟨s, rfl, hl⟩
  | @step t tr e x hr hs ih =>
    obtain ⟨t', h1, h2⟩ := ih (fun d hd => hlen d (List.mem_append_left _ hd))
    cases h1
    rcases finished_step h2 hs with ⟨-, -, d, rfl, h5⟩ | h
    · have := hlen d (by simp)
      omega
    · exact h

/-- C77: the daemon dies afterwards exactly if the goroutine reads a datagram shorter than a header. -/
theorem C77_killed_iff_partial (sha1 : Bytes → Sha1Hash) (s : RT) (b : Bytes) (ok : Bool) (hl : s.loop = .finished b ok) (tr : List REv) (e : REv) :
    RTRun sha1 s (tr ++ [e]) .dead ↔
      (∃ s', RTRun sha1 s tr (.alive s') ∧ s'.reader = .reading) ∧ ∃ d, e = .datagram d ∧ d.length < 5 := by
  have hfin : ∀ tr s', RTRun sha1 s tr (.alive s') → s'.loop = .finished b ok := by
    intro tr s' h
    generalize hy : RTSys.alive s' = y at h
    induction h generalizing s' with
    | refl => cases hy; exact hl
    | step hr hs ih =>
      subst hy
      rcases finished_step (ih _ rfl) hs with ⟨h, -⟩ | ⟨s2, h, h2⟩
      · cases h
      · cases h; exact h2
  constructor
  · intro h
    generalize hu : tr ++ [e] = u at h
    generalize hy : RTSys.dead = y at h
    cases h with
    | refl => cases hy
    | @step t tr' e' x hr hs =>
      subst hy
      obtain ⟨rfl, h1⟩ := List.append_inj' hu rfl
      cases h1
      rcases finished_step (hfin _ _ hr) hs with ⟨-, h1, h2⟩ | ⟨_, h, -⟩
      · exact ⟨⟨t, hr, h1⟩, h2⟩
      · cases h
  · rintro ⟨⟨s', h1, h2⟩, d, rfl, h5⟩
    exact .step h1 (.readDies s' d h2 (by intro p; rw [readPacket_eq, if_pos h5]; intro h; cases h))

/-! ## A run: a chunk of one byte and its end marker -/

/-- The first packet of a chunk of one byte. -/
def exFirst (h : Sha1Hash) : Packet := ⟨0, h.1 ++ put32 1 ++ [7]⟩
/-- Its end marker. -/
def exEnd : Packet := ⟨1, []⟩

/-- The connection after the first packet. -/
def exConn (h : Sha1Hash) : RConn := ⟨some h, [7], 1⟩

theorem exFirst_length (h : Sha1Hash) : (exFirst h).data.length = 25 := by
  have := h.2
  simp [exFirst, put32, beBytes_length, this]

theorem exFirst_taken (sha1 : Bytes → Sha1Hash) (h : Sha1Hash) : onPacket sha1 .fresh (exFirst h) = .ok (exConn h, .ack 0) := by
  have hsp : splitFirst ⟨(exFirst h).data, (exFirst h).data.length⟩ = .ok (h, 1, [7]) := by
    have := C19_split h 1 [7] []
    simpa [exFirst] using this
  unfold onPacket
  rw [if_pos (show (exFirst h).offset = 0 from rfl), hsp]
  rfl

theorem exEnd_taken (sha1 : Bytes → Sha1Hash) (h : Sha1Hash) : onPacket sha1 (exConn h) exEnd = .ok (exConn h, .finish [7] (decide (sha1 [7] = h))) := rfl

/-- The loop has finished, the goroutine reads on, the channel is empty. -/
def exOver (sha1 : Bytes → Sha1Hash) (h : Sha1Hash) : RT := ⟨.reading, [], false, .finished [7] (decide (sha1 [7] = h))⟩

theorem exOver_run (sha1 : Bytes → Sha1Hash) (h : Sha1Hash) :
    RTRun sha1 .init [.datagram (exFirst h).bytes, .tau, .tau, .datagram exEnd.bytes, .tau, .tau] (.alive (exOver sha1 h)) := by
  have r1 : RTRun sha1 .init ([] ++ [.datagram (exFirst h).bytes]) (.alive ⟨.sending (some (exFirst h)), [], false, .waiting .fresh⟩) :=
    .step .refl (.read _ _ _ rfl (readPacket_bytes _ (by rw [exFirst_length]; decide)))
  have r2 := r1.step (.send _ (some (exFirst h)) rfl (by simp))
  have r3 := r2.step (.take _ _ _ _ _ _ rfl rfl (exFirst_taken sha1 h))
  have r4 := r3.step (.read _ exEnd.bytes exEnd rfl (readPacket_bytes _ (by decide)))
  have r5 := r4.step (.send _ (some exEnd) rfl (by simp))
  have r6 := r5.step (.take _ _ _ _ _ _ rfl rfl (exEnd_taken sha1 h))
  exact r6

/-- C77 is false: after the chunk has been received, an empty datagram from the same peer ends the daemon. -/
theorem C77_refuted (sha1 : Bytes → Sha1Hash) : ¬ C77_statement sha1 := by
  intro h
  obtain ⟨s', h1, -⟩ := h _ _ _ _ (exOver_run sha1 Sha1Hash.zero) rfl [.datagram []] .dead
    ((C77_killed_iff_partial sha1 _ _ _ rfl [] (.datagram [])).2 ⟨⟨_, .refl, rfl⟩, [], rfl, by decide⟩)
  cases h1

/-! ## C78 -/

/-- C78, in full: a transfer that has got nothing more to do has released its goroutine and its socket. -/
def C78_statement (sha1 : Bytes → Sha1Hash) : Prop :=
  ∀ tr s, RTRun sha1 .init tr (.alive s) → (∀ e x, ¬ RTStep sha1 s e x) → Released s

theorem datagrams_length : ∀ (l : List (Option Bytes)), (∀ a b, l = a ++ none :: b → b = []) →
    (none ∉ l → (datagrams l).length = l.length) ∧ (none ∈ l → (datagrams l).length + 1 = l.length) := by
  intro l
  induction l with
  | nil => intro _; exact ⟨fun _ => rfl, (by intro h; cases h)⟩
  | cons x l ih =>
    intro h
    obtain ⟨h1, h2⟩ := ih (fun a b e => h (x :: a) b (by rw [e]; rfl))
    cases x with
    | none =>
      have := h [] l rfl
      subst this
      exact ⟨fun h => absurd (.head _) h, fun _ => rfl⟩
    | some d =>
      simp only [datagrams, List.filterMap_cons, id, List.length_cons] at h1 h2 ⊢
      refine ⟨fun hn => ?_, fun hn => ?_⟩
      · rw [h1 (fun h => hn (.tail _ h))]
      · rw [h2 ((List.mem_cons.1 hn).resolve_left (by simp))]

theorem late_suffix (q : List (Option Bytes)) : ∃ pre, q = pre ++ late q := by
  induction q with
  | nil => exact ⟨[], rfl⟩
  | cons x q ih =>
    obtain ⟨pre, h⟩ := ih
    cases x with
    | none => exact ⟨none :: pre, by simp only [late, List.cons_append]; rw [← h]⟩
    | some d =>
      simp only [late]
      split
      · exact ⟨[some d], rfl⟩
      · exact ⟨some d :: pre, by simp only [List.cons_append]; rw [← h]⟩

/-- C78: the goroutine reads at most eleven datagrams after the end marker.  When ten have been read the goroutine never returns, and when eleven have been read the
socket is never closed, whatever happens afterwards. -/
theorem C78_leaks_partial (sha1 : Bytes → Sha1Hash) (tr : List REv) (s : RT) (h : RTRun sha1 .init tr (.alive s)) :
    (datagrams (late (readings tr))).length ≤ 11 ∧
    (10 ≤ (datagrams (late (readings tr))).length → s.reader ≠ .done) ∧
    (11 ≤ (datagrams (late (readings tr))).length → s.closed = false) := by
  obtain ⟨h1, h2, -, h4, h5, h6⟩ := h.late
  obtain ⟨pre, hpre⟩ := late_suffix (readings tr)
  obtain ⟨g1, g2⟩ := datagrams_length (late (readings tr)) (fun a b e => h6 (pre ++ a) b (by rw [List.append_assoc, ← e]; exact hpre))
  have hle : (datagrams (late (readings tr))).length ≤ (late (readings tr)).length := List.length_filterMap_le ..
  have hpen : s.reader.pending.length ≤ 1 := by cases s.reader <;> simp [Reader.pending]
  have hend : s.reader.Ended → 0 < (late (readings tr)).length → none ∈ late (readings tr) := by
    intro he hl
    have hm := h4.2 he
    rw [hpre] at hm
    rcases List.mem_append.1 hm with hm | hm
    · exfalso
      obtain ⟨a, b, hab⟩ := List.append_of_mem hm
      have := h6 a (b ++ late (readings tr)) (by
        rw [hab] at hpre
        rw [List.append_assoc, List.cons_append] at hpre
        exact hpre)
      have := congrArg List.length this
      simp only [List.length_append, List.length_nil] at this
      omega
    · exact hm
  refine ⟨by omega, ?_, ?_⟩
  · intro hk hd
    rw [hd] at h2 hend
    have := g2 (hend trivial (by omega))
    simp only [Reader.pending, List.length_nil] at h2
    omega
  · intro hk
    apply Classical.byContradiction
    intro hc
    have := g2 (hend (h5.1 (by simpa using hc)) (by omega))
    omega

/-- C78, what holds: a transfer that has got nothing more to do has received its chunk or given up.  If it gave up, everything is released.  If it received its chunk,
the goroutine has returned exactly if at most nine datagrams were read after the end marker, and the socket is closed exactly if at most ten were. -/
theorem C78_partial (sha1 : Bytes → Sha1Hash) (tr : List REv) (s : RT) (h : RTRun sha1 .init tr (.alive s)) (hst : ∀ e x, ¬ RTStep sha1 s e x) :
    (s.loop = .gaveUp ∧ Released s) ∨
    ((∃ b ok, s.loop = .finished b ok) ∧
      (s.reader = .done ↔ (datagrams (late (readings tr))).length ≤ 9) ∧ (s.closed = true ↔ (datagrams (late (readings tr))).length ≤ 10)) := by
  obtain ⟨k1, k2, k3⟩ := C78_leaks_partial sha1 tr s h
  obtain ⟨h1, h2, hfin, h4, h5, h6⟩ := h.late
  obtain ⟨eaten, fl, hi⟩ := h.inv
  obtain ⟨pre, hpre⟩ := late_suffix (readings tr)
  obtain ⟨g1, g2⟩ := datagrams_length (late (readings tr)) (fun a b e => h6 (pre ++ a) b (by rw [List.append_assoc, ← e]; exact hpre))
  have hr : s.reader ≠ .reading := fun hr => hst _ _ (.timeout s hr)
  have hsend : ∀ x, s.reader = .sending x → s.chan.length = 10 := by
    intro x hx
    rcases Nat.lt_or_ge s.chan.length 10 with h | h
    · exact absurd (.send s x hx h) (hst _ _)
    · omega
  rcases hl : s.loop with c | ⟨b, ok⟩ | _
  · exfalso
    have hempty : s.chan = [] := by
      rcases hc : s.chan with _ | ⟨x, rest⟩
      · rfl
      · cases x with
        | none => exact absurd (.takeNil s c rest hl hc) (hst _ _)
        | some p =>
          by_cases hp : ∃ x, onPacket sha1 c p = .ok x
          · obtain ⟨⟨c', act⟩, hp⟩ := hp
            exact absurd (.take s c c' p rest act hl hc hp) (hst _ _)
          · exact absurd (.takeDies s c p rest hl hc (fun x hx => hp ⟨x, hx⟩)) (hst _ _)
    rcases hrd : s.reader with _ | x | _
    · exact hr hrd
    · have := hsend x hrd
      rw [hempty] at this
      cases this
    · have hf := hi.parsed
      rw [hempty, hrd] at hf
      have hf : fl = [] := List.map_eq_nil_iff.1 hf
      have hm := h4.2 (by rw [hrd]; trivial)
      rw [hi.split, hf, List.append_nil] at hm
      exact (hi.waiting c hl).2.2 hm
  · right
    refine ⟨⟨b, ok, rfl⟩, ?_⟩
    have he := hfin b ok hl
    have hle : (datagrams (late (readings tr))).length ≤ (late (readings tr)).length := List.length_filterMap_le ..
    rcases hrd : s.reader with _ | x | _
    · exact absurd hrd hr
    · have h10 := hsend x hrd
      rw [hrd] at he h4 h5
      simp only [Reader.pending, List.length_singleton, h10] at he
      have hk9 : 10 ≤ (datagrams (late (readings tr))).length := by
        by_cases hm : none ∈ late (readings tr)
        · have := g2 hm; omega
        · have := g1 hm; omega
      refine ⟨⟨(by intro h; cases h), (by omega)⟩, ?_⟩
      cases x with
      | none =>
        have hc := h5.2 rfl
        refine ⟨fun _ => ?_, fun _ => hc⟩
        apply Classical.byContradiction
        intro hk
        rw [k3 (by omega)] at hc
        cases hc
      | some p =>
        have hm : none ∉ late (readings tr) := fun hm => by
          have := h4.1 (by rw [hpre]; exact List.mem_append_right _ hm)
          cases this
        have := g1 hm
        refine ⟨fun hc => ?_, fun _ => (by omega)⟩
        have := h5.1 hc
        cases this
    · have hc := h5.2 (by rw [hrd]; trivial)
      have : ¬ 10 ≤ (datagrams (late (readings tr))).length := fun h => k2 h hrd
      exact ⟨⟨fun _ => by omega, fun _ => rfl⟩, fun _ => by omega, fun _ => hc⟩
  · left
    refine ⟨rfl, ?_⟩
    obtain ⟨-, hm, -⟩ := hi.gaveUp hl
    have hf : fl = [] := by
      obtain ⟨a, b, hab⟩ := List.append_of_mem hm
      have := hi.last a (b ++ fl) (by rw [hi.split, hab]; simp)
      exact (List.append_eq_nil_iff.1 this).2
    have hp := hi.parsed
    rw [hf] at hp
    have hp := List.append_eq_nil_iff.1 (List.map_eq_nil_iff.1 hp.symm)
    have hE := h4.1 (by rw [hi.split]; exact List.mem_append_left _ hm)
    rcases hrd : s.reader with _ | x | _
    · exact absurd hrd hr
    · rw [hrd] at hp; exact absurd hp.2 (by simp [Reader.pending])
    · exact ⟨hrd, h5.2 hE⟩

/-- C78: a transfer that has received its chunk comes to rest within 22 more steps. -/
theorem C78_rests (sha1 : Bytes → Sha1Hash) (s : RT) (b : Bytes) (ok : Bool) (hl : s.loop = .finished b ok) (tr : List REv) (x : RTSys)
    (h : RTRun sha1 s tr x) : tr.length ≤ 22 := by
  let μ : RT → Nat := fun s => 2 * (10 - s.chan.length) + match s.reader with | .reading => 2 | .sending _ => 1 | .done => 0
  have key : ∀ tr x, RTRun sha1 s tr x → match x with
      | .alive s' => tr.length + μ s' ≤ μ s ∧ s'.loop = .finished b ok
      | .dead => tr.length ≤ μ s := by
    intro tr x h
    induction h with
    | refl => exact ⟨by simp, hl⟩
    | @step t tr e x hr hs ih =>
      obtain ⟨ih1, ih2⟩ := ih
      cases hs with
      | read d p hrd hp => refine ⟨?_, ih2⟩; simp only [μ, hrd, List.length_append, List.length_singleton] at ih1 ⊢; omega
      | readDies d hrd hp => show _ ≤ _; simp only [μ, hrd, List.length_append, List.length_singleton] at ih1 ⊢; omega
      | timeout hrd => refine ⟨?_, ih2⟩; simp only [μ, hrd, List.length_append, List.length_singleton] at ih1 ⊢; omega
      | send x hrd hc =>
        refine ⟨?_, ih2⟩
        simp only [μ, hrd, List.length_append, List.length_singleton] at ih1 ⊢
        cases x <;> simp <;> omega
      | take c _ _ _ _ h => rw [ih2] at h; cases h
      | takeDies c _ _ h => rw [ih2] at h; cases h
      | takeNil c _ h => rw [ih2] at h; cases h
  have hμ : μ s ≤ 22 := by
    simp only [μ]
    rcases s.reader with _ | _ | _ <;> simp only [] <;> omega
  have := key tr x h
  cases x with
  | alive s' => exact Nat.le_trans (Nat.le_trans (Nat.le_add_right _ _) this.1) hμ
  | dead => exact Nat.le_trans this hμ

theorem isEnd_bytes (p : Packet) (h : p.data.length ≤ 1024) : isEnd p.bytes ↔ IsEndPacket p := by
  have hl : p.bytes.length = p.data.length + 5 := (C19_size p.offset p.data h).1
  have hr := readPacket_bytes p h
  rw [readPacket_eq, if_neg (by omega)] at hr
  have ho : p.offset = UInt32.ofNat (dgOffset p.bytes) := by
    injection hr with hr
    exact (congrArg Packet.offset hr).symm
  unfold isEnd IsEndPacket
  rw [hl, ← List.length_eq_zero_iff, ho, Ne, Ne, ofNat_dgOffset_zero]
  constructor
  · rintro ⟨h1, h2⟩; exact ⟨h2, by omega⟩
  · rintro ⟨h1, h2⟩; exact ⟨by omega, h1⟩

theorem exFirst_not_end (h : Sha1Hash) : ¬ isEnd (exFirst h).bytes := by
  rw [isEnd_bytes _ (by rw [exFirst_length]; decide)]
  exact fun h => h.1 rfl

theorem exEnd_end : isEnd exEnd.bytes := (isEnd_bytes _ (by decide)).2 ⟨by decide, rfl⟩

/-- The transfer after `n` more end markers. -/
theorem ex_fill (sha1 : Bytes → Sha1Hash) (h : Sha1Hash) : ∀ n, n ≤ 10 → ∃ tr,
    readings tr = some (exFirst h).bytes :: some exEnd.bytes :: List.replicate n (some exEnd.bytes) ∧
    RTRun sha1 .init tr (.alive ⟨.reading, List.replicate n (some exEnd), false, .finished [7] (decide (sha1 [7] = h))⟩) := by
  intro n
  induction n with
  | zero => intro _; exact ⟨_, rfl, exOver_run sha1 h⟩
  | succ n ih =>
    intro hn
    obtain ⟨tr, h1, h2⟩ := ih (by omega)
    have h3 := (h2.step (.read _ exEnd.bytes exEnd rfl (readPacket_bytes _ (by decide)))).step (.send _ (some exEnd) rfl (by simp; omega))
    refine ⟨tr ++ [.datagram exEnd.bytes] ++ [.tau], ?_, ?_⟩
    rotate_left
    · simp only [List.replicate_succ']
      exact h3
    · rw [readings_append, readings_append, h1, List.replicate_succ']
      simp [readings]

/-- C78 is false: eleven end markers after the first, and the goroutine waits for ever with its socket open. -/
theorem C78_refuted (sha1 : Bytes → Sha1Hash) : ¬ C78_statement sha1 := by
  intro hst
  obtain ⟨tr, -, hr⟩ := ex_fill sha1 Sha1Hash.zero 10 (by decide)
  have h := hst _ _ (hr.step (.read _ exEnd.bytes exEnd rfl (readPacket_bytes _ (by decide)))) (by
    intro e x hx
    cases hx with
    | read d p hr hp => cases hr
    | readDies d hr hp => cases hr
    | timeout hr => cases hr
    | send x hr hc => simp at hc
    | take c c' p rest act hl => cases hl
    | takeDies c p rest hl => cases hl
    | takeNil c rest hl => cases hl)
  cases h.1

theorem waits_sends {content : Bytes} {start n : Nat} {cap : UInt16} {sha1 : Bytes → Sha1Hash} {ch : List AtChoice} {cr : ChunkReader}
    (hcr : newChunkReader sha1 content start n ch = some cr) (hn : n < 2 ^ 32) (hc : 0 < cap.toNat) {tr : List Ev} {s : Sender} (hu : Upload content false cr cap tr s)
    (hw : s.Waits content) (ha : 0 < acks tr) : cap.toNat + 1 ≤ (sends tr).length := by
  obtain ⟨m, h, hi⟩ := hu.inv hcr hn
  rw [h, List.length_map, List.length_range]
  have h1 := hi.count hc
  rcases hi.full hc with ⟨g1, -, -, g4, -⟩ | ⟨g1, ⟨k, g2, -⟩ | g2 | g2⟩
  · have := hw _ _ (.take s g4 (by omega))
    cases this
  · exact (turn_always g2 hw).elim
  · exact absurd (hu.alive hcr hn) g2
  · rw [← g2]; omega

/-- C78, what an honest peer does: its connection for a chunk of `S` bytes sends, once one acknowledgement has arrived and until it waits for more, so many end markers
that the goroutine of the downloader never returns, and keeps its socket, if all of it arrives (window 1024: for all chunks of up to 1012 packets, about one megabyte). -/
theorem C78_honest (sha1 : Bytes → Sha1Hash) (content : Bytes) (start n : Nat) (ch : List AtChoice) (cr : ChunkReader) (cap : UInt16)
    (hcr : newChunkReader sha1 content start n ch = some cr) (hn : n < 2 ^ 32) (hne : slice content start n ≠ [])
    (hc : endIndex (slice content start n).length + 11 ≤ cap.toNat)
    (tr : List Ev) (s : Sender) (hu : Upload content false cr cap tr s) (hw : s.Waits content) (ha : 0 < acks tr)
    (rtr : List REv) (t : RT) (hrt : RTRun sha1 .init rtr (.alive t)) (hall : readings rtr <+: (sends tr).map (fun p => some p.bytes) ++ [none]) :
    t.reader ≠ .done ∧ t.closed = false := by
  obtain ⟨k1, k2, k3⟩ := C78_leaks_partial sha1 rtr t hrt
  obtain ⟨-, -, -, h4, h5, -⟩ := hrt.late
  have hS : 0 < (slice content start n).length := List.length_pos_iff.2 hne
  have hS32 : (slice content start n).length < 2 ^ 32 := by
    have : (slice content start n).length ≤ n := by simp [slice]; omega
    omega
  have hlen := waits_sends hcr hn (by omega) hu hw ha
  obtain ⟨m, hm, -⟩ := hu.inv hcr hn
  rw [hm, List.length_map, List.length_range] at hlen
  -- the packets before the first end marker, the marker, and the rest
  generalize hE : endIndex (slice content start n).length = E at *
  generalize hst : stream (sha1 (slice content start n)) (slice content start n) = st at *
  have hbefore : ∀ k, k < E → ¬ isEnd (st k).bytes := by
    intro k hk
    rw [isEnd_bytes _ (by rw [← hst]; exact stream_length _ _ _)]
    rintro ⟨g1, g2⟩
    subst hst
    cases k with
    | zero => exact g1 rfl
    | succ k =>
      have := congrArg List.length g2
      have hlt := (pos_lt_iff (slice content start n).length k).2 (by omega)
      simp only [stream, List.length_take, List.length_drop, List.length_nil] at this
      omega
  have hat : isEnd (st E).bytes := by
    rw [isEnd_bytes _ (by rw [← hst]; exact stream_length _ _ _)]
    subst hst
    obtain ⟨k, rfl⟩ : ∃ k, E = k + 1 := ⟨E - 1, by unfold endIndex at hE; omega⟩
    have hp := (pos_eq_iff (slice content start n).length k).2 (by omega)
    refine ⟨?_, ?_⟩
    · simp only [stream, hp]
      intro h
      have := congrArg UInt32.toNat h
      rw [UInt32.toNat_ofNat', Nat.mod_eq_of_lt (by omega)] at this
      have : (slice content start n).length = 0 := this
      omega
    · simp only [stream, hp, List.drop_length, List.take_nil]
  have hall' : late ((sends tr).map (fun p => some p.bytes) ++ [none]) = ((List.range' (E + 1) (m - E)).map (fun k => some (st k).bytes)) ++ [none] := by
    have e1 : List.range (m + 1) = List.range E ++ E :: List.range' (E + 1) (m - E) := by
      rw [List.range_eq_range', List.range_eq_range', ← List.range'_succ]
      have := List.range'_append_1 (s := 0) (m := E) (n := m - E + 1)
      rw [Nat.zero_add] at this
      rw [this]
      congr 1
      omega
    rw [hm, e1]
    simp only [List.map_append, List.map_map, List.map_cons, List.append_assoc, List.cons_append]
    rw [late_none _ _ (by
      intro d hd
      obtain ⟨k, hk, he⟩ := List.mem_map.1 hd
      cases he
      exact hbefore k (List.mem_range.1 hk))]
    simp only [late]
    rw [if_pos hat]
    rfl
  -- had the goroutine seen an error, it would have read everything before
  have hnone : ¬ t.reader.Ended := by
    intro he
    have hmem := h4.2 he
    have hwhole : readings rtr = (sends tr).map (fun p => some p.bytes) ++ [none] := by
      obtain ⟨r, hr⟩ := hall
      obtain ⟨a, b, hab⟩ := List.append_of_mem hmem
      rcases List.eq_nil_or_concat r with rfl | ⟨r', x, rfl⟩
      · rw [← hr, List.append_nil]
      · exfalso
        rw [List.concat_eq_append, ← List.append_assoc] at hr
        obtain ⟨h1, -⟩ := List.append_inj' hr rfl
        have : none ∈ (sends tr).map (fun p => some p.bytes) := by rw [← h1, hab]; simp
        obtain ⟨p, -, hp⟩ := List.mem_map.1 this
        cases hp
    rw [hwhole, hall'] at k1
    have hd : datagrams ((List.range' (E + 1) (m - E)).map (fun k => some (st k).bytes) ++ [none]) =
        (List.range' (E + 1) (m - E)).map (fun k => (st k).bytes) := by
      simp [datagrams, List.filterMap_append, List.filterMap_map]
    rw [hwhole, hall', hd, List.length_map, List.length_range'] at k3
    have := k3 (by omega)
    rw [h5.2 he] at this
    cases this
  refine ⟨?_, ?_⟩
  · intro h; rw [h] at hnone; exact hnone trivial
  · rcases hcl : t.closed with _ | _
    · rfl
    · exact absurd (h5.1 hcl) hnone

/-- `C78_honest`: an upload that waits after one acknowledgement, with a window of twelve. -/
example (sha1 : Bytes → Sha1Hash) : ∃ tr s, Upload [7] false ⟨⟨0, 0, 1⟩, sha1 [7], 1⟩ 12 tr s ∧ s.Waits [7] ∧ acks tr = 1 ∧ (sends tr).length = 13 ∧
    endIndex (slice [7] 0 1).length + 11 ≤ (12 : UInt16).toNat := by
  have hrun : acts [7] ⟨⟨⟨0, 1, 1⟩, sha1 [7], 1⟩, 1, 12, 0, false, .select⟩
      [.arrive, .take, .turn, .turn, .turn, .turn, .turn, .turn, .turn, .turn, .turn, .turn, .turn, .turn, .turn, .terminate] =
      some ([.ack, .tau] ++ List.replicate 12 (.sent ⟨1, []⟩) ++ [.tau, .tau], exSender sha1 12 12 0 true (.defers 11 false)) := by
    simp [acts, act, kickTurn, ChunkReader.read, ChunkReader.offset, SectionReader.read, exSender, List.replicate_succ]
  refine ⟨_, _, ex_upload sha1 12 _ _ _ hrun, ?_, rfl, rfl, by decide⟩
  intro e s' hs
  cases hs with
  | arrive => rfl
  | take hw _ => cases hw
  | cancel hw _ => cases hw
  | turn _ _ _ hw _ => cases hw
  | terminate _ _ _ hc => cases hc
  | ret _ hw => cases hw

/-- With the window of the daemon: all chunks of up to 1037288 bytes. -/
example (S : Nat) (h : S ≤ 1037288) : endIndex S + 11 ≤ (1024 : UInt16).toNat := by
  show endIndex S + 11 ≤ 1024
  unfold endIndex
  omega

/-- `C78_leaks_partial`, `C78_partial`: ten late end markers. -/
example (sha1 : Bytes → Sha1Hash) (h : Sha1Hash) : ∃ tr s, RTRun sha1 .init tr (.alive s) ∧ (datagrams (late (readings tr))).length = 10 ∧ s.reader = .reading := by
  obtain ⟨tr, h1, h2⟩ := ex_fill sha1 h 10 (by decide)
  refine ⟨tr, _, h2, ?_, rfl⟩
  rw [h1]
  simp only [late, if_neg (exFirst_not_end h), if_pos exEnd_end]
  rfl

end Flu
