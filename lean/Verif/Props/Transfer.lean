import Verif.Model.Transfer
import Verif.Props.Sender
import Verif.Props.Receiver
/-!
# A chunk transfer over a reliable link (C42, C45)
-/
namespace Flu
open Spec

/-! ## The receiver fed with the packets of a chunk -/

/-- The index of the first end marker among the packets of a chunk of `S` bytes. -/
def Spec.endIndex (S : Nat) : Nat := (S - 1000 + 1023) / 1024 + 1

theorem pos_lt_iff (S k : Nat) : pos S k < S ↔ k + 1 < endIndex S := by
  unfold pos endIndex; omega

theorem pos_eq_iff (S k : Nat) : pos S k = S ↔ endIndex S ≤ k + 1 := by
  unfold pos endIndex; omega

/-- The receiver after the first `r` packets. -/
def Held (h : Sha1Hash) (sec : Bytes) : Nat → RConn → Prop
  | 0, c => c = .fresh
  | k + 1, c => c.hash = some h ∧ c.buffer = sec.take (pos sec.length k) ++ List.replicate (sec.length - pos sec.length k) 0

theorem stream_length (h : Sha1Hash) (sec : Bytes) (k : Nat) : (stream h sec k).data.length ≤ 1024 := by
  cases k with
  | zero =>
    show (h.1 ++ put32 _ ++ sec.take 1000).length ≤ 1024
    have := h.2
    simp only [List.length_append, put32, beBytes_length, List.length_take]
    omega
  | succ k =>
    show ((sec.drop _).take 1024).length ≤ 1024
    rw [List.length_take]; omega

/-- C19: every packet sent on an upload fits the receiver's buffer and is read back there as it was sent. -/
theorem C19_sender (sha1 : Bytes → Sha1Hash) (content : Bytes) (start n : Nat) (ch : List AtChoice) (cr : ChunkReader)
    (hcr : newChunkReader sha1 content start n ch = some cr) (hn : n < 2 ^ 32) (faults : Bool) (cap : UInt16) (tr : List Ev) (s : Sender)
    (hu : Upload content faults cr cap tr s) (p : Packet) (hp : p ∈ sends tr) : p.bytes.length ≤ 1029 ∧ readPacket p.bytes = .ok p := by
  obtain ⟨m, h⟩ := C40_order sha1 content start n ch cr hcr hn faults cap tr s hu
  rw [h, List.mem_map] at hp
  obtain ⟨k, -, rfl⟩ := hp
  exact ⟨(C19_size _ _ (stream_length _ _ _)).2, readPacket_bytes _ (stream_length _ _ _)⟩

/-- `C19_sender`: an upload with three packets. -/
example (sha1 : Bytes → Sha1Hash) : ∃ ch tr s, newChunkReader sha1 [7] 0 1 ch = some ⟨⟨0, 0, 1⟩, sha1 [7], 1⟩ ∧ Upload [7] false ⟨⟨0, 0, 1⟩, sha1 [7], 1⟩ 2 tr s ∧
    (sends tr).length = 3 :=
  ⟨_, _, _, ex_reader sha1, ex_upload sha1 2 _ _ _ (ex_run1 sha1), rfl⟩

theorem copyAt_fill (sec : Bytes) (p k : Nat) (hp : p ≤ sec.length) :
    copyAt (sec.take p ++ List.replicate (sec.length - p) 0) p ((sec.drop p).take k) =
      .ok (sec.take (p + min k (sec.length - p)) ++ List.replicate (sec.length - (p + min k (sec.length - p))) 0) := by
  have hl : (sec.take p).length = p := by rw [List.length_take]; omega
  have hd : ((sec.drop p).take k).length = min k (sec.length - p) := by simp
  unfold copyAt
  rw [if_neg (by rw [List.length_append, hl, List.length_replicate]; omega), List.length_append, hl, List.length_replicate, hd]
  congr 1
  have h0 : ((sec.drop p).take k).take (p + (sec.length - p) - p) = (sec.drop p).take k := List.take_of_length_le (by rw [hd]; omega)
  have h1 : (sec.take p ++ List.replicate (sec.length - p) (0 : UInt8)).take p = sec.take p := List.take_left' hl
  have h2 : (sec.take p ++ List.replicate (sec.length - p) (0 : UInt8)).drop (p + min k (sec.length - p)) =
      List.replicate (sec.length - (p + min k (sec.length - p))) 0 := by
    rw [← List.drop_drop, List.drop_left' hl, List.drop_replicate]
    congr 1
    omega
  rw [h0, h1, h2]
  have h3 : (sec.drop p).take k = (sec.drop p).take (min k (sec.length - p)) := by
    rcases Nat.le_total k (sec.length - p) with h | h
    · rw [Nat.min_eq_left h]
    · rw [Nat.min_eq_right h, List.take_of_length_le (by rw [List.length_drop]; omega), List.take_of_length_le (by rw [List.length_drop]; omega)]
  rw [h3, List.take_add]

theorem recv_stream (sha1 : Bytes → Sha1Hash) (sec : Bytes) (hsec : sec.length < 2 ^ 32) (hne : sec ≠ []) (r : Nat) (c : RConn)
    (hr : r ≤ endIndex sec.length) (hc : Held (sha1 sec) sec r c) :
    (r < endIndex sec.length ∧ ∃ c', recvDatagram sha1 c (stream (sha1 sec) sec r).bytes = (.waiting c', 1) ∧ Held (sha1 sec) sec (r + 1) c') ∨
    (r = endIndex sec.length ∧ recvDatagram sha1 c (stream (sha1 sec) sec r).bytes = (.finished sec true, 0)) := by
  have hS : 0 < sec.length := List.length_pos_iff.2 hne
  unfold recvDatagram
  rw [readPacket_bytes _ (stream_length _ _ _), Res.bind_ok]
  cases r with
  | zero =>
    left
    refine ⟨by unfold endIndex; omega, ?_⟩
    have hs := C19_split (sha1 sec) (UInt32.ofNat sec.length) (sec.take 1000) []
    rw [List.append_nil] at hs
    have hsz : (UInt32.ofNat sec.length).toNat = sec.length := by rw [UInt32.toNat_ofNat']; exact Nat.mod_eq_of_lt hsec
    have hcp := copyAt_fill sec 0 1000 (Nat.zero_le _)
    simp only [List.take_zero, List.nil_append, Nat.sub_zero, List.drop_zero, Nat.zero_add] at hcp
    unfold onPacket stream
    rw [if_pos rfl]
    simp only []
    rw [hs, Res.bind_ok]
    simp only [hsz]
    rw [hcp, Res.bind_ok]
    refine ⟨_, rfl, rfl, ?_⟩
    show _ = sec.take (pos sec.length 0) ++ _
    have : pos sec.length 0 = min 1000 sec.length := by unfold pos; omega
    rw [this]
  | succ k =>
    obtain ⟨h1, h2⟩ := hc
    have hple := pos_le sec.length k
    have hoff : (UInt32.ofNat (pos sec.length k)).toNat = pos sec.length k := by
      rw [UInt32.toNat_ofNat']; exact Nat.mod_eq_of_lt (by omega)
    have hoff0 : UInt32.ofNat (pos sec.length k) ≠ 0 := by
      intro e
      rw [e] at hoff
      have : pos sec.length k = 0 := hoff.symm
      unfold pos at this
      omega
    have hdl : ((sec.drop (pos sec.length k)).take 1024).length = min 1024 (sec.length - pos sec.length k) := by simp
    unfold onPacket stream
    rw [if_neg hoff0]
    simp only []
    by_cases hlt : pos sec.length k < sec.length
    · left
      refine ⟨(pos_lt_iff _ _).1 hlt, ?_⟩
      rw [if_pos (by rw [hdl]; omega), hoff, h2, copyAt_fill _ _ _ hple, Res.bind_ok, pos_succ]
      exact ⟨_, rfl, h1, rfl⟩
    · right
      have hpe : pos sec.length k = sec.length := by omega
      refine ⟨by have := (pos_eq_iff _ _).1 hpe; omega, ?_⟩
      rw [if_neg (by rw [hdl]; omega), h1]
      simp only [Res.pure_eq]
      have hb : c.buffer = sec := by rw [h2, hpe]; simp
      rw [hb]
      simp

/-! ## The invariant -/

/-- What the receiver knows after `r` packets, `a` acknowledgements having arrived and `acks` being under way. -/
def RInv (sha1 : Bytes → Sha1Hash) (sec : Bytes) (r a acks : Nat) : RState → Prop
  | .waiting c => r ≤ endIndex sec.length ∧ a + acks = r ∧ Held (sha1 sec) sec r c
  | .finished b ok => r = endIndex sec.length + 1 ∧ a + acks = endIndex sec.length ∧ b = sec ∧ ok = true
  | .gaveUp => True
  | .dead => False

structure TInv (sha1 : Bytes → Sha1Hash) (content : Bytes) (start n : Nat) (cap : UInt16) (m a r : Nat) (l : Link) : Prop where
  sender : SInv content start n cap m a l.sender
  le : r ≤ m + 1
  net : l.net = ((List.range (m + 1)).drop r).map (fun i => (stream (sha1 (slice content start n)) (slice content start n) i).bytes)
  recv : RInv sha1 (slice content start n) r a l.acks l.recv

section
variable {sha1 : Bytes → Sha1Hash} {content : Bytes} {faults : Bool} {start n : Nat} {cap : UInt16}

theorem tinv_step (hn : n < 2 ^ 32) (hne : slice content start n ≠ []) {l l' : Link} (hs : LStep sha1 content faults l l') {m a r : Nat}
    (hi : TInv sha1 content start n cap m a r l) :
    (SStep content faults l.sender .tau l'.sender ∧ TInv sha1 content start n cap m a r l' ∧ l'.recv = l.recv) ∨
    (∃ p, SStep content faults l.sender (.sent p) l'.sender ∧ TInv sha1 content start n cap (m + 1) a r l' ∧ l'.recv = l.recv) ∨
    (l'.sender = { l.sender with pending := l.sender.pending + 1 } ∧ l'.recv = l.recv ∧ TInv sha1 content start n cap m (a + 1) r l') ∨
    (∃ c, l'.sender = l.sender ∧ l.recv = .waiting c ∧ TInv sha1 content start n cap m a (r + 1) l') ∨
    (faults = true ∧ l'.sender = l.sender ∧ TInv sha1 content start n cap m a r l') := by
  have hsl := slice_length_le content start n
  cases hs with
  | sender e s he hs =>
    rcases sinv_step hn hs (sha1 (slice content start n)) hi.sender with ⟨rfl, -⟩ | ⟨rfl, k⟩ | ⟨rfl, k⟩
    · exact absurd rfl he
    · exact .inl ⟨hs, ⟨k, hi.le, by rw [← hi.net]; simp [Ev.wire], hi.recv⟩, rfl⟩
    · refine .inr (.inl ⟨_, hs, ⟨k, Nat.le_succ_of_le hi.le, ?_, hi.recv⟩, rfl⟩)
      rw [List.range_succ, List.drop_append_of_le_length (by rw [List.length_range]; exact hi.le), List.map_append, ← hi.net]
      rfl
  | ack s hs ha =>
    have hs0 := hs
    rcases sinv_step hn hs (sha1 (slice content start n)) hi.sender with ⟨-, k⟩ | ⟨h, -⟩ | ⟨h, -⟩
    · refine .inr (.inr (.inl ⟨?_, rfl, ⟨k, hi.le, hi.net, ?_⟩⟩))
      · generalize he : Ev.ack = e at hs0
        cases hs0 with
        | arrive => rfl
        | turn ends rd sends hw hf =>
          exfalso
          unfold kickTurn at he
          split at he
          · split at he
            · simp only [] at he
              split at he
              · cases he
              · split at he <;> cases he
            · cases he
          · cases he
        | _ => cases he
      · have := hi.recv
        revert this
        unfold RInv
        cases l.recv with
        | waiting c => rintro ⟨h1, h2, h3⟩; exact ⟨h1, by show a + 1 + (l.acks - 1) = r; omega, h3⟩
        | finished b ok => rintro ⟨h1, h2, h3⟩; exact ⟨h1, by show a + 1 + (l.acks - 1) = _; omega, h3⟩
        | gaveUp => exact id
        | dead => exact id
    · cases h
    · cases h
  | receive c d rest hr hnet =>
    refine .inr (.inr (.inr (.inl ⟨c, rfl, hr, ?_⟩)))
    have hrecv := hi.recv
    rw [hr] at hrecv
    obtain ⟨h1, h2, h3⟩ := hrecv
    have hnn := hi.net
    rw [hnet] at hnn
    have hlt : r < m + 1 := by
      apply Classical.byContradiction
      intro hge
      rw [List.drop_eq_nil_of_le (by rw [List.length_range]; omega)] at hnn
      cases hnn
    rw [List.drop_eq_getElem_cons (by rw [List.length_range]; exact hlt), List.map_cons, List.getElem_range] at hnn
    injection hnn with hd hrest
    refine ⟨hi.sender, hlt, hrest, ?_⟩
    show RInv sha1 _ (r + 1) a (l.acks + (recvDatagram sha1 c d).2) (recvDatagram sha1 c d).1
    rcases recv_stream sha1 (slice content start n) (by omega) hne r c h1 h3 with ⟨g1, c', g2, g3⟩ | ⟨g1, g2⟩
    · rw [hd, g2]; exact ⟨g1, by show a + (l.acks + 1) = r + 1; omega, g3⟩
    · rw [hd, g2]; exact ⟨by omega, by show a + (l.acks + 0) = _; omega, rfl, rfl⟩
  | timeout c hr hf => exact .inr (.inr (.inr (.inr ⟨hf, rfl, hi.sender, hi.le, hi.net, trivial⟩)))

theorem Transfer.start_inv {ch : List AtChoice} {cr : ChunkReader} (hcr : newChunkReader sha1 content start n ch = some cr) (hn : n < 2 ^ 32)
    {rd : AtChoice} {p : Packet} {s0 : Sender} (hk : kickstart content (newSender cr cap) cr.hash cr.size rd true = (.ok p, s0)) :
    TInv sha1 content start n cap 0 0 0 ⟨s0, [p.bytes], 0, .waiting .fresh⟩ := by
  obtain ⟨h1, h2, -, h4⟩ := C23_describes sha1 content start n ch cr hcr
  rcases kickstart_new content cr start n cap h4 h2 hn rd true with ⟨⟨s1, hs1⟩, -⟩ | ⟨s1, hs1, hinv⟩
  · rw [hs1] at hk; cases hk
  rw [hs1] at hk
  rw [h1] at hk
  simp only [Prod.mk.injEq, Res.ok.injEq] at hk
  obtain ⟨rfl, rfl⟩ := hk
  exact ⟨hinv, by omega, rfl, by omega, rfl, rfl⟩

theorem Transfer.inv {ch : List AtChoice} {cr : ChunkReader} (hcr : newChunkReader sha1 content start n ch = some cr) (hn : n < 2 ^ 32)
    (hne : slice content start n ≠ []) {k : Nat} {l : Link} (ht : Transfer sha1 content faults cr cap k l) :
    ∃ m a r, TInv sha1 content start n cap m a r l := by
  obtain ⟨rd, p, s0, -, hk, hrun⟩ := ht
  induction hrun with
  | refl => exact ⟨0, 0, 0, Transfer.start_inv hcr hn hk⟩
  | step _ hs ih =>
    obtain ⟨m, a, r, hi⟩ := ih
    rcases tinv_step hn hne hs hi with ⟨_, h, _⟩ | ⟨_, _, h, _⟩ | ⟨_, _, h⟩ | ⟨_, _, _, h⟩ | ⟨_, _, h⟩
    all_goals exact ⟨_, _, _, h⟩

theorem Transfer.alive {ch : List AtChoice} {cr : ChunkReader} (hcr : newChunkReader sha1 content start n ch = some cr) (hn : n < 2 ^ 32)
    (hne : slice content start n ≠ []) {k : Nat} {l : Link} (ht : Transfer sha1 content false cr cap k l) : l.sender.worker.Alive := by
  obtain ⟨rd, p, s0, hf, hk, hrun⟩ := ht
  induction hrun with
  | refl => exact Upload.alive hcr hn ⟨rd, p, s0, [], hf, hk, .refl _, rfl⟩
  | step hrun hs ih =>
    obtain ⟨m, a, r, hi⟩ := Transfer.inv hcr hn hne ⟨rd, p, s0, hf, hk, hrun⟩
    cases hs with
    | sender e s he hs => exact alive_of_good hs start n hn _ (pos_le _ _) (hi.sender.reader ih) ih
    | ack s hs ha => exact alive_of_good hs start n hn _ (pos_le _ _) (hi.sender.reader ih) ih
    | receive _ _ _ _ _ => exact ih
    | timeout _ _ _ => exact ih

/-- C42: on a reliable link, in every interleaving, with reads and writes failing at any time and the receiver giving up at any time: the receiver does not panic, and
if it finishes, what it hands to the catalogue is the chunk, and the hash check succeeds.  The sender does not panic unless a read or write fails. -/
theorem C42_delivers (ch : List AtChoice) (cr : ChunkReader) (hcr : newChunkReader sha1 content start n ch = some cr) (hn : n < 2 ^ 32)
    (hne : slice content start n ≠ []) (k : Nat) (l : Link) (ht : Transfer sha1 content faults cr cap k l) :
    l.recv ≠ .dead ∧ (faults = false → l.sender.worker ≠ .dead) ∧ ∀ b ok, l.recv = .finished b ok → b = slice content start n ∧ ok = true := by
  obtain ⟨m, a, r, hi⟩ := ht.inv hcr hn hne
  have := hi.recv
  refine ⟨?_, ?_, ?_⟩
  · intro h; rw [h] at this; exact this
  · rintro rfl h
    have := ht.alive hcr hn hne
    rw [h] at this
    exact this
  · intro b ok h
    rw [h] at this
    exact this.2.2

/-! ## Without faults: executions are finite -/

/-- Steps the worker can still take by itself. -/
def Worker.rank : Worker → Nat
  | .select => 1
  | .loop k => 2 * k + 3
  | .defers k _ => 2 * k + 2
  | .exited => 0
  | .dead => 0

/-- Decreases with every step. -/
def Sender.budget (s : Sender) : Nat := 10 * s.pending + s.worker.rank + (if s.cancel then 1 else 0)

theorem tau_budget {s s' : Sender} (hs : SStep content false s .tau s') (hr : ∃ p, p ≤ (slice content start n).length ∧ (s.worker.Alive → s.reader.reader = ⟨start, start + p, start + n⟩))
    (hn : n < 2 ^ 32) (ha : s.worker.Alive) : s'.budget < s.budget := by
  generalize he : Ev.tau = e at hs
  unfold Sender.budget
  cases hs with
  | arrive => cases he
  | take hw hp =>
    rw [hw]
    show 10 * (s.pending - 1) + (2 * 0 + 3) + (if s.cancel = true then 1 else 0) < 10 * s.pending + 1 + (if s.cancel = true then 1 else 0)
    omega
  | cancel hw hc =>
    rw [hw, hc]
    show 10 * s.pending + 0 + 0 < 10 * s.pending + 1 + 1
    omega
  | turn ends rd sends hw hf =>
    obtain ⟨rfl, rfl⟩ := hf rfl
    obtain ⟨p, hp, hr⟩ := hr
    unfold kickTurn at he ⊢
    split at he
    · rw [read_good content s.reader start n p 1024 (hr ha) hp hn] at he
      simp only [] at he
      rw [if_neg (by split <;> simp)] at he
      cases he
    · rename_i h
      rw [if_neg h, hw]
      show 10 * s.pending + (2 * ends + 2) + (if s.cancel = true then 1 else 0) < 10 * s.pending + (2 * ends + 3) + (if s.cancel = true then 1 else 0)
      omega
  | terminate left failed hw hc =>
    rw [hw, hc]
    show 10 * s.pending + (2 * left + 2) + 1 < 10 * s.pending + (2 * (left + 1) + 2) + 0
    omega
  | ret failed hw =>
    rw [hw]
    have : (if failed then Worker.dead else Worker.select).rank ≤ 1 := by cases failed <;> simp [Worker.rank]
    show 10 * s.pending + (if failed then Worker.dead else Worker.select).rank + (if s.cancel = true then 1 else 0) < 10 * s.pending + (2 * 0 + 2) + (if s.cancel = true then 1 else 0)
    omega

theorem sent_facts {s s' : Sender} {p : Packet} (hs : SStep content faults s (.sent p) s') :
    s'.budget ≤ s.budget + 2 ∧ s.windowSize < s.windowCap ∧ s'.windowSize = s.windowSize + 1 ∧ (∃ k, s.worker = .loop k) ∧ (∃ k, s'.worker = .loop k) := by
  generalize he : Ev.sent p = e at hs
  cases hs with
  | turn ends rd sends hw hf =>
    unfold kickTurn at he ⊢
    split at he
    · rename_i hlt
      rw [if_pos hlt]
      revert he
      split
      · simp only []
        split
        · intro he; cases he
        · split
          · intro _
            refine ⟨?_, hlt, rfl, ⟨_, hw⟩, ⟨_, rfl⟩⟩
            unfold Sender.budget
            rw [hw]
            simp only [Worker.rank]
            split <;> omega
          · intro he; cases he
      · intro he; cases he
    · cases he
  | _ => cases he

/-- The invariant of executions without faults. -/
structure FInv (sha1 : Bytes → Sha1Hash) (content : Bytes) (start n : Nat) (cap : UInt16) (m a r : Nat) (l : Link) : Prop where
  inv : TInv sha1 content start n cap m a r l
  alive : l.sender.worker.Alive
  stays : l.recv ≠ .gaveUp

theorem FInv.bounds {m a r : Nat} {l : Link} (hi : FInv sha1 content start n cap m a r l) (hc : 0 < cap.toNat) :
    a ≤ endIndex (slice content start n).length ∧ r ≤ endIndex (slice content start n).length + 1 ∧
      m < endIndex (slice content start n).length + cap.toNat := by
  have h1 := hi.inv.sender.count hc
  have h2 := hi.inv.sender.window hc
  have h3 := hi.inv.recv
  have h4 := hi.stays
  revert h3 h4
  unfold RInv
  cases l.recv with
  | waiting c => rintro ⟨g1, g2, -⟩ -; omega
  | finished b ok => rintro ⟨g1, g2, -⟩ -; omega
  | gaveUp => intro _ h; exact absurd rfl h
  | dead => intro h; exact h.elim

/-- Bounds the number of steps still to come. -/
def remaining (S : Nat) (cap : UInt16) (m a r : Nat) (l : Link) : Nat :=
  10 * (endIndex S + cap.toNat - m) + 11 * (endIndex S - a) + (endIndex S + 1 - r) + l.sender.budget

theorem finv_step (hn : n < 2 ^ 32) (hc : 0 < cap.toNat) (hne : slice content start n ≠ []) {l l' : Link} (hs : LStep sha1 content false l l') {m a r : Nat}
    (hi : FInv sha1 content start n cap m a r l) :
    ∃ m' a' r', FInv sha1 content start n cap m' a' r' l' ∧
      remaining (slice content start n).length cap m' a' r' l' < remaining (slice content start n).length cap m a r l ∧
      ((m' = m ∧ SStep content false l.sender .tau l'.sender) ∨ (m' = m + 1 ∧ ∃ p, SStep content false l.sender (.sent p) l'.sender) ∨
       (m' = m ∧ l'.sender.worker = l.sender.worker ∧ l'.sender.windowSize = l.sender.windowSize)) := by
  have hb := hi.bounds hc
  have hal : ∀ {e}, SStep content false l.sender e l'.sender → l'.sender.worker.Alive := fun h =>
    alive_of_good h start n hn _ (pos_le _ _) (hi.inv.sender.reader hi.alive) hi.alive
  rcases tinv_step hn hne hs hi.inv with ⟨h1, h2, h3⟩ | ⟨p, h1, h2, h3⟩ | ⟨h1, h3, h2⟩ | ⟨c, h1, h3, h2⟩ | ⟨h, -⟩
  · refine ⟨m, a, r, ⟨h2, hal h1, by rw [h3]; exact hi.stays⟩, ?_, .inl ⟨rfl, h1⟩⟩
    have := tau_budget h1 ⟨_, pos_le _ _, hi.inv.sender.reader⟩ hn hi.alive
    unfold remaining
    omega
  · have hf : FInv sha1 content start n cap (m + 1) a r l' := ⟨h2, hal h1, by rw [h3]; exact hi.stays⟩
    refine ⟨m + 1, a, r, hf, ?_, .inr (.inl ⟨rfl, p, h1⟩)⟩
    have := (sent_facts h1).1
    have := (hf.bounds hc).2.2
    unfold remaining
    omega
  · have hf : FInv sha1 content start n cap m (a + 1) r l' := ⟨h2, by rw [h1]; exact hi.alive, by rw [h3]; exact hi.stays⟩
    refine ⟨m, a + 1, r, hf, ?_, .inr (.inr ⟨rfl, by rw [h1], by rw [h1]⟩)⟩
    have := (hf.bounds hc).1
    have hbud : l'.sender.budget = l.sender.budget + 10 := by rw [h1]; unfold Sender.budget; simp only []; omega
    unfold remaining
    omega
  · have hf : FInv sha1 content start n cap m a (r + 1) l' := by
      refine ⟨h2, by rw [h1]; exact hi.alive, ?_⟩
      intro hg
      cases hs with
      | sender _ _ _ _ => rw [h3] at hg; cases hg
      | ack _ _ _ => rw [h3] at hg; cases hg
      | receive c' d rest hr hnet =>
        have hg : (recvDatagram sha1 c' d).1 = .gaveUp := hg
        unfold recvDatagram at hg
        split at hg <;> cases hg
      | timeout _ _ hf => cases hf
    refine ⟨m, a, r + 1, hf, ?_, .inr (.inr ⟨rfl, by rw [h1], by rw [h1]⟩)⟩
    have := (hf.bounds hc).2.1
    unfold remaining
    rw [h1]
    omega
  · cases h

theorem Transfer.start_finv {ch : List AtChoice} {cr : ChunkReader} (hcr : newChunkReader sha1 content start n ch = some cr) (hn : n < 2 ^ 32)
    {rd : AtChoice} {p : Packet} {s0 : Sender} (hrd : rd = .good) (hk : kickstart content (newSender cr cap) cr.hash cr.size rd true = (.ok p, s0)) :
    FInv sha1 content start n cap 0 0 0 ⟨s0, [p.bytes], 0, .waiting .fresh⟩ ∧ s0.budget = 1 := by
  have hcr0 := hcr
  refine ⟨⟨Transfer.start_inv hcr hn hk, ?_, by intro h; cases h⟩, ?_⟩
  · exact Upload.alive hcr hn ⟨rd, p, s0, [], fun _ => hrd, hk, .refl _, rfl⟩
  · unfold kickstart at hk
    simp only [] at hk
    split at hk
    · split at hk
      · cases hk
      · injection hk with _ hk
        rw [← hk]
        rfl
    · cases hk

theorem Transfer.finv {ch : List AtChoice} {cr : ChunkReader} (hcr : newChunkReader sha1 content start n ch = some cr) (hn : n < 2 ^ 32) (hc : 0 < cap.toNat)
    (hne : slice content start n ≠ []) {k : Nat} {l : Link} (ht : Transfer sha1 content false cr cap k l) :
    ∃ m a r, FInv sha1 content start n cap m a r l ∧ k + remaining (slice content start n).length cap m a r l ≤
      22 * endIndex (slice content start n).length + 10 * cap.toNat + 2 := by
  obtain ⟨rd, p, s0, hf, hk, hrun⟩ := ht
  induction hrun with
  | refl =>
    obtain ⟨h1, h2⟩ := Transfer.start_finv hcr hn (hf rfl) hk
    refine ⟨0, 0, 0, h1, ?_⟩
    unfold remaining
    show 0 + (_ + s0.budget) ≤ _
    rw [h2]
    omega
  | step _ hs ih =>
    obtain ⟨m, a, r, hi, hle⟩ := ih
    obtain ⟨m', a', r', h1, h2, -⟩ := finv_step hn hc hne hs hi
    exact ⟨m', a', r', h1, by omega⟩

/-! ## C45 -/

/-- C45, full statement: every execution without faults is finite, and one that cannot go on has delivered the chunk. -/
def C45_statement (sha1 : Bytes → Sha1Hash) : Prop :=
  ∀ (content : Bytes) (start n : Nat) (ch : List AtChoice) (cr : ChunkReader), newChunkReader sha1 content start n ch = some cr → n < 2 ^ 32 →
    slice content start n ≠ [] → ∀ (cap : UInt16), 0 < cap.toNat →
    (∃ N, ∀ k l, Transfer sha1 content false cr cap k l → k ≤ N) ∧
    ∀ k l, Transfer sha1 content false cr cap k l → (∀ l', ¬ LStep sha1 content false l l') → l.recv = .finished (slice content start n) true

/-- The chunk is the short last one, its last data packet is not the first packet and not full, and there are at least as many data packets after the first
as the window holds. -/
def Spec.CanStall (S n cap : Nat) : Prop := S < n ∧ 1000 < S ∧ (S - 1000) % 1024 ≠ 0 ∧ cap ≤ (S - 1000 + 1023) / 1024

theorem canStall_of (S n cap j : Nat) (hSn : S ≤ n) (h1 : endAt S n 1024 (pos S j) = true) (h2 : pos S j < S) (h3 : cap ≤ j + 1) : CanStall S n cap := by
  have h4 : S < n ∧ S - pos S j < 1024 ∨ n ≤ pos S j := by
    unfold endAt at h1
    rw [Bool.or_eq_true, decide_eq_true_eq, decide_eq_true_eq] at h1
    omega
  unfold CanStall
  unfold pos at *
  omega

theorem endReads_pos {S n m : Nat} (h : 1 ≤ endReads S n m) : ∃ j, j < m ∧ endAt S n 1024 (pos S j) = true := by
  induction m with
  | zero => simp [endReads] at h
  | succ m ih =>
    by_cases hm : endAt S n 1024 (pos S m) = true
    · exact ⟨m, by omega, hm⟩
    · rw [endReads, if_neg hm] at h
      obtain ⟨j, h1, h2⟩ := ih h
      exact ⟨j, by omega, h2⟩

theorem stuck_finv (hc : 0 < cap.toNat) {l : Link} {m a r : Nat}
    (hi : FInv sha1 content start n cap m a r l) (hstuck : ∀ l', ¬ LStep sha1 content false l l') :
    l.recv = .finished (slice content start n) true ∨ CanStall (slice content start n).length n cap.toNat := by
  have hrecv := hi.inv.recv
  rcases hr : l.recv with c | ⟨b, ok⟩ | _ | _
  · right
    rw [hr] at hrecv
    obtain ⟨h1, h2, -⟩ := hrecv
    have hnet : l.net = [] := by
      rcases hn : l.net with _ | ⟨d, rest⟩
      · rfl
      · exact absurd (.receive l c d rest hr hn) (hstuck _)
    have hacks : l.acks = 0 := by
      apply Classical.byContradiction
      intro h
      exact hstuck _ (.ack l _ (.arrive _) (by omega))
    have hrm : r = m + 1 := by
      have := congrArg List.length hi.inv.net
      rw [hnet, List.length_map, List.length_drop, List.length_range] at this
      have := hi.inv.le
      rw [List.length_nil] at *
      omega
    have hw : l.sender.Waits content := by
      intro e s' hs
      apply Classical.byContradiction
      intro he
      exact hstuck _ (.sender l e s' he hs)
    have hcount := hi.inv.sender.count hc
    have key : 1 ≤ endReads (slice content start n).length n m → cap.toNat ≤ m → CanStall (slice content start n).length n cap.toNat := by
      intro h4 h5
      obtain ⟨j, h6, h7⟩ := endReads_pos h4
      have hlt := (pos_lt_iff (slice content start n).length j).2 (by omega)
      have h8 := canStall_of _ n (j + 1) j (slice_length_le _ _ _) h7 hlt (by omega)
      have h9 := (pos_lt_iff (slice content start n).length (m - 1)).2 (by omega)
      refine canStall_of _ n cap.toNat j (slice_length_le _ _ _) h7 hlt ?_
      obtain ⟨g1, g2, g3, g4⟩ := h8
      have : j = m - 1 := by
        unfold endAt at h7
        rw [Bool.or_eq_true, decide_eq_true_eq, decide_eq_true_eq] at h7
        unfold pos at *
        omega
      omega
    rcases hi.inv.sender.full hc with ⟨g1, g2, -⟩ | ⟨g1, g2⟩
    · rcases waits_cases hi.inv.sender hi.alive hw with ⟨k1, k2, -⟩ | ⟨k1, k2⟩ | ⟨k, -, -, k2⟩
      · omega
      · rw [g2] at k2; simp [endReads] at k2
      · rw [g2] at k2; simp [endReads] at k2
    · rcases waits_cases hi.inv.sender hi.alive hw with ⟨k1, k2, -⟩ | ⟨k1, k2⟩ | ⟨k, k1, -, k2⟩
      · rcases g2 with ⟨_, g2, -⟩ | g2 | g2
        · rw [k1] at g2; cases g2
        · exact absurd hi.alive g2
        · rw [g2] at hcount; omega
      · rcases g2 with ⟨_, g2, -⟩ | g2 | g2
        · rw [k1] at g2; cases g2
        · exact absurd hi.alive g2
        · rw [g2] at hcount; exact key (by omega) (by omega)
      · rcases g2 with ⟨_, g2, -⟩ | g2 | g2
        · rw [k1] at g2; cases g2
        · exact absurd hi.alive g2
        · rw [g2] at hcount; exact key (by omega) (by omega)
  · left
    rw [hr] at hrecv
    rw [hrecv.2.2.1, hrecv.2.2.2]
  · exact absurd hr hi.stays
  · rw [hr] at hrecv; exact hrecv.elim

/-- C45, what holds: every execution without faults is finite (so nothing is assumed about fairness), and unless the chunk is one that can stall, an execution that cannot
go on has delivered the chunk. -/
theorem C45_partial (ch : List AtChoice) (cr : ChunkReader) (hcr : newChunkReader sha1 content start n ch = some cr) (hn : n < 2 ^ 32)
    (hne : slice content start n ≠ []) (hc : 0 < cap.toNat) :
    (∀ k l, Transfer sha1 content false cr cap k l → k ≤ 22 * endIndex (slice content start n).length + 10 * cap.toNat + 2) ∧
    (¬ CanStall (slice content start n).length n cap.toNat → ∀ k l, Transfer sha1 content false cr cap k l → (∀ l', ¬ LStep sha1 content false l l') →
      l.recv = .finished (slice content start n) true) := by
  constructor
  · intro k l ht
    obtain ⟨m, a, r, -, h⟩ := ht.finv hcr hn hc hne
    omega
  · intro hcs k l ht hstuck
    obtain ⟨m, a, r, hi, -⟩ := ht.finv hcr hn hc hne
    rcases stuck_finv hc hi hstuck with h | h
    · exact h
    · exact absurd h hcs

/-! ## The stall -/

theorem endReads_stall {S n cap : Nat} (h : CanStall S n cap) : endReads S n (endIndex S - 1) = 1 := by
  obtain ⟨h1, h2, h3, -⟩ := h
  have before : ∀ m, m + 1 ≤ endIndex S - 1 → endReads S n m = 0 := by
    intro m
    induction m with
    | zero => intro _; rfl
    | succ m ih =>
      intro hm
      rw [endReads, ih (by omega), if_neg]
      unfold endAt
      rw [Bool.or_eq_true, decide_eq_true_eq, decide_eq_true_eq]
      unfold endIndex at hm
      unfold pos
      omega
  obtain ⟨j, hj⟩ : ∃ j, endIndex S - 1 = j + 1 := ⟨endIndex S - 2, by unfold endIndex; omega⟩
  rw [hj, endReads, before j (by omega), if_pos]
  unfold endAt
  rw [Bool.or_eq_true, decide_eq_true_eq, decide_eq_true_eq]
  unfold endIndex at hj
  unfold pos
  omega

/-- No end marker has been sent; once the last data packet is sent, the window is full. -/
def Stalling (S : Nat) (cap : UInt16) (m : Nat) (s : Sender) : Prop := m + 1 ≤ endIndex S ∧ (m + 1 = endIndex S → s.windowSize = cap)

theorem stalls_from (hn : n < 2 ^ 32) (hne : slice content start n ≠ []) (hc : 0 < cap.toNat) (hcs : CanStall (slice content start n).length n cap.toNat) (N : Nat) :
    ∀ (l : Link) (m a r : Nat), FInv sha1 content start n cap m a r l → Stalling (slice content start n).length cap m l.sender →
      remaining (slice content start n).length cap m a r l ≤ N →
      ∃ k l', LRun sha1 content false l k l' ∧ (∀ l'', ¬ LStep sha1 content false l' l'') ∧ ∃ c, l'.recv = .waiting c := by
  induction N with
  | zero =>
    intro l m a r hi _ hle
    exfalso
    have := (hi.bounds hc).2.2
    unfold remaining at hle
    omega
  | succ N ih =>
    intro l m a r hi hst hle
    have hcapt := cap.toNat_lt
    have go : ∀ l', LStep sha1 content false l l' → (l.sender.worker = .select → l.sender.cancel = true → l'.sender.windowSize = l.sender.windowSize) →
        ∃ k l', LRun sha1 content false l k l' ∧ (∀ l'', ¬ LStep sha1 content false l' l'') ∧ ∃ c, l'.recv = .waiting c := by
      intro l' hs hsel
      obtain ⟨m', a', r', hi', hrem, hcase⟩ := finv_step hn hc hne hs hi
      have hst' : Stalling (slice content start n).length cap m' l'.sender := by
        rcases hcase with ⟨rfl, hs'⟩ | ⟨rfl, p, hs'⟩ | ⟨rfl, -, hws⟩
        · refine ⟨hst.1, fun hm => ?_⟩
          have hws := hst.2 hm
          have hends := hi.inv.sender.ends hi.alive
          have hE : endReads (slice content start n).length n m' = 1 := by
            have := endReads_stall hcs
            rwa [show endIndex (slice content start n).length - 1 = m' by omega] at this
          generalize he : Ev.tau = e at hs'
          generalize l'.sender = s' at *
          cases hs' with
          | arrive => cases he
          | take hw hp =>
            rw [hE, hw] at hends
            have hcancel : l.sender.cancel = true := by
              cases hx : l.sender.cancel
              · rw [hx] at hends; simp [Worker.ends] at hends
              · rfl
            rw [hsel hw hcancel]; exact hws
          | cancel hw hc' => exact hws
          | turn ends rd sends hw hf =>
            unfold kickTurn
            rw [if_neg (by rw [hi.inv.sender.cap_eq, hws]; exact Nat.lt_irrefl _)]
            exact hws
          | terminate left failed hw hc' => exact hws
          | ret failed hw => exact hws
        · obtain ⟨-, hlt, hws, ⟨k, hk⟩, -⟩ := sent_facts hs'
          have hm : m + 1 ≠ endIndex (slice content start n).length := by
            intro hm
            rw [hi.inv.sender.cap_eq, hst.2 hm] at hlt
            exact Nat.lt_irrefl _ hlt
          refine ⟨by have := hst.1; omega, fun hm' => ?_⟩
          have hlt' : l.sender.windowSize.toNat < cap.toNat := by rw [← hi.inv.sender.cap_eq]; exact hlt
          have hcount := hi.inv.sender.count hc
          have : l.sender.windowSize.toNat + 1 = cap.toNat := by
            rcases hi.inv.sender.full hc with ⟨-, -, -, g, -⟩ | ⟨g1, ⟨k', g2, g3⟩ | g2 | g2⟩
            · rw [hk] at g; cases g
            · rcases g3 with g3 | g3
              · have h4 := hcs.2.2.2
                unfold endIndex at hm'
                omega
              · omega
            · exact absurd hi.alive g2
            · rw [g2] at hlt'; omega
          rw [hws]
          apply UInt16.toNat_inj.1
          rw [UInt16.toNat_add]
          show (l.sender.windowSize.toNat + 1) % 2 ^ 16 = cap.toNat
          omega
        · exact ⟨hst.1, fun hm => by rw [hws]; exact hst.2 hm⟩
      obtain ⟨k, l2, h1, h2, h3⟩ := ih l' m' a' r' hi' hst' (by omega)
      refine ⟨k + 1, l2, ?_, h2, h3⟩
      clear h2 h3 ih hi' hrem hcase hst'
      induction h1 with
      | refl => exact .step (.refl _) hs
      | step _ h ih => exact .step ih h
    by_cases hsc : l.sender.worker = .select ∧ l.sender.cancel = true
    · exact go _ (.sender l .tau _ (by intro h; cases h) (.cancel l.sender hsc.1 hsc.2)) (fun _ _ => rfl)
    · by_cases hstuck : ∀ l', ¬ LStep sha1 content false l l'
      · refine ⟨0, l, .refl _, hstuck, ?_⟩
        have hrecv := hi.inv.recv
        rcases hr : l.recv with c | ⟨b, ok⟩ | _ | _
        · exact ⟨c, rfl⟩
        · exfalso
          rw [hr] at hrecv
          have := hi.inv.le
          have := hst.1
          have := hrecv.1
          omega
        · exact absurd hr hi.stays
        · rw [hr] at hrecv; exact hrecv.elim
      · obtain ⟨l', hl'⟩ := Classical.not_forall.1 hstuck
        exact go l' (Classical.not_not.1 hl') (fun h1 h2 => absurd ⟨h1, h2⟩ hsc)

/-- C45, the other direction: whenever the chunk is one that can stall, some execution without any fault comes to a stop with the receiver still waiting. -/
theorem C45_stalls (ch : List AtChoice) (cr : ChunkReader) (hcr : newChunkReader sha1 content start n ch = some cr) (hn : n < 2 ^ 32)
    (hne : slice content start n ≠ []) (hc : 0 < cap.toNat) (hcs : CanStall (slice content start n).length n cap.toNat) :
    ∃ k l, Transfer sha1 content false cr cap k l ∧ (∀ l', ¬ LStep sha1 content false l l') ∧ ∃ c, l.recv = .waiting c := by
  obtain ⟨h1, h2, -, h4⟩ := C23_describes sha1 content start n ch cr hcr
  rcases kickstart_new content cr start n cap h4 h2 hn .good true with ⟨-, hbad⟩ | ⟨s1, hs1, hinv⟩
  · rcases hbad with h | h
    · exact absurd rfl h
    · cases h
  · obtain ⟨hf, -⟩ := Transfer.start_finv (sha1 := sha1) hcr hn rfl hs1
    obtain ⟨k, l, g1, g2, g3⟩ := stalls_from hn hne hc hcs _ _ 0 0 0 hf ⟨by unfold endIndex; omega, fun h => by
      exfalso
      have := hcs.2.1
      unfold endIndex at h
      omega⟩ (Nat.le_refl _)
    exact ⟨k, l, ⟨.good, _, s1, fun _ => rfl, hs1, g1⟩, g2, g3⟩

/-- Some execution cannot go on. -/
theorem maximal (ch : List AtChoice) (cr : ChunkReader) (hcr : newChunkReader sha1 content start n ch = some cr) (hn : n < 2 ^ 32)
    (hne : slice content start n ≠ []) (hc : 0 < cap.toNat) : ∃ k l, Transfer sha1 content false cr cap k l ∧ ∀ l', ¬ LStep sha1 content false l l' := by
  apply Classical.byContradiction
  intro hno
  have ever : ∀ k, ∃ l, Transfer sha1 content false cr cap k l := by
    intro k
    induction k with
    | zero =>
      obtain ⟨h1, h2, -, h4⟩ := C23_describes sha1 content start n ch cr hcr
      rcases kickstart_new content cr start n cap h4 h2 hn .good true with ⟨-, hbad⟩ | ⟨s1, hs1, hinv⟩
      · rcases hbad with h | h
        · exact absurd rfl h
        · cases h
      · exact ⟨_, .good, _, s1, fun _ => rfl, hs1, .refl _⟩
    | succ k ih =>
      obtain ⟨l, hl⟩ := ih
      obtain ⟨l', hl'⟩ : ∃ l', LStep sha1 content false l l' := by
        apply Classical.byContradiction
        intro h
        exact hno ⟨k, l, hl, fun l' hl' => h ⟨l', hl'⟩⟩
      obtain ⟨rd, p, s0, h1, h2, h3⟩ := hl
      exact ⟨l', rd, p, s0, h1, h2, .step h3 hl'⟩
  obtain ⟨l, hl⟩ := ever (22 * endIndex (slice content start n).length + 10 * cap.toNat + 3)
  have := (C45_partial ch cr hcr hn hne hc).1 _ _ hl
  omega

end

/-! ## Concrete transfers -/

theorem ex_chunk (sha1 : Bytes → Sha1Hash) (S n : Nat) (h0 : 0 < S) (h : S ≤ n) :
    ∃ ch cr, newChunkReader sha1 (List.replicate S 7) 0 n ch = some cr ∧ slice (List.replicate S 7) 0 n = List.replicate S 7 ∧
      slice (List.replicate S 7) 0 n ≠ [] := by
  obtain ⟨cr, hcr⟩ := C24_terminates_partial sha1 (List.replicate S 7) 0 n (List.replicate (n + 1) .good) (by
    rw [List.countP_replicate]; simp)
  have hsl : slice (List.replicate S (7 : UInt8)) 0 n = List.replicate S 7 := by simp [slice]; omega
  refine ⟨_, cr, hcr, hsl, ?_⟩
  rw [hsl]
  intro e
  have := congrArg List.length e
  simp at this
  omega

/-- The full statement of C45 is false. -/
theorem C45_refuted (sha1 : Bytes → Sha1Hash) : ¬ C45_statement sha1 := by
  intro h
  obtain ⟨ch, cr, h1, h2, hne⟩ := ex_chunk sha1 1001 2000 (by omega) (by omega)
  obtain ⟨k, l, g1, g2, c, g3⟩ := C45_stalls (cap := 1) ch cr h1 (by omega) hne (by decide) (by
    rw [h2, List.length_replicate]; unfold CanStall; simp)
  have := (h _ _ _ ch cr h1 (by omega) hne 1 (by decide)).2 k l g1 g2
  rw [g3] at this
  cases this

/-- With the capacity and chunk size the daemon is given (1024 packets, 4 MiB): a file of 1049577 bytes can stall. -/
example (sha1 : Bytes → Sha1Hash) : ∃ ch cr, newChunkReader sha1 (List.replicate 1049577 7) 0 4194304 ch = some cr ∧
    ∃ k l, Transfer sha1 (List.replicate 1049577 7) false cr 1024 k l ∧ (∀ l', ¬ LStep sha1 (List.replicate 1049577 7) false l l') ∧ ∃ c, l.recv = .waiting c := by
  obtain ⟨ch, cr, h1, h2, hne⟩ := ex_chunk sha1 1049577 4194304 (by omega) (by omega)
  refine ⟨ch, cr, h1, C45_stalls ch cr h1 (by omega) hne (by decide) ?_⟩
  rw [h2, List.length_replicate]
  unfold CanStall
  simp

/-- A full chunk of 4 MiB arrives, and there is an execution that finishes. -/
example (sha1 : Bytes → Sha1Hash) : ∃ ch cr k l, newChunkReader sha1 (List.replicate 4194304 7) 0 4194304 ch = some cr ∧
    Transfer sha1 (List.replicate 4194304 7) false cr 1024 k l ∧ l.recv = .finished (List.replicate 4194304 7) true := by
  obtain ⟨ch, cr, h1, h2, hne⟩ := ex_chunk sha1 4194304 4194304 (by omega) (by omega)
  obtain ⟨k, l, g1, g2⟩ := maximal (cap := 1024) ch cr h1 (by omega) hne (by decide)
  have := (C45_partial ch cr h1 (by omega) hne (by decide)).2 (by
    rw [h2, List.length_replicate]; unfold CanStall; omega) k l g1 g2
  rw [h2] at this
  exact ⟨ch, cr, k, l, h1, g1, this⟩

/-! ## C64: a chunk that has vanished -/

/-- C64, full statement: serving any chunk, also one the sharer's file no longer reaches, does not make the receiver panic. -/
def C64_statement (sha1 : Bytes → Sha1Hash) : Prop :=
  ∀ (content : Bytes) (start n : Nat) (ch : List AtChoice) (cr : ChunkReader), newChunkReader sha1 content start n ch = some cr → n < 2 ^ 32 →
    ∀ (cap : UInt16) (k : Nat) (l : Link), Transfer sha1 content false cr cap k l → l.recv ≠ .dead

/-- C64, what holds: it does not as long as the chunk has at least one byte left. -/
theorem C64_partial (sha1 : Bytes → Sha1Hash) (content : Bytes) (start n : Nat) (hleft : start < content.length) (h0 : 0 < n) (ch : List AtChoice) (cr : ChunkReader)
    (hcr : newChunkReader sha1 content start n ch = some cr) (hn : n < 2 ^ 32) (faults : Bool) (cap : UInt16) (k : Nat) (l : Link)
    (ht : Transfer sha1 content faults cr cap k l) : l.recv ≠ .dead := by
  refine (C42_delivers ch cr hcr hn ?_ k l ht).1
  intro e
  have := congrArg List.length e
  simp [slice] at this
  omega

theorem recv_empty_first (sha1 : Bytes → Sha1Hash) (h : Sha1Hash) :
    recvDatagram sha1 .fresh (stream h [] 0).bytes = (.waiting ⟨some h, [], 0⟩, 1) := by
  unfold recvDatagram
  rw [readPacket_bytes _ (stream_length _ _ _), Res.bind_ok]
  have hs := C19_split h (UInt32.ofNat 0) [] []
  rw [List.append_nil] at hs
  unfold onPacket stream
  rw [if_pos rfl]
  simp only [List.length_nil, List.take_nil]
  rw [hs, Res.bind_ok]
  simp [copyAt, RConn.fresh]

theorem recv_empty_again (sha1 : Bytes → Sha1Hash) (c : RConn) : recvDatagram sha1 c (Packet.mk 0 []).bytes = (.dead, 0) := by
  unfold recvDatagram
  rw [readPacket_bytes _ (by simp), Res.bind_ok]
  unfold onPacket
  rw [if_pos rfl]
  have hp : splitFirst ⟨[], ([] : Bytes).length⟩ = .panic := (C19_split_panics_iff ⟨[], 0⟩ (Nat.le_refl _)).2 (by simp)
  simp only []
  rw [hp]
  rfl

/-- C64: the receiver of a chunk that is empty panics, whatever the window: five steps after the first packet. -/
theorem C64_dies (sha1 : Bytes → Sha1Hash) (content : Bytes) (start n : Nat) (hgone : content.length ≤ start) (ch : List AtChoice) (cr : ChunkReader)
    (hcr : newChunkReader sha1 content start n ch = some cr) (hn : n < 2 ^ 32) (cap : UInt16) (hc : 0 < cap.toNat) :
    ∃ l, Transfer sha1 content false cr cap 5 l ∧ l.recv = .dead := by
  have hsl : slice content start n = [] := by
    unfold slice
    rw [List.drop_eq_nil_of_le hgone, List.take_nil]
  obtain ⟨h1, h2, -, h4⟩ := C23_describes sha1 content start n ch cr hcr
  rcases kickstart_new content cr start n cap h4 h2 hn .good true with ⟨-, hbad⟩ | ⟨s, hs1, hinv⟩
  · rcases hbad with h | h
    · exact absurd rfl h
    · cases h
  have hsel : s.worker = .select := by
    rcases hinv.full hc with ⟨-, -, -, h, -⟩ | ⟨h, -⟩
    · exact h
    · omega
  have hws : s.windowSize = 1 := by
    rcases hinv.full hc with ⟨-, -, h, -, -⟩ | ⟨h, -⟩
    · exact h
    · omega
  have hrd : s.reader.reader = ⟨start, start + 0, start + n⟩ := by
    have := hinv.reader (by rw [hsel]; trivial)
    rw [hsl] at this
    simpa [pos] using this
  rw [hsl] at hs1
  let s2 : Sender := { s with pending := s.pending + 1 }
  let s3 : Sender := { s2 with pending := s2.pending - 1, windowSize := s2.windowSize - 1, worker := .loop 0 }
  have hlt : s3.windowSize < s3.windowCap := by
    show s.windowSize - 1 < s.windowCap
    rw [hws, hinv.cap_eq]
    exact hc
  have hread := read_good content s3.reader start n 0 1024 hrd (Nat.zero_le _) hn
  rw [hsl] at hread
  have hturn : (kickTurn content s3 0 .good true).1 = .sent ⟨0, []⟩ := by
    unfold kickTurn
    rw [if_pos hlt, hread]
    simp only []
    rw [if_neg (by split <;> simp)]
    simp
  have st1 : LStep sha1 content false ⟨s, [(stream cr.hash [] 0).bytes], 0, .waiting .fresh⟩ ⟨s, [], 1, .waiting ⟨some cr.hash, [], 0⟩⟩ := by
    have := LStep.receive (sha1 := sha1) (content := content) (faults := false) ⟨s, [(stream cr.hash [] 0).bytes], 0, .waiting .fresh⟩ .fresh _ _ rfl rfl
    rwa [recv_empty_first] at this
  have st2 : LStep sha1 content false ⟨s, [], 1, .waiting ⟨some cr.hash, [], 0⟩⟩ ⟨s2, [], 0, .waiting ⟨some cr.hash, [], 0⟩⟩ :=
    .ack ⟨s, [], 1, .waiting ⟨some cr.hash, [], 0⟩⟩ s2 (.arrive s) Nat.one_pos
  have st3 : LStep sha1 content false ⟨s2, [], 0, .waiting ⟨some cr.hash, [], 0⟩⟩ ⟨s3, [], 0, .waiting ⟨some cr.hash, [], 0⟩⟩ :=
    .sender ⟨s2, [], 0, .waiting ⟨some cr.hash, [], 0⟩⟩ .tau s3 (by intro h; cases h) (.take s2 hsel (Nat.succ_pos _))
  have st4 : LStep sha1 content false ⟨s3, [], 0, .waiting ⟨some cr.hash, [], 0⟩⟩
      ⟨(kickTurn content s3 0 .good true).2, [(Packet.mk 0 []).bytes], 0, .waiting ⟨some cr.hash, [], 0⟩⟩ := by
    have := SStep.turn (content := content) (faults := false) s3 0 .good true rfl (fun _ => ⟨rfl, rfl⟩)
    rw [hturn] at this
    exact .sender ⟨s3, [], 0, .waiting ⟨some cr.hash, [], 0⟩⟩ _ _ (by intro h; cases h) this
  have st5 := LStep.receive (sha1 := sha1) (content := content) (faults := false)
      ⟨(kickTurn content s3 0 .good true).2, [(Packet.mk 0 []).bytes], 0, .waiting ⟨some cr.hash, [], 0⟩⟩ _ _ _ rfl rfl
  rw [recv_empty_again] at st5
  exact ⟨_, ⟨.good, _, s, fun _ => rfl, hs1, .step (.step (.step (.step (.step (.refl _) st1) st2) st3) st4) st5⟩, rfl⟩

/-- The full statement of C64 is false. -/
theorem C64_refuted (sha1 : Bytes → Sha1Hash) : ¬ C64_statement sha1 := by
  intro h
  obtain ⟨cr, hcr⟩ := C24_terminates_partial sha1 [] 0 1 [.good, .good] (by decide)
  obtain ⟨l, h1, h2⟩ := C64_dies sha1 [] 0 1 (Nat.le_refl _) _ cr hcr (by omega) 1 (by decide)
  exact h [] 0 1 _ cr hcr (by omega) 1 5 l h1 h2

end Flu
