import Verif.Model.Unreliable
import Verif.Props.Transfer
/-!
# A chunk transfer over an unreliable network (C114)
-/
namespace Flu
open Spec

/-- `b` is `sec` with some bytes zero. -/
def Spec.Partly (sec b : Bytes) : Prop := b.length = sec.length ∧ ∀ i : Nat, b[i]? = sec[i]? ∨ (i < sec.length ∧ b[i]? = some 0)

theorem Partly.fill (sec b : Bytes) (h : Partly sec b) (p k : Nat) (hp : p ≤ sec.length) :
    ∃ b', copyAt b p ((sec.drop p).take k) = .ok b' ∧ Partly sec b' := by
  obtain ⟨hl, hb⟩ := h
  have hd : ((sec.drop p).take k).length = min k (sec.length - p) := by simp
  unfold copyAt
  rw [if_neg (by omega)]
  refine ⟨_, rfl, ?_, ?_⟩
  · simp only [List.length_append, List.length_take, List.length_drop]; omega
  · intro i
    have ht : ((sec.drop p).take k).take (b.length - p) = (sec.drop p).take k := List.take_of_length_le (by rw [hd]; omega)
    have hlt : (b.take p).length = p := by rw [List.length_take]; omega
    show (b.take p ++ ((sec.drop p).take k).take (b.length - p) ++ b.drop (p + ((sec.drop p).take k).length))[i]? = _ ∨ _ ∧ (b.take p ++
      ((sec.drop p).take k).take (b.length - p) ++ b.drop (p + ((sec.drop p).take k).length))[i]? = _
    rw [ht, hd, List.append_assoc]
    by_cases h1 : i < p
    · rw [List.getElem?_append_left (by omega), List.getElem?_take_of_lt h1]
      exact hb i
    · rw [List.getElem?_append_right (by omega), hlt]
      by_cases h2 : i < p + min k (sec.length - p)
      · left
        rw [List.getElem?_append_left (by rw [hd]; omega), List.getElem?_take_of_lt (by omega), List.getElem?_drop]
        congr 1; omega
      · rw [List.getElem?_append_right (by rw [hd]; omega), hd, List.getElem?_drop]
        have : p + min k (sec.length - p) + (i - p - min k (sec.length - p)) = i := by omega
        rw [this]
        exact hb i

theorem Partly.blank (sec : Bytes) : Partly sec (List.replicate sec.length 0) := by
  refine ⟨by simp, fun i => ?_⟩
  by_cases h : i < sec.length
  · exact .inr ⟨h, by rw [List.getElem?_replicate, if_pos h]⟩
  · left
    rw [List.getElem?_eq_none (by rw [List.length_replicate]; omega), List.getElem?_eq_none (by omega)]

/-- The first packet, whatever was received before. -/
theorem recv_first (sha1 : Bytes → Sha1Hash) (h : Sha1Hash) (sec : Bytes) (hsec : sec.length < 2 ^ 32) (c : RConn) :
    ∃ c', recvDatagram sha1 c (stream h sec 0).bytes = (.waiting c', 1) ∧ c'.hash = some h ∧ Partly sec c'.buffer := by
  unfold recvDatagram
  rw [readPacket_bytes _ (stream_length _ _ _), Res.bind_ok]
  have hs := C19_split h (UInt32.ofNat sec.length) (sec.take 1000) []
  rw [List.append_nil] at hs
  have hsz : (UInt32.ofNat sec.length).toNat = sec.length := by rw [UInt32.toNat_ofNat']; exact Nat.mod_eq_of_lt hsec
  obtain ⟨b, hcp, hb⟩ := Partly.fill sec _ (Partly.blank sec) 0 1000 (Nat.zero_le _)
  rw [List.drop_zero] at hcp
  unfold onPacket stream
  rw [if_pos rfl]
  simp only []
  rw [hs, Res.bind_ok]
  simp only [hsz]
  rw [hcp, Res.bind_ok]
  exact ⟨_, rfl, rfl, hb⟩

/-- Any packet of the chunk, after the first one has been received. -/
theorem recv_any (sha1 : Bytes → Sha1Hash) (h : Sha1Hash) (sec : Bytes) (hsec : sec.length < 2 ^ 32) (hne : sec ≠ []) (c : RConn) (hc : c.hash = some h)
    (hb : Partly sec c.buffer) (k : Nat) :
    (∃ c', recvDatagram sha1 c (stream h sec k).bytes = (.waiting c', 1) ∧ c'.hash = some h ∧ Partly sec c'.buffer) ∨
    recvDatagram sha1 c (stream h sec k).bytes = (.finished c.buffer (decide (sha1 c.buffer = h)), 0) := by
  cases k with
  | zero => exact .inl (recv_first sha1 h sec hsec c)
  | succ k =>
    have hS : 0 < sec.length := List.length_pos_iff.2 hne
    unfold recvDatagram
    rw [readPacket_bytes _ (stream_length _ _ _), Res.bind_ok]
    have hple := pos_le sec.length k
    have hoff : (UInt32.ofNat (pos sec.length k)).toNat = pos sec.length k := by
      rw [UInt32.toNat_ofNat']; exact Nat.mod_eq_of_lt (by omega)
    have hoff0 : UInt32.ofNat (pos sec.length k) ≠ 0 := by
      intro e
      rw [e] at hoff
      have : pos sec.length k = 0 := hoff.symm
      unfold pos at this
      omega
    unfold onPacket stream
    rw [if_neg hoff0]
    simp only []
    by_cases hd : ((sec.drop (pos sec.length k)).take 1024).length > 0
    · left
      rw [if_pos hd, hoff]
      obtain ⟨b, h1, h2⟩ := Partly.fill sec c.buffer hb (pos sec.length k) 1024 hple
      rw [h1, Res.bind_ok]
      exact ⟨_, rfl, hc, h2⟩
    · right
      rw [if_neg hd, hc]
      rfl

/-- What the receiver has, once it got the first packet. -/
def Got (sha1 : Bytes → Sha1Hash) (sec : Bytes) : RState → Prop
  | .waiting c => c.hash = some (sha1 sec) ∧ Partly sec c.buffer
  | .finished b ok => Partly sec b ∧ ok = decide (sha1 b = sha1 sec)
  | .gaveUp => True
  | .dead => False

structure LossyInv (sha1 : Bytes → Sha1Hash) (content : Bytes) (start n : Nat) (cap : UInt16) (m a : Nat) (l : Link) : Prop where
  sender : SInv content start n cap m a l.sender
  net : ∀ d ∈ l.net, ∃ i, i ≤ m ∧ d = (stream (sha1 (slice content start n)) (slice content start n) i).bytes
  recv : (a = 0 ∧ l.acks = 0 ∧ (l.recv = .waiting .fresh ∨ l.recv = .gaveUp)) ∨ Got sha1 (slice content start n) l.recv

section
variable {sha1 : Bytes → Sha1Hash} {content : Bytes} {faults : Bool} {start n : Nat} {cap : UInt16}

/-- Before the first acknowledgement arrives, only the first packet has been sent. -/
theorem only_first {m : Nat} {s : Sender} (hi : SInv content start n cap m 0 s) : m = 0 := by
  rcases Nat.eq_zero_or_pos cap.toNat with h | h
  · exact hi.zero (UInt16.toNat_inj.1 h)
  · rcases hi.full h with ⟨-, h, -⟩ | ⟨h, -⟩
    · exact h
    · omega

theorem lossyInv_step (hn : n < 2 ^ 32) (hne : slice content start n ≠ []) {l l' : Link} (hs : LossyStep sha1 content faults l l') {m a : Nat}
    (hi : LossyInv sha1 content start n cap m a l) : ∃ m' a', LossyInv sha1 content start n cap m' a' l' := by
  have hsl := slice_length_le content start n
  cases hs with
  | network net acks hnet ha =>
    refine ⟨m, a, hi.sender, fun d hd => hi.net d (hnet d hd), ?_⟩
    rcases hi.recv with ⟨h1, h2, h3⟩ | h
    · exact .inl ⟨h1, by show acks = 0; omega, h3⟩
    · exact .inr h
  | host hs =>
    cases hs with
    | sender e s he hs =>
      rcases sinv_step hn hs (sha1 (slice content start n)) hi.sender with ⟨rfl, -⟩ | ⟨rfl, k⟩ | ⟨rfl, k⟩
      · exact absurd rfl he
      · exact ⟨m, a, k, fun d hd => hi.net d (by simpa [Ev.wire] using hd), hi.recv⟩
      · refine ⟨m + 1, a, k, ?_, hi.recv⟩
        intro d hd
        rcases List.mem_append.1 hd with hd | hd
        · obtain ⟨i, h1, h2⟩ := hi.net d hd
          exact ⟨i, by omega, h2⟩
        · rw [Ev.wire, List.mem_singleton] at hd
          exact ⟨m + 1, Nat.le_refl _, hd⟩
    | ack s hs ha =>
      rcases sinv_step hn hs (sha1 (slice content start n)) hi.sender with ⟨-, k⟩ | ⟨h, -⟩ | ⟨h, -⟩
      · refine ⟨m, a + 1, k, hi.net, ?_⟩
        rcases hi.recv with ⟨h1, h2, h3⟩ | h
        · omega
        · exact .inr h
      · cases h
      · cases h
    | receive c d rest hr hnet =>
      refine ⟨m, a, hi.sender, fun x hx => hi.net x (by rw [hnet]; exact List.mem_cons_of_mem _ hx), .inr ?_⟩
      show Got sha1 _ (recvDatagram sha1 c d).1
      obtain ⟨i, h1, h2⟩ := hi.net d (by rw [hnet]; exact List.mem_cons_self)
      rcases hi.recv with ⟨h3, h4, h5⟩ | h
      · subst h3
        have := only_first hi.sender
        have hi0 : i = 0 := by omega
        subst hi0
        rw [h2]
        obtain ⟨c', g1, g2, g3⟩ := recv_first sha1 (sha1 (slice content start n)) (slice content start n) (by omega) c
        rw [g1]
        exact ⟨g2, g3⟩
      · rw [hr] at h
        obtain ⟨g1, g2⟩ := h
        rw [h2]
        rcases recv_any sha1 _ (slice content start n) (by omega) hne c g1 g2 i with ⟨c', k1, k2, k3⟩ | k
        · rw [k1]; exact ⟨k2, k3⟩
        · rw [k]; exact ⟨g2, rfl⟩
    | timeout c hr hf =>
      refine ⟨m, a, hi.sender, hi.net, ?_⟩
      rcases hi.recv with ⟨h1, h2, h3⟩ | h
      · exact .inl ⟨h1, h2, .inr rfl⟩
      · exact .inr trivial

theorem LossyTransfer.inv {ch : List AtChoice} {cr : ChunkReader} (hcr : newChunkReader sha1 content start n ch = some cr) (hn : n < 2 ^ 32)
    (hne : slice content start n ≠ []) {l : Link} (ht : LossyTransfer sha1 content faults cr cap l) : ∃ m a, LossyInv sha1 content start n cap m a l := by
  obtain ⟨rd, p, s0, -, hk, hrun⟩ := ht
  induction hrun with
  | refl =>
    have h := Transfer.start_inv (sha1 := sha1) hcr hn hk
    refine ⟨0, 0, h.sender, ?_, .inl ⟨rfl, rfl, .inl rfl⟩⟩
    intro d hd
    rw [h.net] at hd
    simp only [List.drop_zero, List.mem_map, List.mem_range] at hd
    obtain ⟨i, h1, h2⟩ := hd
    exact ⟨i, by omega, h2.symm⟩
  | step _ hs ih =>
    obtain ⟨m, a, hi⟩ := ih
    exact lossyInv_step hn hne hs hi

theorem LossyTransfer.alive {ch : List AtChoice} {cr : ChunkReader} (hcr : newChunkReader sha1 content start n ch = some cr) (hn : n < 2 ^ 32)
    (hne : slice content start n ≠ []) {l : Link} (ht : LossyTransfer sha1 content false cr cap l) : l.sender.worker.Alive := by
  obtain ⟨rd, p, s0, hf, hk, hrun⟩ := ht
  induction hrun with
  | refl => exact Upload.alive hcr hn ⟨rd, p, s0, [], hf, hk, .refl _, rfl⟩
  | step hrun hs ih =>
    obtain ⟨m, a, hi⟩ := LossyTransfer.inv hcr hn hne ⟨rd, p, s0, hf, hk, hrun⟩
    cases hs with
    | network _ _ _ _ => exact ih
    | host hs =>
      cases hs with
      | sender e s he hs => exact alive_of_good hs start n hn _ (pos_le _ _) (hi.sender.reader ih) ih
      | ack s hs ha => exact alive_of_good hs start n hn _ (pos_le _ _) (hi.sender.reader ih) ih
      | receive _ _ _ _ _ => exact ih
      | timeout _ _ _ => exact ih

/-- On a network that loses, repeats and reorders packets and acknowledgements, in every interleaving: the receiver does not panic; what it hands to the
catalogue has the length of the chunk, each of its bytes is the byte of the chunk or zero, and it is told apart from the chunk exactly by its hash.  The sender
does not panic unless a read or write fails. -/
theorem C114_safe (ch : List AtChoice) (cr : ChunkReader) (hcr : newChunkReader sha1 content start n ch = some cr) (hn : n < 2 ^ 32)
    (hne : slice content start n ≠ []) (l : Link) (ht : LossyTransfer sha1 content faults cr cap l) :
    l.recv ≠ .dead ∧ (faults = false → l.sender.worker ≠ .dead) ∧
      ∀ b ok, l.recv = .finished b ok → Partly (slice content start n) b ∧ ok = decide (sha1 b = sha1 (slice content start n)) := by
  obtain ⟨m, a, hi⟩ := ht.inv hcr hn hne
  refine ⟨?_, ?_, ?_⟩
  · intro h
    rcases hi.recv with ⟨-, -, g | g⟩ | g <;> rw [h] at g
    · cases g
    · cases g
    · exact g
  · rintro rfl h
    have := ht.alive hcr hn hne
    rw [h] at this
    exact this
  · intro b ok h
    rcases hi.recv with ⟨-, -, g | g⟩ | g <;> rw [h] at g
    · cases g
    · cases g
    · exact g

/-! ## One lost packet -/

/-- `b` with the `k` bytes from `o` on replaced by zero. -/
def Spec.zeroed (b : Bytes) (o k : Nat) : Bytes := b.mapIdx (fun i x => if o ≤ i ∧ i < o + k then 0 else x)

theorem zeroed_length (b : Bytes) (o k : Nat) : (zeroed b o k).length = b.length := by simp [zeroed]

theorem zeroed_get (b : Bytes) (o k i : Nat) : (zeroed b o k)[i]? = (b[i]?).map (fun x => if o ≤ i ∧ i < o + k then 0 else x) := by
  unfold zeroed
  rw [List.getElem?_mapIdx]

theorem recv_held (h : Sha1Hash) (sec : Bytes) (hsec : sec.length < 2 ^ 32) (hne : sec ≠ []) (r : Nat) (c : RConn)
    (hr : r ≤ endIndex sec.length) (hc : Held h sec r c) :
    (r < endIndex sec.length ∧ ∃ c', recvDatagram sha1 c (stream h sec r).bytes = (.waiting c', 1) ∧ Held h sec (r + 1) c') ∨
    (r = endIndex sec.length ∧ recvDatagram sha1 c (stream h sec r).bytes = (.finished sec (decide (sha1 sec = h)), 0)) := by
  have hS : 0 < sec.length := List.length_pos_iff.2 hne
  unfold recvDatagram
  rw [readPacket_bytes _ (stream_length _ _ _), Res.bind_ok]
  cases r with
  | zero =>
    left
    refine ⟨by unfold endIndex; omega, ?_⟩
    have hs := C19_split h (UInt32.ofNat sec.length) (sec.take 1000) []
    rw [List.append_nil] at hs
    have hsz : (UInt32.ofNat sec.length).toNat = sec.length := by rw [UInt32.toNat_ofNat']; exact Nat.mod_eq_of_lt hsec
    have hcp := copyAt_fill sec 0 1000 (Nat.zero_le _)
    simp only [List.take_zero, List.nil_append, Nat.sub_zero, List.drop_zero, Nat.zero_add] at hcp
    unfold onPacket stream
    rw [if_pos rfl]
    simp only []
    rw [hs, Res.bind_ok]
    simp only [hsz]
    rw [hcp, Res.bind_ok]
    refine ⟨_, rfl, rfl, ?_⟩
    show _ = sec.take (pos sec.length 0) ++ _
    have : pos sec.length 0 = min 1000 sec.length := by unfold pos; omega
    rw [this]
  | succ k =>
    obtain ⟨h1, h2⟩ := hc
    have hple := pos_le sec.length k
    have hoff : (UInt32.ofNat (pos sec.length k)).toNat = pos sec.length k := by
      rw [UInt32.toNat_ofNat']; exact Nat.mod_eq_of_lt (by omega)
    have hoff0 : UInt32.ofNat (pos sec.length k) ≠ 0 := by
      intro e
      rw [e] at hoff
      have : pos sec.length k = 0 := hoff.symm
      unfold pos at this
      omega
    have hdl : ((sec.drop (pos sec.length k)).take 1024).length = min 1024 (sec.length - pos sec.length k) := by simp
    unfold onPacket stream
    rw [if_neg hoff0]
    simp only []
    by_cases hlt : pos sec.length k < sec.length
    · left
      refine ⟨(pos_lt_iff _ _).1 hlt, ?_⟩
      rw [if_pos (by rw [hdl]; omega), hoff, h2, copyAt_fill _ _ _ hple, Res.bind_ok, pos_succ]
      exact ⟨_, rfl, h1, rfl⟩
    · right
      have hpe : pos sec.length k = sec.length := by omega
      refine ⟨by have := (pos_eq_iff _ _).1 hpe; omega, ?_⟩
      rw [if_neg (by rw [hdl]; omega), h1]
      simp only [Res.pure_eq]
      have hb : c.buffer = sec := by rw [h2, hpe]; simp
      rw [hb]

/-- The chunk without its piece `j`. -/
def hollow (sec : Bytes) (j : Nat) : Bytes := zeroed sec (pos sec.length (j - 1)) 1024

theorem hollow_length (sec : Bytes) (j : Nat) : (hollow sec j).length = sec.length := zeroed_length _ _ _

theorem hollow_get (sec : Bytes) (j i : Nat) : (hollow sec j)[i]? = (sec[i]?).map (fun x => if pos sec.length (j - 1) ≤ i ∧ i < pos sec.length (j - 1) + 1024 then 0 else x) :=
  zeroed_get _ _ _ _

/-- The packets other than the lost one are those of the hollow chunk. -/
theorem stream_hollow (h : Sha1Hash) (sec : Bytes) (j i : Nat) (hj : 1 ≤ j) (hjE : j < endIndex sec.length) (hij : i ≠ j) :
    stream h (hollow sec j) i = stream h sec i := by
  have hlt := (pos_lt_iff sec.length (j - 1)).2 (by omega)
  cases i with
  | zero =>
    show (⟨0, h.1 ++ put32 (UInt32.ofNat (hollow sec j).length) ++ (hollow sec j).take 1000⟩ : Packet) = ⟨0, h.1 ++ put32 (UInt32.ofNat sec.length) ++ sec.take 1000⟩
    rw [hollow_length]
    congr 2
    apply List.ext_getElem?
    intro i
    rw [List.getElem?_take, List.getElem?_take, hollow_get]
    by_cases hi : i < 1000
    · rw [if_pos hi, if_pos hi]
      have : ¬ (pos sec.length (j - 1) ≤ i ∧ i < pos sec.length (j - 1) + 1024) := by
        unfold pos at hlt ⊢; omega
      simp only [if_neg this]
      cases sec[i]? <;> rfl
    · rw [if_neg hi, if_neg hi]
  | succ k =>
    show (⟨UInt32.ofNat (pos (hollow sec j).length k), ((hollow sec j).drop (pos (hollow sec j).length k)).take 1024⟩ : Packet) =
      ⟨UInt32.ofNat (pos sec.length k), (sec.drop (pos sec.length k)).take 1024⟩
    rw [hollow_length]
    congr 1
    apply List.ext_getElem?
    intro i
    rw [List.getElem?_take, List.getElem?_take, List.getElem?_drop, List.getElem?_drop, hollow_get]
    by_cases hi : i < 1024
    · rw [if_pos hi, if_pos hi]
      by_cases hS : pos sec.length k + i < sec.length
      · have : ¬ (pos sec.length (j - 1) ≤ pos sec.length k + i ∧ pos sec.length k + i < pos sec.length (j - 1) + 1024) := by
          unfold pos at hlt hS ⊢; omega
        simp only [if_neg this]
        cases sec[pos sec.length k + i]? <;> rfl
      · rw [List.getElem?_eq_none (by omega)]; rfl
    · rw [if_neg hi, if_neg hi]

/-- Not receiving the lost piece is the same as receiving the hollow one. -/
theorem held_skip (h : Sha1Hash) (sec : Bytes) (j : Nat) (hj : 1 ≤ j) (c : RConn) (hc : Held h (hollow sec j) j c) : Held h (hollow sec j) (j + 1) c := by
  obtain ⟨k, rfl⟩ : ∃ k, j = k + 1 := ⟨j - 1, by omega⟩
  obtain ⟨h1, h2⟩ := hc
  refine ⟨h1, ?_⟩
  rw [h2]
  have h3 : pos sec.length k ≤ pos sec.length (k + 1) := by unfold pos; omega
  have h4 := pos_le sec.length (k + 1)
  apply List.ext_getElem?
  intro i
  rw [hollow_length]
  by_cases a1 : i < pos sec.length k
  · rw [List.getElem?_append_left (by rw [List.length_take, hollow_length]; omega), List.getElem?_append_left (by rw [List.length_take, hollow_length]; omega),
      List.getElem?_take_of_lt a1, List.getElem?_take_of_lt (by omega)]
  · rw [List.getElem?_append_right (by rw [List.length_take, hollow_length]; omega), List.length_take, hollow_length, List.getElem?_replicate]
    by_cases a2 : i < pos sec.length (k + 1)
    · rw [List.getElem?_append_left (by rw [List.length_take, hollow_length]; omega), List.getElem?_take_of_lt a2, hollow_get, if_pos (by omega),
        List.getElem?_eq_getElem (by omega), Option.map_some, if_pos]
      show pos sec.length k ≤ i ∧ i < pos sec.length k + 1024
      have := pos_succ sec.length k
      omega
    · rw [List.getElem?_append_right (by rw [List.length_take, hollow_length]; omega), List.length_take, hollow_length, List.getElem?_replicate]
      by_cases a3 : i < sec.length
      · rw [if_pos (by omega), if_pos (by omega)]
      · rw [if_neg (by omega), if_neg (by omega)]

/-- Before the lost piece, the hollow chunk is the chunk. -/
theorem held_hollow (h : Sha1Hash) (sec : Bytes) (j r : Nat) (hr : r ≤ j) (c : RConn) (hc : Held h sec r c) : Held h (hollow sec j) r c := by
  cases r with
  | zero => exact hc
  | succ k =>
    obtain ⟨h1, h2⟩ := hc
    refine ⟨h1, ?_⟩
    rw [h2, hollow_length]
    congr 1
    have h4 := pos_le sec.length k
    apply List.ext_getElem?
    intro i
    rw [List.getElem?_take, List.getElem?_take]
    by_cases a1 : i < pos sec.length k
    · rw [if_pos a1, if_pos a1, hollow_get]
      have : ¬ (pos sec.length (j - 1) ≤ i ∧ i < pos sec.length (j - 1) + 1024) := by
        unfold pos at a1 ⊢; omega
      simp only [if_neg this]
      cases sec[i]? <;> rfl
    · rw [if_neg a1, if_neg a1]

/-- What the receiver knows, packet `j` having been lost; `r` is the next packet it can get. -/
def JRecv (sha1 : Bytes → Sha1Hash) (sec : Bytes) (j r a acks : Nat) : RState → Prop
  | .waiting c => r ≤ endIndex sec.length ∧ a + acks + (if j < r then 1 else 0) = r ∧ Held (sha1 sec) (hollow sec j) r c
  | .finished b ok => r = endIndex sec.length + 1 ∧ a + acks + 1 = endIndex sec.length ∧ b = hollow sec j ∧ ok = decide (sha1 b = sha1 sec)
  | .gaveUp => False
  | .dead => False

structure JInv (sha1 : Bytes → Sha1Hash) (content : Bytes) (start n : Nat) (cap : UInt16) (j m a r : Nat) (l : Link) : Prop where
  sender : SInv content start n cap m a l.sender
  sent : j ≤ m
  le : r ≤ m + 1
  ne : r ≠ j
  net : l.net = ((List.range j).drop r ++ (List.range (m + 1)).drop (max r (j + 1))).map
    (fun i => (stream (sha1 (slice content start n)) (slice content start n) i).bytes)
  recv : JRecv sha1 (slice content start n) j r a l.acks l.recv
  alive : l.sender.worker.Alive

theorem JInv.bounds {j m a r : Nat} {l : Link} (hi : JInv sha1 content start n cap j m a r l) (hc : 0 < cap.toNat) :
    a ≤ endIndex (slice content start n).length ∧ r ≤ endIndex (slice content start n).length + 1 ∧
      m < endIndex (slice content start n).length + cap.toNat := by
  have h1 := hi.sender.count hc
  have h2 := hi.sender.window hc
  have h3 := hi.recv
  revert h3
  unfold JRecv
  cases l.recv with
  | waiting c => rintro ⟨g1, g2, -⟩; omega
  | finished b ok => rintro ⟨g1, g2, -⟩; omega
  | gaveUp => exact False.elim
  | dead => exact False.elim

theorem jinv_step (hn : n < 2 ^ 32) (hc : 0 < cap.toNat) (hne : slice content start n ≠ []) {l l' : Link} (hs : LStep sha1 content false l l') {j m a r : Nat}
    (hj : 1 ≤ j) (hjE : j < endIndex (slice content start n).length) (hi : JInv sha1 content start n cap j m a r l) :
    ∃ m' a' r', JInv sha1 content start n cap j m' a' r' l' ∧
      remaining (slice content start n).length cap m' a' r' l' < remaining (slice content start n).length cap m a r l := by
  have hsl := slice_length_le content start n
  have hb := hi.bounds hc
  have hal : ∀ {e}, SStep content false l.sender e l'.sender → l'.sender.worker.Alive := fun h =>
    alive_of_good h start n hn _ (pos_le _ _) (hi.sender.reader hi.alive) hi.alive
  cases hs with
  | sender e s he hs =>
    rcases sinv_step hn hs (sha1 (slice content start n)) hi.sender with ⟨rfl, -⟩ | ⟨rfl, k⟩ | ⟨rfl, k⟩
    · exact absurd rfl he
    · refine ⟨m, a, r, ⟨k, hi.sent, hi.le, hi.ne, by rw [← hi.net]; simp [Ev.wire], hi.recv, hal hs⟩, ?_⟩
      have := tau_budget hs ⟨_, pos_le _ _, hi.sender.reader⟩ hn hi.alive
      unfold remaining
      show _ + s.budget < _
      omega
    · have hf : JInv sha1 content start n cap j (m + 1) a r ⟨s, l.net ++ Ev.wire (.sent (stream (sha1 (slice content start n)) (slice content start n) (m + 1))), l.acks, l.recv⟩ := by
        have h1 := hi.le
        have h2 := hi.sent
        refine ⟨k, by omega, by omega, hi.ne, ?_, hi.recv, hal hs⟩
        rw [List.range_succ, List.drop_append_of_le_length (by rw [List.length_range]; omega), ← List.append_assoc, List.map_append, ← hi.net]
        rfl
      refine ⟨m + 1, a, r, hf, ?_⟩
      have := (sent_facts hs).1
      have := (hf.bounds hc).2.2
      unfold remaining
      show _ + s.budget < _
      omega
  | ack s hs ha =>
    have hs0 := hs
    have hse : s = { l.sender with pending := l.sender.pending + 1 } := by
      generalize he : Ev.ack = e at hs0
      cases hs0 with
      | arrive => rfl
      | turn ends rd sends hw hf =>
        exfalso
        unfold kickTurn at he
        split at he
        · split at he
          · simp only [] at he
            split at he
            · cases he
            · split at he <;> cases he
          · cases he
        · cases he
      | _ => cases he
    rcases sinv_step hn hs (sha1 (slice content start n)) hi.sender with ⟨-, k⟩ | ⟨h, -⟩ | ⟨h, -⟩
    · have hf : JInv sha1 content start n cap j m (a + 1) r ⟨s, l.net, l.acks - 1, l.recv⟩ := by
        refine ⟨k, hi.sent, hi.le, hi.ne, hi.net, ?_, hal hs⟩
        have := hi.recv
        revert this
        unfold JRecv
        cases l.recv with
        | waiting c => rintro ⟨h1, h2, h3⟩; exact ⟨h1, by show a + 1 + (l.acks - 1) + _ = r; omega, h3⟩
        | finished b ok => rintro ⟨h1, h2, h3⟩; exact ⟨h1, by show a + 1 + (l.acks - 1) + 1 = _; omega, h3⟩
        | gaveUp => exact id
        | dead => exact id
      refine ⟨m, a + 1, r, hf, ?_⟩
      have := (hf.bounds hc).1
      have hbud : s.budget = l.sender.budget + 10 := by rw [hse]; unfold Sender.budget; simp only []; omega
      unfold remaining
      show _ + s.budget < _
      omega
    · cases h
    · cases h
  | receive c d rest hr hnet =>
    have hrecv := hi.recv
    rw [hr] at hrecv
    obtain ⟨h1, h2, h3⟩ := hrecv
    have hnn := hi.net
    rw [hnet] at hnn
    have hle := hi.le
    have hsent := hi.sent
    have hrj := hi.ne
    have hd : d = (stream (sha1 (slice content start n)) (slice content start n) r).bytes ∧ r < m + 1 ∧
        rest = ((List.range j).drop (r + 1) ++ (List.range (m + 1)).drop (max (r + 1) (j + 1))).map
          (fun i => (stream (sha1 (slice content start n)) (slice content start n) i).bytes) := by
      rcases Nat.lt_or_gt_of_ne hrj with hlt | hgt
      · rw [List.drop_eq_getElem_cons (by rw [List.length_range]; exact hlt), List.getElem_range, List.cons_append, List.map_cons] at hnn
        injection hnn with g1 g2
        refine ⟨g1, by omega, ?_⟩
        rw [g2, show max r (j + 1) = max (r + 1) (j + 1) by omega]
      · rw [List.drop_eq_nil_of_le (by rw [List.length_range]; omega), List.nil_append, show max r (j + 1) = r by omega] at hnn
        have hlt : r < m + 1 := by
          apply Classical.byContradiction
          intro hge
          rw [List.drop_eq_nil_of_le (by rw [List.length_range]; omega)] at hnn
          cases hnn
        rw [List.drop_eq_getElem_cons (by rw [List.length_range]; exact hlt), List.getElem_range, List.map_cons] at hnn
        injection hnn with g1 g2
        refine ⟨g1, hlt, ?_⟩
        rw [g2, List.drop_eq_nil_of_le (as := List.range j) (by rw [List.length_range]; omega), List.nil_append, show max (r + 1) (j + 1) = r + 1 by omega]
    obtain ⟨hd, hlt, hrest⟩ := hd
    have hE := hollow_length (slice content start n) j
    have hres := recv_held (sha1 := sha1) (sha1 (slice content start n)) (hollow (slice content start n) j) (by omega)
      (by intro e; rw [e] at hE; exact hne (List.length_eq_zero_iff.1 hE.symm)) r c (by rw [hE]; exact h1) h3
    rw [stream_hollow _ _ _ _ hj hjE hrj, ← hd, hE] at hres
    have mk : ∀ r', r' = (if r + 1 = j then j + 1 else r + 1) → JRecv sha1 (slice content start n) j r' a (l.acks + (recvDatagram sha1 c d).2) (recvDatagram sha1 c d).1 →
        ∃ m' a' r', JInv sha1 content start n cap j m' a' r' { l with net := rest, acks := l.acks + (recvDatagram sha1 c d).2, recv := (recvDatagram sha1 c d).1 } ∧
          remaining (slice content start n).length cap m' a' r' { l with net := rest, acks := l.acks + (recvDatagram sha1 c d).2, recv := (recvDatagram sha1 c d).1 } <
            remaining (slice content start n).length cap m a r l := by
      intro r' hr' hj'
      have hf : JInv sha1 content start n cap j m a r' { l with net := rest, acks := l.acks + (recvDatagram sha1 c d).2, recv := (recvDatagram sha1 c d).1 } := by
        refine ⟨hi.sender, hsent, by split at hr' <;> omega, by split at hr' <;> omega, ?_, hj', hi.alive⟩
        show rest = _
        rw [hrest, hr']
        split
        · rename_i e
          rw [List.drop_eq_nil_of_le (as := List.range j) (i := r + 1) (by rw [List.length_range]; omega),
            List.drop_eq_nil_of_le (as := List.range j) (i := j + 1) (by rw [List.length_range]; omega), show max (r + 1) (j + 1) = max (j + 1) (j + 1) by omega]
        · rfl
      refine ⟨m, a, r', hf, ?_⟩
      unfold remaining
      show _ + l.sender.budget < _
      split at hr' <;> omega
    rcases hres with ⟨g1, c', g2, g3⟩ | ⟨g1, g2⟩
    · refine mk _ rfl ?_
      rw [g2]
      by_cases e : r + 1 = j
      · rw [if_pos e]
        rw [e] at g3
        refine ⟨by omega, ?_, held_skip _ _ _ hj _ g3⟩
        rw [if_neg (by omega)] at h2
        rw [if_pos (by omega)]
        show a + (l.acks + 1) + 1 = _
        omega
      · rw [if_neg e]
        refine ⟨g1, ?_, g3⟩
        show a + (l.acks + 1) + _ = _
        split at h2 <;> split <;> omega
    · refine mk _ rfl ?_
      rw [g2, if_neg (by omega)]
      rw [if_pos (by omega)] at h2
      exact ⟨by omega, by show a + (l.acks + 0) + 1 = _; omega, rfl, rfl⟩
  | timeout c hr hf => cases hf

theorem stuck_jinv (hc : 2 ≤ cap.toNat) {l : Link} {j m a r : Nat} (hj : 1 ≤ j)
    (hi : JInv sha1 content start n cap j m a r l) (hstuck : ∀ l', ¬ LStep sha1 content false l l') :
    l.recv = .finished (hollow (slice content start n) j) (decide (sha1 (hollow (slice content start n) j) = sha1 (slice content start n))) ∨
      CanStall (slice content start n).length n (cap.toNat - 1) := by
  have hrecv := hi.recv
  rcases hr : l.recv with c | ⟨b, ok⟩ | _ | _
  · right
    rw [hr] at hrecv
    obtain ⟨h1, h2, -⟩ := hrecv
    have hnet : l.net = [] := by
      rcases hn : l.net with _ | ⟨d, rest⟩
      · rfl
      · exact absurd (.receive l c d rest hr hn) (hstuck _)
    have hacks : l.acks = 0 := by
      apply Classical.byContradiction
      intro h
      exact hstuck _ (.ack l _ (.arrive _) (by omega))
    have hle := hi.le
    have hsent := hi.sent
    have hrj := hi.ne
    have hrm : r = m + 1 := by
      have := congrArg List.length hi.net
      rw [hnet, List.length_map, List.length_append, List.length_drop, List.length_range, List.length_drop, List.length_range, List.length_nil] at this
      omega
    rw [if_pos (by omega)] at h2
    have hw : l.sender.Waits content := by
      intro e s' hs
      apply Classical.byContradiction
      intro he
      exact hstuck _ (.sender l e s' he hs)
    have hcount := hi.sender.count (by omega)
    have key : 1 ≤ endReads (slice content start n).length n m → cap.toNat - 1 ≤ m → CanStall (slice content start n).length n (cap.toNat - 1) := by
      intro h4 h5
      obtain ⟨i, h6, h7⟩ := endReads_pos h4
      have hlt := (pos_lt_iff (slice content start n).length i).2 (by omega)
      have h8 := canStall_of _ n (i + 1) i (slice_length_le _ _ _) h7 hlt (by omega)
      have h9 := (pos_lt_iff (slice content start n).length (m - 1)).2 (by omega)
      refine canStall_of _ n (cap.toNat - 1) i (slice_length_le _ _ _) h7 hlt ?_
      obtain ⟨g1, g2, g3, g4⟩ := h8
      have : i = m - 1 := by
        unfold endAt at h7
        rw [Bool.or_eq_true, decide_eq_true_eq, decide_eq_true_eq] at h7
        unfold pos at *
        omega
      omega
    rcases hi.sender.full (by omega) with ⟨g1, g2, -⟩ | ⟨g1, g2⟩
    · omega
    · rcases waits_cases hi.sender hi.alive hw with ⟨k1, k2, -⟩ | ⟨k1, k2⟩ | ⟨k, k1, -, k2⟩
      · rcases g2 with ⟨_, g2, -⟩ | g2 | g2
        · rw [k1] at g2; cases g2
        · exact absurd hi.alive g2
        · rw [g2] at hcount; omega
      · rcases g2 with ⟨_, g2, -⟩ | g2 | g2
        · rw [k1] at g2; cases g2
        · exact absurd hi.alive g2
        · rw [g2] at hcount; exact key (by omega) (by omega)
      · rcases g2 with ⟨_, g2, -⟩ | g2 | g2
        · rw [k1] at g2; cases g2
        · exact absurd hi.alive g2
        · rw [g2] at hcount; exact key (by omega) (by omega)
  · left
    rw [hr] at hrecv
    obtain ⟨-, -, h3, h4⟩ := hrecv
    rw [h4, h3]
  · rw [hr] at hrecv; exact hrecv.elim
  · rw [hr] at hrecv; exact hrecv.elim

/-- Losing a packet leads to the invariant. -/
theorem lose_jinv {l : Link} {m a r : Nat} (hi : FInv sha1 content start n cap m a r l) (x y : List Bytes) (d : Bytes) (hnet : l.net = x ++ d :: y)
    (p : Packet) (hp : readPacket d = .ok p) (ho : p.offset ≠ 0) (hd : p.data ≠ []) (c : RConn) (hr : l.recv = .waiting c) :
    ∃ j r', 1 ≤ j ∧ j < endIndex (slice content start n).length ∧ p = stream (sha1 (slice content start n)) (slice content start n) j ∧
      JInv sha1 content start n cap j m a r' { l with net := x ++ y } := by
  have hle := hi.inv.le
  have hlen : (List.drop r (List.range (m + 1))).length = m + 1 - r := by rw [List.length_drop, List.length_range]
  have hn := hi.inv.net
  rw [hnet] at hn
  have hxl : x.length + 1 + y.length = m + 1 - r := by
    have := congrArg List.length hn
    rw [List.length_map, hlen] at this
    simp only [List.length_append, List.length_cons] at this
    omega
  have hsplit : (List.range (m + 1)).drop r = (List.range (r + x.length)).drop r ++ (r + x.length) :: (List.range (m + 1)).drop (r + x.length + 1) := by
    apply List.ext_getElem?
    intro i
    have hl1 : ((List.range (r + x.length)).drop r).length = x.length := by rw [List.length_drop, List.length_range]; omega
    by_cases a1 : i < x.length
    · rw [List.getElem?_append_left (by omega), List.getElem?_drop, List.getElem?_drop, List.getElem?_range (by omega), List.getElem?_range (by omega)]
    · rw [List.getElem?_append_right (by omega), hl1]
      rcases Nat.eq_or_lt_of_le (Nat.le_of_not_lt a1) with e | e
      · rw [← e, Nat.sub_self, List.getElem?_cons_zero, List.getElem?_drop, List.getElem?_range (by omega)]
      · obtain ⟨t, ht⟩ : ∃ t, i - x.length = t + 1 := ⟨i - x.length - 1, by omega⟩
        rw [ht, List.getElem?_cons_succ, List.getElem?_drop, List.getElem?_drop]
        congr 1
        omega
  rw [hsplit, List.map_append, List.map_cons] at hn
  have hxy := List.append_inj hn (by rw [List.length_map, List.length_drop, List.length_range]; omega)
  obtain ⟨hx, hy⟩ := hxy
  injection hy with hd' hy
  rw [hd', readPacket_bytes _ (stream_length _ _ _)] at hp
  injection hp with hp
  have hrecv := hi.inv.recv
  rw [hr] at hrecv
  obtain ⟨g1, g2, g3⟩ := hrecv
  generalize hj : r + x.length = j at *
  have hj1 : 1 ≤ j := by
    apply Classical.byContradiction
    intro h
    have : j = 0 := by omega
    rw [this] at hp
    rw [← hp] at ho
    exact ho rfl
  have hjE : j < endIndex (slice content start n).length := by
    obtain ⟨k, rfl⟩ : ∃ k, j = k + 1 := ⟨j - 1, by omega⟩
    refine (pos_lt_iff _ _).1 ?_
    apply Classical.byContradiction
    intro h
    rw [← hp] at hd
    refine hd ?_
    show ((slice content start n).drop (pos _ k)).take 1024 = []
    rw [List.drop_eq_nil_of_le (by omega), List.take_nil]
  refine ⟨j, if r = j then j + 1 else r, hj1, hjE, hp.symm, hi.inv.sender, by omega, by split <;> omega, by split <;> omega, ?_, ?_, hi.alive⟩
  · show x ++ y = _
    rw [List.map_append, hx, hy]
    split
    · rename_i e
      rw [List.drop_eq_nil_of_le (as := List.range j) (i := r) (by rw [List.length_range]; omega),
        List.drop_eq_nil_of_le (as := List.range j) (i := j + 1) (by rw [List.length_range]; omega), show max (j + 1) (j + 1) = j + 1 by omega]
    · rw [show max r (j + 1) = j + 1 by omega]
  · show JRecv sha1 _ j _ a l.acks l.recv
    rw [hr]
    by_cases e : r = j
    · rw [if_pos e]
      refine ⟨by omega, by rw [if_pos (by omega)]; omega, held_skip _ _ _ hj1 _ (held_hollow _ _ _ _ (Nat.le_refl _) _ (e ▸ g3))⟩
    · rw [if_neg e]
      refine ⟨g1, by rw [if_neg (by omega)]; omega, held_hollow _ _ _ _ (by omega) _ g3⟩

/-- One packet with data is lost, and from then on nothing else goes wrong: every execution is finite, and (unless the chunk is one that can stall) one
that cannot go on has handed over the chunk with zeros in the place of what the packet carried; what the hash check says of it changes nothing. -/
theorem C114_hole (ch : List AtChoice) (cr : ChunkReader) (hcr : newChunkReader sha1 content start n ch = some cr) (hn : n < 2 ^ 32)
    (hne : slice content start n ≠ []) (hc : 2 ≤ cap.toNat) (k : Nat) (l : Link) (ht : Transfer sha1 content false cr cap k l) (c : RConn) (hr : l.recv = .waiting c)
    (x y : List Bytes) (d : Bytes) (hnet : l.net = x ++ d :: y) (p : Packet) (hp : readPacket d = .ok p) (ho : p.offset ≠ 0) (hd : p.data ≠ []) :
    (∃ N, ∀ i l', LRun sha1 content false { l with net := x ++ y } i l' → i ≤ N) ∧
    (¬ CanStall (slice content start n).length n (cap.toNat - 1) → ∀ i l', LRun sha1 content false { l with net := x ++ y } i l' →
      (∀ l'', ¬ LStep sha1 content false l' l'') →
      ∃ b, l'.recv = .finished b (decide (sha1 b = sha1 (slice content start n))) ∧ b = zeroed (slice content start n) p.offset.toNat p.data.length) := by
  obtain ⟨m, a, r, hi, -⟩ := ht.finv hcr hn (by omega) hne
  obtain ⟨j, r', hj1, hjE, hpj, hji⟩ := lose_jinv hi x y d hnet p hp ho hd c hr
  have hsl := slice_length_le content start n
  have all : ∀ i l', LRun sha1 content false { l with net := x ++ y } i l' → ∃ m' a' r'', JInv sha1 content start n cap j m' a' r'' l' ∧
      i + remaining (slice content start n).length cap m' a' r'' l' ≤ remaining (slice content start n).length cap m a r' { l with net := x ++ y } := by
    intro i l' h
    generalize hl0 : ({ l with net := x ++ y } : Link) = l0 at h
    induction h with
    | refl => subst hl0; exact ⟨m, a, r', hji, by omega⟩
    | step _ hs ih =>
      obtain ⟨m1, a1, r1, h1, h2⟩ := ih
      obtain ⟨m2, a2, r2, h3, h4⟩ := jinv_step hn (by omega) hne hs hj1 hjE h1
      exact ⟨m2, a2, r2, h3, by omega⟩
  have hz : zeroed (slice content start n) p.offset.toNat p.data.length = hollow (slice content start n) j := by
    obtain ⟨t, rfl⟩ : ∃ t, j = t + 1 := ⟨j - 1, by omega⟩
    have h1 : p.offset.toNat = pos (slice content start n).length t := by
      rw [hpj]
      show (UInt32.ofNat _).toNat = _
      have := pos_le (slice content start n).length t
      rw [UInt32.toNat_ofNat']; exact Nat.mod_eq_of_lt (by omega)
    have h2 : p.data.length = min 1024 ((slice content start n).length - pos (slice content start n).length t) := by
      rw [hpj]
      show (((slice content start n).drop (pos _ t)).take 1024).length = _
      rw [List.length_take, List.length_drop]
    apply List.ext_getElem?
    intro i
    rw [zeroed_get, hollow_get, h1, h2]
    by_cases hi : i < (slice content start n).length
    · congr 1
      funext z
      have e : (pos (slice content start n).length t ≤ i ∧ i < pos (slice content start n).length t + min 1024 ((slice content start n).length - pos (slice content start n).length t)) ↔
          (pos (slice content start n).length (t + 1 - 1) ≤ i ∧ i < pos (slice content start n).length (t + 1 - 1) + 1024) := by
        rw [Nat.add_sub_cancel]; omega
      simp only [e]
    · rw [List.getElem?_eq_none (by omega)]; rfl
  constructor
  · refine ⟨remaining (slice content start n).length cap m a r' { l with net := x ++ y }, fun i l' h => ?_⟩
    obtain ⟨_, _, _, -, h2⟩ := all i l' h
    exact Nat.le_trans (Nat.le_add_right _ _) h2
  · intro hcs i l' h hstuck
    obtain ⟨_, _, _, h1, -⟩ := all i l' h
    rcases stuck_jinv hc hj1 h1 hstuck with g | g
    · exact ⟨_, g, hz.symm⟩
    · exact absurd g hcs

/-- A chunk of more than 1000 bytes: its second packet can be the only one under way. -/
theorem inflight (ch : List AtChoice) (cr : ChunkReader) (hcr : newChunkReader sha1 content start n ch = some cr) (hn : n < 2 ^ 32)
    (hS : 1000 < (slice content start n).length) (hc : 0 < cap.toNat) :
    ∃ k l c, Transfer sha1 content false cr cap k l ∧ l.recv = .waiting c ∧
      l.net = [(stream (sha1 (slice content start n)) (slice content start n) 1).bytes] := by
  have hsl := slice_length_le content start n
  have hne : slice content start n ≠ [] := by intro e; rw [e] at hS; simp at hS
  obtain ⟨h1, h2, -, h4⟩ := C23_describes sha1 content start n ch cr hcr
  obtain ⟨s0, hk, hs⟩ : ∃ s0, kickstart content (newSender cr cap) cr.hash cr.size .good true = (.ok (stream (sha1 (slice content start n)) (slice content start n) 0), s0) ∧
      SInv content start n cap 0 0 s0 := by
    rcases kickstart_new content cr start n cap h4 h2 hn .good true with ⟨-, h | h⟩ | ⟨s1, hs1, hinv⟩
    · exact absurd rfl h
    · cases h
    · exact ⟨s1, by rw [h1] at hs1 ⊢; exact hs1, hinv⟩
  obtain ⟨hp, -, hw, hsel, hcan⟩ : s0.pending = 0 ∧ (0 : Nat) = 0 ∧ s0.windowSize = 1 ∧ s0.worker = .select ∧ s0.cancel = false := by
    rcases hs.full hc with h | ⟨h, -⟩
    · exact h
    · omega
  obtain ⟨c, hrc⟩ : ∃ c, recvDatagram sha1 .fresh (stream (sha1 (slice content start n)) (slice content start n) 0).bytes = (.waiting c, 1) := by
    obtain ⟨c, h, -⟩ := recv_first sha1 (sha1 (slice content start n)) (slice content start n) (by omega) .fresh
    exact ⟨c, h⟩
  have r0 := LRun.refl (sha1 := sha1) (content := content) (faults := false)
    ⟨s0, [(stream (sha1 (slice content start n)) (slice content start n) 0).bytes], 0, .waiting .fresh⟩
  have r1 := r0.step (.receive _ .fresh _ [] rfl rfl)
  simp only [hrc] at r1
  have r2 := r1.step (.ack _ _ (.arrive _) (by show 0 < 0 + 1; omega))
  have r3 := r2.step (.sender _ .tau _ (by intro h; cases h) (.take _ hsel (by show 0 < s0.pending + 1; omega)))
  have r4 := r3.step (.sender _ _ _ ?he (.turn _ 0 .good true rfl (fun _ => ⟨rfl, rfl⟩)))
  case he =>
    intro h
    unfold kickTurn at h
    split at h
    · split at h
      · simp only [] at h
        split at h
        · cases h
        · split at h <;> cases h
      · cases h
    · cases h
  refine ⟨_, _, c, ⟨.good, _, s0, fun _ => rfl, hk, r4⟩, rfl, ?_⟩
  show ([] ++ Ev.wire .tau) ++ Ev.wire (kickTurn content _ 0 .good true).1 = _
  have hal : s0.worker.Alive := by rw [hsel]; trivial
  have hlt : s0.windowSize - 1 < s0.windowCap := by
    rw [hw, hs.cap_eq, UInt16.lt_iff_toNat_lt]
    exact hc
  have hrd := read_good content s0.reader start n _ 1024 (hs.reader hal) (pos_le _ _) hn
  unfold kickTurn
  rw [if_pos hlt]
  simp only []
  rw [hrd]
  simp only []
  rw [if_neg (by split <;> simp)]
  rfl

/-- A single lost packet is enough for wrong bytes to be handed over: so it is for every chunk of more than 1000 bytes whose bytes at offsets 1000 to 2023 are not all
zero, with any window of two packets or more, if the chunk is not one that can stall. -/
theorem C114_corrupts (ch : List AtChoice) (cr : ChunkReader) (hcr : newChunkReader sha1 content start n ch = some cr) (hn : n < 2 ^ 32) (hc : 2 ≤ cap.toNat)
    (i : Nat) (hi1 : 1000 ≤ i) (hi2 : i < 2024) (v : UInt8) (hv : (slice content start n)[i]? = some v) (hv0 : v ≠ 0)
    (hcs : ¬ CanStall (slice content start n).length n (cap.toNat - 1)) :
    ∃ l b ok, LossyTransfer sha1 content false cr cap l ∧ l.recv = .finished b ok ∧ b ≠ slice content start n := by
  have hS : i < (slice content start n).length := (List.getElem?_eq_some_iff.1 hv).1
  have hsl := slice_length_le content start n
  have hne : slice content start n ≠ [] := by intro e; rw [e] at hS; simp at hS
  obtain ⟨k, l, c, ht, hr, hnet⟩ := inflight (cap := cap) ch cr hcr hn (by omega) (by omega)
  have hpos : pos (slice content start n).length 0 = 1000 := by unfold pos; omega
  have hoff : (stream (sha1 (slice content start n)) (slice content start n) 1).offset = UInt32.ofNat 1000 := by
    show UInt32.ofNat (pos _ 0) = _
    rw [hpos]
  have hdat : (stream (sha1 (slice content start n)) (slice content start n) 1).data = ((slice content start n).drop 1000).take 1024 := by
    show ((slice content start n).drop (pos _ 0)).take 1024 = _
    rw [hpos]
  have hdl : (((slice content start n).drop 1000).take 1024).length = min 1024 ((slice content start n).length - 1000) := by simp
  obtain ⟨⟨N, hN⟩, hend⟩ := C114_hole ch cr hcr hn hne hc k l ht c hr [] [] _ hnet _ (readPacket_bytes _ (stream_length _ _ _))
    (by rw [hoff]; decide) (by rw [hdat]; intro e; rw [e, List.length_nil] at hdl; omega)
  obtain ⟨j, l', hrun, hstuck⟩ : ∃ j l', LRun sha1 content false { l with net := [] ++ [] } j l' ∧ ∀ l'', ¬ LStep sha1 content false l' l'' := by
    apply Classical.byContradiction
    intro hno
    have ever : ∀ j, ∃ l', LRun sha1 content false { l with net := [] ++ [] } j l' := by
      intro j
      induction j with
      | zero => exact ⟨_, .refl _⟩
      | succ j ih =>
        obtain ⟨l', h⟩ := ih
        apply Classical.byContradiction
        intro h2
        exact hno ⟨j, l', h, fun l'' h3 => h2 ⟨l'', h.step h3⟩⟩
    obtain ⟨l', h⟩ := ever (N + 1)
    have := hN _ _ h
    omega
  obtain ⟨b, hb1, hb2⟩ := hend hcs j l' hrun hstuck
  obtain ⟨rd, p, s0, g1, g2, g3⟩ := ht
  refine ⟨l', b, _, ⟨rd, p, s0, g1, g2, ?_⟩, hb1, ?_⟩
  · have u1 : ∀ {k l l0}, LRun sha1 content false l0 k l → LossyRun sha1 content false l0 l := by
      intro k l l0 h
      induction h with
      | refl => exact .refl
      | step _ hs ih => exact .step ih (.host hs)
    have u2 : ∀ {k l l0 z}, LRun sha1 content false l0 k l → LossyRun sha1 content false z l0 → LossyRun sha1 content false z l := by
      intro k l l0 z h hz
      induction h with
      | refl => exact hz
      | step _ hs ih => exact .step ih (.host hs)
    exact u2 hrun (.step (u1 g3) (.network l ([] ++ []) l.acks (by intro d hd; cases hd) id))
  · intro e
    rw [hb2] at e
    have := congrArg (fun z : Bytes => z[i]?) e
    rw [zeroed_get, hv, hoff, hdat, hdl, Option.map_some, if_pos (by
      show 1000 ≤ i ∧ i < 1000 + _
      omega)] at this
    injection this with h
    exact hv0 h.symm

end

/-! ## Concrete cases -/

/-- `C114_corrupts` (so also `C114_hole` and `inflight`): a full chunk of 4 MiB with the window the daemon uses. -/
example (sha1 : Bytes → Sha1Hash) : ∃ ch cr l b ok, newChunkReader sha1 (List.replicate 4194304 7) 0 4194304 ch = some cr ∧
    LossyTransfer sha1 (List.replicate 4194304 7) false cr 1024 l ∧ l.recv = .finished b ok ∧ b ≠ List.replicate 4194304 7 := by
  obtain ⟨ch, cr, h1, h2, hne⟩ := ex_chunk sha1 4194304 4194304 (by omega) (by omega)
  obtain ⟨l, b, ok, g1, g2, g3⟩ := C114_corrupts (cap := 1024) ch cr h1 (by omega) (by decide) 1500 (by omega) (by omega) 7 (by
    rw [h2, List.getElem?_replicate, if_pos (by omega)]) (by decide) (by rw [h2, List.length_replicate]; unfold CanStall; omega)
  exact ⟨ch, cr, l, b, ok, h1, g1, g2, by rw [h2] at g3; exact g3⟩

/-- `C114_safe`: an execution in which the first packet is repeated and both copies are received. -/
example (sha1 : Bytes → Sha1Hash) : ∃ ch cr l c, newChunkReader sha1 (List.replicate 5 7) 0 5 ch = some cr ∧ slice (List.replicate 5 (7 : UInt8)) 0 5 ≠ [] ∧
    LossyTransfer sha1 (List.replicate 5 7) false cr 2 l ∧ l.recv = .waiting c ∧ l.acks = 2 := by
  obtain ⟨ch, cr, h1, h2, hne⟩ := ex_chunk sha1 5 5 (by omega) (by omega)
  obtain ⟨k1, k2, -, k4⟩ := C23_describes sha1 _ 0 5 ch cr h1
  rcases kickstart_new _ cr 0 5 2 k4 k2 (by omega) .good true with ⟨-, h | h⟩ | ⟨s1, hs1, hinv⟩
  · exact absurd rfl h
  · cases h
  rw [k1] at hs1
  have hlen : (slice (List.replicate 5 (7 : UInt8)) 0 5).length < 2 ^ 32 := by rw [h2]; simp
  obtain ⟨c1, e1, -⟩ := recv_first sha1 (sha1 (slice (List.replicate 5 7) 0 5)) _ hlen .fresh
  obtain ⟨c2, e2, -⟩ := recv_first sha1 (sha1 (slice (List.replicate 5 7) 0 5)) _ hlen c1
  have r0 := LossyRun.refl (sha1 := sha1) (content := List.replicate 5 7) (faults := false)
    (l0 := ⟨s1, [(stream (sha1 (slice (List.replicate 5 7) 0 5)) (slice (List.replicate 5 7) 0 5) 0).bytes], 0, .waiting .fresh⟩)
  have r1 := r0.step (.network _ [(stream (sha1 (slice (List.replicate 5 7) 0 5)) (slice (List.replicate 5 7) 0 5) 0).bytes,
    (stream (sha1 (slice (List.replicate 5 7) 0 5)) (slice (List.replicate 5 7) 0 5) 0).bytes] 0 (by simp) id)
  have r2 := r1.step (.host (.receive _ .fresh _ _ rfl rfl))
  simp only [e1] at r2
  have r3 := r2.step (.host (.receive _ c1 _ _ rfl rfl))
  simp only [e2] at r3
  exact ⟨ch, cr, _, c2, h1, hne, ⟨.good, _, s1, fun _ => rfl, by rw [k1]; exact hs1, r3⟩, rfl, rfl⟩

end Flu
