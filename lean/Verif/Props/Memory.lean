import Verif.Props.Receiver
/-!
# The memory a transfer takes (C107)
-/
namespace Flu
open Spec

/-- The datagrams that were read, up to the first failing read. -/
def Spec.arrived : List (Option Bytes) → List Bytes
  | some d :: rest => d :: Spec.arrived rest
  | _ => []

/-- C107, as it should be: while a chunk of `size` bytes is fetched, the receiver's buffer never has more than `size` bytes, whatever arrives. -/
def C107_statement : Prop := ∀ (sha1 : Bytes → Sha1Hash) (size : Nat) (queue : List (Option Bytes)) (acks : List UInt32) (c : RConn),
  recvLoop sha1 .fresh queue = .ok (acks, .waiting c) → c.buffer.length ≤ size

theorem waiting_knows (sha1 : Bytes → Sha1Hash) (queue : List (Option Bytes)) : ∀ (c : RConn) (seen : List Bytes), c.Knows (announced seen) →
    ∀ acks c', recvLoop sha1 c queue = .ok (acks, .waiting c') → c'.Knows (announced (seen ++ arrived queue)) := by
  induction queue with
  | nil =>
    intro c seen hk acks c' h
    cases h
    rw [show arrived [] = [] from rfl, List.append_nil]
    exact hk
  | cons o rest ih =>
    intro c seen hk acks c' h
    rcases o with _ | d
    · cases h
    · obtain ⟨h1, h2, h3⟩ := onDatagram sha1 c seen hk d
      rw [recvLoop_cons] at h
      by_cases hf : Fatal seen d
      · rw [h1 hf] at h; cases h
      by_cases he : isEnd d
      · obtain ⟨x, -, e⟩ := h2 hf he
        rw [e] at h; cases h
      · obtain ⟨c1, hk', e⟩ := h3 hf he
        rw [e, Res.bind_ok] at h
        rcases hr : recvLoop sha1 c1 rest with ⟨a, o⟩ | e | _ | _ | _
        · simp only [hr, Res.bind_ok] at h
          cases h
          have := ih c1 _ hk' a c' hr
          rwa [List.append_assoc] at this
        all_goals simp only [hr] at h; cases h

/-- **C107, exactly**: the buffer always has the size that the last first packet announced, or is empty before the first one. -/
theorem C107_exact (sha1 : Bytes → Sha1Hash) (queue : List (Option Bytes)) (acks : List UInt32) (c : RConn) (h : recvLoop sha1 .fresh queue = .ok (acks, .waiting c)) :
    c.buffer.length = (announced (arrived queue)).getD 0 :=
  (waiting_knows sha1 queue .fresh [] RConn.fresh_knows acks c h).2

theorem announced_mem : ∀ {ds : List Bytes} {n : Nat}, announced ds = some n → ∃ d ∈ ds, dgOffset d = 0 ∧ dgSize d = n
  | d :: ds, n, h => by
    simp only [announced] at h
    rcases ha : announced ds with _ | a
    · rw [ha] at h
      by_cases h0 : dgOffset d = 0
      · exact ⟨d, List.mem_cons_self .., h0, by rw [if_pos h0] at h; exact Option.some.inj h⟩
      · rw [if_neg h0] at h; cases h
    · rw [ha] at h
      obtain ⟨x, hx, h1, h2⟩ := announced_mem ha
      exact ⟨x, List.mem_cons_of_mem _ hx, h1, h2.trans (Option.some.inj h)⟩

theorem mem_arrived {queue : List (Option Bytes)} {d : Bytes} (h : d ∈ arrived queue) : some d ∈ queue := by
  induction queue with
  | nil => cases h
  | cons o rest ih =>
    rcases o with _ | x
    · cases h
    · rcases List.mem_cons.1 h with rfl | h
      · exact List.mem_cons_self ..
      · exact List.mem_cons_of_mem _ (ih h)

/-- **C107, the part that holds.**  No more is held than some datagram announced: never 2^32 bytes or more, and no more than the chunk has if no announcement says more.  Missing: announcements
that say more, see `C107_any`. -/
theorem C107_partial (sha1 : Bytes → Sha1Hash) (size : Nat) (queue : List (Option Bytes)) (acks : List UInt32) (c : RConn) (h : recvLoop sha1 .fresh queue = .ok (acks, .waiting c)) :
    c.buffer.length < 2 ^ 32 ∧ ((∀ d, some d ∈ queue → dgOffset d = 0 → dgSize d ≤ size) → c.buffer.length ≤ size) := by
  rw [C107_exact sha1 queue acks c h]
  rcases ha : announced (arrived queue) with _ | n
  · exact ⟨by decide, fun _ => Nat.zero_le _⟩
  · obtain ⟨d, hd, h0, hn⟩ := announced_mem ha
    refine ⟨?_, fun hs => ?_⟩
    · show n < _
      rw [← hn]
      unfold dgSize
      exact beNat4_lt d 25
    · show n ≤ _
      rw [← hn]; exact hs d (mem_arrived hd) h0

/-- **A peer decides how much the daemon holds**: one datagram of 29 bytes suffices for every size below 2^32. -/
theorem C107_any (sha1 : Bytes → Sha1Hash) (n : Nat) (hn : n < 2 ^ 32) : ∃ (d : Bytes) (acks : List UInt32) (c : RConn), d.length = 29 ∧
    recvLoop sha1 .fresh [some d] = .ok (acks, .waiting c) ∧ c.buffer.length = n := by
  have hB : (List.replicate n (0 : UInt8)).length = n := List.length_replicate
  have hp : IsFirst (List.replicate n 0) .zero 0 ⟨0, Sha1Hash.zero.1 ++ put32 (UInt32.ofNat n)⟩ := ⟨rfl, by rw [hB]; simp⟩
  have hl : (Sha1Hash.zero.1 ++ put32 (UInt32.ofNat n)).length = 24 := by rw [List.length_append, Sha1Hash.zero.2]; rfl
  obtain ⟨m, hm⟩ := onPacket_first sha1 .fresh _ _ _ _ (by rw [hB]; exact hn) hp
  have hb : Packet.bytes ⟨0, Sha1Hash.zero.1 ++ put32 (UInt32.ofNat n)⟩ = [5] ++ put32 0 ++ (Sha1Hash.zero.1 ++ put32 (UInt32.ofNat n)) := rfl
  refine ⟨Packet.bytes ⟨0, Sha1Hash.zero.1 ++ put32 (UInt32.ofNat n)⟩, [0], ⟨some .zero, withHoles (List.replicate n 0) 0 [], m⟩, ?_, ?_, ?_⟩
  · rw [hb, List.length_append, hl]; rfl
  · rw [recvLoop_cons, readPacket_bytes _ (by show (Sha1Hash.zero.1 ++ _).length ≤ 1024; rw [hl]; decide), Res.bind_ok, hm]; rfl
  · show (withHoles _ _ _).length = n
    rw [withHoles_length, hB]

theorem beNat_put32 (x : UInt32) : beNat (put32 x) = x.toNat := by
  unfold put32
  rw [beNat_beBytes]
  exact Nat.mod_eq_of_lt x.toNat_lt

/-- With a sender that sends a chunk `B` honestly, however its packets are lost, repeated and reordered, the buffer has at most the size of the chunk. -/
theorem C107_honest (sha1 : Bytes → Sha1Hash) (B : Bytes) (h : Sha1Hash) (ps : List Packet)
    (hp : ∀ p ∈ ps, (∃ k, IsFirst B h k p) ∨ p.offset ≠ 0) (acks : List UInt32) (c : RConn)
    (hr : recvLoop sha1 .fresh (ps.map (fun p => some p.bytes)) = .ok (acks, .waiting c)) : c.buffer.length ≤ B.length := by
  refine (C107_partial sha1 B.length _ acks c hr).2 (fun d hd h0 => ?_)
  obtain ⟨p, hm, he⟩ := List.mem_map.1 hd
  obtain rfl : p.bytes = d := Option.some.inj he
  rcases hp p hm with ⟨k, hf⟩ | hne
  · have : p.bytes = [5] ++ put32 p.offset ++ (h.1 ++ put32 (UInt32.ofNat B.length) ++ B.take k) := by rw [← hf.2]; rfl
    have h1 : (h.1 ++ put32 (UInt32.ofNat B.length) ++ B.take k).drop 20 = put32 (UInt32.ofNat B.length) ++ B.take k := by
      rw [List.append_assoc]; exact List.drop_left' h.2
    have h2 : p.bytes.drop 25 = put32 (UInt32.ofNat B.length) ++ B.take k := by
      rw [this, show 25 = 5 + 20 from rfl, ← List.drop_drop, List.drop_left' (by rfl), h1]
    unfold dgSize
    rw [h2, List.take_left' (by rfl), beNat_put32, UInt32.toNat_ofNat']
    exact Nat.mod_le _ _
  · have h2 : dgOffset p.bytes = p.offset.toNat := by
      show beNat ((put32 p.offset ++ p.data).take 4) = _
      rw [List.take_left' (by rfl), beNat_put32]
    exact absurd (UInt32.toNat_inj.1 (show p.offset.toNat = (0 : UInt32).toNat from h2.symm.trans h0)) hne

set_option maxRecDepth 8000 in
/-- The hypotheses of `C107_exact`, `C107_partial` and `C107_honest` can be met: an announcement and a piece of a chunk of three bytes. -/
example : let f : Packet := ⟨0, Sha1Hash.zero.1 ++ put32 3 ++ [1, 2]⟩
    let p : Packet := ⟨2, [3]⟩
    (∀ x ∈ [f, p], (∃ k, IsFirst [1, 2, 3] .zero k x) ∨ x.offset ≠ 0) ∧
    ∃ acks c, recvLoop (fun _ => .zero) .fresh ([f, p].map (fun p => some p.bytes)) = .ok (acks, .waiting c) ∧ c.buffer = [1, 2, 3] := by
  refine ⟨fun x hx => ?_, _, _, rfl, rfl⟩
  rcases List.mem_cons.1 hx with rfl | hx
  · exact .inl ⟨2, rfl, rfl⟩
  · obtain rfl := List.mem_singleton.1 hx
    exact .inr (by decide)

theorem C107_refuted : ¬ C107_statement := by
  intro h
  obtain ⟨d, acks, c, -, hr, hc⟩ := C107_any (fun _ => .zero) 5 (by decide)
  have := h (fun _ => .zero) 4 [some d] acks c hr
  omega

end Flu
