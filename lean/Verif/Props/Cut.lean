import Verif.Props.LiveUpload
/-!
# A chunk of which nothing is left when its upload begins

C126: the rest of the exact condition for packets that arrive in order.
-/
namespace Flu
open Spec

/-- What packets behind the first do to a downloader depends, as far as its life and the length of its buffer are concerned, on that length alone. -/
theorem recv_len (sha1 : Bytes → Sha1Hash) (h : Sha1Hash) (ps : List Packet) : ∀ (c : RConn), c.hash = some h → (∀ p ∈ ps, p.offset ≠ 0 ∧ p.data.length ≤ 1024) →
    (recvLoop sha1 c (ps.map (fun p => some p.bytes)) = .panic ∧ ∃ qs p rs, ps = qs ++ p :: rs ∧ (∀ q ∈ qs, q.data ≠ []) ∧ p.data ≠ [] ∧ c.buffer.length < p.offset.toNat) ∨
    ((¬ ∃ qs p rs, ps = qs ++ p :: rs ∧ (∀ q ∈ qs, q.data ≠ []) ∧ p.data ≠ [] ∧ c.buffer.length < p.offset.toNat) ∧
      ((∃ acks c', recvLoop sha1 c (ps.map (fun p => some p.bytes)) = .ok (acks, .waiting c') ∧ ∀ p ∈ ps, p.data ≠ []) ∨
       ∃ acks b, recvLoop sha1 c (ps.map (fun p => some p.bytes)) = .ok (acks, .finished b (decide (sha1 b = h))) ∧ b.length = c.buffer.length)) := by
  induction ps with
  | nil =>
    intro c _ _
    refine .inr ⟨?_, .inl ⟨_, _, rfl, fun p hp => (by cases hp)⟩⟩
    rintro ⟨qs, p, rs, e, -⟩
    cases qs <;> cases e
  | cons p ps ih =>
    intro c hc hps
    obtain ⟨h0, hlen⟩ := hps p (by simp)
    rw [List.map_cons, recvLoop_packet _ _ _ hlen]
    unfold onPacket
    rw [if_neg h0]
    by_cases hd : p.data = []
    · rw [if_neg (by rw [hd]; simp), hc]
      simp only [Res.pure_eq, Res.bind_ok]
      refine .inr ⟨?_, .inr ⟨[], c.buffer, rfl, rfl⟩⟩
      rintro ⟨qs, q, rs, e, g1, g2, -⟩
      cases qs with
      | nil => cases e; exact g2 hd
      | cons x qs => cases e; exact g1 p (by simp) hd
    · rw [if_pos (List.length_pos_iff.2 hd)]
      by_cases hsz : p.offset.toNat ≤ c.buffer.length
      · obtain ⟨out, ho⟩ : ∃ out, copyAt c.buffer p.offset.toNat p.data = .ok out := by
          unfold copyAt
          rw [if_neg (by omega)]
          exact ⟨_, rfl⟩
        have hl := copyAt_length ho
        rw [ho, Res.bind_ok]
        simp only [Res.pure_eq, Res.bind_ok]
        have hsplit : (∃ qs q rs, p :: ps = qs ++ q :: rs ∧ (∀ q ∈ qs, q.data ≠ []) ∧ q.data ≠ [] ∧ c.buffer.length < q.offset.toNat) ↔
            ∃ qs q rs, ps = qs ++ q :: rs ∧ (∀ q ∈ qs, q.data ≠ []) ∧ q.data ≠ [] ∧ c.buffer.length < q.offset.toNat := by
          constructor
          · rintro ⟨qs, q, rs, e, g1, g2, g3⟩
            cases qs with
            | nil => cases e; omega
            | cons x qs => cases e; exact ⟨qs, q, rs, rfl, fun y hy => g1 y (by simp [hy]), g2, g3⟩
          · rintro ⟨qs, q, rs, rfl, g1, g2, g3⟩
            refine ⟨p :: qs, q, rs, rfl, fun y hy => ?_, g2, g3⟩
            rcases List.mem_cons.1 hy with rfl | hy
            · exact hd
            · exact g1 y hy
        rw [hsplit]
        rcases ih { c with buffer := out, bytesReceived := c.bytesReceived + p.data.length } hc (fun q hq => hps q (by simp [hq])) with ⟨g1, g2⟩ | ⟨g1, ⟨acks, c', g2, g3⟩ | ⟨acks, b, g2, g3⟩⟩
        · simp only [hl] at g2
          exact .inl ⟨by rw [g1]; rfl, g2⟩
        · simp only [hl] at g1
          refine .inr ⟨g1, .inl ⟨_, c', by rw [g2]; rfl, fun q hq => ?_⟩⟩
          rcases List.mem_cons.1 hq with rfl | hq
          · exact hd
          · exact g3 q hq
        · simp only [hl] at g1 g3
          exact .inr ⟨g1, .inr ⟨_, b, by rw [g2]; rfl, g3⟩⟩
      · refine .inl ⟨?_, [], p, ps, rfl, (fun q hq => by cases hq), hd, by omega⟩
        have : copyAt c.buffer p.offset.toNat p.data = .panic := by
          unfold copyAt
          rw [if_pos (by omega)]
        rw [this]
        rfl

/-- **C126, nothing left of the chunk.**  If the file did not reach into the chunk when the first packet was made, the second one is taken for the announcement, and it carries what the file then
contains: the downloader dies if that is less than 24 bytes, or if a later packet with data begins beyond the number in bytes 20 to 23 of the chunk; what it saves has that number of bytes, and is
compared with the first 20 bytes of the chunk. -/
theorem C126_nothing (sha1 : Bytes → Sha1Hash) (start n : Nat) (hn : n < 2 ^ 32) (faults : Bool) (cap : UInt16) (looks : List (Bytes × AtChoice)) (first : Bytes) (vs : List Bytes) (tr : List Ev) (s : Sender)
    (h : LiveUpload sha1 start n faults cap looks first vs tr s) (hf : first.length ≤ start) :
    ∃ f ps, sends tr = f :: ps ∧ (ps = [] → ∃ acks c, recvLoop sha1 .fresh ((sends tr).map (fun p => some p.bytes)) = .ok (acks, .waiting c)) ∧
      ∀ p rs, ps = p :: rs → (∃ v ∈ vs, p.data = look start n 1024 0 v) ∧
        (recvLoop sha1 .fresh ((sends tr).map (fun p => some p.bytes)) = .panic ↔
          p.data.length < 24 ∨ ∃ qs q rs', rs = qs ++ q :: rs' ∧ (∀ x ∈ qs, x.data ≠ []) ∧ q.data ≠ [] ∧ sizeIn p < q.offset.toNat) ∧
        (recvLoop sha1 .fresh ((sends tr).map (fun p => some p.bytes)) = .panic ∨
          (∃ acks c, recvLoop sha1 .fresh ((sends tr).map (fun p => some p.bytes)) = .ok (acks, .waiting c) ∧ ∀ q ∈ rs, q.data ≠ []) ∨
          ∃ acks b ok, recvLoop sha1 .fresh ((sends tr).map (fun p => some p.bytes)) = .ok (acks, .finished b ok) ∧
            b.length = sizeIn p ∧ (ok = true ↔ (sha1 b).1 = p.data.take 20)) := by
  obtain ⟨opened, ps, h1, h2, h3, -, -⟩ := C126_sent sha1 start n hn faults cap looks first vs tr s h
  have hnil : look start n 1000 0 first = [] := by
    unfold look
    rw [List.drop_eq_nil_of_le (by omega), List.take_nil]
  rw [hnil] at h1 h2
  obtain ⟨k, hk⟩ := onPacket_announce sha1 .fresh (sha1 opened) opened.length (by omega) []
  refine ⟨_, ps, h1, ?_, ?_⟩
  · rintro rfl
    rw [h1, List.map_cons, recvLoop_packet _ _ _ (first_length _ _ [] (by simp)), hk, Res.bind_ok]
    exact ⟨_, _, rfl⟩
  rintro p rs rfl
  obtain ⟨g1, ⟨v, hv, g2⟩, g3⟩ := h2
  have h0 : p.offset = 0 := UInt32.toNat_inj.1 g1
  have hlen : p.data.length ≤ 1024 := by
    have := look_length_le start n 1024 ([] : Bytes).length v
    rw [g2]
    omega
  refine ⟨⟨v, hv, g2⟩, ?_⟩
  rw [h1, List.map_cons, recvLoop_packet _ _ _ (first_length _ _ [] (by simp)), hk, Res.bind_ok]
  simp only []
  rw [List.map_cons, recvLoop_packet _ _ _ hlen]
  unfold onPacket
  rw [if_pos h0]
  by_cases h24 : p.data.length < 24
  · have : splitFirst ⟨p.data, p.data.length⟩ = .panic := (C19_split_panics_iff ⟨p.data, p.data.length⟩ (Nat.le_refl _)).2 h24
    rw [this]
    exact ⟨⟨fun _ => .inl h24, fun _ => rfl⟩, .inl rfl⟩
  have hsp : splitFirst ⟨p.data, p.data.length⟩ = .ok (Sha1Hash.zero.fromSlice (p.data.take 20), UInt32.ofNat (sizeIn p), p.data.drop 24) := by
    unfold splitFirst
    simp only []
    rw [if_neg h24, if_neg h24, List.take_length]
    rfl
  have hsz : (UInt32.ofNat (sizeIn p)).toNat = sizeIn p := by
    rw [UInt32.toNat_ofNat']
    refine Nat.mod_eq_of_lt (Nat.lt_of_lt_of_le (beNat_lt _) ?_)
    rw [List.length_take, List.length_drop, Nat.min_eq_left (by omega)]
    decide
  obtain ⟨out, ho⟩ : ∃ out, copyAt (List.replicate (sizeIn p) 0) 0 (p.data.drop 24) = .ok out := by
    unfold copyAt
    rw [if_neg (by omega)]
    exact ⟨_, rfl⟩
  have hol := copyAt_length ho
  rw [List.length_replicate] at hol
  rw [hsp, Res.bind_ok]
  simp only [hsz]
  rw [ho, Res.bind_ok]
  simp only [Res.pure_eq, Res.bind_ok]
  have hlater : ∀ q ∈ rs, q.offset ≠ 0 ∧ q.data.length ≤ 1024 := by
    intro q hq
    obtain ⟨a1, w, hw, a2⟩ := chained_mem g3 q hq
    refine ⟨fun e => ?_, ?_⟩
    · rw [e] at a1
      have : (0 : UInt32).toNat = 0 := rfl
      omega
    · have := look_length_le start n 1024 q.offset.toNat w
      rw [a2]
      omega
  rcases recv_len sha1 _ rs ⟨some (Sha1Hash.zero.fromSlice (p.data.take 20)), out, k + (p.data.drop 24).length⟩ rfl hlater with ⟨q1, q2⟩ | ⟨q1, ⟨acks, c', q2, q3⟩ | ⟨acks, b, q2, q3⟩⟩
  · simp only [hol] at q2
    rw [q1]
    exact ⟨⟨fun _ => .inr q2, fun _ => rfl⟩, .inl rfl⟩
  · simp only [hol] at q1
    rw [q2]
    refine ⟨⟨fun hx => (by cases hx), fun hx => ?_⟩, ?_⟩
    · rcases hx with hx | hx
      · exact absurd hx h24
      · exact absurd hx q1
    · exact .inr (.inl ⟨_, _, rfl, q3⟩)
  · simp only [hol] at q1 q3
    rw [q2]
    refine ⟨⟨fun hx => (by cases hx), fun hx => ?_⟩, ?_⟩
    · rcases hx with hx | hx
      · exact absurd hx h24
      · exact absurd hx q1
    · refine .inr (.inr ⟨_, b, _, rfl, q3, ?_⟩)
      rw [decide_eq_true_iff]
      have hv : (Sha1Hash.zero.fromSlice (p.data.take 20)).1 = p.data.take 20 := fromSlice_val _ (by rw [List.length_take]; omega)
      exact ⟨fun e => (by rw [e]; exact hv), fun e => Subtype.ext (e.trans hv.symm)⟩

/-- **C126, a file that is emptied and filled again** while its upload begins: how much the downloader saves is written in the file. -/
theorem C126_refilled (sha1 : Bytes → Sha1Hash) (start n : Nat) (hn : n < 2 ^ 32) (F G : Bytes) (h24 : 24 ≤ (slice G start n).length) (hG : (slice G start n).length ≤ 1024) :
    ∃ looks tr s, (∀ x ∈ looks, x = (F, AtChoice.good)) ∧ LiveUpload sha1 start n false 1024 looks [] [[], [], G, G] tr s ∧
      ∃ acks b ok, recvLoop sha1 .fresh ((sends tr).map (fun p => some p.bytes)) = .ok (acks, .finished b ok) ∧ b.length = beNat (((slice G start n).drop 20).take 4) := by
  obtain ⟨cr, ho⟩ := C126_opens sha1 start n (List.replicate (n + 1) (F, .good)) (looks_good n F)
  obtain ⟨s, hs⟩ := live_two sha1 start n hn _ cr ho [] G G
  have hnil : look start n 1000 0 [] = [] := by
    unfold look
    rw [List.drop_nil, List.take_nil]
  have hl1 : look start n 1024 0 G = slice G start n := by
    unfold look slice at *
    simp only [Nat.add_zero, Nat.sub_zero, List.length_take, List.length_drop] at *
    rw [List.take_eq_take_iff, List.length_drop]
    omega
  have hl2 : look start n 1024 (slice G start n).length G = [] := by
    unfold look slice
    simp only [List.length_take, List.length_drop]
    by_cases hc : n ≤ G.length - start
    · rw [Nat.min_eq_left hc, Nat.sub_self, Nat.min_zero, List.take_zero]
    · rw [List.drop_eq_nil_of_le (by omega), List.take_nil]
  simp only [hnil, List.length_nil, Nat.zero_add, hl1, hl2] at hs
  refine ⟨_, _, s, fun x hx => (List.mem_replicate.1 hx).2, hs, ?_⟩
  obtain ⟨f, ps, e, -, h2⟩ := C126_nothing sha1 start n hn false 1024 _ [] _ _ s hs (Nat.zero_le _)
  have e' := e
  simp only [sends, List.cons.injEq] at e
  obtain ⟨rfl, rfl⟩ := e
  obtain ⟨-, h3, h4⟩ := h2 _ _ rfl
  rcases h4 with h4 | ⟨_, _, -, h4⟩ | ⟨acks, b, ok, h4, h5, -⟩
  · rcases h3.1 h4 with h5 | ⟨qs, q, rs, e, g1, g2, -⟩
    · simp only at h5; omega
    · cases qs with
      | nil => cases e; exact absurd rfl g2
      | cons x qs => cases qs <;> cases e
  · exact absurd rfl (h4 _ List.mem_cons_self)
  · exact ⟨acks, b, ok, h4, h5⟩

end Flu
