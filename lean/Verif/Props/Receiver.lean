import Verif.Model.Receiver
import Verif.Props.Messages
/-!
# Properties of the receiving side of a chunk transfer (C20, C43)
-/
namespace Flu

/-! ## A datagram as its reader sees it -/

/-- The offset field of a datagram: bytes 1 to 4, big endian. -/
def Spec.dgOffset (d : Bytes) : Nat := beNat ((d.drop 1).take 4)

/-- The chunk size announced by a first packet: bytes 25 to 28, big endian. -/
def Spec.dgSize (d : Bytes) : Nat := beNat ((d.drop 25).take 4)

/-- The chunk size announced so far: that of the last zero-offset datagram. -/
def Spec.announced : List Bytes → Option Nat
  | [] => none
  | d :: ds => match Spec.announced ds with
    | some s => some s
    | none => if Spec.dgOffset d = 0 then some (Spec.dgSize d) else none

/-- The end marker: a header with a non-zero offset and nothing after it. -/
def Spec.isEnd (d : Bytes) : Prop := d.length = 5 ∧ Spec.dgOffset d ≠ 0

/-- The datagrams a receiver that has seen `seen` cannot take. -/
def Spec.Fatal (seen : List Bytes) (d : Bytes) : Prop :=
  d.length < 5 ∨
  (Spec.dgOffset d = 0 ∧ d.length < 29) ∨
  (Spec.dgOffset d ≠ 0 ∧ 5 < d.length ∧ (Spec.announced seen).getD 0 < Spec.dgOffset d) ∨
  (Spec.isEnd d ∧ Spec.announced seen = none)

open Spec

theorem beNat4_lt (d : Bytes) (k : Nat) : beNat ((d.drop k).take 4) < 2 ^ 32 := by
  have h := beNat_lt ((d.drop k).take 4)
  have : ((d.drop k).take 4).length ≤ 4 := by simp; omega
  calc _ < _ := h
    _ ≤ 256 ^ 4 := Nat.pow_le_pow_right (by decide) this
    _ = 2 ^ 32 := by decide

/-- What the reading goroutine makes of a datagram. -/
theorem readPacket_eq (d : Bytes) :
    readPacket d = if d.length < 5 then .panic else .ok ⟨UInt32.ofNat (dgOffset d), (d.take 1029).drop 5⟩ := by
  unfold readPacket parseAsDataPacket
  simp only []
  have hl : (d.take 1029).length ≤ 1029 := by simp; omega
  have hl2 : (d.take 1029).length = min 1029 d.length := by simp
  have hmem : (d.take 1029 ++ List.replicate (1029 - (d.take 1029).length) (0 : UInt8)).length = 1029 := by
    rw [List.length_append, List.length_replicate]; omega
  rw [if_neg (by rw [hmem]; decide)]
  by_cases h : d.length < 5
  · rw [if_pos (by omega), if_pos h]; rfl
  · rw [if_neg (by omega), if_neg h, Res.bind_ok]
    simp only [Res.pure_eq]
    have e1 : ((d.take 1029 ++ List.replicate (1029 - (d.take 1029).length) (0 : UInt8)).drop 1).take 4 = (d.drop 1).take 4 := by
      rw [List.drop_append_of_le_length (by omega), List.take_append_of_le_length (by rw [List.length_drop]; omega), List.drop_take, List.take_take]
      rfl
    rw [e1, List.take_left]
    rfl

theorem ofNat_dgOffset_zero (d : Bytes) : UInt32.ofNat (dgOffset d) = 0 ↔ dgOffset d = 0 := by
  have h := beNat4_lt d 1
  constructor
  · intro e
    have := congrArg UInt32.toNat e
    rw [UInt32.toNat_ofNat'] at this
    unfold dgOffset at *
    rw [Nat.mod_eq_of_lt h] at this
    exact this
  · intro e; rw [e]; rfl

theorem toNat_dgOffset (d : Bytes) : (UInt32.ofNat (dgOffset d)).toNat = dgOffset d := by
  have h := beNat4_lt d 1
  rw [UInt32.toNat_ofNat']
  exact Nat.mod_eq_of_lt h

/-- What the receiver knows matches what was announced. -/
def RConn.Knows (c : RConn) (a : Option Nat) : Prop := (c.hash = none ↔ a = none) ∧ c.buffer.length = a.getD 0

theorem announced_append (seen : List Bytes) (d : Bytes) :
    announced (seen ++ [d]) = if dgOffset d = 0 then some (dgSize d) else announced seen := by
  induction seen with
  | nil => simp [announced]
  | cons x xs ih =>
    simp only [List.cons_append, announced]
    rw [ih]
    by_cases h : dgOffset d = 0
    · simp [h]
    · simp [h]

theorem copyAt_length {buf data out : Bytes} {off : Nat} (h : copyAt buf off data = .ok out) : out.length = buf.length := by
  unfold copyAt at h
  split at h
  · cases h
  · cases h
    simp only [List.length_append, List.length_take, List.length_drop]
    omega

/-- One datagram: it kills the receiver exactly when it is fatal; otherwise it ends the loop exactly if it is an end marker, and is
acknowledged under its own offset if it is not. -/
theorem onDatagram (sha1 : Bytes → Sha1Hash) (c : RConn) (seen : List Bytes) (hk : c.Knows (announced seen)) (d : Bytes) :
    (Fatal seen d → (readPacket d >>= onPacket sha1 c) = .panic) ∧
    (¬ Fatal seen d → isEnd d → ∃ h, c.hash = some h ∧
      (readPacket d >>= onPacket sha1 c) = .ok (c, .finish c.buffer (decide (sha1 c.buffer = h)))) ∧
    (¬ Fatal seen d → ¬ isEnd d → ∃ c', c'.Knows (announced (seen ++ [d])) ∧
      (readPacket d >>= onPacket sha1 c) = .ok (c', .ack (UInt32.ofNat (dgOffset d)))) := by
  rw [readPacket_eq, announced_append]
  unfold Fatal isEnd
  by_cases h5 : d.length < 5
  · rw [if_pos h5]
    exact ⟨fun _ => rfl, fun h => absurd (.inl h5) h, fun h => absurd (.inl h5) h⟩
  rw [if_neg h5, Res.bind_ok]
  have hlen : ((d.take 1029).drop 5).length = min 1029 d.length - 5 := by simp
  unfold onPacket
  simp only [ofNat_dgOffset_zero, toNat_dgOffset]
  by_cases h0 : dgOffset d = 0
  · rw [if_pos h0, if_pos h0]
    by_cases h29 : d.length < 29
    · refine ⟨fun _ => ?_, fun h => absurd (.inr (.inl ⟨h0, h29⟩)) h, fun h => absurd (.inr (.inl ⟨h0, h29⟩)) h⟩
      rw [(C19_split_panics_iff _ (Nat.le_refl _)).2 (by simp only [hlen]; omega)]
      rfl
    · have hsp : splitFirst ⟨(d.take 1029).drop 5, ((d.take 1029).drop 5).length⟩ =
          .ok (Sha1Hash.zero.fromSlice (((d.take 1029).drop 5).take 20), UInt32.ofNat (dgSize d), ((d.take 1029).drop 5).drop 24) := by
        unfold splitFirst
        simp only []
        rw [if_neg (by omega), if_neg (by omega), List.take_length]
        have : (((d.take 1029).drop 5).drop 20).take 4 = (d.drop 25).take 4 := by
          rw [List.drop_drop, List.drop_take, List.take_take]; rfl
        rw [this]; rfl
      refine ⟨?_, ?_, ?_⟩
      · rintro (h | ⟨-, h⟩ | ⟨h, -⟩ | ⟨⟨-, h⟩, -⟩) <;> first | omega | exact absurd h0 h
      · rintro - ⟨-, h⟩; exact absurd h0 h
      · intro _ _
        rw [hsp, Res.bind_ok]
        simp only [copyAt, Nat.not_lt_zero, gt_iff_lt, if_false, Res.bind_ok, Res.pure_eq]
        refine ⟨_, ⟨?_, ?_⟩, rfl⟩
        · simp
        · have hs := beNat4_lt d 25
          simp only [List.length_append, List.length_take, List.length_drop, List.length_replicate, UInt32.toNat_ofNat', Option.getD_some]
          unfold dgSize at *
          rw [Nat.mod_eq_of_lt hs]
          omega
  · rw [if_neg h0, if_neg h0]
    by_cases hd : 5 < d.length
    · rw [if_pos (by rw [hlen]; omega)]
      by_cases hoff : (announced seen).getD 0 < dgOffset d
      · refine ⟨fun _ => ?_, fun h => absurd (.inr (.inr (.inl ⟨h0, hd, hoff⟩))) h, fun h => absurd (.inr (.inr (.inl ⟨h0, hd, hoff⟩))) h⟩
        unfold copyAt
        rw [hk.2, if_pos (by omega)]
        rfl
      · refine ⟨?_, ?_, ?_⟩
        · rintro (h | ⟨h, -⟩ | ⟨-, -, h⟩ | ⟨⟨h, -⟩, -⟩)
          · omega
          · exact absurd h h0
          · omega
          · omega
        · rintro - ⟨h, -⟩; omega
        · intro _ _
          rcases hcp : copyAt c.buffer (dgOffset d) ((d.take 1029).drop 5) with b | e | _ | _ | _
          · refine ⟨{ c with buffer := b, bytesReceived := c.bytesReceived + ((d.take 1029).drop 5).length }, ⟨hk.1, ?_⟩, rfl⟩
            rw [← hk.2]
            exact copyAt_length hcp
          all_goals
            exfalso
            unfold copyAt at hcp
            rw [hk.2, if_neg (by omega)] at hcp
            cases hcp
    · have hd5 : d.length = 5 := by omega
      rw [if_neg (by rw [hlen]; omega)]
      rcases hh : c.hash with _ | h
      · have hn := hk.1.1 hh
        refine ⟨fun _ => rfl, fun h => absurd (.inr (.inr (.inr ⟨⟨hd5, h0⟩, hn⟩))) h, fun h => absurd (.inr (.inr (.inr ⟨⟨hd5, h0⟩, hn⟩))) h⟩
      · have hn : announced seen ≠ none := fun e => by rw [hk.1.2 e] at hh; cases hh
        refine ⟨?_, fun _ _ => ⟨h, rfl, rfl⟩, fun _ h => absurd ⟨hd5, h0⟩ h⟩
        rintro (h | ⟨h, -⟩ | ⟨-, h, -⟩ | ⟨-, h⟩)
        · omega
        · exact absurd h h0
        · omega
        · exact absurd h hn

/-- A queue that kills the receiver: some datagram before any end marker or failed read is fatal. -/
def Spec.Kills : List Bytes → List (Option Bytes) → Prop
  | _, [] => False
  | _, none :: _ => False
  | seen, some d :: rest => Fatal seen d ∨ (¬ isEnd d ∧ Spec.Kills (seen ++ [d]) rest)

theorem recvLoop_cons (sha1 : Bytes → Sha1Hash) (c : RConn) (d : Bytes) (rest : List (Option Bytes)) :
    recvLoop sha1 c (some d :: rest) = ((readPacket d >>= onPacket sha1 c) >>= fun x =>
      match x.2 with
      | .finish b ok => .ok ([], .finished b ok)
      | .ack o => recvLoop sha1 x.1 rest >>= fun y => .ok (o :: y.1, y.2)) := by
  rw [recvLoop, bind_assoc]
  rfl

theorem recvLoop_panics (sha1 : Bytes → Sha1Hash) (queue : List (Option Bytes)) : ∀ (c : RConn) (seen : List Bytes), c.Knows (announced seen) →
    (Kills seen queue → recvLoop sha1 c queue = .panic) ∧ (¬ Kills seen queue → ∃ x, recvLoop sha1 c queue = .ok x) := by
  induction queue with
  | nil => intro c seen hk; exact ⟨fun h => h.elim, fun _ => ⟨_, rfl⟩⟩
  | cons o rest ih =>
    intro c seen hk
    rcases o with _ | d
    · exact ⟨fun h => h.elim, fun _ => ⟨_, rfl⟩⟩
    · obtain ⟨h1, h2, h3⟩ := onDatagram sha1 c seen hk d
      rw [recvLoop_cons]
      simp only [Kills]
      by_cases hf : Fatal seen d
      · rw [h1 hf]
        exact ⟨fun _ => rfl, fun h => absurd (.inl hf) h⟩
      by_cases he : isEnd d
      · obtain ⟨h, -, e⟩ := h2 hf he
        rw [e]
        refine ⟨?_, fun _ => ⟨_, rfl⟩⟩
        rintro (h | ⟨h, -⟩)
        · exact absurd h hf
        · exact absurd he h
      · obtain ⟨c', hk', e⟩ := h3 hf he
        obtain ⟨g1, g2⟩ := ih c' _ hk'
        rw [e, Res.bind_ok]
        simp only []
        constructor
        · rintro (h | ⟨-, h⟩)
          · exact absurd h hf
          · rw [g1 h]; rfl
        · intro h
          obtain ⟨x, hx⟩ := g2 (fun hk => h (.inr ⟨he, hk⟩))
          exact ⟨_, by rw [hx]; rfl⟩

theorem RConn.fresh_knows : RConn.fresh.Knows (announced []) := ⟨⟨fun _ => rfl, fun _ => rfl⟩, rfl⟩

/-- C20, in full: nothing a peer sends on a download connection panics. -/
def C20_statement : Prop := ∀ (sha1 : Bytes → Sha1Hash) (queue : List (Option Bytes)), recvLoop sha1 .fresh queue ≠ .panic

/-- C20 is false: one datagram of four bytes is enough (so is a lone end marker, see the examples). -/
theorem C20_refuted : ¬ C20_statement := by
  intro h
  apply h (fun _ => Sha1Hash.zero) [some [5, 0, 0, 0]]
  exact (recvLoop_panics _ _ _ [] RConn.fresh_knows).1 (.inl (.inl (by decide)))

/-- C20, what holds: the receiver panics exactly if some datagram, arriving before any end marker and before the connection times out, is shorter than a
header, or is a zero-offset packet too short for hash and size, or lies beyond the announced size, or is an end marker before any first packet. -/
theorem C20_panics_iff_partial (sha1 : Bytes → Sha1Hash) (queue : List (Option Bytes)) :
    recvLoop sha1 .fresh queue = .panic ↔
      ∃ seen d rest, queue = seen.map some ++ some d :: rest ∧ (∀ x ∈ seen, ¬ isEnd x) ∧ Fatal seen d := by
  have key : recvLoop sha1 .fresh queue = .panic ↔ Kills [] queue := by
    obtain ⟨h1, h2⟩ := recvLoop_panics sha1 queue _ [] RConn.fresh_knows
    refine ⟨fun h => ?_, h1⟩
    apply Classical.byContradiction
    intro hn
    obtain ⟨x, hx⟩ := h2 hn
    rw [hx] at h; cases h
  rw [key]
  have gen : ∀ (queue : List (Option Bytes)) (before : List Bytes), Kills before queue ↔
      ∃ seen d rest, queue = seen.map some ++ some d :: rest ∧ (∀ x ∈ seen, ¬ isEnd x) ∧ Fatal (before ++ seen) d := by
    intro queue
    induction queue with
    | nil =>
      intro before
      refine ⟨fun h => h.elim, ?_⟩
      rintro ⟨seen, d, rest, h, -⟩
      cases seen <;> cases h
    | cons o q ih =>
      intro before
      rcases o with _ | x
      · refine ⟨fun h => h.elim, ?_⟩
        rintro ⟨seen, d, rest, h, -⟩
        cases seen <;> cases h
      · simp only [Kills]
        rw [ih]
        constructor
        · rintro (h | ⟨h, seen, d, rest, h1, h2, h3⟩)
          · exact ⟨[], x, q, rfl, by simp, by simpa using h⟩
          · refine ⟨x :: seen, d, rest, by rw [h1]; rfl, ?_, by simpa using h3⟩
            intro y hy
            rcases List.mem_cons.1 hy with rfl | hy
            · exact h
            · exact h2 y hy
        · rintro ⟨seen, d, rest, h1, h2, h3⟩
          cases seen with
          | nil =>
            simp only [List.map_nil, List.nil_append, List.cons.injEq, Option.some.injEq] at h1
            obtain ⟨rfl, rfl⟩ := h1
            exact .inl (by simpa using h3)
          | cons y seen =>
            simp only [List.map_cons, List.cons_append, List.cons.injEq, Option.some.injEq] at h1
            obtain ⟨rfl, rfl⟩ := h1
            exact .inr ⟨h2 _ (by simp), seen, d, rest, rfl, fun z hz => h2 z (by simp [hz]), by simpa using h3⟩
  simpa using gen queue []

/-- The receiver either panics or carries on: no other outcome. -/
theorem C20_total (sha1 : Bytes → Sha1Hash) (queue : List (Option Bytes)) :
    recvLoop sha1 .fresh queue = .panic ∨ ∃ acks out, recvLoop sha1 .fresh queue = .ok (acks, out) := by
  obtain ⟨h1, h2⟩ := recvLoop_panics sha1 queue _ [] RConn.fresh_knows
  by_cases hk : Kills [] queue
  · exact .inl (h1 hk)
  · obtain ⟨⟨a, b⟩, h⟩ := h2 hk
    exact .inr ⟨a, b, h⟩

/-! ## Assembling the chunk (C43) -/

/-- A first packet for chunk `B` that carries its first `k` bytes under hash `h`. -/
def Spec.IsFirst (B : Bytes) (h : Sha1Hash) (k : Nat) (p : Packet) : Prop :=
  p.offset = 0 ∧ p.data = h.1 ++ put32 (UInt32.ofNat B.length) ++ B.take k

/-- A data packet that carries a piece of `B` from where its offset says. -/
def Spec.IsPiece (B : Bytes) (p : Packet) : Prop :=
  p.offset ≠ 0 ∧ p.data ≠ [] ∧ p.data.length ≤ 1024 ∧ p.offset.toNat + p.data.length ≤ B.length ∧
    p.data = (B.drop p.offset.toNat).take p.data.length

/-- An end marker. -/
def Spec.IsEndPacket (p : Packet) : Prop := p.offset ≠ 0 ∧ p.data = []

/-- Byte `i` is in the first `k` bytes or in one of the packets. -/
def Spec.carried (k : Nat) (ps : List Packet) (i : Nat) : Bool :=
  decide (i < k) || ps.any (fun p => decide (p.offset.toNat ≤ i) && decide (i < p.offset.toNat + p.data.length))

/-- The chunk with the bytes nobody carried left at zero. -/
def Spec.withHoles (B : Bytes) (k : Nat) (ps : List Packet) : Bytes := B.mapIdx (fun i b => if Spec.carried k ps i then b else 0)

theorem readPacket_bytes (p : Packet) (h : p.data.length ≤ 1024) : readPacket p.bytes = .ok p := by
  have hl : p.bytes.length = p.data.length + 5 := (C19_size p.offset p.data h).1
  have ht : p.bytes.take 1029 = p.bytes := List.take_of_length_le (by omega)
  unfold readPacket
  rw [ht]
  unfold Packet.bytes
  rw [C19_roundtrip]
  rfl

theorem copyAt_get {buf data out : Bytes} {off : Nat} (hfit : off + data.length ≤ buf.length) (h : copyAt buf off data = .ok out) (i : Nat) :
    out[i]? = if off ≤ i ∧ i < off + data.length then data[i - off]? else buf[i]? := by
  unfold copyAt at h
  rw [if_neg (by omega)] at h
  cases h
  have hd : data.take (buf.length - off) = data := List.take_of_length_le (by omega)
  rw [hd]
  have hl1 : (buf.take off).length = off := by rw [List.length_take]; omega
  by_cases h1 : i < off
  · rw [if_neg (by omega), List.append_assoc, List.getElem?_append_left (by omega), List.getElem?_take_of_lt h1]
  · by_cases h2 : i < off + data.length
    · rw [if_pos ⟨by omega, h2⟩, List.getElem?_append_left (by rw [List.length_append]; omega), List.getElem?_append_right (by omega), hl1]
    · rw [if_neg (by omega), List.getElem?_append_right (by rw [List.length_append]; omega), List.length_append, hl1, List.getElem?_drop]
      congr 1
      omega

theorem withHoles_get (B : Bytes) (k : Nat) (ps : List Packet) (i : Nat) :
    (withHoles B k ps)[i]? = (B[i]?).map (fun b => if carried k ps i then b else 0) := by
  unfold withHoles
  rw [List.getElem?_mapIdx]

theorem withHoles_length (B : Bytes) (k : Nat) (ps : List Packet) : (withHoles B k ps).length = B.length := by simp [withHoles]

/-- The first packet starts the chunk afresh, whatever was received before. -/
theorem onPacket_first (sha1 : Bytes → Sha1Hash) (c : RConn) (B : Bytes) (h : Sha1Hash) (k : Nat) (p : Packet) (hB : B.length < 2 ^ 32) (hp : IsFirst B h k p) :
    ∃ n, onPacket sha1 c p = .ok (⟨some h, withHoles B k [], n⟩, .ack 0) := by
  obtain ⟨h0, hd⟩ := hp
  have hs := C19_split h (UInt32.ofNat B.length) (B.take k) []
  rw [List.append_nil] at hs
  have hsz : (UInt32.ofNat B.length).toNat = B.length := by rw [UInt32.toNat_ofNat']; exact Nat.mod_eq_of_lt hB
  unfold onPacket
  rw [if_pos h0, hd, hs, Res.bind_ok, h0]
  simp only [hsz]
  have hc : copyAt (List.replicate B.length 0) 0 (B.take k) = .ok (withHoles B k []) := by
    rcases hcp : copyAt (List.replicate B.length 0) 0 (B.take k) with b | e | _ | _ | _
    · congr 1
      apply List.ext_getElem?
      intro i
      rw [copyAt_get (by simp only [List.length_take, List.length_replicate]; omega) hcp, withHoles_get]
      simp only [Nat.zero_le, true_and, Nat.zero_add, Nat.sub_zero, List.length_take, carried, List.any_nil, Bool.or_false, decide_eq_true_eq]
      by_cases hi : i < B.length
      · rw [List.getElem?_eq_getElem hi]
        by_cases hk : i < k
        · rw [if_pos (by omega), List.getElem?_take_of_lt hk, List.getElem?_eq_getElem hi]; simp [hk]
        · rw [if_neg (by omega), List.getElem?_replicate_of_lt hi]; simp [hk]
      · rw [if_neg (by omega), List.getElem?_eq_none (by rw [List.length_replicate]; omega), List.getElem?_eq_none (by omega)]; rfl
    all_goals
      exfalso
      unfold copyAt at hcp
      rw [if_neg (by omega)] at hcp
      cases hcp
  rw [hc, Res.bind_ok]
  exact ⟨_, rfl⟩

theorem carried_snoc (k : Nat) (ps : List Packet) (p : Packet) (i : Nat) :
    carried k (ps ++ [p]) i = (carried k ps i || (decide (p.offset.toNat ≤ i) && decide (i < p.offset.toNat + p.data.length))) := by
  simp [carried, Bool.or_assoc]

/-- A data packet adds its bytes. -/
theorem onPacket_piece (sha1 : Bytes → Sha1Hash) (B : Bytes) (h : Sha1Hash) (k n : Nat) (ps : List Packet) (p : Packet) (hp : IsPiece B p) :
    ∃ n', onPacket sha1 ⟨some h, withHoles B k ps, n⟩ p = .ok (⟨some h, withHoles B k (ps ++ [p]), n'⟩, .ack p.offset) := by
  obtain ⟨h0, hne, -, hfit, hd⟩ := hp
  unfold onPacket
  rw [if_neg h0, if_pos (List.length_pos_iff.2 hne)]
  simp only []
  have hl := withHoles_length B k ps
  have hc : copyAt (withHoles B k ps) p.offset.toNat p.data = .ok (withHoles B k (ps ++ [p])) := by
    rcases hcp : copyAt (withHoles B k ps) p.offset.toNat p.data with b | e | _ | _ | _
    · congr 1
      apply List.ext_getElem?
      intro i
      rw [copyAt_get (by omega) hcp, withHoles_get, withHoles_get, carried_snoc]
      by_cases hi : p.offset.toNat ≤ i ∧ i < p.offset.toNat + p.data.length
      · rw [if_pos hi, hd, List.getElem?_take_of_lt (by omega), List.getElem?_drop]
        have : p.offset.toNat + (i - p.offset.toNat) = i := by omega
        rw [this]
        rw [List.length_take, List.length_drop]
        have : min p.data.length (B.length - p.offset.toNat) = p.data.length := by omega
        rw [this]
        simp [hi.1, hi.2]
      · rw [if_neg hi]
        have : (decide (p.offset.toNat ≤ i) && decide (i < p.offset.toNat + p.data.length)) = false := by
          simp only [Bool.and_eq_false_iff, decide_eq_false_iff_not]
          omega
        rw [this, Bool.or_false]
    all_goals
      exfalso
      unfold copyAt at hcp
      rw [if_neg (by omega)] at hcp
      cases hcp
  rw [hc, Res.bind_ok]
  exact ⟨_, rfl⟩

theorem recvLoop_packet (sha1 : Bytes → Sha1Hash) (c : RConn) (p : Packet) (hp : p.data.length ≤ 1024) (rest : List (Option Bytes)) :
    recvLoop sha1 c (some p.bytes :: rest) = (onPacket sha1 c p >>= fun x =>
      match x.2 with
      | .finish b ok => .ok ([], .finished b ok)
      | .ack o => recvLoop sha1 x.1 rest >>= fun y => .ok (o :: y.1, y.2)) := by
  rw [recvLoop_cons, readPacket_bytes p hp]
  rfl

theorem recvLoop_pieces (sha1 : Bytes → Sha1Hash) (B : Bytes) (h : Sha1Hash) (k : Nat) (qs : List Packet) (e : Packet) (rest : List (Option Bytes))
    (hq : ∀ p ∈ qs, IsPiece B p) (he : IsEndPacket e) : ∀ (ps : List Packet) (n : Nat),
    recvLoop sha1 ⟨some h, withHoles B k ps, n⟩ (qs.map (fun p => some p.bytes) ++ some e.bytes :: rest) =
      .ok (qs.map (·.offset), .finished (withHoles B k (ps ++ qs)) (decide (sha1 (withHoles B k (ps ++ qs)) = h))) := by
  induction qs with
  | nil =>
    intro ps n
    rw [List.map_nil, List.nil_append, recvLoop_packet _ _ _ (by rw [he.2]; decide)]
    unfold onPacket
    rw [if_neg he.1, if_neg (by rw [he.2]; decide), List.append_nil]
    rfl
  | cons p qs ih =>
    intro ps n
    have hp := hq p (by simp)
    rw [List.map_cons, List.cons_append, recvLoop_packet _ _ _ hp.2.2.1]
    obtain ⟨n', e1⟩ := onPacket_piece sha1 B h k n ps p hp
    rw [e1, Res.bind_ok]
    simp only []
    rw [ih (fun q hq' => hq q (by simp [hq'])) (ps ++ [p]) n', Res.bind_ok]
    simp

/-- C43, what is assembled in general: after one first packet and any pieces of `B`, in any order and any number of times, the receiver hands over `B` with zeros
where no packet carried the byte.  Every packet but the end marker is acknowledged, in order of arrival. -/
theorem C43_assembled (sha1 : Bytes → Sha1Hash) (B : Bytes) (h : Sha1Hash) (k : Nat) (f e : Packet) (ps : List Packet) (rest : List (Option Bytes))
    (hB : B.length < 2 ^ 32) (hk : k ≤ 1000) (hf : IsFirst B h k f) (hp : ∀ p ∈ ps, IsPiece B p) (he : IsEndPacket e) :
    recvLoop sha1 .fresh ((f :: ps).map (fun p => some p.bytes) ++ some e.bytes :: rest) =
      .ok ((f :: ps).map (·.offset), .finished (withHoles B k ps) (decide (sha1 (withHoles B k ps) = h))) := by
  have hl : f.data.length ≤ 1024 := by
    rw [hf.2]
    have := h.2
    simp only [List.length_append, put32, beBytes_length, List.length_take]
    omega
  rw [List.map_cons, List.cons_append, recvLoop_packet _ _ _ hl]
  obtain ⟨n, e1⟩ := onPacket_first sha1 .fresh B h k f hB hf
  rw [e1, Res.bind_ok]
  simp only []
  rw [recvLoop_pieces sha1 B h k ps e rest hp he [] n, Res.bind_ok]
  simp [hf.1]

/-- C43: if the first packet arrives first and only once, and every byte of the chunk arrives in at least one packet before the end marker, in any order and any
number of times, the receiver hands over the chunk; the hash check succeeds exactly if the announced hash is that of the chunk. -/
theorem C43_delivers (sha1 : Bytes → Sha1Hash) (B : Bytes) (h : Sha1Hash) (k : Nat) (f e : Packet) (ps : List Packet) (rest : List (Option Bytes))
    (hB : B.length < 2 ^ 32) (hk : k ≤ 1000) (hf : IsFirst B h k f) (hp : ∀ p ∈ ps, IsPiece B p) (he : IsEndPacket e)
    (hall : ∀ i, k ≤ i → i < B.length → ∃ p ∈ ps, p.offset.toNat ≤ i ∧ i < p.offset.toNat + p.data.length) :
    recvLoop sha1 .fresh ((f :: ps).map (fun p => some p.bytes) ++ some e.bytes :: rest) =
      .ok ((f :: ps).map (·.offset), .finished B (decide (sha1 B = h))) := by
  have hw : withHoles B k ps = B := by
    apply List.ext_getElem?
    intro i
    rw [withHoles_get]
    by_cases hi : i < B.length
    · rw [List.getElem?_eq_getElem hi]
      have : carried k ps i = true := by
        unfold carried
        by_cases h1 : i < k
        · simp [h1]
        · obtain ⟨p, hp1, hp2, hp3⟩ := hall i (by omega) hi
          have : ps.any (fun p => decide (p.offset.toNat ≤ i) && decide (i < p.offset.toNat + p.data.length)) = true :=
            List.any_eq_true.2 ⟨p, hp1, by simp [hp2, hp3]⟩
          rw [this, Bool.or_true]
      simp [this]
    · rw [List.getElem?_eq_none (by omega)]; rfl
  rw [C43_assembled sha1 B h k f e ps rest hB hk hf hp he, hw]

/-- C43, the remark: a repeated first packet erases what was received before it; only what comes after it counts. -/
theorem C43_first_again (sha1 : Bytes → Sha1Hash) (B : Bytes) (h : Sha1Hash) (k : Nat) (f e : Packet) (ps qs : List Packet) (rest : List (Option Bytes))
    (hB : B.length < 2 ^ 32) (hk : k ≤ 1000) (hf : IsFirst B h k f) (hp : ∀ p ∈ ps, IsPiece B p) (hq : ∀ p ∈ qs, IsPiece B p) (he : IsEndPacket e) :
    recvLoop sha1 .fresh ((f :: ps ++ f :: qs).map (fun p => some p.bytes) ++ some e.bytes :: rest) =
      .ok ((f :: ps ++ f :: qs).map (·.offset), .finished (withHoles B k qs) (decide (sha1 (withHoles B k qs) = h))) := by
  have hl : f.data.length ≤ 1024 := by
    rw [hf.2]
    have := h.2
    simp only [List.length_append, put32, beBytes_length, List.length_take]
    omega
  have gen : ∀ (ps : List Packet) (c : RConn) (done : List Packet) (n : Nat), (∀ p ∈ ps, IsPiece B p) → c = ⟨some h, withHoles B k done, n⟩ →
      recvLoop sha1 c ((ps ++ f :: qs).map (fun p => some p.bytes) ++ some e.bytes :: rest) =
        .ok ((ps ++ f :: qs).map (·.offset), .finished (withHoles B k qs) (decide (sha1 (withHoles B k qs) = h))) := by
    intro ps
    induction ps with
    | nil =>
      intro c done n _ hc
      rw [List.nil_append, List.map_cons, List.cons_append, recvLoop_packet _ _ _ hl]
      obtain ⟨n, e1⟩ := onPacket_first sha1 c B h k f hB hf
      rw [e1, Res.bind_ok]
      simp only []
      rw [recvLoop_pieces sha1 B h k qs e rest hq he [] n, Res.bind_ok]
      simp [hf.1]
    | cons p ps ih =>
      intro c done n hp hc
      subst hc
      have hp1 := hp p (by simp)
      rw [List.cons_append, List.map_cons, List.cons_append, recvLoop_packet _ _ _ hp1.2.2.1]
      obtain ⟨n', e1⟩ := onPacket_piece sha1 B h k n done p hp1
      rw [e1, Res.bind_ok]
      simp only []
      rw [ih _ (done ++ [p]) n' (fun q hq' => hp q (by simp [hq'])) rfl, Res.bind_ok]
      simp
  rw [List.cons_append, List.map_cons, List.cons_append, recvLoop_packet _ _ _ hl]
  obtain ⟨n, e1⟩ := onPacket_first sha1 .fresh B h k f hB hf
  rw [e1, Res.bind_ok]
  simp only []
  rw [gen ps _ [] n hp rfl, Res.bind_ok]
  simp [hf.1]

/-! ### Examples -/

/-- `C20_panics_iff_partial`: a data packet beyond the announced size, after a good first packet, kills; a piece within the size does not. -/
example (h : Sha1Hash) : Fatal [(⟨0, h.1 ++ put32 8 ++ [1, 2]⟩ : Packet).bytes] [5, 0, 0, 0, 9, 7] ∧
    ¬ Fatal [(⟨0, h.1 ++ put32 8 ++ [1, 2]⟩ : Packet).bytes] [5, 0, 0, 0, 8, 7] := by
  have ha : announced [(⟨0, h.1 ++ put32 8 ++ [1, 2]⟩ : Packet).bytes] = some 8 := by
    obtain ⟨l, hl⟩ := h
    have e1 : dgOffset (⟨0, l ++ put32 8 ++ [1, 2]⟩ : Packet).bytes = 0 := by
      simp [dgOffset, Packet.bytes, Msg.serialize, put32, beBytes, beNat]
    have e2 : dgSize (⟨0, l ++ put32 8 ++ [1, 2]⟩ : Packet).bytes = 8 := by
      have : (⟨0, l ++ put32 8 ++ [1, 2]⟩ : Packet).bytes = ([5] ++ put32 0 ++ l) ++ (put32 8 ++ [1, 2]) := by
        simp [Packet.bytes, Msg.serialize]
      unfold dgSize
      rw [this, List.drop_left' (by simp [put32, hl])]
      decide
    simp only [announced]
    rw [e1, e2]; rfl
  unfold Fatal
  rw [ha]
  constructor
  · exact .inr (.inr (.inl ⟨by decide, by decide, by decide⟩))
  · rintro (h | ⟨h, -⟩ | ⟨-, -, h⟩ | ⟨-, h⟩)
    · exact absurd h (by decide)
    · exact absurd h (by decide)
    · exact absurd h (by decide)
    · cases h

/-- `C43_delivers`, `C43_assembled`: four bytes, two in the first packet, the others out of order and repeated. -/
example (h : Sha1Hash) : IsFirst [1, 2, 3, 4] h 2 ⟨0, h.1 ++ put32 4 ++ [1, 2]⟩ ∧
    (∀ p ∈ [(⟨3, [4]⟩ : Packet), ⟨2, [3, 4]⟩, ⟨3, [4]⟩], IsPiece [1, 2, 3, 4] p) ∧ IsEndPacket ⟨4, []⟩ ∧
    (∀ i, 2 ≤ i → i < 4 → ∃ p ∈ [(⟨3, [4]⟩ : Packet), ⟨2, [3, 4]⟩, ⟨3, [4]⟩], p.offset.toNat ≤ i ∧ i < p.offset.toNat + p.data.length) ∧
    withHoles [1, 2, 3, 4] 2 [⟨3, [4]⟩] = [1, 2, 0, 4] := by
  refine ⟨⟨rfl, rfl⟩, ?_, ⟨by decide, rfl⟩, ?_, by decide⟩
  · intro p hp
    simp only [List.mem_cons, List.not_mem_nil, or_false] at hp
    rcases hp with rfl | rfl | rfl <;> exact ⟨by decide, by decide, by decide, by decide, by decide⟩
  · intro i h1 h2
    refine ⟨⟨2, [3, 4]⟩, by simp, h1, h2⟩

end Flu
