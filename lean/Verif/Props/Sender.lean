import Verif.Model.Sender
import Verif.Props.Readers
/-!
# Properties of the sending side of a chunk transfer (C40, C41, C46, C47)
-/
namespace Flu

/-! ## Specification: the packets of a chunk -/

/-- The bytes of the chunk before packet `k + 1`. -/
def Spec.pos (S k : Nat) : Nat := min S (1000 + 1024 * k)

/-- The packets of a chunk with hash `h` and bytes `sec`: a first packet with hash, size and up to 1000 bytes, then up to 1024 bytes at a time. -/
def Spec.stream (h : Sha1Hash) (sec : Bytes) : Nat → Packet
  | 0 => ⟨0, h.1 ++ put32 (UInt32.ofNat sec.length) ++ sec.take 1000⟩
  | k + 1 => ⟨UInt32.ofNat (Spec.pos sec.length k), (sec.drop (Spec.pos sec.length k)).take 1024⟩

/-- The packets sent in a history. -/
def Spec.sends : List Ev → List Packet
  | [] => []
  | .sent p :: tr => p :: Spec.sends tr
  | _ :: tr => Spec.sends tr

/-- The number of acknowledgements in a history. -/
def Spec.acks : List Ev → Nat
  | [] => 0
  | .ack :: tr => Spec.acks tr + 1
  | _ :: tr => Spec.acks tr

open Spec

theorem sends_append (a b : List Ev) : sends (a ++ b) = sends a ++ sends b := by
  induction a with
  | nil => rfl
  | cons e a ih => cases e <;> simp [sends, ih]

theorem acks_append (a b : List Ev) : acks (a ++ b) = acks a + acks b := by
  induction a with
  | nil => simp [acks]
  | cons e a ih => cases e <;> simp [acks, ih]; omega

/-- Whether a read of up to `k` bytes at position `p` reports the end: the section is nominally `n` bytes long, the file has `S` of them. -/
def Spec.endAt (S n k p : Nat) : Bool := decide (n ≤ p) || decide (min k (S - p) < min k (n - p))

theorem slice_length_le (content : Bytes) (start n : Nat) : (slice content start n).length ≤ n := by simp [slice]; omega

theorem read_good (content : Bytes) (cr : ChunkReader) (start n p k : Nat) (hr : cr.reader = ⟨start, start + p, start + n⟩)
    (hp : p ≤ (slice content start n).length) (hn : n < 2 ^ 32) :
    cr.read content k .good = .ok (((slice content start n).drop p).take k, UInt32.ofNat p,
      (if endAt (slice content start n).length n k p then some .eof else none),
      { cr with reader := ⟨start, start + (p + min k ((slice content start n).length - p)), start + n⟩ }) := by
  have hle := slice_length_le content start n
  have hdt : ((slice content start n).drop p).take k = (content.drop (start + p)).take (min k (n - p)) := by
    unfold slice
    rw [List.drop_take, List.take_take, List.drop_drop]
  have hlen : (((slice content start n).drop p).take k).length = min k ((slice content start n).length - p) := by simp
  unfold ChunkReader.read ChunkReader.offset
  rw [hr]
  simp only []
  rw [if_neg (by omega), Res.bind_ok]
  unfold SectionReader.read
  simp only []
  by_cases hpn : n ≤ p
  · have hSp : (slice content start n).length = p := by omega
    rw [if_pos (by omega)]
    simp only [Res.pure_eq]
    have h1 : (slice content start n).drop p = [] := List.drop_eq_nil_of_le (by omega)
    have h2 : start + p - start = p := by omega
    have h3 : endAt (slice content start n).length n k p = true := by simp [endAt, hpn]
    rw [h1, h2, h3, hSp]
    simp
  · rw [if_neg (by omega)]
    unfold osReadAt
    simp only [Res.pure_eq]
    have h2 : start + p - start = p := by omega
    have h4 : start + n - (start + p) = n - p := by omega
    rw [h2, h4, ← hdt, hlen]
    have h5 : endAt (slice content start n).length n k p = decide (min k ((slice content start n).length - p) < min k (n - p)) := by simp [endAt, hpn]
    rw [h5]
    simp only [decide_eq_true_eq, Nat.add_assoc]

/-- A read that fails reports an error other than the end, wherever there was something to ask for. -/
theorem read_cases (content : Bytes) (cr : ChunkReader) (start n p k : Nat) (hr : cr.reader = ⟨start, start + p, start + n⟩)
    (hp : p ≤ (slice content start n).length) (hn : n < 2 ^ 32) (c : AtChoice) :
    cr.read content k c = cr.read content k .good ∨ ∃ got off cr', cr.read content k c = .ok (got, off, some .other, cr') := by
  have hle := slice_length_le content start n
  rcases c with _ | f
  · exact .inl rfl
  · unfold ChunkReader.read ChunkReader.offset
    rw [hr]
    simp only []
    rw [if_neg (by omega), Res.bind_ok, Res.bind_ok]
    unfold SectionReader.read
    by_cases hpn : n ≤ p
    · simp only [ge_iff_le, Nat.add_le_add_iff_left, hpn, if_true]
      exact .inl trivial
    · simp only [ge_iff_le, Nat.add_le_add_iff_left, hpn, if_false]
      exact .inr ⟨_, _, _, rfl⟩

theorem pos_le (S k : Nat) : pos S k ≤ S := by unfold pos; omega

theorem pos_succ (S k : Nat) : pos S k + min 1024 (S - pos S k) = pos S (k + 1) := by unfold pos; omega

/-! ## The invariant -/

/-- Reads that reported the end among the first `m` after the first packet. -/
def Spec.endReads (S n : Nat) : Nat → Nat
  | 0 => 0
  | m + 1 => Spec.endReads S n m + if Spec.endAt S n 1024 (Spec.pos S m) then 1 else 0

/-- The worker has not met an error. -/
def Worker.Alive : Worker → Prop
  | .defers _ true => False
  | .dead => False
  | _ => True

/-- Calls of `terminate` still to be made, or whose message was taken. -/
def Worker.ends : Worker → Nat
  | .loop k => k
  | .defers k _ => k
  | .exited => 1
  | _ => 0

/-- The state of an upload after `m` packets beyond the first and `a` acknowledgements. -/
structure SInv (content : Bytes) (start n : Nat) (cap : UInt16) (m a : Nat) (s : Sender) : Prop where
  cap_eq : s.windowCap = cap
  reader : s.worker.Alive → s.reader.reader = ⟨start, start + pos (slice content start n).length m, start + n⟩
  pend : s.pending ≤ a
  zero : cap = 0 → m = 0
  count : 0 < cap.toNat → m + 1 + s.pending = a + s.windowSize.toNat
  window : 0 < cap.toNat → s.windowSize.toNat ≤ cap.toNat
  full : 0 < cap.toNat → (s.pending = a ∧ m = 0 ∧ s.windowSize = 1 ∧ s.worker = .select ∧ s.cancel = false) ∨ (s.pending < a ∧
    ((∃ k, s.worker = .loop k ∧ (s.pending + 1 = a ∨ cap.toNat ≤ s.windowSize.toNat + 1)) ∨ (¬ s.worker.Alive) ∨ s.windowSize = cap))
  ends : s.worker.Alive → endReads (slice content start n).length n m = (if s.cancel then 1 else 0) + s.worker.ends
  gone : s.worker = .exited → s.cancel = false

section
variable {content : Bytes} {faults : Bool} {start n : Nat} {cap : UInt16}

theorem sinv_step (hn : n < 2 ^ 32) {s s' : Sender} {e : Ev} (hs : SStep content faults s e s') (h : Sha1Hash) {m a : Nat}
    (hi : SInv content start n cap m a s) :
    (e = .ack ∧ SInv content start n cap m (a + 1) s') ∨ (e = .tau ∧ SInv content start n cap m a s') ∨
      (e = .sent (stream h (slice content start n) (m + 1)) ∧ SInv content start n cap (m + 1) a s') := by
  have hcapt := cap.toNat_lt
  cases hs with
  | arrive =>
    refine .inl ⟨rfl, hi.cap_eq, hi.reader, Nat.succ_le_succ hi.pend, hi.zero, ?_, hi.window, ?_, hi.ends, hi.gone⟩
    · intro hc; have := hi.count hc; show m + 1 + (s.pending + 1) = a + 1 + s.windowSize.toNat; omega
    · intro hc
      rcases hi.full hc with ⟨h1, h2⟩ | ⟨h1, h2⟩
      · exact .inl ⟨congrArg (· + 1) h1, h2⟩
      · refine .inr ⟨Nat.succ_lt_succ h1, ?_⟩
        rcases h2 with ⟨k, h2, h3⟩ | h2
        · exact .inl ⟨k, h2, h3.imp (fun e => congrArg (· + 1) e) id⟩
        · exact .inr h2
  | take hw hp =>
    have hal : s.worker.Alive := by rw [hw]; trivial
    have hws : 0 < cap.toNat → (s.windowSize - 1).toNat + 1 = s.windowSize.toNat := by
      intro hc
      have : 1 ≤ s.windowSize.toNat := by
        rcases hi.full hc with ⟨-, -, h3, -⟩ | ⟨-, ⟨k, h2, -⟩ | h2 | h2⟩
        · rw [h3]; decide
        · rw [hw] at h2; cases h2
        · exact absurd hal h2
        · rw [h2]; exact hc
      rw [UInt16.toNat_sub_of_le _ _ (by rw [UInt16.le_iff_toNat_le]; exact this)]
      show s.windowSize.toNat - 1 + 1 = _
      omega
    refine .inr (.inl ⟨rfl, hi.cap_eq, fun _ => hi.reader hal, Nat.le_trans (Nat.sub_le _ _) hi.pend, hi.zero, ?_, ?_, ?_, ?_, (by simp)⟩)
    · intro hc; have := hi.count hc; have := hws hc; show m + 1 + (s.pending - 1) = a + (s.windowSize - 1).toNat; omega
    · intro hc; have := hi.window hc; have := hws hc; show (s.windowSize - 1).toNat ≤ _; omega
    · intro hc
      have hpe := hi.pend
      have hw1 := hws hc
      refine .inr ⟨by show s.pending - 1 < a; omega, .inl ⟨0, rfl, ?_⟩⟩
      show s.pending - 1 + 1 = a ∨ cap.toNat ≤ (s.windowSize - 1).toNat + 1
      rcases hi.full hc with ⟨h1, -⟩ | ⟨-, ⟨k, h2, -⟩ | h2 | h2⟩
      · exact .inl (by omega)
      · rw [hw] at h2; cases h2
      · exact absurd hal h2
      · right; rw [h2] at hw1 ⊢; omega
    · intro _
      have := hi.ends hal
      rw [hw] at this
      exact this
  | cancel hw hc0 =>
    have hal : s.worker.Alive := by rw [hw]; trivial
    refine .inr (.inl ⟨rfl, hi.cap_eq, fun _ => hi.reader hal, hi.pend, hi.zero, hi.count, hi.window, ?_, ?_, fun _ => rfl⟩)
    · intro hc
      rcases hi.full hc with ⟨-, -, -, -, h⟩ | ⟨h1, ⟨k, h2, -⟩ | h2 | h2⟩
      · rw [hc0] at h; cases h
      · rw [hw] at h2; cases h2
      · exact absurd hal h2
      · exact .inr ⟨h1, .inr (.inr h2)⟩
    · intro _
      have := hi.ends hal
      rw [hw, hc0] at this
      exact this
  | turn ends rd sends hw hf =>
    have hal : s.worker.Alive := by rw [hw]; trivial
    have hfull : 0 < cap.toNat → s.pending < a ∧ (s.pending + 1 = a ∨ cap.toNat ≤ s.windowSize.toNat + 1) := by
      intro hc
      rcases hi.full hc with ⟨-, -, -, h4, -⟩ | ⟨h1, ⟨k, -, h3⟩ | h2 | h2⟩
      · rw [hw] at h4; cases h4
      · exact ⟨h1, h3⟩
      · exact absurd hal h2
      · exact ⟨h1, .inr (by rw [h2]; omega)⟩
    have hends := hi.ends hal
    rw [hw] at hends
    have hrd := hi.reader hal
    unfold kickTurn
    by_cases hlt : s.windowSize < s.windowCap
    · rw [if_pos hlt]
      have hlt' : s.windowSize.toNat < cap.toNat := by rw [← hi.cap_eq]; exact UInt16.lt_iff_toNat_lt.1 hlt
      have hc : 0 < cap.toNat := by omega
      have hbad : ∀ (e : Worker) (cr : ChunkReader), ¬ e.Alive → SInv content start n cap m a { s with reader := cr, worker := e } := by
        intro e cr he
        exact ⟨hi.cap_eq, fun h => absurd h he, hi.pend, hi.zero, hi.count, hi.window, fun hc => .inr ⟨(hfull hc).1, .inr (.inl he)⟩, fun h => absurd h he, fun (h : e = .exited) => absurd (by rw [h]; trivial) he⟩
      rcases read_cases content s.reader start n _ 1024 hrd (pos_le _ _) hn rd with hg | ⟨got, off, cr', hg⟩
      · rw [hg, read_good content s.reader start n _ 1024 hrd (pos_le _ _) hn]
        simp only []
        rw [if_neg (by split <;> simp), pos_succ]
        cases sends with
        | false => exact .inr (.inl ⟨rfl, hbad (.defers _ true) _ (fun h => h)⟩)
        | true =>
          rw [if_pos rfl]
          have hw1 : (s.windowSize + 1).toNat = s.windowSize.toNat + 1 := by
            rw [UInt16.toNat_add]
            show (s.windowSize.toNat + 1) % 65536 = _
            omega
          refine .inr (.inr ⟨rfl, ⟨hi.cap_eq, fun _ => rfl, hi.pend, ?_, ?_, ?_, ?_, ?_, (by simp)⟩⟩)
          · intro h0; rw [h0] at hc; exact absurd hc (by decide)
          · intro hc; have := hi.count hc; show m + 1 + 1 + s.pending = a + (s.windowSize + 1).toNat; omega
          · intro _; show (s.windowSize + 1).toNat ≤ _; omega
          · intro _
            refine .inr ⟨(hfull hc).1, .inl ⟨_, rfl, ?_⟩⟩
            show s.pending + 1 = a ∨ cap.toNat ≤ (s.windowSize + 1).toNat + 1
            rcases (hfull hc).2 with h | h
            · exact .inl h
            · exact .inr (by omega)
          · intro _
            simp only [endReads, hends, Worker.ends]
            cases endAt (slice content start n).length n 1024 (pos (slice content start n).length m) <;> simp <;> omega
      · rw [hg]
        simp only [if_pos]
        exact .inr (.inl ⟨trivial, hbad (.defers _ true) _ (fun h => h)⟩)
    · rw [if_neg hlt]
      have hlt' : ¬ s.windowSize.toNat < cap.toNat := by rw [← hi.cap_eq]; exact fun h => hlt (UInt16.lt_iff_toNat_lt.2 h)
      refine .inr (.inl ⟨rfl, hi.cap_eq, fun _ => hrd, hi.pend, hi.zero, hi.count, hi.window, ?_, fun _ => hends, (by simp)⟩)
      intro hc
      refine .inr ⟨(hfull hc).1, .inr (.inr ?_)⟩
      have := hi.window hc
      exact UInt16.toNat_inj.1 (by show s.windowSize.toNat = _; omega)
  | terminate left failed hw hc0 =>
    refine .inr (.inl ⟨rfl, hi.cap_eq, ?_, hi.pend, hi.zero, hi.count, hi.window, ?_, ?_, (by simp)⟩)
    · intro hal; refine hi.reader ?_; rw [hw]; cases failed
      · trivial
      · exact hal
    · intro hc
      rcases hi.full hc with ⟨-, -, -, h4, -⟩ | ⟨h1, ⟨k, h2, -⟩ | h2 | h2⟩
      · rw [hw] at h4; cases h4
      · rw [hw] at h2; cases h2
      · refine .inr ⟨h1, .inr (.inl ?_)⟩
        rw [hw] at h2
        cases failed
        · exact absurd trivial h2
        · exact h2
      · exact .inr ⟨h1, .inr (.inr h2)⟩
    · intro hal
      have hal' : s.worker.Alive := by
        rw [hw]; cases failed
        · trivial
        · exact hal
      have := hi.ends hal'
      rw [hw, hc0] at this
      simp only [Worker.ends] at this ⊢
      simp at this ⊢
      omega
  | ret failed hw =>
    cases failed with
    | true =>
      refine .inr (.inl ⟨rfl, hi.cap_eq, fun h => h.elim, hi.pend, hi.zero, hi.count, hi.window, ?_, fun h => h.elim, (by simp)⟩)
      intro hc
      rcases hi.full hc with ⟨-, -, -, h4, -⟩ | ⟨h1, -⟩
      · rw [hw] at h4; cases h4
      · exact .inr ⟨h1, .inr (.inl (fun h => h.elim))⟩
    | false =>
      have hal : s.worker.Alive := by rw [hw]; trivial
      refine .inr (.inl ⟨rfl, hi.cap_eq, fun _ => hi.reader hal, hi.pend, hi.zero, hi.count, hi.window, ?_, ?_, (by simp)⟩)
      · intro hc
        rcases hi.full hc with ⟨-, -, -, h4, -⟩ | ⟨h1, ⟨k, h2, -⟩ | h2 | h2⟩
        · rw [hw] at h4; cases h4
        · rw [hw] at h2; cases h2
        · exact absurd hal h2
        · exact .inr ⟨h1, .inr (.inr h2)⟩
      · intro _
        have := hi.ends hal
        rw [hw] at this
        exact this

/-- `kickstart` on a new connection either fails or sends the first packet. -/
theorem kickstart_new (content : Bytes) (cr : ChunkReader) (start n : Nat) (cap : UInt16) (hr : cr.reader = ⟨start, start, start + n⟩)
    (hsz : cr.size = (slice content start n).length) (hn : n < 2 ^ 32) (rd : AtChoice) (sends : Bool) :
    ((∃ s0, kickstart content (newSender cr cap) cr.hash cr.size rd sends = (.err .io, s0)) ∧ (rd ≠ .good ∨ sends = false)) ∨
    ∃ s0, kickstart content (newSender cr cap) cr.hash cr.size rd sends = (.ok (stream cr.hash (slice content start n) 0), s0) ∧
      SInv content start n cap 0 0 s0 := by
  have hreset : (newSender cr cap).reader.reset.reader = ⟨start, start + 0, start + n⟩ := by simp [newSender, ChunkReader.reset, hr]
  unfold kickstart
  simp only []
  rcases read_cases content _ start n 0 1000 hreset (Nat.zero_le _) hn rd with hg | ⟨got, off, cr', hg⟩
  · rw [hg, read_good content _ start n 0 1000 hreset (Nat.zero_le _) hn]
    simp only []
    rw [if_neg (by split <;> simp)]
    cases sends with
    | false => exact .inl ⟨⟨_, rfl⟩, .inr rfl⟩
    | true =>
      rw [if_pos rfl]
      right
      refine ⟨_, ⟨by rw [hsz]; rfl, rfl, fun _ => ?_, Nat.le_refl _, fun _ => rfl, ?_, ?_, ?_, ?_, (by simp)⟩⟩
      · simp [pos, Nat.min_comm]
      · intro _; rfl
      · intro hc; exact hc
      · intro _; exact .inl ⟨rfl, rfl, rfl, rfl, rfl⟩
      · intro _; rfl
  · rw [hg]
    simp only [if_pos]
    refine .inl ⟨⟨_, rfl⟩, .inl ?_⟩
    rintro rfl
    rw [read_good content _ start n 0 1000 hreset (Nat.zero_le _) hn] at hg
    injection hg with hg
    injection hg with _ hg
    injection hg with _ hg
    injection hg with hg _
    split at hg <;> cases hg

/-- The state of an upload, from what was seen of it. -/
theorem Upload.inv {sha1 : Bytes → Sha1Hash} {ch : List AtChoice} {cr : ChunkReader} (hcr : newChunkReader sha1 content start n ch = some cr) (hn : n < 2 ^ 32)
    {tr : List Ev} {s : Sender} (hu : Upload content faults cr cap tr s) :
    ∃ m, sends tr = (List.range (m + 1)).map (stream (sha1 (slice content start n)) (slice content start n)) ∧
      SInv content start n cap m (acks tr) s := by
  obtain ⟨h1, h2, -, h4⟩ := C23_describes sha1 content start n ch cr hcr
  obtain ⟨rd, p, s0, tr', -, hk, hrun, rfl⟩ := hu
  rw [← h1]
  rcases kickstart_new content cr start n cap h4 h2 hn rd true with ⟨⟨s1, hs1⟩, -⟩ | ⟨s1, hs1, hinv⟩
  · rw [hs1] at hk; cases hk
  rw [hs1] at hk
  cases hk
  clear hs1
  induction hrun with
  | refl => exact ⟨0, rfl, hinv⟩
  | @step t u tr e hr hs ih =>
    obtain ⟨m, g1, g2⟩ := ih
    rw [← List.cons_append, sends_append, acks_append, g1]
    rcases sinv_step hn hs cr.hash g2 with ⟨rfl, k⟩ | ⟨rfl, k⟩ | ⟨rfl, k⟩
    · exact ⟨m, by simp [sends], k⟩
    · exact ⟨m, by simp [sends], k⟩
    · exact ⟨m + 1, by rw [List.range_succ (n := m + 1)]; simp [sends], k⟩

end

/-! ## C40: the packets of an upload -/

/-- C40: whatever acknowledgements arrive and whenever, whatever the window, and whether or not reads and writes fail: the packets sent are the beginning of the
one sequence of packets that belongs to the chunk. -/
theorem C40_order (sha1 : Bytes → Sha1Hash) (content : Bytes) (start n : Nat) (ch : List AtChoice) (cr : ChunkReader)
    (hcr : newChunkReader sha1 content start n ch = some cr) (hn : n < 2 ^ 32) (faults : Bool) (cap : UInt16) (tr : List Ev) (s : Sender)
    (hu : Upload content faults cr cap tr s) :
    ∃ m, sends tr = (List.range (m + 1)).map (stream (sha1 (slice content start n)) (slice content start n)) := by
  obtain ⟨m, h, -⟩ := hu.inv hcr hn
  exact ⟨m, h⟩

/-- The bytes of the chunk in a sequence of packets: what follows hash and size in the first, and the others in full. -/
def Spec.payload : List Packet → Bytes
  | [] => []
  | p :: ps => p.data.drop 24 ++ ps.flatMap (·.data)

/-- C40: the packets of a chunk carry its bytes in order, once each, without gaps: any number of them carries the beginning of the chunk; each but the first has the
number of bytes before it as its offset and carries the next 1024 bytes or all that are left. -/
theorem C40_stream (h : Sha1Hash) (sec : Bytes) (hsec : sec.length < 2 ^ 32) (m : Nat) :
    payload ((List.range (m + 1)).map (stream h sec)) = sec.take (1000 + 1024 * m) ∧
    (stream h sec (m + 1)).offset.toNat = (payload ((List.range (m + 1)).map (stream h sec))).length ∧
    (stream h sec (m + 1)).data = (sec.drop (payload ((List.range (m + 1)).map (stream h sec))).length).take 1024 ∧
    ((stream h sec (m + 1)).data = [] ↔ payload ((List.range (m + 1)).map (stream h sec)) = sec) := by
  have hpay : payload ((List.range (m + 1)).map (stream h sec)) = sec.take (1000 + 1024 * m) := by
    have key : ∀ m, payload ((List.range (m + 1)).map (stream h sec)) = sec.take (1000 + 1024 * m) := by
      intro m
      induction m with
      | zero =>
        show (h.1 ++ put32 _ ++ sec.take 1000).drop 24 ++ _ = _
        have := h.2
        rw [List.drop_left' (by simp [put32, this])]
        simp
      | succ m ih =>
        have happ : ∀ (l : List Packet) (p : Packet), l ≠ [] → payload (l ++ [p]) = payload l ++ p.data := by
          intro l p hl
          cases l with
          | nil => exact absurd rfl hl
          | cons q l => simp [payload, List.append_assoc]
        rw [List.range_succ, List.map_append, List.map_singleton, happ _ _ (by simp), ih]
        have hd : (stream h sec (m + 1)).data = (sec.drop (pos sec.length m)).take 1024 := rfl
        rw [hd]
        have e : sec.drop (pos sec.length m) = sec.drop (1000 + 1024 * m) := by
          unfold pos
          rcases Nat.le_total sec.length (1000 + 1024 * m) with h | h
          · rw [Nat.min_eq_left h, List.drop_eq_nil_of_le (Nat.le_refl _), List.drop_eq_nil_of_le h]
          · rw [Nat.min_eq_right h]
        have e2 : 1000 + 1024 * (m + 1) = (1000 + 1024 * m) + 1024 := by omega
        rw [e, e2, List.take_add (i := 1000 + 1024 * m)]
    exact key m
  have hlen : (payload ((List.range (m + 1)).map (stream h sec))).length = pos sec.length m := by
    rw [hpay, List.length_take]; unfold pos; omega
  refine ⟨hpay, ?_, ?_, ?_⟩
  · rw [hlen]
    show (UInt32.ofNat _).toNat = _
    have := pos_le sec.length m
    rw [UInt32.toNat_ofNat']
    exact Nat.mod_eq_of_lt (by omega)
  · rw [hlen]; rfl
  · have hl : (stream h sec (m + 1)).data.length = min 1024 (sec.length - pos sec.length m) := by
      show ((sec.drop _).take 1024).length = _
      simp
    rw [← List.length_eq_zero_iff, hl, hpay]
    have := pos_le sec.length m
    constructor
    · intro h0
      apply List.take_of_length_le
      unfold pos at h0 this
      omega
    · intro h0
      have := congrArg List.length h0
      rw [List.length_take] at this
      unfold pos
      omega

/-! ## C41, C47: the window -/

/-- C41: at no time are more packets sent than acknowledgements received plus the window (one if the window is zero). -/
theorem C41_window (sha1 : Bytes → Sha1Hash) (content : Bytes) (start n : Nat) (ch : List AtChoice) (cr : ChunkReader)
    (hcr : newChunkReader sha1 content start n ch = some cr) (hn : n < 2 ^ 32) (faults : Bool) (cap : UInt16) (tr : List Ev) (s : Sender)
    (hu : Upload content faults cr cap tr s) : (sends tr).length ≤ acks tr + max cap.toNat 1 := by
  obtain ⟨m, h, hi⟩ := hu.inv hcr hn
  rw [h, List.length_map, List.length_range]
  by_cases hc : 0 < cap.toNat
  · have h1 := hi.count hc
    have h2 := hi.window hc
    omega
  · have : cap = 0 := UInt16.toNat_inj.1 (by show cap.toNat = 0; omega)
    have := hi.zero this
    omega

/-- The worker cannot go on unless another acknowledgement arrives. -/
def Sender.Waits (content : Bytes) (s : Sender) : Prop := ∀ e s', SStep content false s e s' → e = .ack

theorem turn_always {content : Bytes} {s : Sender} {k : Nat} (h : s.worker = .loop k) (hw : s.Waits content) : False := by
  have := hw _ _ (.turn s k .good true h (fun _ => ⟨rfl, rfl⟩))
  unfold kickTurn at this
  split at this
  · split at this
    · simp only [] at this
      split at this
      · cases this
      · cases this
    · cases this
  · cases this

/-- When reads and writes succeed and the worker waits, it either waits at the `select` for acknowledgements, or has exited, or hangs in `terminate`. -/
theorem waits_cases {content : Bytes} {start n : Nat} {cap : UInt16} {m a : Nat} {s : Sender} (hi : SInv content start n cap m a s)
    (hgood : s.worker.Alive) (hw : s.Waits content) :
    (s.worker = .select ∧ s.pending = 0 ∧ s.cancel = false ∧ endReads (slice content start n).length n m = 0) ∨
    (s.worker = .exited ∧ endReads (slice content start n).length n m = 1) ∨
    (∃ k, s.worker = .defers (k + 1) false ∧ s.cancel = true ∧ 2 ≤ endReads (slice content start n).length n m) := by
  have he := hi.ends hgood
  rcases hwk : s.worker with _ | k | ⟨k, f⟩ | _ | _
  · left
    have hp : s.pending = 0 := by
      apply Classical.byContradiction
      intro h0
      have := hw _ _ (.take s hwk (by omega))
      cases this
    have hc : s.cancel = false := by
      rcases hc : s.cancel with _ | _
      · rfl
      · have := hw _ _ (.cancel s hwk hc)
        cases this
    rw [hwk, hc] at he
    exact ⟨rfl, hp, hc, he⟩
  · exact (turn_always hwk hw).elim
  · cases f with
    | true => rw [hwk] at hgood; exact hgood.elim
    | false =>
      cases k with
      | zero => have := hw _ _ (.ret s false hwk); cases this
      | succ k =>
        right; right
        have hc : s.cancel = true := by
          rcases hc : s.cancel with _ | _
          · have := hw _ _ (.terminate s k false hwk hc)
            cases this
          · rfl
        rw [hwk, hc] at he
        refine ⟨k, rfl, hc, ?_⟩
        simp only [Worker.ends, if_true] at he
        omega
  · right; left
    rw [hwk, hi.gone hwk] at he
    exact ⟨rfl, he⟩
  · rw [hwk] at hgood; exact hgood.elim

theorem alive_of_good {content : Bytes} {s s' : Sender} {e : Ev} (hs : SStep content false s e s') (start n : Nat) (hn : n < 2 ^ 32)
    (p : Nat) (hp : p ≤ (slice content start n).length) (hr : s.reader.reader = ⟨start, start + p, start + n⟩) (h : s.worker.Alive) : s'.worker.Alive := by
  cases hs with
  | arrive => exact h
  | take => trivial
  | cancel => trivial
  | turn ends rd sends hw hf =>
    obtain ⟨rfl, rfl⟩ := hf rfl
    unfold kickTurn
    split
    · rw [read_good content s.reader start n p 1024 hr hp hn]
      simp only []
      rw [if_neg (by split <;> simp)]
      trivial
    · trivial
  | terminate left failed hw hc =>
    rw [hw] at h
    cases failed
    · trivial
    · exact h.elim
  | ret failed hw =>
    rw [hw] at h
    cases failed
    · trivial
    · exact h.elim

theorem Upload.alive {content : Bytes} {start n : Nat} {cap : UInt16} {sha1 : Bytes → Sha1Hash} {ch : List AtChoice} {cr : ChunkReader}
    (hcr : newChunkReader sha1 content start n ch = some cr) (hn : n < 2 ^ 32) {tr : List Ev} {s : Sender} (hu : Upload content false cr cap tr s) :
    s.worker.Alive := by
  obtain ⟨rd, p, s0, tr', hf, hk, hrun, rfl⟩ := hu
  have hk0 := hk
  obtain ⟨h1, h2, -, h4⟩ := C23_describes sha1 content start n ch cr hcr
  rcases kickstart_new content cr start n cap h4 h2 hn rd true with ⟨⟨s1, hs1⟩, -⟩ | ⟨s1, hs1, hinv⟩
  · rw [hs1] at hk; cases hk
  rw [hs1] at hk
  cases hk
  have hal : s0.worker.Alive := by
    by_cases hc : 0 < cap.toNat
    · rcases hinv.full hc with ⟨-, -, -, h, -⟩ | ⟨h, -⟩
      · rw [h]; trivial
      · omega
    · unfold kickstart at hs1
      simp only [] at hs1
      split at hs1
      · split at hs1
        · cases hs1
        · injection hs1 with _ hs1
          rw [← hs1]; trivial
      · cases hs1
  clear hs1
  induction hrun with
  | refl => exact hal
  | @step t u tr e hr hs ih =>
    have ha := ih
    obtain ⟨m, -, hi⟩ := Upload.inv (faults := false) hcr hn ⟨rd, _, _, tr, hf, hk0, hr, rfl⟩
    exact alive_of_good hs start n hn _ (pos_le _ _) (hi.reader ha) ha

/-- C41: the window is kept full: when reads and writes succeed and the worker is waiting for acknowledgements, then exactly the window is outstanding (the first
packet alone, before the first acknowledgement). -/
theorem C41_full (sha1 : Bytes → Sha1Hash) (content : Bytes) (start n : Nat) (ch : List AtChoice) (cr : ChunkReader)
    (hcr : newChunkReader sha1 content start n ch = some cr) (hn : n < 2 ^ 32) (cap : UInt16) (hc : 0 < cap.toNat) (tr : List Ev) (s : Sender)
    (hu : Upload content false cr cap tr s) (hw : s.Waits content) (hsel : s.worker = .select) :
    (sends tr).length = acks tr + (if acks tr = 0 then 1 else cap.toNat) := by
  obtain ⟨m, h, hi⟩ := hu.inv hcr hn
  rw [h, List.length_map, List.length_range]
  have ha := hu.alive hcr hn
  rcases waits_cases hi ha hw with ⟨-, hp, -, -⟩ | ⟨h1, -⟩ | ⟨k, h1, -⟩
  · have h1 := hi.count hc
    rcases hi.full hc with ⟨g1, g2, -⟩ | ⟨g1, ⟨k, g2, -⟩ | g2 | g2⟩
    · rw [if_pos (by omega)]; omega
    · rw [hsel] at g2; cases g2
    · exact absurd ha g2
    · rw [if_neg (by omega), ← g2]; omega
  · rw [hsel] at h1; cases h1
  · rw [hsel] at h1; cases h1

/-- The acknowledgements that found a packet not yet acknowledged, in a history that starts with `out` such packets. -/
def Spec.answering (out : Nat) : List Ev → Nat
  | [] => 0
  | .sent _ :: tr => Spec.answering (out + 1) tr
  | .ack :: tr => if out = 0 then Spec.answering 0 tr else Spec.answering (out - 1) tr + 1
  | .tau :: tr => Spec.answering out tr

/-- C47, in full: an acknowledgement that answers no packet is ignored, so that the window holds counting only the others. -/
def C47_statement (sha1 : Bytes → Sha1Hash) : Prop :=
  ∀ (content : Bytes) (start n : Nat) (ch : List AtChoice) (cr : ChunkReader) (cap : UInt16) (tr : List Ev) (s : Sender),
    newChunkReader sha1 content start n ch = some cr → n < 2 ^ 32 → Upload content false cr cap tr s →
    (sends tr).length ≤ answering 0 tr + max cap.toNat 1

/-- C47, what holds: a stray acknowledgement makes the sender send one packet more than the window allows, never more than one; and the counter never gets stuck, so the
sender answers every acknowledgement, stray or not (`C41_full`). -/
theorem C47_partial (sha1 : Bytes → Sha1Hash) (content : Bytes) (start n : Nat) (ch : List AtChoice) (cr : ChunkReader)
    (hcr : newChunkReader sha1 content start n ch = some cr) (hn : n < 2 ^ 32) (faults : Bool) (cap : UInt16) (tr : List Ev) (s : Sender)
    (hu : Upload content faults cr cap tr s) : (sends tr).length ≤ answering 0 tr + (acks tr - answering 0 tr) + max cap.toNat 1 := by
  have := C41_window sha1 content start n ch cr hcr hn faults cap tr s hu
  omega

/-! ## C46: the end of the worker -/

/-- C46, in full: once the end marker has been sent and the worker can do nothing more, it has exited. -/
def C46_statement (sha1 : Bytes → Sha1Hash) : Prop :=
  ∀ (content : Bytes) (start n : Nat) (ch : List AtChoice) (cr : ChunkReader) (cap : UInt16) (tr : List Ev) (s : Sender),
    newChunkReader sha1 content start n ch = some cr → n < 2 ^ 32 → Upload content false cr cap tr s →
    (∃ p ∈ sends tr, p.data = []) → s.Waits content → s.worker = .exited

/-- A worker hanging in `terminate` hangs for ever and sends nothing, whatever arrives. -/
theorem hangs {content : Bytes} {faults : Bool} {s s' : Sender} {tr : List Ev} {k : Nat} (hw : s.worker = .defers (k + 1) false) (hc : s.cancel = true)
    (hr : SRun content faults s tr s') : s'.worker = s.worker ∧ sends tr = [] := by
  have : s'.worker = s.worker ∧ s'.cancel = true ∧ sends tr = [] := by
    induction hr with
    | refl => exact ⟨rfl, hc, rfl⟩
    | step hr hs ih =>
      obtain ⟨h1, h2, h3⟩ := ih
      rw [sends_append, h3]
      cases hs with
      | arrive => exact ⟨h1, h2, rfl⟩
      | take hw' _ => rw [h1, hw] at hw'; cases hw'
      | cancel hw' _ => rw [h1, hw] at hw'; cases hw'
      | turn _ _ _ hw' _ => rw [h1, hw] at hw'; cases hw'
      | terminate _ _ hw' hc' => rw [h2] at hc'; cases hc'
      | ret _ hw' => rw [h1, hw] at hw'; cases hw'
  exact ⟨this.1, this.2.2⟩

/-- C46, what holds: when the worker can do nothing more, it depends on the number of reads that reported the end of the chunk: with none it waits for acknowledgements,
after exactly one it has exited, after two or more it hangs for ever. -/
theorem C46_partial (sha1 : Bytes → Sha1Hash) (content : Bytes) (start n : Nat) (ch : List AtChoice) (cr : ChunkReader)
    (hcr : newChunkReader sha1 content start n ch = some cr) (hn : n < 2 ^ 32) (cap : UInt16) (tr : List Ev) (s : Sender)
    (hu : Upload content false cr cap tr s) (hw : s.Waits content) :
    (endReads (slice content start n).length n ((sends tr).length - 1) = 0 ↔ s.worker = .select ∧ s.pending = 0) ∧
    (endReads (slice content start n).length n ((sends tr).length - 1) = 1 ↔ s.worker = .exited) ∧
    (2 ≤ endReads (slice content start n).length n ((sends tr).length - 1) ↔
      ∃ k, s.worker = .defers (k + 1) false ∧ ∀ faults tr' s', SRun content faults s tr' s' → s'.worker = s.worker ∧ sends tr' = []) := by
  obtain ⟨m, h, hi⟩ := hu.inv hcr hn
  have hm : (sends tr).length - 1 = m := by rw [h]; simp
  rw [hm]
  rcases waits_cases hi (hu.alive hcr hn) hw with ⟨h1, h2, h3, h4⟩ | ⟨h1, h4⟩ | ⟨k, h1, h2, h4⟩
  · rw [h1, h4]; simp [h2]
  · rw [h1, h4]; simp
  · refine ⟨⟨fun h => by omega, fun h => by rw [h1] at h; cases h.1⟩, ⟨fun h => by omega, fun h => by rw [h1] at h; cases h⟩, ?_⟩
    refine ⟨fun _ => ⟨k, h1, fun f tr' s' hr => hangs h1 h2 hr⟩, fun _ => h4⟩

/-- A full chunk reports the end with its empty packets only. -/
theorem C46_full_chunk (content : Bytes) (start n : Nat) (hfull : (slice content start n).length = n) (h : Sha1Hash) (m : Nat) :
    endReads (slice content start n).length n m = ((List.range (m + 1)).map (stream h (slice content start n))).countP (fun p => decide (p.data = [])) := by
  induction m with
  | zero =>
    have : (stream h (slice content start n) 0).data ≠ [] := by
      show h.1 ++ put32 _ ++ _ ≠ []
      have := h.2
      intro e
      have := congrArg List.length e
      simp [put32] at this
    simp [endReads, this]
  | succ m ih =>
    rw [List.range_succ, List.map_append, List.countP_append, ← ih]
    simp only [endReads, List.map_singleton, List.countP_singleton]
    congr 1
    have hl : (stream h (slice content start n) (m + 1)).data.length = min 1024 ((slice content start n).length - pos (slice content start n).length m) := by
      show (((slice content start n).drop _).take 1024).length = _
      simp
    have hp := pos_le (slice content start n).length m
    generalize (slice content start n).length = S at *
    subst hfull
    have : endAt S S 1024 (pos S m) = decide ((stream h (slice content start S) (m + 1)).data = []) := by
      unfold endAt
      rw [← Bool.decide_or, decide_eq_decide, ← List.length_eq_zero_iff, hl]
      omega
    rw [this]

/-! ## Running the worker -/

/-- What happens next. -/
inductive Act where
  | arrive | take | cancel | turn | terminate | ret

/-- The step, if it is possible. -/
def act (content : Bytes) (s : Sender) : Act → Option (Ev × Sender)
  | .arrive => some (.ack, { s with pending := s.pending + 1 })
  | .take => if s.worker = .select ∧ 0 < s.pending then
      some (.tau, { s with pending := s.pending - 1, windowSize := s.windowSize - 1, worker := .loop 0 }) else none
  | .cancel => if s.worker = .select ∧ s.cancel = true then some (.tau, { s with cancel := false, worker := .exited }) else none
  | .turn => match s.worker with
    | .loop ends => some (kickTurn content s ends .good true)
    | _ => none
  | .terminate => match s.worker with
    | .defers (left + 1) failed => if s.cancel = false then some (.tau, { s with cancel := true, worker := .defers left failed }) else none
    | _ => none
  | .ret => match s.worker with
    | .defers 0 failed => some (.tau, { s with worker := if failed then .dead else .select })
    | _ => none

def acts (content : Bytes) (s : Sender) : List Act → Option (List Ev × Sender)
  | [] => some ([], s)
  | a :: as => (act content s a).bind (fun x => (acts content x.2 as).map (fun y => (x.1 :: y.1, y.2)))

theorem act_step {content : Bytes} {s s' : Sender} {e : Ev} {a : Act} (h : act content s a = some (e, s')) : SStep content false s e s' := by
  cases a with
  | arrive => cases h; exact .arrive s
  | take =>
    simp only [act] at h
    split at h
    · rename_i hw; cases h; exact .take s hw.1 hw.2
    · cases h
  | cancel =>
    simp only [act] at h
    split at h
    · rename_i hw; cases h; exact .cancel s hw.1 hw.2
    · cases h
  | turn =>
    simp only [act] at h
    split at h
    · rename_i k hw
      injection h with h
      have := SStep.turn (content := content) (faults := false) s k .good true hw (fun _ => ⟨rfl, rfl⟩)
      rw [h] at this
      exact this
    · cases h
  | terminate =>
    simp only [act] at h
    split at h
    · rename_i l f hw
      split at h
      · rename_i hc; cases h; exact .terminate s l f hw hc
      · cases h
    · cases h
  | ret =>
    simp only [act] at h
    split at h
    · rename_i f hw; cases h; exact .ret s f hw
    · cases h

theorem SRun.cons {content : Bytes} {faults : Bool} {s t u : Sender} {e : Ev} {tr : List Ev} (h : SStep content faults s e t) (h' : SRun content faults t tr u) :
    SRun content faults s (e :: tr) u := by
  induction h' with
  | refl => exact SRun.step (.refl s) h
  | step _ hs ih => exact SRun.step ih hs

theorem acts_run {content : Bytes} {as : List Act} : ∀ {s s' : Sender} {tr : List Ev}, acts content s as = some (tr, s') → SRun content false s tr s' := by
  induction as with
  | nil => intro s s' tr h; cases h; exact .refl _
  | cons a as ih =>
    intro s s' tr h
    simp only [acts] at h
    rcases ha : act content s a with _ | ⟨e, t⟩
    · rw [ha] at h; cases h
    · rw [ha] at h
      simp only [Option.bind_some] at h
      rcases hb : acts content t as with _ | ⟨tr', u⟩
      · rw [hb] at h; cases h
      · rw [hb] at h
        cases h
        exact .cons (act_step ha) (ih hb)

/-- The reader of a chunk of one byte. -/
theorem ex_reader (sha1 : Bytes → Sha1Hash) : newChunkReader sha1 [7] 0 1 [.good, .good] = some ⟨⟨0, 0, 1⟩, sha1 [7], 1⟩ := by
  obtain ⟨cr, h⟩ := C24_terminates_partial sha1 [7] 0 1 [.good, .good] (by decide)
  obtain ⟨h1, h2, -, h4⟩ := C23_describes sha1 [7] 0 1 _ cr h
  rw [h]
  obtain ⟨r, hash, size⟩ := cr
  simp only at h1 h2 h4
  rw [h1, h2, h4]
  rfl

/-- An upload of that chunk. -/
theorem ex_upload (sha1 : Bytes → Sha1Hash) (cap : UInt16) (as : List Act) (tr : List Ev) (s : Sender)
    (h : acts [7] ⟨⟨⟨0, 1, 1⟩, sha1 [7], 1⟩, 1, cap, 0, false, .select⟩ as = some (tr, s)) :
    Upload [7] false ⟨⟨0, 0, 1⟩, sha1 [7], 1⟩ cap (.sent ⟨0, (sha1 [7]).1 ++ put32 1 ++ [7]⟩ :: tr) s :=
  ⟨.good, _, _, tr, fun _ => rfl, rfl, acts_run h, rfl⟩

/-- The sender of that chunk in a given situation. -/
def exSender (sha1 : Bytes → Sha1Hash) (ws cap : UInt16) (pending : Nat) (cancel : Bool) (w : Worker) : Sender :=
  ⟨⟨⟨0, 1, 1⟩, sha1 [7], 1⟩, ws, cap, pending, cancel, w⟩

theorem ex_run1 (sha1 : Bytes → Sha1Hash) : acts [7] ⟨⟨⟨0, 1, 1⟩, sha1 [7], 1⟩, 1, 2, 0, false, .select⟩ [.arrive, .take, .turn, .turn, .turn, .terminate] =
    some ([.ack, .tau, .sent ⟨1, []⟩, .sent ⟨1, []⟩, .tau, .tau], exSender sha1 2 2 0 true (.defers 1 false)) := by
  simp [acts, act, kickTurn, ChunkReader.read, ChunkReader.offset, SectionReader.read, exSender]

theorem ex_run2 (sha1 : Bytes → Sha1Hash) : acts [7] ⟨⟨⟨0, 1, 1⟩, sha1 [7], 1⟩, 1, 1, 0, false, .select⟩
    [.arrive, .arrive, .take, .turn, .turn, .terminate, .ret, .take, .turn] =
    some ([.ack, .ack, .tau, .sent ⟨1, []⟩, .tau, .tau, .tau, .tau, .sent ⟨1, []⟩], exSender sha1 1 1 0 true (.loop 1)) := by
  simp [acts, act, kickTurn, ChunkReader.read, ChunkReader.offset, SectionReader.read, exSender]

theorem ex_run3 (sha1 : Bytes → Sha1Hash) : acts [7] ⟨⟨⟨0, 1, 1⟩, sha1 [7], 1⟩, 1, 1, 0, false, .select⟩
    [.arrive, .take, .turn, .turn, .terminate, .ret, .cancel] =
    some ([.ack, .tau, .sent ⟨1, []⟩, .tau, .tau, .tau, .tau], exSender sha1 1 1 0 false .exited) := by
  simp [acts, act, kickTurn, ChunkReader.read, ChunkReader.offset, SectionReader.read, exSender]

/-- C46 is false, for every hash function: a chunk of one byte and a window of two. -/
theorem C46_refuted (sha1 : Bytes → Sha1Hash) : ¬ C46_statement sha1 := by
  intro h
  have := h [7] 0 1 _ _ 2 _ _ (ex_reader sha1) (by decide) (ex_upload sha1 2 _ _ _ (ex_run1 sha1)) ⟨⟨1, []⟩, by simp [sends], rfl⟩
    (by
      intro e s' hs
      cases hs with
      | arrive => rfl
      | take hw _ => cases hw
      | cancel hw _ => cases hw
      | turn _ _ _ hw _ => cases hw
      | terminate _ _ _ hc => cases hc
      | ret _ hw => cases hw)
  cases this

/-- C47 is false, for every hash function: a chunk of one byte and a window of one; the second of two acknowledgements for the first packet lets a third packet out. -/
theorem C47_refuted (sha1 : Bytes → Sha1Hash) : ¬ C47_statement sha1 := by
  intro h
  have := h [7] 0 1 _ _ 1 _ _ (ex_reader sha1) (by decide) (ex_upload sha1 1 _ _ _ (ex_run2 sha1))
  simp [sends, answering] at this

/-! ### Examples -/

/-- `C40_order`, `C41_window`, `C47_partial`: an upload with three packets sent. -/
example (sha1 : Bytes → Sha1Hash) : ∃ tr s, Upload [7] false ⟨⟨0, 0, 1⟩, sha1 [7], 1⟩ 2 tr s ∧ (sends tr).length = 3 ∧ acks tr = 1 :=
  ⟨_, _, ex_upload sha1 2 _ _ _ (ex_run1 sha1), rfl, rfl⟩

/-- `C46_partial`: a worker that has exited, after one read that reported the end. -/
example (sha1 : Bytes → Sha1Hash) : ∃ tr s, Upload [7] false ⟨⟨0, 0, 1⟩, sha1 [7], 1⟩ 1 tr s ∧ s.Waits [7] ∧ s.worker = .exited := by
  refine ⟨_, _, ex_upload sha1 1 _ _ _ (ex_run3 sha1), ?_, rfl⟩
  intro e s' hs
  cases hs with
  | arrive => rfl
  | take hw _ => cases hw
  | cancel hw _ => cases hw
  | turn _ _ _ hw _ => cases hw
  | terminate _ _ hw _ => cases hw
  | ret _ hw => cases hw

/-- `C41_full`: before the first acknowledgement. -/
example (sha1 : Bytes → Sha1Hash) : ∃ tr s, Upload [7] false ⟨⟨0, 0, 1⟩, sha1 [7], 1⟩ 2 tr s ∧ s.Waits [7] ∧ s.worker = .select := by
  refine ⟨_, _, ex_upload sha1 2 [] [] _ rfl, ?_, rfl⟩
  intro e s' hs
  cases hs with
  | arrive => rfl
  | take _ hp => exact absurd hp (Nat.lt_irrefl 0)
  | cancel _ hc => cases hc
  | turn _ _ _ hw _ => cases hw
  | terminate _ _ hw _ => cases hw
  | ret _ hw => cases hw

end Flu
