import Verif.Props.Receiver
import Verif.Props.Clean
/-!
# A downloaded chunk in the catalogue (C44)
-/
namespace Flu
open Spec

/-- The hash announced by a first packet: bytes 5 to 24. -/
def Spec.dgHash (d : Bytes) : Bytes := (d.drop 5).take 20

/-- What the receiver holds comes from some zero-offset datagram. -/
def RConn.From (c : RConn) (seen : List Bytes) : Prop :=
  ∀ h, c.hash = some h → ∃ d ∈ seen, dgOffset d = 0 ∧ h.1 = dgHash d ∧ c.buffer.length = dgSize d

theorem fromSlice_val (bs : Bytes) (h : bs.length = 20) : (Sha1Hash.zero.fromSlice bs).1 = bs := by
  unfold Sha1Hash.fromSlice Sha1Hash.copyInto
  have hz : Sha1Hash.zero.1.length = 20 := Sha1Hash.zero.2
  simp only []
  rw [List.take_of_length_le (by omega), List.drop_of_length_le (by omega), List.append_nil]

theorem onPacket_from (sha1 : Bytes → Sha1Hash) (c c' : RConn) (d : Bytes) (p : Packet) (act : RAct) (seen : List Bytes) (hf : c.From seen)
    (hr : readPacket d = .ok p) (ho : onPacket sha1 c p = .ok (c', act)) : c'.From (seen ++ [d]) := by
  rw [readPacket_eq] at hr
  split at hr
  · cases hr
  cases hr
  unfold onPacket at ho
  simp only [ofNat_dgOffset_zero] at ho
  have weaken : ∀ c2 : RConn, c2.hash = c.hash → c2.buffer.length = c.buffer.length → c2.From (seen ++ [d]) := by
    intro c2 h1 h2 h hh
    obtain ⟨x, hx, g⟩ := hf h (by rw [← h1]; exact hh)
    exact ⟨x, by simp [hx], by rw [h2]; exact g⟩
  split at ho
  · rename_i h0
    obtain ⟨⟨hash, size, data⟩, h1, ho⟩ := (Res.bind_ok_iff _ _ _).1 ho
    obtain ⟨b, h2, ho⟩ := (Res.bind_ok_iff _ _ _).1 ho
    cases ho
    intro h hh
    cases hh
    have hlen : ((d.take 1029).drop 5).length = min 1029 d.length - 5 := by simp
    unfold splitFirst at h1
    simp only [] at h1
    split at h1
    · cases h1
    rename_i h24
    simp only [Res.ok.injEq, Prod.mk.injEq] at h1
    obtain ⟨rfl, rfl, -⟩ := h1
    have e1 : (((d.take 1029).drop 5).drop 20).take 4 = (d.drop 25).take 4 := by
      rw [List.drop_drop, List.drop_take, List.take_take]; rfl
    have e2 : ((d.take 1029).drop 5).take 20 = (d.drop 5).take 20 := by
      rw [List.drop_take, List.take_take]; rfl
    refine ⟨d, by simp, h0, ?_, ?_⟩
    · rw [e2, fromSlice_val _ (by simp; omega)]; rfl
    · show b.length = _
      rw [copyAt_length h2, List.length_replicate, e1, UInt32.toNat_ofNat', Nat.mod_eq_of_lt (beNat4_lt d 25)]; rfl
  · split at ho
    · obtain ⟨b, h2, ho⟩ := (Res.bind_ok_iff _ _ _).1 ho
      cases ho
      exact weaken _ rfl (copyAt_length h2)
    · split at ho
      · cases ho
      · cases ho
        exact weaken _ rfl rfl

/-- What the loop hands over: its length was announced by a first packet, and the hash check compared with the hash of that packet. -/
theorem recvLoop_from (sha1 : Bytes → Sha1Hash) (queue : List (Option Bytes)) : ∀ (c : RConn) (seen : List Bytes) (acks : List UInt32) (b : Bytes) (ok : Bool),
    c.From seen → recvLoop sha1 c queue = .ok (acks, .finished b ok) →
    ∃ d, (d ∈ seen ∨ some d ∈ queue) ∧ dgOffset d = 0 ∧ b.length = dgSize d ∧ (ok = true ↔ (sha1 b).1 = dgHash d) := by
  induction queue with
  | nil => intro c seen acks b ok _ h; cases h
  | cons o rest ih =>
    intro c seen acks b ok hf h
    rcases o with _ | d
    · cases h
    rw [recvLoop] at h
    obtain ⟨p, h1, h⟩ := (Res.bind_ok_iff _ _ _).1 h
    obtain ⟨⟨c', act⟩, h2, h⟩ := (Res.bind_ok_iff _ _ _).1 h
    have hf' := onPacket_from sha1 c c' d p act seen hf h1 h2
    rcases act with o | ⟨b', ok'⟩
    · simp only [] at h
      obtain ⟨⟨acks', out⟩, h3, h⟩ := (Res.bind_ok_iff _ _ _).1 h
      cases h
      obtain ⟨x, hx, g⟩ := ih c' _ acks' b ok hf' h3
      refine ⟨x, ?_, g⟩
      simp only [List.mem_append, List.mem_cons, List.not_mem_nil, or_false] at hx
      rcases hx with (hx | rfl) | hx
      · exact .inl hx
      · exact .inr (by simp)
      · exact .inr (by simp [hx])
    · cases h
      unfold onPacket at h2
      split at h2
      · obtain ⟨_, _, h2⟩ := (Res.bind_ok_iff _ _ _).1 h2
        obtain ⟨_, _, h2⟩ := (Res.bind_ok_iff _ _ _).1 h2
        cases h2
      · split at h2
        · obtain ⟨_, _, h2⟩ := (Res.bind_ok_iff _ _ _).1 h2
          cases h2
        · split at h2
          · cases h2
          · rename_i hh
            cases h2
            obtain ⟨x, hx, g1, g2, g3⟩ := hf _ hh
            refine ⟨x, .inl hx, g1, g3, ?_⟩
            rw [decide_eq_true_eq, ← g2]
            exact ⟨fun e => by rw [e], fun e => Subtype.ext e⟩

/-- What `downloadChunk` does: nothing to the catalogue unless an end marker came; then `SaveChunk`. -/
theorem downloadChunk_eq (env : Env) (h : Sha1Hash) (n : UInt16) (queue : List (Option Bytes)) (s : St) :
    downloadChunk env h n queue s =
      match recvLoop env.sha1 .fresh queue with
      | .ok (_, .waiting _) => (.ok .waiting, s)
      | .ok (_, .closed) => (.ok .gaveUp, s)
      | .ok (_, .finished b ok) => (IOM.orPanic (saveChunk h n b) >>= fun _ => (pure (.saved ok) : CM DLOut)) s
      | .err e => (.err e, s)
      | .panic => (.panic, s)
      | .exit => (.exit, s)
      | .crash => (.crash, s) := by
  unfold downloadChunk
  rw [IOM.bind_apply, IOM.lift_apply]
  rcases recvLoop env.sha1 .fresh queue with ⟨a, out⟩ | e | _ | _ | _
  · rcases out with c | _ | ⟨b, ok⟩ <;> rfl
  all_goals rfl

theorem downloadChunk_saved (env : Env) (h : Sha1Hash) (n : UInt16) (queue : List (Option Bytes)) (s s' : St) (ok : Bool)
    (hrun : downloadChunk env h n queue s = (.ok (.saved ok), s')) :
    ∃ acks b, recvLoop env.sha1 .fresh queue = .ok (acks, .finished b ok) ∧ saveChunk h n b s = (.ok (), s') := by
  rw [downloadChunk_eq] at hrun
  rcases hr : recvLoop env.sha1 .fresh queue with ⟨a, out⟩ | e | _ | _ | _
  · rw [hr] at hrun
    rcases out with c | _ | ⟨b, ok'⟩
    · cases hrun
    · cases hrun
    · obtain ⟨_, s1, h1, h2⟩ := (IOM.bind_ok_iff _ _ _ _ _).1 hrun
      rw [IOM.pure_apply] at h2
      cases h2
      refine ⟨a, b, rfl, ?_⟩
      unfold IOM.orPanic at h1
      rcases hs : saveChunk h n b s with ⟨r, s2⟩
      rw [hs] at h1
      rcases r with _ | _ | _ | _ | _ <;> cases h1
      rfl
  all_goals (rw [hr] at hrun; cases hrun)

section
variable {env : Env} {d dl : Path} {c : Cat} {fs : FS}

/-- C44, in full: after a download of chunk `n` that returned, if the chunk was not recorded before and is now, then the bytes handed over have the hash
that a first packet announced. -/
def C44_statement (env : Env) (d dl : Path) : Prop :=
  ∀ (c : Cat) (fs : FS) (h : Sha1Hash) (n : UInt16) (queue : List (Option Bytes)) (out : DLOut) (s' : St) (e e' : Export),
    CleanReach env d dl (.running c fs) → observe c fs h = .ok e → ¬ e.saved n.toNat → ¬ CatFile d e.filePath →
    downloadChunk env h n queue ⟨c, fs, []⟩ = (.ok out, s') → observe s'.cat s'.fs h = .ok e' → e'.saved n.toNat →
    ∃ x b, some x ∈ queue ∧ dgOffset x = 0 ∧ ChunkOnDisk s'.fs e n.toNat b ∧ b.length = dgSize x ∧ (env.sha1 b).1 = dgHash x

/-- C44, what holds, under any faults: when the client does not print the mismatch warning, the bytes recorded have the announced hash and length, and are on
disk; when the connection times out nothing changes; and no other file or record is touched. -/
theorem C44_partial (hh : Healthy env d) (hreach : Reach env d dl (.running c fs)) (h : Sha1Hash) (n : UInt16) (queue : List (Option Bytes)) (fl : List Fault)
    (out : DLOut) (s' : St) (hsafe : ∀ data, (Op.save h n data).Safe d c) (hrun : downloadChunk env h n queue ⟨c, fs, fl⟩ = (.ok out, s')) :
    (∀ ok, out = .saved ok → ∃ x b e e', some x ∈ queue ∧ dgOffset x = 0 ∧ b.length = dgSize x ∧ (ok = true ↔ (env.sha1 b).1 = dgHash x) ∧
      observe c fs h = .ok e ∧ observe s'.cat s'.fs h = .ok e' ∧ e'.filePath = e.filePath ∧ ChunkOnDisk s'.fs e n.toNat b ∧
      (∀ i, i < 2 ^ 63 → (e'.saved i ↔ e.saved i ∨ i = n.toNat)) ∧
      (∀ q, q ≠ e.filePath → q ≠ progressPath d h → s'.fs q = fs q)) ∧
    ((∀ ok, out ≠ .saved ok) → s'.cat = c ∧ s'.fs = fs) := by
  constructor
  · rintro ok rfl
    obtain ⟨acks, b, h1, h2⟩ := downloadChunk_saved env h n queue _ s' ok hrun
    obtain ⟨x, hx, g1, g2, g3⟩ := recvLoop_from env.sha1 queue .fresh [] acks b ok (fun _ h => by cases h) h1
    obtain ⟨e, e', k1, k2, k3, k4, k5, k6, k7⟩ := saveChunk_effect hh hreach h n b fl (hsafe b) s' h2
    refine ⟨x, b, e, e', by simpa using hx, g1, g2, g3, k1, k2, by rw [k3], ?_, k5, k7⟩
    have hcs : ((n.toNat : Int) * e.chunkSize).toNat = n.toNat * e.chunkSize.toNat := by
      rcases Int.le_total 0 e.chunkSize with hc | hc
      · obtain ⟨m, hm⟩ := Int.eq_ofNat_of_zero_le hc
        rw [hm]
        exact Int.toNat_natCast (n.toNat * m)
      · rw [Int.toNat_of_nonpos (Int.mul_nonpos_of_nonneg_of_nonpos (by omega) hc), Int.toNat_of_nonpos hc]; rfl
    refine ⟨_, k6, ?_⟩
    rw [hcs]
    exact overlay_read _ _ _
  · intro hno
    rw [downloadChunk_eq] at hrun
    rcases hr : recvLoop env.sha1 .fresh queue with ⟨a, o⟩ | e | _ | _ | _
    · rw [hr] at hrun
      rcases o with _ | _ | ⟨b, ok'⟩
      · cases hrun; exact ⟨rfl, rfl⟩
      · cases hrun; exact ⟨rfl, rfl⟩
      · obtain ⟨_, s1, h1, h2⟩ := (IOM.bind_ok_iff _ _ _ _ _).1 hrun
        rw [IOM.pure_apply] at h2
        cases h2
        exact absurd rfl (hno ok')
    all_goals (rw [hr] at hrun; cases hrun)

/-- C44: losing data packets is enough.  If a byte of the chunk that is not zero is carried by no packet that arrives, the end marker still makes the receiver
record the chunk as downloaded, and its bytes on disk are not the chunk's. -/
theorem C44_loss (hh : Healthy env d) (hclean : Reach env d dl (.running c fs)) (h : Sha1Hash) (n : UInt16) (e : Export) (ho : observe c fs h = .ok e)
    (hpath : ¬ CatFile d e.filePath) (B : Bytes) (k : Nat) (f m : Packet) (ps : List Packet)
    (hB : B.length < 2 ^ 32) (hk : k ≤ 1000) (hf : IsFirst B (env.sha1 B) k f) (hp : ∀ p ∈ ps, IsPiece B p) (hm : IsEndPacket m)
    (i : Nat) (b : UInt8) (hb : B[i]? = some b) (hb0 : b ≠ 0) (hlost : carried k ps i = false) :
    ∃ ok s' e', downloadChunk env h n ((f :: ps ++ [m]).map (fun p => some p.bytes)) ⟨c, fs, []⟩ = (.ok (.saved ok), s') ∧
      observe s'.cat s'.fs h = .ok e' ∧ e'.saved n.toNat ∧ ¬ ChunkOnDisk s'.fs e n.toNat B := by
  have hr := C43_assembled env.sha1 B (env.sha1 B) k f m ps [] hB hk hf hp hm
  have hq : (f :: ps ++ [m]).map (fun p => some p.bytes) = (f :: ps).map (fun p => some p.bytes) ++ some m.bytes :: [] := by simp
  rw [hq]
  obtain ⟨s', hs⟩ := saveChunk_total hh hclean h n (withHoles B k ps) e ho
  have hrun : downloadChunk env h n ((f :: ps).map (fun p => some p.bytes) ++ some m.bytes :: []) ⟨c, fs, []⟩ =
      (.ok (.saved (decide (env.sha1 (withHoles B k ps) = env.sha1 B))), s') := by
    rw [downloadChunk_eq, hr]
    simp only []
    rw [IOM.bind_apply]
    unfold IOM.orPanic
    rw [hs]
    rfl
  have hsafe : (Op.save h n (withHoles B k ps)).Safe d c := by
    intro p hp
    rw [observe_path hh hclean h e ho] at hp
    cases hp; exact hpath
  obtain ⟨e0, e', k1, k2, k3, k4, k5, k6, k7⟩ := saveChunk_effect hh hclean h n _ [] hsafe s' hs
  rw [ho] at k1; cases k1
  refine ⟨_, s', e', hrun, k2, (k5 _ (by have := n.toNat_lt; omega)).2 (.inr rfl), ?_⟩
  rintro ⟨content, g1, g2⟩
  have hcs : ((n.toNat : Int) * e.chunkSize).toNat = n.toNat * e.chunkSize.toNat := by
    rcases Int.le_total 0 e.chunkSize with hc | hc
    · obtain ⟨m, hm⟩ := Int.eq_ofNat_of_zero_le hc
      rw [hm]
      exact Int.toNat_natCast (n.toNat * m)
    · rw [Int.toNat_of_nonpos (Int.mul_nonpos_of_nonneg_of_nonpos (by omega) hc), Int.toNat_of_nonpos hc]; rfl
  rw [k6] at g1
  cases g1
  have h2 := overlay_read ((fs e.filePath).getD []) (n.toNat * e.chunkSize.toNat) (withHoles B k ps)
  rw [withHoles_length, ← hcs] at h2
  rw [← hcs] at g2
  rw [g2] at h2
  have h3 := withHoles_get B k ps i
  rw [← h2, hb, hlost] at h3
  simp at h3
  exact hb0 h3

end

/-- C44 is false, for every hash function under which the two bytes 1 2 and the two bytes 1 0 differ (as they do under SHA-1): of the first chunk of a fresh
download the last packet is lost, and the chunk is recorded. -/
theorem C44_refuted (sha1 : Bytes → Sha1Hash) (json : JsonCodec) (hsha : sha1 [1, 0] ≠ sha1 [1, 2]) : ¬ C44_statement (exEnv sha1 json) exDir exDown := by
  intro hall
  obtain ⟨c, fs, e, s1, h1, h2, h3, h4, h5, h6, h7, h8, h9⟩ := ex_registered sha1 json Sha1Hash.zero
  have hB : IsFirst [1, 2] (sha1 [1, 2]) 1 ⟨0, (sha1 [1, 2]).1 ++ put32 2 ++ [1]⟩ := ⟨rfl, rfl⟩
  have hend : IsEndPacket ⟨2, []⟩ := ⟨by decide, rfl⟩
  obtain ⟨ok, s', e', g1, g2, g3, -⟩ := C44_loss (ex_healthy sha1 json) h9.reach Sha1Hash.zero 0 e h7 h6 [1, 2] 1 _ _ [] (by decide) (by decide)
    hB (by simp) hend 1 2 rfl (by decide) (by decide)
  have hns : ¬ e.saved (0 : UInt16).toNat := by
    obtain ⟨-, ⟨b, g1, g2, g3, g4, g5⟩, -⟩ := C29_register (ex_healthy sha1 json) h1.reach 5 2 Sha1Hash.zero [120] [] e s1 (by decide) (by decide) h2
    intro hs
    have h5 := g5 0 (by decide)
    unfold Export.saved at hs
    rw [g1] at hs
    rw [show (0 : UInt16).toNat = 0 from rfl] at hs
    rw [h5] at hs
    cases hs
  obtain ⟨x, b, k1, k2, k3, k4, k5⟩ := hall _ _ _ _ _ _ _ e e' h9 h7 hns h6 g1 g2 g3
  have hr := C43_assembled sha1 [1, 2] (sha1 [1, 2]) 1 _ _ [] [] (by decide) (by decide) hB (by simp) hend
  obtain ⟨acks, b', m1, m2⟩ := downloadChunk_saved _ _ _ _ _ _ _ g1
  have hq : ((⟨0, (sha1 [1, 2]).1 ++ put32 2 ++ [1]⟩ :: [] ++ [⟨2, []⟩] : List Packet).map (fun p => some p.bytes)) =
      ([⟨0, (sha1 [1, 2]).1 ++ put32 2 ++ [1]⟩] : List Packet).map (fun p => some p.bytes) ++ some (⟨2, []⟩ : Packet).bytes :: [] := rfl
  rw [hq] at m1 k1
  rw [show (exEnv sha1 json).sha1 = sha1 from rfl] at m1 k5
  rw [hr] at m1
  have hx : x = (⟨0, (sha1 [1, 2]).1 ++ put32 2 ++ [1]⟩ : Packet).bytes := by
    simp only [List.map_cons, List.map_nil, List.cons_append, List.nil_append, List.mem_cons, Option.some.injEq, List.not_mem_nil, or_false] at k1
    rcases k1 with rfl | rfl
    · rfl
    · exact absurd k2 (by decide)
  have hb' : b' = [1, 0] := by cases m1; decide
  subst hb'
  have hl := (sha1 [1, 2]).2
  have hxe : x = ([5, 0, 0, 0, 0] ++ (sha1 [1, 2]).1) ++ [0, 0, 0, 2, 1] := by
    rw [hx]
    simp [Packet.bytes, Msg.serialize, put32, beBytes]
  have hsz : dgSize x = 2 := by
    unfold dgSize
    rw [hxe, List.drop_left' (by simp [hl])]
    decide
  have hhash : dgHash x = (sha1 [1, 2]).1 := by
    unfold dgHash
    rw [hxe, List.append_assoc]
    show ((sha1 [1, 2]).1 ++ [0, 0, 0, 2, 1]).take 20 = _
    rw [List.take_left' hl]
  obtain ⟨e0, e1, n1, n2, n3, n4, n5, n6, n7⟩ := saveChunk_effect (ex_healthy sha1 json) h9.reach _ _ _ [] (by
    intro p hp
    rw [observe_path (ex_healthy sha1 json) h9.reach _ e h7] at hp
    cases hp; exact h6) s' m2
  rw [h7] at n1; cases n1
  obtain ⟨content, q1, q2⟩ := k3
  rw [n6] at q1
  cases q1
  have q3 := overlay_read ((s1.fs e.filePath).getD []) ((0 : UInt16).toNat * e.chunkSize.toNat) [1, 0]
  have q4 : (((0 : UInt16).toNat : Int) * e.chunkSize).toNat = (0 : UInt16).toNat * e.chunkSize.toNat := by
    rw [show (0 : UInt16).toNat = 0 from rfl]; simp
  rw [q4, k4, hsz] at q2
  have : b = [1, 0] := q2.symm.trans q3
  rw [hhash, this] at k5
  exact hsha (Subtype.ext k5)

/-- `C44_partial`, `C44_loss`: `C44_refuted` builds a case; here is the same case for the partial statement. -/
example (sha1 : Bytes → Sha1Hash) (json : JsonCodec) : ∃ c fs s', Reach (exEnv sha1 json) exDir exDown (.running c fs) ∧
    (∀ data, (Op.save Sha1Hash.zero 0 data).Safe exDir c) ∧
    downloadChunk (exEnv sha1 json) Sha1Hash.zero 0
      (([⟨0, (sha1 [1, 2]).1 ++ put32 2 ++ [1]⟩, ⟨1, [2]⟩] : List Packet).map (fun p => some p.bytes) ++ some (⟨2, []⟩ : Packet).bytes :: []) ⟨c, fs, []⟩ =
      (.ok (.saved true), s') := by
  obtain ⟨c, fs, e, s1, h1, h2, h3, h4, h5, h6, h7, h8, h9⟩ := ex_registered sha1 json Sha1Hash.zero
  have hr := C43_delivers sha1 [1, 2] (sha1 [1, 2]) 1 ⟨0, (sha1 [1, 2]).1 ++ put32 2 ++ [1]⟩ ⟨2, []⟩ [⟨1, [2]⟩] [] (by decide) (by decide) ⟨rfl, rfl⟩
    (by
      intro p hp
      simp only [List.mem_cons, List.not_mem_nil, or_false] at hp
      subst hp
      exact ⟨by decide, by decide, by decide, by decide, by decide⟩) ⟨by decide, rfl⟩
    (fun i h1 h2 => ⟨⟨1, [2]⟩, by simp, h1, h2⟩)
  obtain ⟨s', hs⟩ := saveChunk_total (ex_healthy sha1 json) h9.reach Sha1Hash.zero 0 [1, 2] e h7
  refine ⟨s1.cat, s1.fs, s', h9.reach, ?_, ?_⟩
  · intro data p hp
    rw [observe_path (ex_healthy sha1 json) h9.reach _ e h7] at hp
    cases hp; exact h6
  · rw [downloadChunk_eq, show (exEnv sha1 json).sha1 = sha1 from rfl, hr]
    simp only []
    rw [IOM.bind_apply]
    unfold IOM.orPanic
    rw [hs]
    simp [IOM.pure_apply]

end Flu
