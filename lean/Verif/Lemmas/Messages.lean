import Verif.Model.Messages
import Verif.Lemmas.Bytes
import Verif.Props.Sha1

namespace Flu
open BReader

/-- A reader that, wherever `enc` starts inside the slice, consumes exactly `enc` and yields `v`. -/
def Decodes (r : Slice → RM α) (enc : Bytes) (v : α) : Prop :=
  ∀ (s : Slice) (i : Nat) (rest : Bytes), s.mem.drop i = enc ++ rest → i ≤ s.mem.length → i + enc.length ≤ s.len →
    r s i = .ok (v, i + enc.length)

theorem decodes_pure (v : α) : Decodes (fun _ => (pure v : RM α)) [] v := by
  intro s i rest _ _ _; rfl

theorem Decodes.bind {r : Slice → RM α} {f : α → Slice → RM β} {e1 e2 : Bytes} {v : α} {w : β}
    (h1 : Decodes r e1 v) (h2 : Decodes (f v) e2 w) : Decodes (fun s => r s >>= fun v => f v s) (e1 ++ e2) w := by
  intro s i rest hd hi hl
  rw [List.append_assoc] at hd
  rw [List.length_append] at hl
  have a := h1 s i (e2 ++ rest) hd hi (by omega)
  have hlen : i + e1.length ≤ s.mem.length := by
    have := congrArg List.length hd
    simp only [List.length_drop, List.length_append] at this; omega
  have hd2 : s.mem.drop (i + e1.length) = e2 ++ rest := by
    rw [← List.drop_drop, hd, List.drop_left]
  have b := h2 s (i + e1.length) rest hd2 hlen (by omega)
  show (r s i >>= fun p => f p.1 s p.2) = _
  rw [a]
  simp only [Res.bind_ok]
  rw [b, List.length_append]; congr 2; omega

theorem Decodes.map {r : Slice → RM α} {e1 : Bytes} {v : α} (g : α → β)
    (h1 : Decodes r e1 v) : Decodes (fun s => r s >>= fun v => pure (g v)) e1 (g v) := by
  have := h1.bind (decodes_pure (g v)) (f := fun v _ => pure (g v))
  simpa using this

theorem decodes_byte (b : UInt8) : Decodes readByte [b] b := by
  intro s i rest hd hi hl
  unfold readByte
  simp only [List.length_cons, List.length_nil] at hl
  rw [if_pos (by omega)]
  have : s.mem[i]? = some b := by
    have h := congrArg (fun l => l[0]?) hd
    simpa using h
  rw [this]; rfl

theorem decodes_bytes (bs : Bytes) : Decodes (fun s => readBytes s bs.length) bs bs := by
  intro s i rest hd hi hl
  unfold readBytes
  have : i + bs.length ≤ s.mem.length := by
    have := congrArg List.length hd
    simp only [List.length_drop, List.length_append] at this; omega
  simp only [if_pos this, hd]; simp

theorem decodes_hash (h : Sha1Hash) : Decodes readSha1Hash h.1 h := by
  have := (decodes_bytes h.1).map (fun bs => Sha1Hash.zero.fromSlice bs)
  rw [h.2] at this
  unfold readSha1Hash
  simp only [Sha1Hash.fromSlice] at this ⊢
  rw [Sha1Hash.copyInto_full _ _ h.2] at this
  exact this

theorem decodes_u16 (v : UInt16) : Decodes readUint16 (put16 v) v := by
  have := (decodes_bytes (put16 v)).map (fun bs => UInt16.ofNat (beNat bs))
  simp only [put16, beBytes_length, beNat_beBytes] at this
  have e : UInt16.ofNat (v.toNat % 256 ^ 2) = v := by
    apply UInt16.toNat_inj.1; have := v.toNat_lt; simp
  rw [e] at this; exact this

theorem decodes_u32 (v : UInt32) : Decodes readUint32 (put32 v) v := by
  have := (decodes_bytes (put32 v)).map (fun bs => UInt32.ofNat (beNat bs))
  simp only [put32, beBytes_length, beNat_beBytes] at this
  have e : UInt32.ofNat (v.toNat % 256 ^ 4) = v := by
    apply UInt32.toNat_inj.1; have := v.toNat_lt; simp
  rw [e] at this; exact this

theorem decodes_u64 (v : UInt64) : Decodes readUint64 (put64 v) v := by
  have := (decodes_bytes (put64 v)).map (fun bs => UInt64.ofNat (beNat bs))
  simp only [put64, beBytes_length, beNat_beBytes] at this
  have e : UInt64.ofNat (v.toNat % 256 ^ 8) = v := by
    apply UInt64.toNat_inj.1; have := v.toNat_lt; simp
  rw [e] at this; exact this

theorem decodes_u16s (vs : List UInt16) : Decodes (fun s => readUint16s s vs.length) (vs.flatMap put16) vs := by
  induction vs with
  | nil => exact decodes_pure []
  | cons v vs ih =>
    have := (decodes_u16 v).bind (f := fun v s => readUint16s s vs.length >>= fun vs => pure (v :: vs))
      (ih.map (fun vs => v :: vs))
    exact this

/-- A reader that consumes a prefix of `enc` only. -/
def DecodesPrefix (r : Slice → RM α) (enc : Bytes) (v : α) : Prop := ∃ e rest, enc = e ++ rest ∧ Decodes r e v

theorem Decodes.toPrefix {r : Slice → RM α} {enc : Bytes} {v : α} (h : Decodes r enc v) : DecodesPrefix r enc v :=
  ⟨enc, [], by simp, h⟩

theorem Decodes.bindPrefix {r : Slice → RM α} {f : α → Slice → RM β} {e1 e2 : Bytes} {v : α} {w : β}
    (h1 : Decodes r e1 v) (h2 : DecodesPrefix (f v) e2 w) :
    DecodesPrefix (fun s => r s >>= fun v => f v s) (e1 ++ e2) w := by
  obtain ⟨e, rest, he, hd⟩ := h2
  exact ⟨e1 ++ e, rest, by rw [he, List.append_assoc], h1.bind hd⟩

theorem DecodesPrefix.map {r : Slice → RM α} {e1 : Bytes} {v : α} (g : α → β)
    (h1 : DecodesPrefix r e1 v) : DecodesPrefix (fun s => r s >>= fun v => pure (g v)) e1 (g v) := by
  obtain ⟨e, rest, he, hd⟩ := h1
  exact ⟨e, rest, he, hd.map g⟩

theorem flatMap_take_prefix (vs : List α) (f : α → Bytes) (n : Nat) :
    ∃ rest, vs.flatMap f = (vs.take n).flatMap f ++ rest :=
  ⟨(vs.drop n).flatMap f, by rw [← List.flatMap_append, List.take_append_drop]⟩

/-- The chunk list as received: the one-byte count keeps the length modulo 256. -/
theorem decodes_chunks (vs : List UInt16) :
    DecodesPrefix readSliceUint16 (serializeChunks vs) (vs.take (vs.length % 256)) := by
  have hl : (vs.take (vs.length % 256)).length = vs.length % 256 := by
    rw [List.length_take]; have := Nat.mod_le vs.length 256; omega
  obtain ⟨rest, hr⟩ := flatMap_take_prefix vs put16 (vs.length % 256)
  have h := decodes_u16s (vs.take (vs.length % 256))
  rw [hl] at h
  unfold serializeChunks
  have := (decodes_byte (UInt8.ofNat vs.length)).bindPrefix (f := fun l s => readUint16s s l.toNat)
    (e2 := vs.flatMap put16) (w := vs.take (vs.length % 256))
    ⟨_, rest, hr, by simpa using h⟩
  exact this

theorem decodes_string (s : GoString) : Decodes readString256 (serializeString255 s) (s.take 255) := by
  unfold serializeString255
  have hl : (UInt8.ofNat (min s.length 255)).toNat = (s.take 255).length := by
    simp; omega
  have := (decodes_byte (UInt8.ofNat (min s.length 255))).bind (f := fun l s => readBytes s l.toNat)
    (e2 := s.take 255) (w := s.take 255) (by rw [hl]; exact decodes_bytes (s.take 255))
  exact this

theorem decodes_entry (e : ListFilesEntry) :
    Decodes readEntry e.serialize { e with fileName := e.fileName.take 255 } := by
  unfold readEntry ListFilesEntry.serialize
  simp only [List.append_assoc]
  refine (decodes_u64 e.sizeInBytes).bind (f := fun a s => _) ?_
  refine (decodes_u32 e.chunkCount).bind (f := fun a s => _) ?_
  refine (decodes_u32 e.chunkSize).bind (f := fun a s => _) ?_
  refine (decodes_u32 e.chunksDownloaded).bind (f := fun a s => _) ?_
  refine (decodes_hash e.hash).bind (f := fun a s => _) ?_
  exact (decodes_string e.fileName).map _

theorem decodes_entries (es : List ListFilesEntry) :
    Decodes (fun s => readEntries s es.length) (es.flatMap ListFilesEntry.serialize)
      (es.map (fun e => { e with fileName := e.fileName.take 255 })) := by
  induction es with
  | nil => exact decodes_pure []
  | cons e es ih =>
    have := (decodes_entry e).bind (f := fun v s => readEntries s es.length >>= fun vs => pure (v :: vs))
      (ih.map (fun vs => _ :: vs))
    exact this

/-- Apply a decoder to a slice that starts with an encoding. -/
theorem DecodesPrefix.run {r : Slice → RM α} {enc : Bytes} {v : α} (h : DecodesPrefix r enc v) (pad : Bytes)
    (len : Nat) (hl : enc.length ≤ len) : ∃ j, r ⟨enc ++ pad, len⟩ 0 = .ok (v, j) := by
  obtain ⟨e, rest, he, hd⟩ := h
  have := hd ⟨enc ++ pad, len⟩ 0 (rest ++ pad) (by simp [he]) (by omega) (by rw [he] at hl; simp at hl ⊢; omega)
  exact ⟨_, this⟩

end Flu
