import Verif.Lemmas.Messages
/-!
# Properties of the wire format (C14–C19)
-/
namespace Flu
open BReader

/-! ## Specification: what a message looks like after the one-byte and two-byte counts have been applied -/
namespace Spec

/-- An entry with its name cut to 255 bytes. -/
def cutEntry (e : ListFilesEntry) : ListFilesEntry := { e with fileName := e.fileName.take 255 }

/-- The message a receiver can recover at all, given that chunk counts are one byte, file counts two bytes and name
lengths one byte. -/
def received : Msg → Msg
  | .discoverReq r h cs => .discoverReq r h (cs.take (cs.length % 256))
  | .discoverResp r a p cs => .discoverResp r a p (cs.take (cs.length % 256))
  | .listResp r fs => .listResp r ((fs.take (fs.length % 65536)).map cutEntry)
  | m => m

/-- The limits under which nothing is lost; data packets are not control messages. -/
def InLimits : Msg → Prop
  | .discoverReq _ _ cs => cs.length ≤ 255
  | .discoverResp _ _ _ cs => cs.length ≤ 255
  | .listResp _ fs => fs.length ≤ 65535 ∧ ∀ e ∈ fs, e.fileName.length ≤ 255
  | .data _ _ => False
  | _ => True

/-- Not a data packet. -/
def IsControl : Msg → Prop
  | .data _ _ => False
  | _ => True

theorem received_of_inLimits (m : Msg) (h : InLimits m) : received m = m := by
  cases m with
  | discoverReq r hh cs =>
    simp only [InLimits] at h
    simp only [received]; rw [List.take_of_length_le (by omega)]
  | discoverResp r a p cs =>
    simp only [InLimits] at h
    simp only [received]; rw [List.take_of_length_le (by omega)]
  | listResp r fs =>
    obtain ⟨h1, h2⟩ := h
    simp only [received]; rw [List.take_of_length_le (by omega)]
    congr 1
    conv => rhs; rw [← List.map_id fs]
    apply List.map_congr_left
    intro e he
    simp only [cutEntry, id_eq]
    rw [List.take_of_length_le (h2 e he)]
  | _ => rfl

theorem InLimits.control {m : Msg} (h : InLimits m) : IsControl m := by
  cases m <;> first | trivial | exact h

end Spec
open Spec

/-- The general decoding fact behind C14, C17, C18. -/
theorem parseM_decodes (m : Msg) (hc : IsControl m) : DecodesPrefix parseM m.serialize (received m) := by
  cases m with
  | discoverReq r h cs =>
    simp only [Msg.serialize, List.append_assoc]
    unfold parseM
    refine (decodes_byte 0).bindPrefix (f := fun a s => _) ?_
    simp only [if_true]
    refine (decodes_u16 r).bindPrefix (f := fun a s => _) ?_
    refine (decodes_hash h).bindPrefix (f := fun a s => _) ?_
    exact (decodes_chunks cs).map _
  | discoverResp r a p cs =>
    simp only [Msg.serialize, List.append_assoc]
    unfold parseM
    refine (decodes_byte 1).bindPrefix (f := fun a s => _) ?_
    simp only [show ¬ (1 : UInt8) = 0 by decide, if_false, if_true]
    refine (decodes_u16 r).bindPrefix (f := fun a s => _) ?_
    have ha := decodes_bytes a.1
    rw [a.2] at ha
    refine ha.bindPrefix (f := fun a s => _) ?_
    refine (decodes_u16 p).bindPrefix (f := fun a s => _) ?_
    simp only [a.2, dif_pos]
    exact (decodes_chunks cs).map (fun c => Msg.discoverResp r a p c)
  | listReq r h =>
    simp only [Msg.serialize, List.append_assoc]
    unfold parseM
    refine (decodes_byte 2).bindPrefix (f := fun a s => _) ?_
    simp only [show ¬ (2 : UInt8) = 0 by decide, show ¬ (2 : UInt8) = 1 by decide, if_false, if_true]
    refine (decodes_u16 r).bindPrefix (f := fun a s => _) ?_
    exact (decodes_hash h).toPrefix.map _
  | listResp r fs =>
    simp only [Msg.serialize, List.append_assoc]
    unfold parseM
    refine (decodes_byte 3).bindPrefix (f := fun a s => _) ?_
    simp only [show ¬ (3 : UInt8) = 0 by decide, show ¬ (3 : UInt8) = 1 by decide, show ¬ (3 : UInt8) = 2 by decide,
      if_false, if_true]
    refine (decodes_u16 r).bindPrefix (f := fun a s => _) ?_
    refine (decodes_u16 (UInt16.ofNat fs.length)).bindPrefix (f := fun a s => _) ?_
    have hl : (fs.take (fs.length % 65536)).length = fs.length % 65536 := by
      rw [List.length_take]; have := Nat.mod_le fs.length 65536; omega
    have h := decodes_entries (fs.take (fs.length % 65536))
    rw [hl] at h
    obtain ⟨rest, hr⟩ := flatMap_take_prefix fs ListFilesEntry.serialize (fs.length % 65536)
    have h2 : DecodesPrefix (fun s => readEntries s (UInt16.ofNat fs.length).toNat)
        (fs.flatMap ListFilesEntry.serialize) ((fs.take (fs.length % 65536)).map cutEntry) :=
      ⟨_, rest, hr, by have e : (UInt16.ofNat fs.length).toNat = fs.length % 65536 := by simp
                       rw [e]; exact h⟩
    exact h2.map _
  | openReq h c w =>
    simp only [Msg.serialize, List.append_assoc]
    unfold parseM
    refine (decodes_byte 4).bindPrefix (f := fun a s => _) ?_
    simp only [show ¬ (4 : UInt8) = 0 by decide, show ¬ (4 : UInt8) = 1 by decide, show ¬ (4 : UInt8) = 2 by decide,
      show ¬ (4 : UInt8) = 3 by decide, if_false, if_true]
    refine (decodes_hash h).bindPrefix (f := fun a s => _) ?_
    refine (decodes_u16 c).bindPrefix (f := fun a s => _) ?_
    exact ⟨_, List.replicate 7 0, rfl, (decodes_u16 w).map _⟩
  | data o d => cases hc
  | ack o =>
    simp only [Msg.serialize]
    unfold parseM
    refine (decodes_byte 6).bindPrefix (f := fun a s => _) ?_
    simp only [show ¬ (6 : UInt8) = 0 by decide, show ¬ (6 : UInt8) = 1 by decide, show ¬ (6 : UInt8) = 2 by decide,
      show ¬ (6 : UInt8) = 3 by decide, show ¬ (6 : UInt8) = 4 by decide, if_false, if_true]
    exact (decodes_u32 o).toPrefix.map _

/-- Any control message, followed by any bytes, in a slice of any capacity, is received as `received m`. -/
theorem parse_received (m : Msg) (hc : IsControl m) (pad : Bytes) (len : Nat) (hl : m.serialize.length ≤ len) :
    parse ⟨m.serialize ++ pad, len⟩ = .ok (received m) := by
  obtain ⟨j, hj⟩ := (parseM_decodes m hc).run pad len hl
  unfold parse
  rw [hj]; rfl

/-! ## C14 -/

/-- C14: within the limits a control message is received unchanged, also when followed by arbitrary padding (a larger
receive buffer) and whatever lies in the slice's spare capacity. -/
theorem C14_roundtrip (m : Msg) (h : InLimits m) (pad spare : Bytes) :
    parse ⟨m.serialize ++ pad ++ spare, (m.serialize ++ pad).length⟩ = .ok m := by
  rw [List.append_assoc, parse_received m h.control (pad ++ spare) _ (by simp), received_of_inLimits m h]

/-- A listing response with an oddly named file meets the limits, and round-trips in a padded buffer. -/
example (h : Sha1Hash) (pad : Bytes) :
    parse (.exact ((Msg.listResp 7 [⟨5, 1, 4194304, 1, h, [0, 255, 47]⟩]).serialize ++ pad)) =
      .ok (.listResp 7 [⟨5, 1, 4194304, 1, h, [0, 255, 47]⟩]) := by
  have := C14_roundtrip (.listResp 7 [⟨5, 1, 4194304, 1, h, [0, 255, 47]⟩]) ⟨by simp, by simp⟩ pad []
  simpa [Slice.exact] using this

/-! ## C15 -/

/-- C15: no encoding of a control message is a prefix of the encoding of a different one. -/
theorem C15_prefix_free (a b : Msg) (ha : InLimits a) (hb : InLimits b) (h : a.serialize <+: b.serialize) : a = b := by
  obtain ⟨rest, hr⟩ := h
  have h1 := C14_roundtrip a ha rest []
  have h2 := C14_roundtrip b hb [] []
  rw [List.append_nil] at h1 h2
  rw [List.append_nil] at h2
  rw [hr, h2] at h1
  injection h1 with h1; exact h1.symm

/-- C15: different control messages have different bytes, even when padded. -/
theorem C15_injective (a b : Msg) (ha : InLimits a) (hb : InLimits b) (h : a.serialize = b.serialize) : a = b :=
  C15_prefix_free a b ha hb (by rw [h]; exact List.prefix_rfl)

/-- C15: the first byte of every encoding is the message's type, and what is parsed has the type that was sent
(also outside the limits). -/
theorem C15_kind (m : Msg) (hc : IsControl m) (pad : Bytes) :
    m.serialize.head? = some m.type ∧
    ∃ m', parse (.exact (m.serialize ++ pad)) = .ok m' ∧ m'.type = m.type := by
  refine ⟨by cases m <;> rfl, received m, ?_, by cases m <;> rfl⟩
  exact parse_received m hc pad _ (by simp)

example : InLimits (.ack 7) ∧ InLimits (.discoverReq 1 Sha1Hash.blank [3, 9]) := ⟨trivial, by simp [InLimits]⟩

/-! ## C16 -/

/-- Specification: the bytes contain `n` complete file entries (40 bytes, a length byte, the name). -/
def Spec.hasEntries : Nat → Bytes → Prop
  | 0, _ => True
  | n + 1, bs => 41 ≤ bs.length ∧ 41 + ((bs[40]?).getD 0).toNat ≤ bs.length ∧
      hasEntries n (bs.drop (41 + ((bs[40]?).getD 0).toNat))

theorem readBytes_eq (s : Slice) (n i : Nat) :
    readBytes s n i = if i + n ≤ s.mem.length then .ok ((s.mem.drop i).take n, i + n) else .panic := rfl

theorem rm_bind (x : RM α) (f : α → RM β) (i : Nat) : (x >>= f) i = (x i >>= fun p => f p.1 p.2) := rfl
theorem rm_pure (a : α) (i : Nat) : (pure a : RM α) i = .ok (a, i) := rfl

theorem readUint16_at (s : Slice) (i : Nat) :
    readUint16 s i = if i + 2 ≤ s.mem.length then .ok (UInt16.ofNat (beNat ((s.mem.drop i).take 2)), i + 2) else .panic := by
  unfold readUint16; rw [rm_bind, readBytes_eq]; split <;> rfl
theorem readUint32_at (s : Slice) (i : Nat) :
    readUint32 s i = if i + 4 ≤ s.mem.length then .ok (UInt32.ofNat (beNat ((s.mem.drop i).take 4)), i + 4) else .panic := by
  unfold readUint32; rw [rm_bind, readBytes_eq]; split <;> rfl
theorem readUint64_at (s : Slice) (i : Nat) :
    readUint64 s i = if i + 8 ≤ s.mem.length then .ok (UInt64.ofNat (beNat ((s.mem.drop i).take 8)), i + 8) else .panic := by
  unfold readUint64; rw [rm_bind, readBytes_eq]; split <;> rfl
theorem readSha1Hash_at (s : Slice) (i : Nat) :
    readSha1Hash s i =
      if i + 20 ≤ s.mem.length then .ok (Sha1Hash.zero.fromSlice ((s.mem.drop i).take 20), i + 20) else .panic := by
  unfold readSha1Hash; rw [rm_bind, readBytes_eq]; split <;> rfl

theorem readByte_at (bs : Bytes) (i : Nat) :
    readByte (.exact bs) i = if i < bs.length then .ok ((bs[i]?).getD 0, i + 1) else .panic := by
  unfold readByte Slice.exact
  by_cases h : i < bs.length
  · simp [h]
  · simp [h]

theorem readUint16s_total (bs : Bytes) (n i : Nat) (h : i + 2 * n ≤ bs.length) :
    ∃ v, readUint16s (.exact bs) n i = .ok (v, i + 2 * n) := by
  induction n generalizing i with
  | zero => exact ⟨[], rfl⟩
  | succ n ih =>
    unfold readUint16s
    have hp : i + 2 ≤ (Slice.exact bs).mem.length := by show i + 2 ≤ bs.length; omega
    rw [rm_bind, readUint16_at, if_pos hp]
    simp only [Res.bind_ok]
    obtain ⟨v, hv⟩ := ih (i + 2) (by omega)
    rw [rm_bind, hv]
    exact ⟨_ :: v, by simp only [Res.bind_ok, rm_pure]; congr 2; omega⟩

theorem readSlice_total (bs : Bytes) (i : Nat) (h : i + 511 ≤ bs.length) :
    ∃ v j, readSliceUint16 (.exact bs) i = .ok (v, j) := by
  unfold readSliceUint16
  rw [rm_bind, readByte_at, if_pos (by omega)]
  simp only [Res.bind_ok]
  have hb := ((bs[i]?).getD 0).toNat_lt
  obtain ⟨v, hv⟩ := readUint16s_total bs ((bs[i]?).getD 0).toNat (i + 1) (by omega)
  exact ⟨v, _, hv⟩

theorem readEntry_at (bs : Bytes) (i : Nat) :
    (i + 41 ≤ bs.length ∧ i + 41 + ((bs[i + 40]?).getD 0).toNat ≤ bs.length ∧
      ∃ e, readEntry (.exact bs) i = .ok (e, i + 41 + ((bs[i + 40]?).getD 0).toNat)) ∨
    (¬ (i + 41 ≤ bs.length ∧ i + 41 + ((bs[i + 40]?).getD 0).toNat ≤ bs.length) ∧
      readEntry (.exact bs) i = .panic) := by
  unfold readEntry
  simp only [rm_bind, readUint64_at, readUint32_at, readSha1Hash_at, Slice.exact]
  by_cases h1 : i + 8 ≤ bs.length
  · rw [if_pos h1]; simp only [Res.bind_ok]
    by_cases h2 : i + 8 + 4 ≤ bs.length
    · rw [if_pos h2]; simp only [Res.bind_ok]
      by_cases h3 : i + 8 + 4 + 4 ≤ bs.length
      · rw [if_pos h3]; simp only [Res.bind_ok]
        by_cases h4 : i + 8 + 4 + 4 + 4 ≤ bs.length
        · rw [if_pos h4]; simp only [Res.bind_ok]
          by_cases h5 : i + 8 + 4 + 4 + 4 + 20 ≤ bs.length
          · rw [if_pos h5]; simp only [Res.bind_ok]
            unfold readString256
            rw [rm_bind]
            have hb := readByte_at bs (i + 8 + 4 + 4 + 4 + 20)
            simp only [Slice.exact] at hb
            rw [hb]
            have hidx : i + 8 + 4 + 4 + 4 + 20 = i + 40 := by omega
            rw [hidx]
            by_cases h6 : i + 40 < bs.length
            · rw [if_pos h6]; simp only [Res.bind_ok, readBytes_eq]
              by_cases h7 : i + 40 + 1 + ((bs[i + 40]?).getD 0).toNat ≤ bs.length
              · rw [if_pos h7]; simp only [Res.bind_ok, rm_pure]
                left
                exact ⟨by omega, by omega, _, rfl⟩
              · rw [if_neg h7]; right; exact ⟨by omega, rfl⟩
            · rw [if_neg h6]; right; exact ⟨by omega, rfl⟩
          · rw [if_neg h5]; right; exact ⟨by omega, rfl⟩
        · rw [if_neg h4]; right; exact ⟨by omega, rfl⟩
      · rw [if_neg h3]; right; exact ⟨by omega, rfl⟩
    · rw [if_neg h2]; right; exact ⟨by omega, rfl⟩
  · rw [if_neg h1]; right; exact ⟨by omega, rfl⟩

theorem readEntries_at (bs : Bytes) (n i : Nat) (hi : i ≤ bs.length) :
    (hasEntries n (bs.drop i) ∧ ∃ es j, readEntries (.exact bs) n i = .ok (es, j)) ∨
    (¬ hasEntries n (bs.drop i) ∧ readEntries (.exact bs) n i = .panic) := by
  induction n generalizing i with
  | zero => left; exact ⟨trivial, [], i, rfl⟩
  | succ n ih =>
    unfold readEntries hasEntries
    rw [rm_bind]
    have hx : ((bs.drop i)[40]?).getD 0 = ((bs[i + 40]?).getD 0) := by rw [List.getElem?_drop]
    rw [hx, List.length_drop, List.drop_drop]
    rcases readEntry_at bs i with ⟨h1, h2, e, he⟩ | ⟨h1, he⟩
    · rw [he]; simp only [Res.bind_ok]
      have := ih (i + 41 + ((bs[i + 40]?).getD 0).toNat) h2
      rw [show i + (41 + ((bs[i + 40]?).getD 0).toNat) = i + 41 + ((bs[i + 40]?).getD 0).toNat by omega]
      rcases this with ⟨g1, es, j, g2⟩ | ⟨g1, g2⟩
      · left
        refine ⟨⟨by omega, by omega, g1⟩, e :: es, j, ?_⟩
        rw [rm_bind, g2]; rfl
      · right
        refine ⟨fun h => g1 h.2.2, ?_⟩
        rw [rm_bind, g2]; rfl
    · rw [he]
      right
      exact ⟨fun h => h1 ⟨by omega, by omega⟩, rfl⟩

theorem parse_cases (bs : Bytes) (hl : bs.length = 1024) :
    ((bs[0]? = some 3 → hasEntries (beNat ((bs.drop 3).take 2)) (bs.drop 5)) ∧ ∃ m, parse (.exact bs) = .ok m ∧ ∀ t, bs[0]? = some t → t ∈ [0, 1, 2, 3, 4, 6]) ∨
    (∃ t, bs[0]? = some t ∧ t ∉ [0, 1, 2, 3, 4, 6] ∧ parse (.exact bs) = .err (.unknownType t)) ∨
    (bs[0]? = some 3 ∧ ¬ hasEntries (beNat ((bs.drop 3).take 2)) (bs.drop 5) ∧ parse (.exact bs) = .panic) := by
  have hz : bs[0]? = some ((bs[0]?).getD 0) := by rw [List.getElem?_eq_getElem (by omega)]; rfl
  generalize ht : (bs[0]?).getD 0 = t at hz
  have hrb : readByte (.exact bs) 0 = .ok (t, 1) := by rw [readByte_at, if_pos (by omega), ht]
  have kt : ∀ {u : UInt8}, t = u → u ∈ [0, 1, 2, 3, 4, 6] → ∀ t', bs[0]? = some t' → t' ∈ [0, 1, 2, 3, 4, 6] := by
    intro u hu hm t' h'
    rw [hz] at h'; injection h' with h'
    subst h'; subst hu; exact hm
  have nt : ∀ {u : UInt8}, t = u → u ≠ 3 → (bs[0]? = some 3 → hasEntries (beNat ((bs.drop 3).take 2)) (bs.drop 5)) := by
    intro u hu hne h3
    rw [hz] at h3; injection h3 with h3
    exact absurd (hu.symm.trans h3) hne
  unfold parse parseM
  rw [rm_bind, hrb]
  simp only [Res.bind_ok]
  by_cases h0 : t = 0
  · left
    rw [if_pos h0]
    simp only [rm_bind, readUint16_at, readSha1Hash_at, Slice.exact, hl]
    simp only [show 1 + 2 ≤ 1024 by omega, show 1 + 2 + 20 ≤ 1024 by omega, if_true, Res.bind_ok]
    obtain ⟨v, j, hv⟩ := readSlice_total bs (1 + 2 + 20) (by omega)
    simp only [Slice.exact, hl] at hv
    rw [hv]; exact ⟨nt (by assumption) (by decide), _, rfl, kt (by assumption) (by decide)⟩
  · rw [if_neg h0]
    by_cases h1 : t = 1
    · left
      rw [if_pos h1]
      simp only [rm_bind, readUint16_at, readBytes_eq, Slice.exact, hl]
      simp only [show 1 + 2 ≤ 1024 by omega, show 1 + 2 + 4 ≤ 1024 by omega, show 1 + 2 + 4 + 2 ≤ 1024 by omega, if_true,
        Res.bind_ok]
      obtain ⟨v, j, hv⟩ := readSlice_total bs (1 + 2 + 4 + 2) (by omega)
      simp only [Slice.exact, hl] at hv
      rw [hv]
      simp only [Res.bind_ok]
      rw [dif_pos (by simp; omega)]
      exact ⟨nt (by assumption) (by decide), _, rfl, kt (by assumption) (by decide)⟩
    · rw [if_neg h1]
      by_cases h2 : t = 2
      · left
        rw [if_pos h2]
        simp only [rm_bind, readUint16_at, readSha1Hash_at, Slice.exact, hl]
        simp only [show 1 + 2 ≤ 1024 by omega, show 1 + 2 + 20 ≤ 1024 by omega, if_true, Res.bind_ok]
        exact ⟨nt (by assumption) (by decide), _, rfl, kt (by assumption) (by decide)⟩
      · rw [if_neg h2]
        by_cases h3 : t = 3
        · rw [if_pos h3]
          simp only [rm_bind, readUint16_at]
          simp only [Slice.exact, hl]
          simp only [show 1 + 2 ≤ 1024 by omega, show 1 + 2 + 2 ≤ 1024 by omega, if_true, Res.bind_ok]
          have hcount : (UInt16.ofNat (beNat ((bs.drop (1 + 2)).take 2))).toNat = beNat ((bs.drop 3).take 2) := by
            have := beNat_lt ((bs.drop 3).take 2)
            have h2 : ((bs.drop 3).take 2).length = 2 := by simp; omega
            rw [h2] at this
            simp only [UInt16.toNat_ofNat', show 1 + 2 = 3 by omega]
            omega
          rw [hcount]
          have := readEntries_at bs (beNat ((bs.drop 3).take 2)) 5 (by omega)
          simp only [Slice.exact, hl] at this
          rcases this with ⟨g0, es, j, g⟩ | ⟨g1, g2⟩
          · left; rw [show 1 + 2 + 2 = 5 by omega, g]; exact ⟨fun _ => g0, _, rfl, kt (by assumption) (by decide)⟩
          · right; right
            refine ⟨by rw [hz, h3], g1, ?_⟩
            rw [show 1 + 2 + 2 = 5 by omega, g2]; rfl
        · rw [if_neg h3]
          by_cases h4 : t = 4
          · left
            rw [if_pos h4]
            simp only [rm_bind, readUint16_at, readSha1Hash_at, Slice.exact, hl]
            simp only [show 1 + 20 ≤ 1024 by omega, show 1 + 20 + 2 ≤ 1024 by omega, show 1 + 20 + 2 + 2 ≤ 1024 by omega,
              if_true, Res.bind_ok]
            exact ⟨nt (by assumption) (by decide), _, rfl, kt (by assumption) (by decide)⟩
          · rw [if_neg h4]
            by_cases h6 : t = 6
            · left
              rw [if_pos h6]
              simp only [rm_bind, readUint32_at, Slice.exact, hl]
              simp only [show 1 + 4 ≤ 1024 by omega, if_true, Res.bind_ok]
              exact ⟨nt (by assumption) (by decide), _, rfl, kt (by assumption) (by decide)⟩
            · rw [if_neg h6]
              right; left
              exact ⟨t, hz, by simp [h0, h1, h2, h3, h4, h6], rfl⟩

/-- C16: a message is of the kind its first byte says, one of the six kinds the daemon handles. -/
theorem C16_kind (bs : Bytes) (hl : bs.length = 1024) (m : Msg) (h : parse (.exact bs) = .ok m) : bs[0]? = some m.type ∧ m.type ∈ [0, 1, 2, 3, 4, 6] := by
  have hz : bs[0]? = some ((bs[0]?).getD 0) := by rw [List.getElem?_eq_getElem (by omega)]; rfl
  generalize ht : (bs[0]?).getD 0 = t at hz
  have hrb : readByte (.exact bs) 0 = .ok (t, 1) := by rw [readByte_at, if_pos (by omega), ht]
  rw [hz]
  unfold parse at h
  obtain ⟨⟨m', j⟩, h, h'⟩ := (Res.bind_ok_iff _ _ _).1 h
  cases h'
  unfold parseM at h
  rw [rm_bind, hrb, Res.bind_ok] at h
  simp only at h
  have inv : ∀ {α : Type} (x : RM α) (f : α → RM Msg) (i : Nat) (y : Msg × Nat), (x >>= f) i = .ok y → ∃ a k, f a k = .ok y := by
    intro α x f i y hy
    rw [rm_bind] at hy
    obtain ⟨⟨a, k⟩, -, hy⟩ := (Res.bind_ok_iff _ _ _).1 hy
    exact ⟨a, k, hy⟩
  by_cases h0 : t = 0
  · rw [if_pos h0] at h
    obtain ⟨a1, k1, h⟩ := inv _ _ _ _ h
    obtain ⟨a2, k2, h⟩ := inv _ _ _ _ h
    obtain ⟨a3, k3, h⟩ := inv _ _ _ _ h
    cases h; subst h0; exact ⟨rfl, by simp [Msg.type]⟩
  rw [if_neg h0] at h
  by_cases h1 : t = 1
  · rw [if_pos h1] at h
    obtain ⟨a1, k1, h⟩ := inv _ _ _ _ h
    obtain ⟨a2, k2, h⟩ := inv _ _ _ _ h
    obtain ⟨a3, k3, h⟩ := inv _ _ _ _ h
    obtain ⟨a4, k4, h⟩ := inv _ _ _ _ h
    split at h
    · cases h; subst h1; exact ⟨rfl, by simp [Msg.type]⟩
    · cases h
  rw [if_neg h1] at h
  by_cases h2 : t = 2
  · rw [if_pos h2] at h
    obtain ⟨a1, k1, h⟩ := inv _ _ _ _ h
    obtain ⟨a2, k2, h⟩ := inv _ _ _ _ h
    cases h; subst h2; exact ⟨rfl, by simp [Msg.type]⟩
  rw [if_neg h2] at h
  by_cases h3 : t = 3
  · rw [if_pos h3] at h
    obtain ⟨a1, k1, h⟩ := inv _ _ _ _ h
    obtain ⟨a2, k2, h⟩ := inv _ _ _ _ h
    obtain ⟨a3, k3, h⟩ := inv _ _ _ _ h
    cases h; subst h3; exact ⟨rfl, by simp [Msg.type]⟩
  rw [if_neg h3] at h
  by_cases h4 : t = 4
  · rw [if_pos h4] at h
    obtain ⟨a1, k1, h⟩ := inv _ _ _ _ h
    obtain ⟨a2, k2, h⟩ := inv _ _ _ _ h
    obtain ⟨a3, k3, h⟩ := inv _ _ _ _ h
    cases h; subst h4; exact ⟨rfl, by simp [Msg.type]⟩
  rw [if_neg h4] at h
  by_cases h6 : t = 6
  · rw [if_pos h6] at h
    obtain ⟨a1, k1, h⟩ := inv _ _ _ _ h
    cases h; subst h6; exact ⟨rfl, by simp [Msg.type]⟩
  rw [if_neg h6] at h
  cases h

/-- C16: on every possible 1024-byte receive buffer `Parse` returns a message, or the unknown-type error for a first byte
that is not a message type, or panics; and it panics exactly on a listing response whose announced entries run past
the end of the buffer. -/
theorem C16_total (bs : Bytes) (hl : bs.length = 1024) :
    ((∃ m, parse (.exact bs) = .ok m) ∨ (∃ t, bs[0]? = some t ∧ parse (.exact bs) = .err (.unknownType t)) ∨
      parse (.exact bs) = .panic) ∧
    (parse (.exact bs) = .panic ↔ bs[0]? = some 3 ∧ ¬ hasEntries (beNat ((bs.drop 3).take 2)) (bs.drop 5)) ∧
    (∀ t, parse (.exact bs) = .err (.unknownType t) ↔ bs[0]? = some t ∧ t ∉ [0, 1, 2, 3, 4, 6]) := by
  have hz : bs[0]? ≠ none := by rw [List.getElem?_eq_getElem (by omega)]; simp
  rcases parse_cases bs hl with ⟨h1, m, hm, hty⟩ | ⟨t, h1, h2, h3⟩ | ⟨h1, h2, h3⟩
  · refine ⟨.inl ⟨m, hm⟩, ?_, ?_⟩
    · rw [hm]; exact ⟨(by intro h; cases h), fun ⟨a, b⟩ => absurd (h1 a) b⟩
    · intro t; rw [hm]; exact ⟨(by intro h; cases h), fun ⟨a, b⟩ => absurd (hty t a) b⟩
  · refine ⟨.inr (.inl ⟨t, h1, h3⟩), ?_, ?_⟩
    · rw [h3, h1]
      refine ⟨(by intro h; cases h), fun ⟨a, _⟩ => ?_⟩
      injection a with a; subst a; simp at h2
    · intro u; rw [h3, h1]
      constructor
      · intro h; injection h with h; injection h with h; subst h; exact ⟨rfl, h2⟩
      · rintro ⟨a, _⟩; injection a with a; rw [a]
  · refine ⟨.inr (.inr h3), ?_, ?_⟩
    · rw [h3]; exact ⟨fun _ => ⟨h1, h2⟩, fun _ => rfl⟩
    · intro t; rw [h3, h1]
      refine ⟨(by intro h; cases h), fun ⟨a, b⟩ => ?_⟩
      injection a with a; subst a; simp at b

/-- C16: the panic really occurs: any buffer that announces four or more entries and is filled with 0xFF. -/
theorem C16_panic_occurs : ∃ bs : Bytes, bs.length = 1024 ∧ parse (.exact bs) = .panic := by
  obtain ⟨k, hk⟩ : ∃ k, k = 1019 := ⟨_, rfl⟩
  have hl : ([3, 0, 0, 255, 255] ++ List.replicate k 255 : Bytes).length = 1024 := by
    rw [List.length_append, List.length_replicate, hk]; rfl
  refine ⟨_, hl, (C16_total _ hl).2.1.2 ⟨by simp, ?_⟩⟩
  have hc : beNat ((([3, 0, 0, 255, 255] ++ List.replicate k 255 : Bytes).drop 3).take 2) = 65535 := by simp [beNat]
  have hd : ([3, 0, 0, 255, 255] ++ List.replicate k 255 : Bytes).drop 5 = List.replicate k 255 := by simp
  rw [hc, hd]
  have step : ∀ n k, hasEntries (n + 1) (List.replicate k (255 : UInt8)) →
      296 ≤ k ∧ hasEntries n (List.replicate (k - 296) (255 : UInt8)) := by
    intro n k hg
    simp only [hasEntries, List.length_replicate, List.drop_replicate] at hg
    obtain ⟨h1, h2, h3⟩ := hg
    have : ((List.replicate k (255 : UInt8))[40]?).getD 0 = 255 := by
      rw [List.getElem?_replicate, if_pos (by omega)]; rfl
    rw [this] at h2 h3
    have e : (255 : UInt8).toNat = 255 := rfl
    rw [e] at h2 h3
    exact ⟨by omega, h3⟩
  intro hg
  obtain ⟨a1, b1⟩ := step _ _ hg
  obtain ⟨a2, b2⟩ := step _ _ b1
  obtain ⟨a3, b3⟩ := step _ _ b2
  obtain ⟨a4, b4⟩ := step _ _ b3
  omega

/-! ## C17 -/

/-- C17 in full: every chunk list survives the wire (in a request and in a response). -/
def C17_statement : Prop := ∀ (r : UInt16) (h : Sha1Hash) (a : ByteArr 4) (p : UInt16) (cs : List UInt16) (pad : Bytes),
  parse (.exact ((Msg.discoverReq r h cs).serialize ++ pad)) = .ok (.discoverReq r h cs) ∧
  parse (.exact ((Msg.discoverResp r a p cs).serialize ++ pad)) = .ok (.discoverResp r a p cs)

/-- What arrives, for lists of every length: the first `length mod 256` entries. -/
theorem C17_received (r : UInt16) (h : Sha1Hash) (a : ByteArr 4) (p : UInt16) (cs : List UInt16) (pad : Bytes) :
    parse (.exact ((Msg.discoverReq r h cs).serialize ++ pad)) = .ok (.discoverReq r h (cs.take (cs.length % 256))) ∧
    parse (.exact ((Msg.discoverResp r a p cs).serialize ++ pad)) =
      .ok (.discoverResp r a p (cs.take (cs.length % 256))) :=
  ⟨parse_received (.discoverReq r h cs) trivial pad _ (by simp), parse_received (.discoverResp r a p cs) trivial pad _ (by simp)⟩

/-- C17 exactly as far as it is true: the list arrives intact if and only if it has at most 255 entries.
Missing: longer lists, which are truncated. -/
theorem C17_chunks_partial (r : UInt16) (h : Sha1Hash) (a : ByteArr 4) (p : UInt16) (cs : List UInt16) (pad : Bytes) :
    (parse (.exact ((Msg.discoverReq r h cs).serialize ++ pad)) = .ok (.discoverReq r h cs) ↔ cs.length ≤ 255) ∧
    (parse (.exact ((Msg.discoverResp r a p cs).serialize ++ pad)) = .ok (.discoverResp r a p cs) ↔ cs.length ≤ 255) := by
  obtain ⟨h1, h2⟩ := C17_received r h a p cs pad
  rw [h1, h2]
  have key : cs.take (cs.length % 256) = cs ↔ cs.length ≤ 255 := by
    constructor
    · intro e
      have := congrArg List.length e
      rw [List.length_take] at this; omega
    · intro e; rw [List.take_of_length_le (by omega)]
  constructor
  · constructor
    · intro e; injection e with e; injection e with _ _ e; exact key.1 e
    · intro e; rw [key.2 e]
  · constructor
    · intro e; injection e with e; injection e with _ _ _ e; exact key.1 e
    · intro e; rw [key.2 e]

/-- C17: a host holding 128 separate runs (256 entries) appears to hold nothing. -/
theorem C17_empty_at_256 (r : UInt16) (a : ByteArr 4) (p : UInt16) (cs : List UInt16) (pad : Bytes) (h : cs.length = 256) :
    parse (.exact ((Msg.discoverResp r a p cs).serialize ++ pad)) = .ok (.discoverResp r a p []) := by
  rw [(C17_received r Sha1Hash.zero a p cs pad).2, h]; rfl

theorem C17_refuted : ¬ C17_statement := by
  intro h
  obtain ⟨k, hk⟩ : ∃ k, k = 256 := ⟨_, rfl⟩
  have := (h 0 Sha1Hash.zero ⟨[0, 0, 0, 0], rfl⟩ 0 (List.replicate k 1) []).2
  rw [C17_empty_at_256 _ _ _ _ _ (by rw [List.length_replicate, hk])] at this
  injection this with this; injection this with _ _ _ this
  have := congrArg List.length this
  rw [List.length_replicate, List.length_nil] at this; omega

/-! ## C18 -/

/-- C18: a listing arrives entry by entry with names cut to their first 255 bytes and everything else intact, whatever
the names contain (up to 65535 files; the two-byte file count wraps beyond). -/
theorem C18_names (r : UInt16) (fs : List ListFilesEntry) (pad : Bytes) (h : fs.length ≤ 65535) :
    parse (.exact ((Msg.listResp r fs).serialize ++ pad)) =
      .ok (.listResp r (fs.map (fun e => { e with fileName := e.fileName.take 255 }))) := by
  have := parse_received (.listResp r fs) trivial pad ((Msg.listResp r fs).serialize ++ pad).length (by simp)
  simp only [received] at this
  rw [List.take_of_length_le (by omega)] at this
  exact this

/-- A name of 300 bytes followed by another entry: the second entry is still aligned. -/
example (h : Sha1Hash) : parse (.exact ((Msg.listResp 1 [⟨1, 2, 3, 4, h, List.replicate 300 65⟩, ⟨5, 6, 7, 8, h, []⟩]).serialize ++ [])) =
    .ok (.listResp 1 [⟨1, 2, 3, 4, h, List.replicate 255 65⟩, ⟨5, 6, 7, 8, h, []⟩]) := by
  rw [C18_names _ _ _ (by show 2 ≤ 65535; omega)]; simp only [List.map, List.take_replicate]; rfl

/-! ## C19 -/

/-- C19: `ParseAsDataPacket` inverts `Serialize`, in a buffer of any capacity. -/
theorem C19_roundtrip (o : UInt32) (d spare : Bytes) :
    parseAsDataPacket ⟨(Msg.data o d).serialize ++ spare, (Msg.data o d).serialize.length⟩ = .ok (o, d) := by
  unfold parseAsDataPacket
  have hlen : (Msg.data o d).serialize.length = 5 + d.length := by
    simp [Msg.serialize, put32]; omega
  simp only []
  rw [if_neg (by simp only [List.length_append]; omega), if_neg (by omega)]
  have e1 : ((Msg.data o d).serialize ++ spare).drop 1 = put32 o ++ (d ++ spare) := by
    simp [Msg.serialize]
  have e2 : (put32 o ++ (d ++ spare)).take 4 = put32 o := by
    rw [List.take_append_of_le_length (by simp [put32]), List.take_of_length_le (by simp [put32])]
  have e3 : (((Msg.data o d).serialize ++ spare).take (Msg.data o d).serialize.length).drop 5 = d := by
    rw [List.take_left]
    have : (Msg.data o d).serialize = ([5] ++ put32 o) ++ d := by simp [Msg.serialize]
    rw [this, show 5 = ([5] ++ put32 o).length by simp [put32], List.drop_left]
  simp only [e1, e2, e3]
  congr 2
  rw [put32, beNat_beBytes]
  apply UInt32.toNat_inj.1; have := o.toNat_lt; simp

/-- C19: `Split` of a first packet returns the hash, the size and the data it was built from. -/
theorem C19_split (h : Sha1Hash) (size : UInt32) (d spare : Bytes) :
    splitFirst ⟨h.1 ++ put32 size ++ d ++ spare, (h.1 ++ put32 size ++ d).length⟩ = .ok (h, size, d) := by
  have hh := h.2
  have hp : (put32 size).length = 4 := by simp [put32]
  unfold splitFirst
  rw [if_neg (by simp only [List.length_append]; omega), if_neg (by simp only [List.length_append]; omega)]
  have e1 : (h.1 ++ put32 size ++ d ++ spare).take 20 = h.1 := by
    rw [List.append_assoc, List.append_assoc, List.take_append_of_le_length (by omega), List.take_of_length_le (by omega)]
  have e2 : ((h.1 ++ put32 size ++ d ++ spare).drop 20).take 4 = put32 size := by
    rw [List.append_assoc, List.append_assoc]
    have : (h.1 ++ (put32 size ++ (d ++ spare))).drop 20 = put32 size ++ (d ++ spare) := by
      conv => lhs; arg 1; rw [← hh]
      exact List.drop_left
    rw [this, List.take_append_of_le_length (by omega), List.take_of_length_le (by omega)]
  have e3 : ((h.1 ++ put32 size ++ d ++ spare).take (h.1 ++ put32 size ++ d).length).drop 24 = d := by
    rw [List.take_left, show 24 = (h.1 ++ put32 size).length by simp only [List.length_append]; omega, List.drop_left]
  rw [e1, e2, e3, Sha1Hash.fromSlice, Sha1Hash.copyInto_full _ _ hh]
  congr 3
  rw [put32, beNat_beBytes]
  apply UInt32.toNat_inj.1; have := size.toNat_lt; simp

/-- C19: the wire size of a data packet is its payload plus five bytes, so a payload of at most 1024 bytes fits the
1029-byte receive buffer.  (That senders never exceed it is part of C40.) -/
theorem C19_size (o : UInt32) (d : Bytes) (h : d.length ≤ 1024) :
    (Msg.data o d).serialize.length = d.length + 5 ∧ (Msg.data o d).serialize.length ≤ 1029 := by
  have : (Msg.data o d).serialize.length = d.length + 5 := by simp [Msg.serialize, put32]; omega
  omega

/-- `ParseAsDataPacket` panics exactly on slices shorter than five bytes, whatever their capacity. -/
theorem C19_parse_panics_iff (s : Slice) (hs : s.len ≤ s.mem.length) :
    parseAsDataPacket s = .panic ↔ s.len < 5 := by
  unfold parseAsDataPacket
  split
  · simp; omega
  · split
    · simp; omega
    · simp; omega

/-- `Split` panics exactly on payloads shorter than 24 bytes. -/
theorem C19_split_panics_iff (s : Slice) (hs : s.len ≤ s.mem.length) : splitFirst s = .panic ↔ s.len < 24 := by
  unfold splitFirst
  split
  · simp; omega
  · split
    · simp; omega
    · simp; omega

example : parseAsDataPacket ⟨(Msg.data 1000 [1, 2, 3]).serialize ++ List.replicate 1021 0, 8⟩ = .ok (1000, [1, 2, 3]) :=
  C19_roundtrip 1000 [1, 2, 3] (List.replicate 1021 0)

end Flu
