import Verif.Props.Server
/-!
# Properties of remote listings (C53)

The daemon of one host answers a listing request (`RespondToListFilesOnHost`), another host reads the answer (`ListFilesOnHost`).
-/
namespace Flu
open Spec

/-! ## Specification -/
namespace Spec

/-- `name` is what follows the last slash of `path`. -/
def IsBaseName (path name : GoString) : Prop := (47 : UInt8) ∉ name ∧ (path = name ∨ ∃ dir, path = dir ++ 47 :: name)

/-- An entry of a listing describes a catalogue record. -/
structure Describes (x : ListFilesEntry) (e : Export) : Prop where
  name : ∃ n, IsBaseName e.filePath n ∧ x.fileName = n.take 255
  hash : x.hash = e.sha1Hash
  size : 0 ≤ e.sizeInBytes → e.sizeInBytes < 2 ^ 64 → (x.sizeInBytes.toNat : Int) = e.sizeInBytes
  chunkSize : (x.chunkSize.toNat : Int) = e.chunkSize
  count : e.progress.sizeOf < 2 ^ 32 → (x.chunkCount.toNat : Int) = e.progress.sizeOf
  downloaded : e.progress.sizeOf < 2 ^ 32 → ∃ held : Nat → Bool, (∀ i, i < 2 ^ 63 → (held i = true ↔ e.saved i)) ∧
    x.chunksDownloaded.toNat = (List.range e.progress.sizeOf.toNat).countP held

/-- The size of a listing on the wire. -/
def listingSize (xs : List ListFilesEntry) : Nat := 5 + (xs.map (fun x => 41 + x.fileName.length)).sum

end Spec

/-! ## Entries -/

theorem base_of (p : GoString) : IsBaseName p (splitFile p) := by
  unfold IsBaseName splitFile
  induction p with
  | nil => exact ⟨by simp [splitSlash], .inl rfl⟩
  | cons c cs ih =>
    have hne := splitSlash_ne_nil cs
    rcases hs : splitSlash cs with _ | ⟨w, ws⟩
    · exact absurd hs hne
    rw [hs] at ih
    simp only [splitSlash, hs]
    by_cases hc : c = slash
    · rw [if_pos hc]
      rw [List.getLast?_cons_cons]
      refine ⟨ih.1, .inr ?_⟩
      rcases ih.2 with h | ⟨dir, h⟩
      · exact ⟨[], by rw [List.nil_append, ← h, hc]; rfl⟩
      · exact ⟨c :: dir, by rw [List.cons_append, ← h]⟩
    · rw [if_neg hc]
      cases ws with
      | nil =>
        simp only [List.getLast?_singleton, Option.getD_some] at ih ⊢
        have hcs : cs = w := by
          rcases ih.2 with h | ⟨dir, h⟩
          · exact h
          · exfalso
            have := splitSlash_concat dir w
            rw [show (slash : UInt8) = 47 from rfl, ← h, hs] at this
            have h2 := congrArg List.length this
            rw [List.length_append] at h2
            have h3 := List.length_pos_iff.2 (splitSlash_ne_nil dir)
            have h4 := List.length_pos_iff.2 (splitSlash_ne_nil w)
            simp at h2; omega
        refine ⟨?_, .inl (by rw [hcs])⟩
        intro h
        rcases List.mem_cons.1 h with h | h
        · exact hc h.symm
        · exact ih.1 h
      | cons v vs =>
        rw [List.getLast?_cons_cons] at ih ⊢
        refine ⟨ih.1, .inr ?_⟩
        rcases ih.2 with h | ⟨dir, h⟩
        · exfalso
          rw [h, splitSlash_plain _ ih.1] at hs
          cases hs
        · exact ⟨c :: dir, by rw [List.cons_append, ← h]⟩

theorem countP_range_extend (P : Nat → Bool) (a b : Nat) (hab : a ≤ b) (h : ∀ i, a ≤ i → P i = false) :
    (List.range b).countP P = (List.range a).countP P := by
  rw [show b = a + (b - a) by omega, List.range_add, List.countP_append, List.countP_map]
  have : List.countP (P ∘ fun x => a + x) (List.range (b - a)) = 0 := by
    rw [List.countP_eq_zero]
    intro i _
    simp [h (a + i) (by omega)]
  omega

/-- `Count` of a bitset read from disk. -/
theorem Loaded.count {b : Bitset} (w : Loaded b) : b.count = (List.range b.size.toNat).countP b.has := by
  unfold Bitset.count
  rw [Bitset.foldl_count, Bitset.countP_range_words b.data b.size]
  have h1 : ∀ i, 64 * b.data.length ≤ i → b.has i = false := by
    intro i hi
    unfold Bitset.has
    rw [List.getElem?_eq_none (by omega)]
    simp
  simp only [Nat.zero_add]
  by_cases h : 64 * b.data.length ≤ b.size.toNat
  · exact (countP_range_extend b.has _ _ h h1).symm
  · exact countP_range_extend b.has _ _ (by omega) w.above

theorem toU64_small (x : Int) (h0 : 0 ≤ x) (h1 : x < 2 ^ 64) : ((toU64 x).toNat : Int) = x := by
  show ((BitVec.ofInt 64 x).toNat : Int) = x
  rw [BitVec.toNat_ofInt]
  omega

theorem toU32_small (x : Int) (h0 : 0 ≤ x) (h1 : x < 2 ^ 32) : ((toU32 x).toNat : Int) = x := by
  show ((BitVec.ofInt 32 x).toNat : Int) = x
  rw [BitVec.toNat_ofInt]
  omega

section
variable {env : Env} {d dl : Path} {c : Cat} {fs : FS}

theorem listEntry_describes (hh : Healthy env d) (hreach : Reach env d dl (.running c fs)) (h : Sha1Hash) (e : Export) (ho : observe c fs h = .ok e) :
    Describes (cutEntry (listEntry e)) e := by
  have w := observe_loaded hh hreach h e ho
  obtain ⟨c1, c2⟩ := observe_chunkSize hh hreach h e ho
  refine ⟨⟨_, base_of _, rfl⟩, ?_, toU64_small _, toU32_small _ c1 c2, toU32_small _ w.size_nonneg, ?_⟩
  · show Sha1Hash.zero.fromSlice e.sha1Hash.1 = _
    exact Sha1Hash.copyInto_full _ _ e.sha1Hash.2
  · intro hs
    refine ⟨e.progress.has, fun i hi => (e.saved_iff i hi).symm, ?_⟩
    have hc := w.count
    have h1 : (List.range e.progress.size.toNat).countP e.progress.has ≤ e.progress.size.toNat := by
      have := List.countP_le_length (p := e.progress.has) (l := List.range e.progress.size.toNat)
      rw [List.length_range] at this; exact this
    have h2 : e.progress.sizeOf = e.progress.size := rfl
    have := toU32_small (e.progress.count : Int) (by omega) (by have := w.size_nonneg; omega)
    show (toU32 _).toNat = _
    rw [h2, ← hc]; omega

end

/-! ## The wire -/

theorem serializeEntry_length (x : ListFilesEntry) : x.serialize.length = 41 + (x.fileName.take 255).length := by
  have := x.hash.2
  simp [ListFilesEntry.serialize, put64, put32, serializeString255, this]; omega

theorem serialize_listing_length (r : UInt16) (xs : List ListFilesEntry) : (Msg.listResp r xs).serialize.length = listingSize (xs.map cutEntry) := by
  have : (xs.flatMap ListFilesEntry.serialize).length = ((xs.map cutEntry).map (fun x => 41 + x.fileName.length)).sum := by
    induction xs with
    | nil => rfl
    | cons x xs ih =>
      rw [List.flatMap_cons, List.length_append, ih, serializeEntry_length]
      rfl
  show ([3] ++ put16 r ++ put16 (UInt16.ofNat xs.length) ++ xs.flatMap ListFilesEntry.serialize).length = _
  rw [List.length_append, this]
  simp [put16, listingSize]

/-- Entries cut off anywhere are recognised as such. -/
theorem hasEntries_take (xs : List ListFilesEntry) (k : Nat) :
    hasEntries xs.length ((xs.flatMap ListFilesEntry.serialize).take k) ↔ (xs.flatMap ListFilesEntry.serialize).length ≤ k ∨ xs = [] := by
  induction xs generalizing k with
  | nil => simp [hasEntries]
  | cons x xs ih =>
    have hx := serializeEntry_length x
    have hb : (x.serialize)[40]? = some (UInt8.ofNat (min x.fileName.length 255)) := by
      have h20 := x.hash.2
      unfold ListFilesEntry.serialize
      rw [List.getElem?_append_right (by simp [put64, put32, h20])]
      simp [put64, put32, h20, serializeString255]
    have hn : (UInt8.ofNat (min x.fileName.length 255)).toNat = (x.fileName.take 255).length := by
      simp; omega
    rw [List.flatMap_cons, List.length_cons, hasEntries]
    simp only [List.length_append, reduceCtorEq, or_false]
    have hlen : ((x.serialize ++ xs.flatMap ListFilesEntry.serialize).take k).length = min k (x.serialize.length + (xs.flatMap ListFilesEntry.serialize).length) := by simp
    by_cases hk : 41 ≤ k
    · have h40 : ((x.serialize ++ xs.flatMap ListFilesEntry.serialize).take k)[40]? = some (UInt8.ofNat (min x.fileName.length 255)) := by
        rw [List.getElem?_take_of_lt (by omega), List.getElem?_append_left (by omega), hb]
      rw [h40, Option.getD_some, hn, hlen, ← hx]
      by_cases hk2 : x.serialize.length ≤ k
      · have hdrop : ((x.serialize ++ xs.flatMap ListFilesEntry.serialize).take k).drop x.serialize.length = (xs.flatMap ListFilesEntry.serialize).take (k - x.serialize.length) := by
          rw [List.drop_take, List.drop_left]
        rw [hdrop, ih]
        constructor
        · rintro ⟨-, -, h | h⟩
          · omega
          · rw [h]; simp; omega
        · intro h
          exact ⟨by omega, by omega, .inl (by omega)⟩
      · constructor
        · rintro ⟨-, h, -⟩; omega
        · intro h; omega
    · rw [hlen]
      constructor
      · rintro ⟨h, -⟩; omega
      · intro h; omega

/-- What a listing that was sent as one datagram looks like to the host that asked. -/
theorem listing_received (r : UInt16) (xs : List ListFilesEntry) (hs : (Msg.listResp r xs).serialize.length ≤ 65507) :
    listFilesOnHost (.datagram (Msg.listResp r xs).serialize) = if listingSize (xs.map cutEntry) ≤ 1024 then .ok (r, xs.map cutEntry) else .panic := by
  have hlen := serialize_listing_length r xs
  have hcount : xs.length ≤ 65535 := by
    have : ∀ l : List ListFilesEntry, 41 * l.length ≤ (l.map (fun x => 41 + x.fileName.length)).sum := by
      intro l; induction l with
      | nil => simp
      | cons a l ih => simp only [List.length_cons, List.map_cons, List.sum_cons]; omega
    have := this (xs.map cutEntry)
    unfold listingSize at hlen
    rw [List.length_map] at this
    omega
  unfold listFilesOnHost
  simp only []
  by_cases h : listingSize (xs.map cutEntry) ≤ 1024
  · rw [if_pos h]
    unfold udpBuffer
    rw [List.take_of_length_le (by omega), C18_names r xs _ hcount]
    rfl
  · rw [if_neg h]
    have hl : ((Msg.listResp r xs).serialize.take 1024 ++ List.replicate (1024 - ((Msg.listResp r xs).serialize.take 1024).length) 0 : Bytes).length = 1024 := by
      simp; omega
    have hb : ((Msg.listResp r xs).serialize.take 1024 ++ List.replicate (1024 - ((Msg.listResp r xs).serialize.take 1024).length) 0 : Bytes) =
        (Msg.listResp r xs).serialize.take 1024 := by
      rw [List.length_take, show 1024 - min 1024 (Msg.listResp r xs).serialize.length = 0 by omega, List.replicate_zero, List.append_nil]
    have hp : parse (udpBuffer (Msg.listResp r xs).serialize) = .panic := by
      unfold udpBuffer
      rw [hb] at hl ⊢
      refine (C16_total _ hl).2.1.2 ⟨?_, ?_⟩
      · rw [List.getElem?_take_of_lt (by omega)]; rfl
      · have e1 : ((Msg.listResp r xs).serialize.take 1024).drop 5 = (xs.flatMap ListFilesEntry.serialize).take 1019 := by
          rw [List.drop_take]
          congr 1
        have e2 : beNat ((((Msg.listResp r xs).serialize.take 1024).drop 3).take 2) = xs.length := by
          have : (((Msg.listResp r xs).serialize.take 1024).drop 3).take 2 = put16 (UInt16.ofNat xs.length) := by
            rw [List.drop_take, List.take_take]
            rfl
          rw [this]
          unfold put16
          rw [beNat_beBytes]
          simp; omega
        rw [e1, e2, hasEntries_take]
        unfold listingSize at h hlen
        have : (Msg.listResp r xs).serialize.length = 5 + (xs.flatMap ListFilesEntry.serialize).length := by
          show ([3] ++ put16 r ++ put16 (UInt16.ofNat xs.length) ++ xs.flatMap ListFilesEntry.serialize).length = _
          rw [List.length_append]; simp [put16]
        rintro (h' | h')
        · omega
        · subst h'; simp at h
    rw [hp]
    rfl

section
variable {env : Env} {d dl : Path} {c : Cat} {fs : FS}

/-- C53: asked for everything, a host answers with one entry per catalogue record, each describing its record.  The asking host obtains exactly that list, under the
identifier of the request, if it takes at most 1024 bytes; if it takes more, up to the largest datagram, the asking daemon panics; beyond that nothing is sent.  Nothing
changes at the host that was asked. -/
theorem C53_listing (hh : Healthy env d) (hclean : CleanReach env d dl (.running c fs)) (port : Nat) (w : Wire) (hord : MapOrder c w.order) (hsend : w.sends = true)
    (r : UInt16) (pad : Bytes) (ret : Addr) (ups : UpKey → Option Up) :
    ∃ es xs reply s', (es.map (·.sha1Hash)).Nodup ∧ (∀ h e, observe c fs h = .ok e ↔ e ∈ es ∧ e.sha1Hash = h) ∧ All2 Describes xs es ∧
      serveDatagram env port w ((Msg.listReq r Sha1Hash.blank).serialize ++ pad) ret ⟨⟨c, fs, []⟩, ups⟩ =
        (if listingSize xs ≤ 65507 then .ok (.sent ret.ip.bytes ret.port reply) else .err .io, s') ∧
      (listingSize xs ≤ 65507 → listFilesOnHost (.datagram reply) = if listingSize xs ≤ 1024 then .ok (r, xs) else .panic) ∧
      s'.uploads = ups ∧ s'.st.fs = fs ∧ ∀ k, observe s'.st.cat s'.st.fs k = observe c fs k := by
  have hp := parse_buffer (.listReq r Sha1Hash.blank) trivial (by simp [Msg.serialize, put16, Sha1Hash.blank]) pad
  obtain ⟨es, s1, hl, hl2, hl3⟩ := C30_list hh hclean w.order hord
  obtain ⟨g1, g2, g3, g4, g5⟩ := C38_list hh hclean.reach w.order hord [] es s1 hl
  have hmem : ∀ e ∈ es, ∃ h, observe c fs h = .ok e := by
    intro e he
    have : Res.ok e ∈ w.order.map (observe c fs) := by rw [g1]; exact List.mem_map_of_mem he
    obtain ⟨h, -, h2⟩ := List.mem_map.1 this
    exact ⟨h, h2⟩
  refine ⟨es, (es.map listEntry).map cutEntry, (Msg.listResp r (es.map listEntry)).serialize, ⟨s1, ups⟩, by rw [hl2]; exact g2, ?_, ?_, ?_, ?_, rfl, g4, g5⟩
  · intro h e
    constructor
    · intro he
      have hin := (hl3 h).1 ⟨e, he⟩
      have : Res.ok e ∈ es.map Res.ok := by rw [← g1, ← he]; exact List.mem_map_of_mem hin
      obtain ⟨e', h1, h2⟩ := List.mem_map.1 this
      cases h2
      exact ⟨h1, C27_own hh hclean.reach h e he⟩
    · rintro ⟨he, rfl⟩
      obtain ⟨h, h2⟩ := hmem e he
      rw [C27_own hh hclean.reach h e h2]; exact h2
  · clear hl hl2 hl3 g1
    induction es with
    | nil => exact .nil
    | cons e es ih =>
      obtain ⟨h, h2⟩ := hmem e (List.mem_cons_self ..)
      exact .cons (listEntry_describes hh hclean.reach h e h2) (ih (fun e' he' => hmem e' (List.mem_cons_of_mem _ he')))
  · rw [← serialize_listing_length r]
    unfold serveDatagram handleMessage
    rw [IOM.bind_apply, IOM.lift_apply, hp]
    simp only []
    unfold respondToListFiles
    rw [if_pos ((C21_isBlank _).2 (by intro b hb; exact List.eq_of_mem_replicate hb)), IOM.bind_apply]
    unfold IOM.orExit
    rw [SM.cat_apply, hl]
    simp only []
    rw [IOM.bind_apply, IOM.lift_apply]
    unfold udpSend
    rw [hsend]
    simp only [true_and]
    by_cases hs : (Msg.listResp r (es.map listEntry)).serialize.length ≤ 65507
    · simp only [if_pos hs]; rfl
    · simp only [if_neg hs]
  · intro hs
    exact listing_received r _ (by rw [serialize_listing_length]; exact hs)

/-- C53 for one file, which is what a download asks for: the answer always fits, and the downloading host obtains the description of the file. -/
theorem C53_metadata (hh : Healthy env d) (hreach : Reach env d dl (.running c fs)) (port : Nat) (w : Wire) (hsend : w.sends = true)
    (r : UInt16) (h : Sha1Hash) (hb : h.isBlank = false) (e : Export) (ho : observe c fs h = .ok e) (pad : Bytes) (ret : Addr) (ups : UpKey → Option Up) :
    ∃ x reply s', Describes x e ∧
      serveDatagram env port w ((Msg.listReq r h).serialize ++ pad) ret ⟨⟨c, fs, []⟩, ups⟩ = (.ok (.sent ret.ip.bytes ret.port reply), s') ∧
      reply.length ≤ 301 ∧ listFilesOnHost (.datagram reply) = .ok (r, [x]) ∧ downloadMetaData h (.datagram reply) = .ok x ∧
      s'.uploads = ups ∧ s'.st.fs = fs ∧ ∀ k, observe s'.st.cat s'.st.fs k = observe c fs k := by
  have hp := parse_buffer (.listReq r h) trivial (by have := h.2; simp [Msg.serialize, put16, this]) pad
  rcases hcon : contains h ⟨c, fs, []⟩ with ⟨r0, s1⟩
  have hr0 : r0 = .ok e := by
    have : (contains h ⟨c, fs, []⟩).1 = .ok e := ho
    rw [hcon] at this; exact this
  subst hr0
  obtain ⟨g1, g2, -, -⟩ := contains_effect hh hreach h [] _ _ hcon
  have hd := listEntry_describes hh hreach h e ho
  have hlen : (Msg.listResp r [listEntry e]).serialize.length ≤ 301 := by
    rw [serialize_listing_length]
    have : ((splitFile e.filePath).take 255).length ≤ 255 := by simp; omega
    simp only [listingSize, List.map_cons, List.map_nil, List.sum_cons, List.sum_nil, cutEntry, listEntry]
    omega
  have hrec := listing_received r [listEntry e] (by omega)
  rw [if_pos (by rw [← serialize_listing_length r]; omega)] at hrec
  have hown := C27_own hh hreach h e ho
  refine ⟨cutEntry (listEntry e), (Msg.listResp r [listEntry e]).serialize, ⟨s1, ups⟩, hd, ?_, hlen, hrec, ?_, rfl, g1, g2⟩
  · unfold serveDatagram handleMessage
    rw [IOM.bind_apply, IOM.lift_apply, hp]
    simp only []
    unfold respondToListFiles
    rw [if_neg (by simp [hb]), IOM.bind_apply]
    unfold IOM.orExit
    rw [SM.cat_apply, hcon]
    simp only []
    rw [IOM.bind_apply, show (pure [e] : SM (List Export)) ⟨s1, ups⟩ = (.ok [e], ⟨s1, ups⟩) from rfl]
    simp only []
    rw [IOM.bind_apply, IOM.lift_apply]
    unfold udpSend
    have hs : w.sends = true ∧ (Msg.listResp r [listEntry e]).serialize.length ≤ 65507 := ⟨hsend, by omega⟩
    simp only [List.map_cons, List.map_nil, if_pos hs]; rfl
  · unfold downloadMetaData
    rw [hrec]
    simp only [List.map_cons, List.map_nil, Res.bind_ok]
    rw [if_pos (by rw [hd.hash, hown])]
    rfl

theorem nodup_length_le {α : Type} [BEq α] [LawfulBEq α] (l m : List α) (hn : l.Nodup) (hs : ∀ a ∈ l, a ∈ m) : l.length ≤ m.length := by
  induction l generalizing m with
  | nil => simp
  | cons a l ih =>
    rw [List.nodup_cons] at hn
    have h1 := hs a (by simp)
    have h2 := ih (m.erase a) hn.2 (fun b hb => (List.mem_erase_of_ne (by rintro rfl; exact hn.1 hb)).2 (hs b (by simp [hb])))
    rw [List.length_erase_of_mem h1] at h2
    have := List.length_pos_of_mem h1
    simp only [List.length_cons]; omega

/-- C53: if the socket to the host can be opened, anything but a listing in answer to the request, and no answer, is reported as an error. -/
theorem C53_wrong (raw : Contact) (hs : raw ≠ .noSocket) (h : ∀ data, raw = .datagram data → data.head? ≠ some 3) : ∃ e, listFilesOnHost raw = .err e := by
  rcases raw with _ | _ | data
  · exact absurd rfl hs
  · exact ⟨_, rfl⟩
  have h := h data rfl
  unfold listFilesOnHost
  simp only []
  have hlen : (data.take 1024 ++ List.replicate (1024 - (data.take 1024).length) (0 : UInt8)).length = 1024 := by
    rw [List.length_append, List.length_replicate, List.length_take]; omega
  have h3 : (data.take 1024 ++ List.replicate (1024 - (data.take 1024).length) (0 : UInt8))[0]? ≠ some 3 := by
    rcases data with _ | ⟨a, l⟩
    · intro hx; injection hx with hx; revert hx; decide
    · intro hx
      exact h hx
  unfold udpBuffer
  generalize data.take 1024 ++ List.replicate (1024 - (data.take 1024).length) (0 : UInt8) = bs at hlen h3
  rcases hp : parse (.exact bs) with m | e | _ | _ | _
  · rw [Res.bind_ok]
    have := C16_kind bs hlen m hp
    cases m with
    | listResp => exact absurd this.1 h3
    | _ => exact ⟨_, rfl⟩
  · exact ⟨e, rfl⟩
  · exact absurd ((C16_total bs hlen).2.1.1 hp).1 h3
  all_goals (rcases (C16_total bs hlen).1 with ⟨m, hm⟩ | ⟨t, -, hm⟩ | hm <;> rw [hp] at hm <;> cases hm)

/-- C53, the defect: a host with 25 to 221 files crashes every daemon that asks for its listing, whatever the files are called. -/
theorem C53_crashes (hh : Healthy env d) (hclean : CleanReach env d dl (.running c fs)) (port : Nat) (w : Wire) (hord : MapOrder c w.order) (hsend : w.sends = true)
    (r : UInt16) (pad : Bytes) (ret : Addr) (ups : UpKey → Option Up) (hashes : List Sha1Hash) (hn : hashes.Nodup)
    (hall : ∀ h, h ∈ hashes ↔ ∃ e, observe c fs h = .ok e) (h25 : 25 ≤ hashes.length) (h221 : hashes.length ≤ 221) :
    ∃ reply s', serveDatagram env port w ((Msg.listReq r Sha1Hash.blank).serialize ++ pad) ret ⟨⟨c, fs, []⟩, ups⟩ = (.ok (.sent ret.ip.bytes ret.port reply), s') ∧
      listFilesOnHost (.datagram reply) = .panic := by
  obtain ⟨es, xs, reply, s', h1, h2, h3, h4, h5, -⟩ := C53_listing hh hclean port w hord hsend r pad ret ups
  have hlen : xs.length = es.length ∧ 5 + 41 * es.length ≤ listingSize xs ∧ listingSize xs ≤ 5 + 296 * es.length := by
    clear h1 h2 h4 h5
    unfold listingSize
    induction h3 with
    | nil => simp
    | cons hd _ ih =>
      obtain ⟨n, -, hn⟩ := hd.name
      have := congrArg List.length hn
      rw [List.length_take] at this
      simp only [List.length_cons, List.map_cons, List.sum_cons]
      omega
  have ha := nodup_length_le hashes (es.map (·.sha1Hash)) hn (fun h hm => by
    obtain ⟨e, he⟩ := (hall h).1 hm
    obtain ⟨he1, he2⟩ := (h2 h e).1 he
    exact List.mem_map.2 ⟨e, he1, he2⟩)
  have hb := nodup_length_le (es.map (·.sha1Hash)) hashes h1 (fun h hm => by
    obtain ⟨e, he1, he2⟩ := List.mem_map.1 hm
    exact (hall h).2 ⟨e, (h2 h e).2 ⟨he1, he2⟩⟩)
  rw [List.length_map] at ha hb
  rw [if_pos (by omega)] at h4
  refine ⟨reply, s', h4, ?_⟩
  rw [h5 (by omega), if_neg (by omega)]

end

/-! ## Examples -/

/-- A catalogue with any given registered downloads. -/
theorem ex_many (sha1 : Bytes → Sha1Hash) (json : JsonCodec) (hashes : List Sha1Hash) (hn : hashes.Nodup) : ∃ c fs,
    CleanReach (exEnv sha1 json) exDir exDown (.running c fs) ∧ ∀ h, h ∈ hashes ↔ ∃ e, observe c fs h = .ok e := by
  have hh := ex_healthy sha1 json
  induction hashes with
  | nil =>
    refine ⟨_, _, CleanReach.fresh (exEnv sha1 json) exDir exDown hh.utf8 exFS ex_fs_clean, fun h => ⟨fun h => by (cases h), ?_⟩⟩
    rintro ⟨e, he⟩
    cases he
  | cons a l ih =>
    rw [List.nodup_cons] at hn
    obtain ⟨c, fs, h1, h2⟩ := ih hn.2
    obtain ⟨ind, rfl, -⟩ := h1.sync hh.abs hh.utf8
    have hm : mapGet ind.index a = none := by
      obtain ⟨-, -, -, -, h4⟩ := C30_list hh h1 _ ⟨ind, rfl, List.Perm.refl _⟩
      apply Classical.byContradiction
      intro hne
      replace hne := (any_key _ _).2 hne
      rw [List.any_eq_true] at hne
      obtain ⟨x, hx, hxa⟩ := hne
      exact hn.1 ((h2 a).2 ((h4 a).2 (List.mem_map.2 ⟨x, hx, by simpa using hxa⟩)))
    obtain ⟨e, s1, h3⟩ := registerDownload_total (exEnv sha1 json) 5 2 a [120] exDir exDown ind fs hm (by decide) (by decide)
    have h4 := h1.returns (.register 5 2 a [120]) trivial s1 (.inl (CM.void_ok _ _ _ _ h3))
    obtain ⟨-, ⟨b, -, g2, -⟩, g6, -⟩ := C29_register hh h1.reach 5 2 a [120] [] e s1 (by decide) (by decide) h3
    refine ⟨_, _, h4, fun h => ?_⟩
    rw [List.mem_cons]
    by_cases hk : h = a
    · subst hk; exact ⟨fun _ => ⟨e, g2⟩, fun _ => .inl rfl⟩
    · rw [g6 h hk, ← h2]
      simp [hk]

/-- The hypotheses of `C53_crashes` and `C53_listing`: thirty downloads. -/
example (sha1 : Bytes → Sha1Hash) (json : JsonCodec) : ∃ (c : Cat) (fs : FS) (order hashes : List Sha1Hash), Healthy (exEnv sha1 json) exDir ∧
    CleanReach (exEnv sha1 json) exDir exDown (.running c fs) ∧ MapOrder c order ∧ hashes.Nodup ∧ hashes.length = 30 ∧
    ∀ h, h ∈ hashes ↔ ∃ e, observe c fs h = .ok e := by
  let hs : List Sha1Hash := (List.range 30).map (fun i => ⟨UInt8.ofNat i :: List.replicate 19 0, by simp⟩)
  have hn : hs.Nodup := by decide
  obtain ⟨c, fs, h1, h2⟩ := ex_many sha1 json hs hn
  obtain ⟨ind, rfl, -⟩ := h1.sync (ex_healthy sha1 json).abs (ex_healthy sha1 json).utf8
  exact ⟨_, _, _, hs, ex_healthy sha1 json, h1, ⟨ind, rfl, List.Perm.refl _⟩, hn, rfl, h2⟩
/-- The hypotheses of `C53_metadata`. -/
example (sha1 : Bytes → Sha1Hash) (json : JsonCodec) : ∃ c fs e, CleanReach (exEnv sha1 json) exDir exDown (.running c fs) ∧
    observe c fs Sha1Hash.zero = .ok e ∧ Sha1Hash.zero.isBlank = false := by
  obtain ⟨c, fs, e, h1, h2, -⟩ := ex_complete sha1 json Sha1Hash.zero
  exact ⟨c, fs, e, h1, h2, rfl⟩

end Flu
