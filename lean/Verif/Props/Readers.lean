import Verif.Model.Readers
import Verif.Props.Sha1
/-!
# Properties of file hashing and chunk reading (C22–C25)
-/
namespace Flu

/-- Specification: bytes `[start, start + n)` of a file, as far as the file has them. -/
def Spec.slice (content : Bytes) (start n : Nat) : Bytes := (content.drop start).take n

open Spec

/-! ## C22 -/

theorem osRead_deliver (content : Bytes) (pos buflen n : Nat) (h : pos < content.length) (hb : 0 < buflen) :
    ∃ k, 0 < k ∧ pos + k ≤ content.length ∧
      osRead content pos buflen (.deliver n) = ((content.drop pos).take k, none, pos + k) := by
  have hne : content.drop pos ≠ [] := by
    intro e; have := congrArg List.length e; simp at this; omega
  refine ⟨min (min buflen (max 1 n)) (content.length - pos), by omega, by omega, ?_⟩
  have hlen : ((content.drop pos).take (min buflen (max 1 n))).length = min (min buflen (max 1 n)) (content.length - pos) := by
    simp
  simp only [osRead, if_neg hne, hlen]
  congr 1
  rw [List.take_eq_take_iff]; simp

theorem take_append_slice (content : Bytes) (pos k : Nat) : content.take pos ++ (content.drop pos).take k = content.take (pos + k) := by
  rw [List.take_add]

theorem ite_append (acc bytes : Bytes) : (if bytes.length > 0 then acc ++ bytes else acc) = acc ++ bytes := by
  cases bytes <;> simp

theorem fromSlice_hash (h z : Sha1Hash) : z.fromSlice h.1 = h := by
  unfold Sha1Hash.fromSlice; rw [Sha1Hash.copyInto_full _ _ h.2]

/-- The loop's invariant: whatever was hashed so far is the file up to the current position. -/
theorem hashFileLoop_sound (sha1 : Bytes → Sha1Hash) (content : Bytes) (cs : List ReadChoice) (pos : Nat) (hp : pos ≤ content.length)
    (h : Sha1Hash) (hr : hashFileLoop sha1 content pos (content.take pos) cs = some (.ok h)) : h = sha1 content := by
  induction cs generalizing pos with
  | nil => simp [hashFileLoop] at hr
  | cons c cs ih =>
    rw [hashFileLoop] at hr
    cases c with
    | fail => simp [osRead] at hr
    | deliver n =>
      by_cases hlt : pos < content.length
      · obtain ⟨k, hk, hle, hrd⟩ := osRead_deliver content pos 4096 n hlt (by omega)
        rw [hrd] at hr
        simp only [ite_append] at hr; simp only [take_append_slice] at hr
        exact ih (pos + k) hle hr
      · have he : content.drop pos = [] := by simp; omega
        have ht : content.take pos = content := List.take_of_length_le (by omega)
        simp only [osRead, he, if_true, ite_append, List.append_nil, ht, fromSlice_hash] at hr
        injection hr with hr; injection hr with hr; exact hr.symm

/-- C22: if `HashFile` returns a hash, it is the sha1 of the whole content, however the reads were split. -/
theorem C22_sound (sha1 : Bytes → Sha1Hash) (content : Bytes) (cs : List ReadChoice) (h : Sha1Hash)
    (hr : hashFile sha1 content cs = some (.ok h)) : h = sha1 content :=
  hashFileLoop_sound sha1 content cs 0 (by omega) h (by simpa [hashFile] using hr)

theorem hashFileLoop_complete (sha1 : Bytes → Sha1Hash) (content : Bytes) (cs : List ReadChoice) (pos : Nat) (hp : pos ≤ content.length)
    (hgood : ∀ c ∈ cs, c ≠ .fail) (hlen : content.length - pos < cs.length) :
    hashFileLoop sha1 content pos (content.take pos) cs = some (.ok (sha1 content)) := by
  induction cs generalizing pos with
  | nil => simp at hlen
  | cons c cs ih =>
    rw [hashFileLoop]
    cases c with
    | fail => exact absurd rfl (hgood _ (by simp))
    | deliver n =>
      by_cases hlt : pos < content.length
      · obtain ⟨k, hk, hle, hrd⟩ := osRead_deliver content pos 4096 n hlt (by omega)
        rw [hrd]
        simp only [ite_append]; simp only [take_append_slice]
        exact ih (pos + k) hle (fun c hc => hgood c (List.mem_cons_of_mem _ hc)) (by simp at hlen; omega)
      · have he : content.drop pos = [] := by simp; omega
        have ht : content.take pos = content := List.take_of_length_le (by omega)
        simp only [osRead, he, if_true, ite_append]; simp only [List.append_nil, ht, fromSlice_hash]

/-- C22: if no read fails, `HashFile` finishes after at most `length + 1` reads with the sha1 of the content. -/
theorem C22_complete (sha1 : Bytes → Sha1Hash) (content : Bytes) (cs : List ReadChoice) (hgood : ∀ c ∈ cs, c ≠ .fail)
    (hlen : content.length < cs.length) : hashFile sha1 content cs = some (.ok (sha1 content)) := by
  have := hashFileLoop_complete sha1 content cs 0 (by omega) hgood (by omega)
  simpa [hashFile] using this

/-- Total number of bytes delivered by the choices, each at least one and at most 4096. -/
def Spec.delivered : List ReadChoice → Nat
  | [] => 0
  | .fail :: cs => delivered cs
  | .deliver n :: cs => min 4096 (max 1 n) + delivered cs

theorem hashFileLoop_error (sha1 : Bytes → Sha1Hash) (content : Bytes) (before after : List ReadChoice) (pos : Nat) (acc : Bytes)
    (hp : pos ≤ content.length) (hgood : ∀ c ∈ before, c ≠ .fail) (hb : pos + delivered before ≤ content.length) :
    hashFileLoop sha1 content pos acc (before ++ .fail :: after) = some (.err .io) := by
  induction before generalizing pos acc with
  | nil => rw [List.nil_append, hashFileLoop]; rfl
  | cons c cs ih =>
    rw [List.cons_append, hashFileLoop]
    cases c with
    | fail => exact absurd rfl (hgood _ (by simp))
    | deliver n =>
      simp only [delivered] at hb
      have hlt : pos < content.length := by omega
      have hne : content.drop pos ≠ [] := by
        intro e; have := congrArg List.length e; simp at this; omega
      simp only [osRead, if_neg hne]
      have hl : ((content.drop pos).take (min 4096 (max 1 n))).length = min 4096 (max 1 n) := by simp; omega
      rw [hl]
      exact ih _ _ (by omega) (fun c hc => hgood c (List.mem_cons_of_mem _ hc)) (by omega)

/-- C22: a read error at any point before the end of the file was reported gives an error, never a hash. -/
theorem C22_error (sha1 : Bytes → Sha1Hash) (content : Bytes) (before after : List ReadChoice) (hgood : ∀ c ∈ before, c ≠ .fail)
    (hb : delivered before ≤ content.length) : hashFile sha1 content (before ++ .fail :: after) = some (.err .io) :=
  hashFileLoop_error sha1 content before after 0 [] (by omega) hgood (by omega)

example (sha1 : Bytes → Sha1Hash) : hashFile sha1 [1, 2, 3] [.deliver 2, .deliver 9, .deliver 1, .deliver 1] = some (.ok (sha1 [1, 2, 3])) :=
  C22_complete sha1 [1, 2, 3] _ (by simp) (by simp)
example (sha1 : Bytes → Sha1Hash) : hashFile sha1 [1, 2, 3] [.deliver 2, .fail, .deliver 1] = some (.err .io) :=
  C22_error sha1 [1, 2, 3] [.deliver 2] [.deliver 1] (by simp) (by simp [delivered])

/-! ## C23 -/

theorem osReadAt_prefix (content : Bytes) (off want : Nat) (c : AtChoice) :
    ∃ k, k ≤ want ∧ off + k ≤ max off content.length ∧ (osReadAt content off want c).1 = (content.drop off).take k ∧
      ((osReadAt content off want c).1).length = k := by
  cases c with
  | good =>
    refine ⟨min want (content.length - off), by omega, by omega, ?_, by simp [osReadAt]⟩
    simp only [osReadAt]; rw [List.take_eq_take_iff]; simp
  | fail n =>
    refine ⟨min (min n want) (content.length - off), by omega, by omega, ?_, by simp [osReadAt]⟩
    simp only [osReadAt]; rw [List.take_eq_take_iff]; simp

/-- The invariant of the hashing loop of `NewChunkReader`. -/
structure LoopInv (content : Bytes) (start n : Nat) (r : SectionReader) (size : Nat) (acc : Bytes) : Prop where
  base : r.base = start
  limit : r.limit = start + n
  pos : r.off = start + size
  bound : size ≤ n
  len : acc.length = size
  data : acc = slice content start size

theorem loop_step (content : Bytes) (start n : Nat) (r : SectionReader) (size : Nat) (acc : Bytes) (inv : LoopInv content start n r size acc)
    (c : AtChoice) :
    LoopInv content start n (r.read content 4096 c).2.2 (size + (r.read content 4096 c).1.length) (acc ++ (r.read content 4096 c).1) := by
  unfold SectionReader.read
  split
  · simpa using inv
  · rename_i hlt
    have h1 := inv.pos; have h2 := inv.limit; have h3 := inv.bound
    obtain ⟨k, hk, hb, hg, hl⟩ := osReadAt_prefix content r.off (min 4096 (r.limit - r.off)) c
    simp only [hl]
    refine ⟨inv.base, inv.limit, ?_, ?_, ?_, ?_⟩
    · show r.off + k = _; omega
    · omega
    · rw [List.length_append, hl, inv.len]
    · rw [hg, inv.data, inv.pos]; unfold slice
      rw [← List.drop_drop, List.take_add]

theorem loop_eof (content : Bytes) (start n : Nat) (r : SectionReader) (size : Nat) (acc : Bytes) (inv : LoopInv content start n r size acc)
    (c : AtChoice) (he : (r.read content 4096 c).2.1 = some .eof) :
    acc ++ (r.read content 4096 c).1 = slice content start n := by
  have inv' := loop_step content start n r size acc inv c
  have h1 := inv.pos; have h2 := inv.limit; have h3 := inv.bound
  unfold SectionReader.read at he inv' ⊢
  split at he
  · rename_i hge
    rw [if_pos hge, List.append_nil, inv.data]
    have : size = n := by omega
    rw [this]
  · rename_i hlt
    rw [if_neg hlt] at inv' ⊢
    cases c with
    | fail k => simp [osReadAt] at he
    | good =>
      simp only [osReadAt] at he inv' ⊢
      have hshort : ((content.drop r.off).take (min 4096 (r.limit - r.off))).length < min 4096 (r.limit - r.off) := by
        apply Classical.byContradiction; intro h; rw [if_neg h] at he; cases he
      rw [List.take_of_length_le (by simp at hshort ⊢; omega)]
      rw [inv.data, h1]
      unfold slice
      rw [← List.drop_drop, List.take_append_drop, List.take_of_length_le]
      simp at hshort ⊢; omega

theorem newChunkReaderLoop_sound (sha1 : Bytes → Sha1Hash) (content : Bytes) (start n : Nat) (cs : List AtChoice) (r : SectionReader)
    (size : Nat) (acc : Bytes) (inv : LoopInv content start n r size acc) (cr : ChunkReader)
    (h : newChunkReaderLoop sha1 content r size acc cs = some cr) :
    cr.hash = sha1 (slice content start n) ∧ cr.size = (slice content start n).length ∧ cr.reader = ⟨start, start, start + n⟩ := by
  induction cs generalizing r size acc with
  | nil => simp [newChunkReaderLoop] at h
  | cons c cs ih =>
    rw [newChunkReaderLoop] at h
    have inv' := loop_step content start n r size acc inv c
    have he := loop_eof content start n r size acc inv c
    have hsz : (if (r.read content 4096 c).1.length > 0 then size + (r.read content 4096 c).1.length else size)
        = size + (r.read content 4096 c).1.length := by split <;> omega
    simp only [ite_append, hsz] at h
    split at h
    · rename_i heof
      injection h with h; subst h
      have e := he heof
      refine ⟨by simp only [fromSlice_hash]; rw [e], ?_, ?_⟩
      · show size + (r.read content 4096 c).1.length = _
        rw [← inv'.len, e]
      · show SectionReader.mk _ _ _ = _
        rw [inv'.base, inv'.limit]
    · exact ih _ _ _ inv' h

theorem loopInv_init (content : Bytes) (start n : Nat) : LoopInv content start n (newSectionReader start n) 0 [] :=
  ⟨rfl, rfl, rfl, by omega, rfl, by simp [slice]⟩

/-- C23: whatever happened on the way (including transient read errors), a chunk reader that was returned has the sha1 and the
length of the section's bytes, and is positioned at their start. -/
theorem C23_describes (sha1 : Bytes → Sha1Hash) (content : Bytes) (start n : Nat) (cs : List AtChoice) (cr : ChunkReader)
    (h : newChunkReader sha1 content start n cs = some cr) :
    cr.hash = sha1 (slice content start n) ∧ cr.size = (slice content start n).length ∧ cr.offset = .ok 0 ∧
      cr.reader = ⟨start, start, start + n⟩ := by
  obtain ⟨h1, h2, h3⟩ := newChunkReaderLoop_sound sha1 content start n cs _ 0 [] (loopInv_init content start n) cr h
  refine ⟨h1, h2, ?_, h3⟩
  unfold ChunkReader.offset; rw [h3]; simp

/-- Specification: the bytes each read of a sequence should return, starting at position `p` of the section. -/
def Spec.expectedReads (sec : Bytes) : (p : Nat) → List Nat → List (Bytes × UInt32)
  | _, [] => []
  | p, k :: ks => ((sec.drop p).take k, UInt32.ofNat p) :: expectedReads sec (p + ((sec.drop p).take k).length) ks

theorem reads_spec (content : Bytes) (cr : ChunkReader) (start n p : Nat) (hr : cr.reader = ⟨start, start + p, start + n⟩)
    (hp : p ≤ (slice content start n).length) (hn : n < 2 ^ 32) (ks : List Nat) :
    ∃ out cr', cr.reads content ks = .ok (out, cr') ∧
      out.map (fun x => (x.1, x.2.1)) = expectedReads (slice content start n) p ks ∧
      cr'.reader = ⟨start, start + (p + ((out.map (·.1)).flatten).length), start + n⟩ ∧
      p + ((out.map (·.1)).flatten).length ≤ (slice content start n).length ∧
      cr'.hash = cr.hash ∧ cr'.size = cr.size := by
  induction ks generalizing cr p with
  | nil => exact ⟨[], cr, rfl, rfl, by simpa using hr, by simpa using hp, rfl, rfl⟩
  | cons k ks ih =>
    have hlen : (slice content start n).length ≤ n := by simp [slice]; omega
    have hoff : cr.offset = .ok (UInt32.ofNat p) := by
      unfold ChunkReader.offset; rw [hr]
      simp only [show start + p - start = p by omega]
      rw [if_neg (by omega)]
    -- the bytes of one read
    have hread : ∃ e, cr.read content k .good = .ok (((slice content start n).drop p).take k, UInt32.ofNat p, e,
        { cr with reader := ⟨start, start + (p + (((slice content start n).drop p).take k).length), start + n⟩ }) := by
      unfold ChunkReader.read
      rw [hoff]
      simp only [Res.bind_ok, SectionReader.read, hr]
      by_cases hge : start + p ≥ start + n
      · rw [if_pos hge]
        have : ((slice content start n).drop p).take k = [] := by
          have : (slice content start n).drop p = [] := by simp; omega
          rw [this]; simp
        rw [this]
        exact ⟨some .eof, by simp [hr]⟩
      · rw [if_neg hge]
        have e : (content.drop (start + p)).take (min k (start + n - (start + p))) = ((slice content start n).drop p).take k := by
          unfold slice
          rw [List.drop_take, List.drop_drop, List.take_take]
          congr 1
          omega
        simp only [osReadAt, e]
        exact ⟨_, by simp only [Res.pure_eq]; congr 4; simp; omega⟩
    obtain ⟨e, hread⟩ := hread
    have hb : p + (((slice content start n).drop p).take k).length ≤ (slice content start n).length := by simp; omega
    obtain ⟨out, cr', h1, h2, h3, h4, h5, h6⟩ :=
      ih { cr with reader := ⟨start, start + (p + (((slice content start n).drop p).take k).length), start + n⟩ }
        (p + (((slice content start n).drop p).take k).length) rfl hb
    refine ⟨(((slice content start n).drop p).take k, UInt32.ofNat p, e) :: out, cr', ?_, ?_, ?_, ?_, h5, h6⟩
    · rw [ChunkReader.reads, hread]; simp only [Res.bind_ok]; rw [h1]; rfl
    · simp only [List.map_cons, expectedReads, h2]
    · rw [h3]; simp only [List.map_cons, List.flatten_cons, List.length_append]; congr 2; omega
    · simp only [List.map_cons, List.flatten_cons, List.length_append]; omega

/-- C23: after `Reset`, any sequence of reads returns consecutive pieces of the section's bytes, each with the offset it
starts at; afterwards `Offset()` is the number of bytes read.  (The section is shorter than 4 GiB, as `Offset` requires.) -/
theorem C23_reads (content : Bytes) (cr : ChunkReader) (start n off : Nat) (hr : cr.reader = ⟨start, off, start + n⟩)
    (hn : n < 2 ^ 32) (ks : List Nat) :
    ∃ out cr', cr.reset.reads content ks = .ok (out, cr') ∧
      out.map (fun x => (x.1, x.2.1)) = expectedReads (slice content start n) 0 ks ∧
      cr'.offset = .ok (UInt32.ofNat ((out.map (·.1)).flatten).length) ∧
      (out.map (·.1)).flatten <+: slice content start n := by
  obtain ⟨out, cr', h1, h2, h3, h4, _, _⟩ := reads_spec content cr.reset start n 0 (by simp [ChunkReader.reset, hr]) (by omega) hn ks
  have hlen : (slice content start n).length ≤ n := by simp [slice]; omega
  refine ⟨out, cr', h1, h2, ?_, ?_⟩
  · unfold ChunkReader.offset; rw [h3]
    simp only [Nat.zero_add] at h4 ⊢
    simp only [show start + ((out.map (·.1)).flatten).length - start = ((out.map (·.1)).flatten).length by omega]
    rw [if_neg (by omega)]
  · have key : ∀ (sec : Bytes) (ks : List Nat) (p : Nat), ((expectedReads sec p ks).map (·.1)).flatten <+: sec.drop p := by
      intro sec ks
      induction ks with
      | nil => intro p; simp [expectedReads]
      | cons k ks ih =>
        intro p
        simp only [expectedReads, List.map_cons, List.flatten_cons]
        obtain ⟨t, ht⟩ := ih (p + ((sec.drop p).take k).length)
        refine ⟨t, ?_⟩
        rw [List.append_assoc, ht, ← List.drop_drop]
        have : ((sec.drop p).take k).length = min k (sec.drop p).length := by simp
        rw [this]
        rcases Nat.le_total k (sec.drop p).length with h | h
        · rw [Nat.min_eq_left h, List.take_append_drop]
        · rw [Nat.min_eq_right h, List.take_of_length_le h, List.drop_length, List.append_nil]
    have := key (slice content start n) ks 0
    rw [← h2, List.map_map] at this
    simpa [Function.comp_def] using this

/-- C23: a run of reads with non-empty buffers that is long enough delivers the whole section. -/
theorem C23_complete (sec : Bytes) (ks : List Nat) (hpos : ∀ k ∈ ks, 0 < k) (hlen : sec.length ≤ ks.length) :
    ((expectedReads sec 0 ks).map (·.1)).flatten = sec := by
  have key : ∀ (ks : List Nat) (p : Nat), (∀ k ∈ ks, 0 < k) → sec.length ≤ p + ks.length →
      ((expectedReads sec p ks).map (·.1)).flatten = sec.drop p := by
    intro ks
    induction ks with
    | nil => intro p _ h; simp at h; simp [expectedReads]; omega
    | cons k ks ih =>
      intro p hk h
      have hk0 := hk k (by simp)
      simp only [expectedReads, List.map_cons, List.flatten_cons]
      by_cases hp : p < sec.length
      · have hl : ((sec.drop p).take k).length = min k (sec.length - p) := by simp
        rw [ih _ (fun k hk' => hk k (List.mem_cons_of_mem _ hk')) (by rw [hl]; simp at h; omega)]
        rw [hl, ← List.drop_drop]
        rcases Nat.le_total k (sec.length - p) with h' | h'
        · rw [Nat.min_eq_left h', List.take_append_drop]
        · rw [Nat.min_eq_right h', List.take_of_length_le (by simp; omega)]; simp; omega
      · have hd : sec.drop p = [] := by simp; omega
        rw [hd]
        have := ih (p + ((sec.drop p).take k).length) (fun k hk' => hk k (List.mem_cons_of_mem _ hk')) (by simp at h; omega)
        rw [hd] at this
        simp only [List.take_nil, List.length_nil, Nat.add_zero, List.nil_append] at this ⊢
        rw [this, hd]
  simpa using key ks 0 hpos (by omega)

example : ∃ out cr', (ChunkReader.mk ⟨1, 3, 4⟩ Sha1Hash.zero 3).reset.reads [9, 8, 7, 6, 5] [2, 2, 2] = .ok (out, cr') ∧
    out.map (fun x => (x.1, x.2.1)) = [([8, 7], 0), ([6], 2), ([], 3)] := by
  obtain ⟨out, cr', h1, h2, _⟩ := C23_reads [9, 8, 7, 6, 5] ⟨⟨1, 3, 4⟩, Sha1Hash.zero, 3⟩ 1 3 3 rfl (by omega) [2, 2, 2]
  exact ⟨out, cr', h1, by rw [h2]; rfl⟩

/-! ## C24 -/

theorem newChunkReaderLoop_term (sha1 : Bytes → Sha1Hash) (content : Bytes) (cs : List AtChoice) (r : SectionReader) (size : Nat)
    (acc : Bytes) (h : r.limit - r.off < cs.countP (· == .good)) :
    ∃ cr, newChunkReaderLoop sha1 content r size acc cs = some cr := by
  induction cs generalizing r size acc with
  | nil => simp at h
  | cons c cs ih =>
    rw [newChunkReaderLoop]
    simp only []
    split
    · exact ⟨_, rfl⟩
    · rename_i hne
      apply ih
      unfold SectionReader.read at hne ⊢
      split
      · rename_i hge; rw [if_pos hge] at hne; exact absurd rfl hne
      · rename_i hlt
        rw [if_neg hlt] at hne
        cases c with
        | fail k =>
          simp only [List.countP_cons, show ((AtChoice.fail k == .good) = true) ↔ False by simp, if_false] at h
          show r.limit - (r.off + _) < _
          omega
        | good =>
          simp only [List.countP_cons, beq_self_eq_true, if_true] at h
          simp only [osReadAt] at hne ⊢
          have hl : ¬ ((content.drop r.off).take (min 4096 (r.limit - r.off))).length < min 4096 (r.limit - r.off) := by
            intro hh; rw [if_pos hh] at hne; exact hne rfl
          show r.limit - (r.off + _) < _
          omega

/-- C24 in full: opening a chunk finishes whatever the reads do, given enough of them. -/
def C24_statement : Prop := ∀ (sha1 : Bytes → Sha1Hash) (content : Bytes) (start n : Nat) (choices : Nat → AtChoice),
  ∃ k cr, newChunkReader sha1 content start n ((List.range k).map choices) = some cr

/-- C24 as far as it is true: opening a chunk finishes as soon as more than `n` reads have succeeded (each successful read makes
progress or reaches the end).  Missing: the case of reads that keep failing, where it is false. -/
theorem C24_terminates_partial (sha1 : Bytes → Sha1Hash) (content : Bytes) (start n : Nat) (cs : List AtChoice)
    (h : n < cs.countP (· == .good)) : ∃ cr, newChunkReader sha1 content start n cs = some cr := by
  apply newChunkReaderLoop_term
  simp only [newSectionReader]; omega

/-- C24: if every read from some point on fails without data, the call never returns, however long one waits. -/
theorem C24_hangs (sha1 : Bytes → Sha1Hash) (content : Bytes) (start n : Nat) (hn : 0 < n) (k : Nat) :
    newChunkReader sha1 content start n (List.replicate k (.fail 0)) = none := by
  have key : ∀ (k : Nat) (r : SectionReader) (size : Nat) (acc : Bytes), r.off < r.limit →
      newChunkReaderLoop sha1 content r size acc (List.replicate k (.fail 0)) = none := by
    intro k
    induction k with
    | zero => intros; rfl
    | succ k ih =>
      intro r size acc hr
      rw [List.replicate_succ, newChunkReaderLoop]
      have : r.read content 4096 (.fail 0) = ([], some .other, r) := by
        unfold SectionReader.read
        rw [if_neg (by omega)]
        simp [osReadAt]
      rw [this]
      simp only [show ((some ReadErr.other : Option ReadErr) = some .eof) ↔ False by simp, if_false]
      exact ih r _ _ hr
  exact key k _ 0 [] (by simp only [newSectionReader]; omega)

theorem C24_refuted : ¬ C24_statement := by
  intro h
  obtain ⟨k, cr, hk⟩ := h (fun _ => Sha1Hash.zero) [] 0 1 (fun _ => .fail 0)
  have : (List.range k).map (fun _ => AtChoice.fail 0) = List.replicate k (.fail 0) := by
    apply List.ext_getElem <;> simp
  rw [this, C24_hangs _ _ _ _ (by omega)] at hk
  cases hk

example (sha1 : Bytes → Sha1Hash) : ∃ cr, newChunkReader sha1 [1, 2, 3] 1 2 [.fail 1, .good, .fail 0, .good, .good] = some cr :=
  C24_terminates_partial sha1 _ 1 2 _ (by decide)

/-! ## C25 -/

/-- C25: the chunk count is the quotient rounded up. -/
theorem C25_count (size cs : Nat) (h : 0 < cs) : chunkCountOf size cs = .ok ((size + cs - 1) / cs : Nat) := by
  unfold chunkCountOf
  rw [if_neg (by omega)]
  have e1 : (size : Int).tdiv cs = ((size / cs : Nat) : Int) := rfl
  have e2 : (size : Int).tmod cs = ((size % cs : Nat) : Int) := rfl
  rw [e1, e2]
  congr 1
  have hd := Nat.div_add_mod size cs
  have hm := Nat.mod_lt size h
  split
  · rename_i hne
    have hpos : 0 < size % cs := by omega
    have : (size + cs - 1) / cs = size / cs + 1 := by
      rw [Nat.div_eq_iff h]
      rw [Nat.add_mul, Nat.one_mul, Nat.mul_comm (size / cs)]
      omega
    rw [this]; rfl
  · rename_i heq
    have hz : size % cs = 0 := by omega
    have : (size + cs - 1) / cs = size / cs := by
      rw [Nat.div_eq_iff h]
      rw [Nat.mul_comm (size / cs)]
      omega
    rw [this]

/-- C25: chunk `i` as the section a chunk reader is opened on (indexRecord.go:82-83) is the bytes
`[i*cs, min((i+1)*cs, size))`; chunks below the count are non-empty, and all but the last are full. -/
theorem C25_chunk (content : Bytes) (cs i : Nat) (h : 0 < cs) (hi : i < (content.length + cs - 1) / cs) :
    (slice content (i * cs) cs).length = min ((i + 1) * cs) content.length - i * cs ∧
    0 < (slice content (i * cs) cs).length ∧
    (i + 1 < (content.length + cs - 1) / cs → (slice content (i * cs) cs).length = cs) := by
  have hlen : (slice content (i * cs) cs).length = min cs (content.length - i * cs) := by simp [slice]
  have h1 : (i + 1) * cs = i * cs + cs := by rw [Nat.add_mul, Nat.one_mul]
  have hlt : i * cs < content.length := by
    have := (Nat.le_div_iff_mul_le h).1 (show i + 1 ≤ _ from hi)
    omega
  rw [hlen]
  refine ⟨by omega, by omega, ?_⟩
  intro hnext
  have := (Nat.le_div_iff_mul_le h).1 (show i + 1 + 1 ≤ _ from hnext)
  rw [Nat.add_mul (i + 1), Nat.one_mul] at this
  omega

/-- C25: the chunks in order, concatenated, are the file. -/
theorem C25_partition (content : Bytes) (cs : Nat) (h : 0 < cs) :
    ((List.range ((content.length + cs - 1) / cs)).map (fun i => slice content (i * cs) cs)).flatten = content := by
  have key : ∀ k, ((List.range k).map (fun i => slice content (i * cs) cs)).flatten = content.take (k * cs) := by
    intro k
    induction k with
    | zero => simp
    | succ k ih =>
      rw [List.range_succ, List.map_append, List.flatten_append, ih]
      simp only [List.map_cons, List.map_nil, List.flatten_cons, List.flatten_nil, List.append_nil, slice]
      rw [take_append_slice, Nat.add_mul, Nat.one_mul]
  rw [key, List.take_of_length_le]
  have hm := Nat.mod_lt (content.length + cs - 1) h
  have hd := Nat.div_add_mod (content.length + cs - 1) cs
  rw [Nat.mul_comm] at hd
  omega

example : chunkCountOf (10 : Nat) (4 : Nat) = .ok 3 := C25_count 10 4 (by omega)
example : slice [0, 1, 2, 3, 4, 5, 6, 7, 8, 9] (2 * 4) 4 = [8, 9] := rfl

end Flu
