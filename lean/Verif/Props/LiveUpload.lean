import Verif.Model.LiveUpload
import Verif.Props.Sender
import Verif.Props.Download
/-!
# A chunk of a file that changes while it is uploaded (C126)
-/
namespace Flu
open Spec

/-! ### Specification -/

/-- What a look at no more than `k` bytes finds at position `pos` of the section of `n` bytes that begins at `start`, when the file is `v`. -/
def Spec.look (start n k pos : Nat) (v : Bytes) : Bytes := (v.drop (start + pos)).take (min k (n - pos))

/-- Packets that begin where the one before ended, the first of them at `pos`; each one carries what the file contained there at a time when it was one of `vs`. -/
def Spec.Chained (vs : List Bytes) (start n : Nat) : Nat → List Packet → Prop
  | _, [] => True
  | pos, p :: ps => p.offset.toNat = pos ∧ (∃ v ∈ vs, p.data = Spec.look start n 1024 pos v) ∧ Spec.Chained vs start n (pos + p.data.length) ps

/-- Every byte of `d` is the byte that one of `vs` has in its place. -/
def Spec.Mixed (vs : List Bytes) (start : Nat) (d : Bytes) : Prop := ∀ i, i < d.length → ∃ v ∈ vs, v[start + i]? = d[i]?

/-- The first `size` bytes of `d`, with zeros in place of missing ones. -/
def Spec.glue (size : Nat) (d : Bytes) : Bytes := d.take size ++ List.replicate (size - d.length) 0

theorem look_length_le (start n k pos : Nat) (v : Bytes) : (look start n k pos v).length ≤ min k (n - pos) := by
  unfold look; rw [List.length_take]; omega

theorem look_get {start n k pos : Nat} {v : Bytes} {i : Nat} (h : i < (look start n k pos v).length) : (look start n k pos v)[i]? = v[start + (pos + i)]? := by
  have := look_length_le start n k pos v
  unfold look
  rw [List.getElem?_take_of_lt (by omega), List.getElem?_drop, Nat.add_assoc]

/-- Nothing is found only behind the end of the file or of the section. -/
theorem look_nil {start n k pos : Nat} {v : Bytes} (hk : 0 < k) (h : look start n k pos v = []) : v.length ≤ start + pos ∨ n ≤ pos := by
  have := congrArg List.length h
  unfold look at this
  rw [List.length_take, List.length_drop, List.length_nil] at this
  omega

theorem look_ne {start n k pos : Nat} {v : Bytes} (h : look start n k pos v ≠ []) : start + pos < v.length ∧ pos < n := by
  have := List.length_pos_iff.2 h
  unfold look at this
  rw [List.length_take, List.length_drop] at this
  omega

theorem glue_length (size : Nat) (d : Bytes) : (glue size d).length = size := by
  unfold glue; rw [List.length_append, List.length_take, List.length_replicate]; omega

theorem glue_get (size : Nat) (d : Bytes) (i : Nat) (h : i < size) : (glue size d)[i]? = if i < d.length then d[i]? else some 0 := by
  unfold glue
  split
  · rename_i hi
    rw [List.getElem?_append_left (by rw [List.length_take]; omega), List.getElem?_take_of_lt h]
  · rename_i hi
    rw [List.getElem?_append_right (by rw [List.length_take]; omega), List.length_take, List.getElem?_replicate_of_lt (by omega)]

theorem glue_out (size : Nat) (d : Bytes) (i : Nat) (h : size ≤ i) : (glue size d)[i]? = none := List.getElem?_eq_none (by rw [glue_length]; exact h)

/-! ### Opening -/

/-- What holds in the loop that opens a chunk. -/
structure OpenInv (vs : List Bytes) (start n : Nat) (r : SectionReader) (size : Nat) (acc : Bytes) : Prop where
  base : r.base = start
  off : r.off = start + acc.length
  limit : r.limit = start + n
  size : size = acc.length
  le : acc.length ≤ n
  mixed : Mixed vs start acc

theorem section_read (v : Bytes) (start n p k : Nat) (c : AtChoice) (hp : p ≤ n) :
    ∃ got err, SectionReader.read v ⟨start, start + p, start + n⟩ k c = (got, err, ⟨start, start + (p + got.length), start + n⟩) ∧
      (∃ j, got = look start n j p v) ∧ p + got.length ≤ n ∧
      (err ≠ some .other → got = look start n k p v) ∧ (c = .good → err ≠ some .other) ∧ (err = some .eof → (slice v start n).length ≤ p + got.length ∨ k = 0) := by
  unfold SectionReader.read
  simp only [ge_iff_le, Nat.add_le_add_iff_left]
  by_cases hpn : n ≤ p
  · have hl : ∀ j, look start n j p v = [] := by
      intro j
      have := look_length_le start n j p v
      exact List.length_eq_zero_iff.1 (by omega)
    rw [if_pos hpn]
    have h2 := slice_length_le v start n
    exact ⟨[], some .eof, rfl, ⟨0, (hl 0).symm⟩, by simpa using hp, fun _ => (hl k).symm, (fun _ h => by cases h), fun _ => by left; rw [List.length_nil]; omega⟩
  · rw [if_neg hpn]
    have hlim : start + n - (start + p) = n - p := by omega
    cases c with
    | good =>
      refine ⟨look start n k p v, if (look start n k p v).length < min k (n - p) then some .eof else none, ?_, ⟨k, rfl⟩, ?_, fun _ => rfl, fun _ => ?_, ?_⟩
      · unfold look
        simp only [osReadAt, hlim, Nat.add_assoc]
      · have := look_length_le start n k p v; omega
      · split <;> (intro h; cases h)
      · intro h
        split at h
        · rename_i hlt
          unfold look at hlt
          rw [List.length_take, List.length_drop] at hlt
          unfold look slice
          rw [List.length_take, List.length_take, List.length_drop, List.length_drop]
          omega
        · cases h
    | fail f =>
      refine ⟨look start n (min f k) p v, some .other, ?_, ⟨_, rfl⟩, ?_, fun h => absurd rfl h, (fun h => by cases h), fun h => by cases h⟩
      · unfold look
        simp only [osReadAt, hlim, Nat.add_assoc]
        have : min f (min k (n - p)) = min (min f k) (n - p) := by omega
        rw [this]
      · have := look_length_le start n (min f k) p v; omega

theorem mixed_more {vs : List Bytes} {start n k : Nat} {acc v : Bytes} (h : Mixed vs start acc) (hv : v ∈ vs) : Mixed vs start (acc ++ look start n k acc.length v) := by
  intro i hi
  rw [List.length_append] at hi
  by_cases hlt : i < acc.length
  · rw [List.getElem?_append_left hlt]; exact h i hlt
  · rw [List.getElem?_append_right (by omega), look_get (by omega)]
    exact ⟨v, hv, by congr 1; omega⟩

theorem openLiveLoop_sound (sha1 : Bytes → Sha1Hash) (vs : List Bytes) (start n : Nat) (looks : List (Bytes × AtChoice)) (hlooks : ∀ x ∈ looks, x.1 ∈ vs) :
    ∀ (r : SectionReader) (size : Nat) (acc : Bytes), OpenInv vs start n r size acc → ∀ cr, openLiveLoop sha1 r size acc looks = some cr →
    ∃ opened, cr.hash = sha1 opened ∧ cr.size = opened.length ∧ cr.reader = ⟨start, start, start + n⟩ ∧ opened.length ≤ n ∧ Mixed vs start opened ∧
      ∃ u ∈ vs, (slice u start n).length ≤ opened.length := by
  induction looks with
  | nil => intro r size acc hi cr h; rw [openLiveLoop] at h; cases h
  | cons x looks ih =>
    intro r size acc hi cr h
    obtain ⟨v, c⟩ := x
    rw [openLiveLoop] at h
    obtain ⟨r1, r2, r3⟩ := r
    obtain rfl : r1 = start := hi.base
    obtain rfl : r2 = r1 + acc.length := hi.off
    obtain rfl : r3 = r1 + n := hi.limit
    obtain ⟨got, err, e1, ⟨j, hj⟩, e3, -, -, e6⟩ := section_read v r1 n acc.length 4096 c hi.le
    have hv : v ∈ vs := hlooks (v, c) (by simp)
    have hm : Mixed vs r1 (acc ++ got) := by rw [hj]; exact mixed_more hi.mixed hv
    have hsz : (if got.length > 0 then size + got.length else size) = size + got.length := by split <;> omega
    simp only [e1, ite_append, hsz] at h
    split at h
    · rename_i heof
      injection h with h
      subst h
      refine ⟨acc ++ got, by simp only [fromSlice_hash], ?_, rfl, ?_, hm, v, hv, ?_⟩
      · show size + got.length = _
        rw [hi.size, List.length_append]
      · rw [List.length_append]; exact e3
      · rw [List.length_append]
        rcases e6 heof with e6 | e6
        · exact e6
        · cases e6
    · refine ih (fun y hy => hlooks y (by simp [hy])) _ _ _ ⟨rfl, ?_, rfl, ?_, ?_, hm⟩ cr h
      · rw [List.length_append]
      · rw [hi.size, List.length_append]
      · rw [List.length_append]; exact e3

/-- Opening: the announced hash and size are those of a mixture of what the file contained during the opening, no shorter than the section was at one of these moments. -/
theorem openLive_sound {sha1 : Bytes → Sha1Hash} {start n : Nat} {looks : List (Bytes × AtChoice)} {cr : ChunkReader} (h : openLive sha1 start n looks = some cr) :
    ∃ opened, cr.hash = sha1 opened ∧ cr.size = opened.length ∧ cr.reader = ⟨start, start, start + n⟩ ∧ opened.length ≤ n ∧ Mixed (looks.map (·.1)) start opened ∧
      ∃ u ∈ looks.map (·.1), (slice u start n).length ≤ opened.length :=
  openLiveLoop_sound sha1 (looks.map (·.1)) start n looks (fun x hx => List.mem_map.2 ⟨x, hx, rfl⟩) _ 0 []
    ⟨rfl, rfl, rfl, rfl, Nat.zero_le _, fun i hi => by cases hi⟩ cr h

theorem openLiveLoop_term (sha1 : Bytes → Sha1Hash) (start n : Nat) (looks : List (Bytes × AtChoice)) : ∀ (p size : Nat) (acc : Bytes), p ≤ n →
    n - p < looks.countP (fun x => x.2 == .good) → ∃ cr, openLiveLoop sha1 ⟨start, start + p, start + n⟩ size acc looks = some cr := by
  induction looks with
  | nil => intro p size acc hp h; simp at h
  | cons x looks ih =>
    intro p size acc hp h
    obtain ⟨v, c⟩ := x
    rw [openLiveLoop]
    obtain ⟨got, err, e1, -, e3, e4, e5, -⟩ := section_read v start n p 4096 c hp
    simp only [e1]
    split
    · exact ⟨_, rfl⟩
    · rename_i hne
      apply ih _ _ _ e3
      cases c with
      | fail f =>
        simp only [List.countP_cons, show ((AtChoice.fail f == .good) = true) ↔ False by simp, if_false] at h
        omega
      | good =>
        simp only [List.countP_cons, beq_self_eq_true, if_true] at h
        have hg := e4 (e5 rfl)
        -- a good read without the end found all it asked for
        have : 0 < got.length := by
          by_cases hpn : n ≤ p
          · exfalso
            unfold SectionReader.read at e1
            rw [if_pos (by simpa using hpn)] at e1
            injection e1 with _ e1
            injection e1 with e1 _
            exact hne e1.symm
          · unfold SectionReader.read at e1
            rw [if_neg (by simpa using hpn)] at e1
            simp only [osReadAt] at e1
            injection e1 with e1 e2
            injection e2 with e2 _
            rw [← e2] at hne
            split at hne
            · exact absurd rfl hne
            · rename_i hl
              rw [e1] at hl
              omega
        omega

/-! ### Sending -/

theorem read_look (cr : ChunkReader) (v : Bytes) (start n p k : Nat) (c : AtChoice) (hr : cr.reader = ⟨start, start + p, start + n⟩) (hp : p ≤ n) (hn : n < 2 ^ 32) :
    ∃ got err, cr.read v k c = .ok (got, UInt32.ofNat p, err, { cr with reader := ⟨start, start + (p + got.length), start + n⟩ }) ∧ p + got.length ≤ n ∧
      (err ≠ some .other → got = look start n k p v) ∧ (c = .good → err ≠ some .other) := by
  obtain ⟨got, err, e1, -, e3, e4, e5, -⟩ := section_read v start n p k c hp
  refine ⟨got, err, ?_, e3, e4, e5⟩
  unfold ChunkReader.read ChunkReader.offset
  rw [hr]
  simp only []
  rw [if_neg (by omega), Res.bind_ok, e1]
  have : start + p - start = p := by omega
  rw [this]
  rfl

theorem Spec.Chained.snoc {vs : List Bytes} {start n : Nat} {ps : List Packet} {q : Packet} : ∀ {pos : Nat}, Chained vs start n pos ps →
    q.offset.toNat = pos + (ps.flatMap (·.data)).length → (∃ v ∈ vs, q.data = look start n 1024 (pos + (ps.flatMap (·.data)).length) v) → Chained vs start n pos (ps ++ [q]) := by
  induction ps with
  | nil => intro pos _ h1 h2; exact ⟨h1, h2, trivial⟩
  | cons p ps ih =>
    intro pos h h1 h2
    rw [List.flatMap_cons, List.length_append, ← Nat.add_assoc] at h1 h2
    exact ⟨h.1, h.2.1, ih h.2.2 h1 h2⟩

theorem Spec.Chained.mono {vs ws : List Bytes} {start n : Nat} {ps : List Packet} (hs : ∀ v ∈ vs, v ∈ ws) : ∀ {pos : Nat}, Chained vs start n pos ps → Chained ws start n pos ps := by
  induction ps with
  | nil => intro pos _; trivial
  | cons p ps ih =>
    intro pos h
    obtain ⟨h1, ⟨v, hv, h2⟩, h3⟩ := h
    exact ⟨h1, ⟨v, hs v hv, h2⟩, ih h3⟩

/-- What holds of the connection, once `pos` bytes of the section have been sent. -/
structure LiveInv (start n : Nat) (faults : Bool) (pos : Nat) (s : Sender) : Prop where
  reader : s.worker.Alive → s.reader.reader = ⟨start, start + pos, start + n⟩ ∧ pos ≤ n
  alive : faults = false → s.worker.Alive

theorem LiveInv.step {start n pos : Nat} {faults : Bool} {v : Bytes} {s s' : Sender} {e : Ev} (hn : n < 2 ^ 32) (hi : LiveInv start n faults pos s) (h : SStep v faults s e s') :
    (sends [e] = [] ∧ LiveInv start n faults pos s') ∨
      ∃ p, e = .sent p ∧ p.offset.toNat = pos ∧ p.data = look start n 1024 pos v ∧ LiveInv start n faults (pos + p.data.length) s' := by
  cases h with
  | arrive => exact .inl ⟨rfl, hi.reader, hi.alive⟩
  | take hw hp => exact .inl ⟨rfl, fun _ => hi.reader (by rw [hw]; trivial), fun _ => trivial⟩
  | cancel hw hc => exact .inl ⟨rfl, fun _ => hi.reader (by rw [hw]; trivial), fun _ => trivial⟩
  | turn ends rd sends hw hf =>
    obtain ⟨hr, hp⟩ := hi.reader (by rw [hw]; trivial)
    unfold kickTurn
    split
    · obtain ⟨got, err, e1, e2, e3, e4⟩ := read_look s.reader v start n pos 1024 rd hr hp hn
      rw [e1]
      simp only []
      by_cases he : err = some .other
      · rw [if_pos he]
        refine .inl ⟨rfl, fun ha => ha.elim, fun hx => ?_⟩
        exact absurd he (e4 (hf hx).1)
      · rw [if_neg he]
        cases sends with
        | true =>
          simp only [if_true]
          refine .inr ⟨_, rfl, ?_, e3 he, fun _ => ⟨rfl, e2⟩, fun _ => trivial⟩
          rw [UInt32.toNat_ofNat']
          exact Nat.mod_eq_of_lt (by omega)
        | false =>
          simp only [Bool.false_eq_true, if_false]
          exact .inl ⟨rfl, fun ha => ha.elim, fun hx => by cases (hf hx).2⟩
    · exact .inl ⟨rfl, fun _ => ⟨hr, hp⟩, fun _ => trivial⟩
  | terminate left failed hw hc =>
    refine .inl ⟨rfl, fun ha => hi.reader ?_, fun hx => ?_⟩
    · rw [hw]; cases failed
      · trivial
      · exact ha
    · have := hi.alive hx
      rw [hw] at this; cases failed
      · trivial
      · exact this
  | ret failed hw =>
    refine .inl ⟨rfl, fun ha => hi.reader ?_, fun hx => ?_⟩
    · rw [hw]; cases failed
      · trivial
      · exact ha
    · have := hi.alive hx
      rw [hw] at this; cases failed
      · trivial
      · exact this.elim

theorem LiveRun.inv {start n pos : Nat} {faults : Bool} {s s' : Sender} {vs : List Bytes} {tr : List Ev} (hn : n < 2 ^ 32) (h : LiveRun faults s vs tr s') (hi : LiveInv start n faults pos s) :
    Chained vs start n pos (sends tr) ∧ LiveInv start n faults (pos + ((sends tr).flatMap (·.data)).length) s' := by
  induction h with
  | refl => exact ⟨trivial, hi⟩
  | @step t u vs tr e v h h' ih =>
    obtain ⟨h1, h2⟩ := ih
    rw [sends_append]
    have h1' : Chained (vs ++ [v]) start n pos (sends tr) := h1.mono (fun x hx => List.mem_append.2 (.inl hx))
    rcases h2.step hn h' with ⟨g1, g2⟩ | ⟨p, rfl, g2, g3, g4⟩
    · rw [g1, List.append_nil]; exact ⟨h1', g2⟩
    · show Chained _ _ _ _ (sends tr ++ [p]) ∧ _
      refine ⟨h1'.snoc g2 ⟨v, by simp, g3⟩, ?_⟩
      show LiveInv _ _ _ (pos + (List.flatMap (·.data) (sends tr ++ [p])).length) _
      rw [List.flatMap_append, List.length_append, ← Nat.add_assoc]
      simpa using g4

theorem kickstart_live (cr : ChunkReader) (first : Bytes) (start n : Nat) (cap : UInt16) (hr : cr.reader = ⟨start, start, start + n⟩) (hn : n < 2 ^ 32) (rd : AtChoice) :
    (∃ s0, kickstart first (newSender cr cap) cr.hash cr.size rd true = (.err .io, s0) ∧ rd ≠ .good) ∨
    kickstart first (newSender cr cap) cr.hash cr.size rd true = (.ok ⟨0, cr.hash.1 ++ put32 (UInt32.ofNat cr.size) ++ look start n 1000 0 first⟩,
      ⟨{ cr with reader := ⟨start, start + (look start n 1000 0 first).length, start + n⟩ }, 1, cap, 0, false, .select⟩) := by
  have hr' : (cr.reset).reader = ⟨start, start + 0, start + n⟩ := by unfold ChunkReader.reset; rw [hr]; rfl
  obtain ⟨got, err, e1, e2, e3, e4⟩ := read_look cr.reset first start n 0 1000 rd hr' (Nat.zero_le _) hn
  unfold kickstart newSender
  simp only [e1]
  by_cases he : err = some .other
  · left
    rw [if_pos he]
    exact ⟨_, rfl, fun hx => e4 hx he⟩
  · right
    rw [if_neg he, e3 he]
    simp only [Nat.zero_add, if_true]
    rfl

/-! ### C126, the sharer -/

/-- **C126, opening a chunk** finishes when more than `n` reads have succeeded, however the file changes meanwhile. -/
theorem C126_opens (sha1 : Bytes → Sha1Hash) (start n : Nat) (looks : List (Bytes × AtChoice)) (h : n < looks.countP (fun x => x.2 == .good)) :
    ∃ cr, openLive sha1 start n looks = some cr := openLiveLoop_term sha1 start n looks 0 0 [] (Nat.zero_le _) h

/-- **C126, what is sent.**  The first packet announces the hash and the size of bytes that the file contained during the opening (every byte at one of its moments), followed by what the section
begins with when the packet is made; the others begin where the one before ended, and carry what the file contained there at some moment of the upload. -/
theorem C126_sent (sha1 : Bytes → Sha1Hash) (start n : Nat) (hn : n < 2 ^ 32) (faults : Bool) (cap : UInt16) (looks : List (Bytes × AtChoice)) (first : Bytes) (vs : List Bytes)
    (tr : List Ev) (s : Sender) (h : LiveUpload sha1 start n faults cap looks first vs tr s) :
    ∃ opened ps, sends tr = ⟨0, (sha1 opened).1 ++ put32 (UInt32.ofNat opened.length) ++ look start n 1000 0 first⟩ :: ps ∧
      Chained vs start n (look start n 1000 0 first).length ps ∧ opened.length ≤ n ∧ Mixed (looks.map (·.1)) start opened ∧
      ∃ u ∈ looks.map (·.1), (slice u start n).length ≤ opened.length := by
  obtain ⟨cr, rd, p, s0, tr', h1, h2, h3, h4, rfl⟩ := h
  obtain ⟨opened, g1, g2, g3, g4, g5, g6⟩ := openLive_sound h1
  rcases kickstart_live cr first start n cap g3 hn rd with ⟨s1, k1, -⟩ | k1
  · rw [k1] at h3; cases h3
  · rw [k1] at h3
    cases h3
    obtain ⟨q1, -⟩ := h4.inv (pos := (look start n 1000 0 first).length) hn
      ⟨fun _ => ⟨rfl, by have := look_length_le start n 1000 0 first; omega⟩, fun _ => trivial⟩
    rw [g1, g2]
    exact ⟨opened, _, rfl, q1, g4, g5, g6⟩

/-- **C126, the sharer survives.**  As long as reading the file and sending succeed, no change of the file ends the daemon that uploads it. -/
theorem C126_survives (sha1 : Bytes → Sha1Hash) (start n : Nat) (hn : n < 2 ^ 32) (cap : UInt16) (looks : List (Bytes × AtChoice)) (first : Bytes) (vs : List Bytes)
    (tr : List Ev) (s : Sender) (h : LiveUpload sha1 start n false cap looks first vs tr s) : s.worker ≠ .dead := by
  obtain ⟨cr, rd, p, s0, tr', h1, h2, h3, h4, rfl⟩ := h
  obtain ⟨opened, g1, g2, g3, g4, g5, g6⟩ := openLive_sound h1
  rcases kickstart_live cr first start n cap g3 hn rd with ⟨s1, k1, -⟩ | k1
  · rw [k1] at h3; cases h3
  · rw [k1] at h3
    cases h3
    obtain ⟨-, q2⟩ := h4.inv (pos := (look start n 1000 0 first).length) hn
      ⟨fun _ => ⟨rfl, by have := look_length_le start n 1000 0 first; omega⟩, fun _ => trivial⟩
    intro hd
    have := q2.alive rfl
    rw [hd] at this
    exact this

/-! ### The downloader -/

theorem copyAt_glue (size : Nat) (acc d : Bytes) (h : acc.length ≤ size) : copyAt (glue size acc) acc.length d = .ok (glue size (acc ++ d)) := by
  unfold copyAt
  rw [glue_length, if_neg (by omega)]
  congr 1
  apply List.ext_getElem?
  intro i
  have hl1 : ((glue size acc).take acc.length).length = acc.length := by rw [List.length_take, glue_length]; omega
  have hl2 : (d.take (size - acc.length)).length = min (size - acc.length) d.length := List.length_take
  by_cases hi : i < size
  · rw [glue_get size (acc ++ d) i hi, List.length_append]
    by_cases h1 : i < acc.length
    · rw [if_pos (by omega), List.append_assoc, List.getElem?_append_left (by omega), List.getElem?_take_of_lt h1, glue_get size acc i hi, if_pos h1, List.getElem?_append_left h1]
    · by_cases h2 : i < acc.length + d.length
      · rw [if_pos h2, List.getElem?_append_left (by rw [List.length_append]; omega), List.getElem?_append_right (by omega), hl1, List.getElem?_take_of_lt (by omega),
          List.getElem?_append_right (by omega)]
      · rw [if_neg h2, List.getElem?_append_right (by rw [List.length_append]; omega), List.length_append, hl1, hl2, List.getElem?_drop,
          glue_get size acc _ (by omega), if_neg (by omega)]
  · rw [glue_out size _ i (by omega), List.getElem?_eq_none]
    rw [List.length_append, List.length_append, hl1, hl2, List.length_drop, glue_length]
    omega

theorem copyAt_beyond (size : Nat) (acc d : Bytes) (h : size < acc.length) : copyAt (glue size acc) acc.length d = .panic := by
  unfold copyAt
  rw [glue_length, if_pos h]

theorem onPacket_announce (sha1 : Bytes → Sha1Hash) (c : RConn) (h : Sha1Hash) (size : Nat) (hs : size < 2 ^ 32) (d : Bytes) :
    ∃ k, onPacket sha1 c ⟨0, h.1 ++ put32 (UInt32.ofNat size) ++ d⟩ = .ok (⟨some h, glue size d, k⟩, .ack 0) := by
  have hsp := C19_split h (UInt32.ofNat size) d []
  rw [List.append_nil] at hsp
  have hsz : (UInt32.ofNat size).toNat = size := by rw [UInt32.toNat_ofNat']; exact Nat.mod_eq_of_lt hs
  have hg : glue size [] = List.replicate size 0 := by unfold glue; simp
  have hc := copyAt_glue size [] d (Nat.zero_le _)
  rw [hg, List.nil_append, List.length_nil] at hc
  unfold onPacket
  simp only [if_true]
  rw [hsp, Res.bind_ok]
  simp only [hsz]
  rw [hc, Res.bind_ok]
  exact ⟨_, rfl⟩

/-- What a chain of packets does to a downloader that has received `acc`. -/
theorem recv_chain (sha1 : Bytes → Sha1Hash) (vs : List Bytes) (start n : Nat) (h : Sha1Hash) (size : Nat) (ps : List Packet) : ∀ (acc : Bytes) (k : Nat), acc ≠ [] →
    Chained vs start n acc.length ps →
    (recvLoop sha1 ⟨some h, glue size acc, k⟩ (ps.map (fun p => some p.bytes)) = .panic ∧
      ∃ qs p rs, ps = qs ++ p :: rs ∧ (∀ q ∈ qs, q.data ≠ []) ∧ p.data ≠ [] ∧ size < p.offset.toNat) ∨
    ((¬ ∃ qs p rs, ps = qs ++ p :: rs ∧ (∀ q ∈ qs, q.data ≠ []) ∧ p.data ≠ [] ∧ size < p.offset.toNat) ∧
      ((∃ acks c, recvLoop sha1 ⟨some h, glue size acc, k⟩ (ps.map (fun p => some p.bytes)) = .ok (acks, .waiting c)) ∨
       ∃ acks qs e rs, ps = qs ++ e :: rs ∧ (∀ q ∈ qs, q.data ≠ []) ∧ e.data = [] ∧ recvLoop sha1 ⟨some h, glue size acc, k⟩ (ps.map (fun p => some p.bytes)) =
        .ok (acks, .finished (glue size (acc ++ qs.flatMap (·.data))) (decide (sha1 (glue size (acc ++ qs.flatMap (·.data))) = h))))) := by
  induction ps with
  | nil =>
    intro acc k _ _
    refine .inr ⟨?_, .inl ⟨_, _, rfl⟩⟩
    rintro ⟨qs, p, rs, e, -⟩
    cases qs <;> cases e
  | cons p ps ih =>
    intro acc k hne hch
    obtain ⟨h1, ⟨v, hv, h2⟩, h3⟩ := hch
    have hacc := List.length_pos_iff.2 hne
    have hlen : p.data.length ≤ 1024 := by have := look_length_le start n 1024 acc.length v; rw [h2]; omega
    have h0 : p.offset ≠ 0 := by
      intro hx
      rw [hx] at h1
      have : (0 : UInt32).toNat = 0 := rfl
      omega
    rw [List.map_cons, recvLoop_packet _ _ _ hlen]
    unfold onPacket
    rw [if_neg h0]
    by_cases hd : p.data = []
    · rw [if_neg (by rw [hd]; simp)]
      simp only [Res.pure_eq, Res.bind_ok]
      refine .inr ⟨?_, .inr ⟨[], [], p, ps, rfl, (fun q hq => by cases hq), hd, by simp⟩⟩
      rintro ⟨qs, q, rs, e, g1, g2, -⟩
      cases qs with
      | nil => cases e; exact g2 hd
      | cons x qs => cases e; exact g1 p (by simp) hd
    · rw [if_pos (List.length_pos_iff.2 hd)]
      simp only []
      rw [h1]
      by_cases hsz : acc.length ≤ size
      · rw [copyAt_glue size acc p.data hsz, Res.bind_ok]
        simp only [Res.pure_eq, Res.bind_ok]
        have hsplit : (∃ qs q rs, p :: ps = qs ++ q :: rs ∧ (∀ q ∈ qs, q.data ≠ []) ∧ q.data ≠ [] ∧ size < q.offset.toNat) ↔
            ∃ qs q rs, ps = qs ++ q :: rs ∧ (∀ q ∈ qs, q.data ≠ []) ∧ q.data ≠ [] ∧ size < q.offset.toNat := by
          constructor
          · rintro ⟨qs, q, rs, e, g1, g2, g3⟩
            cases qs with
            | nil => cases e; omega
            | cons x qs => cases e; exact ⟨qs, q, rs, rfl, fun y hy => g1 y (by simp [hy]), g2, g3⟩
          · rintro ⟨qs, q, rs, rfl, g1, g2, g3⟩
            refine ⟨p :: qs, q, rs, rfl, fun y hy => ?_, g2, g3⟩
            rcases List.mem_cons.1 hy with rfl | hy
            · exact hd
            · exact g1 y hy
        rw [hsplit]
        rw [← List.length_append] at h3
        rcases ih (acc ++ p.data) (k + p.data.length) (by simp [hne]) h3 with ⟨g1, g2⟩ | ⟨g1, ⟨acks, c, g2⟩ | ⟨acks, qs, e, rs, rfl, g3, g4, g5⟩⟩
        · exact .inl ⟨by rw [g1]; rfl, g2⟩
        · exact .inr ⟨g1, .inl ⟨_, c, by rw [g2]; rfl⟩⟩
        · refine .inr ⟨g1, .inr ⟨p.offset :: acks, p :: qs, e, rs, rfl, ?_, g4, ?_⟩⟩
          · intro y hy
            rcases List.mem_cons.1 hy with rfl | hy
            · exact hd
            · exact g3 y hy
          · rw [g5, List.flatMap_cons, ← List.append_assoc]; rfl
      · refine .inl ⟨?_, [], p, ps, rfl, (fun q hq => by cases hq), hd, by omega⟩
        rw [copyAt_beyond size acc p.data (by omega)]
        rfl

theorem first_length (h : Sha1Hash) (x : UInt32) (d : Bytes) (hd : d.length ≤ 1000) : (h.1 ++ put32 x ++ d).length ≤ 1024 := by
  have := h.2
  simp only [List.length_append, put32, beBytes_length]
  omega

theorem look_first_le (start n : Nat) (v : Bytes) : (look start n 1000 0 v).length ≤ 1000 := by have := look_length_le start n 1000 0 v; omega

/-- The same from the first packet on. -/
theorem recv_upload (sha1 : Bytes → Sha1Hash) (vs : List Bytes) (start n : Nat) (h : Sha1Hash) (size : Nat) (hs : size < 2 ^ 32) (ps : List Packet) (d : Bytes) (hd : d ≠ [])
    (hd' : d.length ≤ 1000) (hch : Chained vs start n d.length ps) :
    (recvLoop sha1 .fresh ((⟨0, h.1 ++ put32 (UInt32.ofNat size) ++ d⟩ :: ps).map (fun p => some p.bytes)) = .panic ∧
      ∃ qs p rs, ps = qs ++ p :: rs ∧ (∀ q ∈ qs, q.data ≠ []) ∧ p.data ≠ [] ∧ size < p.offset.toNat) ∨
    ((¬ ∃ qs p rs, ps = qs ++ p :: rs ∧ (∀ q ∈ qs, q.data ≠ []) ∧ p.data ≠ [] ∧ size < p.offset.toNat) ∧
      ((∃ acks c, recvLoop sha1 .fresh ((⟨0, h.1 ++ put32 (UInt32.ofNat size) ++ d⟩ :: ps).map (fun p => some p.bytes)) = .ok (acks, .waiting c)) ∨
       ∃ acks qs e rs, ps = qs ++ e :: rs ∧ (∀ q ∈ qs, q.data ≠ []) ∧ e.data = [] ∧
        recvLoop sha1 .fresh ((⟨0, h.1 ++ put32 (UInt32.ofNat size) ++ d⟩ :: ps).map (fun p => some p.bytes)) =
        .ok (acks, .finished (glue size (d ++ qs.flatMap (·.data))) (decide (sha1 (glue size (d ++ qs.flatMap (·.data))) = h))))) := by
  obtain ⟨k, hk⟩ := onPacket_announce sha1 .fresh h size hs d
  rw [List.map_cons, recvLoop_packet _ _ _ (first_length h _ d hd'), hk, Res.bind_ok]
  simp only []
  rcases recv_chain sha1 vs start n h size ps d k hd hch with ⟨g1, g2⟩ | ⟨g1, ⟨acks, c, g2⟩ | ⟨acks, qs, e, rs, g0, g3, g4, g5⟩⟩
  · exact .inl ⟨by rw [g1]; rfl, g2⟩
  · exact .inr ⟨g1, .inl ⟨_, c, by rw [g2]; rfl⟩⟩
  · exact .inr ⟨g1, .inr ⟨_, qs, e, rs, g0, g3, g4, by rw [g5]; rfl⟩⟩

/-- The bytes of a chain, behind those of the first packet. -/
theorem chained_mixed {vs ws : List Bytes} {start n : Nat} (hs : ∀ v ∈ vs, v ∈ ws) (ps rs : List Packet) : ∀ (acc : Bytes), Mixed ws start acc → Chained vs start n acc.length (ps ++ rs) →
    Mixed ws start (acc ++ ps.flatMap (·.data)) ∧ Chained vs start n (acc ++ ps.flatMap (·.data)).length rs := by
  induction ps with
  | nil => intro acc h1 h2; simpa using ⟨h1, h2⟩
  | cons p ps ih =>
    intro acc h1 h2
    obtain ⟨-, ⟨v, hv, g2⟩, g3⟩ := h2
    rw [List.flatMap_cons, ← List.append_assoc]
    refine ih _ ?_ ?_
    · rw [g2]; exact mixed_more h1 (hs v hv)
    · rw [List.length_append]; exact g3

/-- A chain carries nothing beyond the longest of the contents. -/
theorem chained_bound {vs : List Bytes} {start n m : Nat} (hm : ∀ v ∈ vs, (slice v start n).length ≤ m) (qs : List Packet) (p : Packet) (rs : List Packet) : ∀ (pos : Nat),
    Chained vs start n pos (qs ++ p :: rs) → p.data ≠ [] → p.offset.toNat < m := by
  induction qs with
  | nil =>
    intro pos h hp
    obtain ⟨h1, ⟨v, hv, h2⟩, -⟩ := h
    rw [h2] at hp
    have g1 := look_ne hp
    have g2 := hm v hv
    unfold slice at g2
    rw [List.length_take, List.length_drop] at g2
    omega
  | cons q qs ih => intro pos h hp; exact ih _ h.2.2 hp

/-- The size that a first packet announces. -/
def Spec.sizeIn (f : Packet) : Nat := beNat ((f.data.drop 20).take 4)

theorem sizeIn_first (h : Sha1Hash) (size : Nat) (hs : size < 2 ^ 32) (o : UInt32) (d : Bytes) : sizeIn ⟨o, h.1 ++ put32 (UInt32.ofNat size) ++ d⟩ = size := by
  have h1 : (UInt32.ofNat size).toNat = size := by rw [UInt32.toNat_ofNat']; exact Nat.mod_eq_of_lt hs
  have hl : (put32 (UInt32.ofNat size)).length = 4 := by simp [put32, beBytes_length]
  unfold sizeIn
  simp only []
  rw [List.append_assoc, List.drop_left' h.2, List.take_left' hl]
  unfold put32
  rw [h1, beNat_beBytes]
  exact Nat.mod_eq_of_lt (by simpa using hs)

theorem look_first_ne {start n : Nat} {first : Bytes} (hf : start < first.length) (hn0 : 0 < n) : look start n 1000 0 first ≠ [] := by
  intro hx
  have := look_nil (by decide) hx
  omega

section
variable (sha1 : Bytes → Sha1Hash) (start n : Nat) (hn : n < 2 ^ 32) (faults : Bool) (cap : UInt16) (looks : List (Bytes × AtChoice)) (first : Bytes) (vs : List Bytes) (tr : List Ev) (s : Sender)
  (h : LiveUpload sha1 start n faults cap looks first vs tr s)
include hn h

/-- **C126, when the downloader dies.**  All packets so far arrive, in order, and the file reached into the section when the first packet was made.  Then the downloading daemon dies exactly if
a packet with data, not behind the end marker, begins beyond the announced size.  Missing: files that did not reach into the section then; packets lost or out of order (`C126_any_network`). -/
theorem C126_dies_iff_partial (hf : start < first.length) (hn0 : 0 < n) :
    ∃ f ps, sends tr = f :: ps ∧ (recvLoop sha1 .fresh ((sends tr).map (fun p => some p.bytes)) = .panic ↔
      ∃ qs p rs, ps = qs ++ p :: rs ∧ (∀ q ∈ qs, q.data ≠ []) ∧ p.data ≠ [] ∧ sizeIn f < p.offset.toNat) := by
  obtain ⟨opened, ps, h1, h2, h3, -, -⟩ := C126_sent sha1 start n hn faults cap looks first vs tr s h
  refine ⟨_, ps, h1, ?_⟩
  rw [h1, sizeIn_first _ _ (by omega)]
  rcases recv_upload sha1 vs start n (sha1 opened) opened.length (by omega) ps _ (look_first_ne hf hn0) (look_first_le _ _ _) h2 with
    ⟨g1, g2⟩ | ⟨g1, ⟨acks, c, g2⟩ | ⟨acks, qs, e, rs, g0, g3, g4, g5⟩⟩
  · exact ⟨fun _ => g2, fun _ => g1⟩
  · exact ⟨fun hx => (by rw [g2] at hx; cases hx), fun hx => absurd hx g1⟩
  · exact ⟨fun hx => (by rw [g5] at hx; cases hx), fun hx => absurd hx g1⟩

/-- **C126, a section that does not grow.**  If the section was never longer while it was sent than while it was opened, and the first packet found something, the downloader does not die. -/
theorem C126_no_longer_partial (hf : start < first.length) (hn0 : 0 < n) (hlen : ∀ v ∈ vs, ∀ u ∈ looks.map (·.1), (slice v start n).length ≤ (slice u start n).length) :
    ∃ acks out, recvLoop sha1 .fresh ((sends tr).map (fun p => some p.bytes)) = .ok (acks, out) := by
  obtain ⟨opened, ps, h1, h2, h3, -, u, hu, h5⟩ := C126_sent sha1 start n hn faults cap looks first vs tr s h
  rw [h1]
  rcases recv_upload sha1 vs start n (sha1 opened) opened.length (by omega) ps _ (look_first_ne hf hn0) (look_first_le _ _ _) h2 with
    ⟨-, qs, p, rs, rfl, -, g2, g3⟩ | ⟨g1, ⟨acks, c, g2⟩ | ⟨acks, qs, e, rs, g0, g3, g4, g5⟩⟩
  · have := chained_bound (m := opened.length) (fun v hv => Nat.le_trans (hlen v hv u hu) h5) qs p rs _ h2 g2
    omega
  · exact ⟨_, _, g2⟩
  · exact ⟨_, _, g5⟩

/-- **C126, what is saved** when the packets arrive in order, and the file reached into the section when the first was made: as many bytes as were announced; each one is what the file had there
at some moment of the upload, or a zero where the file had ended at some moment of the upload.  The check of the hash succeeds exactly if they have the hash of what was found while the chunk was
opened. -/
theorem C126_saved (hf : start < first.length) (hn0 : 0 < n) (acks : List UInt32) (b : Bytes) (ok : Bool)
    (hr : recvLoop sha1 .fresh ((sends tr).map (fun p => some p.bytes)) = .ok (acks, .finished b ok)) :
    ∃ opened, Mixed (looks.map (·.1)) start opened ∧ (∃ u ∈ looks.map (·.1), (slice u start n).length ≤ opened.length) ∧ b.length = opened.length ∧ b.length ≤ n ∧
      (ok = true ↔ sha1 b = sha1 opened) ∧
      ∀ i, i < b.length → (∃ v ∈ first :: vs, v[start + i]? = b[i]?) ∨ (b[i]? = some 0 ∧ ∃ v ∈ vs, v.length ≤ start + i) := by
  obtain ⟨opened, ps, h1, h2, h3, h4, h5⟩ := C126_sent sha1 start n hn faults cap looks first vs tr s h
  rw [h1] at hr
  rcases recv_upload sha1 vs start n (sha1 opened) opened.length (by omega) ps _ (look_first_ne hf hn0) (look_first_le _ _ _) h2 with
    ⟨g1, -⟩ | ⟨-, ⟨acks', c, g2⟩ | ⟨acks', qs, e, rs, rfl, g3, g4, g5⟩⟩
  · rw [g1] at hr; cases hr
  · rw [g2] at hr; cases hr
  · rw [g5] at hr
    cases hr
    refine ⟨opened, h4, h5, glue_length _ _, by rw [glue_length]; exact h3, decide_eq_true_iff, ?_⟩
    intro i hi
    rw [glue_length] at hi
    rw [glue_get _ _ i hi]
    have hfirst : Mixed (first :: vs) start (look start n 1000 0 first) := by
      have := mixed_more (n := n) (k := 1000) (v := first) (start := start) (vs := first :: vs) (acc := []) (fun i hi => by cases hi) (by simp)
      simpa using this
    obtain ⟨k1, k2⟩ := chained_mixed (ws := first :: vs) (fun v hv => List.mem_cons_of_mem _ hv) qs (e :: rs) _ hfirst h2
    by_cases hlt : i < (look start n 1000 0 first ++ qs.flatMap (·.data)).length
    · rw [if_pos hlt]; exact .inl (k1 i hlt)
    · rw [if_neg hlt]
      obtain ⟨-, ⟨v, hv, k3⟩, -⟩ := k2
      rw [g4] at k3
      rcases look_nil (by decide) k3.symm with k | k
      · exact .inr ⟨rfl, v, hv, by omega⟩
      · omega

/-- **C126, changes elsewhere.**  If the section itself contains the same bytes at every look, the downloader does not die, and it saves nothing but these bytes, with the right hash: changes of
other parts of the file do no harm. -/
theorem C126_elsewhere (sec : Bytes) (hsec : sec ≠ []) (hall : ∀ v ∈ looks.map (·.1) ++ first :: vs, slice v start n = sec) :
    ∃ acks out, recvLoop sha1 .fresh ((sends tr).map (fun p => some p.bytes)) = .ok (acks, out) ∧ ∀ b ok, out = .finished b ok → b = sec ∧ ok = true := by
  have hfs : slice first start n = sec := hall first (by simp)
  have hpos := List.length_pos_iff.2 hsec
  have hl : ∀ v ∈ looks.map (·.1) ++ first :: vs, sec.length = min n (v.length - start) := by
    intro v hv
    rw [← hall v hv]
    unfold slice
    rw [List.length_take, List.length_drop]
  have hfl := hl first (by simp)
  obtain ⟨acks, out, hr⟩ := C126_no_longer_partial sha1 start n hn faults cap looks first vs tr s h (by omega) (by omega) (by
    intro v hv u hu
    rw [hall v (by simp [hv]), hall u (List.mem_append.2 (.inl hu))]
    exact Nat.le_refl _)
  refine ⟨acks, out, hr, ?_⟩
  rintro b ok rfl
  have key : ∀ (v : Bytes) (i : Nat), v ∈ looks.map (·.1) ++ first :: vs → i < n → v[start + i]? = sec[i]? := by
    intro v i hv hi
    rw [← hall v hv]
    unfold slice
    rw [List.getElem?_take_of_lt hi, List.getElem?_drop]
  obtain ⟨opened, k1, ⟨u, hu, k2⟩, k3, hbn, k4, k5⟩ := C126_saved sha1 start n hn faults cap looks first vs tr s h (by omega) (by omega) acks b ok hr
  rw [hall u (List.mem_append.2 (.inl hu))] at k2
  have hopen : opened = sec := by
    apply List.ext_getElem?
    intro i
    by_cases hi : i < opened.length
    · obtain ⟨v, hv, hg⟩ := k1 i hi
      rw [← hg, key v i (List.mem_append.2 (.inl hv)) (by omega)]
    · rw [List.getElem?_eq_none (by omega), List.getElem?_eq_none (by omega)]
  have hb : b = sec := by
    rw [hopen] at k3
    apply List.ext_getElem?
    intro i
    by_cases hi : i < b.length
    · rcases k5 i hi with ⟨v, hv, hg⟩ | ⟨-, v, hv, hg⟩
      · rw [← hg, key v i (List.mem_append.2 (.inr hv)) (by omega)]
      · have := hl v (by simp [hv])
        omega
    · rw [List.getElem?_eq_none (by omega), List.getElem?_eq_none (by omega)]
  exact ⟨hb, k4.2 (by rw [hb, hopen])⟩

end

/-! ### Any network -/

/-- Every packet of a chain begins behind `pos` and carries what the file contained there. -/
theorem chained_mem {vs : List Bytes} {start n : Nat} {ps : List Packet} : ∀ {pos : Nat}, Chained vs start n pos ps → ∀ p ∈ ps,
    pos ≤ p.offset.toNat ∧ ∃ v ∈ vs, p.data = look start n 1024 p.offset.toNat v := by
  induction ps with
  | nil => intro pos _ p hp; cases hp
  | cons q ps ih =>
    intro pos h p hp
    obtain ⟨h1, h2, h3⟩ := h
    rcases List.mem_cons.1 hp with rfl | hp
    · rw [h1]; exact ⟨Nat.le_refl _, h2⟩
    · obtain ⟨g1, g2⟩ := ih h3 p hp
      exact ⟨by omega, g2⟩

/-- A byte that one of `vs` has in its place, or a zero. -/
def Spec.Patchy (vs : List Bytes) (start : Nat) (d : Bytes) : Prop := ∀ i, i < d.length → d[i]? = some 0 ∨ ∃ v ∈ vs, v[start + i]? = d[i]?

/-- What the downloader knows: nothing, or what was announced and some of the bytes. -/
def LiveConn (vs : List Bytes) (start : Nat) (hash : Sha1Hash) (size : Nat) (c : RConn) : Prop :=
  (c.hash = none ∧ c.buffer = []) ∨ (c.hash = some hash ∧ c.buffer.length = size ∧ Patchy vs start c.buffer)

theorem patchy_copy {vs : List Bytes} {start n off : Nat} {buf out v : Bytes} (hv : v ∈ vs) (h : Patchy vs start buf) (hc : copyAt buf off (look start n 1024 off v) = .ok out) :
    out.length = buf.length ∧ Patchy vs start out := by
  have hl := copyAt_length hc
  refine ⟨hl, ?_⟩
  intro i hi
  unfold copyAt at hc
  split at hc
  · cases hc
  rename_i hoff
  cases hc
  have hl1 : (buf.take off).length = off := by rw [List.length_take]; omega
  have hl2 : ((look start n 1024 off v).take (buf.length - off)).length = min (buf.length - off) (look start n 1024 off v).length := List.length_take
  by_cases h1 : i < off
  · rw [List.append_assoc, List.getElem?_append_left (by omega), List.getElem?_take_of_lt h1]
    exact h i (by omega)
  · by_cases h2 : i < off + (look start n 1024 off v).length
    · right
      rw [List.getElem?_append_left (by rw [List.length_append]; omega), List.getElem?_append_right (by omega), hl1, List.getElem?_take_of_lt (by omega), look_get (by omega)]
      exact ⟨v, hv, by congr 1; omega⟩
    · rw [List.getElem?_append_right (by rw [List.length_append]; omega), List.length_append, hl1, hl2, List.getElem?_drop]
      have : off + (look start n 1024 off v).length + (i - (off + min (buf.length - off) (look start n 1024 off v).length)) = i := by omega
      rw [this]
      exact h i (by omega)

theorem patchy_first {ws : List Bytes} {start n size : Nat} {first : Bytes} (hf : first ∈ ws) : Patchy ws start (glue size (look start n 1000 0 first)) := by
  intro i hi
  rw [glue_length] at hi
  rw [glue_get _ _ i hi]
  split
  · rename_i hlt
    rw [look_get hlt]
    exact .inr ⟨first, hf, by simp⟩
  · exact .inl rfl

/-- One packet, whatever came before. -/
theorem live_packet (sha1 : Bytes → Sha1Hash) {ws : List Bytes} {start n size pos : Nat} {first : Bytes} {hash : Sha1Hash} (hs : size < 2 ^ 32) (hf : first ∈ ws) (hpos : 0 < pos) (c : RConn)
    (hc : LiveConn ws start hash size c) (p : Packet)
    (hp : p = ⟨0, hash.1 ++ put32 (UInt32.ofNat size) ++ look start n 1000 0 first⟩ ∨ (pos ≤ p.offset.toNat ∧ ∃ v ∈ ws, p.data = look start n 1024 p.offset.toNat v)) :
    (onPacket sha1 c p = .panic ∧ p.offset ≠ 0 ∧ (c.hash = none ∨ (p.data ≠ [] ∧ size < p.offset.toNat))) ∨
    (∃ c' o, onPacket sha1 c p = .ok (c', .ack o) ∧ LiveConn ws start hash size c' ∧ (c.hash ≠ none → c'.hash ≠ none) ∧ (p.offset = 0 → c'.hash ≠ none)) ∨
    (∃ c' b ok, onPacket sha1 c p = .ok (c', .finish b ok) ∧ b.length = size ∧ Patchy ws start b ∧ (ok = true ↔ sha1 b = hash)) := by
  rcases hp with rfl | ⟨h1, v, hv, h2⟩
  · obtain ⟨k, hk⟩ := onPacket_announce sha1 c hash size hs (look start n 1000 0 first)
    exact .inr (.inl ⟨_, _, hk, .inr ⟨rfl, glue_length _ _, patchy_first hf⟩, (fun _ h => by cases h), fun _ h => by cases h⟩)
  · have h0 : p.offset ≠ 0 := by
      intro hx
      rw [hx] at h1
      have : (0 : UInt32).toNat = 0 := rfl
      omega
    unfold onPacket
    rw [if_neg h0]
    by_cases hd : p.data = []
    · rw [if_neg (by rw [hd]; simp)]
      rcases hc with ⟨g1, g2⟩ | ⟨g1, g2, g3⟩
      · rw [g1]; exact .inl ⟨rfl, h0, .inl rfl⟩
      · rw [g1]
        exact .inr (.inr ⟨c, c.buffer, _, rfl, g2, g3, decide_eq_true_iff⟩)
    · rw [if_pos (List.length_pos_iff.2 hd)]
      have hcp : copyAt c.buffer p.offset.toNat p.data = .panic ∧ (c.hash = none ∨ size < p.offset.toNat) ∨ ∃ out, copyAt c.buffer p.offset.toNat p.data = .ok out := by
        unfold copyAt
        split
        · rename_i hgt
          refine .inl ⟨rfl, ?_⟩
          rcases hc with ⟨g1, g2⟩ | ⟨g1, g2, g3⟩
          · exact .inl g1
          · right; omega
        · exact .inr ⟨_, rfl⟩
      rcases hcp with ⟨e1, e2⟩ | ⟨out, e1⟩
      · refine .inl ⟨by rw [e1]; rfl, h0, ?_⟩
        rcases e2 with e2 | e2
        · exact .inl e2
        · exact .inr ⟨hd, e2⟩
      · refine .inr (.inl ⟨{ c with buffer := out, bytesReceived := c.bytesReceived + p.data.length }, p.offset, by rw [e1]; rfl, ?_, fun hx => hx, fun hx => absurd hx h0⟩)
        rw [h2] at e1
        rcases hc with ⟨g1, g2⟩ | ⟨g1, g2, g3⟩
        · rw [g2] at e1
          unfold copyAt at e1
          rw [if_pos (by simp only [List.length_nil]; omega)] at e1
          cases e1
        · obtain ⟨k1, k2⟩ := patchy_copy hv g3 e1
          exact .inr ⟨g1, k1.trans g2, k2⟩

theorem live_queue (sha1 : Bytes → Sha1Hash) {ws : List Bytes} {start n size pos : Nat} {first : Bytes} {hash : Sha1Hash} (hs : size < 2 ^ 32) (hf : first ∈ ws) (hpos : 0 < pos)
    (queue : List (Option Bytes)) (hq : ∀ dg, some dg ∈ queue → ∃ p : Packet, dg = p.bytes ∧ (p = ⟨0, hash.1 ++ put32 (UInt32.ofNat size) ++ look start n 1000 0 first⟩ ∨
      (pos ≤ p.offset.toNat ∧ ∃ v ∈ ws, p.data = look start n 1024 p.offset.toNat v))) : ∀ (c : RConn), LiveConn ws start hash size c →
    (recvLoop sha1 c queue = .panic ∧ (c.hash = none ∨ ∃ p : Packet, some p.bytes ∈ queue ∧ p.data.length ≤ 1024 ∧ p.offset ≠ 0 ∧ p.data ≠ [] ∧ size < p.offset.toNat)) ∨
    ∃ acks out, recvLoop sha1 c queue = .ok (acks, out) ∧ ∀ b ok, out = .finished b ok → b.length = size ∧ Patchy ws start b ∧ (ok = true ↔ sha1 b = hash) := by
  induction queue with
  | nil => intro c hc; exact .inr ⟨_, _, rfl, fun b ok h => by cases h⟩
  | cons x queue ih =>
    intro c hc
    rcases x with _ | dg
    · exact .inr ⟨_, _, rfl, fun b ok h => by cases h⟩
    obtain ⟨p, rfl, hp⟩ := hq dg (by simp)
    have hlen : p.data.length ≤ 1024 := by
      rcases hp with rfl | ⟨-, v, -, h2⟩
      · exact first_length hash _ _ (look_first_le _ _ _)
      · have := look_length_le start n 1024 p.offset.toNat v; rw [h2]; omega
    rw [recvLoop_packet _ _ _ hlen]
    rcases live_packet sha1 hs hf hpos c hc p hp with ⟨e, e0, g⟩ | ⟨c', o, e, g1, g2, -⟩ | ⟨c', b, ok, e, g1, g2, g3⟩
    · rw [e]
      refine .inl ⟨rfl, ?_⟩
      rcases g with g | ⟨g1, g2⟩
      · exact .inl g
      · exact .inr ⟨p, by simp, hlen, e0, g1, g2⟩
    · rw [e, Res.bind_ok]
      simp only []
      rcases ih (fun dg hdg => hq dg (by simp [hdg])) c' g1 with ⟨k1, k2⟩ | ⟨acks, out, k1, k2⟩
      · rw [k1]
        refine .inl ⟨rfl, ?_⟩
        rcases k2 with k2 | ⟨q, k2, k3⟩
        · left
          apply Classical.byContradiction
          intro hx
          exact g2 hx k2
        · exact .inr ⟨q, by simp [k2], k3⟩
      · rw [k1]
        exact .inr ⟨_, out, rfl, k2⟩
    · rw [e, Res.bind_ok]
      refine .inr ⟨_, _, rfl, ?_⟩
      intro b' ok' hx
      cases hx
      exact ⟨g1, g2, g3⟩

section
variable (sha1 : Bytes → Sha1Hash) (start n : Nat) (hn : n < 2 ^ 32) (faults : Bool) (cap : UInt16) (looks : List (Bytes × AtChoice)) (first : Bytes) (vs : List Bytes) (tr : List Ev) (s : Sender)
  (h : LiveUpload sha1 start n faults cap looks first vs tr s)
include hn h

/-- **C126, any network.**  The network delivers packets of the upload in any order, any number of times, or not at all; the file reached into the section when the first packet was made.  Then the
downloader dies only if a packet arrives before the first packet of the upload did, or if one with data begins beyond the announced size; what it saves has the announced length, and each byte is
what the file had there at some moment of the upload, or a zero. -/
theorem C126_any_network (hf : start < first.length) (hn0 : 0 < n) (queue : List (Option Bytes)) (hq : ∀ dg, some dg ∈ queue → ∃ p ∈ sends tr, dg = p.bytes) :
    ∃ opened f ps, sends tr = f :: ps ∧ Mixed (looks.map (·.1)) start opened ∧ sizeIn f = opened.length ∧
      ((recvLoop sha1 .fresh queue = .panic ∧ ((∃ p ∈ ps, queue.head? = some (some p.bytes)) ∨ ∃ p ∈ ps, some p.bytes ∈ queue ∧ p.data ≠ [] ∧ sizeIn f < p.offset.toNat)) ∨
       ∃ acks out, recvLoop sha1 .fresh queue = .ok (acks, out) ∧ ∀ b ok, out = .finished b ok →
         b.length = opened.length ∧ (ok = true ↔ sha1 b = sha1 opened) ∧ ∀ i, i < b.length → b[i]? = some 0 ∨ ∃ v ∈ first :: vs, v[start + i]? = b[i]?) := by
  obtain ⟨opened, ps, h1, h2, h3, h4, h5⟩ := C126_sent sha1 start n hn faults cap looks first vs tr s h
  refine ⟨opened, _, ps, h1, h4, sizeIn_first _ _ (by omega) _ _, ?_⟩
  rw [sizeIn_first _ _ (by omega)]
  have hpos := List.length_pos_iff.2 (look_first_ne hf hn0)
  have hmem := chained_mem h2
  have hfl : (first : Bytes) ∈ first :: vs := by simp
  have hq' : ∀ dg, some dg ∈ queue → ∃ p : Packet, dg = p.bytes ∧ p ∈ sends tr ∧ (p = ⟨0, (sha1 opened).1 ++ put32 (UInt32.ofNat opened.length) ++ look start n 1000 0 first⟩ ∨
      ((look start n 1000 0 first).length ≤ p.offset.toNat ∧ ∃ v ∈ first :: vs, p.data = look start n 1024 p.offset.toNat v)) := by
    intro dg hdg
    obtain ⟨p, hp, rfl⟩ := hq dg hdg
    refine ⟨p, rfl, hp, ?_⟩
    rw [h1] at hp
    rcases List.mem_cons.1 hp with hp | hp
    · exact .inl hp
    · obtain ⟨g1, v, g2, g3⟩ := hmem p hp
      exact .inr ⟨g1, v, List.mem_cons_of_mem _ g2, g3⟩
  -- a packet of the queue that begins beyond the announced size
  have hbeyond : (∃ p : Packet, some p.bytes ∈ queue ∧ p.data.length ≤ 1024 ∧ p.offset ≠ 0 ∧ p.data ≠ [] ∧ opened.length < p.offset.toNat) →
      ∃ p ∈ ps, some p.bytes ∈ queue ∧ p.data ≠ [] ∧ opened.length < p.offset.toNat := by
    rintro ⟨p, k1, k0, k2, k3, k4⟩
    obtain ⟨q, e, hqm, -⟩ := hq' _ k1
    have hql : q.data.length ≤ 1024 := by
      rw [h1] at hqm
      rcases List.mem_cons.1 hqm with rfl | hqm
      · exact first_length _ _ _ (look_first_le _ _ _)
      · obtain ⟨-, v, -, g3⟩ := hmem q hqm
        have := look_length_le start n 1024 q.offset.toNat v; rw [g3]; omega
    have : p = q := by
      have e1 := readPacket_bytes p k0
      rw [e, readPacket_bytes q hql] at e1
      cases e1
      rfl
    subst this
    rw [h1] at hqm
    rcases List.mem_cons.1 hqm with rfl | hqm
    · exact absurd rfl k2
    · exact ⟨p, hqm, k1, k3, k4⟩
  rcases queue with _ | ⟨x, rest⟩
  · exact .inr ⟨_, _, rfl, fun b ok hx => by cases hx⟩
  rcases x with _ | dg
  · exact .inr ⟨_, _, rfl, fun b ok hx => by cases hx⟩
  obtain ⟨p, rfl, hpm, hp⟩ := hq' dg (by simp)
  by_cases hpf : p ∈ ps
  · rcases live_queue sha1 (start := start) (n := n) (size := opened.length) (hash := sha1 opened) (by omega) hfl hpos (some p.bytes :: rest) (fun dg hdg => by obtain ⟨p, k1, -, k2⟩ := hq' dg hdg; exact ⟨p, k1, k2⟩) .fresh (.inl ⟨rfl, rfl⟩) with
      ⟨k1, -⟩ | ⟨acks, out, k1, k2⟩
    · exact .inl ⟨k1, .inl ⟨p, hpf, rfl⟩⟩
    · exact .inr ⟨acks, out, k1, fun b ok hx => ⟨(k2 b ok hx).1, (k2 b ok hx).2.2, (k2 b ok hx).2.1⟩⟩
  · obtain rfl : p = ⟨0, (sha1 opened).1 ++ put32 (UInt32.ofNat opened.length) ++ look start n 1000 0 first⟩ := by
      rw [h1] at hpm
      rcases List.mem_cons.1 hpm with hpm | hpm
      · exact hpm
      · exact absurd hpm hpf
    obtain ⟨k, hk⟩ := onPacket_announce sha1 .fresh (sha1 opened) opened.length (by omega) (look start n 1000 0 first)
    rw [recvLoop_packet _ _ _ (first_length _ _ _ (look_first_le _ _ _)), hk, Res.bind_ok]
    simp only []
    rcases live_queue sha1 (start := start) (n := n) (size := opened.length) (hash := sha1 opened) (by omega) hfl hpos rest (fun dg hdg => by obtain ⟨p, k1, -, k2⟩ := hq' dg (by simp [hdg]); exact ⟨p, k1, k2⟩)
        ⟨some (sha1 opened), glue opened.length (look start n 1000 0 first), k⟩ (.inr ⟨rfl, glue_length _ _, patchy_first hfl⟩) with ⟨k1, k2⟩ | ⟨acks, out, k1, k2⟩
    · rw [k1]
      refine .inl ⟨rfl, .inr (hbeyond ?_)⟩
      rcases k2 with k2 | ⟨q, k2, k3⟩
      · cases k2
      · exact ⟨q, by simp [k2], k3⟩
    · rw [k1]
      exact .inr ⟨_, out, rfl, fun b ok hx => ⟨(k2 b ok hx).1, (k2 b ok hx).2.2, (k2 b ok hx).2.1⟩⟩

end

/-! ### What does go wrong -/

theorem turn_live {v : Bytes} {start n p : Nat} {cr : ChunkReader} {ws : UInt16} {k : Nat} (ends : Nat) (hr : cr.reader = ⟨start, start + p, start + n⟩) (hp : p ≤ n) (hn : n < 2 ^ 32) (hws : ws < 1024) :
    ∃ cr' ends', cr'.reader = ⟨start, start + (p + (look start n 1024 p v).length), start + n⟩ ∧
      SStep v false ⟨cr, ws, 1024, k, false, .loop ends⟩ (.sent ⟨UInt32.ofNat p, look start n 1024 p v⟩) ⟨cr', ws + 1, 1024, k, false, .loop ends'⟩ := by
  have hst := SStep.turn (content := v) (faults := false) ⟨cr, ws, 1024, k, false, .loop ends⟩ ends .good true rfl (fun _ => ⟨rfl, rfl⟩)
  obtain ⟨got, err, e1, e2, e3, e4⟩ := read_look cr v start n p 1024 .good hr hp hn
  have he := e4 rfl
  have hk : kickTurn v ⟨cr, ws, 1024, k, false, .loop ends⟩ ends .good true =
      (.sent ⟨UInt32.ofNat p, look start n 1024 p v⟩, ⟨{ cr with reader := ⟨start, start + (p + (look start n 1024 p v).length), start + n⟩ }, ws + 1, 1024, k, false,
        .loop (if err = some .eof then ends + 1 else ends)⟩) := by
    unfold kickTurn
    rw [if_pos hws, e1]
    simp only []
    rw [if_neg he, e3 he]
    rfl
  rw [hk] at hst
  exact ⟨_, _, rfl, hst⟩

/-- An upload with two more packets after the first: the file is `first`, then `v1`, then `v2`. -/
theorem live_two (sha1 : Bytes → Sha1Hash) (start n : Nat) (hn : n < 2 ^ 32) (looks : List (Bytes × AtChoice)) (cr : ChunkReader) (ho : openLive sha1 start n looks = some cr) (first v1 v2 : Bytes) :
    ∃ s, LiveUpload sha1 start n false 1024 looks first [first, first, v1, v2]
      [.sent ⟨0, cr.hash.1 ++ put32 (UInt32.ofNat cr.size) ++ look start n 1000 0 first⟩, .ack, .tau,
        .sent ⟨UInt32.ofNat (look start n 1000 0 first).length, look start n 1024 (look start n 1000 0 first).length v1⟩,
        .sent ⟨UInt32.ofNat ((look start n 1000 0 first).length + (look start n 1024 (look start n 1000 0 first).length v1).length),
          look start n 1024 ((look start n 1000 0 first).length + (look start n 1024 (look start n 1000 0 first).length v1).length) v2⟩] s := by
  obtain ⟨opened, -, -, g3, -⟩ := openLive_sound ho
  rcases kickstart_live cr first start n 1024 g3 hn .good with ⟨s1, -, k⟩ | hk
  · exact absurd rfl k
  have hl0 := look_length_le start n 1000 0 first
  have hl1 := look_length_le start n 1024 (look start n 1000 0 first).length v1
  obtain ⟨cr1, e1, q1, q2⟩ := turn_live (v := v1) (cr := { cr with reader := ⟨start, start + (look start n 1000 0 first).length, start + n⟩ }) (ws := 1 - 1) (k := 0) 0 rfl (by omega) hn (by decide)
  obtain ⟨cr2, e2, q3, q4⟩ := turn_live (v := v2) (ws := 1 - 1 + 1) (k := 0) e1 q1 (by omega) hn (by decide)
  refine ⟨⟨cr2, 1 - 1 + 1 + 1, 1024, 0, false, .loop e2⟩, cr, .good, _, _, _, ho, fun _ => rfl, hk, ?_, rfl⟩
  exact .step v2 (.step v1 (.step first (.step first (.refl _) (.arrive _)) (.take _ rfl (Nat.succ_pos _))) q2) q4

/-- **C126, as one would like it.**  However the file changes while a chunk of it is uploaded: the downloader does not die, and if it saves the chunk then it is the chunk as it was at one moment. -/
def C126_statement : Prop := ∀ (sha1 : Bytes → Sha1Hash) (start n : Nat) (cap : UInt16) (looks : List (Bytes × AtChoice)) (first : Bytes) (vs : List Bytes) (tr : List Ev) (s : Sender),
  n < 2 ^ 32 → LiveUpload sha1 start n false cap looks first vs tr s →
  recvLoop sha1 .fresh ((sends tr).map (fun p => some p.bytes)) ≠ .panic ∧
  ∀ acks b ok, recvLoop sha1 .fresh ((sends tr).map (fun p => some p.bytes)) = .ok (acks, .finished b ok) → ∃ v ∈ looks.map (·.1) ++ first :: vs, b = slice v start n

theorem looks_good (n : Nat) (F : Bytes) : n < (List.replicate (n + 1) (F, AtChoice.good)).countP (fun x => x.2 == .good) := by
  rw [List.countP_replicate, if_pos (by rfl)]
  omega

/-- **C126, a file that grows kills the downloader.**  The file was shorter than the chunk size when the chunk was opened; it has grown to more than 1000 bytes beyond the chunk's beginning, and beyond
the announced size, when it is sent. -/
theorem C126_grown (sha1 : Bytes → Sha1Hash) (start n : Nat) (hn : n < 2 ^ 32) (F G : Bytes) (hF : F.length < start + 1000) (hn0 : 1000 < n) (hG : start + 1000 < G.length) :
    ∃ looks tr s, (∀ x ∈ looks, x = (F, AtChoice.good)) ∧ LiveUpload sha1 start n false 1024 looks G [G, G, G, G] tr s ∧
      recvLoop sha1 .fresh ((sends tr).map (fun p => some p.bytes)) = .panic := by
  obtain ⟨cr, ho⟩ := C126_opens sha1 start n (List.replicate (n + 1) (F, .good)) (looks_good n F)
  obtain ⟨opened, g1, g2, g3, g4, g5, -⟩ := openLive_sound ho
  obtain ⟨s, hs⟩ := live_two sha1 start n hn _ cr ho G G G
  have hlen : (look start n 1000 0 G).length = 1000 := by
    unfold look
    rw [List.length_take, List.length_drop]
    omega
  -- what was opened ends where `F` ended
  have hop : opened.length < 1000 := by
    apply Classical.byContradiction
    intro hx
    obtain ⟨v, hv, hg⟩ := g5 999 (by omega)
    obtain ⟨y, hy, rfl⟩ := List.mem_map.1 hv
    have : y = (F, AtChoice.good) := (List.mem_replicate.1 hy).2
    rw [this, List.getElem?_eq_none (by simp only []; omega), List.getElem?_eq_getElem (by omega)] at hg
    cases hg
  refine ⟨_, _, s, fun x hx => (List.mem_replicate.1 hx).2, hs, ?_⟩
  obtain ⟨f, ps, k1, k2⟩ := C126_dies_iff_partial sha1 start n hn false 1024 _ G _ _ s hs (by omega) (by omega)
  rw [k2]
  simp only [sends] at k1
  injection k1 with k1 k3
  refine ⟨[], _, _, k3.symm, (fun q hq => by cases hq), ?_, ?_⟩
  · intro hx
    simp only [] at hx
    have := look_nil (by decide) hx
    omega
  · rw [← k1, sizeIn_first _ _ (by omega), g2, hlen]
    have : (UInt32.ofNat 1000).toNat = 1000 := by decide
    rw [this]
    exact hop

/-- **C126, a file cut off before the chunk kills the downloader.**  When the packets are made nothing is left of the chunk that was opened. -/
theorem C126_cut (sha1 : Bytes → Sha1Hash) (start n : Nat) (hn : n < 2 ^ 32) (F G : Bytes) (hG : G.length ≤ start) :
    ∃ looks tr s, (∀ x ∈ looks, x = (F, AtChoice.good)) ∧ LiveUpload sha1 start n false 1024 looks G [G, G, G, G] tr s ∧
      recvLoop sha1 .fresh ((sends tr).map (fun p => some p.bytes)) = .panic := by
  obtain ⟨cr, ho⟩ := C126_opens sha1 start n (List.replicate (n + 1) (F, .good)) (looks_good n F)
  obtain ⟨opened, g1, g2, g3, g4, g5, -⟩ := openLive_sound ho
  obtain ⟨s, hs⟩ := live_two sha1 start n hn _ cr ho G G G
  have hnil : ∀ k pos, look start n k pos G = [] := by
    intro k pos
    unfold look
    rw [List.drop_eq_nil_of_le (by omega), List.take_nil]
  refine ⟨_, _, s, fun x hx => (List.mem_replicate.1 hx).2, hs, ?_⟩
  simp only [sends, List.map_cons, List.map_nil, hnil, List.length_nil]
  obtain ⟨k, hk⟩ := onPacket_announce sha1 .fresh cr.hash cr.size (by omega) []
  rw [recvLoop_packet _ _ _ (first_length cr.hash _ [] (by simp)), hk, Res.bind_ok]
  simp only []
  rw [recvLoop_packet _ _ _ (by simp)]
  have : onPacket sha1 ⟨some cr.hash, glue cr.size [], k⟩ ⟨UInt32.ofNat 0, []⟩ = .panic := by
    unfold onPacket
    rw [if_pos (by rfl)]
    have : splitFirst ⟨[], 0⟩ = .panic := (C19_split_panics_iff ⟨[], 0⟩ (by simp)).2 (by decide)
    simp only [List.length_nil]
    rw [this]
    rfl
  rw [this]
  rfl

/-- **C126, a file overwritten during the upload is saved as a mixture** of the old and the new one, which it never was; nothing but a message tells (C44). -/
theorem C126_mixture (sha1 : Bytes → Sha1Hash) (n : Nat) (hn : n < 2 ^ 32) (hn0 : 1001 ≤ n) (A B : Bytes) (a b : UInt8) (hA : A.length = 1000) (hB : B.length = 1000) :
    ∃ looks tr s acks ok, (∀ x ∈ looks, x = (A ++ [a], AtChoice.good)) ∧ LiveUpload sha1 0 n false 1024 looks (A ++ [a]) [A ++ [a], A ++ [a], B ++ [b], B ++ [b]] tr s ∧
      recvLoop sha1 .fresh ((sends tr).map (fun p => some p.bytes)) = .ok (acks, .finished (A ++ [b]) ok) := by
  obtain ⟨cr, ho⟩ := C126_opens sha1 0 n (List.replicate (n + 1) (A ++ [a], .good)) (looks_good n _)
  obtain ⟨opened, g1, g2, g3, g4, g5, u, hu, g6⟩ := openLive_sound ho
  obtain ⟨s, hs⟩ := live_two sha1 0 n hn _ cr ho (A ++ [a]) (B ++ [b]) (B ++ [b])
  have h0 : look 0 n 1000 0 (A ++ [a]) = A := by
    unfold look
    rw [List.drop_zero, show min 1000 (n - 0) = 1000 by omega, List.take_left' hA]
  have h1 : look 0 n 1024 1000 (B ++ [b]) = [b] := by
    unfold look
    rw [Nat.zero_add, List.drop_left' hB]
    exact List.take_of_length_le (by simp; omega)
  have h2 : look 0 n 1024 (1000 + 1) (B ++ [b]) = [] := by
    unfold look
    rw [List.drop_eq_nil_of_le (by rw [List.length_append, hB]; simp), List.take_nil]
  have hall : ∀ v ∈ (List.replicate (n + 1) (A ++ [a], AtChoice.good)).map (·.1), v = A ++ [a] := by
    intro v hv
    obtain ⟨y, hy, rfl⟩ := List.mem_map.1 hv
    rw [(List.mem_replicate.1 hy).2]
  have hlA : (A ++ [a]).length = 1001 := by rw [List.length_append, hA]; rfl
  have hop : opened.length = 1001 := by
    rw [hall u hu] at g6
    unfold slice at g6
    rw [List.drop_zero, List.length_take, hlA] at g6
    apply Classical.byContradiction
    intro hx
    obtain ⟨v, hv, hg⟩ := g5 1001 (by omega)
    rw [hall v hv, List.getElem?_eq_none (by omega), List.getElem?_eq_getElem (by omega)] at hg
    cases hg
  have hsz : cr.size = 1001 := by omega
  refine ⟨_, _, s, [0, UInt32.ofNat 1000], decide (sha1 (A ++ [b]) = cr.hash), fun x hx => (List.mem_replicate.1 hx).2, hs, ?_⟩
  simp only [sends, List.map_cons, List.map_nil, h0, hA, h1, List.length_singleton, h2]
  obtain ⟨k, hk⟩ := onPacket_announce sha1 .fresh cr.hash cr.size (by omega) A
  rw [recvLoop_packet _ _ _ (first_length cr.hash _ A (by omega)), hk, Res.bind_ok]
  simp only []
  rw [recvLoop_packet _ _ _ (by simp)]
  have hg : glue cr.size (A ++ [b]) = A ++ [b] := by
    unfold glue
    have : (A ++ [b]).length = 1001 := by rw [List.length_append, hA]; rfl
    rw [hsz, this, List.take_of_length_le (by omega), Nat.sub_self, List.replicate_zero, List.append_nil]
  have e1 : onPacket sha1 ⟨some cr.hash, glue cr.size A, k⟩ ⟨UInt32.ofNat 1000, [b]⟩ = .ok (⟨some cr.hash, A ++ [b], k + 1⟩, .ack (UInt32.ofNat 1000)) := by
    have hc := copyAt_glue cr.size A [b] (by omega)
    rw [hA, hg] at hc
    unfold onPacket
    rw [if_neg (show ¬ UInt32.ofNat 1000 = 0 by decide), if_pos (by simp)]
    have : (UInt32.ofNat 1000).toNat = 1000 := by decide
    simp only [this, hc]
    rfl
  rw [e1, Res.bind_ok]
  simp only []
  rw [recvLoop_packet _ _ _ (by simp)]
  have e2 : onPacket sha1 ⟨some cr.hash, A ++ [b], k + 1⟩ ⟨UInt32.ofNat (1000 + 1), []⟩ = .ok (⟨some cr.hash, A ++ [b], k + 1⟩, .finish (A ++ [b]) (decide (sha1 (A ++ [b]) = cr.hash))) := by
    unfold onPacket
    rw [if_neg (by decide), if_neg (by decide)]
    rfl
  rw [e2]
  rfl

theorem C126_refuted : ¬ C126_statement := by
  intro hst
  obtain ⟨looks, tr, s, -, h1, h2⟩ := C126_cut (fun _ => Sha1Hash.zero) 1 1 (by decide) [7, 8] [7] (by decide)
  exact (hst _ 1 1 _ _ _ _ _ _ (by decide) h1).1 h2

/-! ### The hypotheses are met -/

/-- The chunk of three bytes at 2, whose file is rewritten elsewhere and gets longer behind the chunk. -/
theorem ex_live (sha1 : Bytes → Sha1Hash) : ∃ looks tr s, LiveUpload sha1 2 3 false 1024 looks [9, 9, 1, 2, 3] [[9, 9, 1, 2, 3], [9, 9, 1, 2, 3], [8, 8, 1, 2, 3, 7], [0, 0, 1, 2, 3, 7, 7]] tr s ∧
    (∀ v ∈ looks.map (·.1), v = [9, 9, 1, 2, 3]) ∧ (sends tr).length = 3 := by
  obtain ⟨cr, ho⟩ := C126_opens sha1 2 3 (List.replicate 4 ([9, 9, 1, 2, 3], .good)) (looks_good 3 _)
  obtain ⟨s, hs⟩ := live_two sha1 2 3 (by decide) _ cr ho [9, 9, 1, 2, 3] [8, 8, 1, 2, 3, 7] [0, 0, 1, 2, 3, 7, 7]
  exact ⟨_, _, s, hs, by decide, rfl⟩

example (sha1 : Bytes → Sha1Hash) : ∃ looks vs tr s acks out, LiveUpload sha1 2 3 false 1024 looks [9, 9, 1, 2, 3] vs tr s ∧ [0, 0, 1, 2, 3, 7, 7] ∈ vs ∧
    recvLoop sha1 .fresh ((sends tr).map (fun p => some p.bytes)) = .ok (acks, out) ∧ ∀ b ok, out = .finished b ok → b = [1, 2, 3] ∧ ok = true := by
  obtain ⟨looks, tr, s, hs, h1, -⟩ := ex_live sha1
  obtain ⟨acks, out, h2, h3⟩ := C126_elsewhere sha1 2 3 (by decide) false 1024 looks _ _ tr s hs [1, 2, 3] (by decide) (by
    intro v hv
    rcases List.mem_append.1 hv with hv | hv
    · rw [h1 v hv]; rfl
    · exact (by decide : ∀ v ∈ ([[9, 9, 1, 2, 3], [9, 9, 1, 2, 3], [9, 9, 1, 2, 3], [8, 8, 1, 2, 3, 7], [0, 0, 1, 2, 3, 7, 7]] : List Bytes), slice v 2 3 = [1, 2, 3]) v hv)
  exact ⟨looks, _, tr, s, acks, out, hs, by decide, h2, h3⟩

/-- The packets backwards and then again in order. -/
example (sha1 : Bytes → Sha1Hash) : ∃ looks vs tr s, LiveUpload sha1 2 3 false 1024 looks [9, 9, 1, 2, 3] vs tr s ∧
    (recvLoop sha1 .fresh (((sends tr).reverse ++ sends tr).map (fun p => some p.bytes)) = .panic ∨ ∃ y, recvLoop sha1 .fresh (((sends tr).reverse ++ sends tr).map (fun p => some p.bytes)) = .ok y) := by
  obtain ⟨looks, tr, s, hs, h1, -⟩ := ex_live sha1
  refine ⟨looks, _, tr, s, hs, ?_⟩
  obtain ⟨opened, f, ps, -, -, -, k⟩ := C126_any_network sha1 2 3 (by decide) false 1024 looks _ _ tr s hs (by decide) (by decide) (((sends tr).reverse ++ sends tr).map (fun p => some p.bytes)) (by
    intro dg hdg
    obtain ⟨p, hp, e⟩ := List.mem_map.1 hdg
    cases e
    exact ⟨p, by simpa using hp, rfl⟩)
  rcases k with ⟨k, -⟩ | ⟨acks, out, k, -⟩
  · exact .inl k
  · exact .inr ⟨_, k⟩

example (sha1 : Bytes → Sha1Hash) : ∃ looks vs tr s, LiveUpload sha1 2 3 false 1024 looks [9, 9, 1, 2, 3] vs tr s ∧ s.worker ≠ .dead ∧
    ∃ acks out, recvLoop sha1 .fresh ((sends tr).map (fun p => some p.bytes)) = .ok (acks, out) := by
  obtain ⟨looks, tr, s, hs, h1, -⟩ := ex_live sha1
  refine ⟨looks, _, tr, s, hs, C126_survives sha1 2 3 (by decide) 1024 looks _ _ tr s hs,
    C126_no_longer_partial sha1 2 3 (by decide) false 1024 looks _ _ tr s hs (by decide) (by decide) ?_⟩
  intro v hv u hu
  rw [h1 u hu]
  revert v; decide

example (sha1 : Bytes → Sha1Hash) : ∃ looks tr s, (∀ x ∈ looks, x = ([7], AtChoice.good)) ∧ LiveUpload sha1 0 4194304 false 1024 looks (List.replicate 1001 8) (List.replicate 4 (List.replicate 1001 8)) tr s ∧
    recvLoop sha1 .fresh ((sends tr).map (fun p => some p.bytes)) = .panic :=
  C126_grown sha1 0 4194304 (by decide) [7] (List.replicate 1001 8) (by decide) (by decide) (by rw [List.length_replicate]; decide)

/-- The mixture is neither the old content nor the new one. -/
example (sha1 : Bytes → Sha1Hash) : ∃ looks tr s acks ok b, LiveUpload sha1 0 4194304 false 1024 looks (List.replicate 1000 1 ++ [1]) [List.replicate 1000 1 ++ [1],
      List.replicate 1000 1 ++ [1], List.replicate 1000 2 ++ [2], List.replicate 1000 2 ++ [2]] tr s ∧
    recvLoop sha1 .fresh ((sends tr).map (fun p => some p.bytes)) = .ok (acks, .finished b ok) ∧ b ≠ List.replicate 1000 1 ++ [1] ∧ b ≠ List.replicate 1000 2 ++ [2] := by
  obtain ⟨looks, tr, s, acks, ok, -, h1, h2⟩ := C126_mixture sha1 4194304 (by decide) (by decide) (List.replicate 1000 1) (List.replicate 1000 2) 1 2 List.length_replicate List.length_replicate
  refine ⟨looks, tr, s, acks, ok, _, h1, h2, ?_, ?_⟩
  · intro hx
    have := List.append_cancel_left hx
    simp at this
  · intro hx
    have := congrArg List.head? hx
    rw [List.head?_append, List.head?_append, List.head?_replicate, List.head?_replicate] at this
    simp at this

/-- Such a panic ends the daemon: it is not recovered in `downloadChunk`. -/
theorem C126_ends (env : Env) (h : Sha1Hash) (chunk : UInt16) (queue : List (Option Bytes)) (st : St) (hp : recvLoop env.sha1 .fresh queue = .panic) :
    downloadChunk env h chunk queue st = (.panic, st) := by
  rw [downloadChunk_eq, hp]

end Flu
