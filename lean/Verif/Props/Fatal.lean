import Verif.Props.Listing
/-!
# Which datagrams end the daemon (C54)
-/
namespace Flu
open Spec BReader

namespace Spec

/-- The 1024 bytes a handler sees: the datagram, cut off or filled up with zeros. -/
def buffer (data : Bytes) : Bytes := data.take 1024 ++ List.replicate (1024 - (data.take 1024).length) 0

/-- The 20 bytes at position 3. -/
def hashAt3 (b : Bytes) (h : Sha1Hash) : Prop := (b.drop 3).take 20 = h.1

/-- The fatal datagrams: a listing request (first byte 2) for a hash that is neither blank nor in the catalogue; a discovery request (first byte 0) for a file in the
catalogue with an odd number in the chunk count byte; and a listing response (first byte 3) that promises more than the buffer holds. -/
def Lethal (known : Sha1Hash → Prop) (data : Bytes) : Prop :=
  ((buffer data)[0]? = some 2 ∧ ∃ h, hashAt3 (buffer data) h ∧ (∃ b ∈ h.1, b ≠ 255) ∧ ¬ known h) ∨
  ((buffer data)[0]? = some 0 ∧ ∃ h, hashAt3 (buffer data) h ∧ (∃ b ∈ h.1, b ≠ 255) ∧ known h ∧ ∃ n, (buffer data)[23]? = some n ∧ n.toNat % 2 = 1) ∨
  ((buffer data)[0]? = some 3 ∧ ¬ hasEntries (beNat (((buffer data).drop 3).take 2)) ((buffer data).drop 5))

end Spec

/-- The process ends. -/
def Dies {α : Type} (r : Res α) : Prop := r = .panic ∨ r = .exit ∨ r = .crash

theorem not_dies_ok {α : Type} (a : α) : ¬ Dies (Res.ok a) := by rintro (h | h | h) <;> cases h
theorem not_dies_err {α : Type} (e : Err) : ¬ Dies (Res.err e : Res α) := by rintro (h | h | h) <;> cases h

theorem buffer_length (data : Bytes) : (buffer data).length = 1024 := by unfold buffer; simp; omega

theorem readUint16s_length (s : Slice) (n i : Nat) (v : List UInt16) (j : Nat) (h : readUint16s s n i = .ok (v, j)) : v.length = n := by
  induction n generalizing i v j with
  | zero => cases h; rfl
  | succ n ih =>
    unfold readUint16s at h
    rw [rm_bind] at h
    obtain ⟨a, -, h⟩ := (Res.bind_ok_iff _ _ _).1 h
    rw [rm_bind] at h
    obtain ⟨b, h2, h⟩ := (Res.bind_ok_iff _ _ _).1 h
    rw [rm_pure] at h
    injection h with h
    injection h with h _
    rw [← h, List.length_cons, ih _ _ _ h2]

theorem hash_of_bytes (bs : Bytes) (h : bs.length = 20) : (Sha1Hash.zero.fromSlice bs).1 = bs :=
  congrArg Subtype.val (Sha1Hash.copyInto_full _ _ h)

/-- What a buffer of each type is parsed as. -/
theorem parse_types (bs : Bytes) (hl : bs.length = 1024) :
    (bs[0]? = some 0 → ∃ r h q, parse (.exact bs) = .ok (.discoverReq r h q) ∧ hashAt3 bs h ∧ ∃ n, bs[23]? = some n ∧ q.length = n.toNat) ∧
    (bs[0]? = some 2 → ∃ r h, parse (.exact bs) = .ok (.listReq r h) ∧ hashAt3 bs h) ∧
    (∀ r h q, parse (.exact bs) = .ok (.discoverReq r h q) → bs[0]? = some 0) ∧
    (∀ r h, parse (.exact bs) = .ok (.listReq r h) → bs[0]? = some 2) ∧
    (∀ o p, parse (.exact bs) ≠ .ok (.data o p)) := by
  have h20 : ((bs.drop 3).take 20).length = 20 := by simp; omega
  have hz : bs[0]? = some ((bs[0]?).getD 0) := by rw [List.getElem?_eq_getElem (by omega)]; rfl
  generalize ht : (bs[0]?).getD 0 = t at hz
  have hrb : readByte (.exact bs) 0 = .ok (t, 1) := by rw [readByte_at, if_pos (by omega), ht]
  have t0 : t = 0 → ∃ r h q, parse (.exact bs) = .ok (.discoverReq r h q) ∧ hashAt3 bs h ∧ ∃ n, bs[23]? = some n ∧ q.length = n.toNat := by
    rintro rfl
    unfold parse parseM
    simp only [rm_bind, hrb, Res.bind_ok]
    rw [if_pos (by decide)]
    simp only [rm_bind, readUint16_at, readSha1Hash_at, Slice.exact, hl]
    simp only [Nat.reduceAdd, Nat.reduceLeDiff, ↓reduceIte, Res.bind_ok]
    have hn : bs[23]? = some ((bs[23]?).getD 0) := by rw [List.getElem?_eq_getElem (by omega)]; rfl
    generalize hnn : (bs[23]?).getD 0 = n at hn
    have hr : ∃ q j, readSliceUint16 (.exact bs) 23 = .ok (q, j) ∧ q.length = n.toNat := by
      unfold readSliceUint16
      rw [rm_bind, readByte_at, if_pos (by omega)]
      simp only [Res.bind_ok, hnn]
      have := n.toNat_lt
      obtain ⟨v, hv⟩ := readUint16s_total bs n.toNat 24 (by omega)
      exact ⟨v, _, hv, readUint16s_length _ _ _ _ _ hv⟩
    obtain ⟨q, j, hq, hq2⟩ := hr
    simp only [Slice.exact, hl] at hq
    rw [hq]
    exact ⟨_, _, q, rfl, (hash_of_bytes _ h20).symm, n, hn, hq2⟩
  have t2 : t = 2 → ∃ r h, parse (.exact bs) = .ok (.listReq r h) ∧ hashAt3 bs h := by
    rintro rfl
    unfold parse parseM
    simp only [rm_bind, hrb, Res.bind_ok]
    rw [if_neg (by decide), if_neg (by decide), if_pos (by decide)]
    simp only [rm_bind, readUint16_at, readSha1Hash_at, Slice.exact, hl]
    simp only [Nat.reduceAdd, Nat.reduceLeDiff, ↓reduceIte, Res.bind_ok]
    exact ⟨_, _, rfl, (hash_of_bytes _ h20).symm⟩
  have key : ∀ m, parse (.exact bs) = .ok m → t = m.type ∧ m.type ≠ 5 := by
    intro m hm
    unfold parse parseM at hm
    simp only [rm_bind, hrb, Res.bind_ok] at hm
    by_cases h0 : t = 0
    · obtain ⟨r, h, q, e, -⟩ := t0 h0
      unfold parse parseM at e
      simp only [rm_bind, hrb, Res.bind_ok] at e
      rw [e] at hm; cases hm; exact ⟨h0, by simp [Msg.type]⟩
    rw [if_neg h0] at hm
    by_cases h1 : t = 1
    · rw [if_pos h1] at hm
      simp only [rm_bind] at hm
      obtain ⟨a, ha, hm⟩ := (Res.bind_ok_iff _ _ _).1 hm
      cases hm
      obtain ⟨b, -, ha⟩ := (Res.bind_ok_iff _ _ _).1 ha
      obtain ⟨b, -, ha⟩ := (Res.bind_ok_iff _ _ _).1 ha
      obtain ⟨b, -, ha⟩ := (Res.bind_ok_iff _ _ _).1 ha
      obtain ⟨b, -, ha⟩ := (Res.bind_ok_iff _ _ _).1 ha
      split at ha
      · cases ha; exact ⟨h1, by simp [Msg.type]⟩
      · cases ha
    rw [if_neg h1] at hm
    by_cases h2 : t = 2
    · rw [if_pos h2] at hm
      simp only [rm_bind] at hm
      obtain ⟨a, ha, hm⟩ := (Res.bind_ok_iff _ _ _).1 hm
      cases hm
      obtain ⟨b, -, ha⟩ := (Res.bind_ok_iff _ _ _).1 ha
      obtain ⟨b, -, ha⟩ := (Res.bind_ok_iff _ _ _).1 ha
      cases ha; exact ⟨h2, by simp [Msg.type]⟩
    rw [if_neg h2] at hm
    by_cases h3 : t = 3
    · rw [if_pos h3] at hm
      simp only [rm_bind] at hm
      obtain ⟨a, ha, hm⟩ := (Res.bind_ok_iff _ _ _).1 hm
      cases hm
      obtain ⟨b, -, ha⟩ := (Res.bind_ok_iff _ _ _).1 ha
      obtain ⟨b, -, ha⟩ := (Res.bind_ok_iff _ _ _).1 ha
      obtain ⟨b, -, ha⟩ := (Res.bind_ok_iff _ _ _).1 ha
      cases ha; exact ⟨h3, by simp [Msg.type]⟩
    rw [if_neg h3] at hm
    by_cases h4 : t = 4
    · rw [if_pos h4] at hm
      simp only [rm_bind] at hm
      obtain ⟨a, ha, hm⟩ := (Res.bind_ok_iff _ _ _).1 hm
      cases hm
      obtain ⟨b, -, ha⟩ := (Res.bind_ok_iff _ _ _).1 ha
      obtain ⟨b, -, ha⟩ := (Res.bind_ok_iff _ _ _).1 ha
      obtain ⟨b, -, ha⟩ := (Res.bind_ok_iff _ _ _).1 ha
      cases ha; exact ⟨h4, by simp [Msg.type]⟩
    rw [if_neg h4] at hm
    by_cases h6 : t = 6
    · rw [if_pos h6] at hm
      simp only [rm_bind] at hm
      obtain ⟨a, ha, hm⟩ := (Res.bind_ok_iff _ _ _).1 hm
      cases hm
      obtain ⟨b, -, ha⟩ := (Res.bind_ok_iff _ _ _).1 ha
      cases ha; exact ⟨h6, by simp [Msg.type]⟩
    rw [if_neg h6] at hm
    cases hm
  refine ⟨fun h => t0 ?_, fun h => t2 ?_, fun r h q hp => ?_, fun r h hp => ?_, fun o p hp => ?_⟩
  · rw [hz] at h; injection h
  · rw [hz] at h; injection h
  · rw [hz, (key _ hp).1]; rfl
  · rw [hz, (key _ hp).1]; rfl
  · exact (key _ hp).2 rfl


theorem kickstart_survives (content : Bytes) (s : Sender) (hash : Sha1Hash) (size : Nat) (rd : AtChoice) (sends : Bool) :
    ¬ Dies (kickstart content s hash size rd sends).1 := by
  unfold kickstart
  simp only []
  have hoff : s.reader.reset.offset = .ok (UInt32.ofNat 0) := by
    unfold ChunkReader.offset
    show (if s.reader.reader.base - s.reader.reader.base > 4294967295 then Res.panic else .ok (UInt32.ofNat (s.reader.reader.base - s.reader.reader.base))) = _
    rw [Nat.sub_self, if_neg (by omega)]
  unfold ChunkReader.read
  rw [hoff, Res.bind_ok]
  simp only []
  split
  · split
    · exact not_dies_err _
    · split
      · exact not_dies_ok _
      · exact not_dies_err _
  · rename_i hne
    exfalso
    exact hne _ _ _ _ rfl

section
variable {env : Env} {d dl : Path} {c : Cat} {fs : FS}

theorem getChunkReader_survives (hh : Healthy env d) (hclean : CleanReach env d dl (.running c fs)) (h : Sha1Hash) (n : Nat) (hn : n < 2 ^ 63) (ch : List AtChoice) :
    (∃ o, (getChunkReader env h n ch ⟨c, fs, []⟩).1 = .ok o) ∨ ∃ x, (getChunkReader env h n ch ⟨c, fs, []⟩).1 = .err x := by
  obtain ⟨-, -, -, -, -, h4⟩ := C30_restart hh hclean 0 0
  rcases h4 h with ⟨e, ho⟩ | ho
  · have hI : Inv env d dl c fs := hclean.reach.inv hh.abs hh.utf8
    obtain ⟨ind, rfl, hw⟩ := hI.split
    rw [observe_eq] at ho
    unfold obsRec at ho
    rcases hm : mapGet ind.index h with _ | r
    · rw [hm] at ho; cases ho
    rw [hm] at ho
    obtain ⟨p, hp, ho⟩ := (Res.bind_ok_iff _ _ _).1 ho
    unfold getChunkReader
    simp only [IOM.bind_apply, getIndexRecord_nil, hm, hp, IOM.lift_apply]
    have hn' : (BitVec.ofNat 64 n).toNat < 2 ^ 63 := by rw [BitVec.toNat_ofNat]; omega
    rw [Bitset.get_eq _ _ hn']
    rcases p.progress.has (BitVec.ofNat 64 n).toNat with _ | _
    · exact .inr ⟨_, rfl⟩
    · simp only [Bool.not_true, Bool.false_eq_true, ↓reduceIte, IOM.bind_apply, osTouch, nextFault, getFS, IOM.pure_apply]
      rcases fs r.filePath with _ | content
      · exact .inr ⟨_, rfl⟩
      · exact .inl ⟨_, rfl⟩
  · exact .inr ⟨_, C35_unknown hh hclean.reach h n ch ho⟩

theorem contains_quiet (hh : Healthy env d) (hreach : Reach env d dl (.running c fs)) (h : Sha1Hash) (e : Export) (ho : observe c fs h = .ok e) :
    (contains h ⟨c, fs, []⟩).2.faults = [] := by
  have hI : Inv env d dl c fs := hreach.inv hh.abs hh.utf8
  obtain ⟨ind, rfl, hw⟩ := hI.split
  unfold observe at ho
  unfold contains at ho ⊢
  rw [IOM.bind_apply, getIndexRecord_nil] at ho ⊢
  rcases hm : mapGet ind.index h with _ | r
  · rw [hm] at ho
  · rw [hm] at ho
    simp only [] at ho ⊢
    rcases hv : viewProgress d fs r with q | x | _ | _ | _ <;> rw [hv] at ho
    · rfl
    all_goals first | rfl | cases ho

/-- `StartUpload` never ends the daemon. -/
theorem startUpload_survives (hh : Healthy env d) (hclean : CleanReach env d dl (.running c fs)) (w : Wire) (h : Sha1Hash) (n cap : UInt16) (ret : Addr)
    (hip : newIpv4 ret.ip ≠ .panic) (ups : UpKey → Option Up) : ¬ Dies (startUpload env w h n cap ret ⟨⟨c, fs, []⟩, ups⟩).1 := by
  unfold startUpload
  rw [IOM.bind_apply, SM.cat_apply]
  obtain ⟨-, -, -, -, -, h4⟩ := C30_restart hh hclean 0 0
  have hhave : ∀ x, observe c fs h = x → contains h ⟨c, fs, []⟩ = (x, (contains h ⟨c, fs, []⟩).2) := fun x hx => Prod.ext hx rfl
  rcases h4 h with ⟨e, ho⟩ | ho
  · have hcon := hhave _ ho
    obtain ⟨g1, g2, -, g4⟩ := contains_effect hh hclean.reach h [] _ _ hcon
    have hclean1 := hclean.returns (.contains h) trivial (contains h ⟨c, fs, []⟩).2 (.inl (CM.void_ok _ _ _ _ hcon))
    have hs1 : (contains h ⟨c, fs, []⟩).2 = ⟨(contains h ⟨c, fs, []⟩).2.cat, (contains h ⟨c, fs, []⟩).2.fs, []⟩ := by
      have := contains_quiet hh hclean.reach h e ho
      generalize (contains h ⟨c, fs, []⟩).2 = s1 at this
      cases s1; cases this; rfl
    rw [hcon]
    simp only []
    rw [IOM.bind_apply, SM.cat_apply]
    simp only []
    rw [hs1]
    rcases hg : getChunkReader env e.sha1Hash n.toNat w.reads ⟨(contains h ⟨c, fs, []⟩).2.cat, (contains h ⟨c, fs, []⟩).2.fs, []⟩ with ⟨o, s2⟩
    have hn := n.toNat_lt
    rcases getChunkReader_survives hh hclean1 e.sha1Hash n.toNat (by omega) w.reads with ⟨x, hx⟩ | ⟨x, hx⟩
    · rw [hg] at hx
      simp only [] at hx
      subst hx
      simp only []
      rcases x with _ | cr
      · exact not_dies_ok _
      simp only []
      split
      · exact not_dies_err _
      rw [IOM.bind_apply, IOM.lift_apply]
      rcases hi : newIpv4 ret.ip with host | x | _ | _ | _
      · simp only []
        rw [IOM.bind_apply, SM.cat_apply]
        simp only [getFS]
        unfold openUpload
        simp only []
        have hk := kickstart_survives ((ups ⟨host, UInt16.ofNat ret.port⟩).getD ⟨(s2.fs e.filePath).getD [], newSender cr cap⟩).content
          ((ups ⟨host, UInt16.ofNat ret.port⟩).getD ⟨(s2.fs e.filePath).getD [], newSender cr cap⟩).conn cr.hash cr.size w.rd w.sends
        generalize kickstart _ _ cr.hash cr.size w.rd w.sends = kk at hk ⊢
        obtain ⟨k1, k2⟩ := kk
        simp only [] at hk ⊢
        rcases k1 with p | x | _ | _ | _
        · exact not_dies_ok _
        · exact not_dies_err _
        · exact absurd (.inl rfl) hk
        · exact absurd (.inr (.inl rfl)) hk
        · exact absurd (.inr (.inr rfl)) hk
      · exact not_dies_err _
      · exact absurd hi hip
      all_goals
        exfalso
        unfold newIpv4 at hi
        split at hi
        · cases hi
        · split at hi
          · cases hi
          · split at hi <;> cases hi
    · rw [hg] at hx
      simp only [] at hx
      subst hx
      exact not_dies_err _
  · rw [hhave _ ho]
    exact not_dies_err _

theorem continueUpload_survives (ret : Addr) (hip : newIpv4 ret.ip ≠ .panic) (s : Srv) : ¬ Dies (continueUpload ret s).1 := by
  unfold continueUpload
  refine Eq.mpr (congrArg (fun x : Res Done × Srv => ¬ Dies x.1) (IOM.bind_apply _ _ _)) ?_
  rw [IOM.lift_apply]
  rcases hi : newIpv4 ret.ip with host | x | _ | _ | _
  · simp only []
    rcases s.uploads ⟨host, UInt16.ofNat ret.port⟩ with _ | up
    · exact not_dies_err _
    · exact not_dies_ok _
  · exact not_dies_err _
  · exact absurd hi hip
  all_goals
    exfalso
    unfold newIpv4 at hi
    split at hi
    · cases hi
    · split at hi
      · cases hi
      · split at hi <;> cases hi

theorem udpSend_survives (sends : Bool) (bs : Bytes) : ¬ Dies (udpSend sends bs) := by
  unfold udpSend
  split
  · exact not_dies_ok _
  · exact not_dies_err _

theorem not_blank_iff (h : Sha1Hash) : h.isBlank = false ↔ ∃ b ∈ h.1, b ≠ 255 := by
  rw [← Bool.not_eq_true, C21_isBlank]
  simp

/-- The end of both answering handlers. -/
theorem sending_survives (sends : Bool) (bs : Bytes) (r : Done) (s : Srv) : ¬ Dies ((do IOM.lift (udpSend sends bs); return r : SM Done) s).1 := by
  rw [IOM.bind_apply, IOM.lift_apply]
  unfold udpSend
  by_cases h : sends = true ∧ bs.length ≤ 65507
  · rw [if_pos h]; exact not_dies_ok _
  · rw [if_neg h]; exact not_dies_err _

/-- C54 in full: no datagram ends the daemon. -/
def C54_statement (env : Env) (d dl : Path) : Prop :=
  ∀ (c : Cat) (fs : FS) (port : Nat) (w : Wire) (data : Bytes) (ret : Addr) (ups : UpKey → Option Up), CleanReach env d dl (.running c fs) → MapOrder c w.order →
    (∃ own, localIP w.addrs = .ok (some own)) → newIpv4 ret.ip ≠ .panic → ¬ Dies (serveDatagram env port w data ret ⟨⟨c, fs, []⟩, ups⟩).1

/-- C54, exactly as far as it is true: the datagrams that end a daemon that knows its own address.  Missing: the claim for the fatal datagrams, for which it is false. -/
theorem C54_fatal_iff_partial (hh : Healthy env d) (hclean : CleanReach env d dl (.running c fs)) (port : Nat) (w : Wire) (hord : MapOrder c w.order) (own : Bytes)
    (hown : localIP w.addrs = .ok (some own)) (data : Bytes) (ret : Addr) (hip : newIpv4 ret.ip ≠ .panic) (ups : UpKey → Option Up) :
    Dies (serveDatagram env port w data ret ⟨⟨c, fs, []⟩, ups⟩).1 ↔ Lethal (fun h => ∃ e, observe c fs h = .ok e) data := by
  have hbuf : udpBuffer data = .exact (buffer data) := rfl
  have hl := buffer_length data
  obtain ⟨t0, t2, t0', t2', t5⟩ := parse_types (buffer data) hl
  obtain ⟨htot, hpan, herr⟩ := C16_total (buffer data) hl
  have hh20 : ∀ h h', hashAt3 (buffer data) h → hashAt3 (buffer data) h' → h = h' := fun h h' a b => Subtype.ext (by rw [← a, ← b])
  obtain ⟨-, -, -, -, -, h4⟩ := C30_restart hh hclean 0 0
  have hkn : ∀ h, observe c fs h = .err .fileNotFound ↔ ¬ ∃ e, observe c fs h = .ok e := by
    intro h
    rcases h4 h with ⟨e, ho⟩ | ho
    · exact ⟨fun h' => (by rw [h'] at ho; cases ho), fun h' => absurd ⟨e, ho⟩ h'⟩
    · exact ⟨fun _ => (by rintro ⟨e, h'⟩; rw [h'] at ho; cases ho), fun _ => ho⟩
  -- the shape of `Lethal` once the first byte is known
  unfold serveDatagram handleMessage
  rw [IOM.bind_apply, IOM.lift_apply, hbuf]
  rcases htot with ⟨m, hm⟩ | ⟨t, ht, hm⟩ | hm
  · have hnp : parse (.exact (buffer data)) ≠ .panic := by rw [hm]; intro h; cases h
    have hno3 : ¬ ((buffer data)[0]? = some 3 ∧ ¬ hasEntries (beNat (((buffer data).drop 3).take 2)) ((buffer data).drop 5)) := fun h => hnp (hpan.2 h)
    rw [hm]
    simp only []
    cases m with
    | discoverReq r h q =>
      have hb0 := t0' r h q hm
      obtain ⟨r', h', q', k1, k2, n, k3, k4⟩ := t0 hb0
      rw [hm] at k1; cases k1
      have hF : Lethal (fun h => ∃ e, observe c fs h = .ok e) data ↔ (h.isBlank = false ∧ (∃ e, observe c fs h = .ok e) ∧ q.length % 2 = 1) := by
        unfold Lethal
        rw [hb0]
        constructor
        · rintro (⟨x, -⟩ | ⟨-, h', x1, x2, x3, n', x4, x5⟩ | ⟨x, -⟩)
          · cases x
          · rw [hh20 h' h x1 k2] at x2 x3
            rw [k3] at x4; cases x4
            exact ⟨(not_blank_iff h).2 x2, x3, by omega⟩
          · cases x
        · rintro ⟨x1, x2, x3⟩
          exact .inr (.inl ⟨rfl, h, k2, (not_blank_iff h).1 x1, x2, n, k3, by omega⟩)
      rw [hF]
      simp only []
      unfold respondToDiscoverHosts
      rw [IOM.bind_apply, IOM.lift_apply, hown]
      simp only []
      have hown4 : ∃ o4 : ByteArr 4, own = o4.1 := by
        rcases hw : w.addrs with _ | as
        · rw [hw] at hown; cases hown
        rw [hw, (C65_localIP as).1] at hown
        injection hown with hown
        rcases hu : as.findSome? usable with _ | o
        · rw [hu] at hown; cases hown
        · rw [hu] at hown; injection hown with hown; exact ⟨o, hown.symm⟩
      obtain ⟨o4, rfl⟩ := hown4
      rw [IOM.bind_apply, IOM.lift_apply, addressOf_ok]
      simp only []
      rw [IOM.bind_apply]
      rcases hb : h.isBlank with _ | _
      · rw [answerChunks_known h q c fs ups hb]
        rcases h4 h with ⟨e, ho⟩ | ho
        · rw [ho]
          simp only []
          by_cases hq : q.length % 2 = 1
          · rw [if_pos (by omega), C09_odd_panics _ q ((pairUp_none_iff q).2 hq)]
            exact ⟨fun _ => ⟨trivial, ⟨e, rfl⟩, hq⟩, fun _ => .inl rfl⟩
          · obtain ⟨fl, k1, -⟩ := answers_ok hh hclean.reach h e ho q (by omega)
            rw [k1]
            exact ⟨fun h => absurd h (sending_survives _ _ _ _), fun h => absurd h.2.2 hq⟩
        · rw [ho]
          exact ⟨fun h => absurd h (sending_survives _ _ _ _), (by rintro ⟨-, ⟨e, h⟩, -⟩; cases h)⟩
      · rw [answerChunks_blank h q _ hb]
        exact ⟨fun h => absurd h (sending_survives _ _ _ _), fun h => absurd h.1 (by simp)⟩
    | listReq r h =>
      have hb0 := t2' r h hm
      obtain ⟨r', h', k1, k2⟩ := t2 hb0
      rw [hm] at k1; cases k1
      have hF : Lethal (fun h => ∃ e, observe c fs h = .ok e) data ↔ (h.isBlank = false ∧ ¬ ∃ e, observe c fs h = .ok e) := by
        unfold Lethal
        rw [hb0]
        constructor
        · rintro (⟨-, h', x1, x2, x3⟩ | ⟨x, -⟩ | ⟨x, -⟩)
          · rw [hh20 h' h x1 k2] at x2 x3
            exact ⟨(not_blank_iff h).2 x2, x3⟩
          · cases x
          · cases x
        · rintro ⟨x1, x2⟩
          exact .inl ⟨rfl, h, k2, (not_blank_iff h).1 x1, x2⟩
      rw [hF]
      simp only []
      unfold respondToListFiles
      rcases hb : h.isBlank with _ | _
      · rw [if_neg (by decide), IOM.bind_apply]
        unfold IOM.orExit
        rw [SM.cat_apply]
        have hhave : ∀ x, observe c fs h = x → contains h ⟨c, fs, []⟩ = (x, (contains h ⟨c, fs, []⟩).2) := fun x hx => Prod.ext hx rfl
        rcases h4 h with ⟨e, ho⟩ | ho
        · rw [hhave _ ho]
          simp only []
          rw [IOM.bind_apply, show ∀ s : Srv, (pure [e] : SM (List Export)) s = (.ok [e], s) from fun _ => rfl]
          exact ⟨fun h => absurd h (sending_survives _ _ _ _), fun h => absurd ⟨e, ho⟩ h.2⟩
        · rw [hhave _ ho]
          exact ⟨fun _ => ⟨rfl, (hkn h).1 ho⟩, fun _ => .inr (.inl rfl)⟩
      · rw [if_pos rfl, IOM.bind_apply]
        obtain ⟨es, s1, hl1, -⟩ := C30_list hh hclean w.order hord
        unfold IOM.orExit
        rw [SM.cat_apply, hl1]
        exact ⟨fun h => absurd h (sending_survives _ _ _ _), fun h => absurd h.1 (by simp)⟩
    | openReq h n cap =>
      have hF : ¬ Lethal (fun h => ∃ e, observe c fs h = .ok e) data := by
        rintro (⟨x, -⟩ | ⟨x, -⟩ | x)
        · obtain ⟨_, _, e, -⟩ := t2 x; rw [hm] at e; cases e
        · obtain ⟨_, _, _, e, -⟩ := t0 x; rw [hm] at e; cases e
        · exact hno3 x
      exact ⟨fun h' => absurd h' (startUpload_survives hh hclean w h n cap ret hip ups), fun h => absurd h hF⟩
    | ack o =>
      have hF : ¬ Lethal (fun h => ∃ e, observe c fs h = .ok e) data := by
        rintro (⟨x, -⟩ | ⟨x, -⟩ | x)
        · obtain ⟨_, _, e, -⟩ := t2 x; rw [hm] at e; cases e
        · obtain ⟨_, _, _, e, -⟩ := t0 x; rw [hm] at e; cases e
        · exact hno3 x
      exact ⟨fun h' => absurd h' (continueUpload_survives ret hip _), fun h => absurd h hF⟩
    | discoverResp r a p cs =>
      have hF : ¬ Lethal (fun h => ∃ e, observe c fs h = .ok e) data := by
        rintro (⟨x, -⟩ | ⟨x, -⟩ | x)
        · obtain ⟨_, _, e, -⟩ := t2 x; rw [hm] at e; cases e
        · obtain ⟨_, _, _, e, -⟩ := t0 x; rw [hm] at e; cases e
        · exact hno3 x
      exact ⟨fun h' => absurd h' (not_dies_ok _), fun h => absurd h hF⟩
    | listResp r fl =>
      have hF : ¬ Lethal (fun h => ∃ e, observe c fs h = .ok e) data := by
        rintro (⟨x, -⟩ | ⟨x, -⟩ | x)
        · obtain ⟨_, _, e, -⟩ := t2 x; rw [hm] at e; cases e
        · obtain ⟨_, _, _, e, -⟩ := t0 x; rw [hm] at e; cases e
        · exact hno3 x
      exact ⟨fun h' => absurd h' (not_dies_ok _), fun h => absurd h hF⟩
    | data o p => exact absurd hm (t5 o p)
  · have hnp : parse (.exact (buffer data)) ≠ .panic := by rw [hm]; intro h; cases h
    have hF : ¬ Lethal (fun h => ∃ e, observe c fs h = .ok e) data := by
      rintro (⟨x, -⟩ | ⟨x, -⟩ | x)
      · obtain ⟨_, _, e, -⟩ := t2 x; rw [hm] at e; cases e
      · obtain ⟨_, _, _, e, -⟩ := t0 x; rw [hm] at e; cases e
      · exact hnp (hpan.2 x)
    rw [hm]
    exact ⟨fun h' => absurd h' (not_dies_err _), fun h => absurd h hF⟩
  · rw [hm]
    exact ⟨fun _ => .inr (.inr (hpan.1 hm)), fun _ => .inl rfl⟩

/-- C54, the defects: one datagram of a stranger ends any daemon; a listing request for a hash it does not have, or a discovery request for a file it has with an odd
number of entries. -/
theorem C54_kills (hh : Healthy env d) (hclean : CleanReach env d dl (.running c fs)) (port : Nat) (w : Wire) (hord : MapOrder c w.order) (own : Bytes)
    (hown : localIP w.addrs = .ok (some own)) (ret : Addr) (hip : newIpv4 ret.ip ≠ .panic) (ups : UpKey → Option Up) (r : UInt16) (h : Sha1Hash) (hb : h ≠ Sha1Hash.blank) :
    (observe c fs h = .err .fileNotFound → Dies (serveDatagram env port w (Msg.listReq r h).serialize ret ⟨⟨c, fs, []⟩, ups⟩).1) ∧
    (∀ e q, observe c fs h = .ok e → q.length ≤ 255 → q.length % 2 = 1 → Dies (serveDatagram env port w (Msg.discoverReq r h q).serialize ret ⟨⟨c, fs, []⟩, ups⟩).1) := by
  have h20 := h.2
  have hbl : ∃ b ∈ h.1, b ≠ 255 := by
    rw [← not_blank_iff]
    rcases hx : h.isBlank with _ | _
    · rfl
    · exfalso
      apply hb
      apply Subtype.ext
      rw [C21_isBlank] at hx
      show h.1 = List.replicate 20 255
      exact List.eq_replicate_iff.2 ⟨h20, hx⟩
  have hpre : ∀ (bs : Bytes) (i : Nat) (x : UInt8), bs[i]? = some x → i < 1024 → (buffer bs)[i]? = some x := by
    intro bs i x hx hi
    unfold buffer
    rw [List.getElem?_append_left, List.getElem?_take_of_lt hi, hx]
    have := (List.getElem?_eq_some_iff.1 hx).1
    rw [List.length_take]; omega
  have hat : ∀ (a b : Bytes), a.length = 3 → hashAt3 (buffer (a ++ h.1 ++ b)) h := by
    intro a b ha
    unfold hashAt3 buffer
    have e1 : (a ++ h.1 ++ b).take 1024 = a ++ (h.1 ++ b.take (1024 - 23)) := by
      rw [List.append_assoc, List.take_append, List.take_of_length_le (show a.length ≤ 1024 by omega), List.take_append,
        List.take_of_length_le (show h.1.length ≤ 1024 - a.length by omega), ha, h20]
    rw [e1, List.append_assoc, List.append_assoc, ← ha, List.drop_left, List.take_append_of_le_length (by omega), List.take_of_length_le (by omega)]
  constructor
  · intro ho
    rw [C54_fatal_iff_partial hh hclean port w hord own hown _ ret hip ups]
    refine .inl ⟨hpre _ 0 2 rfl (by omega), h, ?_, hbl, ?_⟩
    · have := hat ([2] ++ put16 r) [] (by simp [put16])
      rw [List.append_nil] at this
      exact this
    · rintro ⟨e, he⟩; rw [ho] at he; cases he
  · intro e q ho hq hodd
    rw [C54_fatal_iff_partial hh hclean port w hord own hown _ ret hip ups]
    refine .inr (.inl ⟨hpre _ 0 0 rfl (by omega), h, hat ([0] ++ put16 r) _ (by simp [put16]), hbl, ⟨e, ho⟩, UInt8.ofNat q.length, ?_, ?_⟩)
    · apply hpre _ _ _ _ (by omega)
      unfold Msg.serialize
      rw [List.getElem?_append_right (by simp [put16, h20])]
      simp [put16, h20, serializeChunks]
    · rw [UInt8.toNat_ofNat']; omega

/-- C54: a daemon on a machine without an IPv4 address other than loopback is ended by every discovery request. -/
theorem C54_no_address (env : Env) (port : Nat) (w : Wire) (hown : localIP w.addrs = .ok none) (data : Bytes) (hd : data.head? = some 0) (ret : Addr) (s : Srv) :
    (serveDatagram env port w data ret s).1 = .panic := by
  have h0 : (buffer data)[0]? = some 0 := by
    unfold buffer
    cases data with
    | nil => cases hd
    | cons a l => cases hd; rfl
  obtain ⟨r, h, q, k1, -⟩ := (parse_types (buffer data) (buffer_length data)).1 h0
  unfold serveDatagram handleMessage
  rw [IOM.bind_apply, IOM.lift_apply, show udpBuffer data = .exact (buffer data) from rfl, k1]
  simp only []
  unfold respondToDiscoverHosts
  rw [IOM.bind_apply, IOM.lift_apply, hown]
  rfl

end

/-! ## Examples -/

/-- C54 in full is false: a listing request for an unknown hash ends a daemon that has just been started. -/
theorem C54_refuted (sha1 : Bytes → Sha1Hash) (json : JsonCodec) : ¬ C54_statement (exEnv sha1 json) exDir exDown := by
  intro hall
  have hh := ex_healthy sha1 json
  have h1 := CleanReach.fresh (exEnv sha1 json) exDir exDown hh.utf8 exFS ex_fs_clean
  have ho : MapOrder ⟨exDir, exDown, some (freshIdx (exEnv sha1 json) exDir)⟩ [] := ⟨_, rfl, List.Perm.refl _⟩
  refine hall _ _ 0 exWire (Msg.listReq 0 Sha1Hash.zero).serialize exAddr (fun _ => none) h1 ho ⟨_, rfl⟩ (by intro h; cases h) ?_
  rw [C54_fatal_iff_partial hh h1 0 exWire ho _ rfl _ _ (by intro h; cases h)]
  refine .inl ⟨rfl, Sha1Hash.zero, rfl, ⟨0, by decide, by decide⟩, ?_⟩
  rintro ⟨e, he⟩
  cases he

/-- The hypotheses of `C54_kills`, both parts: a daemon with one file. -/
example (sha1 : Bytes → Sha1Hash) (json : JsonCodec) : ∃ c fs e order, CleanReach (exEnv sha1 json) exDir exDown (.running c fs) ∧ MapOrder c order ∧
    observe c fs Sha1Hash.zero = .ok e ∧ Sha1Hash.zero ≠ Sha1Hash.blank := by
  obtain ⟨c, fs, e, h1, h2, -⟩ := ex_complete sha1 json Sha1Hash.zero
  obtain ⟨ind, rfl, -⟩ := h1.sync (ex_healthy sha1 json).abs (ex_healthy sha1 json).utf8
  exact ⟨_, fs, e, _, h1, ⟨ind, rfl, List.Perm.refl _⟩, h2, by decide⟩
instance decHasEntries : (n : Nat) → (bs : Bytes) → Decidable (hasEntries n bs)
  | 0, _ => .isTrue trivial
  | n + 1, _ =>
    @instDecidableAnd _ _ (Nat.decLe _ _) (@instDecidableAnd _ _ (Nat.decLe _ _) (decHasEntries n _))

set_option maxRecDepth 8000 in
/-- Harmless datagrams exist, and so do fatal listing responses: an empty one that promises one entry does not end the
daemon (the zeros in the buffer are taken for the entry), one that promises 30 entries does. -/
example (known : Sha1Hash → Prop) : ¬ Lethal known [6, 0, 0, 0, 0] ∧ ¬ Lethal known [3, 0, 0, 0, 1] ∧ Lethal known [3, 0, 0, 0, 30] := by
  refine ⟨?_, ?_, ?_⟩
  · rintro (⟨h, -⟩ | ⟨h, -⟩ | ⟨h, -⟩) <;> cases h
  · rintro (⟨h, -⟩ | ⟨h, -⟩ | ⟨-, h⟩)
    · cases h
    · cases h
    · exact h (by decide)
  · exact .inr (.inr ⟨rfl, by decide⟩)
/-- The hypothesis of `C54_no_address`. -/
example : localIP (some [[127, 0, 0, 1]]) = .ok none := rfl

end Flu
