import Verif.Model.Server
import Verif.Props.Messages
import Verif.Props.Bitset
import Verif.Props.Sender
import Verif.Props.Clean
/-!
# Properties of the handlers of incoming datagrams (C48, C52, C55, C59)
-/
namespace Flu
open Spec

theorem SM.cat_apply {α : Type} (x : CM α) (s : Srv) : SM.cat x s = ((x s.st).1, { s with st := (x s.st).2 }) := rfl

/-- A control message at the start of a datagram of any length is what the handler sees. -/
theorem parse_buffer (m : Msg) (hm : InLimits m) (hl : m.serialize.length ≤ 1024) (pad : Bytes) : parse (udpBuffer (m.serialize ++ pad)) = .ok m := by
  unfold udpBuffer
  rw [List.take_append, List.take_of_length_le hl, List.append_assoc]
  have := C14_roundtrip m hm (pad.take (1024 - m.serialize.length) ++ List.replicate (1024 - (m.serialize ++ pad.take (1024 - m.serialize.length)).length) 0) []
  rw [List.append_nil] at this
  exact this

theorem udpBuffer_length (d : Bytes) : ∃ bs, udpBuffer d = .exact bs ∧ bs.length = 1024 ∧ ∀ i x, d[i]? = some x → i < 1024 → bs[i]? = some x := by
  refine ⟨_, rfl, ?_, ?_⟩
  · simp; omega
  · intro i x hx hi
    rw [List.getElem?_append_left, List.getElem?_take_of_lt hi, hx]
    have : i < d.length := by
      rcases Nat.lt_or_ge i d.length with h | h
      · exact h
      · rw [List.getElem?_eq_none h] at hx; cases hx
    simp; omega

section
variable {env : Env} {d dl : Path} {c : Cat} {fs : FS}

/-- `Contains` returns what the catalogue shows, or an error of the machine, and changes nothing that can be seen. -/
theorem contains_effect (hh : Healthy env d) (hreach : Reach env d dl (.running c fs)) (h : Sha1Hash) (fl : List Fault) (r : Res Export) (s' : St)
    (hrun : contains h ⟨c, fs, fl⟩ = (r, s')) :
    s'.fs = fs ∧ (∀ k, observe s'.cat s'.fs k = observe c fs k) ∧ (∀ e, r = .ok e → observe c fs h = .ok e) ∧
      (r.returns = true → Reach env d dl (.running s'.cat s'.fs)) := by
  have hI : Inv env d dl c fs := hreach.inv hh.abs hh.utf8
  have hR : r.returns = true → Reach env d dl (.running s'.cat s'.fs) := by
    intro hret
    refine Reach.returns hreach (.contains h) trivial fl s' ?_
    cases r with
    | ok a => exact .inl (CM.void_ok _ _ _ _ hrun)
    | err e =>
      refine .inr ⟨e, ?_⟩
      show CM.void (contains h) _ = _
      unfold CM.void
      rw [IOM.bind_apply, hrun]
    | panic => cases hret
    | exit => cases hret
    | crash => cases hret
  obtain ⟨ind, rfl, hw⟩ := hI.split
  obtain ⟨h1, h2⟩ := (ro_contains (dl := dl) (fs0 := fs) hw.ownGet h) ⟨_, fs, fl⟩ (RO.init d dl ind fs)
  cases r with
  | ok a =>
    obtain ⟨g1, g2⟩ := h1 a s' hrun
    refine ⟨g1.same.1, g1.same.2, fun e he => ?_, hR⟩
    cases he
    rw [observe_eq]; exact g2
  | err e => have := (h2 _ s' hrun (fun a e => by cases e)).same; exact ⟨this.1, this.2, (by intro e he; cases he), hR⟩
  | panic => have := (h2 _ s' hrun (fun a e => by cases e)).same; exact ⟨this.1, this.2, (by intro e he; cases he), hR⟩
  | exit => have := (h2 _ s' hrun (fun a e => by cases e)).same; exact ⟨this.1, this.2, (by intro e he; cases he), hR⟩
  | crash => have := (h2 _ s' hrun (fun a e => by cases e)).same; exact ⟨this.1, this.2, (by intro e he; cases he), hR⟩

/-! ## C52: answering a discovery request -/

/-- `Ranges()` of a bitset as the catalogue holds it. -/
theorem ranges_loaded (b : Bitset) (w : Loaded b) :
    ∃ rs, b.ranges = .ok (rs.flatMap (fun p => Bitset.emitFlat p.1 p.2)) ∧ IsRuns rs b.has 0 b.sizeOf.toNat ∧ ∀ r ∈ rs, r.2 < b.sizeOf.toNat := by
  have h0 := w.size_nonneg
  have h1 := w.size_lt
  obtain ⟨rs, g1, g2, g3⟩ := Bitset.filledRanges_eq b 0 b.size.toNat (by omega) (by omega)
  have habove : b.has b.size.toNat = false := w.above _ (Nat.le_refl _)
  have h4 : IsRuns rs b.has 0 b.size.toNat := by
    refine ⟨g2.nonempty, g2.separated, ?_⟩
    rw [g2.exact]
    rw [show b.size.toNat + 1 - 0 = b.size.toNat - 0 + 1 by omega, List.range'_concat, List.filter_append]
    simp [habove]
  refine ⟨rs, ?_, h4, ?_⟩
  · unfold Bitset.ranges
    rw [show b.size = ((b.size.toNat : Nat) : Int) by omega]; exact g1
  · intro r hr
    have := (h4.mem r.2).1 ⟨r, hr, h4.nonempty r hr, Nat.le_refl _⟩
    exact this.2.1

/-- The answer to a discovery request as a user would describe it: `have_` says which chunks are held, `q` what was asked for. -/
structure Spec.Advertises (have_ : Nat → Bool) (size : Nat) (q fl : List UInt16) : Prop where
  all : q = [] → size ≤ 65536 → ∃ rs, pairUp fl = some rs ∧ IsRuns rs have_ 0 size
  asked : q ≠ [] → ∀ qs, pairUp q = some qs → ∃ parts, pairUp fl = some parts.flatten ∧ All2 (fun part r => IsRuns part have_ r.1 (r.2 + 1)) parts qs

theorem answers_ok (hh : Healthy env d) (hreach : Reach env d dl (.running c fs)) (h : Sha1Hash) (e : Export) (ho : observe c fs h = .ok e) (q : List UInt16)
    (hq : q.length % 2 = 0) :
    ∃ fl, (if q.length > 0 then e.progress.overlap q else e.progress.ranges) = .ok fl ∧ Advertises e.progress.has e.progress.sizeOf.toNat q fl := by
  have w := observe_loaded hh hreach h e ho
  cases q with
  | nil =>
    obtain ⟨rs, h1, h2, h3⟩ := ranges_loaded _ w
    refine ⟨_, h1, ⟨fun _ hs => ⟨rs, Bitset.pairUp_flat rs ?_, h2⟩, fun hne => absurd rfl hne⟩⟩
    intro r hr
    have := h3 r hr
    have := h2.nonempty r hr
    omega
  | cons a q =>
    rw [if_pos (by simp)]
    rcases hp : pairUp (a :: q) with _ | qs
    · rw [pairUp_none_iff] at hp; omega
    obtain ⟨fl, parts, h1, h2, h3⟩ := C09_overlap e.progress (a :: q) qs hp e.progress.has (by
      intro i hi
      rw [Bitset.get_eq _ _ (by rw [BitVec.toNat_ofNat]; omega), BitVec.toNat_ofNat, Nat.mod_eq_of_lt (by omega)])
    refine ⟨fl, h1, ⟨fun h => by (cases h), fun _ qs' hqs' => ?_⟩⟩
    rw [hp] at hqs'; cases hqs'
    exact ⟨parts, h2, h3⟩

theorem addressOf_ok (own : ByteArr 4) : addressOf (some own.1) = .ok own := by
  obtain ⟨l, hl⟩ := own
  match l, hl with
  | [a, b, c, d], _ => rfl

/-- The state after a look at the catalogue. -/
def Srv.looked (s : Srv) (h : Sha1Hash) : Srv := { s with st := (contains h s.st).2 }

theorem answerChunks_blank (h : Sha1Hash) (q : List UInt16) (s : Srv) (hb : h.isBlank = true) : answerChunks h q s = (.ok [], s) := by
  unfold answerChunks; rw [if_pos hb]; rfl

theorem answerChunks_known (h : Sha1Hash) (q : List UInt16) (c : Cat) (fs : FS) (ups : UpKey → Option Up) (hb : h.isBlank = false) :
    answerChunks h q ⟨⟨c, fs, []⟩, ups⟩ =
      match observe c fs h with
      | .ok e => (if q.length > 0 then e.progress.overlap q else e.progress.ranges, (⟨⟨c, fs, []⟩, ups⟩ : Srv).looked h)
      | .err _ => (.ok [], (⟨⟨c, fs, []⟩, ups⟩ : Srv).looked h)
      | .panic => (.panic, (⟨⟨c, fs, []⟩, ups⟩ : Srv).looked h)
      | .exit => (.exit, (⟨⟨c, fs, []⟩, ups⟩ : Srv).looked h)
      | .crash => (.crash, (⟨⟨c, fs, []⟩, ups⟩ : Srv).looked h) := by
  unfold answerChunks observe Srv.looked
  rw [if_neg (by simp [hb])]
  rw [IOM.bind_apply]
  unfold IOM.attempt
  rw [SM.cat_apply]
  simp only []
  rcases hc : contains h ⟨c, fs, []⟩ with ⟨r, s'⟩
  cases r <;> simp only [] <;> rfl

/-- C52: a daemon that knows its address answers every discovery request with an even number of entries.  The answer repeats the request's identifier, states the
daemon's address and port, and its chunk list is empty for the blank hash and for files the catalogue does not show, and otherwise describes exactly the chunks held: as
maximal runs, all of them if none were asked for (up to 65536 chunks), and those in each range asked for.  The only reason not to send it is that the network refuses it.
Nothing changes. -/
theorem C52_reply (hh : Healthy env d) (hclean : CleanReach env d dl (.running c fs)) (port : Nat) (w : Wire) (own : ByteArr 4) (hown : localIP w.addrs = .ok (some own.1))
    (r : UInt16) (h : Sha1Hash) (q : List UInt16) (hq : q.length ≤ 255) (heven : q.length % 2 = 0) (pad : Bytes) (ret : Addr) (ups : UpKey → Option Up) :
    ∃ fl s', serveDatagram env port w ((Msg.discoverReq r h q).serialize ++ pad) ret ⟨⟨c, fs, []⟩, ups⟩ =
        (if w.sends = true ∧ (Msg.discoverResp r own (UInt16.ofNat port) fl).serialize.length ≤ 65507
          then .ok (.sent ret.ip.bytes port (Msg.discoverResp r own (UInt16.ofNat port) fl).serialize) else .err .io, s') ∧
      (h.isBlank = true → fl = []) ∧
      (observe c fs h = .err .fileNotFound → fl = []) ∧
      (∀ e, h.isBlank = false → observe c fs h = .ok e →
        ∃ held : Nat → Bool, (∀ i, i < 2 ^ 63 → (held i = true ↔ e.saved i)) ∧ Advertises held e.progress.sizeOf.toNat q fl) ∧
      s'.uploads = ups ∧ s'.st.fs = fs ∧ ∀ k, observe s'.st.cat s'.st.fs k = observe c fs k := by
  have hlen : (Msg.discoverReq r h q).serialize.length ≤ 1024 := by
    have := h.2
    have hfm : ∀ l : List UInt16, (l.flatMap put16).length = 2 * l.length := by
      intro l; induction l with
      | nil => rfl
      | cons a l ih => rw [List.flatMap_cons, List.length_append, ih]; simp [put16]; omega
    simp [Msg.serialize, serializeChunks, put16, hfm, this]
    omega
  have hp := parse_buffer (.discoverReq r h q) hq hlen pad
  have key : ∀ s0 : Srv, serveDatagram env port w ((Msg.discoverReq r h q).serialize ++ pad) ret s0 =
      match answerChunks h q s0 with
      | (.ok fl, s') => (if w.sends = true ∧ (Msg.discoverResp r own (UInt16.ofNat port) fl).serialize.length ≤ 65507
          then .ok (.sent ret.ip.bytes port (Msg.discoverResp r own (UInt16.ofNat port) fl).serialize) else .err .io, s')
      | (.err e, s') => (.err e, s')
      | (.panic, s') => (.panic, s')
      | (.exit, s') => (.exit, s')
      | (.crash, s') => (.crash, s') := by
    intro s0
    unfold serveDatagram handleMessage
    rw [IOM.bind_apply, IOM.lift_apply, hp]
    simp only []
    unfold respondToDiscoverHosts
    rw [IOM.bind_apply, IOM.lift_apply, hown]
    simp only []
    rw [IOM.bind_apply, IOM.lift_apply, addressOf_ok]
    simp only []
    rw [IOM.bind_apply]
    rcases answerChunks h q s0 with ⟨x, s'⟩
    cases x with
    | ok fl =>
      simp only []
      rw [IOM.bind_apply, IOM.lift_apply]
      unfold udpSend
      by_cases hs : w.sends = true ∧ (Msg.discoverResp r own (UInt16.ofNat port) fl).serialize.length ≤ 65507
      · simp only [if_pos hs]; rfl
      · simp only [if_neg hs]
    | err e => rfl
    | panic => rfl
    | exit => rfl
    | crash => rfl
  rw [key]
  rcases hb : h.isBlank with _ | _
  · rw [answerChunks_known h q c fs ups hb]
    obtain ⟨g1, g2, g3, -⟩ := contains_effect hh hclean.reach h [] _ _ (rfl : contains h ⟨c, fs, []⟩ = (_, (contains h ⟨c, fs, []⟩).2))
    obtain ⟨c', -, -, -, -, h4⟩ := C30_restart hh hclean 0 0
    rcases h4 h with ⟨e, he⟩ | he
    · rw [he]
      obtain ⟨fl, k1, k2⟩ := answers_ok hh hclean.reach h e he q heven
      simp only [k1]
      refine ⟨fl, _, rfl, (by intro h; cases h), (by intro h; cases h), ?_, rfl, g1, g2⟩
      intro e' _ he'
      cases he'
      exact ⟨e.progress.has, fun i hi => (e.saved_iff i hi).symm, k2⟩
    · rw [he]
      refine ⟨[], _, rfl, (by intro h; cases h), fun _ => rfl, ?_, rfl, g1, g2⟩
      intro e _ h; cases h
  · rw [answerChunks_blank h q _ hb]
    exact ⟨[], _, rfl, fun _ => rfl, fun _ => rfl, (by intro e h; cases h), rfl, rfl, fun _ => rfl⟩

/-! ## C48: the first packet of an upload -/

theorem SM.cat_ok {α : Type} (x : CM α) (s s' : Srv) (a : α) (h : SM.cat x s = (.ok a, s')) : x s.st = (.ok a, s'.st) ∧ s'.uploads = s.uploads := by
  rw [SM.cat_apply] at h
  injection h with h1 h2
  subst h2
  exact ⟨Prod.ext h1 rfl, rfl⟩

/-- What a successful `StartUpload` has done up to the upload table. -/
theorem startUpload_inv (hh : Healthy env d) (hreach : Reach env d dl (.running c fs)) (w : Wire) (h : Sha1Hash) (n cap : UInt16) (ret : Addr) (fl : List Fault)
    (ups : UpKey → Option Up) (key : UpKey) (p : Packet) (s' : Srv) (hrun : startUpload env w h n cap ret ⟨⟨c, fs, fl⟩, ups⟩ = (.ok (.first key p), s')) :
    ∃ e content cs cr st, observe c fs h = .ok e ∧ e.saved n.toNat ∧ fs e.filePath = some content ∧ e.chunkSize = ((cs : Nat) : Int) ∧ cs < 2 ^ 32 ∧
      newChunkReader env.sha1 content (n.toNat * cs) cs w.reads = some cr ∧
      newIpv4 ret.ip = .ok key.host ∧ key.port = UInt16.ofNat ret.port ∧
      st.fs = fs ∧ (∀ k, observe st.cat st.fs k = observe c fs k) ∧ Reach env d dl (.running st.cat st.fs) ∧
      openUpload w content cr cap key ⟨st, ups⟩ = (.ok (.first key p), s') := by
  unfold startUpload at hrun
  obtain ⟨ir, s1, h1, hrun⟩ := (IOM.bind_ok_iff _ _ _ _ _).1 hrun
  obtain ⟨h1, hu1⟩ := SM.cat_ok _ _ _ _ h1
  obtain ⟨g1, g2, g3, g4⟩ := contains_effect hh hreach h fl _ _ h1
  have ho := g3 ir rfl
  have hr1 := g4 rfl
  have hown := C27_own hh hreach h ir ho
  obtain ⟨o, s2, h2, hrun⟩ := (IOM.bind_ok_iff _ _ _ _ _).1 hrun
  obtain ⟨h2, hu2⟩ := SM.cat_ok _ _ _ _ h2
  rw [hown] at h2
  rcases o with _ | cr
  · cases hrun
  simp only [] at hrun
  split at hrun
  · cases hrun
  rename_i hsz
  obtain ⟨host, s3, h3, hrun⟩ := (IOM.bind_ok_iff _ _ _ _ _).1 hrun
  rw [IOM.lift_apply] at h3
  injection h3 with h3 h3'
  subst h3'
  obtain ⟨fs', s4, h4, hrun⟩ := (IOM.bind_ok_iff _ _ _ _ _).1 hrun
  obtain ⟨h4, hu4⟩ := SM.cat_ok _ _ _ _ h4
  injection h4 with h4 h4'
  injection h4 with h4
  have hI : Inv env d dl s1.st.cat s1.st.fs := hr1.inv hh.abs hh.utf8
  obtain ⟨ind, hind, hw⟩ := hI.split
  have h2' := h2
  rw [show s1.st = ⟨s1.st.cat, s1.st.fs, s1.st.faults⟩ from rfl] at h2
  have hr2 : Reach env d dl (.running s2.st.cat s2.st.fs) := Reach.call hr1 (.reader h n.toNat w.reads) trivial _ _ (CM.void_ok _ _ _ _ h2)
  obtain ⟨k1, k2⟩ := C35_harmless hh hr1 h n.toNat w.reads _ _ _ h2
  rw [hind] at h2
  obtain ⟨-, e, content, m2, m3, m4, m5⟩ :=
    ((ro_reader (dl := dl) (fs0 := s1.st.fs) env hw.ownGet h n.toNat w.reads) ⟨_, s1.st.fs, s1.st.faults⟩ (RO.init d dl ind s1.st.fs)).1 _ _ h2
  rw [← observe_eq d dl, ← hind, g2, ho] at m2
  cases m2
  obtain ⟨hc1, hc2⟩ := observe_chunkSize hh hreach h ir ho
  have hfs2 : s2.st.fs = fs := by rw [k1, g1]
  have hkey : key = ⟨host, UInt16.ofNat ret.port⟩ := by
    unfold openUpload at hrun
    simp only [] at hrun
    injection hrun with hrun _
    rw [Res.bind_ok_iff] at hrun
    obtain ⟨a, -, hb⟩ := hrun
    injection hb with hb
    injection hb with hb
    exact hb.symm
  have hcont : (fs' ir.filePath).getD [] = content := by
    rw [← h4, hfs2, ← g1, m4]; rfl
  have hs4 : s4 = ⟨s2.st, ups⟩ := by
    obtain ⟨a, b⟩ := s4
    simp only [] at h4' hu4
    rw [← h4', hu4, hu2, hu1]
  refine ⟨ir, content, ir.chunkSize.toNat, cr, s2.st, ho, m3, by rw [← g1]; exact m4, by omega, by omega, m5.symm, by rw [hkey]; exact h3, by rw [hkey],
    hfs2, fun k => by rw [k2, g2], hr2, ?_⟩
  rw [hcont, hs4] at hrun
  rw [← hkey] at hrun
  exact hrun

/-- C48 in full: the first packet sent for a request carries the hash, the size and the first bytes of the chunk asked for. -/
def C48_statement (env : Env) (d dl : Path) : Prop :=
  ∀ (c : Cat) (fs : FS) (port : Nat) (w : Wire) (data : Bytes) (h : Sha1Hash) (n cap : UInt16) (ret : Addr) (ups : UpKey → Option Up) (key : UpKey) (p : Packet) (s' : Srv),
    CleanReach env d dl (.running c fs) → parse (udpBuffer data) = .ok (.openReq h n cap) →
    serveDatagram env port w data ret ⟨⟨c, fs, []⟩, ups⟩ = (.ok (.first key p), s') →
    ∃ e content, observe c fs h = .ok e ∧ e.saved n.toNat ∧ fs e.filePath = some content ∧
      p = stream (env.sha1 ((content.drop (n.toNat * e.chunkSize.toNat)).take e.chunkSize.toNat))
        ((content.drop (n.toNat * e.chunkSize.toNat)).take e.chunkSize.toNat) 0

/-- C48, for an address and port that have no upload yet: the packet is the right one, goes to the address the request came from, the upload table gains exactly one
entry, and that entry is an upload of this chunk in the sense of C40 to C47.  Missing: addresses already in the table, where it is false (`C48_stale`). -/
theorem C48_new_partial (hh : Healthy env d) (hreach : Reach env d dl (.running c fs)) (port : Nat) (w : Wire) (data : Bytes) (h : Sha1Hash) (n cap : UInt16) (ret : Addr)
    (fl : List Fault) (ups : UpKey → Option Up) (key : UpKey) (p : Packet) (s' : Srv) (hp : parse (udpBuffer data) = .ok (.openReq h n cap))
    (hrun : serveDatagram env port w data ret ⟨⟨c, fs, fl⟩, ups⟩ = (.ok (.first key p), s')) (hnew : ups key = none) :
    ∃ e content cs, observe c fs h = .ok e ∧ e.saved n.toNat ∧ fs e.filePath = some content ∧ e.chunkSize = ((cs : Nat) : Int) ∧
      p = stream (env.sha1 ((content.drop (n.toNat * cs)).take cs)) ((content.drop (n.toNat * cs)).take cs) 0 ∧
      newIpv4 ret.ip = .ok key.host ∧ key.port = UInt16.ofNat ret.port ∧
      (∀ k, k ≠ key → s'.uploads k = ups k) ∧
      (∃ cr conn, newChunkReader env.sha1 content (n.toNat * cs) cs w.reads = some cr ∧ s'.uploads key = some ⟨content, conn⟩ ∧ Upload content true cr cap [.sent p] conn) ∧
      s'.st.fs = fs ∧ ∀ k, observe s'.st.cat s'.st.fs k = observe c fs k := by
  unfold serveDatagram handleMessage at hrun
  rw [IOM.bind_apply, IOM.lift_apply, hp] at hrun
  obtain ⟨e, content, cs, cr, st, h1, h2, h3, h4, h5, h6, h7, h8, h9, h10, -, hopen⟩ := startUpload_inv hh hreach w h n cap ret fl ups key p s' hrun
  unfold openUpload at hopen
  simp only [hnew, Option.getD_none] at hopen
  obtain ⟨g1, g2, -, g4⟩ := C23_describes env.sha1 content _ _ _ cr h6
  rcases hk : kickstart content (newSender cr cap) cr.hash cr.size w.rd w.sends with ⟨r, conn⟩
  rw [hk] at hopen
  simp only [] at hopen
  injection hopen with hq hs
  rw [Res.bind_ok_iff] at hq
  obtain ⟨p', rfl, hq⟩ := hq
  injection hq with hq
  injection hq with _ hq
  subst hq
  have hsend : w.sends = true := by
    rcases hsnd : w.sends with _ | _
    · rw [hsnd] at hk
      unfold kickstart at hk
      simp only [Bool.false_eq_true, ↓reduceIte] at hk
      split at hk
      · split at hk <;> cases hk
      · cases hk
    · rfl
  rw [hsend] at hk
  rcases kickstart_new content cr (n.toNat * cs) cs cap g4 g2 h5 w.rd true with ⟨⟨s1, hs1⟩, -⟩ | ⟨s1, hs1, -⟩
  · rw [hs1] at hk; cases hk
  rw [hs1] at hk
  injection hk with hk1 hk2
  injection hk1 with hk1
  rw [g1] at hk1
  refine ⟨e, content, cs, h1, h2, h3, h4, hk1.symm, h7, h8, ?_, ⟨cr, conn, h6, ?_, ?_⟩, ?_, ?_⟩
  · intro k hne; rw [← hs]; simp [hne]
  · rw [← hs]; simp
  · refine ⟨w.rd, p', conn, [], (by intro h; cases h), ?_, SRun.refl _, rfl⟩
    rw [hs1, hk2, ← hk1, g1]
  · rw [← hs]; exact h9
  · rw [← hs]; exact h10

/-- `kickstart` on any connection starts over at the beginning of the section its reader was opened on; it never panics. -/
theorem kickstart_any (content : Bytes) (s : Sender) (start n : Nat) (hb : s.reader.reader.base = start) (hl : s.reader.reader.limit = start + n) (hn : n < 2 ^ 32)
    (hash : Sha1Hash) (size : Nat) (rd : AtChoice) (sends : Bool) :
    ((∃ s0, kickstart content s hash size rd sends = (.err .io, s0)) ∧ (rd ≠ .good ∨ sends = false)) ∨
    ∃ s0, kickstart content s hash size rd sends = (.ok ⟨0, hash.1 ++ put32 (UInt32.ofNat size) ++ (slice content start n).take 1000⟩, s0) := by
  have hreset : s.reader.reset.reader = ⟨start, start + 0, start + n⟩ := by
    show SectionReader.mk s.reader.reader.base s.reader.reader.base s.reader.reader.limit = _
    rw [hb, hl]; rfl
  unfold kickstart
  simp only []
  rcases read_cases content _ start n 0 1000 hreset (Nat.zero_le _) hn rd with hg | ⟨got, off, cr', hg⟩
  · rw [hg, read_good content _ start n 0 1000 hreset (Nat.zero_le _) hn]
    simp only []
    rw [if_neg (by split <;> simp)]
    cases sends with
    | false => exact .inl ⟨⟨_, rfl⟩, .inr rfl⟩
    | true =>
      rw [if_pos rfl]
      exact .inr ⟨_, rfl⟩
  · rw [hg]
    simp only [if_pos]
    refine .inl ⟨⟨_, rfl⟩, .inl ?_⟩
    rintro rfl
    rw [read_good content _ start n 0 1000 hreset (Nat.zero_le _) hn] at hg
    injection hg with hg
    injection hg with _ hg
    injection hg with _ hg
    injection hg with hg _
    split at hg <;> cases hg

theorem read_section (content : Bytes) (cr cr' : ChunkReader) (k : Nat) (rd : AtChoice) (got : Bytes) (off : UInt32) (er : Option ReadErr)
    (h : cr.read content k rd = .ok (got, off, er, cr')) : cr'.reader.base = cr.reader.base ∧ cr'.reader.limit = cr.reader.limit := by
  unfold ChunkReader.read at h
  rw [Res.bind_ok_iff] at h
  obtain ⟨o, -, h⟩ := h
  unfold SectionReader.read at h
  simp only [] at h
  injection h with h
  injection h with _ h
  injection h with _ h
  injection h with _ h
  rw [← h]
  simp only []
  split <;> exact ⟨rfl, rfl⟩

theorem kickstart_section (content : Bytes) (s s' : Sender) (hash : Sha1Hash) (size : Nat) (rd : AtChoice) (sends : Bool) (r : Res Packet)
    (h : kickstart content s hash size rd sends = (r, s')) :
    s'.reader.reader.base = s.reader.reader.base ∧ s'.reader.reader.limit = s.reader.reader.limit := by
  unfold kickstart at h
  simp only [] at h
  split at h
  · rename_i got off err rd' hr
    have := read_section _ _ _ _ _ _ _ _ hr
    split at h
    · cases h; exact this
    · split at h
      · cases h; exact this
      · cases h; exact this
  · cases h; exact ⟨rfl, rfl⟩

theorem sstep_section {content : Bytes} {faults : Bool} {s s' : Sender} {e : Ev} (h : SStep content faults s e s') :
    s'.reader.reader.base = s.reader.reader.base ∧ s'.reader.reader.limit = s.reader.reader.limit := by
  cases h with
  | arrive => exact ⟨rfl, rfl⟩
  | take => exact ⟨rfl, rfl⟩
  | cancel => exact ⟨rfl, rfl⟩
  | terminate => exact ⟨rfl, rfl⟩
  | ret => exact ⟨rfl, rfl⟩
  | turn ends rd sends hw hf =>
    unfold kickTurn
    split
    · split
      · rename_i got off err rd' hr
        have := read_section _ _ _ _ _ _ _ _ hr
        simp only []
        split
        · exact this
        · split <;> exact this
      · exact ⟨rfl, rfl⟩
    · exact ⟨rfl, rfl⟩

/-- Whatever happens to an upload, its reader stays on the section it was opened on. -/
theorem upload_section {content : Bytes} {faults : Bool} {cr : ChunkReader} {cap : UInt16} {tr : List Ev} {s : Sender} (h : Upload content faults cr cap tr s) :
    s.reader.reader.base = cr.reader.base ∧ s.reader.reader.limit = cr.reader.limit := by
  obtain ⟨rd, p, s0, tr', -, hk, hrun, -⟩ := h
  have h0 := kickstart_section _ _ _ _ _ _ _ _ hk
  clear hk
  induction hrun with
  | refl => exact h0
  | step hr hs ih =>
    have := sstep_section hs
    exact ⟨this.1.trans ih.1, this.2.trans ih.2⟩

/-- C48, the defect: a request from an address that already has an upload, of any chunk and in any state, is answered with the hash and size of the chunk asked for but
the bytes of the chunk uploaded before. -/
theorem C48_stale (hh : Healthy env d) (hreach : Reach env d dl (.running c fs)) (port : Nat) (w : Wire) (data : Bytes) (h : Sha1Hash) (n cap : UInt16) (ret : Addr)
    (fl : List Fault) (ups : UpKey → Option Up) (key : UpKey) (p : Packet) (s' : Srv) (hp : parse (udpBuffer data) = .ok (.openReq h n cap))
    (hrun : serveDatagram env port w data ret ⟨⟨c, fs, fl⟩, ups⟩ = (.ok (.first key p), s'))
    (up : Up) (hup : ups key = some up) (start len : Nat) (hlen : len < 2 ^ 32) (ch : List AtChoice) (cr : ChunkReader) (faults : Bool) (cap' : UInt16) (tr : List Ev)
    (hcr : newChunkReader env.sha1 up.content start len ch = some cr) (hold : Upload up.content faults cr cap' tr up.conn) :
    ∃ e content cs, observe c fs h = .ok e ∧ e.saved n.toNat ∧ fs e.filePath = some content ∧ e.chunkSize = ((cs : Nat) : Int) ∧
      p = ⟨0, (env.sha1 ((content.drop (n.toNat * cs)).take cs)).1 ++ put32 (UInt32.ofNat ((content.drop (n.toNat * cs)).take cs).length) ++
        ((up.content.drop start).take len).take 1000⟩ := by
  unfold serveDatagram handleMessage at hrun
  rw [IOM.bind_apply, IOM.lift_apply, hp] at hrun
  obtain ⟨e, content, cs, cr', st, h1, h2, h3, h4, h5, h6, h7, h8, h9, h10, -, hopen⟩ := startUpload_inv hh hreach w h n cap ret fl ups key p s' hrun
  unfold openUpload at hopen
  simp only [hup, Option.getD_some] at hopen
  obtain ⟨g1, g2, -, -⟩ := C23_describes env.sha1 content _ _ _ cr' h6
  obtain ⟨-, -, -, g4⟩ := C23_describes env.sha1 up.content _ _ _ cr hcr
  obtain ⟨k1, k2⟩ := upload_section hold
  rw [g4] at k1 k2
  refine ⟨e, content, cs, h1, h2, h3, h4, ?_⟩
  rcases hk : kickstart up.content up.conn cr'.hash cr'.size w.rd w.sends with ⟨r, conn⟩
  rw [hk] at hopen
  simp only [] at hopen
  injection hopen with hq hs
  rw [Res.bind_ok_iff] at hq
  obtain ⟨p', rfl, hq⟩ := hq
  injection hq with hq
  injection hq with _ hq
  subst hq
  rcases kickstart_any up.content up.conn start len k1 k2 hlen cr'.hash cr'.size w.rd w.sends with ⟨⟨s1, hs1⟩, -⟩ | ⟨s1, hs1⟩
  · rw [hs1] at hk; cases hk
  · rw [hs1] at hk
    injection hk with hk _
    injection hk with hk
    rw [← hk, g1, g2]
    rfl

/-- C48: a request for a chunk that is held, of a file that is there, from an IPv4 address, is served unless reading or sending fails. -/
theorem C48_serves (hh : Healthy env d) (hreach : Reach env d dl (.running c fs)) (port : Nat) (w : Wire) (data : Bytes) (h : Sha1Hash) (n cap : UInt16) (ret : Addr)
    (host : ByteArr 4) (ups : UpKey → Option Up) (hp : parse (udpBuffer data) = .ok (.openReq h n cap)) (e : Export) (content : Bytes) (ho : observe c fs h = .ok e)
    (hn : e.saved n.toNat) (hf : fs e.filePath = some content) (hch : e.chunkSize.toNat < w.reads.countP (· == .good)) (hrd : w.rd = .good) (hsend : w.sends = true)
    (hip : newIpv4 ret.ip = .ok host) (hnew : ups ⟨host, UInt16.ofNat ret.port⟩ = none) :
    ∃ p s', serveDatagram env port w data ret ⟨⟨c, fs, []⟩, ups⟩ = (.ok (.first ⟨host, UInt16.ofNat ret.port⟩ p), s') := by
  obtain ⟨hc1, hc2⟩ := observe_chunkSize hh hreach h e ho
  rcases hcon : contains h ⟨c, fs, []⟩ with ⟨r0, s1⟩
  have hr0 : r0 = .ok e := by
    have : (contains h ⟨c, fs, []⟩).1 = .ok e := ho
    rw [hcon] at this; exact this
  subst hr0
  obtain ⟨g1, g2, -, g4⟩ := contains_effect hh hreach h [] _ _ hcon
  have hs1 : s1 = ⟨s1.cat, s1.fs, []⟩ := by
    have hI : Inv env d dl c fs := hreach.inv hh.abs hh.utf8
    obtain ⟨ind, rfl, hw⟩ := hI.split
    unfold contains at hcon
    rw [IOM.bind_apply, getIndexRecord_nil] at hcon
    rcases hm : mapGet ind.index h with _ | r
    · rw [hm] at hcon; cases hcon
    · rw [hm] at hcon
      simp only [] at hcon
      rcases hv : viewProgress d fs r with q | x | _ | _ | _ <;> rw [hv] at hcon
      · injection hcon with _ hcon; rw [← hcon]
      all_goals cases hcon
  have hr1 := g4 rfl
  have ho1 : observe s1.cat s1.fs h = .ok e := by rw [g2]; exact ho
  obtain ⟨cr, s2, hread⟩ := C35_serves hh hr1 h n.toNat w.reads e content ho1 hn (by rw [g1]; exact hf) hch
  obtain ⟨e', content', cs, k1, k2, k3, k4, k5, k6, -⟩ := C35_reader hh hr1 h n.toNat w.reads [] cr s2 hread
  rw [ho1] at k1; cases k1
  rw [g1, hf] at k3; cases k3
  have hfs2 := (C35_harmless hh hr1 h n.toNat w.reads [] _ _ hread).1
  have hown := C27_own hh hreach h e ho
  have hsz : ¬ cr.size > 4294967295 := by rw [k6]; simp; omega
  have hI1 : Inv env d dl s1.cat s1.fs := hr1.inv hh.abs hh.utf8
  obtain ⟨ind, hind, hw⟩ := hI1.split
  have hread' := hread
  rw [hind] at hread'
  obtain ⟨-, e2, content2, m2, m3, m4, m5⟩ :=
    ((ro_reader (dl := dl) (fs0 := s1.fs) env hw.ownGet h n.toNat w.reads) ⟨_, s1.fs, []⟩ (RO.init d dl ind s1.fs)).1 _ _ hread'
  rw [← observe_eq d dl, ← hind, ho1] at m2
  cases m2
  obtain ⟨-, -, -, q4⟩ := C23_describes env.sha1 content2 _ _ _ cr m5.symm
  have hkick := kickstart_any content (newSender cr cap) (n.toNat * e.chunkSize.toNat) e.chunkSize.toNat
    (show cr.reader.base = _ by rw [q4]) (show cr.reader.limit = _ by rw [q4]) (by omega) cr.hash cr.size w.rd w.sends
  rcases hkick with ⟨-, hbad⟩ | ⟨s0, hkick⟩
  · rcases hbad with hbad | hbad
    · exact absurd hrd hbad
    · rw [hsend] at hbad; cases hbad
  unfold serveDatagram handleMessage
  rw [IOM.bind_apply, IOM.lift_apply, hp]
  simp only []
  unfold startUpload
  rw [IOM.bind_apply, SM.cat_apply, hcon]
  simp only []
  rw [IOM.bind_apply, SM.cat_apply, hown, hs1, hread]
  simp only []
  rw [if_neg hsz]
  rw [IOM.bind_apply, IOM.lift_apply, hip]
  simp only []
  rw [IOM.bind_apply, SM.cat_apply]
  simp only [getFS]
  unfold openUpload
  simp only [hnew, Option.getD_none]
  rw [hfs2, g1, hf, Option.getD_some, hkick]
  exact ⟨_, _, rfl⟩

/-! ## C59: acknowledgements -/

/-- Every datagram that starts with the type byte of an acknowledgement is one. -/
theorem parse_ack (data : Bytes) (h : data.head? = some 6) : ∃ o, parse (udpBuffer data) = .ok (.ack o) := by
  obtain ⟨bs, hb, hl, hi⟩ := udpBuffer_length data
  have h0 : bs[0]? = some 6 := hi 0 6 (by rw [← List.head?_eq_getElem?]; exact h) (by omega)
  rw [hb]
  unfold parse parseM
  simp only [rm_bind, readByte_at, hl, h0]
  rw [if_pos (by omega), Res.bind_ok]
  simp only [Option.getD_some]
  rw [if_neg (by decide), if_neg (by decide), if_neg (by decide), if_neg (by decide), if_neg (by decide), if_pos (by decide)]
  simp only [rm_bind, readUint32_at, Slice.exact, hl, rm_pure]
  exact ⟨_, rfl⟩

/-- The state after an acknowledgement for the upload `up`. -/
def Srv.acked (s : Srv) (key : UpKey) (up : Up) : Srv :=
  { s with uploads := fun k => if k = key then some ⟨up.content, { up.conn with pending := up.conn.pending + 1 }⟩ else s.uploads k }

/-- C59: an acknowledgement from an IPv4 address reaches the upload of that address and port, if there is one, and changes nothing else; if there is none it is an error
and nothing changes. -/
theorem C59_ack (env : Env) (port : Nat) (w : Wire) (data : Bytes) (hd : data.head? = some 6) (ret : Addr) (host : ByteArr 4) (hip : newIpv4 ret.ip = .ok host) (s : Srv) :
    (∀ up, s.uploads ⟨host, UInt16.ofNat ret.port⟩ = some up → ∃ s', serveDatagram env port w data ret s = (.ok (.acked ⟨host, UInt16.ofNat ret.port⟩), s') ∧
      s'.st = s.st ∧ (∀ k, k ≠ ⟨host, UInt16.ofNat ret.port⟩ → s'.uploads k = s.uploads k) ∧
      ∃ conn, s'.uploads ⟨host, UInt16.ofNat ret.port⟩ = some ⟨up.content, conn⟩ ∧ ∀ faults, SStep up.content faults up.conn .ack conn) ∧
    (s.uploads ⟨host, UInt16.ofNat ret.port⟩ = none → serveDatagram env port w data ret s = (.err .noUpload, s)) := by
  obtain ⟨o, ho⟩ := parse_ack data hd
  have key : serveDatagram env port w data ret s = match s.uploads ⟨host, UInt16.ofNat ret.port⟩ with
      | none => (.err .noUpload, s)
      | some up => (.ok (.acked ⟨host, UInt16.ofNat ret.port⟩), s.acked ⟨host, UInt16.ofNat ret.port⟩ up) := by
    unfold serveDatagram handleMessage
    rw [IOM.bind_apply, IOM.lift_apply, ho]
    simp only []
    unfold continueUpload
    refine (IOM.bind_apply _ _ _).trans ?_
    rw [IOM.lift_apply, hip]
    simp only []
    rcases s.uploads ⟨host, UInt16.ofNat ret.port⟩ with _ | up <;> rfl
  rw [key]
  constructor
  · intro up hup
    rw [hup]
    refine ⟨_, rfl, rfl, ?_, ?_⟩
    · intro k hk; simp [Srv.acked, hk]
    · exact ⟨{ up.conn with pending := up.conn.pending + 1 }, by simp [Srv.acked], fun faults => SStep.arrive up.conn⟩
  · intro hup; rw [hup]

/-- C59: an acknowledgement from an address that is not IPv4 is an error and changes nothing. -/
theorem C59_not_ipv4 (env : Env) (port : Nat) (w : Wire) (data : Bytes) (hd : data.head? = some 6) (ret : Addr) (hip : newIpv4 ret.ip = .err .notIPv4) (s : Srv) :
    serveDatagram env port w data ret s = (.err .notIPv4, s) := by
  obtain ⟨o, ho⟩ := parse_ack data hd
  unfold serveDatagram handleMessage
  rw [IOM.bind_apply, IOM.lift_apply, ho]
  simp only []
  unfold continueUpload
  refine (IOM.bind_apply _ _ _).trans ?_
  rw [IOM.lift_apply, hip]

end

/-! ## C55: which hosts are used -/

/-- C55: the hosts used are the responders that advertise at least one chunk and are not this host, in the order of their responses. -/
theorem C55_hosts (own : ByteArr 4) (rs : List HostResp) :
    (goodHosts own rs).Sublist rs ∧ (∀ r, r ∈ goodHosts own rs ↔ r ∈ rs ∧ r.chunks ≠ [] ∧ r.addr ≠ own) ∧
      ∀ r, r.chunks ≠ [] → r.addr ≠ own → (goodHosts own rs).count r = rs.count r := by
  induction rs with
  | nil => simp [goodHosts]
  | cons x rs ih =>
    obtain ⟨h1, h2, h3⟩ := ih
    unfold goodHosts
    have hx : (x.chunks.length > 0 ∧ x.addr ≠ own) ↔ (x.chunks ≠ [] ∧ x.addr ≠ own) := by
      rw [gt_iff_lt, List.length_pos_iff]
    by_cases hc : x.chunks.length > 0 ∧ x.addr ≠ own
    · rw [if_pos hc]
      have hc' := hx.1 hc
      refine ⟨h1.cons_cons x, ?_, ?_⟩
      · intro r
        simp only [List.mem_cons, h2]
        constructor
        · rintro (rfl | ⟨a, b⟩)
          · exact ⟨.inl rfl, hc'⟩
          · exact ⟨.inr a, b⟩
        · rintro ⟨rfl | a, b⟩
          · exact .inl rfl
          · exact .inr ⟨a, b⟩
      · intro r a b
        rw [List.count_cons, List.count_cons, h3 r a b]
    · rw [if_neg hc]
      refine ⟨h1.cons x, ?_, ?_⟩
      · intro r
        simp only [List.mem_cons, h2]
        constructor
        · rintro ⟨a, b⟩; exact ⟨.inr a, b⟩
        · rintro ⟨rfl | a, b⟩
          · exact absurd (hx.2 b) hc
          · exact ⟨a, b⟩
      · intro r a b
        rw [List.count_cons, h3 r a b]
        have : x ≠ r := by rintro rfl; exact hc (hx.2 ⟨a, b⟩)
        simp [this]

/-- C55: whether a host has the chunk that is being fetched plays no part: a host that advertises only chunk 5 is used for fetching chunk 0. -/
theorem C55_any_chunk (own a : ByteArr 4) (h : a ≠ own) (r p : UInt16) : goodHosts own [⟨r, a, p, [5, 5]⟩] = [⟨r, a, p, [5, 5]⟩] := by
  unfold goodHosts
  rw [if_pos ⟨by simp, h⟩]; rfl

/-! ## C65: the address a host states -/

/-- The IPv4 form of an interface address, unless it is a loopback address (127.x.x.x or ::1). -/
def Spec.usable (a : Bytes) : Option (ByteArr 4) :=
  match to4 a with
  | some b => if h : b.length = 4 then (if b.head? = some 127 then none else some ⟨b, h⟩) else none
  | none => none

theorem to4_length (a b : Bytes) (h : to4 a = some b) : b.length = 4 := by
  unfold to4 at h
  split at h
  · cases h; assumption
  · split at h
    · cases h; simp; omega
    · cases h

/-- C65: `LocalIP` is the first usable interface address, and nil exactly if there is none; it panics only if the addresses cannot be obtained. -/
theorem C65_localIP (addrs : List Bytes) :
    localIP (some addrs) = .ok ((addrs.findSome? usable).map (·.1)) ∧ localIP none = .panic := by
  refine ⟨?_, rfl⟩
  have key : ∀ l : List Bytes, firstAddr l = (l.findSome? usable).map (·.1) := by
    intro l
    induction l with
    | nil => rfl
    | cons a rest ih =>
      unfold firstAddr
      rw [List.findSome?_cons]
      rcases h4 : to4 a with _ | b
      · have h1 : usable a = none := by unfold usable; rw [h4]
        rw [h1]
        simp only []
        split <;> exact ih
      · have hl := to4_length a b h4
        have h2 : isLoopback a = (b.head? == some 127) := by unfold isLoopback; rw [h4]
        rw [h2]
        by_cases hb : b.head? = some 127
        · have h1 : usable a = none := by unfold usable; rw [h4]; simp [hl, hb]
          rw [if_pos (by simpa using hb), h1]
          exact ih
        · have h1 : usable a = some ⟨b, hl⟩ := by unfold usable; rw [h4]; simp [hl, hb]
          rw [if_neg (by simpa using hb), h1]
          rfl
  unfold localIP
  simp only [key]

/-! ## Examples -/

/-- A daemon that has downloaded all three chunks of the file `1 2 3 4 5` with chunk size two. -/
theorem ex_complete (sha1 : Bytes → Sha1Hash) (json : JsonCodec) (h : Sha1Hash) : ∃ c fs e,
    CleanReach (exEnv sha1 json) exDir exDown (.running c fs) ∧ observe c fs h = .ok e ∧ e.chunkSize = 2 ∧ fs e.filePath = some [1, 2, 3, 4, 5] ∧
    e.progress.sizeOf = 3 ∧ e.saved 0 ∧ e.saved 1 ∧ e.saved 2 ∧ ¬ CatFile exDir e.filePath := by
  obtain ⟨c, fs, e, s1, h1, h2, h3, h4, h5, h6, h7, h8, h9⟩ := ex_registered sha1 json h
  have hh := ex_healthy sha1 json
  obtain ⟨-, ⟨b, g1, -, -, g5⟩, -, g7⟩ := C29_register hh h1.reach 5 2 h [120] [] e s1 (by decide) (by decide) h2
  have hpath : e.filePath = joinPath [exDown, [120]] := by rw [g1]
  obtain ⟨k1, k2, k3⟩ := C33_start hh h1.reach [1, 2, 3, 4, 5] 2 h [120] [] e s1 (by decide) (by decide) (by rw [← hpath]; exact h6) h2
  have hold : (fs (joinPath [exDown, [120]])) = none := by
    rw [← g7 _ (fun e => h6 (.inl (by rw [hpath]; exact e))) (fun e => h6 (.inr ⟨h, by rw [hpath]; exact e⟩)), ← hpath]; exact h3
  rw [hold] at k3
  rw [← hpath] at k3
  obtain ⟨s', e', m1, m2, m3, m4, m5, m6, m7⟩ := C33_any_order hh [1, 2, 3, 4, 5] [] 2 h [0, 1, 2] s1.cat s1.fs e h9.reach h7 h6 k3 (by decide)
  have hs1 : s1 = ⟨s1.cat, s1.fs, s1.faults⟩ := rfl
  obtain ⟨m8, m9⟩ := m7 h9
  have q0 : e'.saved 0 := (m6 0 (by decide)).2 (.inr ⟨0, by simp, rfl⟩)
  have q1 : e'.saved 1 := (m6 1 (by decide)).2 (.inr ⟨1, by simp, rfl⟩)
  have q2 : e'.saved 2 := (m6 2 (by decide)).2 (.inr ⟨2, by simp, rfl⟩)
  have hsz : e'.progress.sizeOf = 3 := m5.count
  refine ⟨s'.cat, s'.fs, e', m9, m3, m5.chunkSize, ?_, hsz, q0, q1, q2, by rw [m4]; exact h6⟩
  have := (C33_content _ _ _ _ _ m5 (by simp) (fun i hi => by
    rw [hsz] at hi
    have : i = 0 ∨ i = 1 ∨ i = 2 := by omega
    rcases this with rfl | rfl | rfl
    · exact q0
    · exact q1
    · exact q2)).2 (by simp)
  rw [m4]; exact this

/-- An ordinary machine: address 10.0.0.1 besides the loopback address, reads and sends succeed. -/
def exWire : Wire := ⟨some [[127, 0, 0, 1], [10, 0, 0, 1]], [], List.replicate 3 .good, .good, true⟩
/-- Port 4000 at 10.0.0.2. -/
def exAddr : Addr := ⟨.exact [10, 0, 0, 2], 4000⟩

/-- C48 in full is false: the second chunk asked for from the same port arrives as the bytes of the first. -/
theorem C48_refuted (sha1 : Bytes → Sha1Hash) (json : JsonCodec) : ¬ C48_statement (exEnv sha1 json) exDir exDown := by
  intro hall
  obtain ⟨c, fs, e, h1, h2, h3, h4, h5, h6, h7, h8, h9⟩ := ex_complete sha1 json Sha1Hash.zero
  have hh := ex_healthy sha1 json
  have hp0 := parse_buffer (.openReq Sha1Hash.zero 0 1) trivial (by decide) []
  have hp1 := parse_buffer (.openReq Sha1Hash.zero 1 1) trivial (by decide) []
  obtain ⟨p0, s0, hr0⟩ := C48_serves hh h1.reach 0 exWire _ Sha1Hash.zero 0 1 exAddr ⟨[10, 0, 0, 2], rfl⟩ (fun _ => none) hp0 e _ h2 h6 h4
    (by rw [h3]; decide) rfl rfl rfl rfl
  obtain ⟨e0, content0, cs, k1, k2, k3, k4, k5, k6, k7, k8, ⟨cr0, conn0, k9, k10, k11⟩, k12, k13⟩ :=
    C48_new_partial hh h1.reach 0 exWire _ Sha1Hash.zero 0 1 exAddr [] _ _ p0 s0 hp0 hr0 rfl
  rw [h2] at k1; cases k1
  rw [h4] at k3; cases k3
  have hcs : cs = 2 := by omega
  subst hcs
  -- the second request, in the same state of the catalogue
  have hrun : ∃ p1 s1, serveDatagram (exEnv sha1 json) 0 exWire ((Msg.openReq Sha1Hash.zero 1 1).serialize ++ []) exAddr ⟨⟨c, fs, []⟩, s0.uploads⟩ =
      (.ok (.first ⟨⟨[10, 0, 0, 2], rfl⟩, 4000⟩ p1), s1) := by
    obtain ⟨p1, s1, hr1⟩ := C48_serves hh h1.reach 0 exWire _ Sha1Hash.zero 1 1 exAddr ⟨[10, 0, 0, 2], rfl⟩ (fun _ => none) hp1 e _ h2 h7 h4
      (by rw [h3]; decide) rfl rfl rfl rfl
    unfold serveDatagram handleMessage at hr1 ⊢
    rw [IOM.bind_apply, IOM.lift_apply, hp1] at hr1 ⊢
    obtain ⟨e', content', cs', cr, st, j1, j2, j3, j4, j5, j6, j7, j8, j9, j10, j11, j12⟩ := startUpload_inv hh h1.reach exWire _ _ _ exAddr [] _ _ _ _ hr1
    clear j12
    simp only [] at hr1 ⊢
    unfold startUpload at hr1 ⊢
    obtain ⟨ir, t1, q1, hr1⟩ := (IOM.bind_ok_iff _ _ _ _ _).1 hr1
    rw [IOM.bind_apply, SM.cat_apply]
    obtain ⟨q1, u1⟩ := SM.cat_ok _ _ _ _ q1
    simp only [] at q1
    rw [q1]
    simp only []
    obtain ⟨o, t2, q2, hr1⟩ := (IOM.bind_ok_iff _ _ _ _ _).1 hr1
    rw [IOM.bind_apply, SM.cat_apply]
    obtain ⟨q2, u2⟩ := SM.cat_ok _ _ _ _ q2
    simp only []
    rw [q2]
    simp only []
    rcases o with _ | crr
    · cases hr1
    simp only [] at hr1 ⊢
    split at hr1
    · cases hr1
    rename_i hsz
    rw [if_neg hsz]
    rw [IOM.bind_apply, IOM.lift_apply]
    rw [show newIpv4 exAddr.ip = .ok ⟨[10, 0, 0, 2], rfl⟩ from rfl]
    simp only []
    rw [IOM.bind_apply, SM.cat_apply]
    simp only [getFS]
    unfold openUpload
    simp only []
    rw [show (⟨⟨[10, 0, 0, 2], rfl⟩, UInt16.ofNat exAddr.port⟩ : UpKey) = ⟨⟨[10, 0, 0, 2], rfl⟩, 4000⟩ from rfl]
    rw [show s0.uploads ⟨⟨[10, 0, 0, 2], rfl⟩, 4000⟩ = some ⟨[1, 2, 3, 4, 5], conn0⟩ from k10]
    simp only [Option.getD_some]
    obtain ⟨v1, v2⟩ := upload_section k11
    obtain ⟨-, -, -, v4⟩ := C23_describes _ _ _ _ _ cr0 k9
    rw [v4] at v1 v2
    rcases kickstart_any [1, 2, 3, 4, 5] conn0 _ 2 v1 v2 (by decide) crr.hash crr.size exWire.rd exWire.sends with ⟨-, hb⟩ | ⟨s9, hk⟩
    · rcases hb with hb | hb
      · exact absurd rfl hb
      · cases hb
    · rw [hk]
      exact ⟨_, _, rfl⟩
  obtain ⟨p1, s1, hr1⟩ := hrun
  obtain ⟨e1, content1, w1, w2, w3, w4⟩ := hall c fs 0 exWire _ Sha1Hash.zero 1 1 exAddr _ _ p1 s1 h1 hp1 hr1
  rw [h2] at w1; cases w1
  rw [h4] at w3; cases w3
  obtain ⟨e2, content2, cs2, y1, y2, y3, y4, y5⟩ := C48_stale hh h1.reach 0 exWire _ Sha1Hash.zero 1 1 exAddr [] _ _ p1 s1 hp1 hr1 ⟨[1, 2, 3, 4, 5], conn0⟩ k10
    _ 2 (by decide) _ cr0 true 1 _ k9 k11
  rw [h2] at y1; cases y1
  rw [h4] at y3; cases y3
  have hcs2 : cs2 = 2 := by omega
  subst hcs2
  rw [w4, h3] at y5
  have y6 := congrArg Packet.data y5
  have y7 : (sha1 [3, 4]).1 ++ put32 2 ++ [3, 4] = (sha1 [3, 4]).1 ++ put32 2 ++ [1, 2] := y6
  have y8 := List.append_cancel_left y7
  cases y8

/-- The hypotheses of `C52_reply`, with a file of which something is held. -/
example (sha1 : Bytes → Sha1Hash) (json : JsonCodec) (h : Sha1Hash) : Healthy (exEnv sha1 json) exDir ∧ localIP exWire.addrs = .ok (some [10, 0, 0, 1]) ∧
    ∃ c fs e, CleanReach (exEnv sha1 json) exDir exDown (.running c fs) ∧ observe c fs h = .ok e ∧ e.saved 1 := by
  obtain ⟨c, fs, e, h1, h2, -, -, -, -, h3, -⟩ := ex_complete sha1 json h
  exact ⟨ex_healthy sha1 json, rfl, c, fs, e, h1, h2, h3⟩
/-- The specification in `C52_reply` tells answers apart: with chunks 0, 1 and 3 of four held, ranges 0-1 and 3-3 answer the question for everything; one
range over the gap does not. -/
example : IsRuns [(0, 1), (3, 3)] (fun i => i != 2 && decide (i < 4)) 0 4 :=
  ⟨by decide, by simp, by decide⟩
example : ¬ IsRuns [(0, 3)] (fun i => i != 2 && decide (i < 4)) 0 4 := fun h => by
  have := h.exact
  revert this
  decide
/-- The hypothesis of `C59_ack`: an acknowledgement is a datagram starting with 6. -/
example : ((Msg.ack 1000).serialize).head? = some 6 ∧ newIpv4 exAddr.ip = .ok ⟨[10, 0, 0, 2], rfl⟩ := ⟨rfl, rfl⟩
/-- An address that is not IPv4, for `C59_not_ipv4`. -/
example : newIpv4 (.exact (List.replicate 16 1)) = .err .notIPv4 := rfl
/-- `C55_hosts`: this host and a host without chunks are left out. -/
example : goodHosts ⟨[10, 0, 0, 1], rfl⟩ [⟨7, ⟨[10, 0, 0, 1], rfl⟩, 4000, [0, 3]⟩, ⟨7, ⟨[10, 0, 0, 2], rfl⟩, 4000, []⟩, ⟨7, ⟨[10, 0, 0, 3], rfl⟩, 4000, [1, 1]⟩] =
    [⟨7, ⟨[10, 0, 0, 3], rfl⟩, 4000, [1, 1]⟩] := by decide
/-- `C65_localIP`: an IPv6 address and a loopback address are passed over. -/
example : localIP (some [List.replicate 15 0 ++ [1], [127, 0, 0, 1], List.replicate 16 3, List.replicate 10 0 ++ [255, 255, 10, 0, 0, 9], [10, 0, 0, 1]]) =
    .ok (some [10, 0, 0, 9]) := rfl

end Flu
