import Verif.Model.Discovery
import Verif.Props.Server
import Verif.Props.Requests
import Verif.Props.Clean
/-!
# C92: searching for hosts
-/
namespace Flu
open Spec
variable {env : Env} {d dl : Path} {c : Cat} {fs : FS}

theorem pairUp_length (fl : List UInt16) (rs : List (Nat × Nat)) (h : pairUp fl = some rs) : fl.length = 2 * rs.length := by
  match fl with
  | [] => cases h; rfl
  | [_] => cases h
  | a :: b :: rest =>
    rw [pairUp, Option.map_eq_some_iff] at h
    obtain ⟨rs', h1, rfl⟩ := h
    have := pairUp_length rest rs' h1
    simp only [List.length_cons]; omega

theorem pairUp_take (k : Nat) (fl : List UInt16) (rs : List (Nat × Nat)) (h : pairUp fl = some rs) : pairUp (fl.take (2 * k)) = some (rs.take k) := by
  match fl, k with
  | [], k => cases h; simp [pairUp]
  | _, 0 => simp [pairUp]
  | [_], _ => cases h
  | a :: b :: rest, k + 1 =>
    rw [pairUp, Option.map_eq_some_iff] at h
    obtain ⟨rs', h1, rfl⟩ := h
    have := pairUp_take k rest rs' h1
    rw [show 2 * (k + 1) = 2 * k + 1 + 1 by omega, List.take_succ_cons, List.take_succ_cons, pairUp, this]
    rfl

theorem flatMap_put16_length (l : List UInt16) : (l.flatMap put16).length = 2 * l.length := by
  induction l with
  | nil => rfl
  | cons a l ih => rw [List.flatMap_cons, List.length_append, ih]; simp [put16]; omega

/-- A reply with too many entries is, to its receiver, a reply with fewer, followed by something. -/
theorem discoverResp_wraps (r : UInt16) (a : ByteArr 4) (p : UInt16) (cs : List UInt16) :
    ∃ rest, (Msg.discoverResp r a p cs).serialize = (Msg.discoverResp r a p (cs.take (cs.length % 256))).serialize ++ rest := by
  refine ⟨(cs.drop (cs.length % 256)).flatMap put16, ?_⟩
  have hc : UInt8.ofNat cs.length = UInt8.ofNat (cs.take (cs.length % 256)).length := by
    apply UInt8.toNat_inj.1
    rw [UInt8.toNat_ofNat', UInt8.toNat_ofNat', List.length_take]
    omega
  simp only [Msg.serialize, serializeChunks]
  rw [← hc]
  simp only [List.append_assoc, List.cons_append]
  rw [← List.flatMap_append, List.take_append_drop]

/-- What the daemon that searches makes of a reply, however long. -/
theorem reply_delivered (env : Env) (port : Nat) (w : Wire) (r : UInt16) (a : ByteArr 4) (p : UInt16) (cs : List UInt16) (pad : Bytes) (ret : Addr) (s : Srv) :
    serveDatagram env port w ((Msg.discoverResp r a p cs).serialize ++ pad) ret s = (.ok (.deliver r (.discoverResp r a p (cs.take (cs.length % 256)))), s) := by
  obtain ⟨rest, hrest⟩ := discoverResp_wraps r a p cs
  have hl : (cs.take (cs.length % 256)).length ≤ 255 := by rw [List.length_take]; omega
  have hlen : (Msg.discoverResp r a p (cs.take (cs.length % 256))).serialize.length ≤ 1024 := by
    have := a.2
    simp only [Msg.serialize, serializeChunks, List.length_append, List.length_cons, List.length_nil, flatMap_put16_length, put16, beBytes_length, this]
    omega
  rw [hrest, List.append_assoc]
  have hp := parse_buffer (.discoverResp r a p (cs.take (cs.length % 256))) hl hlen (rest ++ pad)
  unfold serveDatagram handleMessage
  rw [IOM.bind_apply, IOM.lift_apply, hp]
  rfl

/-- C92: a host is asked for a file, answers, and the answer arrives: what the asking daemon gets is the first `n mod 128` of the `n` runs of chunks that the host has.
(From 16375 runs on no answer is sent.) -/
theorem C92_seen (hh : Healthy env d) (hclean : CleanReach env d dl (.running c fs)) (port : Nat) (w : Wire) (own : ByteArr 4) (hown : localIP w.addrs = .ok (some own.1))
    (hsend : w.sends = true) (r : UInt16) (h : Sha1Hash) (hb : h.isBlank = false) (e : Export) (ho : observe c fs h = .ok e) (hsize : e.progress.sizeOf ≤ 65536)
    (pad : Bytes) (ret : Addr) (ups : UpKey → Option Up) :
    ∃ held rs, (∀ i, i < 2 ^ 63 → (held i = true ↔ e.saved i)) ∧ IsRuns rs held 0 e.progress.sizeOf.toNat ∧
      (rs.length ≤ 16374 → ∃ reply s' cs, serveDatagram env port w ((Msg.discoverReq r h []).serialize ++ pad) ret ⟨⟨c, fs, []⟩, ups⟩ =
          (.ok (.sent ret.ip.bytes port reply), s') ∧ pairUp cs = some (rs.take (rs.length % 128)) ∧
        ∀ env' port' w' pad' ret' s, ∃ m, serveDatagram env' port' w' (reply ++ pad') ret' s = (.ok (.deliver r m), s) ∧
          m.hostResp = .ok ⟨r, own, UInt16.ofNat port, cs⟩) ∧
      (16374 < rs.length → ∃ s', serveDatagram env port w ((Msg.discoverReq r h []).serialize ++ pad) ret ⟨⟨c, fs, []⟩, ups⟩ = (.err .io, s')) := by
  obtain ⟨fl, s', h1, -, -, h4, -⟩ := C52_reply hh hclean port w own hown r h [] (by decide) rfl pad ret ups
  obtain ⟨held, h5, h6⟩ := h4 e hb ho
  have hnn := (observe_loaded hh hclean.reach h e ho).size_nonneg
  have hnn' : 0 ≤ e.progress.sizeOf := hnn
  obtain ⟨rs, h7, h8⟩ := h6.all rfl (by omega)
  have hfl := pairUp_length fl rs h7
  have hlen : (Msg.discoverResp r own (UInt16.ofNat port) fl).serialize.length = 10 + 4 * rs.length := by
    have := own.2
    simp only [Msg.serialize, serializeChunks, List.length_append, List.length_cons, List.length_nil, flatMap_put16_length, put16, beBytes_length, this]
    omega
  refine ⟨held, rs, h5, h8, ?_, ?_⟩
  · intro hle
    refine ⟨(Msg.discoverResp r own (UInt16.ofNat port) fl).serialize, s', fl.take (fl.length % 256), ?_, ?_, ?_⟩
    · rw [h1, if_pos ⟨hsend, by rw [hlen]; omega⟩]
    · rw [hfl, show 2 * rs.length % 256 = 2 * (rs.length % 128) by omega]
      exact pairUp_take _ _ _ h7
    · intro env' port' w' pad' ret' s
      exact ⟨_, reply_delivered env' port' w' r own _ fl pad' ret' s, rfl⟩
  · intro hlt
    exact ⟨s', by rw [h1, if_neg (by rw [hlen]; omega)]⟩

/-- C92: the list that a search returns is exactly the list of the messages it received, one entry each; nothing that arrives can make it panic. -/
theorem C92_collects (s : Table) (h : TRun .fresh s) (t : Nat) (key : RequestKey) (hkey : key.msgType = 1) (ch : Nat) (got : List Msg)
    (ht : s.threads t = .collecting key ch got ∨ s.threads t = .wantUnregister key ch got ∨ s.threads t = .returned key ch got) :
    ∃ rs, hostResps got = .ok rs ∧ All2 (fun m r => m = .discoverResp r.reqID r.addr r.port r.chunks ∧ r.reqID = key.reqID) got rs := by
  obtain ⟨h1, -⟩ := (C50_only_answers s h t).1 key ch got ht
  clear ht
  induction got with
  | nil => exact ⟨[], rfl, .nil⟩
  | cons m got ih =>
    obtain ⟨rs, g1, g2⟩ := ih (fun m hm => h1 m (List.mem_cons_of_mem _ hm))
    obtain ⟨k1, k2⟩ := h1 m List.mem_cons_self
    rw [hkey] at k1
    cases m with
    | discoverResp i a p cs =>
      refine ⟨⟨i, a, p, cs⟩ :: rs, by rw [hostResps, g1]; rfl, .cons ⟨rfl, ?_⟩ g2⟩
      exact Option.some.inj k2
    | _ => cases k1

/-- C92 as one would want it: whoever asks a host for a file gets exactly the runs of chunks the host has. -/
def C92_statement (env : Env) (d dl : Path) : Prop :=
  ∀ (c : Cat) (fs : FS) (port : Nat) (w : Wire) (own : ByteArr 4) (r : UInt16) (h : Sha1Hash) (e : Export) (pad : Bytes) (ret : Addr) (ups : UpKey → Option Up),
    CleanReach env d dl (.running c fs) → localIP w.addrs = .ok (some own.1) → w.sends = true → h.isBlank = false → observe c fs h = .ok e → e.progress.sizeOf ≤ 65536 →
    ∃ reply s' cs held rs, serveDatagram env port w ((Msg.discoverReq r h []).serialize ++ pad) ret ⟨⟨c, fs, []⟩, ups⟩ = (.ok (.sent ret.ip.bytes port reply), s') ∧
      (∀ env' port' w' pad' ret' s, ∃ m, serveDatagram env' port' w' (reply ++ pad') ret' s = (.ok (.deliver r m), s) ∧
          m.hostResp = .ok ⟨r, own, UInt16.ofNat port, cs⟩) ∧
      (∀ i, i < 2 ^ 63 → (held i = true ↔ e.saved i)) ∧ IsRuns rs held 0 e.progress.sizeOf.toNat ∧ pairUp cs = some rs

/-- C92 for hosts whose chunks form at most 127 runs. -/
theorem C92_partial (hh : Healthy env d) (hclean : CleanReach env d dl (.running c fs)) (port : Nat) (w : Wire) (own : ByteArr 4) (hown : localIP w.addrs = .ok (some own.1))
    (hsend : w.sends = true) (r : UInt16) (h : Sha1Hash) (hb : h.isBlank = false) (e : Export) (ho : observe c fs h = .ok e) (hsize : e.progress.sizeOf ≤ 65536)
    (pad : Bytes) (ret : Addr) (ups : UpKey → Option Up) (held : Nat → Bool) (hheld : ∀ i, i < 2 ^ 63 → (held i = true ↔ e.saved i)) (rs : List (Nat × Nat))
    (hrs : IsRuns rs held 0 e.progress.sizeOf.toNat) (h127 : rs.length ≤ 127) :
    ∃ reply s' cs, serveDatagram env port w ((Msg.discoverReq r h []).serialize ++ pad) ret ⟨⟨c, fs, []⟩, ups⟩ = (.ok (.sent ret.ip.bytes port reply), s') ∧
      (∀ env' port' w' pad' ret' s, ∃ m, serveDatagram env' port' w' (reply ++ pad') ret' s = (.ok (.deliver r m), s) ∧
          m.hostResp = .ok ⟨r, own, UInt16.ofNat port, cs⟩) ∧ pairUp cs = some rs := by
  obtain ⟨held', rs', h1, h2, h3, -⟩ := C92_seen hh hclean port w own hown hsend r h hb e ho hsize pad ret ups
  have hrs' : IsRuns rs held' 0 e.progress.sizeOf.toNat := by
    refine ⟨hrs.nonempty, hrs.separated, ?_⟩
    rw [hrs.exact]
    apply List.filter_congr
    intro i hi
    rw [List.mem_range'_1] at hi
    have h63 : i < 2 ^ 63 := by omega
    rw [Bool.eq_iff_iff, hheld i h63, h1 i h63]
  obtain rfl := hrs'.unique h2
  obtain ⟨reply, s', cs, g1, g2, g3⟩ := h3 (by omega)
  refine ⟨reply, s', cs, g1, g3, ?_⟩
  rw [g2, Nat.mod_eq_of_lt (by omega), List.take_length]

/-- Any chunks of a file may be the ones that are there. -/
theorem some_saved (hh : Healthy env d) (h : Sha1Hash) (L : List UInt16) : ∀ {c : Cat} {fs : FS} (e : Export), CleanReach env d dl (.running c fs) →
    observe c fs h = .ok e → ¬ CatFile d e.filePath → (∀ n ∈ L, (n.toNat : Int) < e.progress.sizeOf) →
    ∃ c' fs' e', CleanReach env d dl (.running c' fs') ∧ observe c' fs' h = .ok e' ∧ e'.progress.sizeOf = e.progress.sizeOf ∧ e'.filePath = e.filePath ∧
      ∀ i, i < 2 ^ 63 → (e'.saved i ↔ e.saved i ∨ ∃ n ∈ L, n.toNat = i) := by
  induction L with
  | nil =>
    intro c fs e h1 h2 h3 _
    exact ⟨c, fs, e, h1, h2, rfl, rfl, fun i _ => by simp⟩
  | cons n L ih =>
    intro c fs e h1 h2 h3 h4
    obtain ⟨s', hrun⟩ := saveChunk_total hh h1.reach h n [0] e h2
    have hsafe : (Op.save h n [0]).Safe d c := by
      intro p hp
      rw [observe_path hh h1.reach h e h2] at hp
      cases hp; exact h3
    obtain ⟨e1, e', g1, g2, g3, g4, g5, -, -⟩ := saveChunk_effect hh h1.reach h n [0] [] hsafe s' hrun
    rw [h2] at g1; cases g1
    have hc := h1.returns (.save h n [0]) hsafe s' (.inl hrun)
    have hsz : e'.progress.sizeOf = e.progress.sizeOf := by
      have := h4 n List.mem_cons_self
      rw [g4]; omega
    have hp : e'.filePath = e.filePath := by rw [g3]
    obtain ⟨c2, fs2, e2, k1, k2, k3, k4, k5⟩ := ih e' hc g2 (by rw [hp]; exact h3) (fun m hm => by rw [hsz]; exact h4 m (List.mem_cons_of_mem _ hm))
    refine ⟨c2, fs2, e2, k1, k2, k3.trans hsz, k4.trans hp, ?_⟩
    intro i hi
    rw [k5 i hi, g5 i hi]
    constructor
    · rintro ((hx | hx) | ⟨m, hm, hx⟩)
      · exact .inl hx
      · exact .inr ⟨n, List.mem_cons_self, hx.symm⟩
      · exact .inr ⟨m, List.mem_cons_of_mem _ hm, hx⟩
    · rintro (hx | ⟨m, hm, hx⟩)
      · exact .inl (.inl hx)
      · rcases List.mem_cons.1 hm with rfl | hm
        · exact .inl (.inr hx.symm)
        · exact .inr ⟨m, hm, hx⟩

theorem even_runs : IsRuns ((List.range 128).map (fun j => (2 * j, 2 * j))) (fun i => i % 2 == 0) 0 256 := by
  refine ⟨?_, ?_, by decide⟩
  · intro r hr
    obtain ⟨j, -, rfl⟩ := List.mem_map.1 hr
    exact Nat.le_refl _
  · rw [List.pairwise_map]
    exact List.pairwise_lt_range.imp (fun h => by simp only; omega)

/-- A host that has every other one of the 256 chunks of a file. -/
theorem ex_every_other (sha1 : Bytes → Sha1Hash) (json : JsonCodec) (h : Sha1Hash) : ∃ c fs e, CleanReach (exEnv sha1 json) exDir exDown (.running c fs) ∧
    observe c fs h = .ok e ∧ e.progress.sizeOf = 256 ∧ ∀ i, i < 256 → (e.saved i ↔ i % 2 = 0) := by
  have hh := ex_healthy sha1 json
  have h0 := CleanReach.fresh (exEnv sha1 json) exDir exDown hh.utf8 exFS ex_fs_clean
  obtain ⟨e, s1, h1⟩ := registerDownload_total (exEnv sha1 json) 256 1 h [120] exDir exDown (freshIdx (exEnv sha1 json) exDir) (exFS1 sha1 json) rfl (by decide) (by decide)
  have h2 := h0.returns (.register 256 1 h [120]) trivial s1 (.inl (CM.void_ok _ _ _ _ h1))
  obtain ⟨-, ⟨b, g1, g2, g3, g4, g5⟩, -⟩ := C29_register hh h0.reach 256 1 h [120] [] e s1 (by decide) (by decide) h1
  have hsz : e.progress.sizeOf = 256 := by rw [g1]; exact g3
  have hno : ∀ i, i < 2 ^ 63 → ¬ e.saved i := by
    intro i hi hs
    unfold Export.saved at hs
    rw [g1] at hs
    simp only [g5 i hi] at hs
    cases hs
  have hp : ¬ CatFile exDir e.filePath := by rw [g1]; exact ex_not_catFile2
  obtain ⟨c, fs, e', k1, k2, k3, k4, k5⟩ := some_saved hh h ((List.range 128).map (fun j => UInt16.ofNat (2 * j))) e h2 g2 hp (by
    intro n hn
    obtain ⟨j, hj, rfl⟩ := List.mem_map.1 hn
    rw [List.mem_range] at hj
    rw [hsz, UInt16.toNat_ofNat']
    omega)
  refine ⟨c, fs, e', k1, k2, k3.trans hsz, ?_⟩
  intro i hi
  rw [k5 i (by omega)]
  constructor
  · rintro (hx | ⟨n, hn, hx⟩)
    · exact absurd hx (hno i (by omega))
    · obtain ⟨j, hj, rfl⟩ := List.mem_map.1 hn
      rw [UInt16.toNat_ofNat'] at hx
      rw [List.mem_range] at hj
      omega
  · intro hx
    refine .inr ⟨UInt16.ofNat i, List.mem_map.2 ⟨i / 2, List.mem_range.2 (by omega), by rw [show 2 * (i / 2) = i by omega]⟩, ?_⟩
    rw [UInt16.toNat_ofNat']; omega

/-- C92 is false of the code: such a host seems to have nothing, and no download would use it. -/
theorem C92_refuted (sha1 : Bytes → Sha1Hash) (json : JsonCodec) : ¬ C92_statement (exEnv sha1 json) exDir exDown := by
  intro hall
  obtain ⟨h, hb⟩ : ∃ h : Sha1Hash, h.isBlank = false := ⟨⟨List.replicate 20 0, rfl⟩, by decide⟩
  obtain ⟨c, fs, e, h1, h2, h3, h4⟩ := ex_every_other sha1 json h
  have hown : localIP exWire.addrs = .ok (some (⟨[10, 0, 0, 1], rfl⟩ : ByteArr 4).1) := rfl
  obtain ⟨reply, s', cs, held, rs, g1, g2, g3, g4, g5⟩ := hall c fs 61696 exWire ⟨[10, 0, 0, 1], rfl⟩ 0 h e [] exAddr (fun _ => none) h1 hown rfl hb h2 (by rw [h3]; decide)
  obtain ⟨held', rs', k1, k2, k3, -⟩ := C92_seen (ex_healthy sha1 json) h1 61696 exWire ⟨[10, 0, 0, 1], rfl⟩ hown rfl 0 h hb e h2 (by rw [h3]; decide) [] exAddr (fun _ => none)
  have heven : ∀ (held : Nat → Bool) rs, (∀ i, i < 2 ^ 63 → (held i = true ↔ e.saved i)) → IsRuns rs held 0 e.progress.sizeOf.toNat → rs.length = 128 := by
    intro held rs hd hr
    rw [h3] at hr
    have hr' : IsRuns rs (fun i => i % 2 == 0) 0 256 := by
      refine ⟨hr.nonempty, hr.separated, ?_⟩
      rw [hr.exact]
      apply List.filter_congr
      intro i hi
      rw [List.mem_range'_1] at hi
      have hi : i < 256 := by simp at hi; omega
      rw [Bool.eq_iff_iff, hd i (by omega), h4 i hi]
      simp
    rw [hr'.unique even_runs]
    rfl
  have hl := heven held rs g3 g4
  have hl' := heven held' rs' k1 k2
  obtain ⟨reply', s1, cs', m1, m2, m3⟩ := k3 (by omega)
  rw [g1] at m1
  injection m1 with m1 _
  injection m1 with m1
  injection m1 with _ _ m1
  subst m1
  obtain ⟨x, x1, x2⟩ := g2 (exEnv sha1 json) 0 exWire [] exAddr ⟨⟨c, fs, []⟩, fun _ => none⟩
  obtain ⟨y, y1, y2⟩ := m3 (exEnv sha1 json) 0 exWire [] exAddr ⟨⟨c, fs, []⟩, fun _ => none⟩
  rw [x1] at y1
  injection y1 with y1 _
  injection y1 with y1
  injection y1 with _ y1
  subst y1
  rw [x2] at y2
  injection y2 with y2
  injection y2 with _ _ _ y2
  subst y2
  rw [g5, hl'] at m2
  injection m2 with m2
  rw [m2] at hl
  cases hl

/-! ### Cases -/

/-- `C92_seen`, `C92_partial`: a host that has the second of three chunks, which is one run. -/
example (sha1 : Bytes → Sha1Hash) (json : JsonCodec) (h : Sha1Hash) : ∃ (c : Cat) (fs : FS) (e : Export), CleanReach (exEnv sha1 json) exDir exDown (.running c fs) ∧
    observe c fs h = .ok e ∧ e.progress.sizeOf = 3 ∧ localIP exWire.addrs = .ok (some [10, 0, 0, 1]) ∧ exWire.sends = true ∧
    ∃ held, (∀ i, i < 2 ^ 63 → (held i = true ↔ e.saved i)) ∧ IsRuns [(1, 1)] held 0 e.progress.sizeOf.toNat := by
  have hh := ex_healthy sha1 json
  obtain ⟨c, fs, e, s1, h1, h2, h3, h4, h5, h6, h7, h8, h9⟩ := ex_registered sha1 json h
  obtain ⟨-, ⟨b, g1, -, g4, -, g5⟩, -, g7⟩ := C29_register hh h1.reach 5 2 h [120] [] e s1 (by decide) (by decide) h2
  have hsz : e.progress.sizeOf = 3 := by rw [g1]; exact g4
  have hno : ∀ i, i < 2 ^ 63 → ¬ e.saved i := by
    intro i hi hs
    unfold Export.saved at hs
    rw [g1] at hs
    simp only [g5 i hi] at hs
    cases hs
  obtain ⟨c', fs', e', k1, k2, k3, k4, k5⟩ := some_saved hh h [1] e h9 h7 h6 (by intro n hn; rw [List.mem_singleton.1 hn, hsz]; decide)
  refine ⟨c', fs', e', k1, k2, k3.trans hsz, rfl, rfl, fun i => decide (i = 1), ?_, by simp, by simp, ?_⟩
  · intro i hi
    rw [k5 i hi, decide_eq_true_eq]
    constructor
    · intro hx; exact .inr ⟨1, List.mem_singleton.2 rfl, hx.symm⟩
    · rintro (hx | ⟨n, hn, hx⟩)
      · exact absurd hx (hno i hi)
      · rw [← hx, List.mem_singleton.1 hn]; rfl
  · rw [k3, hsz]; decide

/-- `C92_collects`: a search that got one response. -/
example : ∃ s, TRun .fresh s ∧ ∃ c m, s.threads 0 = .returned ⟨0, 1⟩ c [m] := by
  let m : Msg := .discoverResp 0 ⟨[10, 0, 0, 2], rfl⟩ 61696 [0, 1]
  have r1 := (TRun.refl .fresh).step 0 (.discover _ rfl)
  have r2 := r1.step 0 (.register _ ⟨0, 1⟩ rfl rfl)
  have r3 := r2.step 1 (.arrive _ 0 m rfl (.inl rfl) rfl)
  have r4 := r3.step 1 (.find _ ⟨0, 1⟩ m 0 rfl rfl rfl)
  have r5 := r4.step 1 (.send _ 0 m rfl rfl)
  have r6 := r5.step 0 (.collect _ ⟨0, 1⟩ 0 [] m [] rfl rfl)
  have r7 := r6.step 0 (.timeout _ ⟨0, 1⟩ 0 [m] rfl)
  exact ⟨_, r7.step 0 (.unregister _ ⟨0, 1⟩ 0 [m] rfl rfl), 0, m, rfl⟩

end Flu
