import Verif.Model.Descriptors
import Verif.Props.ServeReadOnly
import Verif.Props.Fatal
import Verif.Props.Listing
/-!
# How many chunks a daemon can serve (C98)
-/
namespace Flu

namespace Spec

/-- A request for a chunk that this host has and can read, from an address that has not asked before; the answer can be sent. -/
def GoodRequest (s : Srv) (w : Wire) (dg : Bytes) (ret : Addr) : Prop :=
  ∃ h n cap host e content, parse (udpBuffer dg) = .ok (.openReq h n cap) ∧ observe s.st.cat s.st.fs h = .ok e ∧ e.saved n.toNat ∧ s.st.fs e.filePath = some content ∧
    e.chunkSize.toNat < w.reads.countP (· == .good) ∧ w.rd = .good ∧ w.sends = true ∧ newIpv4 ret.ip = .ok host ∧ s.uploads ⟨host, UInt16.ofNat ret.port⟩ = none

/-- The chunk is on its way. -/
def Sends (r : Res Done) : Prop := ∃ key p, r = .ok (.first key p)

end Spec
open Spec

section
variable {env : Env} {d dl : Path} {port limit : Nat}

theorem SKeeps.ups {α : Type} (k : UpKey) (x : CM α) : SKeeps true (fun s => (s.uploads k).isSome) (SM.cat x) := by
  intro s h _
  rw [SM.cat_apply]
  exact h

/-- C98: an upload, once in the table, stays there, whatever datagrams arrive and whatever fails; and with it the open file. -/
theorem C98_kept {s s' : Srv} {tr : List (Option (Bytes × Addr × Res Done))} (h : FdRun env d dl port limit s tr s') (k : UpKey) (hk : (s.uploads k).isSome) :
    (s'.uploads k).isSome := by
  induction h with
  | refl => exact hk
  | @step t u tr e h h' ih =>
    cases h' with
    | other => exact ih
    | serve w dg ret fl r s' hopen hrun hret =>
      have := SKeeps.serve (all := true) (R := fun s => (s.uploads k).isSome) env port w dg ret
        (by intro s key up _ hs; simp only; split; rfl; exact hs) (fun _ => SKeeps.ups k _) (fun _ => SKeeps.ups k _) (fun _ _ _ => SKeeps.ups k _) ⟨⟨t.st.cat, t.st.fs, fl⟩, t.uploads⟩ ih (.inl rfl)
      rw [hrun] at this
      exact this

theorem uploadsHeld.run {s s' : Srv} {tr : List (Option (Bytes × Addr × Res Done))} (h : FdRun env d dl port limit s tr s') {n : Nat} (hn : uploadsHeld s n) : uploadsHeld s' n := by
  obtain ⟨l, h1, h2, h3⟩ := hn
  exact ⟨l, h1, h2, fun k hk => C98_kept h k (h3 k hk)⟩

/-- With no descriptor left the file cannot be opened. -/
theorem startUpload_fails (hh : Healthy env d) {c : Cat} {fs : FS} (hreach : Reach env d dl (.running c fs)) (w : Wire) (h : Sha1Hash) (n cap : UInt16) (ret : Addr)
    (f1 f2 : Option Nat) (fl : List Fault) (ups : UpKey → Option Up) :
    ∃ x s', startUpload env w h n cap ret ⟨⟨c, fs, .fail f1 :: .fail f2 :: fl⟩, ups⟩ = (.err x, s') := by
  have hI : Inv env d dl c fs := hreach.inv hh.abs hh.utf8
  obtain ⟨ind, rfl, hw⟩ := hI.split
  have hn := n.toNat_lt
  have hgi : ∀ fl, getIndex ⟨⟨d, dl, some ind⟩, fs, fl⟩ = (.ok ind, ⟨⟨d, dl, some ind⟩, fs, fl⟩) := fun _ => rfl
  unfold startUpload
  rw [IOM.bind_apply, SM.cat_apply]
  rcases hm : mapGet ind.index h with _ | r
  · have : contains h ⟨⟨d, dl, some ind⟩, fs, .fail f1 :: .fail f2 :: fl⟩ = (.err .fileNotFound, ⟨⟨d, dl, some ind⟩, fs, .fail f1 :: .fail f2 :: fl⟩) := by
      unfold contains getIndexRecord
      rw [IOM.bind_apply, IOM.bind_apply, hgi]
      simp only [hm]
      rfl
    rw [this]
    exact ⟨_, _, rfl⟩
  · have hk := hw.ownGet h r hm
    rcases hp : r.progressFile with _ | p
    · have : ∃ st, contains h ⟨⟨d, dl, some ind⟩, fs, .fail f1 :: .fail f2 :: fl⟩ = (.err .io, st) := by
        unfold contains getIndexRecord
        rw [IOM.bind_apply, IOM.bind_apply, hgi]
        simp only [hm]
        unfold fillRecord deserializeProgressFile
        simp only [hp]
        exact ⟨_, rfl⟩
      obtain ⟨st, this⟩ := this
      rw [this]
      exact ⟨_, _, rfl⟩
    · have hg : getIndexRecord h ⟨⟨d, dl, some ind⟩, fs, .fail f1 :: .fail f2 :: fl⟩ = (.ok r, ⟨⟨d, dl, some ind⟩, fs, .fail f1 :: .fail f2 :: fl⟩) := by
        unfold getIndexRecord
        rw [IOM.bind_apply, hgi]
        simp only [hm]
        unfold fillRecord
        rw [hp]
        rfl
      have : contains h ⟨⟨d, dl, some ind⟩, fs, .fail f1 :: .fail f2 :: fl⟩ =
          (.ok ⟨r.filePath, r.sizeInBytes, r.sha1Hash, p.progress, r.chunkSize⟩, ⟨⟨d, dl, some ind⟩, fs, .fail f1 :: .fail f2 :: fl⟩) := by
        unfold contains
        rw [IOM.bind_apply, hg]
        unfold Record.export
        simp only [hp]
        rfl
      rw [this]
      simp only []
      rw [IOM.bind_apply, SM.cat_apply, hk]
      have hr : ∃ x st, getChunkReader env h n.toNat w.reads ⟨⟨d, dl, some ind⟩, fs, .fail f1 :: .fail f2 :: fl⟩ = (.err x, st) := by
        unfold getChunkReader
        rw [IOM.bind_apply, hg]
        simp only [hp]
        obtain ⟨v, hv, -⟩ := C13_get_total_partial p.progress (BitVec.ofNat 64 n.toNat) (by simp; omega)
        rw [IOM.bind_apply, IOM.lift_apply, hv]
        simp only []
        cases v
        · exact ⟨_, _, rfl⟩
        · exact ⟨_, _, rfl⟩
      obtain ⟨x, st, hr⟩ := hr
      rw [hr]
      exact ⟨_, _, rfl⟩

theorem FdStep.reach {s s' : Srv} {e : Option (Bytes × Addr × Res Done)} (h : FdStep env d dl port limit s e s') (hreach : Reach env d dl (.running s.st.cat s.st.fs)) :
    Reach env d dl (.running s'.st.cat s'.st.fs) := by
  cases h with
  | other c fs h => exact h
  | serve w dg ret fl r s' hopen hrun hret => exact C88_reachable hreach port w dg ret fl s.uploads r s' hrun hret

theorem FdRun.reach {s s' : Srv} {tr : List (Option (Bytes × Addr × Res Done))} (h : FdRun env d dl port limit s tr s') (hreach : Reach env d dl (.running s.st.cat s.st.fs)) :
    Reach env d dl (.running s'.st.cat s'.st.fs) := by
  induction h with
  | refl => exact hreach
  | step h h' ih => exact h'.reach ih

/-- C98: with as many uploads in the table as there are descriptors, every request for a chunk is refused. -/
theorem C98_refused (hh : Healthy env d) {s : Srv} (hreach : Reach env d dl (.running s.st.cat s.st.fs)) (hfull : uploadsHeld s limit) (w : Wire) (dg : Bytes) (ret : Addr)
    (h : Sha1Hash) (n cap : UInt16) (hp : parse (udpBuffer dg) = .ok (.openReq h n cap)) (fl : List Fault) (hopen : OpensFiles limit s fl) (r : Res Done) (s' : Srv)
    (hrun : serveDatagram env port w dg ret ⟨{ s.st with faults := fl }, s.uploads⟩ = (r, s')) : ∃ x, r = .err x := by
  obtain ⟨hlen, hall⟩ := hopen.1 hfull
  rcases fl with _ | ⟨a, _ | ⟨b, fl⟩⟩
  · simp at hlen
  · simp at hlen
  obtain ⟨f1, rfl⟩ := hall a (by simp)
  obtain ⟨f2, rfl⟩ := hall b (by simp)
  unfold serveDatagram handleMessage at hrun
  rw [IOM.bind_apply, IOM.lift_apply, hp] at hrun
  obtain ⟨x, s1, hx⟩ := startUpload_fails hh hreach w h n cap ret f1 f2 fl s.uploads
  have := hx.symm.trans hrun
  injection this with h1 h2
  exact ⟨x, h1.symm⟩

/-- C98, exactly when: a request for a chunk this host has, from a new address, is answered with the chunk if and only if fewer addresses than descriptors have been
answered since the daemon was started. -/
theorem C98_partial (hh : Healthy env d) {s : Srv} (hreach : Reach env d dl (.running s.st.cat s.st.fs)) (w : Wire) (dg : Bytes) (ret : Addr) (hg : GoodRequest s w dg ret)
    (fl : List Fault) (hopen : OpensFiles limit s fl) (r : Res Done) (s' : Srv)
    (hrun : serveDatagram env port w dg ret ⟨{ s.st with faults := fl }, s.uploads⟩ = (r, s')) : Sends r ↔ ¬ uploadsHeld s limit := by
  obtain ⟨h, n, cap, host, e, content, g1, g2, g3, g4, g5, g6, g7, g8, g9⟩ := hg
  constructor
  · rintro ⟨key, p, rfl⟩ hfull
    obtain ⟨x, hx⟩ := C98_refused hh hreach hfull w dg ret h n cap g1 fl hopen _ s' hrun
    cases hx
  · intro hfree
    have := hopen.2 hfree
    subst this
    obtain ⟨p, s1, h1⟩ := C48_serves hh hreach port w dg h n cap ret host s.uploads g1 e content g2 g3 g4 g5 g6 g7 g8 g9
    have := h1.symm.trans hrun
    injection this with h1 _
    exact ⟨_, p, h1.symm⟩

/-- C98: this lasts until the daemon is restarted, whatever else happens. -/
theorem C98_for_ever (hh : Healthy env d) {s s' : Srv} (hreach : Reach env d dl (.running s.st.cat s.st.fs)) (hfull : uploadsHeld s limit)
    {tr : List (Option (Bytes × Addr × Res Done))} (h : FdRun env d dl port limit s tr s') (dg : Bytes) (ret : Addr) (r : Res Done) (hmem : some (dg, ret, r) ∈ tr) (k : Sha1Hash)
    (n cap : UInt16) (hp : parse (udpBuffer dg) = .ok (.openReq k n cap)) : ∃ x, r = .err x := by
  induction h with
  | refl => cases hmem
  | @step t u tr e h h' ih =>
    rcases List.mem_append.1 hmem with hm | hm
    · exact ih hm
    · simp at hm
      subst hm
      cases h' with
      | serve w _ _ fl _ s' hopen hrun hret => exact C98_refused hh (h.reach hreach) (hfull.run h) w dg ret k n cap hp fl hopen r s' hrun

/-- The address of a host with the `i`-th port. -/
def fromPort (ip : NetIP) (i : Nat) : Addr := ⟨ip, i⟩

/-- C98: a single host that fetches chunk after chunk, each from a new port as `DialPeer` does, uses up every descriptor; every one of these requests is answered, and
the host still has the chunk and can read it. -/
theorem C98_exhausts (hh : Healthy env d) {c : Cat} {fs : FS} (hreach : Reach env d dl (.running c fs)) (w : Wire) (dg : Bytes) (ip : NetIP) (hlim : limit ≤ 65535)
    (hg : GoodRequest ⟨⟨c, fs, []⟩, fun _ => none⟩ w dg (fromPort ip 0)) :
    ∃ tr s', FdRun env d dl port limit ⟨⟨c, fs, []⟩, fun _ => none⟩ tr s' ∧ uploadsHeld s' limit ∧ tr.length = limit ∧
      (∀ x ∈ tr, ∃ i r, x = some (dg, fromPort ip i, r) ∧ Sends r) ∧ GoodRequest s' w dg (fromPort ip limit) := by
  obtain ⟨h, n, cap, host, e, content, g1, g2, g3, g4, g5, g6, g7, g8, -⟩ := hg
  have key : ∀ m, m ≤ limit → ∃ tr s', FdRun env d dl port limit ⟨⟨c, fs, []⟩, fun _ => none⟩ tr s' ∧
      (∀ k, (s'.uploads k).isSome ↔ k ∈ (List.range m).map (fun i => (⟨host, UInt16.ofNat i⟩ : UpKey))) ∧ tr.length = m ∧
      (∀ x ∈ tr, ∃ i r, x = some (dg, fromPort ip i, r) ∧ Sends r) ∧ s'.st.faults = [] ∧ s'.st.fs = fs ∧ ∀ k, observe s'.st.cat s'.st.fs k = observe c fs k := by
    intro m
    induction m with
    | zero => exact fun _ => ⟨[], _, .refl _, fun k => by simp, rfl, fun x hx => (by cases hx), rfl, rfl, fun _ => rfl⟩
    | succ m ih =>
      intro hm
      obtain ⟨tr, s1, h1, h2, h3, h4, h5, h6, h7⟩ := ih (by omega)
      have hr1 : Reach env d dl (.running s1.st.cat s1.st.fs) := h1.reach hreach
      have hnew : s1.uploads ⟨host, UInt16.ofNat m⟩ = none := by
        rcases hu : s1.uploads ⟨host, UInt16.ofNat m⟩ with _ | u
        · rfl
        · have := (h2 ⟨host, UInt16.ofNat m⟩).1 (by rw [hu]; rfl)
          obtain ⟨i, hi, he⟩ := List.mem_map.1 this
          simp at hi
          injection he with _ he
          have := congrArg UInt16.toNat he
          simp at this
          omega
      have hfree : ¬ uploadsHeld s1 limit := by
        rintro ⟨l, l1, l2, l3⟩
        have := nodup_length_le l _ l1 (fun k hk => (h2 k).1 (l3 k hk))
        simp at this
        omega
      have hs1 : s1 = ⟨⟨s1.st.cat, s1.st.fs, []⟩, s1.uploads⟩ := by
        rcases s1 with ⟨⟨_, _, fl⟩, _⟩
        cases h5
        rfl
      obtain ⟨p, s2, hrun⟩ := C48_serves hh hr1 port w dg h n cap (fromPort ip m) host s1.uploads g1 e content (by rw [h7]; exact g2) g3 (by rw [h6]; exact g4) g5 g6 g7 g8 hnew
      obtain ⟨_, _, _, -, -, -, -, -, -, -, k1, ⟨cr, conn, -, k2, -⟩, k3, k4⟩ := C48_new_partial hh hr1 port w dg h n cap (fromPort ip m) [] s1.uploads _ p s2 g1 hrun hnew
      refine ⟨tr ++ [some (dg, fromPort ip m, .ok (.first ⟨host, UInt16.ofNat m⟩ p))], ⟨{ s2.st with faults := [] }, s2.uploads⟩,
        .step h1 (.serve s1 w dg (fromPort ip m) [] _ s2 ⟨fun hf => absurd hf hfree, fun _ => rfl⟩ hrun rfl), ?_, by simp [h3], ?_, rfl, by rw [← h6]; exact k3,
        fun k => by rw [← h7 k]; exact k4 k⟩
      · intro k
        show (s2.uploads k).isSome ↔ _
        rw [List.range_succ, List.map_append, List.mem_append]
        by_cases hk : k = ⟨host, UInt16.ofNat m⟩
        · subst hk
          rw [show s2.uploads ⟨host, UInt16.ofNat m⟩ = _ from k2]
          simp
        · rw [k1 k hk, h2 k]
          simp [hk]
      · intro x hx
        rcases List.mem_append.1 hx with hx | hx
        · exact h4 x hx
        · simp at hx
          exact ⟨m, _, hx, _, _, rfl⟩
  obtain ⟨tr, s', h1, h2, h3, h4, -, h6, h7⟩ := key limit (Nat.le_refl _)
  have hnew : s'.uploads ⟨host, UInt16.ofNat limit⟩ = none := by
    rcases hu : s'.uploads ⟨host, UInt16.ofNat limit⟩ with _ | u
    · rfl
    · obtain ⟨i, hi, he⟩ := List.mem_map.1 ((h2 ⟨host, UInt16.ofNat limit⟩).1 (by rw [hu]; rfl))
      simp at hi
      injection he with _ he
      have := congrArg UInt16.toNat he
      simp at this
      omega
  refine ⟨tr, s', h1, ⟨_, ?_, ?_, fun k hk => (h2 k).2 hk⟩, h3, h4, h, n, cap, host, e, content, g1, by rw [h7]; exact g2, g3, by rw [h6]; exact g4, g5, g6, g7, g8, hnew⟩
  · rw [List.nodup_iff_pairwise_ne, List.pairwise_map]
    refine List.Pairwise.imp_of_mem ?_ (List.nodup_range (n := limit))
    intro a b ha hb hne he
    simp at ha hb
    injection he with _ he
    have := congrArg UInt16.toNat he
    simp at this
    omega
  · simp

end

/-- Full statement: however many chunks a daemon has sent, it goes on sending those it has. -/
def C98_statement (env : Env) (d dl : Path) (limit : Nat) : Prop :=
  ∀ port c fs tr s w dg ret fl r s', Reach env d dl (.running c fs) → FdRun env d dl port limit ⟨⟨c, fs, []⟩, fun _ => none⟩ tr s → GoodRequest s w dg ret → OpensFiles limit s fl →
    serveDatagram env port w dg ret ⟨{ s.st with faults := fl }, s.uploads⟩ = (r, s') → Sends r

theorem ex_goodRequest (sha1 : Bytes → Sha1Hash) (json : JsonCodec) : ∃ c fs, Reach (exEnv sha1 json) exDir exDown (.running c fs) ∧
    GoodRequest ⟨⟨c, fs, []⟩, fun _ => none⟩ exWire ((Msg.openReq Sha1Hash.zero 0 1).serialize ++ []) (fromPort (.exact [10, 0, 0, 2]) 0) := by
  obtain ⟨c, fs, e, h1, h2, h3, h4, h5, h6, h7, h8, h9⟩ := ex_complete sha1 json Sha1Hash.zero
  exact ⟨c, fs, h1.reach, _, _, _, ⟨[10, 0, 0, 2], rfl⟩, e, _, parse_buffer (.openReq Sha1Hash.zero 0 1) trivial (by simp [Msg.serialize, put16, Sha1Hash.zero]) [], h2, h6, h4, by rw [h3]; decide, rfl, rfl, rfl, rfl⟩

/-- C98 is false of the code, whatever the limit (of the usual size). -/
theorem C98_refuted (sha1 : Bytes → Sha1Hash) (json : JsonCodec) (limit : Nat) (hlim : limit ≤ 65535) : ¬ C98_statement (exEnv sha1 json) exDir exDown limit := by
  intro hst
  have hh := ex_healthy sha1 json
  obtain ⟨c, fs, hreach, hg⟩ := ex_goodRequest sha1 json
  obtain ⟨tr, s, h1, h2, -, -, hgood⟩ := C98_exhausts (port := 0) hh hreach _ _ _ hlim hg
  have hopen : OpensFiles limit s [.fail none, .fail none] := ⟨fun _ => ⟨by simp, by simp⟩, fun h => absurd h2 h⟩
  generalize hrun : serveDatagram (exEnv sha1 json) 0 exWire ((Msg.openReq Sha1Hash.zero 0 1).serialize ++ []) (fromPort (.exact [10, 0, 0, 2]) limit)
    ⟨{ s.st with faults := [.fail none, .fail none] }, s.uploads⟩ = out
  obtain ⟨r, s'⟩ := out
  exact (C98_partial hh (h1.reach hreach) exWire _ _ hgood _ hopen r s' hrun).1 (hst 0 c fs tr s exWire _ _ _ r s' hreach h1 hgood hopen hrun) h2

/-- Non-vacuity: 1024 requests, each answered, after which the next one for a chunk the daemon has is refused. -/
example (sha1 : Bytes → Sha1Hash) (json : JsonCodec) : ∃ (tr : List (Option (Bytes × Addr × Res Done))) (s s' : Srv) (x : Err) (c : Cat) (fs : FS) (dg : Bytes) (ret : Addr),
    FdRun (exEnv sha1 json) exDir exDown 0 1024 ⟨⟨c, fs, []⟩, fun _ => none⟩ tr s ∧ tr.length = 1024 ∧ GoodRequest s exWire dg ret ∧
    FdStep (exEnv sha1 json) exDir exDown 0 1024 s (some (dg, ret, .err x)) s' := by
  have hh := ex_healthy sha1 json
  obtain ⟨c, fs, hreach, hg⟩ := ex_goodRequest sha1 json
  obtain ⟨tr, s, h1, h2, h3, -, hgood⟩ := C98_exhausts (port := 0) (limit := 1024) hh hreach _ _ _ (by omega) hg
  have hopen : OpensFiles 1024 s [.fail none, .fail none] := ⟨fun _ => ⟨by simp, by simp⟩, fun h => absurd h2 h⟩
  have hgood' := hgood
  obtain ⟨h, n, cap, host, e, content, g1, -⟩ := hgood'
  generalize hrun : serveDatagram (exEnv sha1 json) 0 exWire ((Msg.openReq Sha1Hash.zero 0 1).serialize ++ []) (fromPort (.exact [10, 0, 0, 2]) 1024)
    ⟨{ s.st with faults := [.fail none, .fail none] }, s.uploads⟩ = out
  obtain ⟨r, s'⟩ := out
  obtain ⟨x, rfl⟩ := C98_refused hh (h1.reach hreach) h2 _ _ _ _ _ _ g1 _ hopen r s' hrun
  exact ⟨tr, s, _, x, c, fs, _, _, h1, h3, hgood, .serve s _ _ _ _ _ s' hopen hrun rfl⟩

end Flu
