import Verif.Model.LossyNet
import Verif.Props.Unreliable
import Verif.Props.Spread
/-!
# Files spread over hosts that run this program, on an unreliable network (C115)
-/
namespace Flu
open Spec

/-! ### The queue of an unreliable link -/

section
variable {sha1 : Bytes → Sha1Hash} {content : Bytes} {l0 : Link}

theorem LossyTake.run {q : List (Option Bytes)} {l : Link} (h : LossyTake sha1 content l0 q l) : LossyRun sha1 content true l0 l := by
  induction h with
  | refl => exact .refl
  | sender _ e s he hs ih => exact .step ih (.host (.sender _ e s he hs))
  | ack _ s hs ha ih => exact .step ih (.host (.ack _ s hs ha))
  | receive _ c d rest hr hn ih => exact .step ih (.host (.receive _ c d rest hr hn))
  | timeout _ c hr ih => exact .step ih (.host (.timeout _ c hr rfl))
  | network _ net acks hn ha ih => exact .step ih (.network _ net acks hn ha)

theorem LossyTake.loop {q : List (Option Bytes)} {l : Link} (h : LossyTake sha1 content l0 q l) (h0 : l0.recv = .waiting .fresh) : LoopAt sha1 q l.recv := by
  induction h with
  | refl =>
    rw [h0]
    refine ⟨[], fun rest => ?_⟩
    rw [List.nil_append]
    cases recvLoop sha1 .fresh rest <;> rfl
  | sender _ e s he hs ih => exact ih
  | ack _ s hs ha ih => exact ih
  | network _ net acks hn ha ih => exact ih
  | @receive q l _ c d rest hr hn ih =>
    rw [hr] at ih
    obtain ⟨acks, ih⟩ := ih
    show LoopAt sha1 (q ++ [some d]) (recvDatagram sha1 c d).1
    unfold recvDatagram
    rcases hp : readPacket d with p | _ | _ | _ | _ <;> simp only [Res.bind_ok, Res.bind_err, Res.bind_panic, Res.bind_exit, Res.bind_crash] <;> try trivial
    rcases ha : onPacket sha1 c p with ⟨c', a | ⟨b, ok⟩⟩ | _ | _ | _ | _ <;> simp only [] <;> try trivial
    · refine ⟨acks ++ [a], fun rest => ?_⟩
      rw [List.append_assoc, ih]
      show ((readPacket d >>= fun p => _) >>= _) = _
      rw [hp]
      simp only [Res.bind_ok, ha]
      rcases hx : recvLoop sha1 c' rest with _ | _ | _ | _ | _ <;> simp [hx, Res.bind_ok, Res.pure_eq, Res.bind_err, Res.bind_panic, Res.bind_exit, Res.bind_crash]
    · refine ⟨acks, ?_⟩
      rw [ih]
      show ((readPacket d >>= fun p => _) >>= _) = _
      rw [hp]
      simp [Res.bind_ok, ha, Res.pure_eq]
  | @timeout q l _ c hr ih =>
    rw [hr] at ih
    obtain ⟨acks, ih⟩ := ih
    refine ⟨acks, ?_⟩
    rw [ih]
    simp [recvLoop, Res.bind_ok]

end

/-! ### Chunks -/

theorem Spec.Partly.refl (F : Bytes) : Partly F F := ⟨rfl, fun _ => .inl rfl⟩

theorem Spec.Partly.trans {F G H : Bytes} (h1 : Partly F G) (h2 : Partly G H) : Partly F H := by
  refine ⟨h2.1.trans h1.1, fun i => ?_⟩
  rcases h2.2 i with h | ⟨h, h'⟩
  · rw [h]; exact h1.2 i
  · exact .inr ⟨by rw [← h1.1]; exact h, h'⟩

/-- A chunk of a file. -/
abbrev chunkAt (F : Bytes) (cs n : Nat) : Bytes := (F.drop (n * cs)).take cs

theorem chunkAt_get (F : Bytes) (cs n i : Nat) : (chunkAt F cs n)[i]? = if i < cs then F[n * cs + i]? else none := by
  rw [List.getElem?_take, List.getElem?_drop]

theorem chunkAt_length (F : Bytes) (cs n : Nat) : (chunkAt F cs n).length = min cs (F.length - n * cs) := by
  rw [List.length_take, List.length_drop]

theorem Spec.Partly.chunk {F G : Bytes} (h : Partly F G) (cs n : Nat) : Partly (chunkAt F cs n) (chunkAt G cs n) := by
  refine ⟨by rw [chunkAt_length, chunkAt_length, h.1], fun i => ?_⟩
  rw [chunkAt_get, chunkAt_get, chunkAt_length]
  split
  · rename_i hi
    rcases h.2 (n * cs + i) with g | ⟨g, g'⟩
    · exact .inl g
    · exact .inr ⟨by omega, g'⟩
  · exact .inl rfl

/-- `G` with chunk `n` replaced by `b`. -/
def patch (G : Bytes) (cs n : Nat) (b : Bytes) : Bytes := G.mapIdx (fun i x => if n * cs ≤ i ∧ i < n * cs + b.length then b.getD (i - n * cs) 0 else x)

theorem patch_length (G : Bytes) (cs n : Nat) (b : Bytes) : (patch G cs n b).length = G.length := List.length_mapIdx

theorem patch_get (G : Bytes) (cs n : Nat) (b : Bytes) (i : Nat) :
    (patch G cs n b)[i]? = if n * cs ≤ i ∧ i < n * cs + b.length ∧ i < G.length then b[i - n * cs]? else G[i]? := by
  unfold patch
  rw [List.getElem?_mapIdx]
  by_cases hi : i < G.length
  · rw [List.getElem?_eq_getElem hi, Option.map_some]
    by_cases hc : n * cs ≤ i ∧ i < n * cs + b.length
    · rw [if_pos hc, if_pos ⟨hc.1, hc.2, hi⟩, List.getElem?_eq_getElem (by omega)]
      simp [List.getD_eq_getElem?_getD, List.getElem?_eq_getElem (show i - n * cs < b.length by omega)]
    · rw [if_neg hc, if_neg (fun h => hc ⟨h.1, h.2.1⟩)]
  · rw [List.getElem?_eq_none (by omega), if_neg (fun h => hi h.2.2)]
    rfl

theorem Spec.Partly.patch {F G : Bytes} (h : Partly F G) (cs n : Nat) (b : Bytes) (hb : Partly (chunkAt F cs n) b) : Partly F (patch G cs n b) := by
  refine ⟨(patch_length _ _ _ _).trans h.1, fun i => ?_⟩
  rw [patch_get]
  split
  · rename_i hc
    rcases hb.2 (i - n * cs) with g | ⟨g, g'⟩
    · left
      have hbl := hb.1
      rw [chunkAt_length] at hbl
      rw [g, chunkAt_get, if_pos (by omega)]
      congr 1; omega
    · exact .inr ⟨by rw [← h.1]; exact hc.2.2, g'⟩
  · exact h.2 i

theorem patch_chunk {G : Bytes} (cs n : Nat) (b : Bytes) (hb : b.length = (chunkAt G cs n).length) : chunkAt (patch G cs n b) cs n = b := by
  rw [chunkAt_length] at hb
  apply List.ext_getElem?
  intro i
  rw [chunkAt_get, patch_get]
  by_cases hi : i < cs
  · rw [if_pos hi]
    by_cases hc : n * cs ≤ n * cs + i ∧ n * cs + i < n * cs + b.length ∧ n * cs + i < G.length
    · rw [if_pos hc]; congr 1; omega
    · rw [if_neg hc, List.getElem?_eq_none (by omega), List.getElem?_eq_none (by omega)]
  · rw [if_neg hi, List.getElem?_eq_none (by omega)]

theorem patch_other {G : Bytes} (cs n m : Nat) (b : Bytes) (hb : b.length ≤ cs) (hm : m ≠ n) : chunkAt (patch G cs n b) cs m = chunkAt G cs m := by
  apply List.ext_getElem?
  intro i
  rw [chunkAt_get, chunkAt_get, patch_get]
  split
  · rename_i hi
    rw [if_neg]
    rintro ⟨h1, h2, h3⟩
    rcases Nat.lt_or_gt_of_ne hm with h | h
    · have := Nat.mul_le_mul_right cs (show m + 1 ≤ n by omega)
      rw [Nat.add_mul, Nat.one_mul] at this
      omega
    · have := Nat.mul_le_mul_right cs (show n + 1 ≤ m by omega)
      rw [Nat.add_mul, Nat.one_mul] at this
      omega
  · rfl

/-! ### One host -/

section
variable {env : Env} {d dl : Path} {c : Cat} {fs : FS} {h : Sha1Hash} {F G : Bytes}

/-- Any bytes of the right number are saved as a chunk. -/
theorem save_any (hh : Healthy env d) (hreach : Reach env d dl (.running c fs)) (G old : Bytes) (cs : Nat) (h : Sha1Hash) (n : UInt16) (b : Bytes)
    (e : Export) (ho : observe c fs h = .ok e) (hpath : ¬ CatFile d e.filePath) (hd : Downloading G old cs (fs e.filePath) e)
    (hn : n.toNat < (G.length + cs - 1) / cs) (hb : b.length = (chunkAt G cs n.toNat).length) (s' : St) (hrun : saveChunk h n b ⟨c, fs, []⟩ = (.ok (), s')) :
    ∃ e', observe s'.cat s'.fs h = .ok e' ∧ e'.filePath = e.filePath ∧ e'.sizeInBytes = e.sizeInBytes ∧ Downloading (patch G cs n.toNat b) old cs (s'.fs e.filePath) e' ∧
      (∀ i, i < (G.length + cs - 1) / cs → (e'.saved i ↔ e.saved i ∨ i = n.toNat)) := by
  have hsafe : (Op.save h n b).Safe d c := by
    intro p hp
    rw [observe_path hh hreach h e ho] at hp
    cases hp; exact hpath
  obtain ⟨e0, e', h1, h2, h3, h4, h5, h6, -⟩ := saveChunk_effect hh hreach h n b [] hsafe s' hrun
  rw [ho] at h1; cases h1
  have hcs := hd.cs_pos
  have hdm := Nat.div_mul_le_self (G.length + cs - 1) cs
  have hmul : (n.toNat + 1) * cs ≤ (G.length + cs - 1) / cs * cs := Nat.mul_le_mul_right _ hn
  have h1m : (n.toNat + 1) * cs = n.toNat * cs + cs := by rw [Nat.add_mul, Nat.one_mul]
  have hlt : n.toNat * cs < G.length := by omega
  have hne : b ≠ [] := by
    have := chunk_ne G n.toNat cs hcs hn
    intro e; rw [e] at hb; exact this (List.length_eq_zero_iff.1 hb.symm)
  rw [chunkAt_length] at hb
  have hcnt : (G.length + cs - 1) / cs < 2 ^ 63 := by
    have := (observe_loaded hh hreach h e ho).size_lt
    have h8 := hd.count
    unfold Bitset.sizeOf at h8
    omega
  have hsv : ∀ i, i < (G.length + cs - 1) / cs → (e'.saved i ↔ e.saved i ∨ i = n.toNat) := fun i hi => h5 i (by omega)
  have hcs' : e.chunkSize.toNat = cs := by rw [hd.chunkSize]; rfl
  rw [hcs'] at h6
  refine ⟨e', h2, by rw [h3], by rw [h3], ⟨hcs, ?_, ?_, ?_, ?_⟩, hsv⟩
  · rw [h3]; exact hd.chunkSize
  · rw [patch_length, h4, hd.count]; omega
  · rw [patch_length]
    intro i hi hs
    refine ⟨_, h6, ?_⟩
    intro j hj1 hj2 hj3
    rw [overlay_getElem? _ _ _ hne, patch_get]
    by_cases hin : n.toNat * cs ≤ j ∧ j < n.toNat * cs + b.length
    · rw [if_pos hin, if_pos (show n.toNat * cs ≤ j ∧ j < n.toNat * cs + b.length ∧ j < G.length from ⟨hin.1, hin.2, hj3⟩)]
    · rw [if_neg hin, if_neg (show ¬ (n.toNat * cs ≤ j ∧ j < n.toNat * cs + b.length ∧ j < G.length) from fun hx => hin ⟨hx.1, hx.2.1⟩)]
      have hni : i ≠ n.toNat := by
        rintro rfl
        apply hin
        omega
      have hsi : e.saved i := ((hsv i hi).1 hs).resolve_right hni
      obtain ⟨c0, hc0, hc1⟩ := hd.right i hi hsi
      have hcj := hc1 j hj1 hj2 hj3
      have hjlen : j < c0.length := by
        apply Classical.byContradiction
        intro hge
        rw [List.getElem?_eq_none (by omega), List.getElem?_eq_getElem hj3] at hcj
        cases hcj
      rw [hc0, Option.getD_some, if_pos hjlen, hcj]
  · rw [patch_length]
    intro j hj
    rw [h6, Option.getD_some, overlay_getElem? _ _ _ hne, if_neg (by omega), ← hd.tail j hj]
    split
    · rfl
    · rename_i hge
      rw [if_neg (by omega), List.getElem?_eq_none (by omega)]

theorem HostRight.save_any (hh : Healthy env d) (hcl : CleanReach env d dl (.running c fs)) (hr : HostRight d h G c fs) (n : UInt16) (hn : n.toNat < (G.length + net_cs - 1) / net_cs)
    (b : Bytes) (hb : b.length = (chunkAt G net_cs n.toNat).length) (s' : St) (hrun : saveChunk h n b ⟨c, fs, []⟩ = (.ok (), s')) :
    HostRight d h (patch G net_cs n.toNat b) s'.cat s'.fs := by
  rcases clean_known hh hcl h with ⟨e, he⟩ | he
  rotate_left
  · exfalso
    obtain ⟨e, hx⟩ := (C108_succeeds hh hcl (.save h n b) trivial).1 ⟨s', hrun⟩
    rw [he] at hx; cases hx
  obtain ⟨a1, a2, old, a3, hd⟩ := hr e he
  obtain ⟨e', k1, k2, k3, k4, -⟩ := Flu.save_any hh hcl.reach G old net_cs h n b e he a1 hd hn hb s' hrun
  intro e'' he''
  rw [k1] at he''; cases he''
  rw [k2, k3, patch_length]
  exact ⟨a1, a2, old, a3, k4⟩

/-- With nothing saved yet, the bytes may turn out to be any of the right number. -/
theorem HostRight.blank (hr : HostRight d h F c fs) (hl : G.length = F.length) (hno : ∀ e, observe c fs h = .ok e → ∀ n : Nat, n < (F.length + net_cs - 1) / net_cs → ¬ e.saved n) :
    HostRight d h G c fs := by
  intro e he
  obtain ⟨a1, a2, old, a3, hd⟩ := hr e he
  refine ⟨a1, by rw [hl]; exact a2, old, by rw [hl]; exact a3, hd.cs_pos, hd.chunkSize, by rw [hl]; exact hd.count, ?_, by rw [hl]; exact hd.tail⟩
  intro i hi hs
  rw [hl] at hi
  exact absurd hs (hno e he i hi)

/-- What comes out of a line over an unreliable link. -/
theorem Line.Carries.lossy_out {sha1 : Bytes → Sha1Hash} {ln : Line} (hc : ln.Carries sha1 F) {q : List (Option Bytes)} {l : Link} (ht : LossyTake sha1 ln.content ln.start q l) :
    (∃ x c, recvLoop sha1 .fresh q = .ok (x, .waiting c)) ∨ (∃ x, recvLoop sha1 .fresh q = .ok (x, .closed)) ∨
      ∃ x b, recvLoop sha1 .fresh q = .ok (x, .finished b (decide (sha1 b = sha1 (chunkAt F net_cs ln.chunk.toNat)))) ∧ Partly (chunkAt F net_cs ln.chunk.toNat) b := by
  obtain ⟨cap, hn, start, ch, cr, rd, h1, h2, h3⟩ := hc
  have hne : slice ln.content start net_cs ≠ [] := by rw [h2]; exact chunk_ne F _ _ (by decide) hn
  obtain ⟨g1, -, g3⟩ := C114_safe (cap := cap) ch cr h1 (by decide) hne l ⟨rd, ln.first, ln.conn, (by intro hx; cases hx), h3, ht.run⟩
  have hl := ht.loop rfl
  rcases hr : l.recv with c | ⟨b, ok⟩ | _ | _
  · rw [hr] at hl
    obtain ⟨acks, hl⟩ := hl
    have := hl []
    rw [List.append_nil] at this
    exact .inl ⟨acks ++ [], c, this⟩
  · rw [hr] at hl
    obtain ⟨acks, hl⟩ := hl
    obtain ⟨k1, rfl⟩ := g3 b ok hr
    rw [h2] at hl k1
    exact .inr (.inr ⟨acks, b, hl, k1⟩)
  · rw [hr] at hl
    obtain ⟨acks, hl⟩ := hl
    exact .inr (.inl ⟨acks, hl⟩)
  · exact absurd hr g1

end

/-! ### The network -/

section
variable {place : Nat → Place} {sha1 : Bytes → Sha1Hash} {h : Sha1Hash} {F : Bytes}

/-- As `NetRight`, but every host has its own version of the file, in which some bytes are zero. -/
structure NetPartly (place : Nat → Place) (sha1 : Bytes → Sha1Hash) (h : Sha1Hash) (F : Bytes) (s : Net) : Prop where
  clean : ∀ i, CleanReach (place i).env (place i).d (place i).dl (.running (s.cat i) (s.fs i))
  hosts : ∀ i, ∃ G, Partly F G ∧ HostRight (place i).d h G (s.cat i) (s.fs i)
  told : ∀ raw, (h, raw) ∈ s.told → ∀ f, downloadMetaData h (.datagram raw) = .ok f → f.sizeInBytes.toNat = F.length ∧ f.chunkSize.toNat = net_cs
  lines : ∀ ln ∈ s.lines, ln.hash = h → ∃ G, Partly F G ∧ ln.Carries sha1 G

theorem NetPartly.put {s : Net} (hI : NetPartly place sha1 h F s) (i : Nat) (st : St) (h1 : CleanReach (place i).env (place i).d (place i).dl (.running st.cat st.fs))
    (h2 : ∃ G, Partly F G ∧ HostRight (place i).d h G st.cat st.fs) : NetPartly place sha1 h F (s.put i st) := by
  refine ⟨fun j => ?_, fun j => ?_, hI.told, hI.lines⟩
  · show CleanReach _ _ _ (.running (if j = i then st.cat else s.cat j) (if j = i then st.fs else s.fs j))
    split
    · rename_i e; subst e; exact h1
    · exact hI.clean j
  · show ∃ G, Partly F G ∧ HostRight _ _ G (if j = i then st.cat else s.cat j) (if j = i then st.fs else s.fs j)
    split
    · rename_i e; subst e; exact h2
    · exact hI.hosts j

/-- Whatever a transfer hands over is saved. -/
theorem NetPartly.fetch (hh : ∀ i, Healthy (place i).env (place i).d) (hsha : ∀ i, (place i).env.sha1 = sha1) {s : Net}
    (hI : NetPartly place sha1 h F s) (i : Nat) (ln : Line) (q : List (Option Bytes)) (l : Link) (out : DLOut) (s' : St) (hline : ln ∈ s.lines)
    (htake : LossyTake (place i).env.sha1 ln.content ln.start q l) (hsafe : ∀ data, (Op.save ln.hash ln.chunk data).Safe (place i).d (s.cat i))
    (hrun : downloadChunk (place i).env ln.hash ln.chunk q (s.st i) = (.ok out, s'))
    (hok : ln.hash ≠ h → ∀ e ek, observe (s.cat i) (s.fs i) h = .ok e → observe (s.cat i) (s.fs i) ln.hash = .ok ek → ek.filePath ≠ e.filePath) :
    NetPartly place sha1 h F (s.put i s') := by
  obtain ⟨G, hG, hr⟩ := hI.hosts i
  rcases downloadChunk_shape _ _ _ _ _ _ hrun with ⟨rfl, -⟩ | ⟨x, b, ok, h1, h2, rfl⟩
  · exact hI.put i _ (hI.clean i) ⟨G, hG, hr⟩
  refine hI.put i s' (CleanReach.call (.save ln.hash ln.chunk b) _ _ _ s' (hI.clean i) (hsafe b) h2 rfl) ?_
  by_cases hk : ln.hash = h
  · obtain ⟨K, hK, hc⟩ := hI.lines ln hline hk
    rw [hsha i] at htake h1
    have hb : Partly (chunkAt K net_cs ln.chunk.toNat) b := by
      rcases hc.lossy_out htake with ⟨_, _, g⟩ | ⟨_, g⟩ | ⟨_, b', g, g'⟩ <;> rw [h1] at g <;> cases g
      exact g'
    have hb' : Partly (chunkAt F net_cs ln.chunk.toNat) b := (hK.chunk _ _).trans hb
    have hn := hc.choose_spec.1
    rw [hk] at h2
    refine ⟨_, hG.patch net_cs ln.chunk.toNat b hb', hr.save_any (hh i) (hI.clean i) ln.chunk (by rw [hG.1, ← hK.1]; exact hn) b ?_ s' h2⟩
    rw [hb'.1, chunkAt_length, chunkAt_length, hG.1]
  · exact ⟨G, hG, hr.save_other (hh i) (hI.clean i) ln.hash hk ln.chunk b (hsafe b) (hok hk) s' h2⟩

theorem NetPartly.step (hh : ∀ i, Healthy (place i).env (place i).d) (hsha : ∀ i, (place i).env.sha1 = sha1) (hb : h.isBlank = false) (hbig : F.length < 2 ^ 63) {a : NEv} {s s' : Net}
    (hI : NetPartly place sha1 h F s) (hst : LossyNStep place a s s') (hok : Careful place h F a s s') : NetPartly place sha1 h F s' := by
  cases hst with
  | fetch i s ln q l out s1 hline htake hsafe hrun => exact hI.fetch hh hsha i ln q l out s1 hline htake hsafe hrun hok
  | plain hst =>
  cases hst with
  | call i o s r s1 ho hrun hret =>
    refine hI.put i s1 (CleanReach.call o _ _ r s1 (hI.clean i) ?_ hrun hret) ?_
    · cases o <;> first | trivial | cases ho
    · obtain ⟨G, hG, hr⟩ := hI.hosts i
      by_cases hshare : ∃ path X, o = .share path ∧ s.fs i (absPath (place i).env.cwd path) = some X ∧ (place i).env.sha1 X = h
      · obtain ⟨path, X, rfl, hX, hx⟩ := hshare
        have hcall : ∀ {K}, HostRight (place i).d h K (s.cat i) (s.fs i) → K = F → HostRight (place i).d h K s1.cat s1.fs := by
          rintro K hK rfl
          refine hK.call (hh i) (hI.clean i) hbig _ ho ?_ r s1 hrun hret
          rintro path' X' e hX' hx'
          cases e
          exact hok X' hX' hx'
        rcases clean_known (hh i) (hI.clean i) h with ⟨e, he⟩ | he
        · -- the content is known already: the call fails and changes nothing
          have hx' := C27_share_again (hh i) (hI.clean i).reach path X hX (by rw [hx, he]; intro hy; cases hy) []
          have h1 : s1 = (shareFile (place i).env path (s.st i)).2 := by
            have : CM.void (shareFile (place i).env path) (s.st i) = (r, s1) := hrun
            rw [← void_snd, this]
          refine ⟨G, hG, hr.of_same ?_ ?_⟩
          · rw [h1]; show observe (shareFile (place i).env path ⟨s.cat i, s.fs i, []⟩).2.cat (shareFile (place i).env path ⟨s.cat i, s.fs i, []⟩).2.fs h = _
            rw [hx'.2.1, hx'.2.2]
          · intro e _
            rw [h1]; show (shareFile (place i).env path ⟨s.cat i, s.fs i, []⟩).2.fs _ = _
            rw [hx'.2.2]
        · exact ⟨F, Partly.refl F, hcall (HostRight.of_none (fun e hx => by rw [he] at hx; cases hx)) rfl⟩
      · refine ⟨G, hG, hr.call (hh i) (hI.clean i) (by rw [hG.1]; exact hbig) o ho ?_ r s1 hrun hret⟩
        rintro path X rfl hX hx
        exact absurd ⟨path, X, rfl, hX, hx⟩ hshare
  | user i p s content hp =>
    obtain ⟨G, hG, hr⟩ := hI.hosts i
    refine hI.put i _ (CleanReach.userRunning _ _ p content hp (hI.clean i)) ⟨G, hG, ?_⟩
    refine hr.of_same (observe_user (hh i) (hI.clean i).reach p content hp h) ?_
    intro e he
    exact FS.put_other _ _ _ _ (hok e he)
  | restart i s pid now s1 hrun =>
    obtain ⟨G, hG, hr⟩ := hI.hosts i
    obtain ⟨h1, h2⟩ := hr.restart (hh i) (hI.clean i) hok pid now s1 hrun
    exact hI.put i s1 h1 ⟨G, hG, h2⟩
  | describe i k s port w id pad ret ups ip to reply s1 hrun =>
    obtain ⟨G, hG, hr⟩ := hI.hosts i
    obtain ⟨h1, h2, h3⟩ := serve_clean (hh i) (hI.clean i) port w _ ret ups _ s1 hrun rfl
    have hp := hI.put i s1.st h1 ⟨G, hG, hr.of_same (h3 h) (fun e _ => by rw [h2])⟩
    refine ⟨hp.clean, hp.hosts, ?_, hp.lines⟩
    intro raw hraw f hf
    rcases List.mem_cons.1 hraw with hx | hx
    · cases hx
      have := hr.describe (hh i) (hI.clean i) (by rw [hG.1]; exact hbig) port w id hb pad ret ups ip to reply s1 hrun f hf
      rw [hG.1] at this
      exact this
    · exact hI.told raw hx f hf
  | upload i k n cap s port w pad ret ups key p up s1 hnew hrun hup =>
    obtain ⟨G, hG, hr⟩ := hI.hosts i
    obtain ⟨h1, h2, h3⟩ := serve_clean (hh i) (hI.clean i) port w _ ret ups _ s1 hrun rfl
    have hp := hI.put i s1.st h1 ⟨G, hG, hr.of_same (h3 h) (fun e _ => by rw [h2])⟩
    refine ⟨hp.clean, hp.hosts, hp.told, ?_⟩
    intro ln hln hx
    rcases List.mem_cons.1 hln with rfl | hln
    · have hx : k = h := hx
      subst hx
      rw [← hsha i]
      exact ⟨G, hG, cap, hr.upload (hh i) (hI.clean i) port w n cap pad ret ups key p up s1 hnew hrun hup⟩
    · exact hI.lines ln hln hx
  | start i k s w r s1 hw hrun hret =>
    obtain ⟨G, hG, hr⟩ := hI.hosts i
    refine hI.put i s1 (startDownload_shape (hh i) (hI.clean i) w k r s1 hrun hret).1 ⟨G, hG, ?_⟩
    refine hr.start (hh i) (hI.clean i) (by rw [hG.1]; exact hbig) w k ?_ r s1 hrun hret ?_
    · rintro rfl peer f hf
      rw [hG.1]
      rcases hd : w.description peer with _ | _ | raw
      · rw [hd] at hf; cases hf
      · rw [hd] at hf; cases hf
      · rw [hd] at hf
        exact hI.told raw (hw peer raw hd) f hf
    · intro e h1 h2
      rw [hG.1]
      refine hok e h1 ?_
      rw [(Net.put_self s i s1).1, (Net.put_self s i s1).2]
      exact h2
  | fetch i s ln q l out s1 hline htake hsafe hrun =>
    have htk : LossyTake (place i).env.sha1 ln.content ln.start q l := by
      clear hrun
      induction htake with
      | refl => exact .refl
      | sender _ e s he hs ih => exact .sender ih e s he hs
      | ack _ s hs ha ih => exact .ack ih s hs ha
      | receive _ c d rest hr hn ih => exact .receive ih c d rest hr hn
      | timeout _ c hr ih => exact .timeout ih c hr
    exact hI.fetch hh hsha i ln q l out s1 hline htk hsafe hrun hok

theorem NetPartly.run (hh : ∀ i, Healthy (place i).env (place i).d) (hsha : ∀ i, (place i).env.sha1 = sha1) (hb : h.isBlank = false) (hbig : F.length < 2 ^ 63) {s0 s : Net}
    (h0 : Before place h s0) (hrun : LossyNRun place (Careful place h F) s0 s) : NetPartly place sha1 h F s := by
  induction hrun with
  | refl =>
    refine ⟨h0.clean, fun i => ⟨F, Partly.refl F, HostRight.of_none (fun e he => by rw [h0.unknown i] at he; cases he)⟩, fun raw hr => absurd hr (h0.told raw),
      fun ln hl hx => absurd hx (h0.lines ln hl)⟩
  | step a _ hst hok ih => exact ih.step hh hsha hb hbig hst hok

/-- **C115**: in a network of hosts that run this program, on which packets and acknowledgements get lost, are repeated and change their order: every host that has the file shows its size and
number of chunks, and each byte of a chunk that it shows as saved is the byte of `F` or zero. -/
theorem C115_network_partial (hh : ∀ i, Healthy (place i).env (place i).d) (hsha : ∀ i, (place i).env.sha1 = sha1) (hb : h.isBlank = false) (hF : F ≠ []) (hbig : F.length < 2 ^ 63) {s0 s : Net}
    (h0 : Before place h s0) (hrun : LossyNRun place (Careful place h F) s0 s) (i : Nat) (e : Export) (he : observe (s.cat i) (s.fs i) h = .ok e) :
    e.sizeInBytes = F.length ∧ e.chunkSize = 4194304 ∧ e.progress.sizeOf = ((F.length + 4194303) / 4194304 : Nat) ∧
      (∀ n : Nat, n < 2 ^ 63 → e.saved n → ∃ content, s.fs i e.filePath = some content ∧ Partly ((F.drop (n * 4194304)).take 4194304) ((content.drop (n * 4194304)).take 4194304)) ∧
      ((∀ n : Nat, (n : Int) < e.progress.sizeOf → e.saved n) → ∃ G, s.fs i e.filePath = some G ∧ Partly F G) := by
  have hI := NetPartly.run hh hsha hb hbig h0 hrun
  obtain ⟨G, hG, hr⟩ := hI.hosts i
  obtain ⟨-, h2, old, h3, h4⟩ := hr e he
  have hGne : G ≠ [] := by intro hx; rw [hx] at hG; exact hF (List.length_eq_zero_iff.1 hG.1.symm)
  refine ⟨by rw [h2, hG.1], h4.chunkSize, ?_, ?_, fun ha => ⟨G, (C33_content G old net_cs _ e h4 hGne ha).2 h3, hG⟩⟩
  · rw [h4.count, hG.1]
    have : F.length + net_cs - 1 = F.length + 4194303 := by simp only [net_cs]; omega
    rw [this]
  · intro n hn hs
    have hlt := saved_lt (hh i) (hI.clean i).reach e he n hn hs
    have hc := h4.count
    have hn' : n < (G.length + net_cs - 1) / net_cs := by omega
    obtain ⟨content, g1, -⟩ := h4.right n hn' hs
    refine ⟨content, g1, ?_⟩
    have hx := hr.slice he g1 n hs hn'
    show Partly (chunkAt F net_cs n) ((content.drop (n * net_cs)).take net_cs)
    rw [hx]
    exact hG.chunk net_cs n

end
end Flu
