import Verif.Props.Network
import Verif.Props.StartDownload
/-!
# A file can spread over hosts that run this program (C112)
-/
namespace Flu
open Spec

section
variable {sha1 : Bytes → Sha1Hash} {content : Bytes} {F : Bytes}

theorem SStep.mono {s s' : Sender} {e : Ev} (h : SStep content false s e s') : SStep content true s e s' := by
  cases h with
  | arrive => exact .arrive _
  | take hw hp => exact .take _ hw hp
  | cancel hw hc => exact .cancel _ hw hc
  | turn ends rd sends hw hf => exact .turn _ ends rd sends hw (fun hx => by cases hx)
  | terminate left failed hw hc => exact .terminate _ left failed hw hc
  | ret failed hw => exact .ret _ failed hw

theorem LRun.take {l0 l : Link} {k : Nat} (h : LRun sha1 content false l0 k l) : ∃ q, LTake sha1 content l0 q l := by
  induction h with
  | refl => exact ⟨[], .refl⟩
  | step _ h' ih =>
    obtain ⟨q, ih⟩ := ih
    cases h' with
    | sender e s he hs => exact ⟨q, .sender ih e s he hs.mono⟩
    | ack s hs ha => exact ⟨q, .ack ih s hs.mono ha⟩
    | receive c d rest hr hn => exact ⟨_, .receive ih c d rest hr hn⟩
    | timeout c hr hf => cases hf

theorem kickstart_good (cr : ChunkReader) (start n : Nat) (cap : UInt16) (hr : cr.reader = ⟨start, start, start + n⟩) (hn : n < 2 ^ 32) (rd : AtChoice) (p : Packet) (s0 : Sender)
    (h : kickstart content (newSender cr cap) cr.hash cr.size rd true = (.ok p, s0)) : kickstart content (newSender cr cap) cr.hash cr.size .good true = (.ok p, s0) := by
  have hreset : (newSender cr cap).reader.reset.reader = ⟨start, start + 0, start + n⟩ := by simp [newSender, ChunkReader.reset, hr]
  unfold kickstart at h ⊢
  simp only [] at h ⊢
  rcases read_cases content _ start n 0 1000 hreset (Nat.zero_le _) hn rd with hg | ⟨got, off, cr', hg⟩
  · rw [hg] at h; exact h
  · rw [hg] at h; simp at h

/-- What is uploaded through a line without faults arrives, if the last packet cannot get stuck. -/
theorem Line.CarriesIn.arrives {ln : Line} {cap : UInt16} (hc : ln.CarriesIn sha1 F cap) (h0 : 0 < cap.toNat)
    (hst : ¬ CanStall ((F.drop (ln.chunk.toNat * net_cs)).take net_cs).length net_cs cap.toNat) :
    ∃ q l x, LTake sha1 ln.content ln.start q l ∧ recvLoop sha1 .fresh q = .ok (x, .finished ((F.drop (ln.chunk.toNat * net_cs)).take net_cs) true) := by
  obtain ⟨hn, start, ch, cr, rd, h1, h2, h3⟩ := hc
  have hne : slice ln.content start net_cs ≠ [] := by rw [h2]; exact chunk_ne F _ _ (by decide) hn
  obtain ⟨-, -, -, h4⟩ := C23_describes sha1 ln.content start net_cs ch cr h1
  have h5 := kickstart_good cr start net_cs cap h4 (by decide) rd _ _ h3
  obtain ⟨k, l, ⟨rd', p', s0, g1, g2, g3⟩, g4⟩ := maximal (cap := cap) ch cr h1 (by decide) hne h0
  have hrd := g1 rfl
  subst hrd
  rw [h5] at g2
  cases g2
  have hfin := (C45_partial (cap := cap) ch cr h1 (by decide) hne h0).2 (by rw [h2]; exact hst) k l ⟨.good, _, _, fun _ => rfl, h5, g3⟩ g4
  obtain ⟨q, hq⟩ := g3.take
  have hl := hq.loop rfl
  rw [hfin] at hl
  obtain ⟨x, hl⟩ := hl
  rw [h2] at hl
  exact ⟨q, l, x, hq, hl⟩

end

section
variable {place : Nat → Place} {sha1 : Bytes → Sha1Hash} {h : Sha1Hash} {F : Bytes}

theorem NRun.trans {ok : NEv → Net → Net → Prop} {s0 s1 s2 : Net} (h1 : NRun place ok s0 s1) (h2 : NRun place ok s1 s2) : NRun place ok s0 s2 := by
  induction h2 with
  | refl => exact h1
  | step a _ hst hok ih => exact .step a ih hst hok

/-- Two states of the network in which everybody has the same files and shows the same. -/
structure Net.Same (s s' : Net) : Prop where
  fs : ∀ i, s'.fs i = s.fs i
  obs : ∀ i k, observe (s'.cat i) (s'.fs i) k = observe (s.cat i) (s.fs i) k

theorem Net.Same.put {s : Net} {i : Nat} {st : St} (h1 : st.fs = s.fs i) (h2 : ∀ k, observe st.cat st.fs k = observe (s.cat i) (s.fs i) k) (told : List (Sha1Hash × Bytes)) (lines : List Line) :
    s.Same { s.put i st with told := told, lines := lines } := by
  constructor
  · intro j
    show (if j = i then st.fs else s.fs j) = _
    split
    · rename_i e; rw [e, h1]
    · rfl
  · intro j k
    show observe (if j = i then st.cat else s.cat j) (if j = i then st.fs else s.fs j) k = _
    split
    · rename_i e; rw [e]; exact h2 k
    · rfl

/-- An upload can be opened. -/
theorem HostRight.opens (hh : ∀ i, Healthy (place i).env (place i).d) (hsha : ∀ i, (place i).env.sha1 = sha1) {s : Net} {i : Nat}
    (hcl : CleanReach (place i).env (place i).d (place i).dl (.running (s.cat i) (s.fs i))) (hr : HostRight (place i).d h F (s.cat i) (s.fs i)) (e : Export)
    (he : observe (s.cat i) (s.fs i) h = .ok e) (n : UInt16) (hn : e.saved n.toNat) :
    ∃ s' ln, NStep place (.upload i h n) s s' ∧ ln ∈ s'.lines ∧ ln.hash = h ∧ ln.chunk = n ∧ ln.CarriesIn sha1 F 1024 ∧ s.Same s' ∧ ∀ j, s'.cat j = s.cat j ∨ CleanReach (place j).env (place j).d (place j).dl (.running (s'.cat j) (s'.fs j)) := by
  obtain ⟨-, -, old, -, g2⟩ := hr e he
  have hn16 := n.toNat_lt
  have hlt := saved_lt (hh i) hcl.reach e he n.toNat (by omega) hn
  have hcount := g2.count
  obtain ⟨content, hf, -⟩ := g2.right n.toNat (by omega) hn
  have hp := parse_buffer (.openReq h n 1024) trivial (by have := h.2; simp [Msg.serialize, put16, this]) []
  have hch : e.chunkSize.toNat < (List.replicate 4194305 AtChoice.good).countP (· == .good) := by
    rw [g2.chunkSize, List.countP_replicate]
    simp
  obtain ⟨host, hip⟩ : ∃ host, newIpv4 (.exact [10, 0, 0, 2]) = .ok host := ⟨_, rfl⟩
  obtain ⟨p, s1, hrun⟩ := C48_serves (hh i) hcl.reach 61696 ⟨some [], [], List.replicate 4194305 .good, .good, true⟩ _ h n 1024 ⟨.exact [10, 0, 0, 2], 5⟩ host (fun _ => none) hp e content he hn hf
    hch rfl rfl hip rfl
  obtain ⟨_, _, _, -, -, -, -, -, -, -, -, ⟨cr, conn, -, hup, -⟩, -⟩ :=
    C48_new_partial (hh i) hcl.reach 61696 _ _ h n 1024 _ [] (fun _ => none) _ p s1 hp hrun rfl
  have hc := hr.upload (hh i) hcl 61696 _ n 1024 [] _ (fun _ => none) _ p _ s1 rfl hrun hup
  obtain ⟨k1, k2, k3⟩ := serve_clean (hh i) hcl 61696 _ _ _ (fun _ => none) _ s1 hrun rfl
  rw [hsha i] at hc
  refine ⟨_, _, .upload i h n 1024 s 61696 _ [] _ (fun _ => none) _ p _ s1 rfl hrun hup, List.mem_cons_self, rfl, rfl, hc, Net.Same.put k2 k3 _ _, fun j => ?_⟩
  show (if j = i then s1.st.cat else s.cat j) = _ ∨ CleanReach _ _ _ (.running (if j = i then s1.st.cat else s.cat j) (if j = i then s1.st.fs else s.fs j))
  by_cases hj : j = i
  · rw [if_pos hj, if_pos hj, hj]; exact .inr k1
  · rw [if_neg hj, if_neg hj]; exact .inl rfl

theorem NetRight.opens (hh : ∀ i, Healthy (place i).env (place i).d) (hsha : ∀ i, (place i).env.sha1 = sha1) {s : Net} (hI : NetRight place sha1 h F s) (i : Nat) (e : Export)
    (he : observe (s.cat i) (s.fs i) h = .ok e) (n : UInt16) (hn : e.saved n.toNat) :
    ∃ s' ln, NStep place (.upload i h n) s s' ∧ ln ∈ s'.lines ∧ ln.hash = h ∧ ln.chunk = n ∧ ln.CarriesIn sha1 F 1024 ∧ s.Same s' := by
  obtain ⟨s', ln, h1, h2, h3, h4, h5, h6, -⟩ := (hI.hosts i).opens hh hsha (hI.clean i) e he n hn
  exact ⟨s', ln, h1, h2, h3, h4, h5, h6⟩

/-- A chunk can be fetched: the host that does it has it then, and otherwise nothing changes. -/
theorem NetRight.fetches (hh : ∀ i, Healthy (place i).env (place i).d) (hsha : ∀ i, (place i).env.sha1 = sha1) {s : Net} (hI : NetRight place sha1 h F s) (i j : Nat) (e e' : Export)
    (he : observe (s.cat i) (s.fs i) h = .ok e) (n : UInt16) (hn : e.saved n.toNat) (he' : observe (s.cat j) (s.fs j) h = .ok e')
    (hst : ¬ CanStall ((F.drop (n.toNat * net_cs)).take net_cs).length net_cs 1024) :
    ∃ s', NRun place (Careful place h F) s s' ∧ (∀ t, t ≠ j → s'.fs t = s.fs t ∧ ∀ k, observe (s'.cat t) (s'.fs t) k = observe (s.cat t) (s.fs t) k) ∧
      ∃ e2, observe (s'.cat j) (s'.fs j) h = .ok e2 ∧ e2.filePath = e'.filePath ∧ e2.progress.sizeOf = e'.progress.sizeOf ∧
        ∀ m, m < 2 ^ 63 → (e2.saved m ↔ e'.saved m ∨ m = n.toNat) := by
  obtain ⟨s1, ln, h1, h2, h3, h4, h5, h6⟩ := hI.opens hh hsha i e he n hn
  subst h4
  have hI1 := hI.clean
  obtain ⟨q, l, x, h7, h8⟩ := h5.arrives (by decide) hst
  have he1 : observe (s1.cat j) (s1.fs j) h = .ok e' := by rw [h6.obs]; exact he'
  -- host `j` after the upload was opened
  have hclean : CleanReach (place j).env (place j).d (place j).dl (.running (s1.cat j) (s1.fs j)) ∧ HostRight (place j).d h F (s1.cat j) (s1.fs j) := by
    refine ⟨?_, (hI.hosts j).of_same (h6.obs j h) (fun e _ => by rw [h6.fs])⟩
    cases h1 with
    | upload _ _ _ cap _ port w pad ret ups key p up s1' hnew hrun hup =>
      show CleanReach _ _ _ (.running (if j = i then s1'.st.cat else s.cat j) (if j = i then s1'.st.fs else s.fs j))
      split
      · rename_i ej; subst ej
        exact (serve_clean (hh j) (hI.clean j) port w _ ret ups _ s1' hrun rfl).1
      · exact hI.clean j
  obtain ⟨hcl, hr⟩ := hclean
  obtain ⟨g1, -, old, -, g2⟩ := hr e' he1
  have hsafe : ∀ data, (Op.save h ln.chunk data).Safe (place j).d (s1.cat j) := by
    intro data p hp
    rw [observe_path (hh j) hcl.reach h e' he1] at hp
    cases hp; exact g1
  obtain ⟨s2, hs⟩ := saveChunk_total (hh j) hcl.reach h ln.chunk ((F.drop (ln.chunk.toNat * net_cs)).take net_cs) e' he1
  have hrun : downloadChunk (place j).env h ln.chunk q (s1.st j) = (.ok (.saved true), s2) := by
    rw [downloadChunk_eq, hsha j, h8]
    simp only []
    rw [IOM.bind_apply]
    unfold IOM.orPanic
    have hs' : saveChunk h ln.chunk ((F.drop (ln.chunk.toNat * net_cs)).take net_cs) (s1.st j) = (.ok (), s2) := hs
    rw [hs']
    rfl
  have hstep : NStep place (.fetch j h ln.chunk) s1 (s1.put j s2) := by
    have := NStep.fetch (place := place) j s1 ln q l (.saved true) s2 h2 (by rw [hsha j]; exact h7) (by rw [h3]; exact hsafe) (by rw [h3]; exact hrun)
    rw [h3] at this
    exact this
  obtain ⟨e0, e2, k1, k2, k3, k4, k5, -⟩ := saveChunk_effect (hh j) hcl.reach h ln.chunk _ [] (hsafe _) s2 hs
  rw [he1] at k1; cases k1
  refine ⟨s1.put j s2, .step _ (.step _ .refl h1 trivial) hstep (fun hx => absurd rfl hx), ?_, e2, ?_, ?_, ?_, k5⟩
  · intro t ht
    have a1 : (s1.put j s2).fs t = s1.fs t := by simp [Net.put, ht]
    have a2 : (s1.put j s2).cat t = s1.cat t := by simp [Net.put, ht]
    rw [a1, a2]
    exact ⟨h6.fs t, h6.obs t⟩
  · rw [(Net.put_self s1 j s2).1, (Net.put_self s1 j s2).2]
    exact k2
  · rw [k3]
  · rw [k4, g2.count]
    have := h5.1
    omega

/-- All the chunks below `m` that another host has can be fetched one after the other. -/
theorem NetRight.fetchAll (hh : ∀ i, Healthy (place i).env (place i).d) (hsha : ∀ i, (place i).env.sha1 = sha1) (hb : h.isBlank = false) (hbig : F.length < 2 ^ 63) {s : Net}
    (hI : NetRight place sha1 h F s) (i j : Nat) (hij : j ≠ i) (e e' : Export) (he : observe (s.cat i) (s.fs i) h = .ok e) (he' : observe (s.cat j) (s.fs j) h = .ok e')
    (hst : ∀ n : Nat, ¬ CanStall ((F.drop (n * net_cs)).take net_cs).length net_cs 1024) (m : Nat) (hm : m ≤ 65536) (hn : ∀ n, n < m → e.saved n) :
    ∃ s', NRun place (Careful place h F) s s' ∧ (∀ t, t ≠ j → s'.fs t = s.fs t ∧ ∀ k, observe (s'.cat t) (s'.fs t) k = observe (s.cat t) (s.fs t) k) ∧
      ∃ e2, observe (s'.cat j) (s'.fs j) h = .ok e2 ∧ e2.filePath = e'.filePath ∧ e2.progress.sizeOf = e'.progress.sizeOf ∧
        ∀ n, n < 2 ^ 63 → (e2.saved n ↔ e'.saved n ∨ n < m) := by
  induction m with
  | zero => exact ⟨s, .refl, fun _ _ => ⟨rfl, fun _ => rfl⟩, e', he', rfl, rfl, fun n _ => by simp⟩
  | succ m ih =>
    obtain ⟨s1, h1, h2, e1, h3, h4, h5, h6⟩ := ih (by omega) (fun n h => hn n (by omega))
    have hI1 : NetRight place sha1 h F s1 := by
      clear h2 h3
      induction h1 with
      | refl => exact hI
      | step a _ hst hok ih => exact ih.step hh hsha hb hbig hst hok
    have he1 : observe (s1.cat i) (s1.fs i) h = .ok e := by rw [(h2 i (fun hx => hij hx.symm)).2]; exact he
    have hm' : (UInt16.ofNat m).toNat = m := UInt16.toNat_ofNat_of_lt' (by show m < 65536; omega)
    obtain ⟨s2, g1, g2, e2, g3, g4, g5, g6⟩ := hI1.fetches hh hsha i j e e1 he1 (UInt16.ofNat m) (by rw [hm']; exact hn m (by omega)) h3 (hst _)
    rw [hm'] at g6
    refine ⟨s2, h1.trans g1, ?_, e2, g3, g4.trans h4, g5.trans h5, ?_⟩
    · intro t ht
      exact ⟨(g2 t ht).1.trans (h2 t ht).1, fun k => ((g2 t ht).2 k).trans ((h2 t ht).2 k)⟩
    · intro n hlt
      rw [g6 n hlt, h6 n hlt]
      constructor
      · rintro ((h | h) | h)
        · exact .inl h
        · exact .inr (by omega)
        · exact .inr (by omega)
      · rintro (h | h)
        · exact .inl (.inl h)
        · by_cases hx : n = m
          · exact .inr hx
          · exact .inl (.inr (by omega))

/-- **C112, spreads**: whenever one host has all of a file and another one knows of it, the chunks can reach it, and it then has exactly that file (of at most 65536 chunks, the last of which cannot stall). -/
theorem C112_spreads (hh : ∀ i, Healthy (place i).env (place i).d) (hsha : ∀ i, (place i).env.sha1 = sha1) (hb : h.isBlank = false) (hF : F ≠ []) (hbig : F.length ≤ 65536 * 4194304)
    (hst : ∀ n : Nat, ¬ CanStall ((F.drop (n * 4194304)).take 4194304).length 4194304 1024) {s0 s : Net} (h0 : Before place h s0) (hrun : NRun place (Careful place h F) s0 s)
    (i j : Nat) (hij : j ≠ i) (e e' : Export) (he : observe (s.cat i) (s.fs i) h = .ok e) (hall : ∀ n : Nat, (n : Int) < e.progress.sizeOf → e.saved n)
    (he' : observe (s.cat j) (s.fs j) h = .ok e') :
    ∃ s', NRun place (Careful place h F) s s' ∧ (∀ t, t ≠ j → s'.fs t = s.fs t ∧ ∀ k, observe (s'.cat t) (s'.fs t) k = observe (s.cat t) (s.fs t) k) ∧
      ∃ e2, observe (s'.cat j) (s'.fs j) h = .ok e2 ∧ e2.filePath = e'.filePath ∧ (∀ n : Nat, (n : Int) < e2.progress.sizeOf → e2.saved n) ∧ s'.fs j e2.filePath = some F := by
  have hI := NetRight.run hh hsha hb (by omega) h0 hrun
  obtain ⟨-, -, old, -, g⟩ := hI.hosts i e he
  obtain ⟨-, -, old', -, g'⟩ := hI.hosts j e' he'
  have hc := g.count
  have hc' := g'.count
  have hm : (F.length + net_cs - 1) / net_cs ≤ 65536 := by
    simp only [net_cs]; omega
  obtain ⟨s', h1, h2, e2, h3, h4, h5, h6⟩ := hI.fetchAll hh hsha hb (by omega) i j hij e e' he he' hst _ hm (fun n hn => hall n (by omega))
  have hall2 : ∀ n : Nat, (n : Int) < e2.progress.sizeOf → e2.saved n := by
    intro n hn
    rw [h5, hc'] at hn
    exact (h6 n (by omega)).2 (.inr (by omega))
  exact ⟨s', h1, h2, e2, h3, h4, hall2, (C112_network hh hsha hb hF (by omega) h0 (hrun.trans h1) j e2 h3).2.2.2.2.1 hall2⟩

theorem baseName_last {p n : GoString} (hn : IsBaseName p n) : n = (p.reverse.takeWhile (· ≠ 47)).reverse := by
  obtain ⟨h1, h2⟩ := hn
  have hall : ∀ a ∈ n.reverse, (decide (a ≠ (47 : UInt8))) = true := by
    intro a ha
    rw [List.mem_reverse] at ha
    simp only [decide_eq_true_eq]
    rintro rfl
    exact h1 ha
  rcases h2 with rfl | ⟨dir, rfl⟩
  · have := List.takeWhile_append_of_pos (l₂ := []) hall
    rw [List.append_nil, List.takeWhile_nil, List.append_nil] at this
    rw [this, List.reverse_reverse]
  · rw [List.reverse_append, List.reverse_cons, List.append_assoc, List.takeWhile_append_of_pos hall]
    simp

theorem baseName_unique {p n n' : GoString} (h1 : IsBaseName p n) (h2 : IsBaseName p n') : n = n' := (baseName_last h1).trans (baseName_last h2).symm

/-- Only the last chunk can stall. -/
theorem stall_last (hst : ¬ CanStall (F.length % 4194304) 4194304 1024) (n : Nat) : ¬ CanStall ((F.drop (n * 4194304)).take 4194304).length 4194304 1024 := by
  rw [List.length_take, List.length_drop]
  by_cases h1 : n * 4194304 + 4194304 ≤ F.length
  · intro h
    have := h.1
    omega
  by_cases h2 : n * 4194304 ≤ F.length
  · have : F.length % 4194304 = min 4194304 (F.length - n * 4194304) := by omega
    rw [← this]
    exact hst
  · intro h
    have := h.2.1
    omega

/-- A host that does not know of a file which another host has can start its download. -/
theorem C112_start (hh : ∀ i, Healthy (place i).env (place i).d) (hsha : ∀ i, (place i).env.sha1 = sha1) (hb : h.isBlank = false) (hbig : F.length < 2 ^ 63)
    {s0 s : Net} (h0 : Before place h s0) (hrun : NRun place (Careful place h F) s0 s)
    (i j : Nat) (e : Export) (he : observe (s.cat i) (s.fs i) h = .ok e)
    (hno : observe (s.cat j) (s.fs j) h = .err .fileNotFound) (n : GoString) (hname : IsBaseName e.filePath n) (hpath : ¬ CatFile (place j).d (joinPath [(place j).dl, n.take 255]))
    (hfree : ((s.fs j (joinPath [(place j).dl, n.take 255])).getD []).length ≤ F.length) :
    ∃ s', NRun place (Careful place h F) s s' ∧ (∀ t, t ≠ j → s'.fs t = s.fs t ∧ ∀ k, observe (s'.cat t) (s'.fs t) k = observe (s.cat t) (s.fs t) k) ∧
      ∃ e', observe (s'.cat j) (s'.fs j) h = .ok e' ∧ e'.filePath = joinPath [(place j).dl, n.take 255] ∧ ∀ n, n < 2 ^ 63 → ¬ e'.saved n := by
  have hI := NetRight.run hh hsha hb hbig h0 hrun
  obtain ⟨-, hsize, old, -, g⟩ := hI.hosts i e he
  -- host `i` describes the file
  obtain ⟨x, reply, s1, -, k1, -, -, -, -, k2, k3⟩ := C53_metadata (hh i) (hI.clean i).reach 61696 exWire rfl 7 h hb e he [] exAddr (fun _ => none)
  have hstep1 : NStep place (.describe i h) s { s.put i s1.st with told := (h, reply) :: s.told } := .describe i h s 61696 exWire 7 [] exAddr (fun _ => none) _ _ reply s1 k1
  have hsame : s.Same { s.put i s1.st with told := (h, reply) :: s.told } := Net.Same.put k2 k3 _ _
  generalize hs2 : ({ s.put i s1.st with told := (h, reply) :: s.told } : Net) = s2 at hstep1 hsame
  have htold : (h, reply) ∈ s2.told := by rw [← hs2]; exact List.mem_cons_self
  have hrun2 := hrun.step _ hstep1 trivial
  have hI2 := NetRight.run hh hsha hb hbig h0 hrun2
  -- host `j` starts the download
  obtain ⟨s3, e', n', q1, q2, q3, q4, -, -, -, q8, -, -⟩ := C66_as_shared (hh i) (hI.clean i).reach h hb e he (by omega) (by rw [g.chunkSize]; decide) 61696 exWire rfl 7 [] exAddr (fun _ => none)
    (hh j) (hI2.clean j) (by rw [hsame.obs]; exact hno) ⟨some [[10, 0, 0, 1]], some [exPeer], fun _ => .datagram reply⟩ exOwn [exPeer] exPeer [] (show ownAddress (some [[10, 0, 0, 1]]) = .ok exOwn by decide) rfl ex_good
    (fun ip p reply' s' hx => by rw [k1] at hx; cases hx; rfl)
  have hn : n' = n := baseName_unique q3 hname
  subst hn
  have hstep2 : NStep place (.start j h) s2 (s2.put j s3) := .start j h s2 _ _ s3 (fun peer raw hx => by cases hx; exact htold) q1 rfl
  have hcare : Careful place h F (.start j h) s2 (s2.put j s3) := by
    intro e2 _ hx
    rw [(Net.put_self s2 j s3).1, (Net.put_self s2 j s3).2, q2] at hx
    cases hx
    rw [q4]
    exact ⟨hpath, by rw [hsame.fs]; exact hfree⟩
  refine ⟨s2.put j s3, (NRun.refl.step _ hstep1 trivial).step _ hstep2 hcare, ?_, e', by rw [(Net.put_self s2 j s3).1, (Net.put_self s2 j s3).2]; exact q2, q4, fun n hn => q8 n hn⟩
  intro t ht
  have a1 : (s2.put j s3).fs t = s2.fs t := by simp [Net.put, ht]
  have a2 : (s2.put j s3).cat t = s2.cat t := by simp [Net.put, ht]
  rw [a1, a2]
  exact ⟨hsame.fs t, hsame.obs t⟩

/-- **C112, get**: a host that does not know of a file which another host has can get it: the description, the start of the download and the chunks. -/
theorem C112_get (hh : ∀ i, Healthy (place i).env (place i).d) (hsha : ∀ i, (place i).env.sha1 = sha1) (hb : h.isBlank = false) (hF : F ≠ []) (hbig : F.length ≤ 65536 * 4194304)
    (hst : ¬ CanStall (F.length % 4194304) 4194304 1024) {s0 s : Net} (h0 : Before place h s0) (hrun : NRun place (Careful place h F) s0 s)
    (i j : Nat) (hij : j ≠ i) (e : Export) (he : observe (s.cat i) (s.fs i) h = .ok e) (hall : ∀ n : Nat, (n : Int) < e.progress.sizeOf → e.saved n)
    (hno : observe (s.cat j) (s.fs j) h = .err .fileNotFound) (n : GoString) (hname : IsBaseName e.filePath n) (hpath : ¬ CatFile (place j).d (joinPath [(place j).dl, n.take 255]))
    (hfree : ((s.fs j (joinPath [(place j).dl, n.take 255])).getD []).length ≤ F.length) :
    ∃ s', NRun place (Careful place h F) s s' ∧ (∀ t, t ≠ j → s'.fs t = s.fs t ∧ ∀ k, observe (s'.cat t) (s'.fs t) k = observe (s.cat t) (s.fs t) k) ∧
      ∃ e2, observe (s'.cat j) (s'.fs j) h = .ok e2 ∧ e2.filePath = joinPath [(place j).dl, n.take 255] ∧ (∀ n : Nat, (n : Int) < e2.progress.sizeOf → e2.saved n) ∧
        s'.fs j e2.filePath = some F := by
  obtain ⟨s1, h1, h2, e', h3, h4, -⟩ := C112_start hh hsha hb (by omega) h0 hrun i j e he hno n hname hpath hfree
  obtain ⟨s', r1, r2, e2, r3, r4, r5, r6⟩ := C112_spreads hh hsha hb hF hbig (stall_last hst) h0 (hrun.trans h1) i j hij e e' (by rw [(h2 i (fun hx => hij hx.symm)).2]; exact he) hall h3
  exact ⟨s', h1.trans r1, fun t ht => ⟨(r2 t ht).1.trans (h2 t ht).1, fun k => ((r2 t ht).2 k).trans ((h2 t ht).2 k)⟩, e2, r3, r4.trans h4, r5, r6⟩

end
/-! ### A case -/

/-- Any number of fresh hosts, each with the file `/f`. -/
def exNet (sha1 : Bytes → Sha1Hash) (json : JsonCodec) : Net := ⟨fun _ => ⟨exDir, exDown, some (freshIdx (exEnv sha1 json) exDir)⟩, fun _ => exFS1 sha1 json, [], []⟩

def exPlaces (sha1 : Bytes → Sha1Hash) (json : JsonCodec) : Nat → Place := fun _ => ⟨exEnv sha1 json, exDir, exDown⟩

/-- `C112_network`, `C112_spreads`, `C112_get`: host 0 shares `/f`, and then the other hosts can get it. -/
theorem ex_net (sha1 : Bytes → Sha1Hash) (json : JsonCodec) : Before (exPlaces sha1 json) (sha1 [1, 2, 3]) (exNet sha1 json) ∧
    ∃ s e, NRun (exPlaces sha1 json) (Careful (exPlaces sha1 json) (sha1 [1, 2, 3]) [1, 2, 3]) (exNet sha1 json) s ∧ observe (s.cat 0) (s.fs 0) (sha1 [1, 2, 3]) = .ok e ∧
      (∀ n : Nat, (n : Int) < e.progress.sizeOf → e.saved n) ∧ e.filePath = absOf [[102]] ∧
      ∀ j, j ≠ 0 → observe (s.cat j) (s.fs j) (sha1 [1, 2, 3]) = .err .fileNotFound ∧ s.fs j = exFS1 sha1 json := by
  have hh := ex_healthy sha1 json
  refine ⟨⟨fun _ => CleanReach.fresh (exEnv sha1 json) exDir exDown hh.utf8 exFS ex_fs_clean, fun _ => rfl, fun _ => by simp [exNet], fun ln hl => by simp [exNet] at hl⟩, ?_⟩
  obtain ⟨r, s2, h⟩ := shareFile_total (exEnv sha1 json) [102] exDir exDown (freshIdx (exEnv sha1 json) exDir) _ [1, 2, 3] (ex_file _ json) rfl (by decide)
  have hop := CM.void_ok _ _ _ _ h
  obtain ⟨F, h1, -, h3, -⟩ := C26_share hh (ex_reach _ json) [102] [] r s2 h
  rw [ex_file] at h1; cases h1
  obtain ⟨b, h4, -, -, h5⟩ := h3 (by decide)
  have e1 : absPath (exEnv sha1 json).cwd [102] = absOf [[102]] := by
    show absPath [47] [102] = _
    decide
  refine ⟨(exNet sha1 json).put 0 s2, ⟨absPath (exEnv sha1 json).cwd [102], 3, sha1 [1, 2, 3], b, 4194304⟩, .step (.call 0 (.share [102])) .refl (.call 0 (.share [102]) _ (.ok ()) s2 rfl hop rfl) ?_, ?_, h5, e1, ?_⟩
  · intro X hX hs
    have hX : exFS1 sha1 json (absPath (exEnv sha1 json).cwd [102]) = some X := hX
    rw [ex_file] at hX
    cases hX
    refine ⟨rfl, ?_⟩
    show ¬ CatFile exDir (absPath (exEnv sha1 json).cwd [102])
    rw [e1]
    exact ex_not_catFile 102 (by simp)
  · rw [(Net.put_self _ 0 s2).1, (Net.put_self _ 0 s2).2]
    exact h4
  · intro j hj
    have a1 : ((exNet sha1 json).put 0 s2).fs j = exFS1 sha1 json := by simp [Net.put, hj]; rfl
    have a2 : ((exNet sha1 json).put 0 s2).cat j = ⟨exDir, exDown, some (freshIdx (exEnv sha1 json) exDir)⟩ := by simp [Net.put, hj]; rfl
    rw [a1, a2]
    exact ⟨rfl, rfl⟩

example (sha1 : Bytes → Sha1Hash) (json : JsonCodec) (hb : (sha1 [1, 2, 3]).isBlank = false) (j : Nat) (hj : j ≠ 0) :
    ∃ s, NRun (exPlaces sha1 json) (Careful (exPlaces sha1 json) (sha1 [1, 2, 3]) [1, 2, 3]) (exNet sha1 json) s ∧ s.fs j (absOf [[119], [102]]) = some [1, 2, 3] := by
  obtain ⟨h0, s, e, h1, h2, h3, h4, h5⟩ := ex_net sha1 json
  obtain ⟨s', g1, -, e2, -, g3, -, g5⟩ := C112_get (place := exPlaces sha1 json) (fun _ => ex_healthy sha1 json) (fun _ => rfl) hb (by simp) (by decide) (by unfold CanStall; simp) h0 h1 0 j hj e h2 h3 (h5 j hj).1
    [102] (by rw [h4]; exact ⟨by decide, .inr ⟨[], rfl⟩⟩) ex_not_catFile3 (by
      rw [(h5 j hj).2]
      show ((exFS1 sha1 json (joinPath [exDown, [102]])).getD []).length ≤ 3
      unfold exFS1
      rw [FS.put_other _ _ _ _ (fun e => ex_not_catFile3 (.inl e)), ex_path3]
      decide)
  refine ⟨s', h1.trans g1, ?_⟩
  rw [g3] at g5
  rw [← ex_path3]
  exact g5

/-- `C112_arrives`: an upload is open, and the host that opened it knows the file. -/
example (sha1 : Bytes → Sha1Hash) (json : JsonCodec) (hb : (sha1 [1, 2, 3]).isBlank = false) :
    ∃ s e ln q l, NRun (exPlaces sha1 json) (Careful (exPlaces sha1 json) (sha1 [1, 2, 3]) [1, 2, 3]) (exNet sha1 json) s ∧ observe (s.cat 0) (s.fs 0) (sha1 [1, 2, 3]) = .ok e ∧
      ln ∈ s.lines ∧ ln.hash = sha1 [1, 2, 3] ∧ LTake sha1 ln.content ln.start q l ∧ q ≠ [] := by
  obtain ⟨h0, s, e, h1, h2, h3, h4, h5⟩ := ex_net sha1 json
  have hI := NetRight.run (sha1 := sha1) (fun _ => ex_healthy sha1 json) (fun _ => rfl) hb (by decide) h0 h1
  obtain ⟨-, -, old, -, g⟩ := hI.hosts 0 e h2
  obtain ⟨s1, ln, k1, k2, k3, k4, k5, k6⟩ := hI.opens (fun _ => ex_healthy sha1 json) (fun _ => rfl) 0 e h2 0 (h3 0 (by rw [g.count]; decide))
  obtain ⟨q, l, x, k7, k8⟩ := k5.arrives (by decide) (by rw [k4]; unfold CanStall; simp)
  exact ⟨s1, e, ln, q, l, h1.step _ k1 trivial, by rw [k6.obs]; exact h2, k2, k3, k7, by rintro rfl; simp [recvLoop] at k8⟩

end Flu
