import Verif.Props.EndToEnd
import Verif.Props.CatCrash
/-!
# A download that was interrupted (C95)
-/
namespace Flu
open Spec

section
variable {env : Env} {d dl : Path} {h : Sha1Hash} {F old : Bytes} {cs : Nat}

/-- Writing the first bytes of a right chunk keeps a download right. -/
theorem Downloading.part {content : Option Bytes} {e : Export} (hd : Downloading F old cs content e) (n : Nat) (hn : n < (F.length + cs - 1) / cs) (k : Nat) :
    Downloading F old cs (some (overlay (content.getD []) ((n : Int) * e.chunkSize).toNat (((F.drop (n * cs)).take cs).take k))) e := by
  have hst : ((n : Int) * e.chunkSize).toNat = n * cs := by rw [hd.chunkSize]; omega
  rw [hst]
  have hcs := hd.cs_pos
  by_cases hne : ((F.drop (n * cs)).take cs).take k = []
  · rw [hne]
    have : overlay (content.getD []) (n * cs) [] = content.getD [] := by unfold overlay; rw [if_pos rfl]
    rw [this]
    refine ⟨hd.cs_pos, hd.chunkSize, hd.count, ?_, ?_⟩
    · intro i hi hs
      obtain ⟨c, hc, hc'⟩ := hd.right i hi hs
      exact ⟨c, by rw [hc]; rfl, hc'⟩
    · intro j hj; exact hd.tail j hj
  have hdm := Nat.div_mul_le_self (F.length + cs - 1) cs
  have hmul : (n + 1) * cs ≤ (F.length + cs - 1) / cs * cs := Nat.mul_le_mul_right _ hn
  have h1m : (n + 1) * cs = n * cs + cs := by rw [Nat.add_mul, Nat.one_mul]
  have hlen : (((F.drop (n * cs)).take cs).take k).length = min k (min cs (F.length - n * cs)) := by
    rw [List.length_take, List.length_take, List.length_drop]
  refine ⟨hd.cs_pos, hd.chunkSize, hd.count, ?_, ?_⟩
  · intro i hi hs
    refine ⟨_, rfl, ?_⟩
    intro j hj1 hj2 hj3
    rw [overlay_getElem? _ _ _ hne, hlen]
    split
    · rw [List.getElem?_take, if_pos (by omega), List.getElem?_take, if_pos (by omega), List.getElem?_drop]
      congr 1; omega
    · obtain ⟨c0, hc0, hc1⟩ := hd.right i hi hs
      have hcj := hc1 j hj1 hj2 hj3
      have hjlen : j < c0.length := by
        apply Classical.byContradiction
        intro hge
        rw [List.getElem?_eq_none (by omega), List.getElem?_eq_getElem hj3] at hcj
        cases hcj
      rw [hc0, Option.getD_some, if_pos hjlen, hcj]
  · intro j hj
    rw [Option.getD_some, overlay_getElem? _ _ _ hne, hlen, if_neg (by omega), ← hd.tail j hj]
    split
    · rfl
    · rw [if_neg (by omega), List.getElem?_eq_none (by omega)]

/-- C95, the interruption: the daemon dies, or is told that the disk failed, somewhere in the middle of saving a right chunk, but before the progress file was touched. On the disk the
download is then as it was: the same chunks are recorded as saved, and all of these are right. -/
theorem C95_cut (hh : Healthy env d) {c : Cat} {fs : FS} (hclean : CleanReach env d dl (.running c fs)) (e : Export) (ho : observe c fs h = .ok e) (hpath : ¬ CatFile d e.filePath)
    (hd : Downloading F old cs (fs e.filePath) e) (n : UInt16) (hn : n.toNat < (F.length + cs - 1) / cs) (fl : List Fault) (r : Res Unit) (s' : St)
    (hrun : saveChunk h n ((F.drop (n.toNat * cs)).take cs) ⟨c, fs, fl⟩ = (r, s')) (hprog : s'.fs (progressPath d h) = fs (progressPath d h)) :
    CleanReach env d dl (.running c s'.fs) ∧ observe c s'.fs h = .ok e ∧ Downloading F old cs (s'.fs e.filePath) e ∧ ∀ q, q ≠ e.filePath → s'.fs q = fs q := by
  have hI : Inv env d dl c fs := hclean.reach.inv hh.abs hh.utf8
  have hpo := observe_path hh hclean.reach h e ho
  have ho' := ho
  obtain ⟨ind, rfl, hw⟩ := hI.split
  rw [observe_eq] at ho
  unfold obsRec at ho
  cases hm : mapGet ind.index h with
  | none => rw [hm] at ho; cases ho
  | some r0 =>
  rw [hm] at ho
  simp only [] at ho
  cases hv : viewProgress d fs r0 with
  | ok p =>
    rw [hv] at ho
    cases ho
    have hrec := hw.recs _ _ (mapGet_mem _ _ _ hm)
    obtain ⟨hpp, hpl⟩ := viewProgress_loaded hI.disk hrec hv
    rw [hw.ownGet _ _ hm] at hpp
    have hx : s'.fs = fs ∨ ∃ k, ∀ q, q ≠ progressPath d h → s'.fs q = partWritten fs r0 n.toNat ((F.drop (n.toNat * cs)).take cs) k q := by
      refine ((t_saveChunk_full (d := d) (dl := dl) (fs0 := fs) hw.ownGet h n _ r0 p hm hv).conseq (P' := RO d dl ind fs)
        (Q' := fun _ _ fs' => fs' = fs ∨ ∃ k, ∀ q, q ≠ progressPath d h → fs' q = partWritten fs r0 n.toNat ((F.drop (n.toNat * cs)).take cs) k q)
        (E' := fun _ fs' => fs' = fs ∨ ∃ k, ∀ q, q ≠ progressPath d h → fs' q = partWritten fs r0 n.toNat ((F.drop (n.toNat * cs)).take cs) k q)
        (fun _ _ h => h) ?_ ?_).always (RO.init d dl ind fs) hrun (fun _ _ _ h => h)
      · rintro _ c fs' ⟨b, -, -, h1, -⟩
        refine .inr ⟨((F.drop (n.toNat * cs)).take cs).length, fun q hq => ?_⟩
        rw [h1, hpp, FS.put_other _ _ _ _ hq, partWritten_all]
      · rintro c fs' (h1 | ⟨k, h1⟩ | ⟨b, hb, -, h1 | ⟨k, h1⟩⟩)
        · exact .inl h1.1
        · exact .inr ⟨k, fun q hq => by rw [h1.1]⟩
        · exact .inr ⟨((F.drop (n.toNat * cs)).take cs).length, fun q hq => by rw [h1.1, partWritten_all]⟩
        · exact .inr ⟨((F.drop (n.toNat * cs)).take cs).length, fun q hq => by rw [h1.1, hpp, FS.put_other _ _ _ _ hq, partWritten_all]⟩
    rcases hx with hx | ⟨k, hx⟩
    · rw [hx]; exact ⟨hclean, ho', hd, fun _ _ => rfl⟩
    · have hfs : s'.fs = fs.put r0.filePath (some (overlay ((fs r0.filePath).getD []) ((n.toNat : Int) * r0.chunkSize).toNat (((F.drop (n.toNat * cs)).take cs).take k))) := by
        funext q
        by_cases hq : q = progressPath d h
        · rw [hq, hprog]; exact (FS.put_other _ _ _ _ (fun e => hpath (.inr ⟨h, e.symm⟩))).symm
        · exact hx q hq
      rw [hfs]
      refine ⟨hclean.userRunning _ _ _ _ hpath, ?_, ?_, fun q hq => FS.put_other _ _ _ _ hq⟩
      · exact (observe_user hh hclean.reach _ _ hpath h).trans ho'
      · show Downloading F old cs (FS.put _ r0.filePath _ r0.filePath) _
        rw [FS.put_same]
        exact hd.part n.toNat hn k
  | err x => rw [hv] at ho; cases ho
  | panic => rw [hv] at ho; cases ho
  | exit => rw [hv] at ho; cases ho
  | crash => rw [hv] at ho; cases ho

/-- A daemon that has just been started: it runs no download. -/
def justStarted (c : Cat) (fs : FS) : DLState := ⟨c, fs, false, fun _ => false, fun _ => none⟩

/-- C95: the daemon was stopped in the middle of a download. Started again, it has the file registered as before; and if `get` is then called for it, and a host that has the file is found and
serves it, the download runs to its end, in as many rounds as there were chunks missing when the daemon was stopped, and the file is then `F`. -/
theorem C95_resumes (hh : Healthy env d) {c : Cat} {fs : FS} (hclean : CleanReach env d dl (.running c fs)) (e : Export) (ho : observe c fs h = .ok e) (hpath : ¬ CatFile d e.filePath)
    (hutf : env.json.fix e.filePath = e.filePath) (hsize : e.progress.sizeOf ≤ 65536) (hd : Downloading F old cs (fs e.filePath) e) (hF : F ≠ []) (hold : old.length ≤ F.length)
    (pid now : Int) (w : DLWire) (own : ByteArr 4) (rs : List HostResp) (peer : HostResp) (rest : List HostResp) (hown : ownAddress w.addrs = .ok own) (hrs : w.responses = some rs)
    (hg : goodHosts own rs = peer :: rest) (r : HostResp) (hgood : goodHosts own [r] = [r]) (t : Nat) :
    ∃ c', Cat.init { env with pid := pid, now := now } ⟨⟨d, dl, none⟩, fs, []⟩ = (.ok (), ⟨c', fs, []⟩) ∧ observe c' fs h = .ok e ∧
      ∃ s1 s2 e2 rounds, startDownload env w h ⟨c', fs, []⟩ = (.ok own, s1) ∧ s1.fs = fs ∧
        DLRun env d (fun a _ => a = .thread t) (justStarted c' fs) (.alive s2) ∧ s2.threads t = some ⟨h, .finished, rounds⟩ ∧
        rounds.length = (missingList e).length ∧ (∀ x ∈ rounds, x.2 = true) ∧ CleanReach env d dl (.running s2.cat s2.fs) ∧ observe s2.cat s2.fs h = .ok e2 ∧
        e2.filePath = e.filePath ∧ (∀ i : Nat, (i : Int) < e2.progress.sizeOf → e2.saved i) ∧ s2.fs e.filePath = some F := by
  obtain ⟨c', h1, h2, h3, -, -⟩ := C30_restart hh hclean pid now
  have ho' : observe c' fs h = .ok e := by
    have := h3 h e ho
    unfold Export.refix at this
    rw [hutf] at this
    exact this
  obtain ⟨known, st1, k1, k2, k3, k4, k5, k6⟩ := startCheck_clean hh h2 h
  obtain ⟨c1, fs1, fl1⟩ := st1
  simp only [] at k2 k3 k4 k5
  subst k2; subst k4
  obtain rfl : known = true := by
    rcases k6 with ⟨k, -⟩ | ⟨-, k⟩
    · exact k
    · rw [ho'] at k; cases k
  have hsetup : startSetup env w h true ⟨c1, fs1, []⟩ = (.ok own, ⟨c1, fs1, []⟩) := by
    unfold startSetup
    rw [IOM.bind_apply, IOM.lift_apply, hown]
    rcases w with ⟨addrs, rs', desc⟩
    simp only [] at hrs ⊢
    subst hrs
    simp only [hg]
    rfl
  have hstart : startDownload env w h ⟨c', fs1, []⟩ = (.ok own, ⟨c1, fs1, []⟩) := by
    unfold startDownload
    rw [IOM.bind_apply, k1]
    exact hsetup
  refine ⟨c', h1, ho', ⟨c1, fs1, []⟩, ?_⟩
  -- the three steps of `StartDownload` before its loop
  have r1 : DLRun env d (fun a _ => a = .thread t) (justStarted c' fs1) (.alive { justStarted c' fs1 with threads := upd (fun _ => none) t (some ⟨h, .check, []⟩) }) :=
    .step (.thread t) .refl (DLStep.start t h _ rfl) rfl
  have r2 := DLRun.step (.thread t) r1 (DLStep.check t _ ⟨h, .check, []⟩ [] true ⟨c1, fs1, []⟩ (upd_self (fun _ => none) t _) rfl k1) rfl
  have r3 := DLRun.step (.thread t) r2 (DLStep.setup t _ ⟨h, .setup true, []⟩ [] w true own ⟨c1, fs1, []⟩ (upd_self (upd (fun _ => none) t _) t _) rfl hsetup) rfl
  have hready : DLReady env d dl h t own r F old cs ⟨c1, fs1, false, fun _ => false, upd (upd (upd (fun _ => none) t (some ⟨h, .check, []⟩)) t (some ⟨h, .setup true, []⟩)) t
      (some ⟨h, .test own, []⟩)⟩ e [] := ⟨k3, (k5 h).trans ho', hpath, hsize, hd, rfl, rfl, upd_self _ _ _⟩
  obtain ⟨s2, e2, rounds, g1, g2, g3, g4, g5, g6, g7, g8, -, -, g9⟩ := dl_completes hh hgood hready hF hold
  exact ⟨s2, e2, rounds, hstart, rfl, r3.trans g1, g2, g3, g4, g5, g6, g9, g7, g8⟩

/-- C95, the other side: a daemon that is running does nothing about a download that nobody asks for. As long as `get` is not called for the file, and no other command is about it, the
chunks that are missing stay missing, whatever else the daemon does. -/
theorem C95_itself (hh : Healthy env d) {s0 s : DLState} (hreach : Reach env d dl (.running s0.cat s0.fs)) (e : Export) (ho : observe s0.cat s0.fs h = .ok e)
    (h0 : ∀ t th, s0.threads t = some th → th.hash ≠ h)
    (hrun : DLRun env d (fun a x => (∀ o, a = .call o → ¬ o.Touches h) ∧ ∀ s, x = .alive s → ∀ t th, s.threads t = some th → th.hash ≠ h) s0 (.alive s)) :
    observe s.cat s.fs h = .ok e := by
  suffices key : ∀ x, DLRun env d (fun a x => (∀ o, a = .call o → ¬ o.Touches h) ∧ ∀ s, x = .alive s → ∀ t th, s.threads t = some th → th.hash ≠ h) s0 x → ∀ s, x = .alive s →
      Reach env d dl (.running s.cat s.fs) ∧ observe s.cat s.fs h = .ok e ∧ ∀ t th, s.threads t = some th → th.hash ≠ h from (key _ hrun s rfl).2.1
  intro x hx
  induction hx with
  | refl => intro s hs; cases hs; exact ⟨hreach, ho, h0⟩
  | @step s1 x a _ hst hok ih =>
    rintro s rfl
    obtain ⟨i1, i2, i3⟩ := ih s1 rfl
    refine ⟨hst.reach i1, ?_, hok.2 s rfl⟩
    have hne : observe s1.cat s1.fs h ≠ .err .fileNotFound := by rw [i2]; intro hx; cases hx
    rcases hst.effect.1 with ⟨h1, h2⟩ | ⟨p, x, rfl, hp, h1, h2⟩ | ⟨o, fl, r, st', h1, h2, h3, h4, h5, h6⟩
    · rw [h1, h2]; exact i2
    · rw [h1, h2, observe_user hh i1 p x hp h]; exact i2
    · rw [h4, h5]
      have key : ¬ o.Touches h → observe st'.cat st'.fs h = .ok e := fun g1 => by rw [observe_other hh i1 h hne o h1 g1 fl r st' h2, i2]
      rcases h6 with rfl | ⟨t, th, rfl, ht, -, h6⟩
      · exact key (hok.1 o rfl)
      · rcases h6 with h6 | ⟨n, b, rfl, -, own, host, todo, hpos⟩
        · exact key (h6 h)
        · exact key (i3 t th ht)

/-- C95, the limit: if the name under which the file is being downloaded is not valid UTF-8, the restarted daemon has it under another name, with the same chunks recorded as saved. If nothing is
there, no content is there for any of them. -/
theorem C95_renamed (hh : Healthy env d) {c : Cat} {fs : FS} (hclean : CleanReach env d dl (.running c fs)) (e : Export) (ho : observe c fs h = .ok e)
    (hutf : env.json.fix e.filePath ≠ e.filePath) (hno : fs (env.json.fix e.filePath) = none) (pid now : Int) :
    ∃ c' e', Cat.init { env with pid := pid, now := now } ⟨⟨d, dl, none⟩, fs, []⟩ = (.ok (), ⟨c', fs, []⟩) ∧ observe c' fs h = .ok e' ∧ e'.filePath ≠ e.filePath ∧
      fs e'.filePath = none ∧ ∀ i, e'.saved i ↔ e.saved i := by
  obtain ⟨c', h1, -, h3, -, -⟩ := C30_restart hh hclean pid now
  exact ⟨c', _, h1, h3 h e ho, hutf, hno, fun _ => Iff.rfl⟩

end

/-! ### Cases -/

/-- Dying while the first byte of a chunk is being written. -/
theorem save_dies (d dl : Path) (ind : IndexFile) (fs : FS) (h : Sha1Hash) (n : UInt16) (data : Bytes) (r : Record) (p : ProgressFile) (hr : mapGet ind.index h = some r)
    (hp : viewProgress d fs r = .ok p) (hst : 0 ≤ (n.toNat : Int) * r.chunkSize) :
    ∃ fl s', saveChunk h n data ⟨⟨d, dl, some ind⟩, fs, fl⟩ = (.crash, s') ∧ s'.fs = partWritten fs r n.toNat data 1 := by
  have hw : ∀ c, osWriteAt r.filePath data ((n.toNat : Int) * r.chunkSize) ⟨c, fs.put r.filePath (some ((fs r.filePath).getD [])), [.crash (some 1)]⟩ =
      (.crash, ⟨c, partWritten fs r n.toNat data 1, []⟩) := by
    intro c
    unfold osWriteAt
    rw [if_neg (by omega)]
    show ((.crash, ⟨c, FS.put (fs.put r.filePath (some ((fs r.filePath).getD []))) r.filePath
      (some (overlay ((FS.put fs r.filePath (some ((fs r.filePath).getD [])) r.filePath).getD []) ((n.toNat : Int) * r.chunkSize).toNat (data.take 1))), []⟩) : Res Unit × St) = _
    rw [FS.put_put, FS.put_same]; rfl
  have hs : ∀ c, ({ r with progressFile := some p } : Record).saveChunk n.toNat data ⟨c, fs, [.none, .crash (some 1)]⟩ = (.crash, ⟨c, partWritten fs r n.toNat data 1, []⟩) := by
    intro c
    unfold Record.saveChunk
    rw [IOM.bind_apply]
    exact hw c
  have hg : ∃ pre c1, getIndexRecord h ⟨⟨d, dl, some ind⟩, fs, pre ++ [.none, .crash (some 1)]⟩ = (.ok { r with progressFile := some p }, ⟨c1, fs, [.none, .crash (some 1)]⟩) := by
    unfold getIndexRecord fillRecord
    rcases viewProgress_own hp with h1 | ⟨h1, h2, bytes, h3, h4⟩
    · refine ⟨[], ⟨d, dl, some ind⟩, ?_⟩
      rw [IOM.bind_apply, getIndex_eval]
      simp only [hr, h1, IOM.pure_apply, List.nil_append]
      cases r; cases h1; rfl
    · refine ⟨[.none], ⟨d, dl, some { ind with index := mapPut ind.index r.sha1Hash { r with progressFile := some p } }⟩, ?_⟩
      rw [IOM.bind_apply, getIndex_eval]
      simp only [hr, h1, List.cons_append, List.nil_append]
      have hread : osReadFile (progressPath d r.sha1Hash) ⟨⟨d, dl, some ind⟩, fs, [.none, .none, .crash (some 1)]⟩ = (.ok bytes, ⟨⟨d, dl, some ind⟩, fs, [.none, .crash (some 1)]⟩) := by
        unfold osReadFile
        rw [IOM.bind_apply]
        show (match fs (progressPath d r.sha1Hash) with
          | some c => (pure c : CM Bytes)
          | none => IOM.lift (.err .io)) ⟨⟨d, dl, some ind⟩, fs, [.none, .crash (some 1)]⟩ = _
        rw [h3]; rfl
      unfold deserializeProgressFile
      simp only [IOM.bind_apply, getCat_apply, hread, IOM.lift_apply, h4, IOM.pure_apply, updateRecord, getIndex_eval, setIndex_eval]
      rw [← h2]
  obtain ⟨pre, c1, hg⟩ := hg
  refine ⟨pre ++ [.none, .crash (some 1)], ⟨c1, partWritten fs r n.toNat data 1, []⟩, ?_, rfl⟩
  have ho : IOM.orPanic (getIndexRecord h) ⟨⟨d, dl, some ind⟩, fs, pre ++ [.none, .crash (some 1)]⟩ =
      (.ok { r with progressFile := some p }, ⟨c1, fs, [.none, .crash (some 1)]⟩) := by unfold IOM.orPanic; rw [hg]
  unfold saveChunk
  rw [IOM.bind_apply, ho]
  simp only []
  rw [IOM.bind_apply, hs]

/-- `C95_cut`, `C95_resumes`, `C95_itself`: of a file of five bytes in three chunks one has been fetched; the daemon dies while writing the first byte of the next one. -/
example (sha1 : Bytes → Sha1Hash) (json : JsonCodec) (h : Sha1Hash) : ∃ (c : Cat) (fs : FS) (e : Export) (n : UInt16) (fl : List Fault) (s' : St) (w : DLWire),
    CleanReach (exEnv sha1 json) exDir exDown (.running c fs) ∧ observe c fs h = .ok e ∧ ¬ CatFile exDir e.filePath ∧ (missingList e).length = 2 ∧
    json.fix e.filePath = e.filePath ∧ e.progress.sizeOf ≤ 65536 ∧ Downloading [1, 2, 3, 4, 5] [] 2 (fs e.filePath) e ∧
    n.toNat ∈ missingList e ∧ saveChunk h n ((([1, 2, 3, 4, 5] : Bytes).drop (n.toNat * 2)).take 2) ⟨c, fs, fl⟩ = (.crash, s') ∧
    s'.fs (progressPath exDir h) = fs (progressPath exDir h) ∧ s'.fs e.filePath ≠ none ∧
    ownAddress w.addrs = .ok exOwn ∧ w.responses = some [exPeer] ∧ goodHosts exOwn [exPeer] = [exPeer] := by
  have hh := ex_healthy sha1 json
  obtain ⟨s, e0, h1, -, h3, h4⟩ := ex_ready_at sha1 json h (fun t => if t = 1 then some ⟨h, .test exOwn, []⟩ else none) rfl
  obtain ⟨s2, e, c, -, -, k1, k2, k3, k4, k5, -⟩ := h1.fetch hh ex_good (by rw [h4]; simp)
  have hlen : (missingList e).length = 2 := by
    rw [k2, h4]
    rw [h4] at k3
    simp only [List.mem_cons, List.not_mem_nil, or_false] at k3
    rcases k3 with k | k | k <;> rw [k] <;> rfl
  obtain ⟨m, hm⟩ : ∃ m, m ∈ missingList e := by
    cases hx : missingList e with
    | nil => rw [hx] at hlen; cases hlen
    | cons m _ => exact ⟨m, List.mem_cons_self⟩
  have hmlt : m < 3 := by
    rw [k2, h4] at hm
    have := (List.mem_filter.1 hm).1
    simp only [List.mem_cons, List.not_mem_nil, or_false] at this
    omega
  have ho := k1.obs
  have hI : Inv (exEnv sha1 json) exDir exDown s2.cat s2.fs := k1.clean.reach.inv hh.abs hh.utf8
  obtain ⟨ind, hc, hw⟩ := hI.split
  have hpp := k1.path
  have hd := k1.down
  rw [hc, observe_eq] at ho
  unfold obsRec at ho
  cases hg : mapGet ind.index h with
  | none => rw [hg] at ho; cases ho
  | some r0 =>
  rw [hg] at ho
  simp only [] at ho
  cases hv : viewProgress exDir s2.fs r0 with
  | ok p =>
    rw [hv] at ho
    have he : r0.exportWith p = e := by injection ho
    have hfp : r0.filePath = e.filePath := by rw [← he]; rfl
    have hcs : r0.chunkSize = 2 := by
      have := hd.chunkSize
      rw [← he] at this; exact this
    have hmt : (UInt16.ofNat m).toNat = m := by rw [UInt16.toNat_ofNat']; omega
    obtain ⟨fl, s', g1, g2⟩ := save_dies exDir exDown ind s2.fs h (UInt16.ofNat m) ((([1, 2, 3, 4, 5] : Bytes).drop (m * 2)).take 2) r0 p hg hv (by rw [hcs]; omega)
    refine ⟨s2.cat, s2.fs, e, UInt16.ofNat m, fl, s', ⟨some [[10, 0, 0, 1]], some [exPeer], fun _ => .silence⟩, k1.clean, k1.obs, hpp, hlen, ?_, k1.size, hd, ?_, ?_, ?_, ?_, by decide, rfl, ex_good⟩
    · rw [k4, h3]
      refine json.fix_ascii _ ?_
      have : joinPath [exDown, [120]] = [47, 119, 47, 120] := by decide
      rw [this]
      intro c hc
      simp only [List.mem_cons, List.not_mem_nil, or_false] at hc
      rcases hc with rfl | rfl | rfl | rfl <;> decide
    · rw [hmt]; exact hm
    · rw [hmt, hc]; exact g1
    · rw [g2]
      exact FS.put_other _ _ _ _ (fun x => hpp (.inr ⟨h, by rw [← hfp]; exact x.symm⟩))
    · rw [g2, ← hfp]
      unfold partWritten
      rw [FS.put_same]
      intro hx; cases hx
  | err x => rw [hv] at ho; cases ho
  | panic => rw [hv] at ho; cases ho
  | exit => rw [hv] at ho; cases ho
  | crash => rw [hv] at ho; cases ho

/-- `C95_renamed`: a download under the name made of the single byte 255. -/
example (sha1 : Bytes → Sha1Hash) (h : Sha1Hash) : ∃ (c : Cat) (fs : FS) (e : Export), CleanReach (exEnv sha1 goJson) exDir exDown (.running c fs) ∧ observe c fs h = .ok e ∧
    goJson.fix e.filePath ≠ e.filePath ∧ fs (goJson.fix e.filePath) = none := by
  have hh := ex_healthy sha1 goJson
  have h0 : CleanReach (exEnv sha1 goJson) exDir exDown (.running ⟨exDir, exDown, some (freshIdx (exEnv sha1 goJson) exDir)⟩ (exFS1 sha1 goJson)) :=
    CleanReach.fresh (exEnv sha1 goJson) exDir exDown hh.utf8 exFS ex_fs_clean
  obtain ⟨e, s1, h1⟩ := registerDownload_total (exEnv sha1 goJson) 5 2 h [255] exDir exDown (freshIdx (exEnv sha1 goJson) exDir) (exFS1 sha1 goJson) rfl (by decide) (by decide)
  have h2 := h0.returns (.register 5 2 h [255]) trivial s1 (.inl (CM.void_ok _ _ _ _ h1))
  obtain ⟨-, ⟨b, g1, g2, -⟩, -, g7⟩ := C29_register hh h0.reach 5 2 h [255] [] e s1 (by decide) (by decide) h1
  have hpath : e.filePath = [47, 119, 47, 255] := by rw [g1]; show joinPath [exDown, [255]] = _; decide
  have hfix : goJson.fix [47, 119, 47, 255] = absOf [[119], [239, 191, 189]] := by decide
  have hnot : ¬ CatFile exDir (absOf [[119], [239, 191, 189]]) := by
    have hd := ex_plain 100 (by simp)
    have hw : ∀ e ∈ ([[119], [239, 191, 189]] : List GoString), Plain e :=
      plain_snoc (ex_plain 119 (by simp)) ⟨by decide, by decide, by decide, by decide⟩
    rintro (e | ⟨x, e⟩)
    · rw [exDir, indexPath_abs _ hd] at e
      have := absOf_inj _ _ hw (plain_snoc hd plain_indexFileName) e
      simp at this
    · rw [exDir, progressPath_abs _ hd] at e
      have := absOf_inj _ _ hw (plain_snoc hd (plain_hash x)) e
      simp at this
  refine ⟨s1.cat, s1.fs, e, h2, g2, ?_, ?_⟩
  · rw [hpath, hfix]; decide
  · rw [hpath, hfix, g7 _ (fun e => hnot (.inl e)) (fun e => hnot (.inr ⟨_, e⟩))]
    unfold exFS1
    rw [FS.put_other _ _ _ _ (fun e => hnot (.inl e))]
    decide

end Flu
