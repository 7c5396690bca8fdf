import Verif.Model.LiveShare
import Verif.Props.Readers
import Verif.Props.EndToEnd
import Verif.Lemmas.Json2
/-!
# Sharing a file that another program is changing (C121)
-/
namespace Flu

/-- Specification: `F` is what one gets by reading a file from its start to its end while it goes through the contents `seen`: every byte is the byte at its place in one of the contents, later
bytes come from the same or a later content, and the last content has no more bytes. -/
def Spec.ReadWhileChanging (seen : List Bytes) (F : Bytes) : Prop :=
  ∃ k : Nat → Nat, (∀ i j, i ≤ j → k i ≤ k j) ∧ (∀ i, i < F.length → ∃ c : Bytes, seen[k i]? = some c ∧ c[i]? = F[i]?) ∧
    ∃ c : Bytes, seen.getLast? = some c ∧ c.length ≤ F.length

open Spec

/-- The same from some position on. -/
def ReadFrom (n : Nat) (seen : List Bytes) (T : Bytes) : Prop :=
  ∃ k : Nat → Nat, (∀ i j, i ≤ j → k i ≤ k j) ∧ (∀ i, i < T.length → ∃ c : Bytes, seen[k i]? = some c ∧ c[n + i]? = T[i]?) ∧
    ∃ c : Bytes, seen.getLast? = some c ∧ c.length ≤ n + T.length

theorem hashLiveLoop_ok (sha1 : Bytes → Sha1Hash) (reads : List (Bytes × ReadChoice)) (acc : Bytes) (h : Sha1Hash)
    (hr : hashLiveLoop sha1 acc.length acc reads = some (.ok h)) :
    ∃ used rest T, reads = used ++ rest ∧ h = sha1 (acc ++ T) ∧ ReadFrom acc.length (used.map Prod.fst) T := by
  induction reads generalizing acc with
  | nil => simp [hashLiveLoop] at hr
  | cons x reads ih =>
    obtain ⟨content, c⟩ := x
    rw [hashLiveLoop] at hr
    cases c with
    | fail => simp [osRead] at hr
    | deliver n =>
      by_cases hlt : acc.length < content.length
      · obtain ⟨k, hk, hle, hrd⟩ := osRead_deliver content acc.length 4096 n hlt (by omega)
        rw [hrd] at hr
        simp only [ite_append] at hr
        have hlen : acc.length + k = (acc ++ (content.drop acc.length).take k).length := by simp; omega
        rw [hlen] at hr
        obtain ⟨used, rest, T, h1, h2, m, m1, m2, cl, m3, m4⟩ := ih _ hr
        have hl2 : ((content.drop acc.length).take k).length = k := by simp; omega
        refine ⟨(content, .deliver n) :: used, rest, (content.drop acc.length).take k ++ T, by rw [h1]; rfl, by rw [h2, List.append_assoc],
          fun i => if i < k then 0 else m (i - k) + 1, ?_, ?_, cl, ?_, ?_⟩
        · intro i j hij
          simp only
          by_cases h3 : i < k
          · rw [if_pos h3]; omega
          · rw [if_neg h3, if_neg (by omega)]
            have := m1 (i - k) (j - k) (by omega)
            omega
        · intro i hi
          rw [List.length_append, hl2] at hi
          simp only
          by_cases h3 : i < k
          · rw [if_pos h3]
            refine ⟨content, rfl, ?_⟩
            rw [List.getElem?_append_left (by omega), List.getElem?_take_of_lt h3, List.getElem?_drop]
          · rw [if_neg h3]
            obtain ⟨c', h4, h5⟩ := m2 (i - k) (by omega)
            refine ⟨c', by simpa using h4, ?_⟩
            rw [List.getElem?_append_right (by omega), hl2, ← h5, ← hlen]
            congr 1; omega
        · rw [List.map_cons, List.getLast?_cons, m3]; rfl
        · rw [List.length_append] at m4 ⊢
          omega
      · have he : content.drop acc.length = [] := by simp; omega
        simp only [osRead, he, if_true, ite_append, List.append_nil, fromSlice_hash] at hr
        injection hr with hr; injection hr with hr
        refine ⟨[(content, .deliver n)], reads, [], rfl, by rw [List.append_nil]; exact hr.symm, fun _ => 0, fun _ _ _ => Nat.le_refl _, ?_, content, rfl, by simpa using hlt⟩
        intro i hi; simp at hi

/-- If the content is the same at every read, the loop is that of `HashFile` on a file nobody changes. -/
theorem hashLiveLoop_same (sha1 : Bytes → Sha1Hash) (F : Bytes) (reads : List (Bytes × ReadChoice)) (hs : ∀ x ∈ reads, x.1 = F) (pos : Nat) (acc : Bytes) :
    hashLiveLoop sha1 pos acc reads = hashFileLoop sha1 F pos acc (reads.map Prod.snd) := by
  induction reads generalizing pos acc with
  | nil => rfl
  | cons x reads ih =>
    obtain ⟨content, c⟩ := x
    have e : content = F := hs _ (List.mem_cons_self ..)
    subst e
    rw [List.map_cons, hashLiveLoop, hashFileLoop]
    simp only [ih (fun x hx => hs x (List.mem_cons_of_mem _ hx))]
    rcases (osRead content pos 4096 c).2.1 with _ | (_ | _) <;> rfl

theorem OkClean.shareRecord (env : Env) (r : Record) : OkClean (shareRecord env r) :=
  OkClean.bind (OkClean.addIndexRecord env _) (fun _ =>
    OkClean.bind OkClean.getCat (fun _ => OkClean.bind (OkClean.lift _) (fun _ => OkClean.bind (OkClean.updateRecord _) (fun _ =>
      OkClean.bind (OkClean.lift _) (fun _ => OkClean.bind (OkClean.updateRecord _) (fun _ =>
        OkClean.bind (OkClean.osWriteFile _ _) (fun _ => OkClean.pure _)))))))

theorem shareRecord_nil_ok (env : Env) (r0 : Record) (d dl : Path) (ind : IndexFile) (fs : FS) (r : Record) (s' : St)
    (h : shareRecord env r0 ⟨⟨d, dl, some ind⟩, fs, []⟩ = (.ok r, s')) :
    ∃ p full m1, mapGet ind.index r0.sha1Hash = none ∧ newProgressFile r0 d = .ok p ∧ p.progress.fill = .ok full ∧
      r = { r0 with progressFile := some { p with progress := full } } ∧
      s' = ⟨⟨d, dl, some { ind with index := mapPut m1 r0.sha1Hash r }⟩,
        (fs.put (indexPath ind.dataDir) (some (env.json.enc ({ ind with index := mapPut ind.index r0.sha1Hash r0 } : IndexFile).toJSON))).put
          p.filePath (some full.serialize), []⟩ ∧
      (∀ k, r0.sha1Hash ≠ k → mapGet m1 k = mapGet ind.index k) := by
  unfold shareRecord at h
  simp only [IOM.bind_apply] at h
  rw [addIndexRecord_nil] at h
  rcases hm : mapGet ind.index r0.sha1Hash with _ | ext
  rotate_left
  · rw [hm] at h; cases h
  rw [hm] at h
  simp only [getCat_apply, IOM.lift_apply] at h
  generalize hp : newProgressFile _ d = rp at h
  rcases rp with p | e | _ | _ | _
  rotate_left
  · cases h
  · cases h
  · cases h
  · cases h
  simp only [updateRecord_eval] at h
  rcases hfull : p.progress.fill with full | e | _ | _ | _
  all_goals rw [hfull] at h
  rotate_left
  · cases h
  · cases h
  · cases h
  · cases h
  simp only [updateRecord_eval, ProgressFile.save, osWriteFile_nil, IOM.pure_apply] at h
  cases h
  refine ⟨p, full, _, rfl, rfl, hfull, rfl, rfl, ?_⟩
  intro k hk
  rw [mapGet_put, if_neg hk, mapGet_put, if_neg hk]

section
variable {env : Env} {d dl : Path} {c : Cat} {fs : FS}

/-- What the catalogue shows once a record without progress, of the default chunk size, has been shared. -/
theorem shareRecord_effect (hh : Healthy env d) (hreach : Reach env d dl (.running c fs)) (r0 : Record) (size : Nat) (hlt : size < 2 ^ 63) (hsz : r0.sizeInBytes = size)
    (hcs : r0.chunkSize = defaultChunkSize) (fl : List Fault) (r : Record) (s' : St) (hrun : shareRecord env r0 ⟨c, fs, fl⟩ = (.ok r, s')) :
    observe c fs r0.sha1Hash = .err .fileNotFound ∧
      (∃ b, observe s'.cat s'.fs r0.sha1Hash = .ok ⟨r0.filePath, size, r0.sha1Hash, b, 4194304⟩ ∧
        b.sizeOf = ((size + 4194303) / 4194304 : Nat) ∧ b.full = .ok true) ∧
      (∀ h, h ≠ r0.sha1Hash → observe s'.cat s'.fs h = observe c fs h) ∧
      (∀ q, q ≠ indexPath d → q ≠ progressPath d r0.sha1Hash → s'.fs q = fs q) := by
  have hI : Inv env d dl c fs := hreach.inv hh.abs hh.utf8
  obtain ⟨ind, rfl, hw⟩ := hI.split
  have hq := OkClean.shareRecord env r0 _ _ _ hrun
  obtain ⟨p, full, m1, h2, h3, h4, h5, h6, h7⟩ := shareRecord_nil_ok env r0 d dl ind fs r s'.quiet hq
  have hc : s'.cat = ⟨d, dl, some { ind with index := mapPut m1 r0.sha1Hash r }⟩ := congrArg St.cat h6
  have hfs := congrArg St.fs h6
  simp only at hfs
  obtain ⟨hpp, hpw, hpc, hpn⟩ := newProgressFile_ok r0 (by rw [hsz]; omega) (by rw [hcs]; decide) p h3
  have hp : indexPath ind.dataDir = indexPath d := by rw [hw.dir]
  rw [hp, hpp] at hfs
  change s'.fs = _ at hfs
  refine ⟨?_, ?_, ?_, ?_⟩
  · rw [observe_eq]; unfold obsRec; rw [h2]
  · obtain ⟨dd, e, w, hf⟩ := Bitset.fill_eq p.progress hpw
    rw [e] at h4; cases h4
    refine ⟨⟨dd, p.progress.size⟩, ?_, ?_, ?_⟩
    · rw [hc, observe_eq]
      unfold obsRec
      simp only
      rw [mapGet_put, if_pos rfl, h5]
      simp only [viewProgress, Res.bind_ok, Record.exportWith, hsz, hcs]
      rfl
    · rw [hsz, hcs] at hpc
      have := ceil_count size
      rw [this] at hpc
      injection hpc with hpc
      exact hpc.symm
    · rw [Bitset.full_eq _ w]
      congr 1
      apply decide_eq_true
      intro i hi; rw [hf]; exact decide_eq_true hi
  · intro h hne
    rw [hc, observe_eq, observe_eq]
    simp only
    have e : mapGet (mapPut m1 r0.sha1Hash r) h = mapGet ind.index h := by
      rw [mapGet_put, if_neg (Ne.symm hne), h7 h (Ne.symm hne)]
    rw [obsRec_congr d s'.fs _ _ h e]
    apply obsRec_fs d fs s'.fs ind.index h hw.own
    rw [hfs, FS.put_other _ _ _ _ (fun e => hne (progressPath_inj d hh.abs _ _ e)),
      FS.put_other _ _ _ _ (fun e => indexPath_ne_progressPath d d hh.abs hh.abs h e.symm)]
  · intro q hq1 hq2
    rw [hfs, FS.put_other _ _ _ _ hq2, FS.put_other _ _ _ _ hq1]

/-- C121, exactly what a successful `ShareFile` records: the size the file had at `os.Stat`, and the hash of what one reads while the file changes. -/
theorem C121_exact (hh : Healthy env d) (hreach : Reach env d dl (.running c fs)) (path : GoString) (w : LiveFile) (hbig : ∀ F1, w.stat = some F1 → F1.length < 2 ^ 63)
    (fl : List Fault) (r : Record) (s' : St) (hrun : shareFileLive env path w ⟨c, fs, fl⟩ = some (.ok r, s')) :
    ∃ F1 F used rest, w.stat = some F1 ∧ w.reads = used ++ rest ∧ ReadWhileChanging (used.map Prod.fst) F ∧
      observe c fs (env.sha1 F) = .err .fileNotFound ∧
      (∃ b, observe s'.cat s'.fs (env.sha1 F) = .ok ⟨absPath env.cwd path, F1.length, env.sha1 F, b, 4194304⟩ ∧
        b.sizeOf = ((F1.length + 4194303) / 4194304 : Nat) ∧ b.full = .ok true) ∧
      (∀ h, h ≠ env.sha1 F → observe s'.cat s'.fs h = observe c fs h) ∧
      (∀ q, q ≠ indexPath d → q ≠ progressPath d (env.sha1 F) → s'.fs q = fs q) := by
  unfold shareFileLive generateLive at hrun
  rcases hst : w.stat with _ | F1
  · rw [hst] at hrun
    cases hrun
  rw [hst] at hrun
  simp only at hrun
  unfold hashLive at hrun
  by_cases hop : w.opens = true
  · rw [if_pos hop] at hrun
    rcases hl : hashLiveLoop env.sha1 0 [] w.reads with _ | (h | e | _ | _ | _)
    all_goals rw [hl] at hrun
    · cases hrun
    · injection hrun with hrun
      obtain ⟨used, rest, T, h1, h2, k, k1, k2, cl, k3, k4⟩ := hashLiveLoop_ok env.sha1 w.reads [] h hl
      rw [List.nil_append] at h2
      have hlt := hbig F1 hst
      replace hrun : shareRecord env ⟨absPath env.cwd path, asInt64 (UInt64.ofNat F1.length), h, none, defaultChunkSize⟩ ⟨c, fs, fl⟩ = (.ok r, s') := hrun
      obtain ⟨g1, g2, g3, g4⟩ := shareRecord_effect hh hreach _ F1.length hlt (asInt64_ofNat _ hlt) rfl fl r s' hrun
      subst h2
      refine ⟨F1, T, used, rest, rfl, h1, ⟨k, k1, ?_, cl, k3, by simpa using k4⟩, g1, g2, g3, g4⟩
      intro i hi
      obtain ⟨c', e1, e2⟩ := k2 i hi
      exact ⟨c', e1, by simpa using e2⟩
    · cases hrun
    · cases hrun
    · cases hrun
    · cases hrun
  · rw [if_neg hop] at hrun
    cases hrun

/-- C121, the part that holds: if nobody changes the file during the call, the call does what it does in the other models. -/
theorem C121_partial (path : GoString) (F : Bytes) (w : LiveFile) (hst : w.stat = some F) (hop : w.opens = true) (hrd : ∀ x ∈ w.reads, x.1 = F) (hok : ∀ x ∈ w.reads, x.2 ≠ .fail)
    (c : Cat) (fs : FS) (hF : fs (absPath env.cwd path) = some F) (fl : List Fault) (x : Res Record × St) (hrun : shareFileLive env path w ⟨c, fs, fl⟩ = some x) :
    shareFile env path ⟨c, fs, .none :: .none :: fl⟩ = x := by
  unfold shareFileLive generateLive hashLive at hrun
  rw [hst, if_pos hop, hashLiveLoop_same env.sha1 F w.reads hrd] at hrun
  simp only at hrun
  rcases hl : hashFileLoop env.sha1 F 0 [] (w.reads.map Prod.snd) with _ | z
  · rw [hl] at hrun; cases hrun
  rw [hl] at hrun
  simp only at hrun
  injection hrun with hrun
  have hz : z = .ok (env.sha1 F) := by
    clear hrun
    have key : ∀ (cs : List ReadChoice) (pos : Nat) (acc : Bytes) (z : Res Sha1Hash), (∀ c ∈ cs, c ≠ .fail) → hashFileLoop env.sha1 F pos acc cs = some z → ∃ h, z = .ok h := by
      intro cs
      induction cs with
      | nil => intro pos acc z _ h; cases h
      | cons c cs ih =>
        intro pos acc z hc h
        rw [hashFileLoop] at h
        cases c with
        | fail => exact absurd rfl (hc _ (List.mem_cons_self ..))
        | deliver n =>
          unfold osRead at h
          simp only at h
          by_cases he : F.drop pos = []
          · rw [if_pos he] at h
            simp only at h
            injection h with h
            exact ⟨_, h.symm⟩
          · rw [if_neg he] at h
            exact ih _ _ z (fun c hc' => hc c (List.mem_cons_of_mem _ hc')) h
    obtain ⟨h, rfl⟩ := key _ _ _ _ (by
      intro c hc
      obtain ⟨y, hy, rfl⟩ := List.mem_map.1 hc
      exact hok y hy) hl
    rw [C22_sound env.sha1 F _ h hl]
  subst hz
  rw [← hrun, shareFile_eq, IOM.bind_apply]
  have hg : generateIndexRecordForFile env path ⟨c, fs, .none :: .none :: fl⟩ =
      (.ok ⟨absPath env.cwd path, asInt64 (UInt64.ofNat F.length), env.sha1 F, none, defaultChunkSize⟩, ⟨c, fs, fl⟩) := by
    unfold generateIndexRecordForFile osStat osHashFile osReadFile
    simp only [IOM.bind_apply, nextFault, getFS, IOM.pure_apply, hF, Option.map]
  rw [hg]
  rfl

theorem unknown_of_notFound {ind : IndexFile} (hh : Healthy env d) (hclean : CleanReach env d dl (.running ⟨d, dl, some ind⟩ fs)) (h : Sha1Hash)
    (hno : observe ⟨d, dl, some ind⟩ fs h = .err .fileNotFound) : mapGet ind.index h = none := by
  have hs := hclean.sync hh.abs hh.utf8
  obtain ⟨ind', he, hs⟩ := hs
  cases he
  rw [observe_eq] at hno
  unfold obsRec at hno
  cases e : mapGet ind.index h with
  | none => rfl
  | some r =>
    obtain ⟨p, hp, -⟩ := hs.prog _ r e
    rw [e] at hno
    simp only at hno
    rw [hp] at hno
    cases hno

/-- The reads of a loop that finds the same content every time and is given a whole block every time. -/
def wholeReads (F : Bytes) : List (Bytes × ReadChoice) := List.replicate (F.length + 1) (F, .deliver 4096)

theorem hashLive_whole (sha1 : Bytes → Sha1Hash) (F : Bytes) : hashLiveLoop sha1 0 [] (wholeReads F) = some (.ok (sha1 F)) := by
  rw [hashLiveLoop_same sha1 F _ (fun x hx => by rw [List.eq_of_mem_replicate hx])]
  exact C22_complete sha1 F _ (by
    intro c hc
    obtain ⟨y, hy, rfl⟩ := List.mem_map.1 hc
    rw [List.eq_of_mem_replicate hy]
    intro h; cases h) (by simp [wholeReads])

/-- C121, what goes wrong: any two contents, one before and one after, make a record with the size of the one and the hash of the other. -/
theorem C121_mixed_up (hh : Healthy env d) (hclean : CleanReach env d dl (.running c fs)) (path : GoString) (F1 F2 : Bytes) (hbig : F1.length < 2 ^ 63)
    (hno : observe c fs (env.sha1 F2) = .err .fileNotFound) :
    ∃ r s' b, shareFileLive env path ⟨some F1, true, wholeReads F2⟩ ⟨c, fs, []⟩ = some (.ok r, s') ∧
      observe s'.cat s'.fs (env.sha1 F2) = .ok ⟨absPath env.cwd path, F1.length, env.sha1 F2, b, 4194304⟩ ∧
      b.sizeOf = ((F1.length + 4194303) / 4194304 : Nat) ∧ b.full = .ok true ∧
      ∀ h, h ≠ env.sha1 F2 → observe s'.cat s'.fs h = observe c fs h := by
  have hI : Inv env d dl c fs := hclean.reach.inv hh.abs hh.utf8
  obtain ⟨ind, rfl, hw⟩ := hI.split
  have hm : mapGet ind.index (env.sha1 F2) = none := unknown_of_notFound hh hclean _ hno
  have hrun : ∃ r s', shareRecord env ⟨absPath env.cwd path, asInt64 (UInt64.ofNat F1.length), env.sha1 F2, none, defaultChunkSize⟩ ⟨⟨d, dl, some ind⟩, fs, []⟩ = (.ok r, s') := by
    unfold shareRecord
    simp only [IOM.bind_apply, addIndexRecord_nil, hm, getCat_apply, IOM.lift_apply]
    obtain ⟨p, hp⟩ := newProgressFile_total { filePath := absPath env.cwd path, sizeInBytes := asInt64 (UInt64.ofNat F1.length), sha1Hash := env.sha1 F2, progressFile := none, chunkSize := defaultChunkSize } d F1.length defaultChunkSize.toNat
      (asInt64_ofNat _ hbig) rfl hbig (by decide)
    obtain ⟨-, hw, -⟩ := newProgressFile_ok _ (asInt64_lt _) (by show (0 : Int) ≤ 4194304; omega) p hp
    obtain ⟨dd, e, -⟩ := Bitset.fill_eq p.progress hw
    rw [hp]
    simp only [updateRecord_eval, e, ProgressFile.save, osWriteFile_nil, IOM.pure_apply]
    exact ⟨_, _, rfl⟩
  obtain ⟨r, s', hrun⟩ := hrun
  obtain ⟨-, ⟨b, g1, g2, g3⟩, g4, -⟩ := shareRecord_effect hh hclean.reach _ F1.length hbig (asInt64_ofNat _ hbig) rfl [] r s' hrun
  refine ⟨r, s', b, ?_, g1, g2, g3, g4⟩
  unfold shareFileLive generateLive hashLive
  simp only [if_true, hashLive_whole]
  exact congrArg some hrun

/-- A loop that has already read something and then finds the same content every time. -/
theorem hashFileLoop_rest (sha1 : Bytes → Sha1Hash) (content : Bytes) (cs : List ReadChoice) (pos : Nat) (acc : Bytes)
    (hgood : ∀ c ∈ cs, c ≠ .fail) (hlen : content.length - pos < cs.length) :
    hashFileLoop sha1 content pos acc cs = some (.ok (sha1 (acc ++ content.drop pos))) := by
  induction cs generalizing pos acc with
  | nil => simp at hlen
  | cons c cs ih =>
    rw [hashFileLoop]
    cases c with
    | fail => exact absurd rfl (hgood _ (by simp))
    | deliver n =>
      by_cases hlt : pos < content.length
      · obtain ⟨k, hk, hle, hrd⟩ := osRead_deliver content pos 4096 n hlt (by omega)
        rw [hrd]
        simp only [ite_append]
        rw [ih (pos + k) _ (fun c hc => hgood c (List.mem_cons_of_mem _ hc)) (by simp at hlen; omega), List.append_assoc]
        congr 4
        rw [← List.drop_drop, List.take_append_drop]
      · have he : content.drop pos = [] := by simp; omega
        simp only [osRead, he, if_true, ite_append]; simp only [List.append_nil, fromSlice_hash]

/-- C121: the hash can even be that of a content the file never had: the first block of one content and the rest of another. -/
theorem C121_never_existed (sha1 : Bytes → Sha1Hash) (A B : Bytes) (hA : 4096 ≤ A.length) :
    hashLive sha1 ⟨some A, true, (A, .deliver 4096) :: List.replicate (B.length + 1) (B, .deliver 4096)⟩ = some (.ok (sha1 (A.take 4096 ++ B.drop 4096))) := by
  have hne : A ≠ [] := by intro e; rw [e] at hA; simp at hA
  unfold hashLive
  simp only [if_true]
  rw [hashLiveLoop]
  have hr : osRead A 0 4096 (.deliver 4096) = (A.take 4096, none, 4096) := by
    simp only [osRead, List.drop_zero, if_neg hne]
    have : min 4096 (max 1 4096) = 4096 := by decide
    rw [this, List.length_take, Nat.min_eq_left hA, Nat.zero_add]
  rw [hr]
  simp only [ite_append, List.nil_append]
  rw [hashLiveLoop_same sha1 B _ (fun x hx => by rw [List.eq_of_mem_replicate hx])]
  rw [hashFileLoop_rest sha1 B _ 4096 _ ?_ (by rw [List.length_map, List.length_replicate]; omega)]
  · rw [if_pos (by rw [List.length_take]; omega)]
  intro c hc
  obtain ⟨y, hy, rfl⟩ := List.mem_map.1 hc
  rw [List.eq_of_mem_replicate hy]
  intro h; cases h

/-- The claim in full: what is recorded is the size and the hash of one content that the file had during the call. -/
def C121_statement : Prop :=
  ∀ (env : Env) (d dl : Path) (c : Cat) (fs : FS), Healthy env d → CleanReach env d dl (.running c fs) →
    ∀ (path : GoString) (w : LiveFile), (∀ F1, w.stat = some F1 → F1.length < 2 ^ 63) → ∀ (r : Record) (s' : St), shareFileLive env path w ⟨c, fs, []⟩ = some (.ok r, s') →
      ∃ F e, (w.stat = some F ∨ ∃ x ∈ w.reads, x.1 = F) ∧ observe c fs (env.sha1 F) = .err .fileNotFound ∧ observe s'.cat s'.fs (env.sha1 F) = .ok e ∧ e.sizeInBytes = F.length

/-- A hash function that tells the empty file from others. -/
def exSha (F : Bytes) : Sha1Hash := if F = [] then Sha1Hash.zero else Sha1Hash.blank

theorem C121_refuted : ¬ C121_statement := by
  intro hall
  have hh := ex_healthy exSha goJson
  have h0 : CleanReach (exEnv exSha goJson) exDir exDown (.running ⟨exDir, exDown, some (freshIdx (exEnv exSha goJson) exDir)⟩ (exFS1 exSha goJson)) :=
    CleanReach.fresh (exEnv exSha goJson) exDir exDown hh.utf8 exFS ex_fs_clean
  have hno : ∀ h, observe ⟨exDir, exDown, some (freshIdx (exEnv exSha goJson) exDir)⟩ (exFS1 exSha goJson) h = .err .fileNotFound := by
    intro h
    rw [observe_eq]; rfl
  obtain ⟨r, s', b, h1, h2, -, -, h3⟩ := C121_mixed_up hh h0 [102] [] [1] (by decide) (hno _)
  obtain ⟨F, e, h4, h5, h6, h7⟩ := hall _ _ _ _ _ hh h0 [102] _ (by intro F1 hF; cases hF; decide) r s' h1
  have hF : F = [] ∨ F = [1] := by
    rcases h4 with h | ⟨x, hx, rfl⟩
    · cases h; exact .inl rfl
    · right; rw [List.eq_of_mem_replicate hx]
  rcases hF with rfl | rfl
  · rw [h3 _ (by show exSha [] ≠ exSha [1]; unfold exSha; rw [if_pos rfl, if_neg (by simp)]; decide), hno] at h6
    cases h6
  · rw [h2] at h6
    cases h6
    simp at h7

/-- Peers that send the chunks of the longer content send, as far as they are asked, those of its beginning. -/
theorem chunk_beginning (F2 : Bytes) (n cs m : Nat) (hle : n * cs ≤ F2.length) (hcs : 0 < cs) (hm : m < ((F2.take (n * cs)).length + cs - 1) / cs) :
    ((F2.take (n * cs)).drop (m * cs)).take cs = (F2.drop (m * cs)).take cs := by
  rw [List.length_take, Nat.min_eq_left hle] at hm
  have hx : (n * cs + cs - 1) / cs = n := by
    rw [show n * cs + cs - 1 = cs - 1 + cs * n by rw [Nat.mul_comm cs n]; omega, Nat.add_mul_div_left _ _ hcs, Nat.div_eq_of_lt (by omega), Nat.zero_add]
  have hmul : m * cs + cs ≤ n * cs := by
    have := Nat.mul_le_mul_right cs (show m + 1 ≤ n by omega)
    rw [Nat.add_mul, Nat.one_mul] at this
    exact this
  rw [List.drop_take, List.take_take, Nat.min_eq_left (by omega)]

theorem HonestRun.beginning {h : Sha1Hash} {F2 old : Bytes} {n cs : Nat} {path : Path} (hh : Healthy env d) (hpath : ¬ CatFile d path) (hle : n * cs ≤ F2.length) (hcs : 0 < cs)
    {s0 s : DLState} {e0 : Export} (h0 : E2E env d dl h (F2.take (n * cs)) old cs path s0 e0) :
    HonestRun env d h F2 cs path s0 s ↔ HonestRun env d h (F2.take (n * cs)) cs path s0 s := by
  constructor
  · intro hrun
    induction hrun with
    | refl => exact .refl
    | step a _ hs hok ih =>
      obtain ⟨e, hI⟩ := h0.run hh hpath ih
      refine .step a ih hs ⟨hok.call, hok.user, hok.others, ?_⟩
      intro t th own m r todo h1 h2 h3 h4
      obtain ⟨queue, fl, out, s1, g1, g2⟩ := hok.peers t th own m r todo h1 h2 h3 h4
      have hfit := hI.threads t th h2 h3
      rw [h4] at hfit
      exact ⟨queue, fl, out, s1, by rw [chunk_beginning F2 n cs _ hle hcs hfit]; exact g1, g2⟩
  · intro hrun
    induction hrun with
    | refl => exact .refl
    | step a hr hs hok ih =>
      obtain ⟨e, hI⟩ := h0.run hh hpath hr
      refine .step a ih hs ⟨hok.call, hok.user, hok.others, ?_⟩
      intro t th own m r todo h1 h2 h3 h4
      obtain ⟨queue, fl, out, s1, g1, g2⟩ := hok.peers t th own m r todo h1 h2 h3 h4
      have hfit := hI.threads t th h2 h3
      rw [h4] at hfit
      exact ⟨queue, fl, out, s1, by rw [← chunk_beginning F2 n cs _ hle hcs hfit]; exact g1, g2⟩

theorem ceil_covers (k n : Nat) (hn : (k + 4194303) / 4194304 = n) : k ≤ n * 4194304 := by omega

theorem ceil_few (k n : Nat) (hn : (k + 4194303) / 4194304 = n) (hk : k ≤ 65536 * 4194304) : (n : Int) ≤ 65536 := by omega

/-- A download registered with the size of `F1` is a download of the beginning of `F2`. -/
theorem short_started (hh : Healthy env d) (hreach : Reach env d dl (.running c fs)) (F1 F2 : Bytes) (n : Nat) (hn : (F1.length + 4194303) / 4194304 = n) (hbig : F1.length < 2 ^ 63)
    (hle : n * 4194304 ≤ F2.length) (h : Sha1Hash) (name : GoString) (fl : List Fault) (e : Export) (s1 : St) (hpath : ¬ CatFile d (joinPath [dl, name]))
    (hreg : registerDownload env (UInt64.ofNat F1.length) 4194304 h name ⟨c, fs, fl⟩ = (.ok e, s1)) :
    Reach env d dl (.running s1.cat s1.fs) ∧ observe s1.cat s1.fs h = .ok e ∧ e.filePath = joinPath [dl, name] ∧ e.progress.sizeOf = n ∧
      Downloading (F2.take (n * 4194304)) ((fs (joinPath [dl, name])).getD []) 4194304 (s1.fs (joinPath [dl, name])) e := by
  have hlen : (UInt64.ofNat F1.length).toNat = F1.length := by rw [UInt64.toNat_ofNat']; omega
  obtain ⟨-, ⟨b, h1, h2, h3, -, h4⟩, -, h5⟩ := C29_register hh hreach _ 4194304 h name fl e s1 (by omega) (by decide) hreg
  have hreach1 := hreach.call (.register _ 4194304 h name) trivial fl s1 (CM.void_ok _ _ _ _ hreg)
  have hsame : s1.fs (joinPath [dl, name]) = fs (joinPath [dl, name]) := h5 _ (fun e => hpath (.inl e)) (fun e => hpath (.inr ⟨_, e⟩))
  rw [hlen] at h3
  have h3' : b.sizeOf = (n : Nat) := by
    rw [h3, ← hn, show (4194304 : UInt32).toNat = 4194304 from rfl, show F1.length + 4194304 - 1 = F1.length + 4194303 by omega]
  have hcount : ((F2.take (n * 4194304)).length + 4194304 - 1) / 4194304 = n := by
    rw [List.length_take, Nat.min_eq_left hle]
    omega
  refine ⟨hreach1, h2, by rw [h1], by rw [h1]; exact h3', by decide, by rw [h1]; rfl, by rw [h1, hcount]; exact h3', ?_, ?_⟩
  · intro i hi hs
    exfalso
    unfold Export.saved at hs
    rw [h1] at hs
    simp only at hs
    rw [hcount] at hi
    rw [h4 i (by omega)] at hs
    cases hs
  · intro j _; rw [hsame]

theorem short_E2E {h : Sha1Hash} {path : Path} {F old : Bytes} {s1 : St} {e : Export} (hreach1 : Reach env d dl (.running s1.cat s1.fs)) (h2 : observe s1.cat s1.fs h = .ok e)
    (hp : e.filePath = path) (hdown : Downloading F old 4194304 (s1.fs path) e) (locked : Bool) (downloads : DLKey → Bool) (threads : Nat → Option DLThread)
    (hthreads : ∀ t th, threads t = some th → th.hash = h → ∃ own, th.pos = .test own) :
    E2E env d dl h F old 4194304 path ⟨s1.cat, s1.fs, locked, downloads, threads⟩ e := by
  refine ⟨hreach1, h2, hp, hdown, ?_⟩
  intro t th ht hth
  obtain ⟨own, hx⟩ := hthreads t th ht hth
  rw [hx]; trivial

/-- C121, what it leads to: whoever registers a download with the size of the earlier content `F1` and then gets the chunks of the later content `F2` ends up with the beginning of `F2`, as
many chunks as `F1` has, and the download counts as finished. -/
theorem C121_downloaded (hh : Healthy env d) (hreach : Reach env d dl (.running c fs)) (F1 F2 : Bytes) (hF1 : F1 ≠ []) (hbig : F1.length < 2 ^ 63)
    (hlong : (F1.length + 4194303) / 4194304 * 4194304 < F2.length) (h : Sha1Hash) (name : GoString) (fl : List Fault) (e : Export) (s1 : St) (hpath : ¬ CatFile d (joinPath [dl, name]))
    (hreg : registerDownload env (UInt64.ofNat F1.length) 4194304 h name ⟨c, fs, fl⟩ = (.ok e, s1)) (hold : ((fs (joinPath [dl, name])).getD []).length ≤ F1.length)
    (locked : Bool) (downloads : DLKey → Bool) (threads : Nat → Option DLThread) (hthreads : ∀ t th, threads t = some th → th.hash = h → ∃ own, th.pos = .test own)
    (s : DLState) (hrun : HonestRun env d h F2 4194304 (joinPath [dl, name]) ⟨s1.cat, s1.fs, locked, downloads, threads⟩ s) (t : Nat) (th : DLThread)
    (ht : s.threads t = some th) (hth : th.hash = h) (hfin : th.pos = .finished) :
    s.fs (joinPath [dl, name]) = some (F2.take ((F1.length + 4194303) / 4194304 * 4194304)) ∧ s.fs (joinPath [dl, name]) ≠ some F2 := by
  have hpos : 0 < F1.length := List.length_pos_iff.2 hF1
  generalize hn : (F1.length + 4194303) / 4194304 = n at hlong ⊢
  have hle : n * 4194304 ≤ F2.length := Nat.le_of_lt hlong
  have hn1 := ceil_covers F1.length n hn
  obtain ⟨hreach1, h2, hp, -, hdown⟩ := short_started hh hreach F1 F2 n hn hbig hle h name fl e s1 hpath hreg
  have h0 := short_E2E hreach1 h2 hp hdown locked downloads threads hthreads
  have hrun' := (HonestRun.beginning hh hpath hle (by decide) h0).1 hrun
  have hne : F2.take (n * 4194304) ≠ [] := by
    intro hx
    have := congrArg List.length hx
    rw [List.length_take, Nat.min_eq_left hle, List.length_nil] at this
    rw [this] at hn1
    exact Nat.lt_irrefl _ (Nat.lt_of_lt_of_le hpos hn1)
  have hcont := (C74_content hh hpath _ s hreach1 e h2 hp hdown hne (by rw [List.length_take, Nat.min_eq_left hle]; exact Nat.le_trans hold hn1) hthreads hrun').1 t th ht hth hfin
  refine ⟨hcont, ?_⟩
  rw [hcont]
  intro hx
  injection hx with hx
  have := congrArg List.length hx
  rw [List.length_take, Nat.min_eq_left hle] at this
  exact Nat.lt_irrefl _ (this ▸ hlong)

/-- C121: such downloads do finish. -/
theorem C121_finishes (hh : Healthy env d) (hclean : CleanReach env d dl (.running c fs)) (F1 F2 : Bytes) (hF1 : F1 ≠ []) (hfew : F1.length ≤ 65536 * 4194304)
    (hlong : (F1.length + 4194303) / 4194304 * 4194304 < F2.length) (h : Sha1Hash) (hno : observe c fs h = .err .fileNotFound) (name : GoString) (hpath : ¬ CatFile d (joinPath [dl, name]))
    (hold : ((fs (joinPath [dl, name])).getD []).length ≤ F1.length) (t : Nat) (own : ByteArr 4) (peer : HostResp) (hgood : goodHosts own [peer] = [peer]) :
    ∃ e s1 s th, registerDownload env (UInt64.ofNat F1.length) 4194304 h name ⟨c, fs, []⟩ = (.ok e, s1) ∧
      HonestRun env d h F2 4194304 (joinPath [dl, name]) ⟨s1.cat, s1.fs, false, fun _ => false, fun t' => if t' = t then some ⟨h, .test own, []⟩ else none⟩ s ∧
      s.threads t = some th ∧ th.hash = h ∧ th.pos = .finished := by
  have hI : Inv env d dl c fs := hclean.reach.inv hh.abs hh.utf8
  obtain ⟨ind, rfl, hw⟩ := hI.split
  have hm := unknown_of_notFound hh hclean h hno
  have hlen : (UInt64.ofNat F1.length).toNat = F1.length := by rw [UInt64.toNat_ofNat']; exact Nat.mod_eq_of_lt (Nat.lt_of_le_of_lt hfew (by decide))
  obtain ⟨e, s1, hreg⟩ := registerDownload_total env (UInt64.ofNat F1.length) 4194304 h name d dl ind fs hm (by rw [hlen]; exact Nat.lt_of_le_of_lt hfew (by decide)) (by decide)
  have hclean1 := hclean.returns (.register _ 4194304 h name) trivial s1 (.inl (CM.void_ok _ _ _ _ hreg))
  have hpos : 0 < F1.length := List.length_pos_iff.2 hF1
  generalize hn : (F1.length + 4194303) / 4194304 = n at hlong
  have hle : n * 4194304 ≤ F2.length := Nat.le_of_lt hlong
  have hn1 := ceil_covers F1.length n hn
  have hn2 := ceil_few F1.length n hn hfew
  have hb63 : F1.length < 2 ^ 63 := Nat.lt_of_le_of_lt hfew (by decide)
  obtain ⟨hreach1, h2, hp, hsz, hdown⟩ := short_started hh hclean.reach F1 F2 n hn hb63 hle h name [] e s1 hpath hreg
  have hthreads : ∀ t' th, (fun t' => if t' = t then some (⟨h, .test own, []⟩ : DLThread) else none) t' = some th → th.hash = h → ∃ own, th.pos = .test own := by
    intro t' th ht' _
    simp only at ht'
    split at ht'
    · cases ht'; exact ⟨own, rfl⟩
    · cases ht'
  have h0 := short_E2E hreach1 h2 hp hdown false (fun _ => false) (fun t' => if t' = t then some ⟨h, .test own, []⟩ else none) hthreads
  have hne : F2.take (n * 4194304) ≠ [] := by
    intro hx
    have := congrArg List.length hx
    rw [List.length_take, Nat.min_eq_left hle, List.length_nil] at this
    rw [this] at hn1
    exact Nat.lt_irrefl _ (Nat.lt_of_lt_of_le hpos hn1)
  have hready : DLReady env d dl h t own peer (F2.take (n * 4194304)) ((fs (joinPath [dl, name])).getD []) 4194304
      ⟨s1.cat, s1.fs, false, fun _ => false, fun t' => if t' = t then some ⟨h, .test own, []⟩ else none⟩ e [] := by
    refine ⟨hclean1, h2, by rw [hp]; exact hpath, ?_, by rw [hp]; exact hdown, rfl, rfl, if_pos rfl⟩
    rw [hsz]
    exact hn2
  obtain ⟨s2, -, rounds, -, k2, -, -, -, -, -, -, -, k9, -⟩ := dl_completes hh hgood hready hne (by rw [List.length_take, Nat.min_eq_left hle]; exact Nat.le_trans hold hn1)
  rw [hp] at k9
  exact ⟨e, s1, s2, _, hreg, (HonestRun.beginning hh hpath hle (by decide) h0).2 k9, k2, rfl, rfl⟩

end

/-! ### Cases -/

/-- `C121_exact`, `C121_mixed_up`: a file that is empty at `os.Stat` and has two bytes when it is read. -/
example : ∃ (c : Cat) (fs : FS) (r : Record) (s' : St), Healthy (exEnv exSha goJson) exDir ∧ CleanReach (exEnv exSha goJson) exDir exDown (.running c fs) ∧
    shareFileLive (exEnv exSha goJson) [102] ⟨some [], true, wholeReads [1, 2]⟩ ⟨c, fs, []⟩ = some (.ok r, s') := by
  have hh := ex_healthy exSha goJson
  have h0 : CleanReach (exEnv exSha goJson) exDir exDown (.running ⟨exDir, exDown, some (freshIdx (exEnv exSha goJson) exDir)⟩ (exFS1 exSha goJson)) :=
    CleanReach.fresh (exEnv exSha goJson) exDir exDown hh.utf8 exFS ex_fs_clean
  obtain ⟨r, s', b, h1, -⟩ := C121_mixed_up hh h0 [102] [] [1, 2] (by decide) (by rw [observe_eq]; rfl)
  exact ⟨_, _, r, s', hh, h0, h1⟩

/-- `C121_partial`: nobody changes the file. -/
example : ∃ (c : Cat) (fs : FS) (x : Res Record × St), fs (absPath (exEnv exSha goJson).cwd [102]) = some [1, 2, 3] ∧ (∀ y ∈ wholeReads [1, 2, 3], y.1 = [1, 2, 3] ∧ y.2 ≠ .fail) ∧
    shareFileLive (exEnv exSha goJson) [102] ⟨some [1, 2, 3], true, wholeReads [1, 2, 3]⟩ ⟨c, fs, []⟩ = some x ∧ x.1 ≠ .err .io := by
  have hh := ex_healthy exSha goJson
  have h0 : CleanReach (exEnv exSha goJson) exDir exDown (.running ⟨exDir, exDown, some (freshIdx (exEnv exSha goJson) exDir)⟩ (exFS1 exSha goJson)) :=
    CleanReach.fresh (exEnv exSha goJson) exDir exDown hh.utf8 exFS ex_fs_clean
  obtain ⟨r, s', b, h1, -⟩ := C121_mixed_up hh h0 [102] [1, 2, 3] [1, 2, 3] (by decide) (by rw [observe_eq]; rfl)
  refine ⟨_, _, _, ex_file exSha goJson, ?_, h1, by intro hx; cases hx⟩
  intro y hy
  rw [List.eq_of_mem_replicate hy]
  exact ⟨rfl, by intro hx; cases hx⟩

/-- `C121_finishes` and through it `C121_downloaded`: a file of one byte that has become one of one chunk and one byte. -/
example (h : Sha1Hash) : ∃ (c : Cat) (fs : FS) (e : Export) (s1 : St) (s : DLState) (th : DLThread), CleanReach (exEnv exSha goJson) exDir exDown (.running c fs) ∧
    ¬ CatFile exDir (joinPath [exDown, [120]]) ∧ ((fs (joinPath [exDown, [120]])).getD []).length ≤ 1 ∧
    registerDownload (exEnv exSha goJson) (UInt64.ofNat ([7] : Bytes).length) 4194304 h [120] ⟨c, fs, []⟩ = (.ok e, s1) ∧
    HonestRun (exEnv exSha goJson) exDir h (List.replicate 4194305 7) 4194304 (joinPath [exDown, [120]])
      ⟨s1.cat, s1.fs, false, fun _ => false, fun t' => if t' = 1 then some ⟨h, .test exOwn, []⟩ else none⟩ s ∧ s.threads 1 = some th ∧ th.hash = h ∧ th.pos = .finished := by
  have hh := ex_healthy exSha goJson
  have h0 : CleanReach (exEnv exSha goJson) exDir exDown (.running ⟨exDir, exDown, some (freshIdx (exEnv exSha goJson) exDir)⟩ (exFS1 exSha goJson)) :=
    CleanReach.fresh (exEnv exSha goJson) exDir exDown hh.utf8 exFS ex_fs_clean
  have hold : ((exFS1 exSha goJson (joinPath [exDown, [120]])).getD []).length ≤ ([7] : Bytes).length := by
    unfold exFS1
    rw [FS.put_other _ _ _ _ (fun e => ex_not_catFile2 (.inl e)), ex_path]
    decide
  have hlong : (([7] : Bytes).length + 4194303) / 4194304 * 4194304 < (List.replicate 4194305 (7 : UInt8)).length := by
    rw [List.length_replicate, List.length_singleton]; omega
  obtain ⟨e, s1, s, th, k1, k2, k3, k4, k5⟩ := C121_finishes hh h0 [7] (List.replicate 4194305 7) (by simp) (by rw [List.length_singleton]; omega) hlong h (by rw [observe_eq]; rfl) [120]
    ex_not_catFile2 hold 1 exOwn exPeer ex_good
  exact ⟨_, _, e, s1, s, th, h0, ex_not_catFile2, hold, k1, k2, k3, k4, k5⟩

end Flu
