import Verif.Props.Catalogue2
import Verif.Props.Startup
/-!
# C94: what two daemons with one data directory do to each other's records

Between taking the place of the socket and failing to get the port, a second daemon (`Verif.Props.Startup`) carries out the commands that reach it.  It has read the same
files as the first one; each keeps its own index in memory and writes it out as a whole.
-/
namespace Flu

/-- C94: a file that the user shares with the second daemon is not known to the first one, and it is gone for good when the first one records another file: a daemon started
later does not have it. -/
theorem C94_lost {env : Env} {d dl : Path} {c : Cat} {fs : FS} (hh : Healthy env d) (hreach : CleanReach env d dl (.running c fs))
    (pid now : Int) (cB : Cat) (hB : Cat.init { env with pid := pid, now := now } ⟨⟨d, dl, none⟩, fs, []⟩ = (.ok (), ⟨cB, fs, []⟩))
    (path : GoString) (r : Record) (sB : St) (hshare : shareFile env path ⟨cB, fs, []⟩ = (.ok r, sB))
    (path2 : GoString) (r2 : Record) (sA : St) (hshare2 : shareFile env path2 ⟨c, sB.fs, []⟩ = (.ok r2, sA)) (hne : r2.sha1Hash ≠ r.sha1Hash) (pid' now' : Int) :
    (∃ e, observe sB.cat sB.fs r.sha1Hash = .ok e) ∧
    observe c sB.fs r.sha1Hash = .err .fileNotFound ∧
    ∃ c', Cat.init { env with pid := pid', now := now' } ⟨⟨d, dl, none⟩, sA.fs, []⟩ = (.ok (), ⟨c', sA.fs, []⟩) ∧
      observe c' sA.fs r.sha1Hash = .err .fileNotFound := by
  obtain ⟨ind, rfl, hs⟩ := hreach.sync hh.abs hh.utf8
  have hI : Inv env d dl ⟨d, dl, some ind⟩ fs := hreach.reach.inv hh.abs hh.utf8
  obtain ⟨ind1, hi, hw⟩ := hI.mem
  cases hi
  obtain ⟨indB, h1, -, h3⟩ := Sync.start (env := { env with pid := pid, now := now }) (dl := dl) ⟨hs.index, hs.prog⟩
  rw [h1] at hB
  cases hB
  obtain ⟨content, p, full, m1, -, hnew, -, -, hr, hsB, -, -⟩ := shareFile_nil_ok env path d dl indB fs r sB hshare
  obtain ⟨content2, p2, full2, m2, -, hnew2, hp2, -, hr2, hsA, -, -⟩ := shareFile_nil_ok env path2 d dl ind sB.fs r2 sA hshare2
  have hk : r.sha1Hash = env.sha1 content := by rw [hr]
  have hk2 : r2.sha1Hash = env.sha1 content2 := by rw [hr2]
  have hold : mapGet ind.index (env.sha1 content) = none := by
    rw [h3] at hnew
    cases hx : mapGet ind.index (env.sha1 content) with
    | none => rfl
    | some y => rw [hx] at hnew; cases hnew
  have hfp : p2.filePath = progressPath d (env.sha1 content2) := newProgressFile_path _ d p2 hp2
  have hidx : sA.fs (indexPath d) = some (env.json.enc ({ ind with index := mapPut ind.index (env.sha1 content2) { r2 with progressFile := none } } : IndexFile).toJSON) := by
    rw [hsA]
    simp only
    rw [FS.put_other _ _ _ _ (by rw [hfp]; exact indexPath_ne_progressPath d d hh.abs hh.abs _), hw.dir, FS.put_same]
  obtain ⟨m, g1, -, g3⟩ := init_nil_old { env with pid := pid', now := now' } d dl none sA.fs _ (nodup_put _ _ _ hw.nodup) hidx
  refine ⟨?_, ?_, _, g1, ?_⟩
  · rw [hsB, hk]
    simp only
    rw [observe_eq]
    unfold obsRec
    simp only
    rw [mapGet_put, if_pos rfl]
    simp only [viewProgress, hr]
    exact ⟨_, rfl⟩
  · rw [observe_eq, hk]
    unfold obsRec
    rw [hold]
  · rw [observe_eq, hk]
    unfold obsRec
    simp only
    rw [g3]
    simp only
    rw [mapGet_put, if_neg (by rw [← hk, ← hk2]; exact hne), hold]
    rfl

/-- The hypotheses of `C94_lost` can be met: a new daemon, a second one started beside it, and the files `/f` and `/g` with different contents. -/
example (sha1 : Bytes → Sha1Hash) (json : JsonCodec) (hne : sha1 [1, 2, 3] ≠ sha1 [4]) : ∃ (c cB : Cat) (fs : FS) (r r2 : Record) (sB sA : St),
    CleanReach (exEnv sha1 json) exDir exDown (.running c fs) ∧
    Cat.init { exEnv sha1 json with pid := 2, now := 5 } ⟨⟨exDir, exDown, none⟩, fs, []⟩ = (.ok (), ⟨cB, fs, []⟩) ∧
    shareFile (exEnv sha1 json) [102] ⟨cB, fs, []⟩ = (.ok r, sB) ∧
    shareFile (exEnv sha1 json) [103] ⟨c, sB.fs, []⟩ = (.ok r2, sA) ∧ r2.sha1Hash ≠ r.sha1Hash := by
  have hh := ex_healthy sha1 json
  have h0 : CleanReach (exEnv sha1 json) exDir exDown (.running ⟨exDir, exDown, some (freshIdx (exEnv sha1 json) exDir)⟩ (exFS1 sha1 json)) :=
    CleanReach.fresh _ _ _ hh.utf8 exFS ex_fs_clean
  have hg : ¬ CatFile exDir (absOf [[103]]) := by
    have hp : ∀ e ∈ ([[103]] : List GoString), Plain e := by
      intro e he; rw [List.mem_singleton.1 he]
      refine ⟨?_, ?_, ?_, ?_⟩ <;> decide
    have hd := ex_plain 100 (by simp)
    rintro (e | ⟨x, e⟩)
    · rw [exDir, indexPath_abs _ hd] at e
      have := absOf_inj _ _ hp (plain_snoc hd plain_indexFileName) e
      simp at this
    · rw [exDir, progressPath_abs _ hd] at e
      have := absOf_inj _ _ hp (plain_snoc hd (plain_hash x)) e
      simp at this
  have h1 := CleanReach.userRunning _ _ (absOf [[103]]) (some [4]) hg h0
  obtain ⟨cB, hB, hcB, -, -, -⟩ := C30_restart hh h1 2 5
  obtain ⟨indB, hB', -, h3⟩ := Sync.start (env := { exEnv sha1 json with pid := 2, now := 5 }) (dl := exDown)
    (fs := (exFS1 sha1 json).put (absOf [[103]]) (some [4])) (d := exDir) (ind := freshIdx (exEnv sha1 json) exDir) (by
      obtain ⟨ind, e, hs⟩ := h1.sync hh.abs hh.utf8
      cases e
      exact ⟨hs.index, hs.prog⟩)
  rw [hB'] at hB
  cases hB
  have hmB : mapGet indB.index (sha1 [1, 2, 3]) = none := by rw [h3]; rfl
  have ef : absPath (exEnv sha1 json).cwd [102] = absOf [[102]] := by show absPath [47] [102] = [47, 102]; decide
  have eg : absPath (exEnv sha1 json).cwd [103] = absOf [[103]] := by show absPath [47] [103] = [47, 103]; decide
  obtain ⟨r, sB, hr⟩ := shareFile_total (exEnv sha1 json) [102] exDir exDown indB ((exFS1 sha1 json).put (absOf [[103]]) (some [4])) [1, 2, 3]
    (by rw [FS.put_other _ _ _ _ (by rw [ef]; decide)]; exact ex_file sha1 json) hmB (by simp)
  obtain ⟨content, hc, -, -, -, hother⟩ := C26_share hh hcB.reach [102] [] r sB hr
  have hgB : sB.fs (absPath (exEnv sha1 json).cwd [103]) = some [4] := by
    rw [eg, hother _ (fun e => hg (.inl e)) (fun e => hg (.inr ⟨_, e⟩)), FS.put_same]
  obtain ⟨r2, sA, hr2⟩ := shareFile_total (exEnv sha1 json) [103] exDir exDown (freshIdx (exEnv sha1 json) exDir) sB.fs [4] hgB rfl (by simp)
  refine ⟨_, _, _, r, r2, sB, sA, h1, hB', hr, hr2, ?_⟩
  obtain ⟨c1, p1, f1, m1, hc1, -, -, -, e1, -⟩ := shareFile_nil_ok _ _ _ _ _ _ _ _ hr
  obtain ⟨c2, p2, f2, m2, hc2, -, -, -, e2, -⟩ := shareFile_nil_ok _ _ _ _ _ _ _ _ hr2
  rw [hgB] at hc2; cases hc2
  rw [FS.put_other _ _ _ _ (by rw [ef]; decide), ex_file sha1 json] at hc1; cases hc1
  rw [e1, e2]
  exact fun e => hne e.symm

end Flu
