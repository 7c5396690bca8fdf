import Verif.Lemmas.CatOwned
import Verif.Props.Failures
/-!
# What lies in the data directory

C135: every progress file in the data directory belongs to a file in the catalogue, after every history, whatever operations of the disk failed and wherever the daemon was
killed.  If nothing failed the converse holds as well.
-/
namespace Flu
open Spec

section
variable {env : Env} {d dl : Path} {c : Cat} {fs : FS}

/-- C135: a file that the daemon does not know has no progress file.  This holds in every state that any history leads to, with failures of the disk and kills at any operation. -/
theorem C135_owned (hh : Healthy env d) (hreach : Reach env d dl (.running c fs)) (h : Sha1Hash) (hp : fs (progressPath d h) ≠ none) :
    observe c fs h ≠ .err .fileNotFound := by
  exact fun hn => hp (unknown_no_progress hh.abs hh.utf8 hreach hn)

/-- C135: when the catalogue is empty, the index is the only file of the catalogue's that is left. -/
theorem C135_empty (hh : Healthy env d) (hreach : Reach env d dl (.running c fs)) (hnone : ∀ h, observe c fs h = .err .fileNotFound) (p : Path) (hp : CatFile d p)
    (hne : fs p ≠ none) : p = indexPath d := by
  rcases hp with rfl | ⟨h, rfl⟩
  · rfl
  · exact absurd (hnone h) (C135_owned hh hreach h hne)

/-- C135: what a listing shows includes every file that has a progress file. -/
theorem C135_listed (hh : Healthy env d) (hreach : Reach env d dl (.running c fs)) (order : List Sha1Hash) (ho : MapOrder c order) (fl : List Fault) (es : List Export) (s' : St)
    (hrun : listFiles order ⟨c, fs, fl⟩ = (.ok es, s')) (h : Sha1Hash) (hp : fs (progressPath d h) ≠ none) : ∃ e ∈ es, observe c fs h = .ok e := by
  obtain ⟨h1, -, h3, -⟩ := C38_list hh hreach order ho fl es s' hrun
  have hin := (h3 h).2 (C135_owned hh hreach h hp)
  have : observe c fs h ∈ order.map (observe c fs) := List.mem_map_of_mem hin
  rw [h1] at this
  obtain ⟨e, he, h4⟩ := List.mem_map.1 this
  exact ⟨e, he, h4.symm⟩

/-- `Init` writes no file but the index. -/
theorem init_frame (q : Path) (hq : q ≠ indexPath d) (x : Option Bytes) :
    Triple (fun c fs => c.dataDir = d ∧ fs q = x) (Cat.init env) (fun _ _ fs => fs q = x) (fun _ fs => fs q = x) := by
  refine Triple.bind Triple.getCat ?_
  intro cat
  refine Triple.pre (P := fun c fs => (c.dataDir = d ∧ fs q = x) ∧ cat.dataDir = d) ?_ (fun c fs h => ⟨h.1, by rw [h.2]; exact h.1.1⟩)
  apply Triple.facts
  intro hcat
  rw [hcat]
  refine Triple.bind (Q := fun _ _ fs => fs q = x) (Triple.setIndex _ (fun _ _ h => h.2)) ?_
  intro _
  refine Triple.bind (Triple.osTouch (fun _ _ h => h)) ?_
  intro _
  refine Triple.bind (Triple.osTouch (fun _ _ h => h)) ?_
  intro _
  refine Triple.bind ((Triple.osStat _ (fun _ _ h => h)).post (Q' := fun _ _ fs => fs q = x) (fun _ _ _ h => h.1)) ?_
  intro y
  have tail : Triple (fun _ fs => fs q = x) (do
      let data ← osReadFile (indexPath d)
      let ind ← IOM.lift (unmarshalIndex env data)
      setIndex ind) (fun _ _ fs => fs q = x) (fun _ fs => fs q = x) := by
    refine Triple.bind ((Triple.osReadFile _ (fun _ _ h => h)).post (Q' := fun _ _ fs => fs q = x) (fun _ _ _ h => h.1)) ?_
    intro data
    refine Triple.bind (Q := fun _ _ fs => fs q = x) (Triple.lift _ (fun _ _ _ _ h => h) (fun _ _ h => h)) ?_
    intro ind
    exact Triple.setIndex _ (fun _ _ h => h)
  cases y with
  | some n => exact tail
  | none =>
    refine Triple.bind (Q := fun _ c fs => fs q = x ∧ c.indexFile = some ⟨env.pid, env.now, [], d⟩) (Triple.setIndex _ (fun _ _ h => ⟨h, rfl⟩)) ?_
    intro _
    refine Triple.bind (Q := fun _ _ fs => fs q = x) ?_ (fun _ => tail)
    refine Triple.bind (Triple.getIndex (fun _ _ h => h.1)) ?_
    intro ind
    have key : ∀ (c : Cat) (fs : FS) (y : Option Bytes), (fs q = x ∧ c.indexFile = some ⟨env.pid, env.now, [], d⟩) ∧ c.indexFile = some ind →
        fs.put (indexPath ind.dataDir) y q = x := by
      rintro c fs y ⟨⟨h1, h2⟩, h3⟩
      rw [h2] at h3
      cases h3
      rw [FS.put_other _ _ _ _ hq]; exact h1
    exact Triple.osWriteFile _ _ (fun c fs h => key c fs _ h) (fun _ _ h => h.1.1) (fun c fs k h => key c fs _ h)

/-- C135: a daemon that starts, after however its predecessors died, knows every file whose progress file it finds. -/
theorem C135_start (hh : Healthy env d) (hreach : Reach env d dl (.stopped fs)) (pid now : Int) (fl : List Fault) (s' : St)
    (hrun : Cat.init { env with pid := pid, now := now } ⟨⟨d, dl, none⟩, fs, fl⟩ = (.ok (), s')) (h : Sha1Hash) (hp : fs (progressPath d h) ≠ none) :
    s'.fs (progressPath d h) = fs (progressPath d h) ∧ observe s'.cat s'.fs h ≠ .err .fileNotFound := by
  have e : s'.fs (progressPath d h) = fs (progressPath d h) :=
    (init_frame (env := { env with pid := pid, now := now }) (progressPath d h) (fun e => indexPath_ne_progressPath d d hh.abs hh.abs h e.symm) _
      ⟨⟨d, dl, none⟩, fs, fl⟩ ⟨rfl, rfl⟩).1 () s' hrun
  refine ⟨e, C135_owned (dl := dl) hh ?_ h (by rw [e]; exact hp)⟩
  obtain ⟨fs0, h0, h1⟩ := hreach
  have := Step.start (env := env) (d := d) (dl := dl) pid now fl fs
  rw [hrun] at this
  exact ⟨fs0, h0, Steps.step h1 this⟩

/-- C135: without failures the progress files are exactly those of the files in the catalogue. -/
theorem C135_exact (hh : Healthy env d) (hreach : CleanReach env d dl (.running c fs)) (h : Sha1Hash) :
    fs (progressPath d h) ≠ none ↔ observe c fs h ≠ .err .fileNotFound := by
  refine ⟨C135_owned hh hreach.reach h, ?_⟩
  obtain ⟨ind, rfl, hw⟩ := (hreach.reach.inv hh.abs hh.utf8).split
  obtain ⟨ind', hi, hs⟩ := hreach.sync hh.abs hh.utf8
  cases hi
  rw [observe_eq, Ne, obsRec_notFound]
  intro hk
  rcases hm : mapGet ind.index h with _ | r
  · exact absurd hm hk
  obtain ⟨p, -, h2, -⟩ := hs.prog h r hm
  rcases viewProgress_own h2 with e | ⟨-, -, data, e, -⟩
  · cases e
  · have hr : r.sha1Hash = h := hw.ownGet h r hm
    rw [show ({ r with progressFile := none } : Record).sha1Hash = h from hr] at e
    rw [e]; simp

/-- C135, the limit: after a failure of the disk a file can be in the catalogue without a progress file. -/
theorem C135_limit (hh : Healthy env d) (hreach : Reach env d dl (.running c fs)) (path : GoString) (content : Bytes)
    (hc : fs (absPath env.cwd path) = some content) (hnew : observe c fs (env.sha1 content) = .err .fileNotFound) :
    ∃ s', shareFile env path ⟨c, fs, [.none, .none, .fail none]⟩ = (.err .io, s') ∧ observe s'.cat s'.fs (env.sha1 content) ≠ .err .fileNotFound ∧
      s'.fs (progressPath d (env.sha1 content)) = none := by
  have hf := unknown_no_progress hh.abs hh.utf8 hreach hnew
  obtain ⟨s', h1, h2, h3, -⟩ := C81_share_disk_full hh hreach path content hc hnew
  exact ⟨s', h1, by rw [h3]; simp, by rw [h2]; exact hf⟩

end

/-- `C135_owned`, `C135_listed`, `C135_exact`: a daemon that shares a file of three bytes has its progress file. -/
example (sha1 : Bytes → Sha1Hash) (json : JsonCodec) : ∃ c fs, Healthy (exEnv sha1 json) exDir ∧ CleanReach (exEnv sha1 json) exDir exDown (.running c fs) ∧
    fs (progressPath exDir (sha1 [1, 2, 3])) ≠ none ∧ MapOrder c [sha1 [1, 2, 3]] := by
  obtain ⟨c, fs, b, h1, -, h3, -, -, h6⟩ := ex_clean sha1 json
  exact ⟨c, fs, ex_healthy sha1 json, h1, (C135_exact (ex_healthy sha1 json) h1 _).2 (by rw [h3]; simp), h6⟩

/-- `C135_start`: the same after it was killed and started again. -/
example (sha1 : Bytes → Sha1Hash) (json : JsonCodec) : ∃ fs s', Reach (exEnv sha1 json) exDir exDown (.stopped fs) ∧
    fs (progressPath exDir (sha1 [1, 2, 3])) ≠ none ∧ Cat.init (exEnv sha1 json) ⟨⟨exDir, exDown, none⟩, fs, []⟩ = (.ok (), s') := by
  have hh := ex_healthy sha1 json
  obtain ⟨c, fs, b, h1, -, h3, -, -, h6⟩ := ex_clean sha1 json
  obtain ⟨ind, rfl, hs⟩ := h1.sync hh.abs hh.utf8
  obtain ⟨ind', h4, -⟩ := Sync.start (dl := exDown) hs
  exact ⟨fs, _, (CleanReach.kill _ _ h1).reach, (C135_exact hh h1 _).2 (by rw [h3]; simp), h4⟩

/-- `C135_empty`, `C135_limit`: a daemon on an empty data directory, and a file to share. -/
example (sha1 : Bytes → Sha1Hash) (json : JsonCodec) : ∃ c fs, Reach (exEnv sha1 json) exDir exDown (.running c fs) ∧ (∀ h, observe c fs h = .err .fileNotFound) ∧
    fs (absPath (exEnv sha1 json).cwd [102]) = some [1, 2, 3] ∧ fs (indexPath exDir) ≠ none := by
  have hh := ex_healthy sha1 json
  have h0 := CleanReach.fresh (exEnv sha1 json) exDir exDown hh.utf8 exFS ex_fs_clean
  refine ⟨_, _, h0.reach, ?_, ?_, by rw [FS.put_same]; simp⟩
  · intro h
    rw [observe_eq]
    exact obsRec_notFound.2 rfl
  · exact ex_file sha1 json

end Flu
