import Verif.Lemmas.CatFun
import Verif.Props.Readers
/-!
# Fault-free runs of catalogue calls
-/
namespace Flu

/-- The index of a catalogue that was just created. -/
def freshIdx (env : Env) (d : Path) : IndexFile := ⟨env.pid, env.now, [], d⟩

theorem init_nil_old (env : Env) (d dl : Path) (oi : Option IndexFile) (fs : FS) (ind : IndexFile)
    (hn : (ind.index.map (·.1)).Nodup) (hf : fs (indexPath d) = some (env.json.enc ind.toJSON)) :
    ∃ m, Cat.init env ⟨⟨d, dl, oi⟩, fs, []⟩ =
        (.ok (), ⟨⟨d, dl, some ⟨ind.pid, ind.lastTouched, m, env.json.fix ind.dataDir⟩⟩, fs, []⟩) ∧
      (m.map (·.1)).Nodup ∧ ∀ h, mapGet m h = (mapGet ind.index h).map (Record.reloaded env.json.fix) := by
  obtain ⟨m, h1, h2, h3⟩ := unmarshal_marshal env ind hn
  refine ⟨m, ?_, h2, h3⟩
  unfold Cat.init
  simp only [IOM.bind_apply, getCat_apply, setIndex_eval, osTouch_nil, osStat_nil, hf, Option.map_some, IOM.pure_apply, osReadFile_nil,
    IOM.lift_apply, h1]

theorem mapGet_all_none {α : Type} (m : List (Sha1Hash × α)) (h : ∀ k, mapGet m k = none) : m = [] := by
  cases m with
  | nil => rfl
  | cons e m => have := h e.1; rw [mapGet_cons, if_pos rfl] at this; cases this

theorem init_nil_fresh (env : Env) (d dl : Path) (oi : Option IndexFile) (fs : FS) (hfix : env.json.fix d = d) (hf : fs (indexPath d) = none) :
    Cat.init env ⟨⟨d, dl, oi⟩, fs, []⟩ =
      (.ok (), ⟨⟨d, dl, some (freshIdx env d)⟩, fs.put (indexPath d) (some (env.json.enc (freshIdx env d).toJSON)), []⟩) := by
  obtain ⟨m, h1, h2, h3⟩ := unmarshal_marshal env (freshIdx env d) (by simp [freshIdx])
  have hm : m = [] := mapGet_all_none m (fun k => by rw [h3]; rfl)
  subst hm
  unfold Cat.init
  have e : (freshIdx env d) = { pid := env.pid, lastTouched := env.now, index := [], dataDir := d } := rfl
  rw [e] at h1
  simp only [IOM.bind_apply, getCat_apply, setIndex_eval, osTouch_nil, osStat_nil, hf, Option.map_none, saveIndex_nil, osReadFile_nil,
    FS.put_same, IOM.lift_apply, h1, hfix, e]

/-- The state after the first start on an empty data directory is reachable. -/
theorem reach_fresh (env : Env) (d dl : Path) (hfix : env.json.fix d = d) (fs : FS) (hf : ∀ p, CatFile d p → fs p = none) :
    Reach env d dl (.running ⟨d, dl, some (freshIdx env d)⟩ (fs.put (indexPath d) (some (env.json.enc (freshIdx env d).toJSON)))) := by
  refine ⟨fs, hf, Steps.step (Steps.refl _) ?_⟩
  have := Step.start (env := env) (d := d) (dl := dl) env.pid env.now [] fs
  rw [show ({ env with pid := env.pid, now := env.now } : Env) = env from rfl, init_nil_fresh env d dl none fs hfix (hf _ (.inl rfl))] at this
  exact this

/-- A call that returns, as a step of the system. -/
theorem Reach.call {env : Env} {d dl : Path} {c : Cat} {fs : FS} (h : Reach env d dl (.running c fs)) (o : Op) (hs : o.Safe d c) (fl : List Fault)
    (s' : St) (hrun : o.run env ⟨c, fs, fl⟩ = (.ok (), s')) : Reach env d dl (.running s'.cat s'.fs) := by
  obtain ⟨fs0, h0, h1⟩ := h
  refine ⟨fs0, h0, Steps.step h1 ?_⟩
  have := Step.call (env := env) (d := d) (dl := dl) o fl c fs hs
  rw [hrun] at this
  exact this

theorem CM.void_ok {α : Type} (x : CM α) (s s' : St) (a : α) (h : x s = (.ok a, s')) : CM.void x s = (.ok (), s') := by
  unfold CM.void
  rw [IOM.bind_apply, h]; rfl

theorem newProgressFile_total (r : Record) (d : Path) (n cs : Nat) (h1 : r.sizeInBytes = n) (h2 : r.chunkSize = cs) (hn : n < 2 ^ 63) (hcs : 0 < cs) :
    ∃ p, newProgressFile r d = .ok p := by
  unfold newProgressFile
  rw [h1, h2, C25_count n cs hcs, Res.bind_ok]
  obtain ⟨b, hb, -⟩ := Bitset.newBitset_spec ((n + cs - 1) / cs) (by
    have : (n + cs - 1) / cs ≤ n := by
      rcases Nat.eq_zero_or_pos n with h0 | h0
      · subst h0; rw [Nat.div_eq_of_lt (by omega)]; omega
      · rw [Nat.div_le_iff_le_mul_add_pred hcs]
        obtain ⟨a, rfl⟩ : ∃ a, n = a + 1 := ⟨n - 1, by omega⟩
        obtain ⟨b, rfl⟩ : ∃ b, cs = b + 1 := ⟨cs - 1, by omega⟩
        have := Nat.zero_le (b * a)
        have e : (b + 1) * (a + 1) = b * a + b + a + 1 := by rw [Nat.add_mul, Nat.mul_add]; omega
        omega
    omega)
  rw [hb, Res.bind_ok]
  exact ⟨_, rfl⟩

theorem newProgressFile_path (r : Record) (d : Path) (p : ProgressFile) (e : newProgressFile r d = .ok p) : p.filePath = progressPath d r.sha1Hash := by
  unfold newProgressFile at e
  obtain ⟨n, -, e⟩ := (Res.bind_ok_iff _ _ _).1 e
  obtain ⟨b, -, e⟩ := (Res.bind_ok_iff _ _ _).1 e
  cases e; rfl

/-- Without faults, sharing an existing file that is not yet in the catalogue succeeds. -/
theorem shareFile_total (env : Env) (path : GoString) (d dl : Path) (ind : IndexFile) (fs : FS) (content : Bytes)
    (hf : fs (absPath env.cwd path) = some content) (hm : mapGet ind.index (env.sha1 content) = none) (hl : content.length < 2 ^ 63) :
    ∃ r s', shareFile env path ⟨⟨d, dl, some ind⟩, fs, []⟩ = (.ok r, s') := by
  unfold shareFile
  simp only [IOM.bind_apply, generate_nil, hf, addIndexRecord_nil, hm, getCat_apply, IOM.lift_apply]
  obtain ⟨p, hp⟩ := newProgressFile_total { filePath := absPath env.cwd path, sizeInBytes := asInt64 (UInt64.ofNat content.length), sha1Hash := env.sha1 content, progressFile := none, chunkSize := defaultChunkSize } d content.length defaultChunkSize.toNat
    (asInt64_ofNat _ hl) rfl hl (by decide)
  obtain ⟨-, hw, -⟩ := newProgressFile_ok _ (asInt64_lt _) (by show (0 : Int) ≤ 4194304; omega) p hp
  obtain ⟨dd, e, -⟩ := Bitset.fill_eq p.progress hw
  rw [hp]
  simp only [updateRecord_eval, e, ProgressFile.save, osWriteFile_nil, IOM.pure_apply]
  exact ⟨_, _, rfl⟩

/-- Without faults, registering a sensible download of an unknown hash succeeds. -/
theorem registerDownload_total' (env : Env) (size : UInt64) (cs : UInt32) (h : Sha1Hash) (name : GoString) (d dl : Path) (ind : IndexFile) (fs : FS)
    (hm : mapGet ind.index h = none) (hsize : size.toNat < 2 ^ 63) (hcs : 0 < cs.toNat) :
    ∃ e s', registerDownload env size cs h name ⟨⟨d, dl, some ind⟩, fs, []⟩ = (.ok e, s') ∧ s'.faults = [] := by
  unfold registerDownload
  simp only [IOM.bind_apply, addIndexRecord_nil, hm, getCat_apply, IOM.lift_apply]
  have hsz : asInt64 size = size.toNat := by
    have := asInt64_ofNat size.toNat hsize
    rwa [UInt64.ofNat_toNat] at this
  obtain ⟨p, hp⟩ := newProgressFile_total { filePath := joinPath [dl, name], sizeInBytes := asInt64 size, sha1Hash := h, progressFile := none, chunkSize := cs.toNat } d size.toNat cs.toNat hsz rfl hsize hcs
  rw [hp]
  simp only [updateRecord_eval, ProgressFile.save, IOM.ignoreErr, osWriteFile_nil, Record.export]
  exact ⟨_, _, rfl, rfl⟩

theorem registerDownload_total (env : Env) (size : UInt64) (cs : UInt32) (h : Sha1Hash) (name : GoString) (d dl : Path) (ind : IndexFile) (fs : FS)
    (hm : mapGet ind.index h = none) (hsize : size.toNat < 2 ^ 63) (hcs : 0 < cs.toNat) :
    ∃ e s', registerDownload env size cs h name ⟨⟨d, dl, some ind⟩, fs, []⟩ = (.ok e, s') := by
  obtain ⟨e, s', h1, -⟩ := registerDownload_total' env size cs h name d dl ind fs hm hsize hcs
  exact ⟨e, s', h1⟩

end Flu
