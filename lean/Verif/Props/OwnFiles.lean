import Verif.Lemmas.CatApart
import Verif.Lemmas.LongJson
import Verif.Props.CatHostile
import Verif.Props.Json
/-!
# Downloads and the catalogue's own files (C87)
-/
namespace Flu
open Spec

/-! ### The life of the catalogue without the assumption that no chunk is saved onto its files -/

/-- As `Step` (CatSystem.lean), but without `Op.Safe`: any call for which `ok` holds. -/
inductive OpenStep (env : Env) (d dl : Path) (ok : Op → Prop) : Sys → Sys → Prop
  | call (o : Op) (faults : List Fault) (c : Cat) (fs : FS) (hok : ok o) :
      OpenStep env d dl ok (.running c fs) (afterCall (o.run env ⟨c, fs, faults⟩).1 (o.run env ⟨c, fs, faults⟩).2)
  | kill (c : Cat) (fs : FS) : OpenStep env d dl ok (.running c fs) (.stopped fs)
  | start (pid now : Int) (faults : List Fault) (fs : FS) :
      OpenStep env d dl ok (.stopped fs)
        (afterInit (Cat.init { env with pid := pid, now := now } ⟨⟨d, dl, none⟩, fs, faults⟩).1
          (Cat.init { env with pid := pid, now := now } ⟨⟨d, dl, none⟩, fs, faults⟩).2)
  | userRunning (c : Cat) (fs : FS) (p : Path) (content : Option Bytes) (hp : ¬ CatFile d p) :
      OpenStep env d dl ok (.running c fs) (.running c (fs.put p content))
  | userStopped (fs : FS) (p : Path) (content : Option Bytes) (hp : ¬ CatFile d p) :
      OpenStep env d dl ok (.stopped fs) (.stopped (fs.put p content))

/-- States of a catalogue that started from an empty data directory. -/
inductive OpenReach (env : Env) (d dl : Path) (ok : Op → Prop) : Sys → Prop
  | empty (fs : FS) (hfs : ∀ p, CatFile d p → fs p = none) : OpenReach env d dl ok (.stopped fs)
  | step {s t : Sys} (h : OpenReach env d dl ok s) (h' : OpenStep env d dl ok s t) : OpenReach env d dl ok t

/-- Full statement: whatever is shared and downloaded, no recorded path is one of the catalogue's own files. -/
def C87_statement (env : Env) (d dl : Path) : Prop :=
  ∀ c fs, OpenReach env d dl (fun _ => True) (.running c fs) → ∀ h p, c.pathOf h = some p → ¬ CatFile d p

/-- The recorded paths satisfy `N`, in memory and on disk. -/
def PathsOK (env : Env) (d : Path) (N : Path → Prop) : Sys → Prop
  | .running c fs => (∀ h p, c.pathOf h = some p → N p) ∧ DiskPaths env d N fs
  | .stopped fs => DiskPaths env d N fs

section
variable {env : Env} {d dl : Path} {c : Cat} {fs : FS}

theorem kn_of_pathsOK {N : Path → Prop} (hh : Healthy env d) (hr : Reach env d dl (.running c fs)) (h : PathsOK env d N (.running c fs)) : Kn env d dl N c fs := by
  obtain ⟨ind, rfl, hw⟩ := (hr.inv hh.abs hh.utf8).split
  refine ⟨ind, rfl, ⟨hw.dir, ?_, hw.nodup, ?_⟩, h.2⟩
  · exact hw.wp
  · intro k r hk
    apply h.1 k
    show Option.map _ (mapGet ind.index k) = _
    rw [hk]; rfl

theorem pathsOK_of_kn {N : Path → Prop} (h : Kn env d dl N c fs) : PathsOK env d N (.running c fs) := by
  obtain ⟨ind, rfl, hk, hd⟩ := h
  refine ⟨?_, hd⟩
  intro k p hp
  have hp' : Option.map (·.filePath) (mapGet ind.index k) = some p := hp
  obtain ⟨r, hr, rfl⟩ := Option.map_eq_some_iff.1 hp'
  exact hk.paths k r hr

theorem kn_stopped {N : Path → Prop} (h : Kn env d dl N c fs) : DiskPaths env d N fs := by
  obtain ⟨ind, rfl, -, hd⟩ := h
  exact hd

/-- If every path that is recorded satisfies `N`, no path with `N` is one of the catalogue's files, and `N` survives storing the path as JSON, then all recorded
paths satisfy `N` for ever, and the run is one of those the other properties speak of. -/
theorem C87_general {N : Path → Prop} {ok : Op → Prop} (hh : Healthy env d) (hNo : ∀ p, N p → ¬ CatFile d p) (hfix : ∀ p, N p → N (env.json.fix p))
    (hok : ∀ o, ok o → o.Records env dl N) {s : Sys} (h : OpenReach env d dl ok s) : Reach env d dl s ∧ PathsOK env d N s := by
  induction h with
  | empty fs hfs =>
    refine ⟨⟨fs, hfs, Steps.refl _⟩, ?_⟩
    intro data hd
    rw [hfs _ (.inl rfl)] at hd; cases hd
  | step h h' ih =>
    obtain ⟨hr, hp⟩ := ih
    obtain ⟨fs0, hfs0, hst⟩ := hr
    cases h' with
    | call o fl c fs ho =>
      have hr : Reach env d dl (.running c fs) := ⟨fs0, hfs0, hst⟩
      have hsafe : o.Safe d c := by
        cases o with
        | save h n data => exact fun p hp' => hNo _ (hp.1 h p hp')
        | _ => trivial
      refine ⟨⟨fs0, hfs0, hst.step (Step.call o fl c fs hsafe)⟩, ?_⟩
      rcases hrun : o.run env ⟨c, fs, fl⟩ with ⟨r, s'⟩
      have hk := kn_op (env := env) (dl := dl) hh.abs hNo o (hok o ho) (kn_of_pathsOK hh hr hp) fl r s' hrun
      cases r with
      | ok a => exact pathsOK_of_kn hk
      | err e => exact pathsOK_of_kn hk
      | panic => exact kn_stopped hk
      | exit => exact kn_stopped hk
      | crash => exact kn_stopped hk
    | kill c fs => exact ⟨⟨fs0, hfs0, hst.step (Step.kill c fs)⟩, hp.2⟩
    | start pid now fl fs =>
      refine ⟨⟨fs0, hfs0, hst.step (Step.start pid now fl fs)⟩, ?_⟩
      obtain ⟨h1, h2⟩ := kn_init (env := { env with pid := pid, now := now }) (d := d) (N := N) hfix ⟨⟨d, dl, none⟩, fs, fl⟩ ⟨rfl, hp⟩
      rcases hr : Cat.init { env with pid := pid, now := now } ⟨⟨d, dl, none⟩, fs, fl⟩ with ⟨r, s'⟩
      cases r with
      | ok a =>
        obtain ⟨⟨ind, hi, hN⟩, hd⟩ := h1 a s' hr
        refine ⟨?_, hd⟩
        intro k p hp'
        unfold Cat.pathOf at hp'
        rw [hi] at hp'
        obtain ⟨r, hr, rfl⟩ := Option.map_eq_some_iff.1 hp'
        exact hN k r hr
      | err e => exact h2 _ s' hr (by intro a; simp)
      | panic => exact h2 _ s' hr (by intro a; simp)
      | exit => exact h2 _ s' hr (by intro a; simp)
      | crash => exact h2 _ s' hr (by intro a; simp)
    | userRunning c fs p content hp' =>
      exact ⟨⟨fs0, hfs0, hst.step (Step.userRunning c fs p content hp')⟩, hp.1, hp.2.putOther p (fun e => hp' (.inl e)) _⟩
    | userStopped fs p content hp' =>
      exact ⟨⟨fs0, hfs0, hst.step (Step.userStopped fs p content hp')⟩, DiskPaths.putOther hp p (fun e => hp' (.inl e)) _⟩

/-! ### Plain names are enough -/

/-- What the user and the peers must respect: no file of the catalogue is shared (nor a path that JSON turns into one), and names of downloads are plain file names. -/
def Op.Decent (env : Env) (d : Path) : Op → Prop
  | .share p => ¬ CatFile d (absPath env.cwd p) ∧ ¬ CatFile d (env.json.fix (absPath env.cwd p))
  | .register _ _ _ name => name ≠ [] ∧ name ≠ [46] ∧ name ≠ [46, 46] ∧ (47 : UInt8) ∉ name
  | _ => True

/-- The catalogue's files lie directly in its data directory. -/
theorem catFile_child (ds : List GoString) (hds : ∀ e ∈ ds, Plain e) (p : Path) (h : CatFile (absOf ds) p) : ∃ n, Plain n ∧ p = absOf (ds ++ [n]) := by
  rcases h with rfl | ⟨k, rfl⟩
  · exact ⟨_, plain_indexFileName, indexPath_abs ds hds⟩
  · exact ⟨_, plain_hash k, progressPath_abs ds hds k⟩

/-- A file directly in another directory is none of the catalogue's. -/
theorem child_not_catFile (d : Path) (hd : AbsClean d) (ws : List GoString) (hws : ∀ e ∈ ws, Plain e) (hne : absOf ws ≠ d) (n : GoString) (hn : Plain n) :
    ¬ CatFile d (absOf (ws ++ [n])) := by
  obtain ⟨ds, hds, rfl⟩ := hd
  intro h
  obtain ⟨m, hm, he⟩ := catFile_child ds hds _ h
  have := absOf_inj _ _ (by
    intro e he'
    rcases List.mem_append.1 he' with h | h
    · exact hws e h
    · rw [List.mem_singleton.1 h]; exact hn) (by
    intro e he'
    rcases List.mem_append.1 he' with h | h
    · exact hds e h
    · rw [List.mem_singleton.1 h]; exact hm) he
  have h2 := (List.append_inj' this rfl).1
  exact hne (by rw [h2])

/-- C87, the part that holds: with the JSON of Go and a downloads directory other than the data directory, if nobody shares the catalogue's own files and the names of
all downloads are plain file names, then whatever calls, crashes, faults, restarts and changes of other files happen, no recorded path is one of the catalogue's
files, and the run is one of those the other properties speak of.  Missing from the full statement: all other names. -/
theorem C87_partial (hh : Healthy env d) (hj : env.json = goJson) (hdl : AbsClean dl) (htext : goJson.fix dl = dl) (hne : dl ≠ d)
    (hr : OpenReach env d dl (Op.Decent env d) (.running c fs)) :
    (∀ h p, c.pathOf h = some p → ¬ CatFile d p) ∧ Reach env d dl (.running c fs) := by
  obtain ⟨h1, h2, -⟩ := C87_general (N := fun p => ¬ CatFile d p ∧ ¬ CatFile d (env.json.fix p)) hh (fun _ h => h.1)
    (fun p h => ⟨h.2, by rw [env.json.fix_idem]; exact h.2⟩) (by
      intro o ho
      cases o with
      | share p => exact ho
      | register size cs k name =>
        obtain ⟨ws, hws, rfl⟩ := hdl
        have hn : Plain name := ⟨ho.1, ho.2.1, ho.2.2.1, ho.2.2.2⟩
        show ¬ CatFile d (joinPath [absOf ws, name]) ∧ ¬ CatFile d (env.json.fix (joinPath [absOf ws, name]))
        rw [joinPath_plain ws hws name hn, hj]
        refine ⟨child_not_catFile d hh.abs ws hws hne name hn, ?_⟩
        have e : goJson.fix (absOf (ws ++ [name])) = absOf (ws.map Json.fix ++ [Json.fix name]) := by
          rw [← List.map_singleton, ← List.map_append]; exact fix_absOf _
        rw [e]
        have hw' : absOf (ws.map Json.fix) = absOf ws := by rw [← fix_absOf]; exact htext
        refine child_not_catFile d hh.abs _ ?_ (by rw [hw']; exact hne) _ (fix_plain name hn)
        intro x hx
        obtain ⟨y, hy, rfl⟩ := List.mem_map.1 hx
        exact fix_plain y (hws y hy)
      | _ => trivial) hr
  exact ⟨fun h p hp => (h2 h p hp).1, h1⟩

/-! ### A peer can take over the catalogue -/

theorem overlay_start (old X : Bytes) (h : old.length ≤ X.length) : overlay old 0 X = X := by
  unfold overlay
  split
  · rename_i hX; subst hX
    simpa using h
  · simp only [Nat.zero_sub, List.replicate_zero, List.append_nil, List.take_zero, List.nil_append, Nat.zero_add]
    rw [List.drop_eq_nil_of_le h, List.append_nil]

theorem joinPath_anywhere (dl target : Path) (hdl : AbsClean dl) (ht : AbsClean target) : ∃ name, joinPath [dl, name] = target := by
  obtain ⟨ds, hds, rfl⟩ := hdl
  obtain ⟨ts, hts, rfl⟩ := ht
  have hsl : slash ∉ dotdot := by decide
  refine ⟨joinSlash (List.replicate (ds.length + 1) dotdot) ++ absOf ts, ?_⟩
  rw [joinPath_abs ds hds]
  have e1 : absOf ts = slash :: joinSlash ts := rfl
  have e2 : splitSlash (joinSlash (List.replicate (ds.length + 1) dotdot) ++ absOf ts) = List.replicate (ds.length + 1) dotdot ++ splitSlash (joinSlash ts) := by
    rw [e1, splitSlash_concat, splitSlash_joinSlash _ (by simp) (fun x hx => by rw [List.eq_of_mem_replicate hx]; exact hsl)]
  rw [e2, List.foldl_append, foldl_replicate_dotdot _ _ (by simpa using hds) (by simp)]
  have e3 := foldl_absOf ts hts []
  rw [e1] at e3
  simp only [splitSlash, if_true, List.foldl_cons, cleanStep_nil, List.append_nil] at e3
  rw [e3, List.reverse_reverse]

/-- A download aimed at the index: registering it and saving one chunk succeed, and put the chunk over the start of the index file. -/
theorem own_write (hh : Healthy env d) (hdl : AbsClean dl) (hr : Reach env d dl (.running c fs)) (h : Sha1Hash) (hun : observe c fs h = .err .fileNotFound)
    (size : UInt64) (cs : UInt32) (hsize : size.toNat < 2 ^ 63) (hcs : 0 < cs.toNat) :
    ∃ name e s1 old, registerDownload env size cs h name ⟨c, fs, []⟩ = (.ok e, s1) ∧ s1.fs (indexPath d) = some old ∧
      ∀ X, ∃ s2, saveChunk h 0 X s1 = (.ok (), s2) ∧ s2.fs (indexPath d) = some (overlay old 0 X) ∧
        (∃ b : Bitset, b.Wf ∧ b.has 0 = true ∧ s2.fs (progressPath d h) = some b.serialize) ∧ ∀ q, ¬ CatFile d q → s2.fs q = fs q := by
  obtain ⟨ind, rfl, hw⟩ := (hr.inv hh.abs hh.utf8).split
  have htarget : AbsClean (indexPath d) := by
    obtain ⟨ds, hds, rfl⟩ := hh.abs
    exact ⟨_, plain_snoc hds plain_indexFileName, indexPath_abs ds hds⟩
  obtain ⟨name, hname⟩ := joinPath_anywhere dl (indexPath d) hdl htarget
  rw [observe_eq, obsRec_notFound] at hun
  obtain ⟨e, s1, hreg, hfl⟩ := registerDownload_total' env size cs h name d dl ind fs hun hsize hcs
  obtain ⟨p, m1, fs1, h1, h2, h3, h4, h5, -, h6, h7⟩ := registerDownload_ok env size cs h name d dl ind fs [] e s1 hreg
  have h6 := h6 rfl
  obtain ⟨hpp, hpw, -, hpn⟩ := newProgressFile_ok _ (asInt64_lt _) (by show (0 : Int) ≤ (cs.toNat : Int); omega) p h2
  have hpp : p.filePath = progressPath d h := hpp
  have hne : indexPath d ≠ progressPath d h := indexPath_ne_progressPath d d hh.abs hh.abs h
  have hold : s1.fs (indexPath d) = some (env.json.enc ({ ind with index := m1 } : IndexFile).toJSON) := by
    rw [h6, hpp, FS.put_other _ _ _ _ hne, h4, hw.dir, FS.put_same]
  refine ⟨name, e, s1, _, hreg, hold, ?_⟩
  intro X
  have hreach1 : Reach env d dl (.running s1.cat s1.fs) := hr.call (.register size cs h name) trivial [] s1 (CM.void_ok _ _ _ _ hreg)
  obtain ⟨-, ⟨b0, -, hobs, -⟩, -⟩ := C29_register hh hr size cs h name [] e s1 hsize hcs hreg
  obtain ⟨s2, hsave⟩ := saveChunk_total hh hreach1 h 0 X e hobs
  obtain ⟨cat1, fsx, fl1⟩ := s1
  simp only at hfl h5 h6 hold hreach1 hobs hsave ⊢
  subst hfl
  refine ⟨s2, hsave, ?_⟩
  rw [h5] at hsave
  obtain ⟨rec, p', g1, g2, g3⟩ := saveChunk_nil h 0 X d dl _ fsx (.ok ()) s2 hsave rfl
  simp only at g1
  rw [mapGet_put, if_pos rfl] at g1
  cases g1
  cases g2
  rcases g3 with ⟨g, -⟩ | ⟨-, -, b, g4, rfl⟩
  · cases g
  obtain ⟨dd, e1, -, e3⟩ := Bitset.set_eq p.progress (BitVec.ofNat 64 (0 : UInt16).toNat) (by decide)
  have hbw := Bitset.set_wf _ _ _ (by decide) hpw g4
  rw [e1] at g4
  cases g4
  have hfp : (downloadRecord dl size cs h name).filePath = indexPath d := hname
  refine ⟨?_, ⟨_, hbw, ?_, ?_⟩, ?_⟩
  · show FS.put _ _ _ _ = _
    rw [hpp, FS.put_other _ _ _ _ hne]
    show FS.put _ (downloadRecord dl size cs h name).filePath _ _ = _
    rw [hfp, FS.put_same]
    congr 2
    · rw [hold]; rfl
    · show (((0 : UInt16).toNat : Int) * _).toNat = 0
      simp
  · rw [e3]; simp
  · show FS.put _ _ _ _ = _
    rw [hpp, FS.put_same]
  · intro q hq
    have q1 : q ≠ progressPath d h := fun e => hq (.inr ⟨h, e⟩)
    have q2 : q ≠ indexPath d := fun e => hq (.inl e)
    show FS.put _ _ _ _ = _
    rw [hpp, FS.put_other _ _ _ _ q1]
    show FS.put _ (downloadRecord dl size cs h name).filePath _ _ = _
    have h6' : fsx = _ := h6 rfl
    rw [hfp, FS.put_other _ _ _ _ q2, h6', hpp, FS.put_other _ _ _ _ q1, h4, hw.dir, FS.put_other _ _ _ _ q2]

/-- An index with one entry, and another one whose path makes its text longer than `L`. -/
theorem long_index (J : JsonCodec) (d target : Path) (size cs : Int) (h : Sha1Hash) (L : Nat) :
    ∃ ind : IndexFile, ind.dataDir = d ∧ (ind.index.map (·.1)).Nodup ∧ mapGet ind.index h = some ⟨target, size, h, none, cs⟩ ∧ L ≤ (J.enc ind.toJSON).length := by
  obtain ⟨k, hk⟩ : ∃ k : Sha1Hash, k ≠ h := by
    by_cases h0 : h = Sha1Hash.zero
    · subst h0
      refine ⟨⟨1 :: List.replicate 19 0, by decide⟩, ?_⟩
      intro e
      have := congrArg Subtype.val e
      revert this; decide
    · exact ⟨_, fun e => h0 e.symm⟩
  obtain ⟨n, hn⟩ := enc_unbounded J ({ pid := 0, lastTouched := 0, index := [(h.toString, (⟨target, size, h, none, cs⟩ : Record).toJSON)], dataDir := d } : IndexJSON)
    k.toString (⟨[], 0, k, none, 1⟩ : Record).toJSON (by
      intro e he
      rw [List.mem_singleton.1 he]; exact isAscii_toString h) (isAscii_toString k) (by
      simp only [List.map_cons, List.map_nil, List.nodup_cons, List.mem_singleton, List.not_mem_nil, not_false_eq_true, List.nodup_nil, and_true]
      exact fun e => hk (toString_inj _ _ e)) L
  refine ⟨⟨0, 0, [(k, ⟨List.replicate n 97, 0, k, none, 1⟩), (h, ⟨target, size, h, none, cs⟩)], d⟩, rfl, ?_, ?_, hn⟩
  · simp [hk]
  · simp [mapGet, hk]

/-- C87: a peer from whom the user downloads one file can make the daemon unable to start again, whatever files it has: with a suitable name and one suitable chunk, every
later start fails. -/
theorem C87_blocks (hh : Healthy env d) (hdl : AbsClean dl) (hr : Reach env d dl (.running c fs)) (h : Sha1Hash) (hun : observe c fs h = .err .fileNotFound)
    (size : UInt64) (cs : UInt32) (hsize : size.toNat < 2 ^ 63) (hcs : 0 < cs.toNat) :
    ∃ name X e s1 s2, registerDownload env size cs h name ⟨c, fs, []⟩ = (.ok e, s1) ∧ saveChunk h 0 X s1 = (.ok (), s2) ∧
      ∀ pid now, ∃ x s3, Cat.init { env with pid := pid, now := now } ⟨⟨d, dl, none⟩, s2.fs, []⟩ = (.err x, s3) ∧ s3.fs = s2.fs := by
  obtain ⟨name, e, s1, old, h1, h2, h3⟩ := own_write hh hdl hr h hun size cs hsize hcs
  obtain ⟨ind, -, -, -, hL⟩ := long_index env.json d d 0 0 h (old.length + 1)
  have hne : (env.json.enc ind.toJSON).dropLast ≠ env.json.enc ind.toJSON := by
    intro e
    have := congrArg List.length e
    rw [List.length_dropLast] at this
    omega
  have hbad := env.json.dec_prefix ind.toJSON _ (List.dropLast_prefix _) hne
  obtain ⟨s2, g1, g2, -⟩ := h3 (env.json.enc ind.toJSON).dropLast
  rw [overlay_start _ _ (by rw [List.length_dropLast]; omega)] at g2
  refine ⟨name, _, e, s1, s2, h1, g1, ?_⟩
  intro pid now
  unfold Cat.init
  simp only [IOM.bind_apply, getCat_apply, setIndex_eval, osTouch_nil, osStat_nil, g2, Option.map_some, IOM.pure_apply, osReadFile_nil, IOM.lift_apply, unmarshalIndex, hbad]
  exact ⟨_, _, rfl, rfl⟩

/-- C87: a peer from whom the user downloads one file can read any file of the user: for every file that exists there are a name and a chunk such that, once the daemon
has registered the download under that name, saved that chunk and been restarted, it serves that file as chunk 0 of the download. -/
theorem C87_reads_any (hh : Healthy env d) (hdl : AbsClean dl) (hr : Reach env d dl (.running c fs)) (h : Sha1Hash) (hun : observe c fs h = .err .fileNotFound)
    (size : UInt64) (cs : UInt32) (hsize : size.toNat < 2 ^ 63) (hcs : 0 < cs.toNat) (target : Path) (content : Bytes) (htext : env.json.fix target = target)
    (hf : fs target = some content) (hnc : ¬ CatFile d target) (hlen : content.length < 2 ^ 32) :
    ∃ name X e s1 s2, registerDownload env size cs h name ⟨c, fs, []⟩ = (.ok e, s1) ∧ saveChunk h 0 X s1 = (.ok (), s2) ∧
      ∀ pid now, ∃ c3, Cat.init { env with pid := pid, now := now } ⟨⟨d, dl, none⟩, s2.fs, []⟩ = (.ok (), ⟨c3, s2.fs, []⟩) ∧
        ∀ ch : List AtChoice, content.length < ch.countP (· == .good) →
          ∃ cr s4, getChunkReader env h 0 ch ⟨c3, s2.fs, []⟩ = (.ok (some cr), s4) ∧ cr.hash = env.sha1 content ∧ cr.size = content.length ∧
            ∀ ks, ∃ out cr', cr.reset.reads content ks = .ok (out, cr') ∧ out.map (fun x => (x.1, x.2.1)) = expectedReads content 0 ks := by
  obtain ⟨name, e, s1, old, h1, h2, h3⟩ := own_write hh hdl hr h hun size cs hsize hcs
  obtain ⟨ind, hdir, hnd, hget, hL⟩ := long_index env.json d target content.length content.length h old.length
  obtain ⟨s2, g1, g2, ⟨b, g3, g4, g5⟩, g6⟩ := h3 (env.json.enc ind.toJSON)
  rw [overlay_start _ _ hL] at g2
  refine ⟨name, _, e, s1, s2, h1, g1, ?_⟩
  intro pid now
  obtain ⟨m, k1, k2, k3⟩ := init_nil_old { env with pid := pid, now := now } d dl none s2.fs ind hnd g2
  refine ⟨_, k1, ?_⟩
  intro ch hch
  have hm : mapGet m h = some ⟨target, content.length, h, none, content.length⟩ := by
    rw [k3, hget]
    show some (Record.reloaded env.json.fix _) = _
    unfold Record.reloaded
    rw [htext]
  have hv := viewProgress_saved d s2.fs ⟨target, content.length, h, none, content.length⟩ b g3 rfl g5
  have hslice : slice content 0 content.length = content := by simp [slice]
  obtain ⟨cr, hcr⟩ := C24_terminates_partial env.sha1 content 0 content.length ch hch
  obtain ⟨q1, q2, -, q4⟩ := C23_describes env.sha1 content _ _ ch cr hcr
  rw [hslice] at q1 q2
  refine ⟨cr, (getChunkReader env h 0 ch ⟨⟨d, dl, _⟩, s2.fs, []⟩).2, Prod.ext ?_ rfl, q1, q2, ?_⟩
  · have hfs : s2.fs target = some content := by rw [g6 _ hnc]; exact hf
    have hb : b.get (BitVec.ofNat 64 0) = .ok true := by rw [Bitset.get_eq _ _ (by decide)]; exact congrArg Res.ok g4
    unfold getChunkReader
    simp only [IOM.bind_apply, getIndexRecord_nil, hm, hv, hb, IOM.lift, Bool.not_true, Bool.false_eq_true, ↓reduceIte, osTouch, nextFault, getFS, hfs,
      IOM.pure_apply, Nat.zero_mul, Int.toNat_natCast, hcr]
  · intro ks
    obtain ⟨out, cr', r1, r2, -⟩ := C23_reads content cr 0 content.length _ q4 hlen ks
    rw [hslice] at r2
    exact ⟨out, cr', r1, r2⟩

/-- C87 is false of the code: for every environment. -/
theorem C87_refuted (hh : Healthy env d) (hdl : AbsClean dl) : ¬ C87_statement env d dl := by
  intro hall
  have hcl := CleanReach.fresh env d dl hh.utf8 (fun _ => none) (fun _ _ => rfl)
  have htarget : AbsClean (indexPath d) := by
    obtain ⟨ds, hds, rfl⟩ := hh.abs
    exact ⟨_, plain_snoc hds plain_indexFileName, indexPath_abs ds hds⟩
  obtain ⟨name, hname⟩ := joinPath_anywhere dl (indexPath d) hdl htarget
  obtain ⟨e, s', hrun⟩ := registerDownload_total env 1 1 Sha1Hash.zero name d dl (freshIdx env d) _ rfl (by decide) (by decide)
  have h0 : OpenReach env d dl (fun _ => True) (.stopped (fun _ => none)) := .empty _ (fun _ _ => rfl)
  have h1 := h0.step (.start env.pid env.now [] _)
  rw [init_nil_fresh env d dl none (fun _ => none) hh.utf8 rfl] at h1
  have h2 := h1.step (.call (.register 1 1 Sha1Hash.zero name) [] _ _ trivial)
  rw [show (Op.register 1 1 Sha1Hash.zero name).run env _ = _ from CM.void_ok _ _ _ _ hrun] at h2
  obtain ⟨-, ⟨b, he, ho, -⟩, -⟩ := C29_register hh hcl.reach 1 1 Sha1Hash.zero name [] e s' (by decide) (by decide) hrun
  have hp := observe_path hh (hcl.reach.call (.register 1 1 Sha1Hash.zero name) trivial [] s' (CM.void_ok _ _ _ _ hrun)) _ _ ho
  refine hall _ _ h2 Sha1Hash.zero _ hp (.inl ?_)
  rw [he]; exact hname

/-! ### Examples -/

/-- `C87_partial`: a catalogue in `/d` with downloads in `/w` that shares `/f` and starts to download a file called `f`. -/
example (sha1 : Bytes → Sha1Hash) : ∃ s : Sys, Healthy (exEnv sha1 goJson) exDir ∧ AbsClean exDown ∧ goJson.fix exDown = exDown ∧ exDown ≠ exDir ∧
    Op.Decent (exEnv sha1 goJson) exDir (.share [102]) ∧ Op.Decent (exEnv sha1 goJson) exDir (.register 1 1 Sha1Hash.zero [102]) ∧
    OpenReach (exEnv sha1 goJson) exDir exDown (Op.Decent (exEnv sha1 goJson) exDir) s ∧
    ∃ c fs, s = .running c fs ∧ c.pathOf Sha1Hash.zero = some (absOf [[119], [102]]) := by
  have hh := ex_healthy sha1 goJson
  have hne : ¬ CatFile exDir (absPath (exEnv sha1 goJson).cwd [102]) := by
    have e : absPath (exEnv sha1 goJson).cwd [102] = absOf [[102]] := by
      show absPath [47] [102] = [47, 102]
      decide
    rw [e]; exact ex_not_catFile 102 (by simp)
  have hfix : goJson.fix (absPath (exEnv sha1 goJson).cwd [102]) = absPath (exEnv sha1 goJson).cwd [102] := by
    apply goJson.fix_ascii
    show ∀ c ∈ absPath [47] [102], c.toNat < 128
    decide
  have hdec : Op.Decent (exEnv sha1 goJson) exDir (.register 1 1 Sha1Hash.zero [102]) := ⟨by decide, by decide, by decide, by decide⟩
  obtain ⟨e, s', hrun⟩ := registerDownload_total (exEnv sha1 goJson) 1 1 Sha1Hash.zero [102] exDir exDown (freshIdx (exEnv sha1 goJson) exDir) (exFS1 sha1 goJson) rfl (by decide) (by decide)
  have h0 : OpenReach (exEnv sha1 goJson) exDir exDown (Op.Decent (exEnv sha1 goJson) exDir) (.stopped exFS) := .empty _ ex_fs_clean
  have h1 := h0.step (.start (exEnv sha1 goJson).pid (exEnv sha1 goJson).now [] _)
  rw [init_nil_fresh (exEnv sha1 goJson) exDir exDown none exFS hh.utf8 (ex_fs_clean _ (.inl rfl))] at h1
  have h1 : OpenReach (exEnv sha1 goJson) exDir exDown (Op.Decent (exEnv sha1 goJson) exDir) (.running ⟨exDir, exDown, some (freshIdx (exEnv sha1 goJson) exDir)⟩ (exFS1 sha1 goJson)) := h1
  have h2 := h1.step (.call (.register 1 1 Sha1Hash.zero [102]) [] _ _ hdec)
  rw [show (Op.register 1 1 Sha1Hash.zero [102]).run (exEnv sha1 goJson) _ = _ from CM.void_ok _ _ _ _ hrun] at h2
  refine ⟨_, hh, ⟨_, ex_plain 119 (by simp), rfl⟩, goJson.fix_ascii _ ?_, by decide, ⟨hne, ?_⟩, hdec, h2, _, _, rfl, ?_⟩
  · show ∀ c ∈ absOf [[119]], c.toNat < 128
    decide
  · show ¬ CatFile exDir (goJson.fix _)
    rw [hfix]; exact hne
  · obtain ⟨-, ⟨b, he, ho, -⟩, -⟩ := C29_register hh (ex_reach sha1 goJson) 1 1 Sha1Hash.zero [102] [] e s' (by decide) (by decide) hrun
    have hp := observe_path hh ((ex_reach sha1 goJson).call (.register 1 1 Sha1Hash.zero [102]) trivial [] s' (CM.void_ok _ _ _ _ hrun)) _ _ ho
    rw [he] at hp
    exact hp

/-- `C87_blocks`, `C87_reads_any`: a fresh catalogue, and the file `/f`. -/
example (sha1 : Bytes → Sha1Hash) (json : JsonCodec) (h : Sha1Hash) : ∃ c fs, Healthy (exEnv sha1 json) exDir ∧ AbsClean exDown ∧
    Reach (exEnv sha1 json) exDir exDown (.running c fs) ∧ observe c fs h = .err .fileNotFound ∧ json.fix (absOf [[102]]) = absOf [[102]] ∧
    fs (absOf [[102]]) = some [1, 2, 3] ∧ ¬ CatFile exDir (absOf [[102]]) := by
  refine ⟨_, _, ex_healthy sha1 json, ⟨_, ex_plain 119 (by simp), rfl⟩, ex_reach sha1 json, rfl, json.fix_ascii _ ?_, ex_file sha1 json, ex_not_catFile 102 (by simp)⟩
  show ∀ c ∈ absOf [[102]], c.toNat < 128
  decide

end
end Flu
