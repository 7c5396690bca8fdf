import Verif.Props.Clean
import Verif.Props.CatHostile
import Verif.Props.Failures
import Verif.Props.Unshare
/-!
# A call succeeds exactly when it should (C108)
-/
namespace Flu
open Spec

variable {env : Env} {d dl : Path} {c : Cat} {fs : FS}

/-- When a call should succeed, in terms of what the catalogue shows and of the files. -/
def Spec.Able (env : Env) (c : Cat) (fs : FS) : Op → Prop
  | .share path => ∃ content, fs (absPath env.cwd path) = some content ∧ observe c fs (env.sha1 content) = .err .fileNotFound
  | .unshare h | .contains h | .get h | .complete h | .missing h | .save h _ _ => ∃ e, observe c fs h = .ok e
  | .register _ cs h _ => observe c fs h = .err .fileNotFound ∧ 0 < cs.toNat
  | .list _ => True
  | .rehash h => ∃ e, observe c fs h = .ok e ∧ fs e.filePath ≠ none
  | .reader h n _ => ∃ e, observe c fs h = .ok e ∧ e.saved n ∧ fs e.filePath ≠ none

/-- What is taken for granted of a call: sizes fit 63 bits, the order of a listing is an order of the map, `MissingChunks` is asked about a file of at most 65536
chunks, and the operating system reads the chunk of `GetChunkReader` in the end (C24). -/
def Spec.Sensible (env : Env) (c : Cat) (fs : FS) : Op → Prop
  | .share path => ∀ content, fs (absPath env.cwd path) = some content → content.length < 2 ^ 63
  | .register size _ _ _ => size.toNat < 2 ^ 63
  | .list order => MapOrder c order
  | .missing h => ∀ e, observe c fs h = .ok e → e.progress.sizeOf ≤ 65536
  | .reader h _ ch => ∀ e, observe c fs h = .ok e → e.chunkSize.toNat < ch.countP (· == .good)
  | _ => True

theorem void_ok {α : Type} {x : CM α} {s s' : St} : CM.void x s = (.ok (), s') ↔ ∃ a, x s = (.ok a, s') := by
  unfold CM.void
  rw [IOM.bind_apply]
  rcases hx : x s with ⟨r, t⟩
  cases r <;> simp [IOM.pure_apply]

theorem clean_known (hh : Healthy env d) (hr : CleanReach env d dl (.running c fs)) (h : Sha1Hash) : (∃ e, observe c fs h = .ok e) ∨ observe c fs h = .err .fileNotFound := by
  obtain ⟨c', -, -, -, -, h4⟩ := C30_restart hh hr 0 0
  exact h4 h

/-- **C108**: after a history without faults and on a disk that works, a call of the catalogue reports success exactly if it should. -/
theorem C108_succeeds (hh : Healthy env d) (hr : CleanReach env d dl (.running c fs)) (o : Op) (ho : Sensible env c fs o) : (∃ s', o.run env ⟨c, fs, []⟩ = (.ok (), s')) ↔ Able env c fs o := by
  have known := clean_known hh hr
  cases o with
  | share path => 
    obtain ⟨ind, rfl, hs⟩ := hr.sync hh.abs hh.utf8
    show (∃ s', CM.void (shareFile env path) _ = _) ↔ _
    simp only [void_ok]
    constructor
    · rintro ⟨s', r, hrun⟩
      obtain ⟨content, h1, h2, -⟩ := C26_share hh hr.reach path [] r s' hrun
      exact ⟨content, h1, h2⟩
    · rintro ⟨content, h1, h2⟩
      rw [observe_eq, obsRec_notFound] at h2
      obtain ⟨r, s', h⟩ := shareFile_total env path d dl ind fs content h1 h2 (ho content h1)
      exact ⟨s', r, h⟩
  | unshare h =>
    constructor
    · rintro ⟨s', hrun⟩
      exact (C28_unshare hh hr.reach h [] s' hrun).1
    · rintro ⟨e, he⟩; exact unshare_total hh hr h e he
  | register size cs h name =>
    show (∃ s', CM.void _ _ = _) ↔ _
    simp only [void_ok]
    constructor
    · rintro ⟨s', e, hrun⟩
      have hnew : observe c fs h = .err .fileNotFound := by
        apply Classical.byContradiction
        intro hne
        obtain ⟨p, hp, -⟩ := C27_register_again hh hr.reach size cs h name [] hne
        rw [hp] at hrun; cases hrun
      refine ⟨hnew, Nat.pos_of_ne_zero (fun h0 => ?_)⟩
      obtain ⟨ind, rfl, hs⟩ := hr.sync hh.abs hh.utf8
      rw [observe_eq, obsRec_notFound] at hnew
      have hp : newProgressFile (downloadRecord dl size cs h name) d = .panic := (newProgressFile_panics_iff size cs h name dl d).2 (.inl h0)
      unfold registerDownload at hrun
      unfold downloadRecord at hp
      simp only [IOM.bind_apply, addIndexRecord_nil, hnew, getCat_apply, IOM.lift_apply, hp] at hrun
      cases hrun
    · rintro ⟨h1, h2⟩
      obtain ⟨ind, rfl, hs⟩ := hr.sync hh.abs hh.utf8
      rw [observe_eq, obsRec_notFound] at h1
      obtain ⟨e, s', hrun⟩ := registerDownload_total env size cs h name d dl ind fs h1 ho h2
      exact ⟨s', e, hrun⟩
  | list order =>
    refine ⟨fun _ => trivial, fun _ => ?_⟩
    obtain ⟨es, s', h, -⟩ := C30_list hh hr order ho
    exact ⟨s', void_ok.2 ⟨es, h⟩⟩
  | rehash h =>
    show (∃ s', CM.void _ _ = _) ↔ _
    simp only [void_ok]
    rw [exists_comm]
    exact C80_works hh hr.reach h
  | contains h =>
    show (∃ s', CM.void _ _ = _) ↔ _
    simp only [void_ok]
    rw [exists_comm]
    exact exists_congr (fun e => ⟨fun ⟨s', hrun⟩ => congrArg Prod.fst hrun, fun hobs => ⟨_, Prod.ext hobs rfl⟩⟩)
  | get h =>
    show (∃ s', CM.void _ _ = _) ↔ _
    simp only [void_ok]
    rw [exists_comm]
    exact exists_congr (fun e => by
      unfold catGet IOM.orPanic observe
      rcases hx : Flu.contains h ⟨c, fs, []⟩ with ⟨r, t⟩
      cases r <;> simp)
  | complete h =>
    show (∃ s', CM.void _ _ = _) ↔ _
    simp only [void_ok]
    constructor
    · rintro ⟨s', v, hrun⟩
      obtain ⟨e, he, -⟩ := C34_complete hh hr.reach h [] v s' hrun
      exact ⟨e, he⟩
    · rintro ⟨e, he⟩
      obtain ⟨v, s', hrun⟩ := (C34_total hh hr h e he).1
      exact ⟨s', v, hrun⟩
  | missing h =>
    show (∃ s', CM.void _ _ = _) ↔ _
    simp only [void_ok]
    constructor
    · rintro ⟨s', v, hrun⟩
      obtain ⟨e, he, -⟩ := C34_missing hh hr.reach h [] v s' hrun
      exact ⟨e, he⟩
    · rintro ⟨e, he⟩
      obtain ⟨v, s', hrun⟩ := (C34_total hh hr h e he).2 (ho e he)
      exact ⟨s', v, hrun⟩
  | save h n data =>
    constructor
    · rintro ⟨s', hrun⟩
      rcases known h with hk | hk
      · exact hk
      · obtain ⟨ind, rfl, hs⟩ := hr.sync hh.abs hh.utf8
        rw [observe_eq, obsRec_notFound] at hk
        have : saveChunk h n data ⟨⟨d, dl, some ind⟩, fs, []⟩ = (.ok (), s') := hrun
        unfold saveChunk at this
        have hp : IOM.orPanic (getIndexRecord h) ⟨⟨d, dl, some ind⟩, fs, []⟩ = (.panic, ⟨⟨d, dl, some ind⟩, fs, []⟩) := by
          unfold IOM.orPanic
          rw [getIndexRecord_nil, hk]
        rw [IOM.bind_apply, hp] at this
        cases this
    · rintro ⟨e, he⟩
      exact saveChunk_total hh hr.reach h n data e he
  | reader h n ch =>
    show (∃ s', CM.void _ _ = _) ↔ _
    simp only [void_ok]
    constructor
    · rintro ⟨s', o, hrun⟩
      rcases known h with ⟨e, he⟩ | hk
      · refine ⟨e, he, ?_⟩
        obtain ⟨ind, rfl, hs⟩ := hr.sync hh.abs hh.utf8
        rw [observe_eq] at he
        unfold obsRec at he
        rcases hm : mapGet ind.index h with _ | r
        · rw [hm] at he; cases he
        rw [hm] at he
        obtain ⟨p, hp, he⟩ := (Res.bind_ok_iff _ _ _).1 he
        cases he
        unfold getChunkReader at hrun
        simp only [IOM.bind_apply, getIndexRecord_nil, hm, hp, IOM.lift] at hrun
        unfold Export.saved
        simp only [Record.exportWith]
        rcases hg : p.progress.get (BitVec.ofNat 64 n) with b | _ | _ | _ | _ <;> rw [hg] at hrun <;> try cases hrun
        cases b
        · cases hrun
        · refine ⟨rfl, fun (h0 : fs r.filePath = none) => ?_⟩
          simp only [Bool.not_true, Bool.false_eq_true, ↓reduceIte, IOM.bind_apply, osTouch, nextFault, getFS, IOM.pure_apply] at hrun
          rw [h0] at hrun
          cases hrun
      · have h1 := C35_unknown hh hr.reach h n ch hk
        rw [hrun] at h1; cases h1
    · rintro ⟨e, he, hn, hf⟩
      obtain ⟨content, hf⟩ := Option.ne_none_iff_exists'.1 hf
      obtain ⟨cr, s', hrun⟩ := C35_serves hh hr.reach h n ch e content he hn hf (ho e he)
      exact ⟨s', _, hrun⟩

/-- The hypotheses can be met, and both answers occur: a catalogue with one shared file, which cannot be shared twice and can be read. -/
example (sha1 : Bytes → Sha1Hash) (json : JsonCodec) : ∃ c fs, CleanReach (exEnv sha1 json) exDir exDown (.running c fs) ∧
    Able (exEnv sha1 json) c fs (.unshare (sha1 [1, 2, 3])) ∧ Sensible (exEnv sha1 json) c fs (.share [102]) ∧ ¬ Able (exEnv sha1 json) c fs (.share [102]) ∧
    Able (exEnv sha1 json) c fs (.reader (sha1 [1, 2, 3]) 0 (List.replicate 4194305 .good)) ∧
    Sensible (exEnv sha1 json) c fs (.reader (sha1 [1, 2, 3]) 0 (List.replicate 4194305 .good)) := by
  obtain ⟨c, fs, b, h1, h2, h3, h4, h5, h6⟩ := ex_clean sha1 json
  have e : absPath (exEnv sha1 json).cwd [102] = absOf [[102]] := by
    show absPath [47] [102] = _
    decide
  refine ⟨c, fs, h1, ⟨_, h3⟩, ?_, ?_, ⟨_, h3, h5, by rw [h2]; simp⟩, ?_⟩
  · intro x hx
    rw [e, h2] at hx
    cases hx
    decide
  · rintro ⟨x, hx, hn⟩
    rw [e, h2] at hx
    cases hx
    rw [show (exEnv sha1 json).sha1 [1, 2, 3] = sha1 [1, 2, 3] from rfl, h3] at hn
    cases hn
  · intro x hx
    rw [h3] at hx
    cases hx
    rw [List.countP_replicate]
    show (4194304 : Int).toNat < 4194305
    decide

/-- **C108, again**: a file that is no longer shared can be shared again, also from another path and although it was a download before, and is then shown complete. -/
theorem C108_again (hh : Healthy env d) (hr : CleanReach env d dl (.running c fs)) (path : GoString) (content : Bytes) (e : Export) (hf : fs (absPath env.cwd path) = some content)
    (hp : ¬ CatFile d (absPath env.cwd path)) (hlen : content.length < 2 ^ 63) (he : observe c fs (env.sha1 content) = .ok e) :
    ∃ s' s'' r b, unshareFile env (env.sha1 content) ⟨c, fs, []⟩ = (.ok (), s') ∧ shareFile env path ⟨s'.cat, s'.fs, []⟩ = (.ok r, s'') ∧
      observe s''.cat s''.fs (env.sha1 content) = .ok ⟨absPath env.cwd path, content.length, env.sha1 content, b, 4194304⟩ ∧ b.full = .ok true ∧
      ∀ h, h ≠ env.sha1 content → observe s''.cat s''.fs h = observe c fs h := by
  obtain ⟨s', h1⟩ := (C108_succeeds hh hr (.unshare (env.sha1 content)) trivial).2 ⟨e, he⟩
  obtain ⟨-, h2, -, h4, h5⟩ := C28_unshare hh hr.reach _ [] s' h1
  have hr' := hr.call (.unshare (env.sha1 content)) c fs _ s' trivial h1 rfl
  have hf' : s'.fs (absPath env.cwd path) = some content := by
    rw [h5 _ (fun e => hp (.inl e)) (fun e => hp (.inr ⟨_, e⟩)), hf]
  obtain ⟨s'', h6⟩ := (C108_succeeds hh hr' (.share path) (fun x hx => by rw [hf'] at hx; cases hx; exact hlen)).2 ⟨content, hf', h2⟩
  obtain ⟨r, h6⟩ := void_ok.1 (show CM.void (shareFile env path) _ = _ from h6)
  obtain ⟨x, g1, -, g3, g4, -⟩ := C26_share hh hr'.reach path [] r s'' h6
  rw [hf'] at g1; cases g1
  obtain ⟨b, g3, -, gb, -⟩ := g3 hlen
  exact ⟨s', s'', r, b, h1, h6, g3, gb, fun h hne => (g4 h hne).trans (h4 h hne)⟩

/-- The hypotheses of `C108_again` can be met. -/
example (sha1 : Bytes → Sha1Hash) (json : JsonCodec) : ∃ c fs e, CleanReach (exEnv sha1 json) exDir exDown (.running c fs) ∧
    fs (absPath (exEnv sha1 json).cwd [102]) = some [1, 2, 3] ∧ ¬ CatFile exDir (absPath (exEnv sha1 json).cwd [102]) ∧ observe c fs ((exEnv sha1 json).sha1 [1, 2, 3]) = .ok e := by
  obtain ⟨c, fs, b, h1, h2, h3, h4, h5, h6⟩ := ex_clean sha1 json
  have e : absPath (exEnv sha1 json).cwd [102] = absOf [[102]] := by
    show absPath [47] [102] = _
    decide
  exact ⟨c, fs, _, h1, e ▸ h2, e ▸ ex_not_catFile 102 (by simp), h3⟩

end Flu
