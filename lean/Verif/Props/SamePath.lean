import Verif.Props.EndToEnd
import Verif.Props.OwnFiles
/-!
# Two files with the same path (C86)
-/
namespace Flu
open Spec

/-- Full statement: saving a chunk of one file never changes the content of another file of the catalogue. -/
def C86_statement (env : Env) (d dl : Path) : Prop :=
  ∀ c fs, Reach env d dl (.running c fs) → ∀ g e, observe c fs g = .ok e → ¬ CatFile d e.filePath → ∀ h n data fl r s', h ≠ g →
    saveChunk h n data ⟨c, fs, fl⟩ = (r, s') → s'.fs e.filePath = fs e.filePath

section
variable {env : Env} {d dl : Path} {c : Cat} {fs : FS}

/-- C86, the part that holds: as long as no other file of the catalogue has the same path, downloads of other files, calls about other files, and other programs that leave the
file alone change neither its content nor what the catalogue says about it.  Missing from the full statement: files that share a path. -/
theorem C86_partial (hh : Healthy env d) (g : Sha1Hash) (e : Export) (hpath : ¬ CatFile d e.filePath) (s0 : DLState) (hreach : Reach env d dl (.running s0.cat s0.fs))
    (ho : observe s0.cat s0.fs g = .ok e) (h0 : ∀ t th, s0.threads t = some th → th.hash ≠ g) (hu0 : ∀ k, k ≠ g → s0.cat.pathOf k ≠ some e.filePath) (s : DLState)
    (hrun : DLRun env d (fun a x => (∀ o, a = .call o → ¬ o.Touches g) ∧ a ≠ .user e.filePath ∧
      ∀ s, x = .alive s → (∀ t th, s.threads t = some th → th.hash ≠ g) ∧ ∀ k, k ≠ g → s.cat.pathOf k ≠ some e.filePath) s0 (.alive s)) :
    s.fs e.filePath = s0.fs e.filePath ∧ observe s.cat s.fs g = .ok e := by
  generalize hx : DLSys.alive s = x at hrun
  suffices ∀ s, x = .alive s → Reach env d dl (.running s.cat s.fs) ∧ (s.fs e.filePath = s0.fs e.filePath ∧ observe s.cat s.fs g = .ok e) ∧
      (∀ t th, s.threads t = some th → th.hash ≠ g) ∧ ∀ k, k ≠ g → s.cat.pathOf k ≠ some e.filePath from (this s hx.symm).2.1
  clear hx
  induction hrun with
  | refl => intro s hs; cases hs; exact ⟨hreach, ⟨rfl, ho⟩, h0, hu0⟩
  | @step s1 x a hr hst hok ih =>
    intro s2 hs; subst hs
    obtain ⟨h1, ⟨h2, h3⟩, h4, h5⟩ := ih s1 rfl
    refine ⟨hst.reach h1, ⟨?_, ?_⟩, hok.2.2 s2 rfl⟩
    · rw [← h2]
      rcases hst.effect.1 with ⟨_, q2⟩ | ⟨p, x, rfl, hp, _, q2⟩ | ⟨o, fl, r, st', q1, q2, q3, q4, q5, q6⟩
      · rw [q2]
      · rw [q2]; exact FS.put_other _ _ _ _ (fun e' => hok.2.1 (by rw [e']))
      · rw [q5]
        have other : ∀ k n data, o = .save k n data → k ≠ g := by
          rintro k n data rfl hk
          subst hk
          rcases q6 with rfl | ⟨t, th, rfl, ht, -, q6⟩
          · exact hok.1 _ rfl rfl
          · rcases q6 with q6 | ⟨n', b, hx, -⟩
            · exact q6 k rfl
            · cases hx; exact h4 t th ht rfl
        exact C75_call hh h1 o e.filePath hpath (fun k n data ho' => h5 k (other k n data ho')) fl r st' q2
    · rw [hst.elsewhere hh h1 g (by rw [h3]; intro hx; cases hx) hok.1 (fun t th _ ht _ => h4 t th ht), h3]

/-- C86: two downloads with plain names get the same path exactly if the names are the same. -/
theorem C86_names {c' : Cat} {fs' : FS} (hh : Healthy env d) (hdl : AbsClean dl) (hr : Reach env d dl (.running c fs)) (hr' : Reach env d dl (.running c' fs'))
    (size size' : UInt64) (cs cs' : UInt32) (h h' : Sha1Hash) (name name' : GoString) (hn : name ≠ [] ∧ name ≠ [46] ∧ name ≠ [46, 46] ∧ (47 : UInt8) ∉ name)
    (hn' : name' ≠ [] ∧ name' ≠ [46] ∧ name' ≠ [46, 46] ∧ (47 : UInt8) ∉ name') (fl fl' : List Fault) (e e' : Export) (s s' : St)
    (hrun : registerDownload env size cs h name ⟨c, fs, fl⟩ = (.ok e, s)) (hrun' : registerDownload env size' cs' h' name' ⟨c', fs', fl'⟩ = (.ok e', s')) :
    e.filePath = e'.filePath ↔ name = name' := by
  rw [(C36_partial hh hdl hr size cs h name hn fl e s hrun).2, (C36_partial hh hdl hr' size' cs' h' name' hn' fl' e' s' hrun').2]
  constructor
  · intro hx
    exact List.cons.inj (List.append_cancel_left hx) |>.2
  · rintro rfl; rfl

/-- C86: whenever a file of the catalogue lies where a download called `name` would go, a peer who offers any other file under that name overwrites it: the first chunk goes over the
beginning of the user's file, and the catalogue says about it what it said before. -/
theorem C86_overwrites (hh : Healthy env d) (hr : Reach env d dl (.running c fs)) (g : Sha1Hash) (e : Export) (ho : observe c fs g = .ok e) (name : GoString)
    (hname : e.filePath = joinPath [dl, name]) (hpath : ¬ CatFile d e.filePath) (h : Sha1Hash) (hun : observe c fs h = .err .fileNotFound)
    (size : UInt64) (cs : UInt32) (hsize : size.toNat < 2 ^ 63) (hcs : 0 < cs.toNat) :
    ∃ e1 s1, registerDownload env size cs h name ⟨c, fs, []⟩ = (.ok e1, s1) ∧ ∀ X, ∃ s2, saveChunk h 0 X ⟨s1.cat, s1.fs, []⟩ = (.ok (), s2) ∧
      s2.fs e.filePath = some (overlay ((fs e.filePath).getD []) 0 X) ∧ observe s2.cat s2.fs g = .ok e := by
  have hgh : h ≠ g := by rintro rfl; rw [ho] at hun; cases hun
  obtain ⟨e1, s1, hreg⟩ : ∃ e1 s1, registerDownload env size cs h name ⟨c, fs, []⟩ = (.ok e1, s1) := by
    obtain ⟨ind, rfl, hw⟩ := (hr.inv hh.abs hh.utf8).split
    rw [observe_eq, obsRec_notFound] at hun
    exact registerDownload_total env size cs h name d dl ind fs hun hsize hcs
  refine ⟨e1, s1, hreg, ?_⟩
  intro X
  have hr1 : Reach env d dl (.running s1.cat s1.fs) := hr.call (.register size cs h name) trivial [] s1 (CM.void_ok _ _ _ _ hreg)
  obtain ⟨-, ⟨b, he1, hobs, -⟩, hothers, hfiles⟩ := C29_register hh hr size cs h name [] e1 s1 hsize hcs hreg
  have hp1 : e1.filePath = e.filePath := by rw [he1, hname]
  have hsafe : (Op.save h 0 X).Safe d s1.cat := by
    intro p hp
    rw [observe_path hh hr1 h e1 hobs] at hp
    cases hp; rw [hp1]; exact hpath
  obtain ⟨s2, hsave⟩ := saveChunk_total hh hr1 h 0 X e1 hobs
  obtain ⟨e0, e', k1, -, -, -, -, k2, -⟩ := saveChunk_effect hh hr1 h 0 X [] hsafe s2 hsave
  rw [hobs] at k1; cases k1
  refine ⟨s2, hsave, ?_, ?_⟩
  · rw [← hp1, k2, hp1, hfiles _ (fun e' => hpath (.inl e')) (fun e' => hpath (.inr ⟨_, e'⟩))]
    simp
  · refine C67_call hh hr1 g e ?_ (.save h 0 X) hsafe (fun hx => hgh hx) [] (.ok ()) s2 hsave
    rw [hothers g (fun e' => hgh e'.symm)]; exact ho

/-- A download called `a` does not lie on the catalogue's files. -/
theorem name_a (hd : AbsClean d) (hdl : AbsClean dl) : ¬ CatFile d (joinPath [dl, [97]]) := by
  obtain ⟨ds, hds, rfl⟩ := hd
  obtain ⟨ws, hws, rfl⟩ := hdl
  have ha : Plain [97] := ⟨by decide, by decide, by decide, by decide⟩
  rw [joinPath_plain ws hws _ ha]
  rintro (e | ⟨x, e⟩)
  · rw [indexPath_abs _ hds] at e
    have := absOf_inj _ _ (plain_snoc hws ha) (plain_snoc hds plain_indexFileName) e
    have h2 := List.append_inj_right' this (by simp)
    rw [indexFileName_eq] at h2
    simp at h2
  · rw [progressPath_abs _ hds] at e
    have := absOf_inj _ _ (plain_snoc hws ha) (plain_snoc hds (plain_hash x)) e
    have h2 := List.append_inj_right' this (by simp)
    have h3 := toString_length x
    rw [← List.cons.inj h2 |>.1] at h3
    simp at h3

/-- C86 is false of the code: for every environment. -/
theorem C86_refuted (hh : Healthy env d) (hdl : AbsClean dl) : ¬ C86_statement env d dl := by
  intro hall
  have hr := (CleanReach.fresh env d dl hh.utf8 (fun _ => none) (fun _ _ => rfl)).reach
  have hnc := name_a hh.abs hdl
  let g : Sha1Hash := Sha1Hash.zero
  let h : Sha1Hash := ⟨1 :: List.replicate 19 0, by decide⟩
  have hgh : h ≠ g := by
    intro e
    have := congrArg Subtype.val e
    revert this; decide
  obtain ⟨e, s, hrun⟩ := registerDownload_total env 1 1 g [97] d dl (freshIdx env d) _ rfl (by decide) (by decide)
  obtain ⟨-, ⟨b, he, ho, -⟩, hothers, hfiles⟩ := C29_register hh hr 1 1 g [97] [] e s (by decide) (by decide) hrun
  have hr1 : Reach env d dl (.running s.cat s.fs) := hr.call (.register 1 1 g [97]) trivial [] s (CM.void_ok _ _ _ _ hrun)
  have hpath : e.filePath = joinPath [dl, [97]] := by rw [he]
  have hnone : s.fs e.filePath = none := by
    rw [hpath, hfiles _ (fun x => hnc (.inl x)) (fun x => hnc (.inr ⟨_, x⟩)), FS.put_other _ _ _ _ (fun x => hnc (.inl x))]
  have hun : observe s.cat s.fs h = .err .fileNotFound := by rw [hothers h hgh]; rfl
  obtain ⟨e1, s1, hreg, hX⟩ := C86_overwrites hh hr1 g e ho [97] hpath (by rw [hpath]; exact hnc) h hun 1 1 (by decide) (by decide)
  obtain ⟨s2, hsave, hc, -⟩ := hX [1]
  have hr2 : Reach env d dl (.running s1.cat s1.fs) := hr1.call (.register 1 1 h [97]) trivial [] s1 (CM.void_ok _ _ _ _ hreg)
  obtain ⟨-, -, hothers1, hfiles1⟩ := C29_register hh hr1 1 1 h [97] [] e1 s1 (by decide) (by decide) hreg
  have ho1 : observe s1.cat s1.fs g = .ok e := by rw [hothers1 g (fun x => hgh x.symm)]; exact ho
  have := hall _ _ hr2 g e ho1 (by rw [hpath]; exact hnc) h 0 [1] [] _ s2 hgh hsave
  rw [hc, hpath, hfiles1 _ (fun x => hnc (.inl x)) (fun x => hnc (.inr ⟨_, x⟩)), ← hpath, hnone] at this
  cases this

/-! ### Examples -/

/-- One file, `/w/a`, in the catalogue. -/
theorem ex_one (sha1 : Bytes → Sha1Hash) (json : JsonCodec) (g : Sha1Hash) : ∃ e s, registerDownload (exEnv sha1 json) 1 1 g [97]
      ⟨⟨exDir, exDown, some (freshIdx (exEnv sha1 json) exDir)⟩, exFS1 sha1 json, []⟩ = (.ok e, s) ∧ Reach (exEnv sha1 json) exDir exDown (.running s.cat s.fs) ∧
    observe s.cat s.fs g = .ok e ∧ e.filePath = joinPath [exDown, [97]] ∧ ¬ CatFile exDir e.filePath ∧
    ∀ k, k ≠ g → s.cat.pathOf k = none ∧ observe s.cat s.fs k = .err .fileNotFound := by
  have hh := ex_healthy sha1 json
  have hr := ex_reach sha1 json
  obtain ⟨e, s, hrun⟩ := registerDownload_total (exEnv sha1 json) 1 1 g [97] exDir exDown (freshIdx (exEnv sha1 json) exDir) (exFS1 sha1 json) rfl (by decide) (by decide)
  obtain ⟨-, ⟨b, he, ho, -⟩, hothers, -⟩ := C29_register hh hr 1 1 g [97] [] e s (by decide) (by decide) hrun
  obtain ⟨p, m1, fs1, h1, h2, h3, h4, h5, -⟩ := registerDownload_ok _ _ _ _ _ _ _ _ _ _ _ _ hrun
  have hpath : e.filePath = joinPath [exDown, [97]] := by rw [he]
  refine ⟨e, s, hrun, hr.call (.register 1 1 g [97]) trivial [] s (CM.void_ok _ _ _ _ hrun), ho, hpath, ?_, ?_⟩
  · rw [hpath]; exact name_a hh.abs ⟨_, ex_plain 119 (by simp), rfl⟩
  · intro k hk
    refine ⟨?_, by rw [hothers k hk]; rfl⟩
    rw [h5, h3]
    show Option.map _ (mapGet _ k) = none
    rw [mapGet_put, if_neg (fun e => hk e.symm), mapGet_put, if_neg (fun e => hk e.symm)]; rfl

/-- `C86_partial`: that state, and a run in which the download of another file is asked for. -/
example (sha1 : Bytes → Sha1Hash) (json : JsonCodec) (g h : Sha1Hash) (hgh : h ≠ g) : ∃ (e : Export) (s0 s : DLState),
    Reach (exEnv sha1 json) exDir exDown (.running s0.cat s0.fs) ∧ observe s0.cat s0.fs g = .ok e ∧ ¬ CatFile exDir e.filePath ∧
    (∀ t th, s0.threads t = some th → th.hash ≠ g) ∧ (∀ k, k ≠ g → s0.cat.pathOf k ≠ some e.filePath) ∧ (∃ th, s.threads 1 = some th ∧ th.hash = h) ∧
    DLRun (exEnv sha1 json) exDir (fun a x => (∀ o, a = .call o → ¬ o.Touches g) ∧ a ≠ .user e.filePath ∧
      ∀ s, x = .alive s → (∀ t th, s.threads t = some th → th.hash ≠ g) ∧ ∀ k, k ≠ g → s.cat.pathOf k ≠ some e.filePath) s0 (.alive s) := by
  obtain ⟨e, s1, -, h1, h2, h3, h4, h5⟩ := ex_one sha1 json g
  have hu : ∀ k, k ≠ g → s1.cat.pathOf k ≠ some e.filePath := by
    intro k hk; rw [(h5 k hk).1]; exact fun hx => by cases hx
  refine ⟨e, ⟨s1.cat, s1.fs, false, fun _ => false, fun _ => none⟩, _, h1, h2, h4, ?_, hu, ?_, .step (.thread 1) .refl (.start 1 h _ rfl) ⟨?_, ?_, ?_⟩⟩
  · intro t th ht; cases ht
  · exact ⟨⟨h, .check, []⟩, by simp [upd], rfl⟩
  · intro o ho; cases ho
  · intro ho; cases ho
  · intro s hs
    cases hs
    refine ⟨?_, hu⟩
    intro t th ht
    simp only [upd] at ht
    split at ht
    · cases ht; exact hgh
    · cases ht

/-- `C86_overwrites`, `C86_names`: that state, with a file that the catalogue does not have. -/
example (sha1 : Bytes → Sha1Hash) (json : JsonCodec) (g h : Sha1Hash) (hgh : h ≠ g) : ∃ (e : Export) (s : St), Healthy (exEnv sha1 json) exDir ∧ AbsClean exDown ∧
    Reach (exEnv sha1 json) exDir exDown (.running s.cat s.fs) ∧ observe s.cat s.fs g = .ok e ∧ e.filePath = joinPath [exDown, [97]] ∧ ¬ CatFile exDir e.filePath ∧
    observe s.cat s.fs h = .err .fileNotFound ∧ ([97] ≠ [] ∧ [97] ≠ [46] ∧ [97] ≠ [46, 46] ∧ (47 : UInt8) ∉ ([97] : GoString)) := by
  obtain ⟨e, s1, -, h1, h2, h3, h4, h5⟩ := ex_one sha1 json g
  exact ⟨e, s1, ex_healthy sha1 json, ⟨_, ex_plain 119 (by simp), rfl⟩, h1, h2, h3, h4, (h5 h hgh).2, by decide⟩

end
end Flu
