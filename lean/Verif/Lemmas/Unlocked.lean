import Verif.Model.Unlocked
import Verif.Lemmas.CatPoint
/-!
# Facts about look-ups without the lock
-/
namespace Flu
open Spec

theorem orPanic_returns {σ α : Type} {x : IOM σ α} {s s' : σ} {r : Res α} (h : IOM.orPanic x s = (r, s')) :
    (∃ a, r = .ok a ∧ x s = (.ok a, s')) ∨ r = .panic ∨ r = .exit ∨ r = .crash := by
  unfold IOM.orPanic at h
  rcases hx : x s with ⟨q, s1⟩
  rw [hx] at h
  cases q <;> cases h
  · exact .inl ⟨_, rfl, rfl⟩
  · exact .inr (.inl rfl)
  · exact .inr (.inl rfl)
  · exact .inr (.inr (.inl rfl))
  · exact .inr (.inr (.inr rfl))

/-- What `SaveChunk` that returns does to the record of the file and its progress file. -/
theorem save_point {d dl : Path} {ind : IndexFile} {fs : FS} (hdir : ind.dataDir = d) (hw : WP d ind.index) (g : Sha1Hash)
    (n : UInt16) (data : Bytes) (fl : List Fault) (hsafe : (Op.save g n data).Safe d ⟨d, dl, some ind⟩) (res : Res Unit) (s' : St)
    (hrun : saveChunk g n data ⟨⟨d, dl, some ind⟩, fs, fl⟩ = (res, s')) (hret : res.returns = true) :
    ∃ r p ind' r', mapGet ind.index g = some r ∧ viewProgress d fs r = .ok p ∧ s'.cat = ⟨d, dl, some ind'⟩ ∧ ind'.dataDir = d ∧ WP d ind'.index ∧
      mapGet ind'.index g = some r' ∧
      ((res ≠ .ok () ∧ (r' = r ∨ r' = { r with progressFile := some p }) ∧ s'.fs (progressPath d g) = fs (progressPath d g)) ∨
        ∃ b, p.progress.set (BitVec.ofNat 64 n.toNat) = .ok b ∧ r' = { r with progressFile := some { p with progress := b } } ∧
          (s'.fs (progressPath d g) = fs (progressPath d g) ∨ ∃ k, s'.fs (progressPath d g) = some (b.serialize.take k)) ∧
          (res = .ok () → s'.fs (progressPath d g) = some b.serialize)) := by
  -- the record was found
  have hfound : ∃ r p, mapGet ind.index g = some r ∧ viewProgress d fs r = .ok p := by
    have hr := hrun
    unfold saveChunk at hr
    rw [IOM.bind_apply] at hr
    rcases hx : IOM.orPanic (getIndexRecord g) ⟨⟨d, dl, some ind⟩, fs, fl⟩ with ⟨q, s1⟩
    rw [hx] at hr
    rcases orPanic_returns hx with ⟨a, rfl, hok⟩ | rfl | rfl | rfl
    · obtain ⟨-, r0, p0, h1, h2, -⟩ := (ro_getIndexRecord (d := d) (dl := dl) (ind := ind) (fs0 := fs) hw.own g _ (RO.init d dl ind fs)).1 a s1 hok
      exact ⟨r0, p0, h1, h2⟩
    · cases hr; cases hret
    · cases hr; cases hret
    · cases hr; cases hret
  obtain ⟨r, p, hr, hp⟩ := hfound
  have hT := t_saveChunk_full (dl := dl) hw.own g n data r p hr hp ⟨_, fs, fl⟩ (RO.init d dl ind fs)
  have hpp : p.filePath = progressPath d g := view_path hw hr hp
  have hne : progressPath d g ≠ r.filePath := fun e => hsafe r.filePath (by simp [Cat.pathOf, hr]) (.inr ⟨g, e.symm⟩)
  have hk := (hw g r hr).1
  have hcw : chunkWritten fs r n.toNat data (progressPath d g) = fs (progressPath d g) := FS.put_other _ _ _ _ hne
  have more : ∀ {fs1 : FS}, MemMore d dl ind fs fs1 s'.cat s'.fs → fs1 (progressPath d g) = fs (progressPath d g) →
      ∃ ind' r', s'.cat = ⟨d, dl, some ind'⟩ ∧ ind'.dataDir = d ∧ WP d ind'.index ∧ mapGet ind'.index g = some r' ∧
        (r' = r ∨ r' = { r with progressFile := some p }) ∧ s'.fs (progressPath d g) = fs (progressPath d g) := by
    rintro fs1 ⟨h1, m', h2, hm⟩ h3
    rw [h1]
    rcases hm.2 g with h4 | ⟨r0, p0, h4, h5, h6, h7⟩
    · exact ⟨_, r, h2, hdir, hm.wp hw, h4.trans hr, .inl rfl, h3⟩
    · rw [hr] at h4; cases h4
      rw [hp] at h6; cases h6
      exact ⟨_, _, h2, hdir, hm.wp hw, h7, .inr rfl, h3⟩
  have set : ∀ {fs1 : FS} {b : Bitset}, MemSet d dl ind fs fs1 r p b s'.cat s'.fs →
      ∃ ind', s'.cat = ⟨d, dl, some ind'⟩ ∧ ind'.dataDir = d ∧ WP d ind'.index ∧
        mapGet ind'.index g = some { r with progressFile := some { p with progress := b } } ∧ s'.fs = fs1 := by
    rintro fs1 b ⟨h1, m', h2, hm⟩
    refine ⟨_, h2, hdir, ?_, ?_, h1⟩
    · exact (hm.wp hw).put { r with progressFile := some { p with progress := b } } (fun q hq => by cases hq; show p.filePath = progressPath d r.sha1Hash; rw [hpp, hk])
    · show mapGet (mapPut _ _ _) g = _
      rw [mapGet_put, if_pos hk]
  rcases Res.returns_cases hret with rfl | ⟨e, rfl⟩
  · obtain ⟨b, hb, -, hm⟩ := hT.1 () s' hrun
    obtain ⟨ind', h1, h2, h3, h4, h5⟩ := set hm
    have hfin : s'.fs (progressPath d g) = some b.serialize := by rw [h5, hpp, FS.put_same]
    exact ⟨r, p, ind', _, hr, hp, h1, h2, h3, h4, .inr ⟨b, hb, rfl, .inr ⟨b.serialize.length, by rw [hfin, List.take_length]⟩, fun _ => hfin⟩⟩
  · rcases hT.2 _ s' hrun (fun a e => by cases e) with h | ⟨x, h⟩ | ⟨b, hb, -, h | ⟨k, h⟩⟩
    · obtain ⟨ind', r', h1, h2, h3, h4, h5, h6⟩ := more h rfl
      exact ⟨r, p, ind', r', hr, hp, h1, h2, h3, h4, .inl ⟨(by intro e; cases e), h5, h6⟩⟩
    · obtain ⟨ind', r', h1, h2, h3, h4, h5, h6⟩ := more h (FS.put_other _ _ _ _ hne)
      exact ⟨r, p, ind', r', hr, hp, h1, h2, h3, h4, .inl ⟨(by intro e; cases e), h5, h6⟩⟩
    · obtain ⟨ind', h1, h2, h3, h4, h5⟩ := set h
      exact ⟨r, p, ind', _, hr, hp, h1, h2, h3, h4, .inr ⟨b, hb, rfl, .inl (by rw [h5]; exact hcw), by intro e; cases e⟩⟩
    · obtain ⟨ind', h1, h2, h3, h4, h5⟩ := set h
      exact ⟨r, p, ind', _, hr, hp, h1, h2, h3, h4, .inr ⟨b, hb, rfl, .inr ⟨k, by rw [h5, hpp, FS.put_same]⟩, by intro e; cases e⟩⟩

/-! ### The invariant of the running daemon -/

structure UInv (env : Env) (d dl : Path) (s : USt) : Prop where
  inv : Inv env d dl s.cat s.fs
  hold : ∀ t h p, s.look t = .holding h p → p.filePath = progressPath d h ∧ Loaded p.progress

theorem Look.keep_holding {c : Cat} {l : Look} {h : Sha1Hash} {p : ProgressFile} (e : l.keep c = .holding h p) : l = .holding h p := by
  cases l with
  | idle => cases e
  | looking k => simp only [Look.keep, Look.hash?] at e; split at e <;> cases e
  | holding k q => simp only [Look.keep, Look.hash?] at e; split at e <;> simp_all

theorem Look.keep_looking {c : Cat} {l : Look} {h : Sha1Hash} (e : l.keep c = .looking h) : l = .looking h := by
  cases l with
  | idle => cases e
  | looking k => simp only [Look.keep, Look.hash?] at e; split at e <;> simp_all
  | holding k q => simp only [Look.keep, Look.hash?] at e; split at e <;> cases e

theorem Look.keep_hash {c : Cat} {l : Look} {h : Sha1Hash} (e : (l.keep c).hash? = some h) : l.hash? = some h := by
  cases l with
  | idle => cases e
  | looking k =>
    by_cases hc : (c.record k).isSome
    · simpa [Look.keep, Look.hash?, hc] using e
    · simp [Look.keep, Look.hash?, hc] at e
  | holding k q =>
    by_cases hc : (c.record k).isSome
    · simpa [Look.keep, Look.hash?, hc] using e
    · simp [Look.keep, Look.hash?, hc] at e

theorem afterUCall_alive {look : Nat → Look} {r : Res Unit} {s : St} {x : USt} (h : afterUCall look r s = .alive x) :
    r.returns = true ∧ x = ⟨s.cat, s.fs, fun t => (look t).keep s.cat⟩ := by
  cases r <;> simp only [afterUCall] at h <;> cases h <;> exact ⟨rfl, rfl⟩

theorem afterUCall_returns {look : Nat → Look} {r : Res Unit} {s : St} (h : r.returns = true) :
    afterUCall look r s = .alive ⟨s.cat, s.fs, fun t => (look t).keep s.cat⟩ := by
  cases r <;> first | rfl | cases h

theorem afterRead_alive {s : USt} {t : Nat} {d : Path} {h : Sha1Hash} {data : Option Bytes} {x : USt} (e : afterRead s t d h data = .alive x) :
    x = s.setLook t .idle ∨ ∃ data' b, data = some data' ∧ Bitset.deserialize data' = .ok b ∧ x = s.setLook t (.holding h ⟨b, progressPath d h⟩) := by
  unfold afterRead at e
  split at e
  · cases e; exact .inl rfl
  · rename_i data'
    rcases hb : Bitset.deserialize data' with b | er | _ | _ | _ <;> rw [hb] at e <;> cases e
    · exact .inr ⟨data', b, rfl, hb, rfl⟩
    · exact .inl rfl

theorem Inv.store {env : Env} {d dl : Path} {c : Cat} {fs : FS} (hI : Inv env d dl c fs) (h : Sha1Hash) (p : ProgressFile) (hp : p.filePath = progressPath d h)
    (hl : Loaded p.progress) : Inv env d dl (c.storeProgress h p) fs := by
  obtain ⟨ind, rfl, hw⟩ := hI.split
  unfold Cat.storeProgress
  simp only
  rcases hr : mapGet ind.index h with _ | r
  · exact hI
  · have hk := hw.ownGet h r hr
    have hok := hw.recs h r (mapGet_mem _ _ _ hr)
    have := hw.put { r with progressFile := some p } ⟨hok.1, hok.2, fun q hq => by cases hq; exact ⟨by rw [hp, ← hk], hl⟩⟩
    exact ⟨rfl, rfl, ⟨_, rfl, by subst hk; exact this⟩, hI.disk⟩

theorem UInv.call {env : Env} {d dl : Path} {s : USt} (hd : AbsClean d) (h : UInv env d dl s) (o : Op) (fl : List Fault) (hsafe : o.Safe d s.cat) {r : Res Unit} {s1 : St}
    (hrun : o.run env ⟨s.cat, s.fs, fl⟩ = (r, s1)) : UInv env d dl ⟨s1.cat, s1.fs, fun t => (s.look t).keep s1.cat⟩ := by
  refine ⟨?_, fun t k p hl => h.hold t k p (Look.keep_holding hl)⟩
  have hT := t_op (env := env) (dl := dl) hd o ⟨s.cat, s.fs, fl⟩ ⟨h.inv, hsafe⟩
  cases r with
  | ok a => exact hT.1 a s1 hrun
  | err e => exact hT.2 _ s1 hrun (fun a e => by cases e)
  | panic => exact hT.2 _ s1 hrun (fun a e => by cases e)
  | exit => exact hT.2 _ s1 hrun (fun a e => by cases e)
  | crash => exact hT.2 _ s1 hrun (fun a e => by cases e)

theorem UInv.setLook {env : Env} {d dl : Path} {s : USt} (h : UInv env d dl s) (t : Nat) (l : Look)
    (hl : ∀ k p, l = .holding k p → p.filePath = progressPath d k ∧ Loaded p.progress) : UInv env d dl (s.setLook t l) := by
  refine ⟨h.inv, ?_⟩
  intro t' k p e
  unfold USt.setLook at e
  simp only at e
  split at e
  · exact hl k p e
  · exact h.hold t' k p e

theorem UInv.afterRead {env : Env} {d dl : Path} {s : USt} (h : UInv env d dl s) (t : Nat) (k : Sha1Hash) (data : Option Bytes)
    (hdata : ∀ x, data = some x → ∃ full, x <+: full ∧ s.fs (progressPath d k) = some full) {x : USt} (e : afterRead s t d k data = .alive x) : UInv env d dl x := by
  rcases afterRead_alive e with rfl | ⟨data', b, rfl, hb, rfl⟩
  · exact h.setLook t _ (fun _ _ e => by cases e)
  · refine h.setLook t _ ?_
    intro k' p e
    cases e
    obtain ⟨full, h1, h2⟩ := hdata _ rfl
    obtain ⟨b0, h3, h4⟩ := h.inv.disk.progress k full h2
    exact ⟨rfl, h3.torn data' (h1.trans h4) hb⟩

theorem UInv.step {env : Env} {d dl : Path} {s : USt} (hd : AbsClean d) (h : UInv env d dl s) {a : UAct} {x : USt} (hs : UStep env d s a (.alive x)) :
    UInv env d dl x := by
  generalize hy : USys.alive x = y at hs
  cases hs with
  | call o fl hsafe =>
    obtain ⟨-, rfl⟩ := afterUCall_alive hy.symm
    exact h.call hd o fl hsafe rfl
  | begin t k r hidle hr hn => cases hy; exact h.setLook t _ (fun _ _ e => by cases e)
  | read t k hl => exact h.afterRead t k _ (fun x hx => ⟨x, List.prefix_refl _, hx⟩) hy.symm
  | readFails t k hl => cases hy; exact h.setLook t _ (fun _ _ e => by cases e)
  | readDuring t k n data fl m s1 new hl hsafe hcall hnew =>
    obtain ⟨-, rfl⟩ := afterUCall_alive hcall
    have h1 := h.call hd (.save k n data) fl hsafe (r := (saveChunk k n data ⟨s.cat, s.fs, fl⟩).1) (s1 := (saveChunk k n data ⟨s.cat, s.fs, fl⟩).2) rfl
    exact h1.afterRead t k _ (fun x hx => ⟨new, by cases hx; exact List.take_prefix _ _, hnew⟩) hy.symm
  | store t k p hl =>
    cases hy
    obtain ⟨h1, h2⟩ := h.hold t k p hl
    refine ⟨h.inv.store k p h1 h2, ?_⟩
    intro t' k' p' e
    exact (h.setLook t .idle (fun _ _ e => by cases e)).hold t' k' p' e
  | user p v hp => cases hy; exact ⟨⟨h.inv.dataDir, h.inv.downloadsDir, h.inv.mem, h.inv.disk.putOther p hp v⟩, h.hold⟩

theorem UInv.run {env : Env} {d dl : Path} {s : USt} (hd : AbsClean d) (h : UInv env d dl s) {as : List UAct} {x : USys} (hs : URun env d s as x) :
    ∀ s', x = .alive s' → UInv env d dl s' := by
  induction hs with
  | refl => intro s' e; cases e; exact h
  | step h1 hs ih => intro s' e; subst e; exact (ih _ rfl).step hd hs

end Flu
