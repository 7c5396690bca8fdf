import Verif.Lemmas.Unlocked
import Verif.Props.CatSave
import Verif.Lemmas.Json2
/-!
# C72, C73: looking files up without the lock

`Contains` and `Rehash` do not take the catalogue's lock.  C72: does progress that was recorded survive look-ups that run at the same time?  C73: can a look-up kill
the daemon?
-/
namespace Flu
open Spec

/-- Something the daemon does that removes the file from the catalogue. -/
def UAct.Removes (h : Sha1Hash) : UAct → Prop
  | .call (.unshare k) _ => k = h
  | _ => False

/-- A chunk is saved in this step. -/
def UAct.Saves (h : Sha1Hash) (i : Nat) : UAct → Prop
  | .call (.save k n _) _ => k = h ∧ n.toNat = i
  | .readDuring _ k n _ _ _ => k = h ∧ n.toNat = i
  | _ => False

/-- The chunk is saved without meeting a fault, if this step saves one. -/
def UAct.SavesCleanly (h : Sha1Hash) : UAct → Prop
  | .call (.save k _ _) fl => k = h → fl = []
  | .readDuring _ k _ _ fl _ => k = h → fl = []
  | _ => True

/-- States of a daemon with look-ups in progress. -/
def UReach (env : Env) (d dl : Path) (s : USt) : Prop :=
  ∃ c fs as, Reach env d dl (.running c fs) ∧ URun env d ⟨c, fs, noLook⟩ as (.alive s)

variable {env : Env} {d dl : Path} {c : Cat} {fs : FS} {s : USt} {h : Sha1Hash}

theorem UInv.of_reach (hh : Healthy env d) (hr : Reach env d dl (.running c fs)) : UInv env d dl ⟨c, fs, noLook⟩ :=
  ⟨hr.inv hh.abs hh.utf8, fun _ _ _ e => by cases e⟩

theorem UReach.inv (hh : Healthy env d) (hs : UReach env d dl s) : UInv env d dl s := by
  obtain ⟨c, fs, as, hr, hrun⟩ := hs
  exact (UInv.of_reach hh hr).run hh.abs hrun s rfl

theorem afterRead_cat {s : USt} {t : Nat} {d : Path} {h : Sha1Hash} {data : Option Bytes} {x : USt} (e : afterRead s t d h data = .alive x) :
    x.cat = s.cat ∧ x.fs = s.fs := by
  rcases afterRead_alive e with rfl | ⟨_, _, _, _, rfl⟩ <;> exact ⟨rfl, rfl⟩

theorem pt_store {g k : Sha1Hash} {φ : Option Record → Option Bytes → Prop} {p : ProgressFile} (hne : k ≠ g) (hp : p.filePath = progressPath d k)
    (h : Pt d dl g φ c fs) : Pt d dl g φ (c.storeProgress k p) fs := by
  obtain ⟨ind, rfl, h1, h2, h3⟩ := h
  unfold Cat.storeProgress
  simp only
  rcases hr : mapGet ind.index k with _ | r
  · exact ⟨ind, rfl, h1, h2, h3⟩
  · have hk := (h2 k r hr).1
    refine ⟨_, rfl, h1, ?_, ?_⟩
    · have := h2.put { r with progressFile := some p } (fun q hq => by cases hq; rw [hp]; show _ = progressPath d r.sha1Hash; rw [hk])
      subst hk; exact this
    · show φ (mapGet (mapPut _ _ _) g) _
      rw [mapGet_put, if_neg hne]; exact h3

theorem pt_put {g : Sha1Hash} {φ : Option Record → Option Bytes → Prop} {p : Path} {x : Option Bytes} (hp : ¬ CatFile d p)
    (h : Pt d dl g φ c fs) : Pt d dl g φ c (fs.put p x) := by
  obtain ⟨ind, rfl, h1, h2, h3⟩ := h
  refine ⟨ind, rfl, h1, h2, ?_⟩
  rw [FS.put_other _ _ _ _ (fun e => hp (.inr ⟨g, e.symm⟩))]; exact h3

/-- A fact about the file `h` survives a step, if saving its chunks and storing looked-up progress preserve it. -/
theorem pt_ustep (hh : Healthy env d) {φ : Option Record → Option Bytes → Prop} (hf : Frame d h φ) (hI : UInv env d dl s) (hp : Pt d dl h φ s.cat s.fs) {a : UAct} {x : USt}
    (hrm : ¬ a.Removes h)
    (hsave : ∀ n data fl r s1, (Op.save h n data).Safe d s.cat → a.Saves h n.toNat → (a.SavesCleanly h → fl = []) →
      saveChunk h n data ⟨s.cat, s.fs, fl⟩ = (r, s1) → r.returns = true → Pt d dl h φ s1.cat s1.fs)
    (hstore : ∀ t p, s.look t = .holding h p → Pt d dl h φ (s.cat.storeProgress h p) s.fs)
    (hs : UStep env d s a (.alive x)) : Pt d dl h φ x.cat x.fs := by
  generalize hy : USys.alive x = y at hs
  cases hs with
  | call o fl hsafe =>
    obtain ⟨hret, rfl⟩ := afterUCall_alive hy.symm
    by_cases ht : o.Touches h
    · cases o with
      | unshare k => exact absurd ht hrm
      | save k n data => cases ht; exact hsave n data fl _ _ hsafe ⟨rfl, rfl⟩ (fun e => e rfl) rfl hret
      | _ => exact absurd ht id
    · exact pt_op hf hh.abs o ht hsafe hp fl _ _ rfl
  | begin t k r hidle hr hn => cases hy; exact hp
  | read t k hl => obtain ⟨e1, e2⟩ := afterRead_cat hy.symm; rw [e1, e2]; exact hp
  | readFails t k hl => cases hy; exact hp
  | readDuring t k n data fl m s1 new hl hsafe hcall hnew =>
    obtain ⟨e1, e2⟩ := afterRead_cat hy.symm
    obtain ⟨hret, rfl⟩ := afterUCall_alive hcall
    rw [e1, e2]
    by_cases hk : k = h
    · subst hk; exact hsave n data fl _ _ hsafe ⟨rfl, rfl⟩ (fun e => e rfl) rfl hret
    · exact pt_op (env := env) hf hh.abs (.save k n data) hk hsafe hp fl _ _ rfl
  | store t k p hl =>
    cases hy
    by_cases hk : k = h
    · subst hk; exact hstore t p hl
    · exact pt_store hk (hI.hold t k p hl).1 hp
  | user p v hpu => cases hy; exact pt_put hpu hp

/-- Who looks a file up after a step did so before, or has just begun. -/
theorem look_ustep {a : UAct} {x : USt} (hs : UStep env d s a (.alive x)) {t : Nat} (ht : (x.look t).hash? = some h) :
    (s.look t).hash? = some h ∨ ∃ r, s.cat.record h = some r ∧ r.progressFile = none := by
  have set : ∀ {s : USt} {t' : Nat} {l : Look}, ((s.setLook t' l).look t).hash? = some h → (s.look t).hash? = some h ∨ (t = t' ∧ l.hash? = some h) := by
    intro s t' l e
    unfold USt.setLook at e
    simp only at e
    split at e
    · rename_i e'; exact .inr ⟨e', e⟩
    · exact .inl e
  have after : ∀ {s : USt} {t' : Nat} {k : Sha1Hash} {data : Option Bytes}, afterRead s t' d k data = .alive x → (s.look t').hash? = some k → (s.look t).hash? = some h := by
    intro s t' k data e hk
    rcases afterRead_alive e with rfl | ⟨_, _, _, _, rfl⟩
    · rcases set ht with h1 | ⟨-, h1⟩
      · exact h1
      · cases h1
    · rcases set ht with h1 | ⟨rfl, h1⟩
      · exact h1
      · rw [hk]; exact h1
  generalize hy : USys.alive x = y at hs
  cases hs with
  | call o fl hsafe =>
    obtain ⟨-, rfl⟩ := afterUCall_alive hy.symm
    exact .inl (Look.keep_hash ht)
  | begin t' k r hidle hr hn =>
    cases hy
    rcases set ht with h1 | ⟨rfl, h1⟩
    · exact .inl h1
    · cases h1; exact .inr ⟨r, hr, hn⟩
  | read t' k hl => exact .inl (after hy.symm (by rw [hl]; rfl))
  | readFails t' k hl =>
    cases hy
    rcases set ht with h1 | ⟨-, h1⟩
    · exact .inl h1
    · cases h1
  | readDuring t' k n data fl m s1 new hl hsafe hcall hnew =>
    obtain ⟨-, rfl⟩ := afterUCall_alive hcall
    rcases afterRead_alive hy.symm with rfl | ⟨_, _, _, _, rfl⟩
    · rcases set ht with h1 | ⟨-, h1⟩
      · exact .inl (Look.keep_hash h1)
      · cases h1
    · rcases set ht with h1 | ⟨rfl, h1⟩
      · exact .inl (Look.keep_hash h1)
      · cases h1; exact .inl (by rw [hl]; rfl)
  | store t' k p hl =>
    cases hy
    rcases set (s := s) ht with h1 | ⟨-, h1⟩
    · exact .inl h1
    · cases h1
  | user p v hpu => cases hy; exact .inl ht

theorem set_chunk {b b' : Bitset} {n : UInt16} (e : b.set (BitVec.ofNat 64 n.toNat) = .ok b') (i : Nat) : b'.has i = true ↔ b.has i = true ∨ i = n.toNat := by
  have hn := n.toNat_lt
  have e1 : (BitVec.ofNat 64 n.toNat).toNat = n.toNat := by rw [BitVec.toNat_ofNat]; omega
  obtain ⟨x, h1, -, h2⟩ := Bitset.set_eq b (BitVec.ofNat 64 n.toNat) (by omega)
  rw [h1] at e; cases e
  rw [h2, e1]; simp

theorem set_chunk_loaded {b b' : Bitset} {n : UInt16} (w : Loaded b) (e : b.set (BitVec.ofNat 64 n.toNat) = .ok b') : Loaded b' := by
  have hn := n.toNat_lt
  exact w.set _ (by rw [BitVec.toNat_ofNat]; omega) e

theorem Pt.record {φ : Option Record → Option Bytes → Prop} (hp : Pt d dl h φ c fs) : φ (c.record h) (fs (progressPath d h)) := by
  obtain ⟨ind, rfl, -, -, hφ⟩ := hp
  exact hφ

theorem Inv.pt {φ : Option Record → Option Bytes → Prop} (hI : Inv env d dl c fs) (hφ : φ (c.record h) (fs (progressPath d h))) : Pt d dl h φ c fs := by
  obtain ⟨ind, rfl, hw⟩ := hI.split
  exact ⟨ind, rfl, hw.dir, hw.wp, hφ⟩

/-- What the catalogue shows, by record. -/
theorem observe_record (hI : Inv env d dl c fs) (e : Export) : observe c fs h = .ok e ↔ ∃ r p, c.record h = some r ∧ viewProgress d fs r = .ok p ∧ e = r.exportWith p := by
  obtain ⟨ind, rfl, hw⟩ := hI.split
  rw [observe_eq]
  unfold obsRec
  show _ ↔ ∃ r p, mapGet ind.index h = some r ∧ _
  rcases hm : mapGet ind.index h with _ | r
  · simp
  · constructor
    · intro he
      obtain ⟨p, h1, h2⟩ := (Res.bind_ok_iff _ _ _).1 he
      cases h2
      exact ⟨r, p, rfl, h1, rfl⟩
    · rintro ⟨r', p, h1, h2, rfl⟩
      cases h1
      show (do let p ← viewProgress d fs r; return r.exportWith p) = _
      rw [h2]; rfl

/-! ### Progress in memory, and nobody looking the file up -/

/-- The progress of the record is in memory and contains `B`. -/
def InMemory (B : Nat → Prop) : Option Record → Option Bytes → Prop := fun r _ => ∃ r0 p, r = some r0 ∧ r0.progressFile = some p ∧ ∀ i, B i → p.progress.has i = true

theorem inMemory_frame (B : Nat → Prop) : Frame d h (InMemory B) := by
  refine ⟨?_, ?_⟩
  · rintro x ⟨r0, p, e, -⟩; cases e
  · rintro r data b ⟨r0, p, e, h1, -⟩ h2 -; cases e; rw [h1] at h2; cases h2

theorem inMemory_save {B : Nat → Prop} (hp : Pt d dl h (InMemory B) c fs) {n : UInt16} {data : Bytes} {fl : List Fault} {r : Res Unit} {s1 : St}
    (hsafe : (Op.save h n data).Safe d c) (hrun : saveChunk h n data ⟨c, fs, fl⟩ = (r, s1)) (hret : r.returns = true) : Pt d dl h (InMemory B) s1.cat s1.fs := by
  obtain ⟨ind, rfl, h1, h2, r0, p0, h3, h4, h5⟩ := hp
  obtain ⟨rec, p, ind', r', g1, g2, g3, g4, g5, g6, g7⟩ := save_point h1 h2 h n data fl hsafe r s1 hrun hret
  rw [g1] at h3; cases h3
  unfold viewProgress at g2
  rw [h4] at g2
  cases g2
  rw [g3]
  refine ⟨ind', rfl, g4, g5, r', ?_⟩
  rcases g7 with ⟨-, g8 | g8, -⟩ | ⟨b, g8, g9, -, -⟩
  · exact ⟨p0, g6, by rw [g8]; exact h4, h5⟩
  · exact ⟨p0, g6, by rw [g8], h5⟩
  · exact ⟨{ p0 with progress := b }, g6, by rw [g9], fun i hi => (set_chunk g8 i).2 (.inl (h5 i hi))⟩

/-- The progress of the file is in memory and nobody is looking the file up. -/
structure Calm (env : Env) (d dl : Path) (h : Sha1Hash) (B : Nat → Prop) (s : USt) : Prop where
  inv : UInv env d dl s
  mem : Pt d dl h (InMemory B) s.cat s.fs
  look : ∀ t, (s.look t).hash? ≠ some h

theorem Calm.step {B : Nat → Prop} (hh : Healthy env d) (hc : Calm env d dl h B s) {a : UAct} {x : USt} (hrm : ¬ a.Removes h) (hs : UStep env d s a (.alive x)) :
    Calm env d dl h B x := by
  refine ⟨hc.inv.step hh.abs hs, ?_, ?_⟩
  · refine pt_ustep hh (inMemory_frame B) hc.inv hc.mem hrm ?_ ?_ hs
    · intro n data fl r s1 hsafe _ _ hrun hret
      exact inMemory_save hc.mem hsafe hrun hret
    · intro t p hl
      exact absurd (by rw [hl]; rfl) (hc.look t)
  · intro t ht
    rcases look_ustep hs ht with h1 | ⟨r, h1, h2⟩
    · exact hc.look t h1
    · obtain ⟨r0, p, h3, h4, -⟩ := hc.mem.record
      rw [h1] at h3; cases h3
      rw [h2] at h4; cases h4

theorem Calm.run {B : Nat → Prop} (hh : Healthy env d) (hc : Calm env d dl h B s) {as : List UAct} {x : USys} (hrun : URun env d s as x) (hrm : ∀ a ∈ as, ¬ a.Removes h) :
    ∀ s', x = .alive s' → Calm env d dl h B s' := by
  induction hrun with
  | refl => intro s' e; cases e; exact hc
  | step h1 hs ih =>
    intro s' e; subst e
    exact (ih (fun a ha => hrm a (List.mem_append_left _ ha)) _ rfl).step hh (hrm _ (List.mem_append_right _ (List.mem_singleton.2 rfl))) hs

theorem Calm.observe {B : Nat → Prop} (hc : Calm env d dl h B s) : ∃ e, observe s.cat s.fs h = .ok e ∧ ∀ i, i < 2 ^ 63 → B i → e.saved i := by
  obtain ⟨r, p, h1, h2, h3⟩ := hc.mem.record
  refine ⟨r.exportWith p, (observe_record hc.inv.inv _).2 ⟨r, p, h1, by unfold viewProgress; rw [h2], rfl⟩, ?_⟩
  intro i hi hb
  exact (Export.saved_iff _ i hi).2 (h3 i hb)

/-- C72 (partial): a chunk was saved while nobody was looking the file up.  Then whatever runs afterwards at the same time (look-ups, reads in the middle of writes, other
calls meeting faults), as long as the file is not unshared, every chunk shown after that save is still shown.  Missing: the same when a look-up of the file was in progress. -/
theorem C72_saved_chunks_stay_partial (hh : Healthy env d) (hs : UReach env d dl s) (hl : ∀ t, (s.look t).hash? ≠ some h) (n : UInt16) (data : Bytes) (fl : List Fault)
    (hsafe : (Op.save h n data).Safe d s.cat) (s1 : St) (hsave : saveChunk h n data ⟨s.cat, s.fs, fl⟩ = (.ok (), s1)) (s1' : USt)
    (hs1 : UStep env d s (.call (.save h n data) fl) (.alive s1')) (as : List UAct) (s' : USt) (hrun : URun env d s1' as (.alive s')) (hrm : ∀ a ∈ as, ¬ a.Removes h) :
    ∃ e1 e', observe s1'.cat s1'.fs h = .ok e1 ∧ e1.saved n.toNat ∧ observe s'.cat s'.fs h = .ok e' ∧ ∀ i, i < 2 ^ 63 → e1.saved i → e'.saved i := by
  have hI := hs.inv hh
  have hn := n.toNat_lt
  obtain ⟨ind, hcat, hw⟩ := hI.inv.split
  rw [hcat] at hsave hsafe
  obtain ⟨rec, p, ind', r', g1, g2, g3, g4, g5, g6, g7⟩ := save_point hw.dir hw.wp h n data fl hsafe _ s1 hsave rfl
  rcases g7 with ⟨g8, -⟩ | ⟨b, g8, g9, -, -⟩
  · exact absurd rfl g8
  have hx : s1'.cat = s1.cat ∧ s1'.fs = s1.fs := by
    generalize hy : USys.alive s1' = y at hs1
    cases hs1
    obtain ⟨-, rfl⟩ := afterUCall_alive hy.symm
    have : Op.run env (.save h n data) ⟨s.cat, s.fs, fl⟩ = (.ok (), s1) := by rw [hcat]; exact hsave
    rw [this]; exact ⟨rfl, rfl⟩
  have hc : Calm env d dl h (fun i => b.has i = true) s1' := by
    have hI1 := hI.step hh.abs hs1
    refine ⟨hI1, hI1.inv.pt ?_, ?_⟩
    · refine ⟨r', { p with progress := b }, ?_, by rw [g9], fun i hi => hi⟩
      rw [hx.1, g3]; exact g6
    · intro t ht
      rcases look_ustep hs1 ht with h1 | ⟨r, h1, h2⟩
      · exact hl t h1
      · -- a call begins no look-up
        generalize hy : USys.alive s1' = y at hs1
        cases hs1
        obtain ⟨-, rfl⟩ := afterUCall_alive hy.symm
        exact hl t (Look.keep_hash ht)
  have hobs : observe s1'.cat s1'.fs h = .ok (r'.exportWith { p with progress := b }) :=
    (observe_record hc.inv.inv _).2 ⟨r', _, by rw [hx.1, g3]; exact g6, by unfold viewProgress; rw [g9], rfl⟩
  obtain ⟨e', h1, h2⟩ := (hc.run hh hrun hrm s' rfl).observe
  refine ⟨_, e', hobs, ?_, h1, ?_⟩
  · exact (Export.saved_iff _ _ (by omega)).2 ((set_chunk g8 _).2 (.inr rfl))
  · intro i hi he
    exact h2 i hi ((Export.saved_iff _ i hi).1 he)

/-- After a download was registered its progress is in memory. -/
theorem calm_register (hh : Healthy env d) (hs : UReach env d dl s) (hl : ∀ t, (s.look t).hash? ≠ some h) (size : UInt64) (cs : UInt32) (name : GoString)
    (fl : List Fault) (e0 : Export) (s0 : St) (hreg : registerDownload env size cs h name ⟨s.cat, s.fs, fl⟩ = (.ok e0, s0)) (s1 : USt)
    (hs1 : UStep env d s (.call (.register size cs h name) fl) (.alive s1)) : Calm env d dl h (fun _ => False) s1 := by
  have hI := hs.inv hh
  obtain ⟨ind, hcat, hw⟩ := hI.inv.split
  have hreg' := hreg
  rw [hcat] at hreg'
  obtain ⟨p, m1, fs1, -, -, -, -, g1, -⟩ := registerDownload_ok env size cs h name d dl ind s.fs fl e0 s0 hreg'
  have hx : s1.cat = s0.cat := by
    generalize hy : USys.alive s1 = y at hs1
    cases hs1
    obtain ⟨-, rfl⟩ := afterUCall_alive hy.symm
    have : Op.run env (.register size cs h name) ⟨s.cat, s.fs, fl⟩ = (.ok (), s0) := CM.void_ok _ _ _ _ hreg
    rw [this]
  have hI1 := hI.step hh.abs hs1
  refine ⟨hI1, hI1.inv.pt ?_, ?_⟩
  · refine ⟨{ downloadRecord dl size cs h name with progressFile := some p }, p, ?_, rfl, fun _ e => e.elim⟩
    rw [hx, g1]
    show mapGet (mapPut _ _ _) h = _
    rw [mapGet_put, if_pos rfl]
  · intro t ht
    generalize hy : USys.alive s1 = y at hs1
    cases hs1
    obtain ⟨-, rfl⟩ := afterUCall_alive hy.symm
    exact hl t (Look.keep_hash ht)

/-- C72 (partial): in the daemon that registered the download, with no look-up of the file in progress then, nothing saved is ever lost, whatever runs at the same time, as
long as the file is not unshared and the daemon is not restarted. -/
theorem C72_since_registered_partial (hh : Healthy env d) (hs : UReach env d dl s) (hl : ∀ t, (s.look t).hash? ≠ some h) (size : UInt64) (cs : UInt32) (name : GoString)
    (fl : List Fault) (e0 : Export) (s0 : St) (hreg : registerDownload env size cs h name ⟨s.cat, s.fs, fl⟩ = (.ok e0, s0)) (s1 : USt)
    (hs1 : UStep env d s (.call (.register size cs h name) fl) (.alive s1)) (as : List UAct) (s2 : USt) (hrun : URun env d s1 as (.alive s2)) (hrm : ∀ a ∈ as, ¬ a.Removes h)
    (as' : List UAct) (s3 : USt) (hrun' : URun env d s2 as' (.alive s3)) (hrm' : ∀ a ∈ as', ¬ a.Removes h) :
    ∃ e2 e3, observe s2.cat s2.fs h = .ok e2 ∧ observe s3.cat s3.fs h = .ok e3 ∧ ∀ i, i < 2 ^ 63 → e2.saved i → e3.saved i := by
  have hc2 := (calm_register hh hs hl size cs name fl e0 s0 hreg s1 hs1).run hh hrun hrm s2 rfl
  obtain ⟨r, q, h1, h2, -⟩ := hc2.mem.record
  have hc2' : Calm env d dl h (fun i => q.progress.has i = true) s2 := ⟨hc2.inv, hc2.inv.inv.pt ⟨r, q, h1, h2, fun _ e => e⟩, hc2.look⟩
  obtain ⟨e3, h3, h4⟩ := (hc2'.run hh hrun' hrm' s3 rfl).observe
  refine ⟨r.exportWith q, e3, (observe_record hc2.inv.inv _).2 ⟨r, q, h1, by unfold viewProgress; rw [h2], rfl⟩, h3, ?_⟩
  intro i hi he
  exact h4 i hi ((Export.saved_iff _ i hi).1 he)

/-! ### Progress is never overstated -/

/-- All progress of the record, in memory and on disk, is in `B`. -/
def Within (B : Nat → Prop) : Option Record → Option Bytes → Prop := fun r x =>
  ∃ r0, r = some r0 ∧ (∀ p, r0.progressFile = some p → ∀ i, p.progress.has i = true → B i) ∧
    ∀ data, x = some data → ∃ b, Loaded b ∧ data <+: b.serialize ∧ ∀ i, b.has i = true → B i

theorem torn_within {B : Nat → Prop} {b b' : Bitset} {data : Bytes} (w : Loaded b) (hp : data <+: b.serialize) (hb : ∀ i, b.has i = true → B i)
    (e : Bitset.deserialize data = .ok b') (i : Nat) (hi : b'.has i = true) : B i := by
  obtain ⟨k, rfl⟩ := deserialize_torn b b' data w hp e
  exact hb i (has_take _ _ _ _ _ hi)

theorem within_frame (B : Nat → Prop) : Frame d h (Within B) := by
  refine ⟨?_, ?_⟩
  · rintro x ⟨r0, e, -⟩; cases e
  · rintro r data b ⟨r0, e, h1, h2⟩ - hb
    cases e
    refine ⟨_, rfl, ?_, h2⟩
    intro p hp i hi
    cases hp
    obtain ⟨b0, g1, g2, g3⟩ := h2 data rfl
    exact torn_within g1 g2 g3 hb i hi

theorem within_view {B : Nat → Prop} {r : Record} {p : ProgressFile} (hk : r.sha1Hash = h) (hw : Within B (some r) (fs (progressPath d h))) (hv : viewProgress d fs r = .ok p) (i : Nat)
    (hi : p.progress.has i = true) : B i := by
  obtain ⟨r0, e, h1, h2⟩ := hw
  cases e
  unfold viewProgress at hv
  rw [hk] at hv
  rcases hr : r.progressFile with _ | q
  · rw [hr] at hv
    rcases hx : fs (progressPath d h) with _ | data
    · rw [hx] at hv; cases hv
    · rw [hx] at hv
      obtain ⟨b, hb, hv⟩ := (Res.bind_ok_iff _ _ _).1 hv
      cases hv
      obtain ⟨b0, g1, g2, g3⟩ := h2 data hx
      exact torn_within g1 g2 g3 hb i hi
  · rw [hr] at hv; cases hv
    exact h1 _ hr i hi

theorem within_save {B : Nat → Prop} (hI : Inv env d dl c fs) (hp : Pt d dl h (Within B) c fs) {n : UInt16} {data : Bytes} {fl : List Fault} {r : Res Unit} {s1 : St} (hB : B n.toNat)
    (hsafe : (Op.save h n data).Safe d c) (hrun : saveChunk h n data ⟨c, fs, fl⟩ = (r, s1)) (hret : r.returns = true) : Pt d dl h (Within B) s1.cat s1.fs := by
  obtain ⟨ind, rfl, h1, h2, hφ⟩ := hp
  obtain ⟨rec, p, ind', r', g1, g2, g3, g4, g5, g6, g7⟩ := save_point h1 h2 h n data fl hsafe r s1 hrun hret
  rw [g1] at hφ
  have hpB := within_view (h2 h rec g1).1 hφ g2
  have hpL : Loaded p.progress := by
    obtain ⟨i2, e, hw⟩ := hI.split
    cases e
    have := hw.recs _ _ (mapGet_mem _ _ _ g1)
    exact (viewProgress_loaded hI.disk this g2).2
  obtain ⟨r0, e, k1, k2⟩ := hφ
  cases e
  rw [g3]
  refine ⟨ind', rfl, g4, g5, r', g6, ?_⟩
  rcases g7 with ⟨-, g8 | g8, g9⟩ | ⟨b, g8, g9, g10, -⟩
  · rw [g8, g9]; exact ⟨k1, k2⟩
  · rw [g8, g9]; exact ⟨fun q hq => by cases hq; exact hpB, k2⟩
  · have hbB : ∀ i, b.has i = true → B i := by
      intro i hi
      rcases (set_chunk g8 i).1 hi with h | rfl
      · exact hpB i h
      · exact hB
    rw [g9]
    refine ⟨fun q hq => by cases hq; exact hbB, ?_⟩
    rcases g10 with g10 | ⟨k, g10⟩
    · rw [g10]; exact k2
    · rw [g10]
      intro data' e
      cases e
      exact ⟨b, set_chunk_loaded hpL g8, List.take_prefix _ _, hbB⟩

structure Bounded (env : Env) (d dl : Path) (h : Sha1Hash) (B : Nat → Prop) (s : USt) : Prop where
  inv : UInv env d dl s
  mem : Pt d dl h (Within B) s.cat s.fs
  look : ∀ t p, s.look t = .holding h p → ∀ i, p.progress.has i = true → B i

theorem Bounded.step {B : Nat → Prop} (hh : Healthy env d) (hc : Bounded env d dl h B s) {a : UAct} {x : USt} (hrm : ¬ a.Removes h) (hB : ∀ i, a.Saves h i → B i)
    (hs : UStep env d s a (.alive x)) : Bounded env d dl h B x := by
  have hmem : Pt d dl h (Within B) x.cat x.fs := by
    refine pt_ustep hh (within_frame B) hc.inv hc.mem hrm ?_ ?_ hs
    · intro n data fl r s1 hsafe hsv _ hrun hret
      exact within_save hc.inv.inv hc.mem (hB _ hsv) hsafe hrun hret
    · intro t p hl
      obtain ⟨ind, e, h1, h2, hφ⟩ := hc.mem
      obtain ⟨r0, e1, k1, k2⟩ := hφ
      have hk := (h2 h r0 e1).1
      rw [e]
      unfold Cat.storeProgress
      simp only [e1]
      refine ⟨_, rfl, h1, ?_, ?_⟩
      · have := h2.put { r0 with progressFile := some p } (fun q hq => by cases hq; rw [(hc.inv.hold t h p hl).1]; show _ = progressPath d r0.sha1Hash; rw [hk])
        subst hk; exact this
      · show Within B (mapGet (mapPut _ _ _) h) _
        rw [mapGet_put, if_pos rfl]
        exact ⟨_, rfl, fun q hq => by cases hq; exact hc.look t p hl, k2⟩
  refine ⟨hc.inv.step hh.abs hs, hmem, ?_⟩
  have set : ∀ {s : USt} {t' : Nat} {l : Look} {t : Nat} {p : ProgressFile}, (s.setLook t' l).look t = .holding h p → s.look t = .holding h p ∨ l = .holding h p := by
    intro s t' l t p e
    unfold USt.setLook at e
    simp only at e
    split at e
    · exact .inr e
    · exact .inl e
  -- what a look-up reads is within `B`
  have after : ∀ {s : USt} {t' : Nat} {k : Sha1Hash} {data : Option Bytes}, afterRead s t' d k data = .alive x → (∀ t p, s.look t = .holding h p → ∀ i, p.progress.has i = true → B i) →
      (∀ dt, data = some dt → ∃ full, dt <+: full ∧ x.fs (progressPath d k) = some full) → ∀ t p, x.look t = .holding h p → ∀ i, p.progress.has i = true → B i := by
    intro s t' k data e hlook hdata t p hl i hi
    rcases afterRead_alive e with rfl | ⟨dt, b, hd, hb, hx⟩
    · rcases set hl with h1 | h1
      · exact hlook t p h1 i hi
      · cases h1
    · rw [hx] at hl
      rcases set hl with h1 | h1
      · exact hlook t p h1 i hi
      · cases h1
        obtain ⟨full, g1, g2⟩ := hdata dt hd
        obtain ⟨r0, -, -, k2⟩ := hmem.record
        obtain ⟨b0, g3, g4, g5⟩ := k2 full g2
        exact torn_within g3 (g1.trans g4) g5 hb i hi
  generalize hy : USys.alive x = y at hs
  cases hs with
  | call o fl hsafe =>
    obtain ⟨-, rfl⟩ := afterUCall_alive hy.symm
    intro t p hl
    exact hc.look t p (Look.keep_holding hl)
  | begin t' k r hidle hr hn =>
    cases hy
    intro t p hl
    rcases set hl with h1 | h1
    · exact hc.look t p h1
    · cases h1
  | read t' k hl =>
    refine after hy.symm hc.look ?_
    intro dt e
    rw [(afterRead_cat hy.symm).2]
    exact ⟨dt, List.prefix_refl _, e⟩
  | readFails t' k hl =>
    cases hy
    intro t p hl
    rcases set hl with h1 | h1
    · exact hc.look t p h1
    · cases h1
  | readDuring t' k n data fl m s1 new hl hsafe hcall hnew =>
    refine after hy.symm ?_ ?_
    · obtain ⟨-, rfl⟩ := afterUCall_alive hcall
      intro t p hl
      exact hc.look t p (Look.keep_holding hl)
    · intro dt e
      cases e
      rw [(afterRead_cat hy.symm).2]
      exact ⟨new, List.take_prefix _ _, hnew⟩
  | store t' k p hl =>
    cases hy
    intro t p hl
    rcases set (s := s) hl with h1 | h1
    · exact hc.look t p h1
    · cases h1
  | user p v hpu => cases hy; exact hc.look

theorem Bounded.run {B : Nat → Prop} (hh : Healthy env d) (hc : Bounded env d dl h B s) {as : List UAct} {x : USys} (hrun : URun env d s as x) (hrm : ∀ a ∈ as, ¬ a.Removes h)
    (hB : ∀ a ∈ as, ∀ i, a.Saves h i → B i) : ∀ s', x = .alive s' → Bounded env d dl h B s' := by
  induction hrun with
  | refl => intro s' e; cases e; exact hc
  | step h1 hs ih =>
    intro s' e; subst e
    exact (ih (fun a ha => hrm a (List.mem_append_left _ ha)) (fun a ha => hB a (List.mem_append_left _ ha)) _ rfl).step hh
      (hrm _ (List.mem_append_right _ (List.mem_singleton.2 rfl))) (hB _ (List.mem_append_right _ (List.mem_singleton.2 rfl))) hs

/-- C72: whatever look-ups run at the same time, and whatever faults the calls meet, a chunk shown at the end was shown at the start or was saved in between. -/
theorem C72_never_overstated (hh : Healthy env d) (hr : CleanReach env d dl (.running c fs)) (e : Export) (ho : observe c fs h = .ok e) (as : List UAct) (s' : USt)
    (hrun : URun env d ⟨c, fs, noLook⟩ as (.alive s')) (hrm : ∀ a ∈ as, ¬ a.Removes h) (e' : Export) (ho' : observe s'.cat s'.fs h = .ok e') (i : Nat) (hi : i < 2 ^ 63)
    (hs : e'.saved i) : e.saved i ∨ ∃ a ∈ as, a.Saves h i := by
  have hI := hr.reach.inv hh.abs hh.utf8
  obtain ⟨r, p, h1, h2, rfl⟩ := (observe_record hI e).1 ho
  have hk : r.sha1Hash = h := by
    obtain ⟨ind, rfl, hw⟩ := hI.split
    exact hw.ownGet h r h1
  have hc : Bounded env d dl h (fun i => p.progress.has i = true ∨ ∃ a ∈ as, a.Saves h i) ⟨c, fs, noLook⟩ := by
    refine ⟨UInv.of_reach hh hr.reach, hI.pt ?_, fun _ _ e => by cases e⟩
    refine ⟨r, h1, ?_, ?_⟩
    · intro q hq i hi
      unfold viewProgress at h2
      rw [hq] at h2; cases h2
      exact .inl hi
    · obtain ⟨ind, rfl, hsync⟩ := hr.sync hh.abs hh.utf8
      obtain ⟨q, k1, k2, k3⟩ := hsync.prog h r h1
      rw [h2] at k1; cases k1
      intro data hd
      unfold viewProgress at k2
      simp only [hk] at k2
      rw [hd] at k2
      obtain ⟨b, hb, k2⟩ := (Res.bind_ok_iff _ _ _).1 k2
      cases k2
      refine ⟨b, k3.loaded, ?_, fun i hi => .inl hi⟩
      rw [Bitset.serialize_of_deserialize data b hb]
      exact List.prefix_refl _
  have hS := hc.run hh hrun hrm (fun a ha i hi => .inr ⟨a, ha, hi⟩) s' rfl
  obtain ⟨r', p', g1, g2, rfl⟩ := (observe_record hS.inv.inv e').1 ho'
  have hk' : r'.sha1Hash = h := by
    obtain ⟨ind, e0, hw⟩ := hS.inv.inv.split
    rw [e0] at g1
    exact hw.ownGet h r' g1
  have hw := hS.mem.record
  rw [g1] at hw
  have := within_view hk' hw g2 i ((Export.saved_iff _ i hi).1 hs)
  rcases this with h | h
  · exact .inl ((Export.saved_iff _ i hi).2 h)
  · exact .inr h

/-! ### Progress lost -/

/-- After a restart the progress of a known file is not in memory. -/
theorem restarted_unloaded (hh : Healthy env d) (hr : CleanReach env d dl (.running c fs)) (e : Export) (ho : observe c fs h = .ok e) :
    ∃ c' r, CleanReach env d dl (.running c' fs) ∧ c'.record h = some r ∧ r.progressFile = none ∧ observe c' fs h = .ok (e.refix env.json.fix) := by
  obtain ⟨ind, rfl, hs⟩ := hr.sync hh.abs hh.utf8
  obtain ⟨ind', h1, h2, h3⟩ := Sync.start (env := { env with pid := env.pid, now := env.now }) (dl := dl) ⟨hs.index, hs.prog⟩
  have hr' : CleanReach env d dl (.running ⟨d, dl, some ind'⟩ fs) := CleanReach.start env.pid env.now fs _ (CleanReach.kill _ _ hr) h1
  obtain ⟨r, p, g1, g2, rfl⟩ := (observe_record (hr.reach.inv hh.abs hh.utf8) e).1 ho
  have g1' : mapGet ind.index h = some r := g1
  have g3 : mapGet ind'.index h = some (Record.reloaded env.json.fix r) := by rw [h3, g1']; rfl
  obtain ⟨q, h4, h5, h6⟩ := hs.prog h r g1'
  rw [g2] at h4; cases h4
  exact ⟨_, _, hr', g3, rfl, (observe_record (hr'.reach.inv hh.abs hh.utf8) _).2 ⟨_, p, g3, h5, rfl⟩⟩

/-- C72: in every daemon that knows the file but has not its progress in memory (after a restart), a look-up that reads the progress file before a chunk is saved and stores what
it read afterwards makes the catalogue forget the chunk, although `SaveChunk` returned without an error. -/
theorem C72_lost (hh : Healthy env d) (hr : CleanReach env d dl (.running c fs)) (e : Export) (ho : observe c fs h = .ok e) (r : Record) (hrec : c.record h = some r)
    (hn : r.progressFile = none) (n : UInt16) (hns : ¬ e.saved n.toNat) (data : Bytes) (hsafe : (Op.save h n data).Safe d c) :
    ∃ s1 s2 s3 st, URun env d ⟨c, fs, noLook⟩ [.begin 0 h, .read 0] (.alive s1) ∧ saveChunk h n data ⟨s1.cat, s1.fs, []⟩ = (.ok (), st) ∧
      UStep env d s1 (.call (.save h n data) []) (.alive s2) ∧ (∃ e2, observe s2.cat s2.fs h = .ok e2 ∧ e2.saved n.toNat) ∧
      UStep env d s2 (.store 0) (.alive s3) ∧ observe s3.cat s3.fs h = .ok e ∧ ¬ e.saved n.toNat := by
  have hn16 := n.toNat_lt
  have hI := hr.reach.inv hh.abs hh.utf8
  obtain ⟨st, hst⟩ := saveChunk_total hh hr.reach h n data e ho
  obtain ⟨r0, p, g1, g2, rfl⟩ := (observe_record hI e).1 ho
  rw [hrec] at g1; cases g1
  obtain ⟨ind, rfl, hw⟩ := hI.split
  have hk : r.sha1Hash = h := hw.ownGet h r hrec
  obtain ⟨rec, q, ind', r', m1, m2, m3, m4, m5, m6, m7⟩ := save_point hw.dir hw.wp h n data [] hsafe _ st hst rfl
  rw [show mapGet ind.index h = some r from hrec] at m1; cases m1
  rw [g2] at m2; cases m2
  have hdata : ∃ bs b, fs (progressPath d h) = some bs ∧ Bitset.deserialize bs = .ok b ∧ p = ⟨b, progressPath d h⟩ := by
    unfold viewProgress at g2
    rw [hn, hk] at g2
    rcases hx : fs (progressPath d h) with _ | bs
    · rw [hx] at g2; cases g2
    · rw [hx] at g2
      obtain ⟨b, hb, hv⟩ := (Res.bind_ok_iff _ _ _).1 g2
      cases hv
      exact ⟨bs, b, rfl, hb, rfl⟩
  obtain ⟨bs, b, hbs, hb, rfl⟩ := hdata
  rcases m7 with ⟨h1, -⟩ | ⟨b', k1, k2, -, k3⟩
  · exact absurd rfl h1
  let s0 : USt := ⟨⟨d, dl, some ind⟩, fs, noLook⟩
  let s1 : USt := (s0.setLook 0 (.looking h)).setLook 0 (.holding h ⟨b, progressPath d h⟩)
  let s2 : USt := ⟨st.cat, st.fs, fun t => (s1.look t).keep st.cat⟩
  let s3 : USt := { s2.setLook 0 .idle with cat := s2.cat.storeProgress h ⟨b, progressPath d h⟩ }
  have st1 : UStep env d s0 (.begin 0 h) (.alive (s0.setLook 0 (.looking h))) := UStep.begin s0 0 h r rfl hrec hn
  have st2 : UStep env d (s0.setLook 0 (.looking h)) (.read 0) (.alive s1) := by
    have := UStep.read (env := env) (d := d) (s0.setLook 0 (.looking h)) 0 h rfl
    have e1 : afterRead (s0.setLook 0 (.looking h)) 0 d h ((s0.setLook 0 (.looking h)).fs (progressPath d h)) = .alive s1 := by
      unfold afterRead
      rw [show (s0.setLook 0 (.looking h)).fs (progressPath d h) = some bs from hbs]
      simp only [hb]
      rfl
    rw [e1] at this; exact this
  have run1 : URun env d s0 [.begin 0 h, .read 0] (.alive s1) := URun.step (as := [.begin 0 h]) (URun.step (as := []) URun.refl st1) st2
  have st3 : UStep env d s1 (.call (.save h n data) []) (.alive s2) := by
    have := UStep.call (env := env) (d := d) s1 (.save h n data) [] hsafe
    have e1 : Op.run env (.save h n data) ⟨s1.cat, s1.fs, []⟩ = (.ok (), st) := hst
    rw [e1] at this; exact this
  have hrec' : st.cat.record h = some r' := by rw [m3]; exact m6
  have hl2 : s2.look 0 = .holding h ⟨b, progressPath d h⟩ := by
    show (Look.holding h ⟨b, progressPath d h⟩).keep st.cat = _
    unfold Look.keep Look.hash?
    simp [hrec']
  have st4 : UStep env d s2 (.store 0) (.alive s3) := UStep.store s2 0 h _ hl2
  have I2 := ((UInv.of_reach hh hr.reach).run hh.abs run1 _ rfl).step hh.abs st3
  have I3 := I2.step hh.abs st4
  refine ⟨s1, s2, s3, st, run1, hst, st3, ⟨r'.exportWith ⟨b', progressPath d h⟩, ?_, ?_⟩, st4, ?_, hns⟩
  · exact (observe_record I2.inv _).2 ⟨r', _, hrec', by rw [k2]; rfl, rfl⟩
  · exact (Export.saved_iff _ _ (by omega)).2 ((set_chunk k1 _).2 (.inr rfl))
  · refine (observe_record I3.inv _).2 ⟨{ r' with progressFile := some ⟨b, progressPath d h⟩ }, ⟨b, progressPath d h⟩, ?_, rfl, ?_⟩
    · show (Cat.storeProgress st.cat h ⟨b, progressPath d h⟩).record h = _
      rw [m3]
      unfold Cat.storeProgress Cat.record
      simp only [m6, Option.bind_some]
      rw [mapGet_put, if_pos rfl]
    · rw [k2]; rfl

/-- The full claim of C72. -/
def C72_statement : Prop :=
  ∀ (env : Env) (d dl : Path) (c : Cat) (fs : FS) (h : Sha1Hash), Healthy env d → CleanReach env d dl (.running c fs) →
    ∀ (as : List UAct) (s1 s2 s3 : USt) (n : UInt16) (data : Bytes) (st : St) (as' : List UAct), URun env d ⟨c, fs, noLook⟩ as (.alive s1) →
      saveChunk h n data ⟨s1.cat, s1.fs, []⟩ = (.ok (), st) → UStep env d s1 (.call (.save h n data) []) (.alive s2) → URun env d s2 as' (.alive s3) →
      (∀ a ∈ as', ¬ a.Removes h) → ∃ e, observe s3.cat s3.fs h = .ok e ∧ e.saved n.toNat

/-- A daemon that was restarted in the middle of a download: three chunks, none saved. -/
theorem ex_restarted (sha1 : Bytes → Sha1Hash) (json : JsonCodec) (h : Sha1Hash) : ∃ c fs e r, CleanReach (exEnv sha1 json) exDir exDown (.running c fs) ∧ observe c fs h = .ok e ∧
    c.record h = some r ∧ r.progressFile = none ∧ (∀ i, i < 2 ^ 63 → ¬ e.saved i) ∧ ∀ n data, (Op.save h n data).Safe exDir c := by
  have hh := ex_healthy sha1 json
  obtain ⟨c, fs, e, s1, s2, s3, h0, h1, -⟩ := ex_download sha1 json h
  have hr1 : CleanReach (exEnv sha1 json) exDir exDown (.running s1.cat s1.fs) :=
    CleanReach.call (.register 5 2 h [120]) c fs _ s1 h0 trivial (CM.void_ok _ _ _ _ h1) rfl
  obtain ⟨-, ⟨b, k1, k2, -, -, k3⟩, -, -⟩ := C29_register hh h0.reach 5 2 h [120] [] e s1 (by decide) (by decide) h1
  obtain ⟨c', r, g1, g2, g3, g4⟩ := restarted_unloaded hh hr1 e k2
  have hfix : (exEnv sha1 json).json.fix (joinPath [exDown, [120]]) = joinPath [exDown, [120]] := by
    refine json.fix_ascii _ ?_
    rw [ex_path]
    unfold isAscii
    decide
  refine ⟨c', s1.fs, _, r, g1, g4, g2, g3, ?_, ?_⟩
  · intro i hi hs
    rw [k1] at hs
    have hs' : b.get (BitVec.ofNat 64 i) = .ok true := hs
    rw [k3 i hi] at hs'; cases hs'
  · intro n data p hp
    rw [observe_path hh g1.reach h _ g4, k1] at hp
    have hp' : some ((exEnv sha1 json).json.fix (joinPath [exDown, [120]])) = some p := hp
    rw [hfix] at hp'
    cases hp'
    exact ex_not_catFile2

/-- C72 is false of the code. -/
theorem C72_refuted : ¬ C72_statement := by
  intro hst
  let sha1 : Bytes → Sha1Hash := fun _ => Sha1Hash.zero
  obtain ⟨c, fs, e, r, h0, h1, h2, h3, h4, h5⟩ := ex_restarted sha1 goJson (sha1 [])
  obtain ⟨s1, s2, s3, st, g1, g2, g3, -, g4, g5, g6⟩ := C72_lost (ex_healthy sha1 goJson) h0 e h1 r h2 h3 1 (h4 _ (by decide)) [7, 7] (h5 _ _)
  obtain ⟨e', k1, k2⟩ := hst _ _ _ c fs _ (ex_healthy sha1 goJson) h0 _ s1 s2 s3 1 [7, 7] st [.store 0] g1 g2 g3 (URun.step (as := []) URun.refl g4)
    (by intro a ha; cases List.mem_singleton.1 ha; exact id)
  rw [g5] at k1; cases k1
  exact g6 k2

/-- `C72_lost` and `C72_never_overstated`: a daemon restarted in the middle of a download. -/
example (sha1 : Bytes → Sha1Hash) (json : JsonCodec) (h : Sha1Hash) : ∃ s1 s2 s3 st c fs e, CleanReach (exEnv sha1 json) exDir exDown (.running c fs) ∧ observe c fs h = .ok e ∧
    URun (exEnv sha1 json) exDir ⟨c, fs, noLook⟩ [.begin 0 h, .read 0] (.alive s1) ∧ saveChunk h 1 [7, 7] ⟨s1.cat, s1.fs, []⟩ = (.ok (), st) ∧
    UStep (exEnv sha1 json) exDir s1 (.call (.save h 1 [7, 7]) []) (.alive s2) ∧ UStep (exEnv sha1 json) exDir s2 (.store 0) (.alive s3) := by
  obtain ⟨c, fs, e, r, h0, h1, h2, h3, h4, h5⟩ := ex_restarted sha1 json h
  obtain ⟨s1, s2, s3, st, g1, g2, g3, -, g4, -, -⟩ := C72_lost (ex_healthy sha1 json) h0 e h1 r h2 h3 1 (h4 _ (by decide)) [7, 7] (h5 _ _)
  exact ⟨s1, s2, s3, st, c, fs, e, h0, h1, g1, g2, g3, g4⟩

/-- `C72_saved_chunks_stay_partial`: the same daemon, when the chunk is saved before anybody looks the file up. -/
example (sha1 : Bytes → Sha1Hash) (json : JsonCodec) (h : Sha1Hash) : ∃ s s1' st, UReach (exEnv sha1 json) exDir exDown s ∧ (∀ t, (s.look t).hash? ≠ some h) ∧
    (Op.save h 1 [7, 7]).Safe exDir s.cat ∧ saveChunk h 1 [7, 7] ⟨s.cat, s.fs, []⟩ = (.ok (), st) ∧
    UStep (exEnv sha1 json) exDir s (.call (.save h 1 [7, 7]) []) (.alive s1') ∧
    URun (exEnv sha1 json) exDir s1' [.call (.contains h) []] (afterUCall s1'.look (Op.run (exEnv sha1 json) (.contains h) ⟨s1'.cat, s1'.fs, []⟩).1
      (Op.run (exEnv sha1 json) (.contains h) ⟨s1'.cat, s1'.fs, []⟩).2) := by
  obtain ⟨c, fs, e, r, h0, h1, h2, h3, h4, h5⟩ := ex_restarted sha1 json h
  obtain ⟨st, hst⟩ := saveChunk_total (ex_healthy sha1 json) h0.reach h 1 [7, 7] e h1
  refine ⟨⟨c, fs, noLook⟩, ⟨st.cat, st.fs, fun t => (noLook t).keep st.cat⟩, st, ⟨c, fs, [], h0.reach, URun.refl⟩, (fun t e => by cases e), h5 _ _, hst, ?_, ?_⟩
  · have := UStep.call (env := exEnv sha1 json) (d := exDir) ⟨c, fs, noLook⟩ (.save h 1 [7, 7]) [] (h5 _ _)
    have e1 : Op.run (exEnv sha1 json) (.save h 1 [7, 7]) ⟨c, fs, []⟩ = (.ok (), st) := hst
    rw [e1] at this; exact this
  · exact URun.step (as := []) URun.refl (UStep.call _ (.contains h) [] trivial)

/-- `C72_since_registered_partial`: a download being registered. -/
example (sha1 : Bytes → Sha1Hash) (json : JsonCodec) (h : Sha1Hash) : ∃ s s0 s1 e0, UReach (exEnv sha1 json) exDir exDown s ∧ (∀ t, (s.look t).hash? ≠ some h) ∧
    registerDownload (exEnv sha1 json) 5 2 h [120] ⟨s.cat, s.fs, []⟩ = (.ok e0, s0) ∧ UStep (exEnv sha1 json) exDir s (.call (.register 5 2 h [120]) []) (.alive s1) := by
  obtain ⟨c, fs, e, s1, s2, s3, h0, h1, -⟩ := ex_download sha1 json h
  refine ⟨⟨c, fs, noLook⟩, s1, ⟨s1.cat, s1.fs, fun t => (noLook t).keep s1.cat⟩, e, ⟨c, fs, [], h0.reach, URun.refl⟩, (fun t e => by cases e), h1, ?_⟩
  have := UStep.call (env := exEnv sha1 json) (d := exDir) ⟨c, fs, noLook⟩ (.register 5 2 h [120]) [] trivial
  have e1 : Op.run (exEnv sha1 json) (.register 5 2 h [120]) ⟨c, fs, []⟩ = (.ok (), s1) := CM.void_ok _ _ _ _ h1
  rw [e1] at this; exact this

/-! ### C73: look-ups that kill -/

/-- The full claim of C73: in a daemon that met no faults, no step of a look-up ends the process, not even a read at the same time as a save. -/
def C73_statement : Prop :=
  ∀ (env : Env) (d dl : Path) (c : Cat) (fs : FS), Healthy env d → CleanReach env d dl (.running c fs) →
    ∀ (as : List UAct) (s : USt) (a : UAct) (x : USys), URun env d ⟨c, fs, noLook⟩ as (.alive s) → (∀ h, ∀ b ∈ as ++ [a], b.SavesCleanly h) → (∀ o fl, a ≠ .call o fl) →
      UStep env d s a x → ∃ s', x = .alive s'

/-- C73: exactly when a look-up that reads the progress file while it is being written ends the daemon: when it sees fewer than 8 bytes. -/
theorem C73_read_during_save {s : USt} {t : Nat} {h : Sha1Hash} {n : UInt16} {data : Bytes} {fl : List Fault} {k : Nat} {x : USys}
    (hs : UStep env d s (.readDuring t h n data fl k) x) :
    ∃ s1 new, afterUCall s.look (saveChunk h n data ⟨s.cat, s.fs, fl⟩).1 (saveChunk h n data ⟨s.cat, s.fs, fl⟩).2 = .alive s1 ∧ s1.fs (progressPath d h) = some new ∧
      ((∃ fs', x = .dead fs') ↔ (new.take k).length < 8) := by
  cases hs with
  | readDuring _ _ _ _ _ _ s1 new hl hsafe hcall hnew =>
    refine ⟨s1, new, hcall, hnew, ?_⟩
    unfold afterRead
    simp only
    rcases C07_total (new.take k) with ⟨h1, h2⟩ | ⟨h1, -, e, h2⟩ | ⟨h1, -, b, h2, -⟩
    · rw [h2]; exact ⟨fun _ => h1, fun _ => ⟨_, rfl⟩⟩
    · rw [h2]
      refine ⟨?_, fun h => by omega⟩
      rintro ⟨fs', e⟩; cases e
    · rw [h2]
      refine ⟨?_, fun h => by omega⟩
      rintro ⟨fs', e⟩; cases e

/-- C73: in every daemon that knows the file but has not its progress in memory, a look-up can meet a save so that the daemon dies. -/
theorem C73_killed (hh : Healthy env d) (hr : CleanReach env d dl (.running c fs)) (e : Export) (ho : observe c fs h = .ok e) (r : Record) (hrec : c.record h = some r)
    (hn : r.progressFile = none) (n : UInt16) (data : Bytes) (hsafe : (Op.save h n data).Safe d c) :
    ∃ s fs', URun env d ⟨c, fs, noLook⟩ [.begin 0 h] (.alive s) ∧ UStep env d s (.readDuring 0 h n data [] 0) (.dead fs') := by
  obtain ⟨st, hst⟩ := saveChunk_total hh hr.reach h n data e ho
  have hI := hr.reach.inv hh.abs hh.utf8
  obtain ⟨ind, rfl, hw⟩ := hI.split
  obtain ⟨rec, q, ind', r', m1, m2, m3, m4, m5, m6, m7⟩ := save_point hw.dir hw.wp h n data [] hsafe _ st hst rfl
  rcases m7 with ⟨h1, -⟩ | ⟨b', k1, k2, -, k3⟩
  · exact absurd rfl h1
  let s0 : USt := ⟨⟨d, dl, some ind⟩, fs, noLook⟩
  let s1 : USt := s0.setLook 0 (.looking h)
  refine ⟨s1, st.fs, URun.step (as := []) URun.refl (UStep.begin s0 0 h r rfl hrec hn), ?_⟩
  have hcall : afterUCall s1.look (saveChunk h n data ⟨s1.cat, s1.fs, []⟩).1 (saveChunk h n data ⟨s1.cat, s1.fs, []⟩).2 =
      .alive ⟨st.cat, st.fs, fun t => (s1.look t).keep st.cat⟩ := by
    have e1 : saveChunk h n data ⟨s1.cat, s1.fs, []⟩ = (.ok (), st) := hst
    rw [e1]; rfl
  exact UStep.readDuring (env := env) (d := d) s1 0 h n data [] 0 _ b'.serialize rfl hsafe hcall (k3 rfl)

/-- C73 is false of the code. -/
theorem C73_refuted : ¬ C73_statement := by
  intro hst
  let sha1 : Bytes → Sha1Hash := fun _ => Sha1Hash.zero
  obtain ⟨c, fs, e, r, h0, h1, h2, h3, h4, h5⟩ := ex_restarted sha1 goJson (sha1 [])
  obtain ⟨s, fs', g1, g2⟩ := C73_killed (ex_healthy sha1 goJson) h0 e h1 r h2 h3 1 [7, 7] (h5 _ _)
  obtain ⟨s', e'⟩ := hst _ _ _ c fs (ex_healthy sha1 goJson) h0 _ s _ _ g1
    (by
      intro k b hb
      simp only [List.cons_append, List.nil_append, List.mem_cons, List.not_mem_nil, or_false] at hb
      rcases hb with rfl | rfl
      · trivial
      · intro _; rfl) (by intro o fl e; cases e) g2
  cases e'

/-- The progress file is complete. -/
def FullFile : Option Record → Option Bytes → Prop := fun r x => r ≠ none ∧ ∃ b, Loaded b ∧ x = some b.serialize

theorem fullFile_frame : Frame d h FullFile := by
  refine ⟨fun x hx => hx.1 rfl, ?_⟩
  rintro r data b ⟨-, h2⟩ - -
  exact ⟨(by intro e; cases e), h2⟩

theorem fullFile_save (hI : Inv env d dl c fs) (hp : Pt d dl h FullFile c fs) {n : UInt16} {data : Bytes} {r : Res Unit} {s1 : St}
    (hsafe : (Op.save h n data).Safe d c) (hrun : saveChunk h n data ⟨c, fs, []⟩ = (r, s1)) (hret : r.returns = true) : Pt d dl h FullFile s1.cat s1.fs := by
  obtain ⟨ind, rfl, h1, h2, hφ⟩ := hp
  obtain ⟨rec, p, ind', r', g1, g2, g3, g4, g5, g6, g7⟩ := save_point h1 h2 h n data [] hsafe r s1 hrun hret
  have hpL : Loaded p.progress := by
    obtain ⟨i2, e, hw⟩ := hI.split
    cases e
    exact (viewProgress_loaded hI.disk (hw.recs _ _ (mapGet_mem _ _ _ g1)) g2).2
  rw [g3]
  refine ⟨ind', rfl, g4, g5, (by show mapGet ind'.index h ≠ none; rw [g6]; intro e; cases e), ?_⟩
  rcases g7 with ⟨-, -, g9⟩ | ⟨b, g8, g9, -, g10⟩
  · rw [g9]; exact hφ.2
  · obtain ⟨rec', p', k1, k2, k3⟩ := saveChunk_nil h n data d dl ind fs r s1 hrun hret
    rcases k3 with ⟨e, hneg, -⟩ | ⟨e, -⟩
    · exfalso
      obtain ⟨i2, e2, hw⟩ := hI.split
      cases e2
      have := Int.mul_nonneg (show (0 : Int) ≤ n.toNat by omega) (hw.recs _ _ (mapGet_mem _ _ _ k1)).cs_nonneg
      omega
    · exact ⟨b, set_chunk_loaded hpL g8, g10 e⟩

structure WholeFile (env : Env) (d dl : Path) (h : Sha1Hash) (s : USt) : Prop where
  inv : UInv env d dl s
  mem : Pt d dl h FullFile s.cat s.fs

theorem WholeFile.step (hh : Healthy env d) (hc : WholeFile env d dl h s) {a : UAct} {x : USt} (hrm : ¬ a.Removes h) (hcl : a.SavesCleanly h) (hs : UStep env d s a (.alive x)) :
    WholeFile env d dl h x := by
  refine ⟨hc.inv.step hh.abs hs, pt_ustep hh fullFile_frame hc.inv hc.mem hrm ?_ ?_ hs⟩
  · intro n data fl r s1 hsafe _ hfl hrun hret
    rw [hfl hcl] at hrun
    exact fullFile_save hc.inv.inv hc.mem hsafe hrun hret
  · intro t p hl
    have hI := hc.inv.inv.store h p (hc.inv.hold t h p hl).1 (hc.inv.hold t h p hl).2
    refine hI.pt ?_
    obtain ⟨h1, h2⟩ := hc.mem.record
    refine ⟨?_, h2⟩
    obtain ⟨ind, e, -⟩ := hc.inv.inv.split
    rw [e] at h1 ⊢
    unfold Cat.storeProgress Cat.record
    simp only
    rcases hm : mapGet ind.index h with _ | r0
    · exact absurd hm h1
    · simp only [Option.bind_some]
      rw [mapGet_put, if_pos rfl]
      intro e; cases e

theorem WholeFile.run (hh : Healthy env d) (hc : WholeFile env d dl h s) {as : List UAct} {x : USys} (hrun : URun env d s as x) (hrm : ∀ a ∈ as, ¬ a.Removes h)
    (hcl : ∀ a ∈ as, a.SavesCleanly h) : ∀ s', x = .alive s' → WholeFile env d dl h s' := by
  induction hrun with
  | refl => intro s' e; cases e; exact hc
  | step h1 hs ih =>
    intro s' e; subst e
    exact (ih (fun a ha => hrm a (List.mem_append_left _ ha)) (fun a ha => hcl a (List.mem_append_left _ ha)) _ rfl).step hh
      (hrm _ (List.mem_append_right _ (List.mem_singleton.2 rfl))) (hcl _ (List.mem_append_right _ (List.mem_singleton.2 rfl))) hs

/-- C73 (partial): for a file that was known at the start and is not unshared, whose chunks are saved without faults, a look-up that reads the progress file between calls does not
end the daemon, whatever other calls met; nor does storing its result.  Missing: a read while the file is being written, see `C73_read_during_save`. -/
theorem C73_read_between_calls_partial (hh : Healthy env d) (hr : CleanReach env d dl (.running c fs)) (e : Export) (ho : observe c fs h = .ok e) (as : List UAct) (s : USt)
    (hrun : URun env d ⟨c, fs, noLook⟩ as (.alive s)) (hrm : ∀ a ∈ as, ¬ a.Removes h) (hcl : ∀ a ∈ as, a.SavesCleanly h) (t : Nat) (ht : (s.look t).hash? = some h) (a : UAct)
    (ha : a = .read t ∨ a = .store t) (x : USys) (hs : UStep env d s a x) : ∃ s', x = .alive s' := by
  have hI := hr.reach.inv hh.abs hh.utf8
  have hF : WholeFile env d dl h ⟨c, fs, noLook⟩ := by
    refine ⟨UInv.of_reach hh hr.reach, hI.pt ?_⟩
    obtain ⟨r, p, h1, h2, -⟩ := (observe_record hI e).1 ho
    refine ⟨(by rw [h1]; intro e; cases e), ?_⟩
    obtain ⟨ind, rfl, hsync⟩ := hr.sync hh.abs hh.utf8
    obtain ⟨i2, e2, hw⟩ := hI.split
    cases e2
    have hk : r.sha1Hash = h := hw.ownGet h r h1
    obtain ⟨q, k1, k2, k3⟩ := hsync.prog h r h1
    unfold viewProgress at k2
    simp only [hk] at k2
    rcases hx : fs (progressPath d h) with _ | data
    · rw [hx] at k2; cases k2
    · rw [hx] at k2
      obtain ⟨b, hb, k2⟩ := (Res.bind_ok_iff _ _ _).1 k2
      cases k2
      exact ⟨b, k3.loaded, by rw [Bitset.serialize_of_deserialize data b hb]⟩
  obtain ⟨-, b, hb1, hb2⟩ := (hF.run hh hrun hrm hcl s rfl).mem.record
  cases hs with
  | call o fl hsafe => rcases ha with ha | ha <;> cases ha
  | begin t k r hidle hr hn => exact ⟨_, rfl⟩
  | read t' k hl =>
    rcases ha with ha | ha <;> cases ha
    rw [hl] at ht
    cases ht
    rw [hb2]
    unfold afterRead
    simp only
    rw [Bitset.deserialize_serialize b (by have := hb1.size_nonneg; omega) hb1.size_lt]
    exact ⟨_, rfl⟩
  | readFails t k hl => exact ⟨_, rfl⟩
  | readDuring t k n data fl m s1 new hl hsafe hcall hnew => rcases ha with ha | ha <;> cases ha
  | store t k p hl => exact ⟨_, rfl⟩
  | user p v hpu => exact ⟨_, rfl⟩

/-- C73 (partial): in the daemon that registered the download, with no look-up of the file in progress then, no look-up ever reads the progress file, so none can be hit. -/
theorem C73_since_registered_partial (hh : Healthy env d) (hs : UReach env d dl s) (hl : ∀ t, (s.look t).hash? ≠ some h) (size : UInt64) (cs : UInt32) (name : GoString)
    (fl : List Fault) (e0 : Export) (s0 : St) (hreg : registerDownload env size cs h name ⟨s.cat, s.fs, fl⟩ = (.ok e0, s0)) (s1 : USt)
    (hs1 : UStep env d s (.call (.register size cs h name) fl) (.alive s1)) (as : List UAct) (s2 : USt) (hrun : URun env d s1 as (.alive s2)) (hrm : ∀ a ∈ as, ¬ a.Removes h)
    (a : UAct) (x : USys) (hstep : UStep env d s2 a x) (t : Nat) : a ≠ .begin t h ∧ (∀ n data fl k, a ≠ .readDuring t h n data fl k) ∧
      (s2.look t = .looking h → a ≠ .read t) := by
  have hc := (calm_register hh hs hl size cs name fl e0 s0 hreg s1 hs1).run hh hrun hrm s2 rfl
  have hlook : ∀ t, s2.look t ≠ .looking h := fun t e => hc.look t (by rw [e]; rfl)
  refine ⟨?_, ?_, fun e => absurd e (hlook t)⟩
  · rintro rfl
    cases hstep with
    | begin _ _ r hidle hr hn =>
      obtain ⟨r0, p, h3, h4, -⟩ := hc.mem.record
      rw [hr] at h3; cases h3
      rw [hn] at h4; cases h4
  · rintro n data fl k rfl
    cases hstep with
    | readDuring _ _ _ _ _ _ s1 new hl => exact hlook t hl

/-- `C73_read_between_calls_partial`: a look-up that has begun in a restarted daemon. -/
example (sha1 : Bytes → Sha1Hash) (json : JsonCodec) (h : Sha1Hash) : ∃ c fs e s, CleanReach (exEnv sha1 json) exDir exDown (.running c fs) ∧ observe c fs h = .ok e ∧
    URun (exEnv sha1 json) exDir ⟨c, fs, noLook⟩ [.begin 0 h] (.alive s) ∧ (s.look 0).hash? = some h ∧
    UStep (exEnv sha1 json) exDir s (.read 0) (afterRead s 0 exDir h (s.fs (progressPath exDir h))) := by
  obtain ⟨c, fs, e, r, h0, h1, h2, h3, h4, h5⟩ := ex_restarted sha1 json h
  exact ⟨c, fs, e, (⟨c, fs, noLook⟩ : USt).setLook 0 (.looking h), h0, h1, URun.step (as := []) URun.refl (UStep.begin _ 0 h r rfl h2 h3), rfl, UStep.read _ 0 h rfl⟩

end Flu
