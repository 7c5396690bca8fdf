import Verif.Props.Leaves
import Verif.Props.LossySpread
import Verif.Props.Workers
import Verif.Props.WindowMany
import Verif.Props.RecvThread
import Verif.Props.Clean
import Verif.Props.Listing

/-!
Concrete cases that meet the hypotheses of theorems beside which no case is shown in their own modules, mostly because the execution used is built in a later module.
-/

namespace Flu

open Spec

/-- `C70_daemon`: a daemon that has sent a packet of a chunk that it was asked for. -/
example (sha1 : Bytes → Sha1Hash) (json : JsonCodec) : ∃ c fs tr s, Reach (exEnv sha1 json) exDir exDown (.running c fs) ∧ tr ≠ [] ∧
    DmRun (exEnv sha1 json) exDir 7 (.fresh c fs) tr (.alive s) := by
  obtain ⟨c, fs, e, h1, h2, h3, h4, h5, h6, h7, h8, h9⟩ := ex_complete sha1 json Sha1Hash.zero
  have hh := ex_healthy sha1 json
  have hp := parse_buffer (.openReq Sha1Hash.zero 1 1) trivial (by decide) []
  obtain ⟨tr, ev, x, s, hrun⟩ := C118_sent (port := 7) hh h1.reach _ exAddr ⟨[10, 0, 0, 2], rfl⟩ Sha1Hash.zero 1 1 e [1, 2, 3, 4, 5] hp (by rfl) h2 h7 h4 (by omega)
  exact ⟨c, fs, _, s, h1.reach, by simp, hrun⟩

/-- `C88_daemon`: a daemon to which two requests come, one after the other. -/
example (sha1 : Bytes → Sha1Hash) (json : JsonCodec) : ∃ c fs tr s s' e, Reach (exEnv sha1 json) exDir exDown (.running c fs) ∧ tr ≠ [] ∧
    DmRun (exEnv sha1 json) exDir 7 (.fresh c fs) tr (.alive s) ∧ DmStep (exEnv sha1 json) exDir 7 s e none (.alive s') ∧ (∀ a, e ≠ .loop a) := by
  obtain ⟨c, fs, e, h1, -⟩ := ex_complete sha1 json Sha1Hash.zero
  have hp := parse_buffer (.openReq Sha1Hash.zero 1 1) trivial (by decide) []
  have r1 := DmRun.refl (env := exEnv sha1 json) (d := exDir) (port := 7) (s0 := .fresh c fs)
  exact ⟨c, fs, _, _, _, _, h1.reach, by simp, r1.step (.arrives _ 0 _ exAddr _ rfl hp), .arrives _ 1 _ exAddr _ rfl hp, fun a ha => by cases ha⟩

/-- `C118_answers`: a daemon that is asked for a file that it knows, and answers. -/
example (sha1 : Bytes → Sha1Hash) (json : JsonCodec) : ∃ c fs tr s ev ip to bytes x, Reach (exEnv sha1 json) exDir exDown (.running c fs) ∧
    DmRun (exEnv sha1 json) exDir 7 (.fresh c fs) tr (.alive s) ∧ DmStep (exEnv sha1 json) exDir 7 s ev (some (.answer ip to bytes)) x := by
  obtain ⟨c, fs, e, h1, h2, -⟩ := ex_complete sha1 json ⟨List.replicate 20 1, rfl⟩
  have hp := parse_buffer (.listReq 5 ⟨List.replicate 20 1, rfl⟩) trivial (by decide) []
  have r1 := DmRun.refl (env := exEnv sha1 json) (d := exDir) (port := 7) (s0 := .fresh c fs)
  have r2 := r1.step (.arrives _ 0 _ exAddr _ rfl hp)
  have hrun : ∃ ip to bytes s', respondToListFiles exWire 5 ⟨List.replicate 20 1, rfl⟩ exAddr ⟨⟨c, fs, []⟩, fun _ => none⟩ = (.ok (.sent ip to bytes), s') := by
    obtain ⟨-, reply, s', -, g, -⟩ := C53_metadata (ex_healthy sha1 json) h1.reach 7 exWire rfl 5 _ (by decide) e h2 [] exAddr (fun _ => none)
    unfold serveDatagram handleMessage at g
    rw [IOM.bind_apply, IOM.lift_apply, hp] at g
    exact ⟨_, _, _, _, g⟩
  obtain ⟨ip, to, bytes, s', hrun⟩ := hrun
  exact ⟨c, fs, _, _, _, ip, to, bytes, _, h1.reach, r2, .replies _ 0 ⟨exAddr, .asked _⟩ _ exWire [] _ _ _ _ _ rfl rfl rfl hrun⟩

/-- `C112_network` and `C115_network_partial`: one host has shared the file. -/
example (sha1 : Bytes → Sha1Hash) (json : JsonCodec) (hb : (sha1 [1, 2, 3]).isBlank = false) :
    ∃ s e, NRun (exPlaces sha1 json) (Careful (exPlaces sha1 json) (sha1 [1, 2, 3]) [1, 2, 3]) (exNet sha1 json) s ∧
      LossyNRun (exPlaces sha1 json) (Careful (exPlaces sha1 json) (sha1 [1, 2, 3]) [1, 2, 3]) (exNet sha1 json) s ∧ observe (s.cat 0) (s.fs 0) (sha1 [1, 2, 3]) = .ok e ∧
      s.fs 0 e.filePath = some [1, 2, 3] := by
  obtain ⟨h0, s, e, h1, h2, h3, h4, h5⟩ := ex_net sha1 json
  exact ⟨s, e, h1, h1.lossy, h2, (C112_network (place := exPlaces sha1 json) (fun _ => ex_healthy sha1 json) (fun _ => rfl) hb (by simp) (by decide) h0 h1 0 e h2).2.2.2.2.1 h3⟩

/-- `C101_partial`, `C101_stops`: an execution that comes to rest although a read has met the end. -/
example : ∃ r cap file w e x s, Spec.Tally (.init r cap file) w e x s ∧ (∀ i, s.threads i ≠ .dead) ∧ Spec.Rests s ∧ 0 < e :=
  Classical.byContradiction fun hn => C101_refuted fun r cap file w e x s h1 h2 h3 h4 => absurd ⟨r, cap, file, w, e, x, s, h1, h2, h3, h4⟩ hn

/-- `C104_partial`: its hypotheses and the case in which its bound is reached. -/
example : ∃ s, Spec.Flow Spec.Apart (.init ⟨0, 0, 0⟩ 1 []) 2 3 1 s ∧ (1 : UInt16).toNat + 2 < 65536 ∧ 3 = 1 + max 1 (1 : UInt16).toNat + (2 - 1) := by
  obtain ⟨s, h⟩ := C104_tight
  exact ⟨s, h, by decide, by decide⟩

/-- `C104_no_bound`: 1024 packets at a time, and a chunk of 4 MiB. -/
example (file : Bytes) (hf : file.length = 4194304) : ∃ s, Spec.Flow Spec.Sound (.init ⟨0, 0, 4194304⟩ 1024 file) 2 4050 1002 s := by
  have := C104_no_bound 4194304 1024 file 500 (by decide) (by decide) (by rw [hf]; decide) (by decide)
  exact this

/-- `C78_partial`, `C78_rests`: an execution that comes to rest with the socket open. -/
example (sha1 : Bytes → Sha1Hash) : ∃ tr s, RTRun sha1 .init tr (.alive s) ∧ (∀ e x, ¬ RTStep sha1 s e x) ∧ ¬ Released s :=
  Classical.byContradiction fun hn => C78_refuted sha1 fun tr s h1 h2 => Classical.byContradiction fun h3 => hn ⟨tr, s, h1, h2, h3⟩

/-- `C33_empty`: a download of an empty file. -/
example (sha1 : Bytes → Sha1Hash) (json : JsonCodec) (h : Sha1Hash) : ∃ c fs e s', Reach (exEnv sha1 json) exDir exDown (.running c fs) ∧
    ¬ CatFile exDir (joinPath [exDown, [120]]) ∧ fs (joinPath [exDown, [120]]) = none ∧ registerDownload (exEnv sha1 json) 0 2 h [120] ⟨c, fs, []⟩ = (.ok e, s') := by
  have h0 : CleanReach (exEnv sha1 json) exDir exDown (.running ⟨exDir, exDown, some (freshIdx (exEnv sha1 json) exDir)⟩ (exFS1 sha1 json)) :=
    CleanReach.fresh (exEnv sha1 json) exDir exDown (ex_healthy sha1 json).utf8 exFS ex_fs_clean
  have hne : exFS1 sha1 json (joinPath [exDown, [120]]) = none := by
    unfold exFS1
    rw [FS.put_other _ _ _ _ (fun e => ex_not_catFile2 (.inl e)), ex_path]
    decide
  obtain ⟨e, s1, h1⟩ := registerDownload_total (exEnv sha1 json) 0 2 h [120] exDir exDown (freshIdx (exEnv sha1 json) exDir) (exFS1 sha1 json) rfl (by decide) (by decide)
  exact ⟨_, _, e, s1, h0.reach, ex_not_catFile2, hne, h1⟩

end Flu
