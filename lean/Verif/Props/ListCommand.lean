import Verif.Props.Text
import Verif.Props.Fatal
import Verif.Props.DiskErrors
import Verif.Props.Cases
/-!
# The whole `list` command in the daemon (C60)
-/
namespace Flu
open Spec

/-- A listing that announces more than the 1024 bytes of the buffer hold. -/
def Spec.Overruns (data : Bytes) : Prop := (buffer data)[0]? = some 3 ∧ ¬ hasEntries (beNat (((buffer data).drop 3).take 2)) ((buffer data).drop 5)

section
variable {env : Env} {d dl : Path} {c : Cat} {fs : FS}

/-- What `ListFilesOnHost` comes to. -/
theorem listFilesOnHost_returns (raw : Contact) : (listFilesOnHost raw).returns = true ↔ raw ≠ .noSocket ∧ ∀ data, raw = .datagram data → ¬ Overruns data := by
  rcases raw with _ | _ | data
  · exact ⟨(by intro hx; cases hx), fun hx => absurd rfl hx.1⟩
  · exact ⟨fun _ => ⟨(by intro hx; cases hx), fun _ hx => by cases hx⟩, fun _ => rfl⟩
  · have key : (listFilesOnHost (.datagram data)).returns = true ↔ parse (.exact (buffer data)) ≠ .panic := by
      show ((parse (.exact (buffer data)) >>= fun m => match m with | .listResp reqID files => pure (reqID, files) | _ => Res.err .wrongResponse) : Res _).returns = true ↔ _
      rcases (C16_total (buffer data) (buffer_length data)).1 with ⟨m, hm⟩ | ⟨t, -, hm⟩ | hm
      · rw [hm]
        refine ⟨fun _ hx => (by cases hx), fun _ => ?_⟩
        cases m <;> rfl
      · rw [hm]; exact ⟨fun _ hx => (by cases hx), fun _ => rfl⟩
      · rw [hm]; exact ⟨fun hx => (by cases hx), fun hx => absurd rfl hx⟩
    rw [key]
    refine ⟨fun hx => ⟨(by intro hy; cases hy), fun data' hd ho => ?_⟩, fun hx hp => ?_⟩
    · cases hd
      exact hx ((C16_total _ (buffer_length data)).2.1.2 ho)
    · exact hx.2 data rfl ((C16_total _ (buffer_length data)).2.1.1 hp)

/-- **C60**: exactly when the daemon survives a `list` command.  Its own files can always be listed, whatever the disk does; the files of another host if the address is an IPv4 address, a socket to it
can be opened, and the host does not answer with a listing that overruns the buffer. -/
theorem C60_survives_iff_partial (hh : Healthy env d) (hr : CleanReach env d dl (.running c fs)) (fl : List Fault) (hfl : OnlyFailures fl) (order : List Sha1Hash) (ip : Option Bytes)
    (raw : Contact) :
    (methodsList order ip raw ⟨c, fs, fl⟩).1.returns = true ↔
      ∀ a, ip = some a → (∃ w x y z, a = [w, x, y, z] ∨ a = mapped w x y z) ∧ raw ≠ .noSocket ∧ ∀ data, raw = .datagram data → ¬ Overruns data := by
  rcases ip with _ | a
  · refine ⟨fun _ a ha => (by cases ha), fun _ => ?_⟩
    have := C113_returns hh hr fl hfl (.list order) rfl trivial
    have hv : (Op.list order).run env ⟨c, fs, fl⟩ = CM.void (listFiles order) ⟨c, fs, fl⟩ := rfl
    rw [hv] at this
    unfold CM.void at this
    rw [IOM.bind_apply] at this
    show (((listFiles order >>= fun records => pure (records.map localItem)) : CM (List ListItem)) ⟨c, fs, fl⟩).1.returns = true
    rw [IOM.bind_apply]
    rcases hx : listFiles order ⟨c, fs, fl⟩ with ⟨r, s'⟩
    rw [hx] at this
    cases r with
    | ok es => rfl
    | err e => rfl
    | panic => cases this
    | exit => cases this
    | crash => cases this
  · by_cases hip : ∃ w x y z, a = [w, x, y, z] ∨ a = mapped w x y z
    · obtain ⟨v, hv⟩ : ∃ v, listAddress a = .ok v := by
        obtain ⟨w, x, y, z, rfl | rfl⟩ := hip
        · exact ⟨_, (C60_partial w x y z).1⟩
        · exact ⟨_, (C60_partial w x y z).2⟩
      have hstep : (methodsList order (some a) raw ⟨c, fs, fl⟩).1.returns = (listFilesOnHost raw).returns := by
        unfold methodsList
        simp only [IOM.bind_apply, IOM.lift_apply, hv]
        cases listFilesOnHost raw <;> rfl
      rw [hstep, listFilesOnHost_returns]
      exact ⟨fun hx b hb => by cases hb; exact ⟨hip, hx⟩, fun hx => (hx a rfl).2⟩
    · have hv : listAddress a = .panic := (C60_panics_iff a).2 (fun w x y z => ⟨fun e => hip ⟨w, x, y, z, .inl e⟩, fun e => hip ⟨w, x, y, z, .inr e⟩⟩)
      have hstep : (methodsList order (some a) raw ⟨c, fs, fl⟩).1 = .panic := by
        unfold methodsList
        simp only [IOM.bind_apply, IOM.lift_apply, hv]
      rw [hstep]
      exact ⟨fun hx => (by cases hx), fun hx => absurd (hx a rfl).1 hip⟩

end

/-- Every announced entry takes at least 41 bytes. -/
theorem hasEntries_room : ∀ (n : Nat) (bs : Bytes), hasEntries n bs → 41 * n ≤ bs.length
  | 0, _, _ => by omega
  | n + 1, bs, h => by
    obtain ⟨h1, h2, h3⟩ := h
    have := hasEntries_room n _ h3
    rw [List.length_drop] at this
    omega

/-- `C60_survives_iff_partial`: two addresses; five bytes that announce 26 files, and five that announce none; and a daemon without files, which lists them. -/
example : (∃ w x y z, ([10, 0, 0, 7] : Bytes) = [w, x, y, z] ∨ [10, 0, 0, 7] = mapped w x y z) ∧ ¬ (∃ w x y z, ([0, 0, 0, 1, 2] : Bytes) = [w, x, y, z] ∨ [0, 0, 0, 1, 2] = mapped w x y z) ∧
    Overruns [3, 0, 7, 0, 26] ∧ ¬ Overruns [3, 0, 7, 0, 0] := by
  have hb : ∀ x : UInt8, buffer [3, 0, 7, 0, x] = [3, 0, 7, 0, x] ++ List.replicate 1019 0 := fun x => rfl
  have hd : ∀ (x : UInt8) (l : Bytes), ([3, 0, 7, 0, x] ++ l : Bytes).drop 5 = l := fun _ _ => rfl
  have hn : ∀ (x : UInt8) (l : Bytes), (([3, 0, 7, 0, x] ++ l : Bytes).drop 3).take 2 = [0, x] := fun _ _ => rfl
  refine ⟨⟨10, 0, 0, 7, .inl rfl⟩, ?_, ⟨?_, ?_⟩, ?_⟩
  · rintro ⟨w, x, y, z, h | h⟩
    · cases h
    · have := congrArg List.length h
      revert this; simp [mapped]
  · rw [hb]; rfl
  · rw [hb, hd, hn]
    intro h
    have := hasEntries_room _ _ h
    rw [List.length_replicate] at this
    revert this; decide
  · rintro ⟨-, h⟩
    rw [hb, hd, hn] at h
    exact h trivial

example (sha1 : Bytes → Sha1Hash) (json : JsonCodec) : ∃ c fs, CleanReach (exEnv sha1 json) exDir exDown (.running c fs) ∧ OnlyFailures [] ∧
    (methodsList [] none .noSocket ⟨c, fs, []⟩).1.returns = true ∧ (methodsList [] (some [10, 0, 0, 7]) .noSocket ⟨c, fs, []⟩).1 = .exit := by
  have hh := ex_healthy sha1 json
  have h0 := CleanReach.fresh (exEnv sha1 json) exDir exDown hh.utf8 exFS ex_fs_clean
  have hf : OnlyFailures [] := by intro f hf; cases hf
  exact ⟨_, _, h0, hf, (C60_survives_iff_partial hh h0 [] hf [] none .noSocket).2 (fun a ha => by cases ha), rfl⟩

end Flu
