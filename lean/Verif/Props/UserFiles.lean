import Verif.Lemmas.CatKeep
import Verif.Props.DownloadLoop
import Verif.Lemmas.Json2
import Verif.Props.Clean
/-!
# What happens to the user's files (C75), and to the chunks next to one that is received (C76)
-/
namespace Flu
open Spec

/-- `new` is `old` with (some of) the bytes of `data` at `start`; a gap between the old end and `start` is filled with zeros. -/
def Spec.Written (old new : Bytes) (start : Nat) (data : Bytes) : Prop :=
  ∀ j, new[j]? = old[j]? ∨ (start ≤ j ∧ j < start + data.length ∧ new[j]? = data[j - start]?) ∨ (old.length ≤ j ∧ j < start ∧ new[j]? = some 0)

theorem Spec.Written.refl (old : Bytes) (start : Nat) (data : Bytes) : Written old old start data := fun _ => .inl rfl

theorem Spec.Written.overlay {old cur : Bytes} {start : Nat} {data : Bytes} (h : Written old cur start data) (k : Nat) :
    Written old (overlay cur start (data.take k)) start data := by
  by_cases he : data.take k = []
  · unfold Flu.overlay; rw [if_pos he]; exact h
  intro j
  rw [overlay_getElem? _ _ _ he, List.length_take]
  split
  · rename_i hj
    refine .inr (.inl ⟨hj.1, by omega, ?_⟩)
    rw [List.getElem?_take, if_pos (by omega)]
  · split
    · exact h j
    · rename_i hlen
      have hnone : cur[j]? = none := List.getElem?_eq_none (by omega)
      have hj := h j
      rw [hnone] at hj
      split
      · rename_i hlt
        rcases hj with hj | ⟨hj, -⟩ | ⟨-, -, hj⟩
        · refine .inr (.inr ⟨?_, hlt, rfl⟩)
          exact List.getElem?_eq_none_iff.1 hj.symm
        · omega
        · cases hj
      · exact hj

section
variable {env : Env} {d dl : Path} {c : Cat} {fs : FS}

theorem Reach.kp (hh : Healthy env d) (hreach : Reach env d dl (.running c fs)) {ψ : FS → Prop} (hψ : ψ fs) : Kp d dl ψ c fs := by
  obtain ⟨ind, rfl, hw⟩ := (hreach.inv hh.abs hh.utf8).split
  exact ⟨ind, rfl, hw.dir, hw.wp, hψ⟩

theorem blind_at {q : Path} (hq : ¬ CatFile d q) (φ : Option Bytes → Prop) : Blind d (fun fs => φ (fs q)) := by
  intro fs p x hp h
  show φ (fs.put p x q)
  rw [FS.put_other _ _ _ _ (by rintro rfl; exact hq hp)]
  exact h

/-- C75: no call of the catalogue changes a file that is not one of the catalogue's own, whatever the call meets and however it ends, unless it is `SaveChunk` for the hash
that the file belongs to. -/
theorem C75_call (hh : Healthy env d) (hreach : Reach env d dl (.running c fs)) (o : Op) (q : Path) (hq : ¬ CatFile d q)
    (ho : ∀ h n data, o = .save h n data → c.pathOf h ≠ some q) (fl : List Fault) (r : Res Unit) (s' : St) (hrun : o.run env ⟨c, fs, fl⟩ = (r, s')) : s'.fs q = fs q := by
  have hK := kp_op (env := env) (dl := dl) (ψ := fun fs' => fs' q = fs q) (blind_at hq (· = fs q)) o (hreach.kp hh rfl) ?_ fl r s' hrun
  · obtain ⟨_, -, -, -, h⟩ := hK; exact h
  · intro h n data ho' rec hrec
    have hne : rec.filePath ≠ q := by
      intro e
      apply ho h n data ho'
      unfold Cat.record at hrec
      unfold Cat.pathOf
      rcases hi : c.indexFile with _ | ind
      · rw [hi] at hrec; cases hrec
      · rw [hi] at hrec
        simp only [Option.bind_some] at hrec ⊢
        rw [hrec, Option.map_some, e]
    exact ⟨fun fs' hf => by show fs'.put _ _ _ = _; rw [FS.put_other _ _ _ _ hne.symm]; exact hf,
      fun fs' k hf => by show fs'.put _ _ _ = _; rw [FS.put_other _ _ _ _ hne.symm]; exact hf⟩

/-- C75: nor does starting the daemon, whatever it meets. -/
theorem C75_start (env : Env) (d dl : Path) (fs : FS) (q : Path) (hq : ¬ CatFile d q) (fl : List Fault) (r : Res Unit) (s' : St)
    (hrun : Cat.init env ⟨⟨d, dl, none⟩, fs, fl⟩ = (r, s')) : s'.fs q = fs q := by
  have hT := kp_init (env := env) (d := d) (ψ := fun fs' => fs' q = fs q) (blind_at hq (· = fs q)) ⟨⟨d, dl, none⟩, fs, fl⟩ ⟨rfl, rfl⟩
  cases r with
  | ok a => exact hT.1 a s' hrun
  | err e => exact hT.2 _ s' hrun (fun a e => by cases e)
  | panic => exact hT.2 _ s' hrun (fun a e => by cases e)
  | exit => exact hT.2 _ s' hrun (fun a e => by cases e)
  | crash => exact hT.2 _ s' hrun (fun a e => by cases e)

/-- The steps of `Clean` as calls of the catalogue. -/
theorem kp_call {ψ : FS → Prop} (hb : Blind d ψ) {α : Type} (x : CM α) (o : Op) (ho : o.run env = CM.void x) (hs : ∀ h n data, o ≠ .save h n data) :
    Triple (Kp d dl ψ) x (fun _ => Kp d dl ψ) (Kp d dl ψ) := by
  have key : ∀ s : St, Kp d dl ψ s.cat s.fs → Kp d dl ψ (x s).2.cat (x s).2.fs := by
    intro s hK
    rcases hv : o.run env ⟨s.cat, s.fs, s.faults⟩ with ⟨r, s'⟩
    have := kp_op (env := env) hb o hK (fun h n data e => absurd e (hs h n data)) s.faults r s' hv
    rw [ho] at hv
    have e2 : (CM.void x s).2 = (x s).2 := by
      unfold CM.void
      rw [IOM.bind_apply]
      rcases x s with ⟨r, t⟩
      cases r <;> rfl
    have e3 : (CM.void x s).2 = s' := by rw [show s = ⟨s.cat, s.fs, s.faults⟩ from rfl, hv]
    rw [← e2, e3]
    exact this
  intro s hK
  exact ⟨fun a s' hx => by have := key s hK; rw [hx] at this; exact this, fun r s' hx _ => by have := key s hK; rw [hx] at this; exact this⟩

theorem kp_clean {ψ : FS → Prop} (hb : Blind d ψ) (order : List Sha1Hash) : Triple (Kp d dl ψ) (clean env order) (fun _ => Kp d dl ψ) (Kp d dl ψ) := by
  have hget : ∀ h, Triple (Kp d dl ψ) (getIndexRecord h) (fun _ => Kp d dl ψ) (Kp d dl ψ) := by
    intro h s hK
    obtain ⟨ind, hc, hdir, hw, hψ⟩ := hK
    obtain ⟨h1, h2⟩ := ro_getIndexRecord (d := d) (dl := dl) (fs0 := s.fs) hw.own h s (by rw [hc]; exact RO.init d dl ind s.fs)
    exact ⟨fun a s' e => kp_of_ro hdir hw hψ (h1 a s' e).1, fun r s' e hn => kp_of_ro hdir hw hψ (h2 r s' e hn)⟩
  have huns : ∀ h, Triple (Kp d dl ψ) (unshareFile env h) (fun _ => Kp d dl ψ) (Kp d dl ψ) := by
    intro h s hK
    have := fun r s' => kp_op (env := env) hb (.unshare h) hK (fun _ _ _ e => by cases e) s.faults r s'
    exact ⟨fun a s' e => this _ s' e, fun r s' e _ => this r s' e⟩
  have hone : ∀ f, Triple (Kp d dl ψ) (cleanOne env f) (fun _ => Kp d dl ψ) (Kp d dl ψ) := by
    intro f
    unfold cleanOne rehashCall
    refine Triple.bind (Q := fun _ => Kp d dl ψ) ?_ ?_
    · refine Triple.bind (Triple.attempt (hget _)) ?_
      intro r
      cases r with
      | error e => exact Triple.pure _ (fun _ _ h => h)
      | ok r =>
        refine Triple.bind (Triple.attempt ((Triple.osHashFile env _ (fun _ _ h => h)).post (fun _ _ _ h => h.1))) ?_
        intro r
        cases r with
        | error e => exact Triple.pure _ (fun _ _ h => h)
        | ok r => exact Triple.pure _ (fun _ _ h => h)
    · rintro ⟨cur, err⟩
      simp only
      have hlast : ∀ a : Action, Triple (Kp d dl ψ)
          (match cur with
            | none => IOM.lift .panic
            | some x => pure { filePath := f.filePath, indexedHash := f.sha1Hash, currentHash := x, action := a } : CM CleanItem) (fun _ => Kp d dl ψ) (Kp d dl ψ) := by
        intro a
        cases cur with
        | none => exact Triple.lift _ (fun a e => by cases e) (fun _ _ h => h)
        | some x => exact Triple.pure _ (fun _ _ h => h)
      refine Triple.bind (Q := fun _ => Kp d dl ψ) ?_ hlast
      cases err with
      | some e => exact Triple.bind (huns _) (fun _ => Triple.pure _ (fun _ _ h => h))
      | none =>
        refine Triple.bind (Q := fun _ => Kp d dl ψ) (Triple.lift _ (fun _ _ _ _ h => h) (fun _ _ h => h)) ?_
        intro full
        split
        · exact Triple.pure _ (fun _ _ h => h)
        · split
          · exact Triple.bind (huns _) (fun _ => Triple.pure _ (fun _ _ h => h))
          · exact Triple.pure _ (fun _ _ h => h)
  unfold clean
  refine Triple.bind (kp_call (env := env) hb (listFiles order) (.list order) rfl (fun _ _ _ e => by cases e)) ?_
  intro files
  induction files with
  | nil => exact Triple.pure _ (fun _ _ h => h)
  | cons f rest ih => exact Triple.bind (hone f) (fun _ => Triple.bind ih (fun _ => Triple.pure _ (fun _ _ h => h)))

/-- C75: nor does `Clean`, however it ends. -/
theorem C75_clean (hh : Healthy env d) (hreach : Reach env d dl (.running c fs)) (order : List Sha1Hash) (q : Path) (hq : ¬ CatFile d q) (fl : List Fault)
    (r : Res (List CleanItem)) (s' : St) (hrun : clean env order ⟨c, fs, fl⟩ = (r, s')) : s'.fs q = fs q := by
  have hT := kp_clean (env := env) (dl := dl) (ψ := fun fs' => fs' q = fs q) (blind_at hq (· = fs q)) order ⟨c, fs, fl⟩ (hreach.kp hh rfl)
  have out : ∀ {c : Cat} {fs' : FS}, Kp d dl (fun fs' => fs' q = fs q) c fs' → fs' q = fs q := fun h => by obtain ⟨_, -, -, -, h⟩ := h; exact h
  cases r with
  | ok a => exact out (hT.1 a s' hrun)
  | err e => exact out (hT.2 _ s' hrun (fun a e => by cases e))
  | panic => exact out (hT.2 _ s' hrun (fun a e => by cases e))
  | exit => exact out (hT.2 _ s' hrun (fun a e => by cases e))
  | crash => exact out (hT.2 _ s' hrun (fun a e => by cases e))

/-- C75: `SaveChunk` for the hash of the file only puts bytes of its data at their place (all of them, some, or none if something goes wrong), and zeros before them where the
file was shorter; the file does not disappear. -/
theorem C75_save (hh : Healthy env d) (hreach : Reach env d dl (.running c fs)) (h : Sha1Hash) (n : UInt16) (data : Bytes) (e : Export) (ho : observe c fs h = .ok e)
    (hq : ¬ CatFile d e.filePath) (fl : List Fault) (r : Res Unit) (s' : St) (hrun : saveChunk h n data ⟨c, fs, fl⟩ = (r, s')) :
    Written ((fs e.filePath).getD []) ((s'.fs e.filePath).getD []) (n.toNat * e.chunkSize.toNat) data ∧ ((fs e.filePath).isSome → (s'.fs e.filePath).isSome) := by
  have hI := hreach.inv hh.abs hh.utf8
  have hrec : ∃ rec, c.record h = some rec ∧ rec.filePath = e.filePath ∧ rec.chunkSize = e.chunkSize := by
    obtain ⟨ind, rfl, hw⟩ := hI.split
    rw [observe_eq] at ho
    unfold obsRec at ho
    rcases hm : mapGet ind.index h with _ | rec
    · rw [hm] at ho; cases ho
    rw [hm] at ho
    obtain ⟨p, -, h2⟩ := (Res.bind_ok_iff _ _ _).1 ho
    cases h2
    exact ⟨rec, hm, rfl, rfl⟩
  obtain ⟨rec, hrec, hp, hcs⟩ := hrec
  have hstart : ((n.toNat : Int) * rec.chunkSize).toNat = n.toNat * e.chunkSize.toNat := by
    rw [hcs]
    rcases Int.le_total 0 e.chunkSize with h0 | h0
    · obtain ⟨k, hk⟩ := Int.eq_ofNat_of_zero_le h0
      rw [hk, ← Int.natCast_mul, Int.toNat_natCast, Int.toNat_natCast]
    · have : (n.toNat : Int) * e.chunkSize ≤ 0 := Int.mul_nonpos_of_nonneg_of_nonpos (by omega) h0
      rw [Int.toNat_of_nonpos this, Int.toNat_of_nonpos h0, Nat.mul_zero]
  let φ : Option Bytes → Prop := fun x => Written ((fs e.filePath).getD []) (x.getD []) (n.toNat * e.chunkSize.toNat) data ∧ ((fs e.filePath).isSome → x.isSome)
  have hK := kp_op (env := env) (dl := dl) (ψ := fun fs' => φ (fs' e.filePath)) (blind_at hq φ) (.save h n data) (hreach.kp hh ⟨Written.refl _ _ _, fun h => h⟩) ?_ fl r s' hrun
  · obtain ⟨_, -, -, -, h⟩ := hK; exact h
  · intro h' n' data' ho' rec' hrec'
    cases ho'
    rw [hrec] at hrec'; cases hrec'
    rw [hstart, hp]
    constructor
    · intro fs' hf
      show φ (fs'.put _ _ _)
      rw [FS.put_same]
      exact ⟨hf.1, fun _ => rfl⟩
    · intro fs' k hf
      show φ (fs'.put _ _ _)
      rw [FS.put_same]
      exact ⟨hf.1.overlay k, fun _ => rfl⟩

/-! ### Receiving a chunk -/

/-- Only bytes from `start` on and before `stop` differ; a gap before `start` may have been filled with zeros. -/
def Spec.OnlyWithin (old new : Bytes) (start stop : Nat) : Prop :=
  ∀ j, j < start ∨ stop ≤ j → new[j]? = old[j]? ∨ (old.length ≤ j ∧ j < start ∧ new[j]? = some 0)

/-- C76 in full: whatever a peer that was asked for chunk `n` sends, only the bytes of chunk `n` of the file can change. -/
def C76_statement : Prop := ∀ (env : Env) (d dl : Path) (c : Cat) (fs : FS) (h : Sha1Hash) (n : UInt16) (e : Export) (queue : List (Option Bytes)) (fl : List Fault)
  (out : Res DLOut) (s' : St), Healthy env d → Reach env d dl (.running c fs) → observe c fs h = .ok e → ¬ CatFile d e.filePath → 0 < e.chunkSize →
  downloadChunk env h n queue ⟨c, fs, fl⟩ = (out, s') →
  OnlyWithin ((fs e.filePath).getD []) ((s'.fs e.filePath).getD []) (n.toNat * e.chunkSize.toNat) ((n.toNat + 1) * e.chunkSize.toNat)

/-- C76, what holds: it is so if no first packet of the peer announces more bytes than a chunk has. -/
theorem C76_partial (hh : Healthy env d) (hreach : Reach env d dl (.running c fs)) (h : Sha1Hash) (n : UInt16) (e : Export) (ho : observe c fs h = .ok e)
    (hq : ¬ CatFile d e.filePath) (queue : List (Option Bytes)) (hsize : ∀ dg, some dg ∈ queue → dgOffset dg = 0 → (dgSize dg : Int) ≤ e.chunkSize)
    (fl : List Fault) (out : Res DLOut) (s' : St) (hrun : downloadChunk env h n queue ⟨c, fs, fl⟩ = (out, s')) :
    OnlyWithin ((fs e.filePath).getD []) ((s'.fs e.filePath).getD []) (n.toNat * e.chunkSize.toNat) ((n.toNat + 1) * e.chunkSize.toNat) := by
  rw [downloadChunk_eq] at hrun
  have same : (out, s') = (out, (⟨c, fs, fl⟩ : St)) → OnlyWithin ((fs e.filePath).getD []) ((s'.fs e.filePath).getD []) (n.toNat * e.chunkSize.toNat) ((n.toNat + 1) * e.chunkSize.toNat) := by
    intro hx; cases hx; exact fun j _ => .inl rfl
  rcases hr : recvLoop env.sha1 .fresh queue with ⟨x, o⟩ | e' | _ | _ | _
  · rw [hr] at hrun
    rcases o with c' | _ | ⟨b, ok⟩
    · cases hrun; exact fun j _ => .inl rfl
    · cases hrun; exact fun j _ => .inl rfl
    · simp only [] at hrun
      have hsave : ∃ r, saveChunk h n b ⟨c, fs, fl⟩ = (r, s') := by
        rw [IOM.bind_apply] at hrun
        unfold IOM.orPanic at hrun
        rcases hs : saveChunk h n b ⟨c, fs, fl⟩ with ⟨r, s1⟩
        rw [hs] at hrun
        cases r <;> (cases hrun; exact ⟨_, rfl⟩)
      obtain ⟨r, hsave⟩ := hsave
      obtain ⟨hw, -⟩ := C75_save hh hreach h n b e ho hq fl r s' hsave
      obtain ⟨dg, hdg, h0, hlen, -⟩ := recvLoop_from env.sha1 queue .fresh [] x b ok (by intro h hx; cases hx) hr
      have hlen' := hsize dg (hdg.resolve_left (by intro hx; cases hx)) h0
      intro j hj
      rcases hw j with hw | ⟨h1, h2, -⟩ | hw
      · exact .inl hw
      · rw [Nat.add_mul, Nat.one_mul] at hj
        omega
      · exact .inr hw
  all_goals (rw [hr] at hrun; cases hrun; exact fun j _ => .inl rfl)

/-- C76, the limit: asked for one chunk of a known file, a peer can put any bytes `X` in place of what follows that chunk, without any error, and the hash it announces matches; what
the catalogue says about the chunks that follow does not change. -/
theorem C76_overwrites (hh : Healthy env d) (hreach : Reach env d dl (.running c fs)) (h : Sha1Hash) (n : UInt16) (e : Export) (ho : observe c fs h = .ok e)
    (hq : ¬ CatFile d e.filePath) (B X : Bytes) (hB : (B.length : Int) = e.chunkSize) (hX : B.length + X.length < 2 ^ 32) :
    ∃ queue s' e' content, downloadChunk env h n queue ⟨c, fs, []⟩ = (.ok (.saved true), s') ∧ observe s'.cat s'.fs h = .ok e' ∧ e'.filePath = e.filePath ∧
      (∀ i, i < 2 ^ 63 → i ≠ n.toNat → (e'.saved i ↔ e.saved i)) ∧ s'.fs e.filePath = some content ∧
      (content.drop ((n.toNat + 1) * e.chunkSize.toNat)).take X.length = X := by
  obtain ⟨queue, acks, hr⟩ := deliverable env.sha1 (B ++ X) (by rw [List.length_append]; exact hX)
  obtain ⟨s', hs⟩ := saveChunk_total hh hreach h n (B ++ X) e ho
  have hsafe : (Op.save h n (B ++ X)).Safe d c := by
    intro p hp
    rw [observe_path hh hreach h e ho] at hp
    cases hp; exact hq
  obtain ⟨e0, e', h1, h2, h3, h4, h5, h6, h7⟩ := saveChunk_effect hh hreach h n (B ++ X) [] hsafe s' hs
  rw [ho] at h1; cases h1
  refine ⟨queue, s', e', _, ?_, h2, by rw [h3], ?_, h6, ?_⟩
  · rw [downloadChunk_eq, hr]
    simp only []
    rw [IOM.bind_apply]
    unfold IOM.orPanic
    rw [hs]; rfl
  · intro i hi hin
    rw [h5 i hi]
    exact ⟨fun hx => hx.resolve_right hin, .inl⟩
  · have hr := overlay_read ((fs e.filePath).getD []) (n.toNat * e.chunkSize.toNat) (B ++ X)
    have hcs : e.chunkSize.toNat = B.length := by omega
    have := congrArg (List.drop B.length) hr
    rw [List.drop_left, List.drop_take, List.drop_drop, List.length_append] at this
    rw [Nat.add_mul, Nat.one_mul]
    conv => lhs; rw [hcs]
    rw [hcs] at this
    rw [show B.length + X.length - B.length = X.length by omega] at this
    exact this

/-! ### Cases -/

end

/-- In the example a download of five bytes in chunks of two, with all chunks saved. -/
theorem ex_halfway (sha1 : Bytes → Sha1Hash) (json : JsonCodec) (h : Sha1Hash) : ∃ c fs e, Reach (exEnv sha1 json) exDir exDown (.running c fs) ∧ observe c fs h = .ok e ∧
    e.filePath = joinPath [exDown, [120]] ∧ e.chunkSize = 2 ∧ fs e.filePath = some [10, 20, 30, 40, 50] ∧ (∀ i : Nat, i < 3 → e.saved i) := by
  have hh := ex_healthy sha1 json
  have h0 : CleanReach (exEnv sha1 json) exDir exDown (.running ⟨exDir, exDown, some (freshIdx (exEnv sha1 json) exDir)⟩ (exFS1 sha1 json)) :=
    CleanReach.fresh (exEnv sha1 json) exDir exDown hh.utf8 exFS ex_fs_clean
  have hne : exFS1 sha1 json (joinPath [exDown, [120]]) = none := by
    unfold exFS1
    rw [FS.put_other _ _ _ _ (fun e => ex_not_catFile2 (.inl e)), ex_path]
    decide
  obtain ⟨e, s1, -, -, h2, -⟩ := C33_download hh h0 [10, 20, 30, 40, 50] 2 h [120] (by decide) (by decide) (by decide) rfl ex_not_catFile2
    (by rw [hne]; decide) [2, 0, 2, 1] (by decide) (by decide)
  obtain ⟨g1, g2, g3⟩ := C33_start hh h0.reach [10, 20, 30, 40, 50] 2 h [120] [] e s1 (by decide) (by decide) ex_not_catFile2 h2
  have hr1 := h0.reach.call (.register 5 2 h [120]) trivial [] s1 (CM.void_ok _ _ _ _ h2)
  obtain ⟨s2', e2, k1, k2, k3, k4, k5, k6, -⟩ := C33_any_order hh [10, 20, 30, 40, 50] _ 2 h [2, 0, 1] s1.cat s1.fs e hr1 g2 (by rw [g1]; exact ex_not_catFile2) (by rw [g1]; exact g3) (by decide)
  have hall : ∀ i : Nat, i < 3 → e2.saved i := by
    intro i hi
    refine (k6 i (by simpa using hi)).2 (.inr ?_)
    rcases i with _ | _ | _ | i
    · exact ⟨0, by decide, rfl⟩
    · exact ⟨1, by decide, rfl⟩
    · exact ⟨2, by decide, rfl⟩
    · omega
  refine ⟨_, _, e2, k2, k3, k4.trans g1, k5.chunkSize, ?_, hall⟩
  rw [k4]
  refine (C33_content _ _ 2 _ e2 k5 (by decide) ?_).2 (by rw [hne]; decide)
  intro i hi
  rw [k5.count] at hi
  exact hall i (by simp at hi; omega)

/-- C76 is false: asked for chunk 0, the peer sends three bytes instead of two, and byte 2 of the file, which was right, becomes 99. -/
theorem C76_refuted : ¬ C76_statement := by
  intro hst
  obtain ⟨c, fs, e, h1, h2, h3, h4, h5, -⟩ := ex_halfway (fun _ => Sha1Hash.zero) goJson Sha1Hash.zero
  have hh := ex_healthy (fun _ => Sha1Hash.zero) goJson
  have hq : ¬ CatFile exDir e.filePath := by rw [h3]; exact ex_not_catFile2
  obtain ⟨queue, s', e', content, g1, -, -, -, g5, g6⟩ := C76_overwrites hh h1 Sha1Hash.zero 0 e h2 hq [10, 20] [99] (by rw [h4]; rfl) (by decide)
  have := hst _ _ _ _ _ _ 0 e queue [] _ s' hh h1 h2 hq (by rw [h4]; decide) g1 2 (.inr (by rw [h4]; decide))
  rw [h5, g5, Option.getD_some, Option.getD_some] at this
  have h99 : content[2]? = some 99 := by
    have hx := congrArg (fun l => l[0]?) g6
    rw [h4] at hx
    simpa using hx
  rw [h99] at this
  rcases this with hx | ⟨hx, -⟩
  · exact absurd hx (by decide)
  · exact absurd hx (by decide)

/-- `C75_call`, `C75_start`: the shared file `/f` of the example, and the hash it is shared under being unshared. -/
example (sha1 : Bytes → Sha1Hash) (json : JsonCodec) : ∃ c fs r s', Reach (exEnv sha1 json) exDir exDown (.running c fs) ∧ ¬ CatFile exDir (absOf [[102]]) ∧
    fs (absOf [[102]]) = some [1, 2, 3] ∧ (Op.unshare (sha1 [1, 2, 3])).run (exEnv sha1 json) ⟨c, fs, [.none, .crash (some 3)]⟩ = (r, s') ∧
    ∀ h n data, Op.unshare (sha1 [1, 2, 3]) = .save h n data → c.pathOf h ≠ some (absOf [[102]]) := by
  obtain ⟨c, fs, b, h1, h2, h3, -⟩ := ex_clean sha1 json
  exact ⟨c, fs, _, _, h1.reach, ex_not_catFile 102 (by simp), h2, rfl, fun _ _ _ hx => by cases hx⟩

/-- `C75_clean`: the same catalogue, killed in the middle of `Clean`. -/
example (sha1 : Bytes → Sha1Hash) (json : JsonCodec) : ∃ c fs r s', Reach (exEnv sha1 json) exDir exDown (.running c fs) ∧ ¬ CatFile exDir (absOf [[102]]) ∧
    fs (absOf [[102]]) = some [1, 2, 3] ∧ clean (exEnv sha1 json) [sha1 [1, 2, 3]] ⟨c, fs, [.none, .crash none]⟩ = (r, s') := by
  obtain ⟨c, fs, b, h1, h2, h3, -⟩ := ex_clean sha1 json
  exact ⟨c, fs, _, _, h1.reach, ex_not_catFile 102 (by simp), h2, rfl⟩

/-- `C75_save`, `C76_partial`, `C76_overwrites`: the download of the example, a full disk in the middle of a write, and a peer that sends chunk 1. -/
example (sha1 : Bytes → Sha1Hash) (json : JsonCodec) (h : Sha1Hash) : ∃ c fs e queue acks, Reach (exEnv sha1 json) exDir exDown (.running c fs) ∧ observe c fs h = .ok e ∧
    ¬ CatFile exDir e.filePath ∧ e.chunkSize = 2 ∧ fs e.filePath = some [10, 20, 30, 40, 50] ∧ recvLoop sha1 .fresh queue = .ok (acks, .finished [30, 40] true) ∧
    ∃ r s', saveChunk h 1 [7, 8] ⟨c, fs, [.none, .fail (some 1)]⟩ = (r, s') := by
  obtain ⟨c, fs, e, h1, h2, h3, h4, h5, -⟩ := ex_halfway sha1 json h
  obtain ⟨queue, acks, hr⟩ := deliverable sha1 [30, 40] (by decide)
  exact ⟨c, fs, e, queue, acks, h1, h2, by rw [h3]; exact ex_not_catFile2, h4, h5, hr, _, _, rfl⟩

end Flu
