import Verif.Model.Process
import Verif.Props.Flags
import Verif.Props.Text
import Verif.Props.Commands
import Verif.Props.Works
import Verif.Props.Clean
import Verif.Props.Failures
/-!
# C132: what a user, or a script, can tell from how a command ends
-/
namespace Flu
open Spec
open Json (ascii)

section
variable {env : Env} {d dl : Path} {c : Cat} {fs : FS} {order : List Sha1Hash} {w : CmdWire} {parseIP : GoString → Option Bytes} {why : CleanItem → Bytes} {hs : Nat}

/-! ### The pieces -/

/-- The process that sends a request. -/
theorem runCommand_call {args : List GoString} {r : CliReq} (h : Means parseIP args r) (s : St) : runCommand env order w parseIP why hs args s =
    (some (showAnswer why (serveCommand env order w r s).1), if (serveCommand env order w r s).1.returns then some (serveCommand env order w r s).2 else none) := by
  unfold runCommand
  rw [(C130_command (parseIP := parseIP) args r).2 h]

theorem runCommand_ok {args : List GoString} {r : CliReq} (h : Means parseIP args r) {s s' : St} {rep : CliReply} (hrun : serveCommand env order w r s = (.ok rep, s')) :
    runCommand env order w parseIP why hs args s = (some (showAnswer why (.ok rep)), some s') := by
  rw [runCommand_call h, hrun]; rfl

theorem runCommand_err {args : List GoString} {r : CliReq} (h : Means parseIP args r) {s s' : St} {e : Err} (hrun : serveCommand env order w r s = (.err e, s')) :
    runCommand env order w parseIP why hs args s = (some ⟨.error, 0⟩, some s') := by
  rw [runCommand_call h, hrun]; rfl

theorem runCommand_dead {args : List GoString} {r : CliReq} (h : Means parseIP args r) {s : St} (hrun : (serveCommand env order w r s).1.returns = false) :
    runCommand env order w parseIP why hs args s = (some ⟨.error, 0⟩, none) := by
  rw [runCommand_call h, hrun]
  cases hx : (serveCommand env order w r s).1 with
  | ok => rw [hx] at hrun; cases hrun
  | _ => rfl

theorem flagParse_client (args : List GoString) (o : CliOut) : ∀ b, flagParse b args ≠ .error (.client o) := by
  induction args with
  | nil => intro b h; cases h
  | cons x rest ih =>
    intro b h
    rw [flagParse] at h
    split at h
    · cases h
    · exact ih _ h
    · cases h
    · cases h

theorem listText_one (i : ListItem) : listText [i] = i.text := by
  show (i.text >>= fun a => listText [] >>= fun b => pure (a ++ b)) = i.text
  cases i.text with
  | ok t => show Res.ok (t ++ []) = _; rw [List.append_nil]
  | _ => rfl

/-- One entry can be printed exactly if the file has chunks. -/
theorem item_text (i : ListItem) : (i.chunkCount ≠ 0 → ∃ t, i.text = .ok t) ∧ (i.chunkCount = 0 → i.text = .panic) := by
  have h := C89_prints [i]
  rw [listText_one] at h
  exact ⟨fun hc => h.1.2 (fun j hj => by rw [List.mem_singleton.1 hj]; exact hc), fun hc => h.2 ⟨i, List.mem_singleton.2 rfl, hc⟩⟩

/-- What `share` answers is what the catalogue then shows. -/
theorem share_observed (hh : Healthy env d) (hreach : Reach env d dl (.running c fs)) (path : GoString) (r : Record) (s' : St) (hrun : shareFile env path ⟨c, fs, []⟩ = (.ok r, s')) :
    ∃ e, r.export = .ok e ∧ observe s'.cat s'.fs r.sha1Hash = .ok e := by
  have hI : Inv env d dl c fs := hreach.inv hh.abs hh.utf8
  obtain ⟨ind, rfl, hw⟩ := hI.split
  obtain ⟨content, p, full, m1, h1, h2, h3, h4, h5, h6, h7, -⟩ := shareFile_nil_ok env path d dl ind fs r s' hrun
  refine ⟨⟨r.filePath, r.sizeInBytes, r.sha1Hash, full, r.chunkSize⟩, ?_, ?_⟩
  · rw [h5]; rfl
  · rw [h6, observe_eq]
    unfold obsRec
    have hk : r.sha1Hash = env.sha1 content := by rw [h5]
    rw [hk, mapGet_put, if_pos rfl, h5]
    rfl

/-- The command `share` on a disk that works. -/
theorem serve_share (hh : Healthy env d) (hr : CleanReach env d dl (.running c fs)) (path : GoString)
    (hsz : ∀ content, fs (absPath env.cwd path) = some content → content.length < 2 ^ 63) :
    (∀ content, fs (absPath env.cwd path) = some content → observe c fs (env.sha1 content) = .err .fileNotFound →
      ∃ e s', serveCommand env order w (.share path) ⟨c, fs, []⟩ = (.ok (.shared (localItem e)), s') ∧ observe s'.cat s'.fs (env.sha1 content) = .ok e ∧
        e.filePath = absPath env.cwd path ∧ e.sizeInBytes = content.length ∧ e.sha1Hash = env.sha1 content ∧ e.progress.sizeOf = ((content.length + 4194303) / 4194304 : Nat) ∧
        CleanReach env d dl (.running s'.cat s'.fs) ∧ ∀ h, h ≠ env.sha1 content → observe s'.cat s'.fs h = observe c fs h) ∧
    ((∀ content, fs (absPath env.cwd path) = some content → ∃ e, observe c fs (env.sha1 content) = .ok e) →
      ∃ x s', serveCommand env order w (.share path) ⟨c, fs, []⟩ = (.err x, s') ∧ s'.fs = fs ∧ ∀ h, observe s'.cat s'.fs h = observe c fs h) := by
  have hs := C108_succeeds hh hr (.share path) hsz
  constructor
  · intro content h1 h2
    obtain ⟨s', hv⟩ := hs.2 ⟨content, h1, h2⟩
    obtain ⟨r, hrun⟩ := void_ok.1 hv
    obtain ⟨e, he, ho⟩ := share_observed hh hr.reach path r s' hrun
    obtain ⟨content', g1, g2, g3, g4, -⟩ := C26_share hh hr.reach path [] r s' hrun
    rw [h1] at g1; cases g1
    obtain ⟨b, k1, k2, -⟩ := g3 (hsz _ h1)
    have hk : r.sha1Hash = env.sha1 content := by
      rw [← C27_own hh (hr.returns (.share path) trivial s' (.inl hv)).reach _ _ ho]
      apply Classical.byContradiction
      intro hne
      have h3 := C27_own hh (hr.returns (.share path) trivial s' (.inl hv)).reach _ _ ho
      rw [h3] at hne
      have hI : Inv env d dl c fs := hr.reach.inv hh.abs hh.utf8
      obtain ⟨ind, rfl, hw⟩ := hI.split
      obtain ⟨content', p, full, m1, q1, q2, q3, q4, q5, q6, q7, -⟩ := shareFile_nil_ok env path d dl ind fs r s' hrun
      rw [h1] at q1; cases q1
      rw [q5] at hne
      exact hne rfl
    rw [hk, k1] at ho
    cases ho
    refine ⟨_, s', ?_, k1, rfl, rfl, rfl, k2, hr.returns (.share path) trivial s' (.inl hv), g4⟩
    show (shareFile env path >>= fun r => IOM.lift r.export >>= fun e => pure (CliReply.shared (localItem e)) : CM CliReply) _ = _
    rw [IOM.bind_apply, hrun]
    simp only
    rw [IOM.bind_apply, IOM.lift_apply, he]
    rfl
  · intro hno
    have hret : (serveCommand env order w (.share path) ⟨c, fs, []⟩).1.returns = true := by
      cases hx : (serveCommand env order w (.share path) ⟨c, fs, []⟩).1.returns with
      | true => rfl
      | false => exact ((C124_ends_iff_partial hh hr order w (.share path) hsz).1 hx).1.elim
    have hrun : ∀ s', shareFile env path ⟨c, fs, []⟩ = s' → (serveCommand env order w (.share path) ⟨c, fs, []⟩) =
        (shareFile env path >>= fun r => IOM.lift r.export >>= fun e => pure (CliReply.shared (localItem e)) : CM CliReply) ⟨c, fs, []⟩ := fun _ _ => rfl
    rcases hx : shareFile env path ⟨c, fs, []⟩ with ⟨q, s'⟩
    have hq := hrun _ hx
    rw [IOM.bind_apply, hx] at hq
    cases q with
    | ok r =>
      obtain ⟨content, h1, h2, -⟩ := C26_share hh hr.reach path [] r s' hx
      obtain ⟨e, he⟩ := hno content h1
      rw [h2] at he; cases he
    | err x =>
      obtain ⟨h1, h2⟩ := C81_partial hh hr.reach (.share path) [] (.inr rfl) x s' (CM.void_err _ _ _ _ hx)
      exact ⟨x, s', hq, h1, h2⟩
    | _ => rw [hq] at hret; cases hret

/-- The command `list` for the daemon's own files. -/
theorem serve_list (hh : Healthy env d) (hr : CleanReach env d dl (.running c fs)) (ho : MapOrder c order) (h : Sha1Hash) :
    ∃ (es : List Export) (s' : St), serveCommand env order w (.list none h) ⟨c, fs, []⟩ = (.ok (.files (es.map localItem)), s') ∧ order.map (observe c fs) = es.map Res.ok ∧
      (∀ k, k ∈ order ↔ ∃ e, observe c fs k = .ok e) ∧ s'.fs = fs ∧ (∀ k, observe s'.cat s'.fs k = observe c fs k) ∧ CleanReach env d dl (.running s'.cat s'.fs) := by
  have known := clean_known hh hr
  obtain ⟨es, s', hrun⟩ := C38_total hh hr.reach order ho (fun k hk => (known k).resolve_right hk)
  obtain ⟨h1, h2, h3, h4, h5⟩ := C38_list hh hr.reach order ho [] es s' hrun
  refine ⟨es, s', ?_, h1, fun k => ?_, h4, h5, hr.returns (.list order) trivial s' (.inl (CM.void_ok _ _ _ _ hrun))⟩
  · show ((listFiles order >>= fun records => pure (records.map localItem)) >>= fun x => pure (CliReply.files x) : CM CliReply) _ = _
    rw [IOM.bind_apply, IOM.bind_apply, hrun]
    rfl
  · rw [h3]
    constructor
    · intro hk; exact (known k).resolve_right hk
    · rintro ⟨e, he⟩ hk; rw [he] at hk; cases hk

/-- A download that was registered is shown, whatever was said of its size. -/
theorem register_observed (hh : Healthy env d) (hreach : Reach env d dl (.running c fs)) (size : UInt64) (cs : UInt32) (h : Sha1Hash) (name : GoString) (e : Export) (s' : St)
    (hrun : registerDownload env size cs h name ⟨c, fs, []⟩ = (.ok e, s')) : observe s'.cat s'.fs h = .ok e := by
  have hI : Inv env d dl c fs := hreach.inv hh.abs hh.utf8
  obtain ⟨ind, rfl, hw⟩ := hI.split
  obtain ⟨p, m1, fs1, h1, h2, h3, h4, h5, h6, -, h7⟩ := registerDownload_ok env size cs h name d dl ind fs [] e s' hrun
  rw [h5, observe_eq]
  unfold obsRec
  simp only
  rw [mapGet_put, if_pos rfl, h7]
  rfl

/-- A download that was started is shown. -/
theorem start_observed (hh : Healthy env d) (hr : CleanReach env d dl (.running c fs)) (wire : DLWire) (h : Sha1Hash) (own : ByteArr 4) (s' : St)
    (hrun : startDownload env wire h ⟨c, fs, []⟩ = (.ok own, s')) : ∃ e, observe s'.cat s'.fs h = .ok e := by
  obtain ⟨known, c1, h1, h2, h3, h4⟩ := startDownload_eq hh hr wire h
  rw [h1] at hrun
  unfold startSetup at hrun
  obtain ⟨own', s2, k0, k2⟩ := (IOM.bind_ok_iff _ _ _ _ _).1 hrun
  rw [IOM.lift_apply] at k0
  obtain ⟨k1, rfl⟩ := Prod.mk.inj k0
  rcases wire with ⟨addrs, _ | rs, desc⟩
  · cases k2
  simp only [] at k1 k2
  cases hg : goodHosts own' rs with
  | nil => rw [hg] at k2; cases k2
  | cons peer rest =>
    rw [hg] at k2
    simp only [] at k2
    rcases h4 with ⟨rfl, e, h4⟩ | ⟨rfl, h4⟩
    · rw [if_pos rfl] at k2
      cases k2
      exact ⟨e, (h3 h).trans h4⟩
    · rw [if_neg (by decide)] at k2
      obtain ⟨f, s3, m0, m2⟩ := (IOM.bind_ok_iff _ _ _ _ _).1 k2
      rw [IOM.lift_apply] at m0
      obtain ⟨m1, rfl⟩ := Prod.mk.inj m0
      obtain ⟨e, s4, m3, m4⟩ := (IOM.bind_ok_iff _ _ _ _ _).1 m2
      cases m4
      rw [downloadMetaData_hash _ _ _ m1] at m3
      exact ⟨e, register_observed hh h2.reach _ _ h _ e s' m3⟩

theorem listAddress_cases (ip : Bytes) : listAddress ip = .panic ∨ ∃ a, listAddress ip = .ok a := by
  apply Classical.byContradiction
  intro hn
  refine hn (.inl ((C60_panics_iff ip).2 (fun x y z v => ⟨?_, ?_⟩)))
  · rintro rfl; exact hn (.inr ⟨_, (C60_partial x y z v).1⟩)
  · rintro rfl; exact hn (.inr ⟨_, (C60_partial x y z v).2⟩)

/-! ### The theorems -/

/-- C132: whatever fails, a status other than 0 after a request means that the daemon has done what it was asked; an answer on the screen is that of the daemon; and the end of the daemon looks like
any other error, with status 0. -/
theorem C132_status {args : List GoString} {r : CliReq} (h : Means parseIP args r) (s : St) (x : CmdEnd) (ds : Option St)
    (hx : runCommand env order w parseIP why hs args s = (some x, ds)) :
    (x.status ≠ 0 ↔ x.shown = .trace) ∧ (x.shown = .trace → ∃ rep s', serveCommand env order w r s = (.ok rep, s') ∧ ds = some s' ∧ ∀ t, rep.text why ≠ .ok t) ∧
    (∀ t, x.shown = .answer t → ∃ rep s', serveCommand env order w r s = (.ok rep, s') ∧ ds = some s' ∧ rep.text why = .ok t) ∧
    (ds = none ↔ (serveCommand env order w r s).1.returns = false) ∧ (ds = none → x = ⟨.error, 0⟩) := by
  rw [runCommand_call h] at hx
  obtain ⟨rfl, rfl⟩ : x = _ ∧ ds = _ := ⟨(Option.some.inj (Prod.mk.inj hx).1).symm, (Prod.mk.inj hx).2.symm⟩
  rcases hq : serveCommand env order w r s with ⟨q, s'⟩
  cases q with
  | ok rep =>
    simp only [showAnswer]
    cases ht : rep.text why with
    | ok t =>
      refine ⟨(by simp), (by intro hc; cases hc), ?_, (by simp [Res.returns]), (by simp [Res.returns])⟩
      intro t' ht'
      cases ht'
      exact ⟨rep, s', rfl, (by simp [Res.returns]), ht⟩
    | _ =>
      refine ⟨(by simp), fun _ => ⟨rep, s', rfl, (by simp [Res.returns]), (by intro t hc; rw [ht] at hc; cases hc)⟩, (by intro t hc; cases hc), (by simp [Res.returns]), (by simp [Res.returns])⟩
  | err e => exact ⟨(by simp [showAnswer]), (by intro hc; cases hc), (by intro t hc; cases hc), (by simp [Res.returns]), (by simp [Res.returns])⟩
  | _ => exact ⟨(by simp [showAnswer]), (by intro hc; cases hc), (by intro t hc; cases hc), (by simp [Res.returns]), fun _ => rfl⟩

/-- C132: without a request nothing happens to the daemon, and there is no answer on the screen. -/
theorem C132_unsent {args : List GoString} (h : ∀ r, ¬ Means parseIP args r) (s : St) :
    (runCommand env order w parseIP why hs args s).2 = some s ∧ ∀ x, (runCommand env order w parseIP why hs args s).1 = some x →
      (x.shown = .trace ∧ args = [Spec.get] ∧ x.status = 2) ∨ x.shown = .own := by
  have hc : ∀ r, mainRun parseIP true args ≠ .client (.call r) := fun r hr => h r ((C130_command args r).1 hr)
  unfold runCommand
  rcases hm : mainRun parseIP true args with _ | o | _ | _
  · exact ⟨rfl, by intro x hx; cases hx⟩
  · cases o with
    | call r => exact absurd hm (hc r)
    | panic =>
      refine ⟨rfl, ?_⟩
      intro x hx
      cases hx
      refine .inl ⟨rfl, ?_, rfl⟩
      unfold mainRun at hm
      split at hm
      · rename_i y hy; rw [hm] at hy; exact absurd hy (flagParse_client _ _ _)
      · cases hm
      · exact (C62_panics_iff _ args).1 (Started.client.inj hm)
    | message => exact ⟨rfl, by intro x hx; cases hx; exact .inr rfl⟩
    | exit2 => exact ⟨rfl, by intro x hx; cases hx; exact .inr rfl⟩
  · exact ⟨rfl, by intro x hx; cases hx; exact .inr rfl⟩
  · exact ⟨rfl, by intro x hx; cases hx; exact .inr rfl⟩

/-- C132: `share`.  On a disk that works it shows the new entry of the catalogue with status 0, or an error with status 0 and the catalogue is as before; but if the file is empty, it is in the catalogue
and the client dies. -/
theorem C132_share (hh : Healthy env d) (hr : CleanReach env d dl (.running c fs)) {args : List GoString} {path : GoString} (h : Means parseIP args (.share path))
    (hsz : ∀ content, fs (absPath env.cwd path) = some content → content.length < 2 ^ 63) :
    (∀ content, fs (absPath env.cwd path) = some content → observe c fs (env.sha1 content) = .err .fileNotFound → content ≠ [] →
      ∃ t e s', runCommand env order w parseIP why hs args ⟨c, fs, []⟩ = (some ⟨.answer t, 0⟩, some s') ∧ (localItem e).text = .ok t ∧ observe s'.cat s'.fs (env.sha1 content) = .ok e ∧
        e.filePath = absPath env.cwd path ∧ e.sizeInBytes = content.length ∧ e.sha1Hash = env.sha1 content) ∧
    (∀ content, fs (absPath env.cwd path) = some content → observe c fs (env.sha1 content) = .err .fileNotFound → content = [] →
      ∃ e s', runCommand env order w parseIP why hs args ⟨c, fs, []⟩ = (some ⟨.trace, 2⟩, some s') ∧ observe s'.cat s'.fs (env.sha1 content) = .ok e ∧ e.progress.sizeOf = 0 ∧
        CleanReach env d dl (.running s'.cat s'.fs)) ∧
    ((∀ content, fs (absPath env.cwd path) = some content → ∃ e, observe c fs (env.sha1 content) = .ok e) →
      ∃ s', runCommand env order w parseIP why hs args ⟨c, fs, []⟩ = (some ⟨.error, 0⟩, some s') ∧ s'.fs = fs ∧ ∀ k, observe s'.cat s'.fs k = observe c fs k) := by
  obtain ⟨h1, h2⟩ := serve_share (order := order) (w := w) hh hr path hsz
  refine ⟨?_, ?_, ?_⟩
  · intro content g1 g2 g3
    obtain ⟨e, s', k1, k2, k3, k4, k5, k6, -⟩ := h1 content g1 g2
    have hpos : 0 < content.length := List.length_pos_iff.2 g3
    obtain ⟨t, ht⟩ := (item_text (localItem e)).1 (by show e.progress.sizeOf ≠ 0; rw [k6]; omega)
    refine ⟨t, e, s', ?_, ht, k2, k3, k4, k5⟩
    rw [runCommand_ok h k1]
    simp only [showAnswer, CliReply.text, ht]
  · intro content g1 g2 g3
    obtain ⟨e, s', k1, k2, k3, k4, k5, k6, k7, -⟩ := h1 content g1 g2
    have h0 : e.progress.sizeOf = 0 := by rw [k6, g3]; decide
    refine ⟨e, s', ?_, k2, h0, k7⟩
    rw [runCommand_ok h k1]
    simp only [showAnswer, CliReply.text, (item_text (localItem e)).2 h0]
  · intro hno
    obtain ⟨x, s', k1, k2, k3⟩ := h2 hno
    exact ⟨s', runCommand_err h k1, k2, k3⟩

/-- C132: `list` shows exactly the files of the catalogue, with status 0, if each of them has chunks; if one has none, the client dies.  The catalogue is as before. -/
theorem C132_list (hh : Healthy env d) (hr : CleanReach env d dl (.running c fs)) (ho : MapOrder c order) {args : List GoString} {h : Sha1Hash} (hm : Means parseIP args (.list none h)) :
    ∃ (es : List Export) (s' : St), order.map (observe c fs) = es.map Res.ok ∧ (∀ k, k ∈ order ↔ ∃ e, observe c fs k = .ok e) ∧ (∀ k, observe s'.cat s'.fs k = observe c fs k) ∧
      ((∀ k e, observe c fs k = .ok e → e.progress.sizeOf ≠ 0) → ∃ t, listText (es.map localItem) = .ok t ∧
        runCommand env order w parseIP why hs args ⟨c, fs, []⟩ = (some ⟨.answer t, 0⟩, some s')) ∧
      ((∃ k e, observe c fs k = .ok e ∧ e.progress.sizeOf = 0) → runCommand env order w parseIP why hs args ⟨c, fs, []⟩ = (some ⟨.trace, 2⟩, some s')) := by
  obtain ⟨es, s', h1, h2, h3, h4, h5, h6⟩ := serve_list (w := w) hh hr ho h
  have hp := C89_prints (es.map localItem)
  have back : ∀ e, e ∈ es ↔ ∃ k ∈ order, observe c fs k = .ok e := by
    intro e
    constructor
    · intro he
      have : Res.ok e ∈ order.map (observe c fs) := by rw [h2]; exact List.mem_map.2 ⟨e, he, rfl⟩
      obtain ⟨k, hk, hk2⟩ := List.mem_map.1 this
      exact ⟨k, hk, hk2⟩
    · rintro ⟨k, hk, hk2⟩
      have : Res.ok e ∈ es.map Res.ok := by rw [← h2]; exact List.mem_map.2 ⟨k, hk, hk2⟩
      obtain ⟨e', he', he2⟩ := List.mem_map.1 this
      cases he2
      exact he'
  refine ⟨es, s', h2, h3, h5, ?_, ?_⟩
  · intro hall
    obtain ⟨t, ht⟩ := hp.1.2 (by
      intro i hi
      obtain ⟨e, he, rfl⟩ := List.mem_map.1 hi
      obtain ⟨k, -, hk⟩ := (back e).1 he
      exact hall k e hk)
    refine ⟨t, ht, ?_⟩
    rw [runCommand_ok hm h1]
    simp only [showAnswer, CliReply.text, ht]
  · rintro ⟨k, e, hk, h0⟩
    have := hp.2 ⟨localItem e, List.mem_map.2 ⟨e, (back e).2 ⟨k, (h3 k).2 ⟨e, hk⟩, hk⟩, rfl⟩, h0⟩
    rw [runCommand_ok hm h1]
    simp only [showAnswer, CliReply.text, this]

/-- C132: `get`: "Flu transfer initiated" and the file is in the catalogue, or an error and the catalogue is as before, or an error and the daemon is dead; always with status 0. -/
theorem C132_get (hh : Healthy env d) (hr : CleanReach env d dl (.running c fs)) {args : List GoString} {h : Sha1Hash} (hm : Means parseIP args (.get h)) :
    (∃ e s', runCommand env order w parseIP why hs args ⟨c, fs, []⟩ = (some ⟨.answer (ascii "Flu transfer initiated\n"), 0⟩, some s') ∧ observe s'.cat s'.fs h = .ok e) ∨
    (∃ s', runCommand env order w parseIP why hs args ⟨c, fs, []⟩ = (some ⟨.error, 0⟩, some s') ∧ s'.fs = fs ∧ ∀ k, observe s'.cat s'.fs k = observe c fs k) ∨
    (runCommand env order w parseIP why hs args ⟨c, fs, []⟩ = (some ⟨.error, 0⟩, none) ∧ Ends c fs w (.get h)) := by
  rcases hx : startDownload env w.get h ⟨c, fs, []⟩ with ⟨q, s'⟩
  have hq : serveCommand env order w (.get h) ⟨c, fs, []⟩ = (startDownload env w.get h >>= fun _ => pure CliReply.started : CM CliReply) ⟨c, fs, []⟩ := rfl
  rw [IOM.bind_apply, hx] at hq
  cases q with
  | ok own =>
    obtain ⟨e, he⟩ := start_observed hh hr w.get h own s' hx
    exact .inl ⟨e, s', by rw [runCommand_ok hm hq]; rfl, he⟩
  | err x =>
    obtain ⟨h1, h2⟩ := C66_refused hh hr w.get h x s' hx
    exact .inr (.inl ⟨s', runCommand_err hm hq, h1, h2⟩)
  | _ =>
    have hd : (serveCommand env order w (.get h) ⟨c, fs, []⟩).1.returns = false := by rw [hq]; rfl
    exact .inr (.inr ⟨runCommand_dead hm hd, (C124_ends_iff_partial hh hr order w (.get h) trivial).1 hd⟩)

/-- C132: `clean` always shows its report with status 0, one item for each file of the catalogue. -/
theorem C132_clean (hh : Healthy env d) (hr : CleanReach env d dl (.running c fs)) (ho : MapOrder c order) {args : List GoString} (hm : Means parseIP args .clean) :
    ∃ items s', clean env order ⟨c, fs, []⟩ = (.ok items, s') ∧
      runCommand env order w parseIP why hs args ⟨c, fs, []⟩ = (some ⟨.answer (cleanText (items.map (fun i => (i, why i)))), 0⟩, some s') := by
  obtain ⟨items, s', h1, h2⟩ := C39_total hh hr order ho
  refine ⟨items, s', h1, ?_⟩
  rw [runCommand_ok hm (rep := .cleaned items) (s' := s')]
  · rfl
  · show (clean env order >>= fun is => pure (CliReply.cleaned is) : CM CliReply) _ = _
    rw [IOM.bind_apply, h1]; rfl

/-- C132: `chims` shows the hosts with status 0 if each sends an even number of bounds, otherwise the client dies; without a search the daemon dies.  The catalogue is not touched. -/
theorem C132_chims {args : List GoString} {h : Sha1Hash} (hm : Means parseIP args (.chims h)) (s : St) :
    (w.found = none → runCommand env order w parseIP why hs args s = (some ⟨.error, 0⟩, none)) ∧
    ∀ rs, w.found = some rs → ((∀ r ∈ rs, r.chunks.length % 2 = 0) → ∃ t, chimsText (rs.map chimItem) = .ok t ∧ runCommand env order w parseIP why hs args s = (some ⟨.answer t, 0⟩, some s)) ∧
      ((∃ r ∈ rs, r.chunks.length % 2 = 1) → runCommand env order w parseIP why hs args s = (some ⟨.trace, 2⟩, some s)) := by
  constructor
  · intro hf
    apply runCommand_dead hm
    show ((match w.found with | none => IOM.lift .exit | some rs => pure (.hosts (rs.map chimItem)) : CM CliReply) s).1.returns = false
    rw [hf]; rfl
  · intro rs hf
    have hrun : serveCommand env order w (.chims h) s = (.ok (.hosts (rs.map chimItem)), s) := by
      show (match w.found with | none => IOM.lift .exit | some rs => pure (.hosts (rs.map chimItem)) : CM CliReply) s = _
      rw [hf]; rfl
    have hp := C89_chims_prints (rs.map chimItem)
    rw [runCommand_ok hm hrun]
    constructor
    · intro hall
      obtain ⟨t, ht⟩ := hp.1.2 (by
        intro i hi
        obtain ⟨r, hr, rfl⟩ := List.mem_map.1 hi
        exact hall r hr)
      exact ⟨t, ht, by simp only [showAnswer, CliReply.text, ht]⟩
    · rintro ⟨r, hr, h1⟩
      simp only [showAnswer, CliReply.text, hp.2 ⟨chimItem r, List.mem_map.2 ⟨r, hr, rfl⟩, h1⟩]

/-- C132: `list` with an address shows what that host answered, with status 0, if each of the files has chunks by its own account; if one has none, the client dies; an error has status 0, whether the
daemon lives or not.  The catalogue is not touched. -/
theorem C132_remote {args : List GoString} {ip : Bytes} {h : Sha1Hash} (hm : Means parseIP args (.list (some ip) h)) (s : St) :
    (Threat w (.list (some ip) h) → runCommand env order w parseIP why hs args s = (some ⟨.error, 0⟩, none)) ∧
    (¬ Threat w (.list (some ip) h) → (runCommand env order w parseIP why hs args s = (some ⟨.error, 0⟩, some s) ∧ ∀ r, listFilesOnHost w.listed ≠ .ok r) ∨
      ∃ (id : UInt16) (files : List ListFilesEntry), listFilesOnHost w.listed = .ok (id, files) ∧
        ((∀ f ∈ files, f.chunkCount ≠ 0) → ∃ t, listText (files.map remoteItem) = .ok t ∧ runCommand env order w parseIP why hs args s = (some ⟨.answer t, 0⟩, some s)) ∧
        ((∃ f ∈ files, f.chunkCount = 0) → runCommand env order w parseIP why hs args s = (some ⟨.trace, 2⟩, some s))) := by
  have hrun : serveCommand env order w (.list (some ip) h) s = (((IOM.lift (listAddress ip) >>= fun _ => IOM.lift (listFilesOnHost w.listed) >>= fun r => pure (r.2.map remoteItem)) >>=
      fun x => pure (CliReply.files x) : CM CliReply)) s := rfl
  rw [IOM.bind_apply, IOM.bind_apply, IOM.lift_apply] at hrun
  constructor
  · intro ht
    apply runCommand_dead hm
    rw [hrun]
    rcases ht with ht | ht
    · rw [(C60_panics_iff ip).2 ht]; rfl
    · have hn : (listFilesOnHost w.listed).returns = false := by
        cases hx : (listFilesOnHost w.listed).returns with
        | false => rfl
        | true =>
          obtain ⟨h1, h2⟩ := (listFilesOnHost_returns _).1 hx
          rcases ht with ht | ⟨data, h3, h4⟩
          · exact absurd ht h1
          · exact absurd h4 (h2 data h3)
      rcases listAddress_cases ip with ha | ⟨a, ha⟩
      · rw [ha]; rfl
      · rw [ha]
        simp only
        rw [IOM.bind_apply, IOM.lift_apply]
        cases hl : listFilesOnHost w.listed with
        | ok r => rw [hl] at hn; cases hn
        | err e => rw [hl] at hn; cases hn
        | _ => rfl
  · intro ht
    obtain ⟨a, ha⟩ := (listAddress_cases ip).resolve_left (fun ha => ht (.inl ((C60_panics_iff ip).1 ha)))
    rw [ha] at hrun
    simp only at hrun
    rw [IOM.bind_apply, IOM.lift_apply] at hrun
    have hn : (listFilesOnHost w.listed).returns = true :=
      (listFilesOnHost_returns _).2 ⟨fun hx => ht (.inr (.inl hx)), fun data hd ho => ht (.inr (.inr ⟨data, hd, ho⟩))⟩
    cases hl : listFilesOnHost w.listed with
    | ok r =>
      obtain ⟨id, files⟩ := r
      rw [hl] at hrun
      refine .inr ⟨id, files, rfl, ?_, ?_⟩
      · intro hall
        obtain ⟨t, ht⟩ := (C89_prints (files.map remoteItem)).1.2 (by
          intro i hi
          obtain ⟨f, hf, rfl⟩ := List.mem_map.1 hi
          have := hall f hf
          show (f.chunkCount.toNat : Int) ≠ 0
          intro h0
          exact this (UInt32.toNat_inj.1 ((Int.ofNat_inj.1 h0).trans rfl)))
        exact ⟨t, ht, by rw [runCommand_ok hm hrun]; simp only [showAnswer, CliReply.text, ht]⟩
      · rintro ⟨f, hf, h0⟩
        rw [runCommand_ok hm hrun]
        simp only [showAnswer, CliReply.text, C89_dies files f hf h0]
    | err e =>
      rw [hl] at hrun
      exact .inl ⟨runCommand_err hm hrun, (by intro r hr; cases hr)⟩
    | _ => rw [hl] at hn; cases hn

end

/-! ### Cases -/

/-- `flu share f`, for a file of three bytes. -/
example (sha1 : Bytes → Sha1Hash) (json : JsonCodec) (order : List Sha1Hash) (w : CmdWire) (why : CleanItem → Bytes) : ∃ c fs t s, CleanReach (exEnv sha1 json) exDir exDown (.running c fs) ∧
    runCommand (exEnv sha1 json) order w (fun _ => none) why 0 [Spec.share, [102]] ⟨c, fs, []⟩ = (some ⟨.answer t, 0⟩, some s) := by
  have hr : CleanReach (exEnv sha1 json) exDir exDown (.running ⟨exDir, exDown, some (freshIdx (exEnv sha1 json) exDir)⟩ (exFS1 sha1 json)) :=
    CleanReach.fresh (exEnv sha1 json) exDir exDown (ex_healthy sha1 json).utf8 exFS ex_fs_clean
  obtain ⟨t, e, s, h, -⟩ := (C132_share (order := order) (w := w) (why := why) (hs := 0) (ex_healthy sha1 json) hr (.share (parseIP := fun _ => none) [102])
    (fun content hc => by rw [ex_file sha1 json] at hc; cases hc; decide)).1 [1, 2, 3] (ex_file sha1 json) rfl (by decide)
  exact ⟨_, _, t, s, hr, h⟩

/-- An empty file: `flu share` dies although the file is shared, and from then on so does `flu list`. -/
example (sha1 : Bytes → Sha1Hash) (json : JsonCodec) (w : CmdWire) (why : CleanItem → Bytes) : ∃ c fs s, CleanReach (exEnv sha1 json) exDir exDown (.running c fs) ∧
    runCommand (exEnv sha1 json) [] w (fun _ => none) why 0 [Spec.share, [102]] ⟨c, fs, []⟩ = (some ⟨.trace, 2⟩, some s) ∧ ∀ order, MapOrder s.cat order →
      ∃ s2, runCommand (exEnv sha1 json) order w (fun _ => none) why 0 [Spec.list] ⟨s.cat, s.fs, []⟩ = (some ⟨.trace, 2⟩, some s2) := by
  have hh := ex_healthy sha1 json
  have hr : CleanReach (exEnv sha1 json) exDir exDown (.running ⟨exDir, exDown, some (freshIdx (exEnv sha1 json) exDir)⟩ (exFS1 sha1 json)) :=
    CleanReach.fresh (exEnv sha1 json) exDir exDown hh.utf8 exFS ex_fs_clean
  have hp : absPath (exEnv sha1 json).cwd [102] = absOf [[102]] := by
    show absPath [47] [102] = [47, 102]
    decide
  have hr2 := hr.userRunning _ _ (absOf [[102]]) (some []) (ex_not_catFile 102 (by simp))
  have hf : ((exFS1 sha1 json).put (absOf [[102]]) (some [])) (absPath (exEnv sha1 json).cwd [102]) = some [] := by rw [hp]; exact FS.put_same _ _ _
  obtain ⟨e, s, h1, h2, h3, h4⟩ := (C132_share (order := []) (w := w) (why := why) (hs := 0) hh hr2 (.share (parseIP := fun _ => none) [102])
    (fun content hc => by rw [hf] at hc; cases hc; decide)).2.1 [] hf rfl rfl
  refine ⟨_, _, s, hr2, h1, fun order ho => ?_⟩
  obtain ⟨es, s2, -, -, -, -, h5⟩ := C132_list (w := w) (why := why) (hs := 0) hh h4 ho (.list (parseIP := fun _ => none))
  exact ⟨s2, h5 ⟨_, e, h2, h3⟩⟩

/-- `C132_status` for a search that cannot be made, and `C132_unsent` for a command that does not exist. -/
example (env : Env) (why : CleanItem → Bytes) (s : St) : runCommand env [] ⟨.silence, none, ⟨none, none, fun _ => .silence⟩⟩ (fun _ => none) why 0 [Spec.chims] s = (some ⟨.error, 0⟩, none) ∧
    ∀ r, ¬ Means (fun _ => none) [[120]] r :=
  ⟨(C132_chims (.chims (parseIP := fun _ => none)) s).1 rfl, by intro r h; cases h⟩

end Flu
