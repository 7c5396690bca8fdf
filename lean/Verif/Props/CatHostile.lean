import Verif.Lemmas.CatOwned
import Verif.Props.CatCrash
/-!
# Metadata chosen by a peer (C36, C37)

`StartDownload` passes the size, chunk size and file name it received from a peer to `RegisterDownload`
(flu/serverStartDownload.go:62-70).
-/
namespace Flu

/-! ### Sizes (C37) -/

section
variable {env : Env} {d dl : Path} {c : Cat} {fs : FS}

/-- C37 in full: registering a download of an unknown file, whatever the size, chunk size and name, with a well-behaved operating system, leaves a
catalogue that is usable after the next start. -/
def C37_statement (env : Env) (d dl : Path) : Prop :=
  ∀ c fs, CleanReach env d dl (.running c fs) → ∀ (size : UInt64) (cs : UInt32) (h : Sha1Hash) (name : GoString),
    observe c fs h = .err .fileNotFound → Usable env d dl (registerDownload env size cs h name ⟨c, fs, []⟩).2.fs

/-- The metadata that make `RegisterDownload` panic: no chunk size, or a size of at least 2^63 that, read as a negative number `-k`, gives a negative
number of chunks. -/
def Bad (size : UInt64) (cs : UInt32) : Prop :=
  cs.toNat = 0 ∨ (2 ^ 63 ≤ size.toNat ∧ (2 * cs.toNat ≤ 2 ^ 64 - size.toNat ∨ 2 ^ 64 - size.toNat = cs.toNat))

theorem asInt64_neg (v : UInt64) (h : 2 ^ 63 ≤ v.toNat) : asInt64 v = - ((2 ^ 64 - v.toNat : Nat) : Int) := by
  have hlt := v.toNat_lt
  have e : v.toBitVec.toNat = v.toNat := rfl
  unfold asInt64
  rw [BitVec.toInt_eq_toNat_cond, if_neg (by rw [e]; omega), e]
  omega

theorem asInt64_nonneg (v : UInt64) (h : v.toNat < 2 ^ 63) : asInt64 v = v.toNat := by
  have := asInt64_ofNat v.toNat h
  rwa [UInt64.ofNat_toNat] at this

theorem chunkCount_neg (k cs : Nat) (hcs : 0 < cs) :
    ∃ n, chunkCountOf (-(k : Int)) cs = .ok n ∧ (n < 0 ↔ (2 * cs ≤ k ∨ k = cs)) := by
  unfold chunkCountOf
  rw [if_neg (by omega)]
  refine ⟨_, rfl, ?_⟩
  rw [Int.neg_tdiv, Int.neg_tmod]
  have e1 : (k : Int).tdiv cs = ((k / cs : Nat) : Int) := by rw [Int.tdiv_eq_ediv_of_nonneg (by omega)]; rfl
  have e2 : (k : Int).tmod cs = ((k % cs : Nat) : Int) := by rw [Int.tmod_eq_emod_of_nonneg (by omega)]; rfl
  rw [e1, e2]
  have h1 := Nat.div_add_mod k cs
  have h2 := Nat.mod_lt k hcs
  generalize hq : k / cs = q at *
  generalize hr : k % cs = r at *
  rcases Nat.lt_or_ge q 1 with h3 | h3
  · have : q = 0 := by omega
    subst this
    simp only [Nat.mul_zero, Nat.zero_add] at h1
    subst h1
    split <;> omega
  · rcases Nat.lt_or_ge q 2 with h4 | h4
    · have : q = 1 := by omega
      subst this
      rw [Nat.mul_one] at h1
      split <;> omega
    · have h5 : cs * 2 ≤ cs * q := Nat.mul_le_mul_left cs h4
      split <;> omega

theorem newProgressFile_panics_iff (size : UInt64) (cs : UInt32) (h : Sha1Hash) (name : GoString) (dl d : Path) :
    newProgressFile (downloadRecord dl size cs h name) d = .panic ↔ Bad size cs := by
  unfold Bad
  rcases Nat.eq_zero_or_pos cs.toNat with h0 | h0
  · refine ⟨fun _ => .inl h0, fun _ => ?_⟩
    unfold newProgressFile chunkCountOf
    rw [if_pos (by show (cs.toNat : Int) = 0; omega)]; rfl
  rcases Nat.lt_or_ge size.toNat (2 ^ 63) with h1 | h1
  · obtain ⟨p, hp⟩ := newProgressFile_total (downloadRecord dl size cs h name) d size.toNat cs.toNat (asInt64_nonneg _ h1) rfl h1 h0
    rw [hp]
    constructor
    · intro h; cases h
    · rintro (h | ⟨h, -⟩) <;> omega
  · obtain ⟨n, hn, hneg⟩ := chunkCount_neg (2 ^ 64 - size.toNat) cs.toNat h0
    have hn' : chunkCountOf (downloadRecord dl size cs h name).sizeInBytes (downloadRecord dl size cs h name).chunkSize = .ok n := by
      rw [show (downloadRecord dl size cs h name).sizeInBytes = asInt64 size from rfl, asInt64_neg _ h1]; exact hn
    have hlt := chunkCountOf_lt _ _ (asInt64_lt size) (by show (0 : Int) ≤ (cs.toNat : Int); omega) n hn'
    unfold newProgressFile
    rw [hn', Res.bind_ok]
    by_cases hx : n < 0
    · refine ⟨fun _ => .inr ⟨h1, hneg.1 hx⟩, fun _ => ?_⟩
      unfold Bitset.newBitset
      rw [if_pos hx]; rfl
    · obtain ⟨b, hb, -⟩ := Bitset.newBitset_spec n.toNat (by omega)
      rw [show ((n.toNat : Nat) : Int) = n by omega] at hb
      rw [hb]
      constructor
      · intro h; cases h
      · rintro (h | ⟨-, h⟩)
        · omega
        · exact absurd (hneg.2 h) hx

/-- C37: exactly which metadata bring the daemon down, for every reachable catalogue and every unknown hash. -/
theorem C37_panics_iff (hh : Healthy env d) (hreach : Reach env d dl (.running c fs)) (size : UInt64) (cs : UInt32) (h : Sha1Hash) (name : GoString)
    (hnew : observe c fs h = .err .fileNotFound) :
    ∃ r s', registerDownload env size cs h name ⟨c, fs, []⟩ = (r, s') ∧ (r = .panic ↔ Bad size cs) ∧ (¬ Bad size cs → ∃ e, r = .ok e) ∧
      (Bad size cs → StuckDisk env d h s'.fs) := by
  have hf : fs (progressPath d h) = none := unknown_no_progress hh.abs hh.utf8 hreach hnew
  have hI : Inv env d dl c fs := hreach.inv hh.abs hh.utf8
  obtain ⟨ind, rfl, hw⟩ := hI.split
  have hm := mapGet_of_unknown hf hnew hw
  have hadd := addIndexRecord_nil env (downloadRecord dl size cs h name) d dl ind fs
  rw [show mapGet ind.index (downloadRecord dl size cs h name).sha1Hash = none from hm] at hadd
  simp only at hadd
  have hst := stuck_after_add (fs := fs) hh hw (downloadRecord dl size cs h name)
    ⟨by show (0 : Int) ≤ (cs.toNat : Int); omega, by show (cs.toNat : Int) < 2 ^ 32; have := cs.toNat_lt; omega, fun p hp => (by cases hp)⟩ hf
  have hiff := newProgressFile_panics_iff size cs h name dl d
  rcases newProgressFile_noErr (downloadRecord dl size cs h name) d (asInt64_lt _) (by show (0 : Int) ≤ (cs.toNat : Int); omega) with ⟨p, hp⟩ | hp
  · have hnb : ¬ Bad size cs := by
      intro hb
      rw [hiff.2 hb] at hp; cases hp
    have : ∃ e, (registerDownload env size cs h name ⟨⟨d, dl, some ind⟩, fs, []⟩).1 = .ok e := by
      unfold registerDownload
      rw [IOM.bind_apply, getCat_apply]
      simp only
      rw [IOM.bind_apply]
      unfold downloadRecord at hadd hp
      rw [hadd]
      simp only
      rw [IOM.bind_apply, getCat_apply]
      simp only
      rw [IOM.bind_apply, IOM.lift_apply, hp]
      exact ⟨_, rfl⟩
    obtain ⟨e, he⟩ := this
    exact ⟨_, _, Prod.ext he rfl, ⟨fun h => (by cases h), fun h => absurd h hnb⟩, fun _ => ⟨e, rfl⟩, fun h => absurd h hnb⟩
  · have hb : Bad size cs := hiff.1 hp
    have : registerDownload env size cs h name ⟨⟨d, dl, some ind⟩, fs, []⟩ =
        (.panic, (addIndexRecord env (downloadRecord dl size cs h name) ⟨⟨d, dl, some ind⟩, fs, []⟩).2) := by
      rw [hadd]
      unfold registerDownload
      rw [IOM.bind_apply, getCat_apply]
      simp only
      rw [IOM.bind_apply]
      unfold downloadRecord at hadd hp ⊢
      rw [hadd]
      simp only
      rw [IOM.bind_apply, getCat_apply]
      simp only
      rw [IOM.bind_apply, IOM.lift_apply, hp]
    refine ⟨_, _, this, ⟨fun _ => hb, fun _ => rfl⟩, fun h => absurd hb h, fun _ => ?_⟩
    rw [hadd]
    exact hst

/-- C37: after such metadata the daemon is dead, and no later daemon on this data directory can ever list its files (or do anything with that hash). -/
theorem C37_forever (hh : Healthy env d) (hreach : Reach env d dl (.running c fs)) (size : UInt64) (cs : UInt32) (h : Sha1Hash) (name : GoString)
    (hnew : observe c fs h = .err .fileNotFound) (hbad : Bad size cs) {c' : Cat} {fs' : FS}
    (hsteps : Steps env d dl (.stopped (registerDownload env size cs h name ⟨c, fs, []⟩).2.fs) (.running c' fs')) (fl : List Fault)
    (order : List Sha1Hash) (ho : MapOrder c' order) : ∀ es s', listFiles order ⟨c', fs', fl⟩ ≠ (.ok es, s') := by
  obtain ⟨r, s1, h1, h2, -, h3⟩ := C37_panics_iff hh hreach size cs h name hnew
  rw [h1] at hsteps
  have hr : r = .panic := h2.2 hbad
  have hstop : Reach env d dl (.stopped s1.fs) :=
    hreach.dies (.register size cs h name) trivial [] (h := CM.void_dies _ _ _ _ h1 (.inr hr))
  obtain ⟨h7, -⟩ := C31_forever hh hstop (h3 hbad) hsteps fl
  exact (h7 order ho).2

/-- C37 is false for every environment: a peer announcing chunk size 0 is enough, already for the first download. -/
theorem C37_refuted (hh : Healthy env d) : ¬ C37_statement env d dl := by
  intro hall
  have hclean := CleanReach.fresh env d dl hh.utf8 (fun _ => none) (fun _ _ => rfl)
  obtain ⟨s2, h5, h6⟩ := hall _ _ hclean 0 0 Sha1Hash.zero [] rfl
  have hst := Step.start (env := env) (d := d) (dl := dl) env.pid env.now []
    (registerDownload env 0 0 Sha1Hash.zero [] ⟨⟨d, dl, some (freshIdx env d)⟩, FS.put (fun _ => none) (indexPath d) (some (env.json.enc (freshIdx env d).toJSON)), []⟩).2.fs
  rw [show ({ env with pid := env.pid, now := env.now } : Env) = env from rfl, h5] at hst
  obtain ⟨r, s1, h1, h2, -, -⟩ := C37_panics_iff (dl := dl) hh hclean.reach 0 0 Sha1Hash.zero [] rfl
  have hstop : Reach env d dl (.stopped s1.fs) :=
    hclean.reach.dies (.register 0 0 Sha1Hash.zero []) trivial [] (h := CM.void_dies _ _ _ _ h1 (.inr (h2.2 (.inl rfl))))
  have hsteps := (Steps.refl (env := env) (d := d) (dl := dl) _).step hst
  rw [h1] at hsteps
  obtain ⟨ind, h8, -⟩ := (hstop.trans hsteps).inv hh.abs hh.utf8 |>.mem
  have ho : MapOrder s2.cat (ind.index.map (·.1)) := ⟨ind, h8, List.Perm.refl _⟩
  obtain ⟨es, s3, h9⟩ := h6 _ ho
  rw [← h1] at hsteps
  exact C37_forever hh hclean.reach 0 0 Sha1Hash.zero [] rfl (.inl rfl) hsteps [] _ ho es s3 h9

/-- What of C37 is true: metadata that are not `Bad` — every honest one — are registered and leave a usable catalogue.  Missing from the full statement: `Bad` metadata. -/
theorem C37_partial (hh : Healthy env d) (hclean : CleanReach env d dl (.running c fs)) (size : UInt64) (cs : UInt32) (h : Sha1Hash) (name : GoString)
    (hnew : observe c fs h = .err .fileNotFound) (hgood : ¬ Bad size cs) :
    ∃ e s', registerDownload env size cs h name ⟨c, fs, []⟩ = (.ok e, s') ∧ CleanReach env d dl (.running s'.cat s'.fs) ∧ Usable env d dl s'.fs := by
  obtain ⟨r, s', h1, -, h2, -⟩ := C37_panics_iff hh hclean.reach size cs h name hnew
  obtain ⟨e, rfl⟩ := h2 hgood
  have hcl : CleanReach env d dl (.running s'.cat s'.fs) :=
    CleanReach.call (.register size cs h name) c fs (.ok ()) s' hclean trivial (CM.void_ok _ _ _ _ h1) rfl
  exact ⟨e, s', h1, hcl, (C31_partial hh hcl).1⟩

/-- The metadata of every file that can exist are good. -/
theorem C37_honest (size : UInt64) (cs : UInt32) (h1 : size.toNat < 2 ^ 63) (h2 : 0 < cs.toNat) : ¬ Bad size cs := by
  rintro (h | ⟨h, -⟩) <;> omega

end

/-! ### Names (C36) -/

/-- A direct child of a directory. -/
def InDir (dir p : Path) : Prop := ∃ n : GoString, n ≠ [] ∧ n ≠ [46] ∧ n ≠ [46, 46] ∧ (47 : UInt8) ∉ n ∧ p = (if dir = [47] then [] else dir) ++ 47 :: n

/-- C36 in full: whatever name a peer sends, the download is written inside the downloads directory. -/
def C36_statement (env : Env) (d dl : Path) : Prop :=
  ∀ c fs, Reach env d dl (.running c fs) → ∀ (size : UInt64) (cs : UInt32) (h : Sha1Hash) (name : GoString) fl e s',
    registerDownload env size cs h name ⟨c, fs, fl⟩ = (.ok e, s') → InDir dl e.filePath

theorem joinSlash_append (es : List GoString) (hne : es ≠ []) (n : GoString) : joinSlash (es ++ [n]) = joinSlash es ++ slash :: n := by
  induction es with
  | nil => exact absurd rfl hne
  | cons e es ih =>
    cases es with
    | nil => rfl
    | cons e2 es =>
      have := ih (by simp)
      simp only [List.cons_append] at this ⊢
      simp only [joinSlash]
      rw [this]; simp

theorem inDir_plain (ds : List GoString) (hd : ∀ e ∈ ds, Plain e) (n : GoString) (hn : Plain n) : InDir (absOf ds) (absOf (ds ++ [n])) := by
  refine ⟨n, hn.ne_nil, hn.ne_dot, hn.ne_dotdot, hn.no_slash, ?_⟩
  cases ds with
  | nil => rfl
  | cons e es =>
    have hne : joinSlash (e :: es) ≠ [] := by
      have : e ≠ [] := (hd e (by simp)).ne_nil
      cases es <;> simp [joinSlash, this]
    rw [if_neg]
    · simp only [absOf, renderPath, if_true]
      rw [joinSlash_append _ (by simp)]; rfl
    · simp only [absOf, renderPath, if_true]
      intro h
      injection h with h1 h2
      exact hne h2

theorem register_path {env : Env} {d dl : Path} {c : Cat} {fs : FS} (hh : Healthy env d) (hreach : Reach env d dl (.running c fs)) (size : UInt64) (cs : UInt32)
    (h : Sha1Hash) (name : GoString) (fl : List Fault) (e : Export) (s' : St) (hrun : registerDownload env size cs h name ⟨c, fs, fl⟩ = (.ok e, s')) :
    e.filePath = joinPath [dl, name] := by
  obtain ⟨ind, rfl, hw⟩ := (hreach.inv hh.abs hh.utf8).split
  obtain ⟨p, m1, fs1, -, -, -, -, -, -, -, he⟩ := registerDownload_ok env size cs h name d dl ind fs fl e s' hrun
  rw [he]; rfl

/-- What of C36 is true: a plain file name — not empty, without slash, not `.` or `..` — gives the file of that name in the downloads directory.  Missing from the
full statement: all other names. -/
theorem C36_partial {env : Env} {d dl : Path} {c : Cat} {fs : FS} (hh : Healthy env d) (hdl : AbsClean dl) (hreach : Reach env d dl (.running c fs)) (size : UInt64)
    (cs : UInt32) (h : Sha1Hash) (name : GoString) (hn : name ≠ [] ∧ name ≠ [46] ∧ name ≠ [46, 46] ∧ (47 : UInt8) ∉ name) (fl : List Fault) (e : Export) (s' : St)
    (hrun : registerDownload env size cs h name ⟨c, fs, fl⟩ = (.ok e, s')) :
    InDir dl e.filePath ∧ e.filePath = (if dl = [47] then [] else dl) ++ 47 :: name := by
  rw [register_path hh hreach size cs h name fl e s' hrun]
  obtain ⟨ds, hds, rfl⟩ := hdl
  have hp : Plain name := ⟨hn.1, hn.2.1, hn.2.2.1, hn.2.2.2⟩
  rw [joinPath_plain ds hds name hp]
  refine ⟨inDir_plain ds hds name hp, ?_⟩
  cases ds with
  | nil => rfl
  | cons e es =>
    obtain ⟨n, -, -, -, -, hx⟩ := inDir_plain (e :: es) hds name hp
    have hne : absOf (e :: es) ≠ [47] := by
      simp only [absOf, renderPath, if_true]
      intro h
      injection h with h1 h2
      have : e ≠ [] := (hds e (by simp)).ne_nil
      cases es <;> simp [joinSlash, this] at h2
    rw [if_neg hne]
    simp only [absOf, renderPath, if_true]
    rw [joinSlash_append _ (by simp)]; rfl

theorem foldl_replicate_dotdot (n : Nat) (stack : List GoString) (hs : ∀ x ∈ stack, Plain x) (hn : stack.length ≤ n) :
    (List.replicate n dotdot).foldl (cleanStep true) stack = [] := by
  induction n generalizing stack with
  | zero => cases stack with
    | nil => rfl
    | cons a b => simp at hn
  | succ n ih =>
    rw [List.replicate_succ, List.foldl_cons]
    cases stack with
    | nil => exact ih [] (by simp) (by simp)
    | cons top rest =>
      have : cleanStep true (top :: rest) dotdot = rest := by
        unfold cleanStep
        rw [if_neg (by decide), if_pos rfl]
        simp only
        rw [if_neg (hs top (by simp)).ne_dotdot]
      rw [this]
      exact ih rest (fun x hx => hs x (List.mem_cons_of_mem _ hx)) (by simpa using hn)

/-- C36: a peer chooses where the download is written: for every downloads directory and every absolute path there is a name that leads there. -/
theorem C36_anywhere {env : Env} {d dl : Path} {c : Cat} {fs : FS} (hh : Healthy env d) (hdl : AbsClean dl) (hreach : Reach env d dl (.running c fs))
    (target : Path) (ht : AbsClean target) : ∃ name, ∀ (size : UInt64) (cs : UInt32) (h : Sha1Hash) fl e s',
      registerDownload env size cs h name ⟨c, fs, fl⟩ = (.ok e, s') → e.filePath = target := by
  obtain ⟨ds, hds, rfl⟩ := hdl
  obtain ⟨ts, hts, rfl⟩ := ht
  have hsl : slash ∉ dotdot := by decide
  refine ⟨joinSlash (List.replicate (ds.length + 1) dotdot) ++ absOf ts, ?_⟩
  intro size cs h fl e s' hrun
  rw [register_path hh hreach size cs h _ fl e s' hrun, joinPath_abs ds hds]
  have e1 : absOf ts = slash :: joinSlash ts := rfl
  have e2 : splitSlash (joinSlash (List.replicate (ds.length + 1) dotdot) ++ absOf ts) = List.replicate (ds.length + 1) dotdot ++ splitSlash (joinSlash ts) := by
    rw [e1, splitSlash_concat, splitSlash_joinSlash _ (by simp) (fun x hx => by rw [List.eq_of_mem_replicate hx]; exact hsl)]
  rw [e2, List.foldl_append, foldl_replicate_dotdot _ _ (by simpa using hds) (by simp)]
  have e3 := foldl_absOf ts hts []
  rw [e1] at e3
  simp only [splitSlash, if_true, List.foldl_cons, cleanStep_nil, List.append_nil] at e3
  rw [e3, List.reverse_reverse]

/-- C36 is false for every environment. -/
theorem C36_refuted {env : Env} {d dl : Path} (hh : Healthy env d) (hdl : AbsClean dl) : ¬ C36_statement env d dl := by
  intro hall
  have hreach := (CleanReach.fresh env d dl hh.utf8 (fun _ => none) (fun _ _ => rfl)).reach
  obtain ⟨name, hname⟩ := C36_anywhere hh hdl hreach [47] ⟨[], by simp, rfl⟩
  obtain ⟨e, s', hrun⟩ := registerDownload_total env 1 1 Sha1Hash.zero name d dl (freshIdx env d) _ rfl (by decide) (by decide)
  obtain ⟨n, h1, -, -, -, h2⟩ := hall _ _ hreach 1 1 Sha1Hash.zero name [] e s' hrun
  rw [hname 1 1 Sha1Hash.zero [] e s' hrun] at h2
  have := congrArg List.length h2
  cases n with
  | nil => exact h1 rfl
  | cons a b =>
    simp only [List.length_append, List.length_cons, List.length_nil] at this
    omega

/-- C36: the name an honest peer sends is the last element of an absolute clean path (`path.Split`, flu/serverListFilesOnHost.go:98), hence plain. -/
theorem C36_honest (p : Path) (hp : AbsClean p) (hne : p ≠ [47]) :
    splitFile p ≠ [] ∧ splitFile p ≠ [46] ∧ splitFile p ≠ [46, 46] ∧ (47 : UInt8) ∉ splitFile p := by
  obtain ⟨ds, hds, rfl⟩ := hp
  have h0 : ds ≠ [] := by
    intro h; subst h; exact hne rfl
  rw [getLast_splitSlash_abs ds h0 hds]
  have := hds _ (List.getLast_mem h0)
  exact ⟨this.ne_nil, this.ne_dot, this.ne_dotdot, this.no_slash⟩

/-! ### Examples -/

/-- `C37_panics_iff`, `C37_partial`, `C37_forever`, `C36_partial`, `C36_anywhere`: a fresh catalogue. -/
example (sha1 : Bytes → Sha1Hash) (json : JsonCodec) (h : Sha1Hash) : ∃ c fs, Healthy (exEnv sha1 json) exDir ∧ AbsClean exDown ∧
    CleanReach (exEnv sha1 json) exDir exDown (.running c fs) ∧ observe c fs h = .err .fileNotFound ∧ fs (progressPath exDir h) = none := by
  have hh := ex_healthy sha1 json
  refine ⟨_, _, hh, ⟨_, ex_plain 119 (by simp), rfl⟩, CleanReach.fresh (exEnv sha1 json) exDir exDown hh.utf8 exFS ex_fs_clean, rfl, ?_⟩
  rw [FS.put_other _ _ _ _ (fun e => indexPath_ne_progressPath _ _ hh.abs hh.abs h e.symm)]
  exact ex_fs_clean _ (.inr ⟨h, rfl⟩)

/-- Bad and good metadata exist on both sides of 2^63. -/
example : Bad 10 0 ∧ Bad 0x8000000000000000 4194304 ∧ ¬ Bad 10 4 ∧ ¬ Bad 0xffffffffffffffff 4194304 := by
  unfold Bad; decide

/-- `C36_anywhere` in action: `../../t` from `/w/x`. -/
example : joinPath [absOf [[119], [120]], [46, 46, 47, 46, 46, 47, 116]] = absOf [[116]] := by decide

/-- `C36_honest`: `/a/b`. -/
example : AbsClean [47, 97, 47, 98] ∧ splitFile [47, 97, 47, 98] = [98] := by
  refine ⟨⟨[[97], [98]], ?_, rfl⟩, by decide⟩
  intro e he
  simp only [List.mem_cons, List.not_mem_nil, or_false] at he
  rcases he with rfl | rfl <;> exact ⟨by decide, by decide, by decide, by decide⟩

end Flu
