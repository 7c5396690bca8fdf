import Verif.Model.Main
import Verif.Spec.Dirs
import Verif.Props.Paths
import Verif.Props.Starve
import Verif.Props.UserFiles
import Verif.Lemmas.Unlocked
/-!
# C93: the first download on a fresh installation
-/
namespace Flu
open Spec
variable {env : Env} {d dl : Path}

theorem split_absOf (es : List GoString) (hne : es ≠ []) (h : ∀ e ∈ es, Plain e) : splitSlash (absOf es) = [] :: es := by
  rw [absOf_slashed hne]
  obtain ⟨a, t, rfl⟩ : ∃ a t, es = a :: t := by cases es with | nil => exact absurd rfl hne | cons a t => exact ⟨a, t, rfl⟩
  rw [slashed_join]
  simp only [splitSlash, slash, if_true]
  rw [splitSlash_joinSlash _ hne (fun e he => (h e he).no_slash)]

/-- The directory of a file with a clean path. -/
theorem inDir_iff (es : List GoString) (n : GoString) (h : ∀ e ∈ es ++ [n], Plain e) (D : Path) : InDir D (absOf (es ++ [n])) ↔ D = absOf es := by
  have hn : Plain n := h n (by simp)
  constructor
  · rintro ⟨m, hm, ⟨hD, he⟩ | ⟨rfl, he⟩⟩
    · have h1 := split_absOf (es ++ [n]) (by simp) h
      rw [he, show D ++ 47 :: m = D ++ slash :: m from rfl, splitSlash_concat, splitSlash_plain m hm.2.2.2] at h1
      rw [show [] :: (es ++ [n]) = ([] :: es) ++ [n] from rfl] at h1
      have h2 : splitSlash D = [] :: es := (List.append_inj' h1 rfl).1
      have h3 := slashed_split D
      rw [h2] at h3
      have h4 : D = slashed es := by simpa [slashed] using h3.symm
      rw [h4]
      rw [absOf_slashed]
      rintro rfl
      exact hD h4
    · have h1 := split_absOf (es ++ [n]) (by simp) h
      rw [he] at h1
      simp only [splitSlash, slash, if_true] at h1
      rw [splitSlash_plain m hm.2.2.2] at h1
      have h2 := congrArg List.length h1
      simp only [List.length_cons, List.length_append, List.length_nil] at h2
      have : es = [] := List.length_eq_zero_iff.1 (by omega)
      rw [this]; rfl
  · rintro rfl
    refine ⟨n, hn.isName, ?_⟩
    by_cases hes : es = []
    · subst hes
      right
      exact ⟨rfl, rfl⟩
    · left
      refine ⟨by simp [absOf, renderPath], ?_⟩
      rw [absOf_slashed hes, absOf_slashed (by simp), slashed_append]
      simp [slashed]

/-- The two directories for an absolute home directory. -/
theorem daemonCat_dirs (cwd home : GoString) (hhome : isAbs home = true) : ∃ hs, (∀ e ∈ hs, Plain e) ∧ cleanPath home = absOf hs ∧
    (daemonCat cwd home).dataDir = absOf (hs ++ [Json.ascii ".flu-network", Json.ascii "catalogue"]) ∧
    (daemonCat cwd home).downloadsDir = absOf (hs ++ [Json.ascii ".flu-network", Json.ascii "downloads"]) := by
  obtain ⟨hs, h1, h2⟩ := cleanPath_rooted home hhome
  have hk : (kept home).reverse = hs := by
    rw [clean_eq hhome] at h2
    have hplain : ∀ e ∈ (kept home).reverse, Plain e := by
      intro e he
      exact foldl_keeps_plain _ [] (by simp) (splitSlash_no_slash home) e (List.mem_reverse.1 he)
    exact absOf_inj _ _ hplain h1 h2
  have key : ∀ (a b : GoString), Plain a → Plain b → ∀ suffix, suffix = 47 :: (a ++ 47 :: b) →
      absPath cwd (joinPath [home, suffix]) = absOf (hs ++ [a, b]) := by
    intro a b ha hb suffix hs'
    have hne : home ≠ [] := by rintro rfl; simp [isAbs] at hhome
    have hw : [home, suffix].dropWhile (· = []) = [home, suffix] := by
      rw [List.dropWhile_cons, if_neg (by simpa using hne)]
    have hj : joinPath [home, suffix] = cleanPath (home ++ 47 :: suffix) := by
      unfold joinPath; rw [hw]; simp [joinSlash, slash]
    have habs : isAbs (home ++ 47 :: suffix) = true := isAbs_append _ _ hhome
    have hkept : kept (home ++ 47 :: suffix) = b :: a :: kept home := by
      rw [kept_concat, hs']
      have : splitSlash (47 :: (a ++ 47 :: b)) = [[], a, b] := by
        simp only [splitSlash, slash, if_true]
        rw [show a ++ 47 :: b = a ++ slash :: b from rfl, splitSlash_append a b ha.no_slash, splitSlash_plain b hb.no_slash]
      rw [this]
      simp [cleanStep_nil, cleanStep_plain _ _ _ ha, cleanStep_plain _ _ _ hb]
    have hc : cleanPath (home ++ 47 :: suffix) = absOf (hs ++ [a, b]) := by
      rw [clean_eq habs, hkept, ← hk]; simp
    have hpl : ∀ e ∈ hs ++ [a, b], Plain e := by
      intro e he
      rcases List.mem_append.1 he with he | he
      · exact h1 e he
      · simp at he; rcases he with rfl | rfl <;> assumption
    rw [hj, hc]
    unfold absPath
    rw [if_pos (isAbs_absOf _), cleanPath_absOf _ hpl]
  have p1 : Plain (Json.ascii ".flu-network") := ⟨by decide, by decide, by decide, by decide⟩
  have p2 : Plain (Json.ascii "catalogue") := ⟨by decide, by decide, by decide, by decide⟩
  have p3 : Plain (Json.ascii "downloads") := ⟨by decide, by decide, by decide, by decide⟩
  exact ⟨hs, h1, h2, key _ _ p1 p2 _ (by decide), key _ _ p1 p3 _ (by decide)⟩

/-- C93: starting the daemon creates the directory of its catalogue, but not the directory for downloads. -/
theorem C93_start (cwd home : GoString) (hhome : isAbs home = true) (dirs : Dirs) :
    AbsClean (daemonCat cwd home).dataDir ∧ AbsClean (daemonCat cwd home).downloadsDir ∧ (daemonCat cwd home).downloadsDir ≠ (daemonCat cwd home).dataDir ∧
    daemonDirs cwd home dirs (daemonCat cwd home).dataDir ∧
    (daemonDirs cwd home dirs (daemonCat cwd home).downloadsDir ↔ dirs (daemonCat cwd home).downloadsDir) := by
  obtain ⟨hs, h1, -, h2, h3⟩ := daemonCat_dirs cwd home hhome
  have p1 : Plain (Json.ascii ".flu-network") := ⟨by decide, by decide, by decide, by decide⟩
  have p2 : Plain (Json.ascii "catalogue") := ⟨by decide, by decide, by decide, by decide⟩
  have p3 : Plain (Json.ascii "downloads") := ⟨by decide, by decide, by decide, by decide⟩
  have hpl : ∀ b, Plain b → ∀ e ∈ hs ++ [Json.ascii ".flu-network", b], Plain e := by
    intro b hb e he
    rcases List.mem_append.1 he with he | he
    · exact h1 e he
    · simp at he; rcases he with rfl | rfl <;> assumption
  have hne : absOf (hs ++ [Json.ascii ".flu-network", Json.ascii "downloads"]) ≠ absOf (hs ++ [Json.ascii ".flu-network", Json.ascii "catalogue"]) := by
    intro h
    have := absOf_inj _ _ (hpl _ p3) (hpl _ p2) h
    have := List.append_cancel_left this
    exact absurd this (by decide)
  have hlen : (absOf (hs ++ [Json.ascii ".flu-network", Json.ascii "downloads"])).length =
      (absOf (hs ++ [Json.ascii ".flu-network", Json.ascii "catalogue"])).length := by
    rw [absOf_slashed (by simp), absOf_slashed (by simp), slashed_append, slashed_append]
    simp only [List.length_append, Nat.add_left_cancel_iff]
    decide
  have hne1 : absOf (hs ++ [Json.ascii ".flu-network", Json.ascii "downloads"]) ≠ [slash] := by
    intro h
    have := absOf_inj _ [] (hpl _ p3) (by simp) (h.trans rfl)
    simp at this
  rw [h2, h3]
  unfold daemonDirs
  rw [h2]
  refine ⟨⟨_, hpl _ p2, rfl⟩, ⟨_, hpl _ p3, rfl⟩, hne, .inr (.inl rfl), ⟨?_, .inl⟩⟩
  rintro (h | h | h | ⟨r, h⟩)
  · exact h
  · exact absurd h hne
  · exact absurd h hne1
  · have := congrArg List.length h
    rw [List.length_append, hlen] at this
    simp at this

/-- A download with a plain name has a directory exactly if the downloads directory exists. -/
theorem C93_homeless (hdl : AbsClean dl) (name : GoString) (hn : IsName name) (dirs : Dirs) : Homeless dirs (joinPath [dl, name]) ↔ ¬ dirs dl := by
  obtain ⟨ds, hds, rfl⟩ := hdl
  have hn' := plain_of_isName hn
  rw [joinPath_plain ds hds name hn']
  constructor
  · intro h hd
    exact h _ hd ((inDir_iff ds name (plain_snoc hds hn') _).2 rfl)
  · intro h D hD hin
    rw [(inDir_iff ds name (plain_snoc hds hn') _).1 hin] at hD
    exact h hD

theorem homeless_none {dirs : Dirs} {fs : FS} {p : Path} (hh : Housed dirs fs) (hp : Homeless dirs p) : fs p = none := by
  apply Classical.byContradiction
  intro h
  obtain ⟨D, h1, h2⟩ := hh p h
  exact hp D h1 h2

/-- C93: a transfer that delivers a chunk of a file whose directory does not exist ends the daemon, whatever the operating system does otherwise. -/
theorem C93_dies (hh : Healthy env d) {c : Cat} {fs : FS} (hreach : Reach env d dl (.running c fs)) (h : Sha1Hash) (e : Export) (ho : observe c fs h = .ok e)
    (hq : ¬ CatFile d e.filePath) (dirs : Dirs) (hd : Homeless dirs e.filePath) (n : UInt16) (queue : List (Option Bytes)) (acks : List UInt32) (B : Bytes) (ok : Bool)
    (hrecv : recvLoop env.sha1 .fresh queue = .ok (acks, .finished B ok)) (fl : List Fault) (r : Res DLOut) (s' : St)
    (hrun : downloadChunk env h n queue ⟨c, fs, fl⟩ = (r, s')) (hlaw : Housed dirs s'.fs) : r.returns = false := by
  have hsafe : (Op.save h n B).Safe d c := by
    intro p hp
    rw [observe_path hh hreach h e ho] at hp
    cases hp; exact hq
  rw [downloadChunk_eq, hrecv] at hrun
  replace hrun : (IOM.orPanic (saveChunk h n B) >>= fun _ => (pure (.saved ok) : CM DLOut)) ⟨c, fs, fl⟩ = (r, s') := hrun
  rw [IOM.bind_apply] at hrun
  rcases hs : IOM.orPanic (saveChunk h n B) ⟨c, fs, fl⟩ with ⟨x, s1⟩
  rw [hs] at hrun
  rcases orPanic_returns hs with ⟨a, rfl, h2⟩ | rfl | rfl | rfl
  · cases hrun
    obtain ⟨e1, e2, h3, -, -, -, -, h4, -⟩ := saveChunk_effect hh hreach h n B fl hsafe s' h2
    rw [ho] at h3; cases h3
    rw [homeless_none hlaw hd] at h4
    cases h4
  all_goals (cases hrun; rfl)

/-- That is what happens: the call that opens the file for writing (or already the one that reads the progress file) fails, no file changes, and the daemon panics. -/
theorem C93_death (hh : Healthy env d) {c : Cat} {fs : FS} (hreach : Reach env d dl (.running c fs)) (h : Sha1Hash) (n : UInt16) (queue : List (Option Bytes))
    (acks : List UInt32) (B : Bytes) (ok : Bool) (hrecv : recvLoop env.sha1 .fresh queue = .ok (acks, .finished B ok)) :
    ∃ s', downloadChunk env h n queue ⟨c, fs, [.fail none]⟩ = (.panic, s') ∧ s'.fs = fs := by
  have hI : Inv env d dl c fs := hreach.inv hh.abs hh.utf8
  obtain ⟨ind, rfl, hw⟩ := hI.split
  suffices hs : ∃ s', IOM.orPanic (saveChunk h n B) ⟨⟨d, dl, some ind⟩, fs, [.fail none]⟩ = (.panic, s') ∧ s'.fs = fs by
    obtain ⟨s', h1, h2⟩ := hs
    refine ⟨s', ?_, h2⟩
    rw [downloadChunk_eq, hrecv]
    show (IOM.orPanic (saveChunk h n B) >>= fun _ => (pure (.saved ok) : CM DLOut)) _ = _
    rw [IOM.bind_apply, h1]
  have hget : getIndexRecord h ⟨⟨d, dl, some ind⟩, fs, [.fail none]⟩ =
      (match mapGet ind.index h with | some r => fillRecord r | none => (IOM.lift (.err .fileNotFound) : CM Record)) ⟨⟨d, dl, some ind⟩, fs, [.fail none]⟩ := rfl
  rcases hm : mapGet ind.index h with _ | rec
  · rw [hm] at hget
    refine ⟨⟨⟨d, dl, some ind⟩, fs, [.fail none]⟩, ?_, rfl⟩
    simp only [IOM.orPanic, saveChunk, IOM.bind_apply, hget]
    rfl
  · rw [hm] at hget
    rcases rec with ⟨path, size, hash, pf, cs⟩
    rcases pf with _ | pf
    · have hfill : fillRecord ⟨path, size, hash, none, cs⟩ ⟨⟨d, dl, some ind⟩, fs, [.fail none]⟩ = (.err .io, ⟨⟨d, dl, some ind⟩, fs, []⟩) := rfl
      refine ⟨⟨⟨d, dl, some ind⟩, fs, []⟩, ?_, rfl⟩
      simp only [IOM.orPanic, saveChunk, IOM.bind_apply, hget, hfill]
    · have hfill : fillRecord ⟨path, size, hash, some pf, cs⟩ ⟨⟨d, dl, some ind⟩, fs, [.fail none]⟩ = (.ok ⟨path, size, hash, some pf, cs⟩, ⟨⟨d, dl, some ind⟩, fs, [.fail none]⟩) := rfl
      have hopen : ∀ p, osOpenCreate p ⟨⟨d, dl, some ind⟩, fs, [.fail none]⟩ = (.err .io, ⟨⟨d, dl, some ind⟩, fs, []⟩) := fun _ => rfl
      refine ⟨⟨⟨d, dl, some ind⟩, fs, []⟩, ?_, rfl⟩
      simp only [IOM.orPanic, saveChunk, Record.saveChunk, IOM.bind_apply, hget, hfill, hopen]

/-- Runs in which every file is in a directory that exists, and nobody else touches the file `h`. -/
def Spec.Lawful (dirs : Dirs) (h : Sha1Hash) (a : Actor) (x : DLSys) : Prop :=
  (∀ o, a = .call o → ¬ o.Touches h) ∧ ∀ s, x = .alive s → Housed dirs s.fs

/-- C93: as long as its directory does not exist, a download obtains nothing, however many hosts have the file, and does not finish. -/
theorem C93_never (hh : Healthy env d) (h : Sha1Hash) (s0 : DLState) (hreach : Reach env d dl (.running s0.cat s0.fs)) (e : Export)
    (ho : observe s0.cat s0.fs h = .ok e) (hinc : ∃ i : Nat, (i : Int) < e.progress.sizeOf ∧ ¬ e.saved i) (dirs : Dirs) (hd : Homeless dirs e.filePath)
    (h0 : ∀ t th, s0.threads t = some th → th.hash = h → th.pos ≠ .finished) (x : DLSys) (hrun : DLRun env d (Lawful dirs h) s0 x) :
    ∀ s, x = .alive s → observe s.cat s.fs h = .ok e ∧ ∀ t th, s.threads t = some th → th.hash = h → th.pos ≠ .finished := by
  suffices ∀ s, x = .alive s → Reach env d dl (.running s.cat s.fs) ∧ observe s.cat s.fs h = .ok e ∧
      ∀ t th, s.threads t = some th → th.hash = h → th.pos ≠ .finished from fun s hs => (this s hs).2
  induction hrun with
  | refl => intro s hs; cases hs; exact ⟨hreach, ho, h0⟩
  | @step s x a hr hst hok ih =>
    intro s2 hs; subst hs
    obtain ⟨h1, h2, h3⟩ := ih s rfl
    obtain ⟨hcall, hlaw⟩ := hok
    have hlaw := hlaw s2 rfl
    have hne : observe s.cat s.fs h ≠ .err .fileNotFound := by rw [h2]; intro hx; cases hx
    refine ⟨hst.reach h1, ?_, ?_⟩
    · rcases hst.effect.1 with ⟨q1, q2⟩ | ⟨p, x, -, hp, q1, q2⟩ | ⟨o, fl, r, st', q1, q2, q3, q4, q5, q6⟩
      · rw [q1, q2]; exact h2
      · rw [q1, q2, observe_user hh h1 p x hp h]; exact h2
      · have hnt : ¬ o.Touches h := by
          rcases q6 with hx | ⟨t', th', hx, ht', -, q6⟩
          · exact hcall o hx
          · rcases q6 with q6 | ⟨n, b, rfl, rfl, -⟩
            · exact q6 h
            · intro hk
              replace hk : th'.hash = h := hk
              obtain ⟨e1, e2, g1, -, -, -, -, g4, -⟩ := saveChunk_effect hh h1 th'.hash n b fl q1 st' q2
              rw [hk, h2] at g1; cases g1
              rw [← q5, homeless_none hlaw hd] at g4
              cases g4
        rw [q4, q5, observe_other hh h1 h hne o q1 hnt fl r st' q2]
        exact h2
    · have keep : ∀ (t0 : Nat) (th0 : DLThread), (th0.hash = h → th0.pos ≠ .finished) → ∀ t th, upd s.threads t0 (some th0) t = some th → th.hash = h → th.pos ≠ .finished := by
        intro t0 th0 h0 t th ht hh'
        unfold upd at ht
        split at ht
        · cases ht; exact h0 hh'
        · exact h3 t th ht hh'
      cases hst with
      | start t0 h' _ ht => exact keep _ _ (fun _ hx => by cases hx)
      | check t0 _ th0 fl b s' ht hp hrun => exact keep _ _ (fun _ hx => by cases hx)
      | setup t0 _ th0 fl w b own s' ht hp hrun => exact keep _ _ (fun _ hx => by cases hx)
      | refuse t0 _ th0 fl w b e s' ht hp hrun => exact keep _ _ (fun _ hx => by cases hx)
      | test t0 _ th0 fl own v s' ht hp hrun =>
        refine keep _ _ (fun hth hx => ?_)
        obtain ⟨e', g1, g2, -⟩ := C34_complete hh h1 th0.hash fl v s' hrun
        replace hth : th0.hash = h := hth
        rw [hth, h2] at g1; cases g1
        cases v with
        | false => cases hx
        | true =>
          obtain ⟨i, hi, hs⟩ := hinc
          exact hs (g2.1 rfl i hi)
      | want t0 _ th0 fl own r rest s' ht hp hrun => exact keep _ _ (fun _ hx => by cases hx)
      | search t0 _ th0 own c rs ht hp => exact keep _ _ (fun _ hx => by cases hx)
      | again t0 _ th0 own c ht hp => exact keep _ _ (fun _ hx => by cases hx)
      | skip t0 _ th0 own c r todo ht hp hl hk => exact keep _ _ (fun _ hx => by cases hx)
      | dial t0 _ th0 own c r todo ht hp hl hk => exact keep _ _ (fun _ hx => by cases hx)
      | fetched t0 _ th0 fl own c r todo queue ok s' ht hp hsafe hrun => exact keep _ _ (fun _ hx => by cases hx)
      | gaveUp t0 _ th0 fl own c r todo queue s' ht hp hrun => exact keep _ _ (fun _ hx => by cases hx)
      | call o _ fl r s' hsafe hrun hret => exact h3
      | user p _ content hp => exact h3

/-- C93 as one would like it: the daemon has been started, a download is registered, a host has the whole file, nothing fails that need not fail.  Then the download can run to
its end. -/
def C93_statement (env : Env) (cwd home : GoString) (dirs : Dirs) : Prop :=
  ∀ (h : Sha1Hash) (t : Nat) (own : ByteArr 4) (r : HostResp) (F old : Bytes) (cs : Nat) (s : DLState) (e : Export),
    DLReady env (daemonCat cwd home).dataDir (daemonCat cwd home).downloadsDir h t own r F old cs s e [] → Housed (daemonDirs cwd home dirs) s.fs →
    (∃ name, IsName name ∧ e.filePath = joinPath [(daemonCat cwd home).downloadsDir, name]) →
    goodHosts own [r] = [r] → F ≠ [] → old.length ≤ F.length →
    ∃ s2 rounds, DLRun env (daemonCat cwd home).dataDir (Lawful (daemonDirs cwd home dirs) h) s (.alive s2) ∧ s2.threads t = some ⟨h, .finished, rounds⟩ ∧
      s2.fs e.filePath = some F

/-- A run by one download goroutine in which every new file has a directory. -/
theorem DLRun.lawful (hh : Healthy env d) {h : Sha1Hash} {t : Nat} {P : Path} {dirs : Dirs} (hdd : dirs d) (hP : ∃ D, dirs D ∧ InDir D P) (hq : ¬ CatFile d P) {s0 : DLState}
    (hreach : Reach env d dl (.running s0.cat s0.fs)) (hlaw : Housed dirs s0.fs) (ho : ∃ e, observe s0.cat s0.fs h = .ok e ∧ e.filePath = P)
    (ht : ∃ th, s0.threads t = some th ∧ th.hash = h) {x : DLSys} (hrun : DLRun env d (fun a _ => a = .thread t) s0 x) :
    DLRun env d (Lawful dirs h) s0 x ∧ ∀ s, x = .alive s → Reach env d dl (.running s.cat s.fs) ∧ Housed dirs s.fs ∧ (∃ e, observe s.cat s.fs h = .ok e ∧ e.filePath = P) ∧
      ∃ th, s.threads t = some th ∧ th.hash = h := by
  induction hrun with
  | refl => exact ⟨.refl, fun s hs => by cases hs; exact ⟨hreach, hlaw, ho, ht⟩⟩
  | @step s x a hr hst hok ih =>
    obtain ⟨h1, h2⟩ := ih
    obtain ⟨g1, g2, ⟨e, g3, g3'⟩, th, g4, g5⟩ := h2 s rfl
    subst hok
    have key : ∀ s2, x = .alive s2 → Reach env d dl (.running s2.cat s2.fs) ∧ Housed dirs s2.fs ∧ (∃ e, observe s2.cat s2.fs h = .ok e ∧ e.filePath = P) ∧
        ∃ th, s2.threads t = some th ∧ th.hash = h := by
      intro s2 hs
      subst hs
      obtain ⟨th2, k1, k2, -⟩ := hst.remembers g4
      refine ⟨hst.reach g1, ?_, ?_, th2, k1, k2.trans g5⟩
      · rcases hst.effect.1 with ⟨q1, q2⟩ | ⟨p, x, hx, -⟩ | ⟨o, fl, r, st', q1, q2, q3, q4, q5, q6⟩
        · rw [q2]; exact g2
        · cases hx
        · intro q hne
          by_cases hcf : CatFile d q
          · obtain ⟨ds, hds, rfl⟩ := hh.abs
            rcases hcf with rfl | ⟨k, rfl⟩
            · exact ⟨_, hdd, by rw [indexPath_abs ds hds]; exact (inDir_iff ds _ (plain_snoc hds plain_indexFileName) _).2 rfl⟩
            · exact ⟨_, hdd, by rw [progressPath_abs ds hds]; exact (inDir_iff ds _ (plain_snoc hds (plain_hash k)) _).2 rfl⟩
          · by_cases hqP : q = P
            · rw [hqP]; exact hP
            · refine g2 q ?_
              rw [q5] at hne
              rwa [C75_call hh g1 o q hcf ?_ fl r st' q2] at hne
              intro k n data hk
              rcases q6 with hx | ⟨t', th', hx, ht', -, q6⟩
              · cases hx
              · cases hx
                rw [g4] at ht'; cases ht'
                rcases q6 with q6 | ⟨n', b, hop, -⟩
                · exact absurd (show (Op.save k n data).Touches k from rfl) (hk ▸ q6 k)
                · rw [hk] at hop
                  injection hop with hop
                  rw [hop, g5, observe_path hh g1 h e g3, g3']
                  intro hx
                  exact hqP (Option.some.inj hx).symm
      · rcases hst.effect.1 with ⟨q1, q2⟩ | ⟨p, x, hx, -⟩ | ⟨o, fl, r, st', q1, q2, q3, q4, q5, q6⟩
        · rw [q1, q2]; exact ⟨e, g3, g3'⟩
        · cases hx
        · rw [q4, q5]
          rcases q6 with hx | ⟨t', th', hx, ht', -, q6⟩
          · cases hx
          · cases hx
            rw [g4] at ht'; cases ht'
            rcases q6 with q6 | ⟨n', b, rfl, rfl, -⟩
            · rw [observe_other hh g1 h (by rw [g3]; intro hx; cases hx) o q1 (q6 h) fl r st' q2]
              exact ⟨e, g3, g3'⟩
            · obtain ⟨e1, e2, m1, m2, m3, -⟩ := saveChunk_effect hh g1 th.hash n' b fl q1 st' q2
              rw [g5] at m1 m2
              rw [g3] at m1; cases m1
              exact ⟨e2, m2, by rw [m3]; exact g3'⟩
    exact ⟨.step _ h1 hst ⟨fun o ho => (by cases ho), fun s2 hs => (key s2 hs).2.1⟩, key⟩

/-- C93 holds once somebody has created the downloads directory. -/
theorem C93_partial (cwd home : GoString) (hhome : isAbs home = true) (hutf : env.json.fix (daemonCat cwd home).dataDir = (daemonCat cwd home).dataDir) (dirs : Dirs)
    (hdirs : dirs (daemonCat cwd home).downloadsDir) : C93_statement env cwd home dirs := by
  obtain ⟨a1, a2, a3, a4, a5⟩ := C93_start cwd home hhome dirs
  intro h t own r F old cs s e hr hlaw hname hgood hF hold
  obtain ⟨name, hn, hp⟩ := hname
  have hh : Healthy env (daemonCat cwd home).dataDir := ⟨a1, hutf⟩
  obtain ⟨s2, e2, rounds, g1, g2, -, -, -, -, -, g3, -⟩ := dl_completes hh hgood hr hF hold
  have hP : ∃ D, daemonDirs cwd home dirs D ∧ InDir D e.filePath := by
    refine ⟨_, a5.2 hdirs, ?_⟩
    rw [hp]
    obtain ⟨ds, hds, hdl⟩ := a2
    rw [hdl, joinPath_plain ds hds name (plain_of_isName hn)]
    exact (inDir_iff ds name (plain_snoc hds (plain_of_isName hn)) _).2 rfl
  exact ⟨s2, rounds, (DLRun.lawful hh a4 hP hr.path hr.clean.reach hlaw ⟨e, hr.obs, rfl⟩ ⟨_, hr.thread, rfl⟩ g1).1, g2, g3⟩

/-- A registered download in a fresh catalogue. -/
theorem fresh_ready (hh : Healthy env d) (hdl : AbsClean dl) (hne : dl ≠ d) (fs : FS) (hfs : ∀ p, CatFile d p → fs p = none) (name : GoString) (hn : IsName name)
    (hf : fs (joinPath [dl, name]) = none) (h : Sha1Hash) (F : Bytes) (hF : F.length ≤ 65536) (t : Nat) (own : ByteArr 4) (r : HostResp) :
    ∃ s e, DLReady env d dl h t own r F [] 1 s e [] ∧ e.filePath = joinPath [dl, name] ∧ e.progress.sizeOf = F.length ∧ (∀ i, i < 2 ^ 63 → ¬ e.saved i) ∧
      (∀ q, ¬ CatFile d q → s.fs q = fs q) ∧ ∀ t', t' ≠ t → s.threads t' = none := by
  have h0 := CleanReach.fresh env d dl hh.utf8 fs hfs
  have hlen : (UInt64.ofNat F.length).toNat = F.length := by rw [UInt64.toNat_ofNat']; omega
  obtain ⟨e, s1, h1⟩ := registerDownload_total env (UInt64.ofNat F.length) 1 h name d dl (freshIdx env d) (fs.put (indexPath d) (some (env.json.enc (freshIdx env d).toJSON))) rfl
    (by omega) (by decide)
  have h2 := h0.returns (.register (UInt64.ofNat F.length) 1 h name) trivial s1 (.inl (CM.void_ok _ _ _ _ h1))
  obtain ⟨-, ⟨b, g1, g2, g3, g4, g5⟩, g6, g7⟩ := C29_register hh h0.reach (UInt64.ofNat F.length) 1 h name [] e s1 (by omega) (by decide) h1
  have hpath : ¬ CatFile d (joinPath [dl, name]) := by
    obtain ⟨ds, hds, rfl⟩ := hh.abs
    obtain ⟨ws, hws, rfl⟩ := hdl
    have hn' := plain_of_isName hn
    rw [joinPath_plain ws hws name hn']
    rintro (hx | ⟨k, hx⟩)
    · rw [indexPath_abs ds hds] at hx
      have := absOf_inj _ _ (plain_snoc hws hn') (plain_snoc hds plain_indexFileName) hx
      exact hne (by rw [(List.append_inj' this rfl).1])
    · rw [progressPath_abs ds hds] at hx
      have := absOf_inj _ _ (plain_snoc hws hn') (plain_snoc hds (plain_hash k)) hx
      exact hne (by rw [(List.append_inj' this rfl).1])
  obtain ⟨k1, k2, k3⟩ := C33_start hh h0.reach F 1 h name [] e s1 (by omega) (by decide) hpath h1
  have hother : ∀ q, ¬ CatFile d q → s1.fs q = fs q := by
    intro q hq
    rw [g7 q (fun e => hq (.inl e)) (fun e => hq (.inr ⟨_, e⟩)), FS.put_other _ _ _ _ (fun e => hq (.inl e))]
  have hsz : e.progress.sizeOf = F.length := by
    rw [g1]
    show b.sizeOf = _
    rw [g3, hlen]
    show (((F.length + 1 - 1) / 1 : Nat) : Int) = _
    simp
  have hold : (fs.put (indexPath d) (some (env.json.enc (freshIdx env d).toJSON))) (joinPath [dl, name]) = none := by
    rw [FS.put_other _ _ _ _ (fun e => hpath (.inl e))]; exact hf
  rw [hold] at k3
  refine ⟨⟨s1.cat, s1.fs, false, fun _ => false, fun t' => if t' = t then some ⟨h, .test own, []⟩ else none⟩, e,
    ⟨h2, k2, by rw [k1]; exact hpath, by rw [hsz]; omega, by rw [k1]; exact k3, rfl, rfl, by simp⟩, k1, hsz, ?_, hother, fun t' ht => by simp [ht]⟩
  intro i hi hs
  unfold Export.saved at hs
  rw [g1] at hs
  simp only [g5 i hi] at hs
  cases hs

/-- C93 is false of the code, for every home directory in which nobody has created the downloads directory. -/
theorem C93_refuted (cwd home : GoString) (hhome : isAbs home = true) (hutf : env.json.fix (daemonCat cwd home).dataDir = (daemonCat cwd home).dataDir) (dirs : Dirs)
    (hdirs : ¬ dirs (daemonCat cwd home).downloadsDir) : ¬ C93_statement env cwd home dirs := by
  intro hall
  obtain ⟨a1, a2, a3, a4, a5⟩ := C93_start cwd home hhome dirs
  have hh : Healthy env (daemonCat cwd home).dataDir := ⟨a1, hutf⟩
  have hn : IsName [97] := ⟨by decide, by decide, by decide, by decide⟩
  obtain ⟨s, e, h1, h2, h3, h4, h5, h6⟩ := fresh_ready (t := 1) (own := exOwn) (r := exPeer) hh a2 a3 (fun _ => none) (fun _ _ => rfl) [97] hn rfl Sha1Hash.zero [1] (by decide)
  have hhl : Homeless (daemonDirs cwd home dirs) e.filePath := by
    rw [h2]; exact (C93_homeless a2 [97] hn _).2 (fun h => hdirs (a5.1 h))
  have hlaw : Housed (daemonDirs cwd home dirs) s.fs := by
    intro q hq
    by_cases hcf : CatFile (daemonCat cwd home).dataDir q
    · obtain ⟨ds, hds, hd⟩ := a1
      rw [hd] at hcf
      refine ⟨absOf ds, hd ▸ a4, ?_⟩
      rcases hcf with rfl | ⟨k, rfl⟩
      · rw [indexPath_abs ds hds]; exact (inDir_iff ds _ (plain_snoc hds plain_indexFileName) _).2 rfl
      · rw [progressPath_abs ds hds]; exact (inDir_iff ds _ (plain_snoc hds (plain_hash k)) _).2 rfl
    · exact absurd (h5 q hcf) hq
  obtain ⟨s2, rounds, g1, g2, -⟩ := hall Sha1Hash.zero 1 exOwn exPeer [1] [] 1 s e h1 hlaw ⟨[97], hn, h2⟩ ex_good (by decide) (by decide)
  refine (C93_never hh Sha1Hash.zero s h1.clean.reach e h1.obs ⟨0, by rw [h3]; decide, h4 0 (by decide)⟩ _ hhl ?_ _ g1 s2 rfl).2 1 _ g2 rfl rfl
  intro t th ht hth
  by_cases ht1 : t = 1
  · subst ht1; rw [h1.thread] at ht; cases ht; intro hx; cases hx
  · rw [h6 t ht1] at ht; cases ht

/-- A home directory `/h` where nothing else exists yet. -/
def exHomeDirs : Dirs := fun p => p = [47] ∨ p = [47, 104]

theorem ex_home_utf8 (json : JsonCodec) : json.fix (daemonCat [47] [47, 104]).dataDir = (daemonCat [47] [47, 104]).dataDir := by
  refine json.fix_ascii _ ?_
  have h : (daemonCat [47] [47, 104]).dataDir = Json.ascii "/h/.flu-network/catalogue" := by decide
  rw [h]
  unfold isAscii
  decide

/-- `C93_refuted` and, when somebody creates the directory, `C93_partial`, for `/h`. -/
example (sha1 : Bytes → Sha1Hash) (json : JsonCodec) :
    ¬ C93_statement (exEnv sha1 json) [47] [47, 104] exHomeDirs ∧
    C93_statement (exEnv sha1 json) [47] [47, 104] (fun p => exHomeDirs p ∨ p = Json.ascii "/h/.flu-network" ∨ p = Json.ascii "/h/.flu-network/downloads") := by
  have h : (daemonCat [47] [47, 104]).downloadsDir = Json.ascii "/h/.flu-network/downloads" := by decide
  refine ⟨C93_refuted [47] [47, 104] (by decide) (ex_home_utf8 json) _ ?_, C93_partial [47] [47, 104] (by decide) (ex_home_utf8 json) _ ?_⟩
  · rw [h]; rintro (h | h) <;> exact absurd h (by decide)
  · rw [h]; exact .inr (.inr rfl)

/-- `C93_dies` and `C93_death`: a state and a transfer to which they apply. -/
example (sha1 : Bytes → Sha1Hash) (json : JsonCodec) : ∃ (s : DLState) (e : Export) (queue : List (Option Bytes)) (acks : List UInt32) (B : Bytes) (s' : St),
    Reach (exEnv sha1 json) (daemonCat [47] [47, 104]).dataDir (daemonCat [47] [47, 104]).downloadsDir (.running s.cat s.fs) ∧
    observe s.cat s.fs Sha1Hash.zero = .ok e ∧ ¬ CatFile (daemonCat [47] [47, 104]).dataDir e.filePath ∧
    Homeless (daemonDirs [47] [47, 104] exHomeDirs) e.filePath ∧ recvLoop sha1 .fresh queue = .ok (acks, .finished B true) ∧
    downloadChunk (exEnv sha1 json) Sha1Hash.zero 0 queue ⟨s.cat, s.fs, [.fail none]⟩ = (.panic, s') ∧ s'.fs = s.fs := by
  obtain ⟨a1, a2, a3, a4, a5⟩ := C93_start [47] [47, 104] (by decide) exHomeDirs
  have hh : Healthy (exEnv sha1 json) (daemonCat [47] [47, 104]).dataDir := ⟨a1, ex_home_utf8 json⟩
  have hn : IsName [97] := ⟨by decide, by decide, by decide, by decide⟩
  obtain ⟨s, e, h1, h2, h3, h4, h5, h6⟩ := fresh_ready (t := 1) (own := exOwn) (r := exPeer) hh a2 a3 (fun _ => none) (fun _ _ => rfl) [97] hn rfl Sha1Hash.zero [1] (by decide)
  obtain ⟨queue, acks, hq⟩ := deliverable sha1 [1] (by decide)
  obtain ⟨s', k1, k2⟩ := C93_death hh h1.clean.reach Sha1Hash.zero 0 queue acks [1] true hq
  refine ⟨s, e, queue, acks, [1], s', h1.clean.reach, h1.obs, h1.path, ?_, hq, k1, k2⟩
  rw [h2]
  refine (C93_homeless a2 [97] hn _).2 (fun hx => ?_)
  have hx := a5.1 hx
  rw [show (daemonCat [47] [47, 104]).downloadsDir = Json.ascii "/h/.flu-network/downloads" by decide] at hx
  rcases hx with h | h <;> exact absurd h (by decide)

end Flu
