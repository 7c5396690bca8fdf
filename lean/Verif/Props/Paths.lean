import Verif.Spec.Paths
import Verif.Props.Cli
import Verif.Lemmas.GoClean
import Verif.Model.Json
/-!
# C84: the path that is recorded for a shared file
-/
namespace Flu

theorem Plain.isName {e : GoString} (h : Plain e) : Spec.IsName e := ⟨h.ne_nil, h.ne_dot, h.ne_dotdot, h.no_slash⟩
theorem plain_of_isName {e : GoString} (h : Spec.IsName e) : Plain e := ⟨h.1, h.2.1, h.2.2.1, h.2.2.2⟩

theorem isAbs_cons (b : GoString) : isAbs (47 :: b) = true := by simp [isAbs, slash]
theorem isAbs_begins {a : GoString} (h : Spec.Begins a) (b : GoString) : isAbs (a ++ 47 :: b) = true := by
  rcases h with rfl | ⟨b', rfl⟩
  · exact isAbs_cons _
  · exact isAbs_cons _
theorem begins_of_isAbs {p : GoString} (h : isAbs p = true) : Spec.Begins p := by
  cases p with
  | nil => exact .inl rfl
  | cons c b => exact .inr ⟨b, by have : c = slash := by simpa [isAbs] using h
                                  rw [this]; rfl⟩

/-- Elements kept by `Clean` for an absolute path. -/
def kept (p : GoString) : List GoString := (splitSlash p).foldl (cleanStep true) []

theorem clean_eq {p : GoString} (h : isAbs p = true) : cleanPath p = absOf (kept p).reverse := by
  simp [cleanPath, h, absOf, kept]

theorem kept_concat (a b : GoString) : kept (a ++ 47 :: b) = (splitSlash b).foldl (cleanStep true) (kept a) := by
  show (splitSlash (a ++ slash :: b)).foldl _ _ = _
  rw [splitSlash_concat, List.foldl_append]; rfl

theorem fold_concat (s : List GoString) (a b : GoString) :
    (splitSlash (a ++ 47 :: b)).foldl (cleanStep true) s = (splitSlash b).foldl (cleanStep true) ((splitSlash a).foldl (cleanStep true) s) := by
  show (splitSlash (a ++ slash :: b)).foldl _ _ = _
  rw [splitSlash_concat, List.foldl_append]

/-- Every rule keeps what `Clean` keeps. -/
theorem samePlace_sound {p q : GoString} (h : Spec.SamePlace p q) : (isAbs p = true ↔ isAbs q = true) ∧ (isAbs p = true → kept p = kept q) := by
  induction h with
  | refl => exact ⟨Iff.rfl, fun _ => rfl⟩
  | symm h ih => exact ⟨ih.1.symm, fun hq => (ih.2 (ih.1.2 hq)).symm⟩
  | trans h1 h2 ih1 ih2 => exact ⟨ih1.1.trans ih2.1, fun hp => (ih1.2 hp).trans (ih2.2 (ih1.1.1 hp))⟩
  | slashes a b ha =>
    simp only [List.append_assoc, List.cons_append, List.nil_append]
    refine ⟨iff_of_true (isAbs_begins ha _) (isAbs_begins ha _), fun _ => ?_⟩
    rw [kept_concat, kept_concat]
    rfl
  | trailing a ha hn =>
    refine ⟨iff_of_true (isAbs_begins ha []) ?_, fun _ => ?_⟩
    · rcases ha with rfl | ⟨b, rfl⟩
      · exact absurd rfl hn
      · exact isAbs_cons _
    · rw [kept_concat]; rfl
  | dot a b ha =>
    simp only [List.append_assoc, List.cons_append, List.nil_append]
    refine ⟨iff_of_true (isAbs_begins ha _) (isAbs_begins ha _), fun _ => ?_⟩
    rw [kept_concat, kept_concat, show (46 :: 47 :: b : GoString) = [46] ++ 47 :: b from rfl, fold_concat]
    rfl
  | up a e b ha he =>
    simp only [List.append_assoc, List.cons_append, List.nil_append]
    refine ⟨iff_of_true (isAbs_begins ha _) (isAbs_begins ha _), fun _ => ?_⟩
    rw [kept_concat, kept_concat, fold_concat, show (46 :: 46 :: 47 :: b : GoString) = [46, 46] ++ 47 :: b from rfl, fold_concat]
    have hp := plain_of_isName he
    rw [splitSlash_plain e hp.no_slash]
    show (splitSlash b).foldl _ (cleanStep true (cleanStep true (kept a) e) dotdot) = _
    rw [cleanStep_plain _ _ _ hp]
    show (splitSlash b).foldl _ (if e = dotdot then _ else kept a) = _
    rw [if_neg hp.ne_dotdot]
  | root b =>
    refine ⟨iff_of_true (isAbs_cons _) (isAbs_cons _), fun _ => ?_⟩
    show kept ([47, 46, 46] ++ 47 :: b) = kept ([] ++ 47 :: b)
    rw [kept_concat, kept_concat]
    rfl

/-! The rules lead to the normal form. -/

/-- Every element with a slash before it. -/
def slashed : List GoString → GoString
  | [] => []
  | e :: es => 47 :: e ++ slashed es

theorem slashed_append (a b : List GoString) : slashed (a ++ b) = slashed a ++ slashed b := by
  induction a with
  | nil => rfl
  | cons e a ih => simp [slashed, ih]

theorem slashed_begins (a : List GoString) : Spec.Begins (slashed a) := by
  cases a with
  | nil => exact .inl rfl
  | cons e a => exact .inr ⟨_, rfl⟩

theorem slashed_ne (e : GoString) (a : List GoString) : slashed (e :: a) ≠ [] := by simp [slashed]

theorem slashed_join (e : GoString) (es : List GoString) : slashed (e :: es) = 47 :: joinSlash (e :: es) := by
  induction es generalizing e with
  | nil => simp [slashed, joinSlash]
  | cons e2 es ih =>
    rw [slashed, ih]
    rfl

theorem slashed_split (p : GoString) : slashed (splitSlash p) = 47 :: p := by
  induction p with
  | nil => rfl
  | cons c p ih =>
    simp only [splitSlash]
    split
    · rename_i hc
      subst hc
      show 47 :: [] ++ slashed (splitSlash p) = _
      rw [ih]; rfl
    · cases hs : splitSlash p with
      | nil => exact absurd hs (splitSlash_ne_nil p)
      | cons w ws =>
        rw [hs] at ih
        simp only [slashed, List.cons_append, List.cons.injEq, true_and] at ih ⊢
        exact ih

theorem absOf_slashed {es : List GoString} (h : es ≠ []) : absOf es = slashed es := by
  cases es with
  | nil => exact absurd rfl h
  | cons e es => rw [slashed_join]; rfl

/-- What is to be shown. -/
def Leads (s es : List GoString) : Prop := s.reverse ++ es ≠ [] → Spec.SamePlace (slashed (s.reverse ++ es)) (absOf (es.foldl (cleanStep true) s).reverse)

theorem leads_empty {s es : List GoString} (h : Leads s es) : Leads s ([] :: es) := by
  intro _
  show Spec.SamePlace _ (absOf (es.foldl (cleanStep true) s).reverse)
  by_cases hne : s.reverse ++ es = []
  · obtain ⟨h1, rfl⟩ := List.append_eq_nil_iff.1 hne
    have : s = [] := by simpa using h1
    subst this
    exact .refl _
  · refine .trans ?_ (h hne)
    rw [slashed_append, slashed_append]
    cases es with
    | nil =>
      have hs : slashed s.reverse ≠ [] := by
        cases hr : s.reverse with
        | nil => rw [hr] at hne; exact absurd rfl hne
        | cons e a => exact slashed_ne e a
      simpa [slashed] using Spec.SamePlace.trailing (slashed s.reverse) (slashed_begins _) hs
    | cons e2 es => simpa [slashed] using Spec.SamePlace.slashes (slashed s.reverse) (e2 ++ slashed es) (slashed_begins _)

/-- An element that may be left out in front of a slash may be left out at the end. -/
theorem drop_elem {a : GoString} (ha : Spec.Begins a) {x : GoString} (hx : ∀ b, Spec.SamePlace (a ++ 47 :: x ++ 47 :: b) (a ++ 47 :: b))
    (es : List GoString) : Spec.SamePlace (a ++ 47 :: x ++ slashed es) (a ++ slashed ([] :: es)) := by
  cases es with
  | nil =>
    refine .trans (.symm (.trailing _ ?_ (by simp))) ?_
    · rcases ha with rfl | ⟨b, rfl⟩
      · exact .inr ⟨_, rfl⟩
      · exact .inr ⟨_, rfl⟩
    · simpa [slashed] using hx []
  | cons e es =>
    refine .trans (hx (e ++ slashed es)) ?_
    simpa [slashed] using (Spec.SamePlace.slashes a (e ++ slashed es) ha).symm

theorem leads_all : ∀ (es s : List GoString), (∀ e ∈ s, Plain e) → (∀ e ∈ es, slash ∉ e) → Leads s es
  | [], s, hs, _ => by
    intro hne
    rw [List.append_nil] at hne ⊢
    show Spec.SamePlace _ (absOf s.reverse)
    rw [absOf_slashed hne]
    exact .refl _
  | e :: es, s, hs, he => by
    have hes : ∀ e ∈ es, slash ∉ e := fun x hx => he x (List.mem_cons_of_mem _ hx)
    by_cases h1 : e = []
    · subst h1
      exact leads_empty (leads_all es s hs hes)
    by_cases h2 : e = dot
    · subst h2
      intro _
      have hl : Spec.SamePlace (slashed (s.reverse ++ [] :: es)) (absOf (es.foldl (cleanStep true) s).reverse) := leads_empty (leads_all es s hs hes) (by simp)
      refine .trans ?_ hl
      rw [slashed_append, slashed_append]
      simpa [slashed] using drop_elem (x := dot) (slashed_begins _) (fun b => by simpa [dot] using Spec.SamePlace.dot (slashed s.reverse) b (slashed_begins _)) es
    by_cases h3 : e = dotdot
    · subst h3
      cases s with
      | nil =>
        intro _
        refine .trans ?_ (leads_empty (leads_all es [] hs hes) (by simp))
        exact drop_elem (a := []) (x := dotdot) (.inl rfl) (fun b => by simpa [dotdot] using Spec.SamePlace.root b) es
      | cons top rest =>
        have ht := hs top (by simp)
        have hr : ∀ e ∈ rest, Plain e := fun x hx => hs x (List.mem_cons_of_mem _ hx)
        intro _
        have hl := leads_empty (leads_all es rest hr hes) (by simp)
        have e1 : cleanStep true (top :: rest) dotdot = rest := by
          show (if top = dotdot then _ else rest) = rest
          rw [if_neg ht.ne_dotdot]
        simp only [List.foldl_cons, e1]
        refine .trans ?_ hl
        rw [List.reverse_cons, List.append_assoc, slashed_append, slashed_append]
        have := drop_elem (a := slashed rest.reverse) (x := top ++ [47, 46, 46]) (slashed_begins _)
          (fun b => by simpa using Spec.SamePlace.up (slashed rest.reverse) top b (slashed_begins _) ht.isName) es
        simpa [slashed, slashed_append, dotdot] using this
    · have hp : Plain e := ⟨h1, h2, h3, he e (by simp)⟩
      intro _
      have hl := leads_all es (e :: s) (fun x hx => by
        rcases List.mem_cons.1 hx with rfl | hx
        · exact hp
        · exact hs x hx) hes (by simp)
      rw [List.foldl_cons, cleanStep_plain _ _ _ hp]
      simpa using hl

theorem samePlace_clean {p : GoString} (h : isAbs p = true) : Spec.SamePlace p (cleanPath p) := by
  cases p with
  | nil => simp [isAbs] at h
  | cons c b =>
    have hc : c = 47 := by simpa [isAbs, slash] using h
    subst hc
    have := leads_all (splitSlash b) [] (by simp) (splitSlash_no_slash b) (by simpa using splitSlash_ne_nil b)
    rw [List.reverse_nil, List.nil_append, slashed_split] at this
    rw [clean_eq h]
    exact this

theorem clean_iff {p q : GoString} (hp : isAbs p = true) (hq : isAbs q = true) : cleanPath p = cleanPath q ↔ Spec.SamePlace p q := by
  constructor
  · intro h
    exact .trans (samePlace_clean hp) (h ▸ .symm (samePlace_clean hq))
  · intro h
    rw [clean_eq hp, clean_eq hq, (samePlace_sound h).2 hp]


section
variable {env : Env} {d dl : Path}

theorem absPath_full (cwd p : GoString) (hc : isAbs cwd = true) : absPath cwd p = cleanPath (Spec.fullPath cwd p) ∧ isAbs (Spec.fullPath cwd p) = true := by
  unfold absPath Spec.fullPath
  by_cases h : p.head? = some 47
  · have ha : isAbs p = true := by simp [isAbs, slash, h]
    rw [if_pos ha, if_pos h]
    exact ⟨rfl, ha⟩
  · have ha : ¬ isAbs p = true := by simpa [isAbs, slash] using h
    rw [if_neg ha, if_neg h]
    have hne : cwd ≠ [] := by rintro rfl; simp [isAbs] at hc
    have hw : [cwd, p].dropWhile (· = []) = [cwd, p] := by
      rw [List.dropWhile_cons, if_neg (by simpa using hne)]
    refine ⟨?_, ?_⟩
    · unfold joinPath
      rw [hw]
      simp [joinSlash, slash]
    · rw [List.append_assoc]
      exact isAbs_append _ _ hc

/-- C84, for the byte loop of the Go library: `filepath.Clean` never reads or writes outside its buffers, and its result for an absolute path is the normal spelling of the
place; two paths have the same result exactly if they name the same place. -/
theorem C84_library (p q : GoString) (hp : p.head? = some 47) (hq : q.head? = some 47) :
    ∃ x y, goClean p = .ok x ∧ goClean q = .ok y ∧ Spec.SamePlace p x ∧ (x = y ↔ Spec.SamePlace p q) ∧ ∃ es, (∀ e ∈ es, Spec.IsName e) ∧ x = 47 :: joinSlash es := by
  have habs : ∀ r : GoString, r.head? = some 47 → isAbs r = true := fun r h => by simp [isAbs, slash, h]
  refine ⟨_, _, goClean_eq p, goClean_eq q, samePlace_clean (habs p hp), clean_iff (habs p hp) (habs q hq), ?_⟩
  obtain ⟨es, he, e⟩ := cleanPath_rooted p (habs p hp)
  exact ⟨es, fun x hx => (he x hx).isName, e⟩

/-- The library's functions as the catalogue's model uses them, for every argument. -/
theorem C84_model (p : GoString) (es : List GoString) : goClean p = .ok (cleanPath p) ∧ goJoin es = .ok (joinPath es) ∧ goSplitFile p = splitFile p :=
  ⟨goClean_eq p, goJoin_eq es, goSplitFile_eq p⟩

/-- **C84.**  The path recorded for a shared file is a spelling of the place the user named, in which every element is a name; two files are recorded with
the same path exactly if the user named the same place. -/
theorem C84_recorded (hh : Healthy env d) (hcwd : isAbs env.cwd = true) {c : Cat} {fs : FS} (hreach : Reach env d dl (.running c fs)) (path : GoString)
    (fl : List Fault) (r : Record) (s' : St) (hrun : shareFile env path ⟨c, fs, fl⟩ = (.ok r, s')) :
    Spec.SamePlace (Spec.fullPath env.cwd path) r.filePath ∧
    ∃ es, (∀ e ∈ es, Spec.IsName e) ∧ r.filePath = 47 :: joinSlash es := by
  have h := share_path hh hreach path fl r s' hrun
  obtain ⟨h1, h2⟩ := absPath_full env.cwd path hcwd
  rw [h]
  refine ⟨h1 ▸ samePlace_clean h2, ?_⟩
  obtain ⟨es, he, e⟩ := absPath_clean env.cwd path hcwd
  exact ⟨es, fun x hx => (he x hx).isName, e⟩

theorem C84_same (hh : Healthy env d) (hcwd : isAbs env.cwd = true) {c1 c2 : Cat} {fs1 fs2 : FS} (hr1 : Reach env d dl (.running c1 fs1))
    (hr2 : Reach env d dl (.running c2 fs2)) (p1 p2 : GoString) (fl1 fl2 : List Fault) (r1 r2 : Record) (s1 s2 : St)
    (h1 : shareFile env p1 ⟨c1, fs1, fl1⟩ = (.ok r1, s1)) (h2 : shareFile env p2 ⟨c2, fs2, fl2⟩ = (.ok r2, s2)) :
    r1.filePath = r2.filePath ↔ Spec.SamePlace (Spec.fullPath env.cwd p1) (Spec.fullPath env.cwd p2) := by
  rw [share_path hh hr1 p1 fl1 r1 s1 h1, share_path hh hr2 p2 fl2 r2 s2 h2]
  obtain ⟨e1, a1⟩ := absPath_full env.cwd p1 hcwd
  obtain ⟨e2, a2⟩ := absPath_full env.cwd p2 hcwd
  rw [e1, e2]
  exact clean_iff a1 a2

/-- The path recorded for a download is a spelling of the place that the name stands for in the downloads directory. -/
theorem C84_download (hh : Healthy env d) (hdl : isAbs dl = true) {c : Cat} {fs : FS} (hreach : Reach env d dl (.running c fs)) (size : UInt64) (cs : UInt32)
    (h : Sha1Hash) (name : GoString) (fl : List Fault) (e : Export) (s' : St) (hrun : registerDownload env size cs h name ⟨c, fs, fl⟩ = (.ok e, s')) :
    Spec.SamePlace (dl ++ [47] ++ name) e.filePath ∧ ∃ es, (∀ e ∈ es, Spec.IsName e) ∧ e.filePath = 47 :: joinSlash es := by
  have hI : Inv env d dl c fs := hreach.inv hh.abs hh.utf8
  obtain ⟨ind, rfl, hw⟩ := hI.split
  obtain ⟨p, m1, fs1, -, -, -, -, -, -, -, he⟩ := registerDownload_ok env size cs h name d dl ind fs fl e s' hrun
  have hne : dl ≠ [] := by rintro rfl; simp [isAbs] at hdl
  have hw : [dl, name].dropWhile (· = []) = [dl, name] := by
    rw [List.dropWhile_cons, if_neg (by simpa using hne)]
  have hp : e.filePath = cleanPath (dl ++ [47] ++ name) := by
    rw [he]
    show joinPath [dl, name] = _
    unfold joinPath
    rw [hw]
    simp [joinSlash, slash]
  have ha : isAbs (dl ++ [47] ++ name) = true := by
    rw [List.append_assoc]
    exact isAbs_append _ _ hdl
  rw [hp]
  obtain ⟨es, he, hc⟩ := cleanPath_rooted _ ha
  exact ⟨samePlace_clean ha, es, fun x hx => (he x hx).isName, hc⟩

/-- `C84_library`: a path with detours. -/
example : (Json.ascii "/a//b/../c/.").head? = some 47 ∧ cleanPath (Json.ascii "/a//b/../c/.") = Json.ascii "/a/c" := by decide

/-- Names with `..` and `.` in them, and a file of the example that is shared. -/
example : Spec.SamePlace (Spec.fullPath [47, 119] [46, 46, 47, 102]) [47, 102] := by
  refine (clean_iff (by decide) (by decide)).1 ?_
  decide

/-- A share that succeeds, of a file named with detours. -/
example (sha1 : Bytes → Sha1Hash) (json : JsonCodec) : ∃ c fs r s', Reach (exEnv sha1 json) exDir exDown (.running c fs) ∧ isAbs (exEnv sha1 json).cwd = true ∧
    Healthy (exEnv sha1 json) exDir ∧ shareFile (exEnv sha1 json) [46, 47, 47, 120, 47, 46, 46, 47, 102] ⟨c, fs, []⟩ = (.ok r, s') := by
  have he : absPath (exEnv sha1 json).cwd [46, 47, 47, 120, 47, 46, 46, 47, 102] = absPath (exEnv sha1 json).cwd [102] := by
    show absPath [47] _ = absPath [47] _
    decide
  obtain ⟨r, s', h⟩ := shareFile_total (exEnv sha1 json) [46, 47, 47, 120, 47, 46, 46, 47, 102] exDir exDown (freshIdx (exEnv sha1 json) exDir) _ [1, 2, 3]
    (he ▸ ex_file sha1 json) rfl (by decide)
  exact ⟨_, _, r, s', ex_reach sha1 json, rfl, ex_healthy sha1 json, h⟩

end
end Flu
