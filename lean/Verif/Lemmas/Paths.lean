import Verif.Model.Paths
/-! # Facts about the path functions -/
namespace Flu

/-- A plain path element: what a file or directory can be called. -/
structure Plain (e : GoString) : Prop where
  ne_nil : e ≠ []
  ne_dot : e ≠ dot
  ne_dotdot : e ≠ dotdot
  no_slash : slash ∉ e

/-- An absolute clean path given by its elements. -/
abbrev absOf (es : List GoString) : GoString := renderPath true es

theorem splitSlash_ne_nil (p : GoString) : splitSlash p ≠ [] := by
  cases p with
  | nil => simp [splitSlash]
  | cons c cs => simp only [splitSlash]; split <;> (try split) <;> simp

theorem splitSlash_no_slash (p : GoString) : ∀ e ∈ splitSlash p, slash ∉ e := by
  induction p with
  | nil => simp [splitSlash]
  | cons c cs ih =>
    simp only [splitSlash]
    split
    · intro e he
      rcases List.mem_cons.1 he with rfl | he
      · simp
      · exact ih e he
    · rename_i hc
      split
      · intro e he; simp at he; subst he; simpa using fun h => hc h.symm
      · rename_i w ws hw
        intro e he
        rcases List.mem_cons.1 he with rfl | he
        · have := ih w (by rw [hw]; simp)
          simp only [List.mem_cons, not_or]
          exact ⟨fun h => hc h.symm, this⟩
        · exact ih e (by rw [hw]; exact List.mem_cons_of_mem _ he)

theorem splitSlash_plain (e : GoString) (h : slash ∉ e) : splitSlash e = [e] := by
  induction e with
  | nil => rfl
  | cons c cs ih =>
    simp only [List.mem_cons, not_or] at h
    simp only [splitSlash, if_neg (fun e => h.1 (Eq.symm e)), ih h.2]

theorem splitSlash_append (e p : GoString) (h : slash ∉ e) : splitSlash (e ++ slash :: p) = e :: splitSlash p := by
  induction e with
  | nil => simp [splitSlash]
  | cons c cs ih =>
    simp only [List.mem_cons, not_or] at h
    simp only [List.cons_append, splitSlash, if_neg (fun e => h.1 (Eq.symm e)), ih h.2]

theorem splitSlash_joinSlash (es : List GoString) (hne : es ≠ []) (h : ∀ e ∈ es, slash ∉ e) : splitSlash (joinSlash es) = es := by
  induction es with
  | nil => exact absurd rfl hne
  | cons e es ih =>
    cases es with
    | nil => exact splitSlash_plain e (h e (by simp))
    | cons e2 es =>
      simp only [joinSlash]
      rw [splitSlash_append _ _ (h e (by simp)), ih (by simp) (fun x hx => h x (List.mem_cons_of_mem _ hx))]

/-- Splitting at any slash concatenates the element lists. -/
theorem splitSlash_concat (a b : GoString) : splitSlash (a ++ slash :: b) = splitSlash a ++ splitSlash b := by
  induction a with
  | nil => simp [splitSlash]
  | cons c cs ih =>
    simp only [List.cons_append, splitSlash]
    split
    · rw [ih]; rfl
    · rw [ih]
      cases hs : splitSlash cs with
      | nil => exact absurd hs (splitSlash_ne_nil cs)
      | cons w ws => rfl

theorem cleanStep_plain (rooted : Bool) (stack : List GoString) (e : GoString) (h : Plain e) : cleanStep rooted stack e = e :: stack := by
  unfold cleanStep
  rw [if_neg (by intro h'; rcases h' with h' | h'; exact h.ne_nil h'; exact h.ne_dot h'), if_neg h.ne_dotdot]

theorem foldl_cleanStep_plain (rooted : Bool) (es stack : List GoString) (h : ∀ e ∈ es, Plain e) :
    es.foldl (cleanStep rooted) stack = es.reverse ++ stack := by
  induction es generalizing stack with
  | nil => rfl
  | cons e es ih =>
    simp only [List.foldl_cons]
    rw [cleanStep_plain _ _ _ (h e (by simp)), ih _ (fun x hx => h x (List.mem_cons_of_mem _ hx))]
    simp

theorem cleanStep_nil (rooted : Bool) (stack : List GoString) : cleanStep rooted stack [] = stack := by simp [cleanStep]

theorem isAbs_absOf (es : List GoString) : isAbs (absOf es) = true := by simp [absOf, renderPath, isAbs]

theorem foldl_absOf (es : List GoString) (h : ∀ e ∈ es, Plain e) (stack : List GoString) :
    (splitSlash (absOf es)).foldl (cleanStep true) stack = es.reverse ++ stack := by
  simp only [absOf, renderPath, if_true, splitSlash]
  rw [List.foldl_cons, cleanStep_nil]
  cases es with
  | nil => simp [joinSlash, splitSlash, cleanStep_nil]
  | cons e es =>
    rw [splitSlash_joinSlash _ (by simp) (fun x hx => (h x hx).no_slash), foldl_cleanStep_plain _ _ _ h]

theorem cleanPath_absOf (es : List GoString) (h : ∀ e ∈ es, Plain e) : cleanPath (absOf es) = absOf es := by
  unfold cleanPath
  rw [isAbs_absOf, foldl_absOf es h]
  simp

/-- The elements `filepath.Clean` keeps of a rooted path are plain. -/
theorem cleanStep_keeps_plain (stack : List GoString) (e : GoString) (hs : ∀ x ∈ stack, Plain x) (he : slash ∉ e) :
    ∀ x ∈ cleanStep true stack e, Plain x := by
  unfold cleanStep
  split
  · exact hs
  · rename_i h1
    split
    · cases stack with
      | nil => simp
      | cons top rest =>
        simp only
        rw [if_neg (hs top (by simp)).ne_dotdot]
        exact fun x hx => hs x (List.mem_cons_of_mem _ hx)
    · rename_i h2
      intro x hx
      rcases List.mem_cons.1 hx with rfl | hx
      · exact ⟨fun h => h1 (.inl h), fun h => h1 (.inr h), h2, he⟩
      · exact hs x hx

theorem foldl_keeps_plain (es stack : List GoString) (hs : ∀ x ∈ stack, Plain x) (he : ∀ e ∈ es, slash ∉ e) :
    ∀ x ∈ es.foldl (cleanStep true) stack, Plain x := by
  induction es generalizing stack with
  | nil => exact hs
  | cons e es ih =>
    exact ih _ (cleanStep_keeps_plain stack e hs (he e (by simp))) (fun x hx => he x (List.mem_cons_of_mem _ hx))

/-- Every rooted path cleans to an absolute path with plain elements. -/
theorem cleanPath_rooted (p : GoString) (h : isAbs p = true) : ∃ es, (∀ e ∈ es, Plain e) ∧ cleanPath p = absOf es := by
  refine ⟨((splitSlash p).foldl (cleanStep true) []).reverse, ?_, ?_⟩
  · intro e he
    exact foldl_keeps_plain (splitSlash p) [] (by simp) (splitSlash_no_slash p) e (by simpa using he)
  · unfold cleanPath; rw [h]

theorem isAbs_append (a b : GoString) (h : isAbs a = true) : isAbs (a ++ b) = true := by
  cases a with
  | nil => simp [isAbs] at h
  | cons c cs => simpa [isAbs] using h

/-- `filepath.Join(dir, name)` for a clean absolute directory: the name's elements are resolved on top of the directory's. -/
theorem joinPath_abs (ds : List GoString) (hd : ∀ e ∈ ds, Plain e) (name : GoString) :
    joinPath [absOf ds, name] = absOf ((splitSlash name).foldl (cleanStep true) ds.reverse).reverse := by
  have hne : absOf ds ≠ [] := by simp [absOf, renderPath]
  unfold joinPath
  have hw : [absOf ds, name].dropWhile (· = []) = [absOf ds, name] := by
    rw [List.dropWhile_cons, if_neg (by simpa using hne)]
  rw [hw]
  simp only [joinSlash]
  unfold cleanPath
  rw [isAbs_append _ _ (isAbs_absOf ds), splitSlash_concat, List.foldl_append, foldl_absOf ds hd, List.append_nil]

/-- Joining a plain name gives the direct child of that name. -/
theorem joinPath_plain (ds : List GoString) (hd : ∀ e ∈ ds, Plain e) (name : GoString) (hn : Plain name) :
    joinPath [absOf ds, name] = absOf (ds ++ [name]) := by
  rw [joinPath_abs ds hd, splitSlash_plain name hn.no_slash, List.foldl_cons, List.foldl_nil, cleanStep_plain _ _ _ hn]
  simp

theorem absOf_inj (as bs : List GoString) (ha : ∀ e ∈ as, Plain e) (hb : ∀ e ∈ bs, Plain e) (h : absOf as = absOf bs) : as = bs := by
  have h1 := foldl_absOf as ha []
  have h2 := foldl_absOf bs hb []
  rw [h, h2] at h1
  simpa using h1.symm

/-- `filepath.Abs` always gives a clean absolute path (the operating system reports an absolute working directory). -/
theorem absPath_clean (cwd p : GoString) (hc : isAbs cwd = true) : ∃ es, (∀ e ∈ es, Plain e) ∧ absPath cwd p = absOf es := by
  unfold absPath
  split
  · rename_i h; exact cleanPath_rooted p h
  · have hne : cwd ≠ [] := by intro e; subst e; simp [isAbs] at hc
    unfold joinPath
    have hw : [cwd, p].dropWhile (· = []) = [cwd, p] := by
      rw [List.dropWhile_cons, if_neg (by simpa using hne)]
    rw [hw]
    simp only [joinSlash]
    exact cleanPath_rooted _ (isAbs_append _ _ hc)

theorem getLast_splitSlash_abs (es : List GoString) (hne : es ≠ []) (h : ∀ e ∈ es, Plain e) : splitFile (absOf es) = es.getLast hne := by
  unfold splitFile
  simp only [absOf, renderPath, if_true, splitSlash]
  rw [splitSlash_joinSlash _ hne (fun x hx => (h x hx).no_slash)]
  rw [List.getLast?_cons, List.getLast?_eq_some_getLast hne]; rfl

end Flu
