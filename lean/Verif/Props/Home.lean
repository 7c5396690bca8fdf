import Verif.Props.Fresh
import Verif.Props.OwnFiles
import Verif.Props.Json
/-!
# The directories that `main.go` chooses

The theorems on the catalogue assume a data directory with an absolute, clean path that is valid UTF-8, and some assume that the downloads go elsewhere.  Here these
assumptions are shown for the daemon as `main.go` starts it, for every home directory with an absolute path in valid UTF-8.
-/
namespace Flu
open Spec

theorem first_slash : ∀ s : GoString, slash ∈ s → ∃ a b, s = a ++ slash :: b ∧ slash ∉ a := by
  intro s
  induction s with
  | nil => intro h; cases h
  | cons c s ih =>
    intro h
    by_cases hc : c = slash
    · exact ⟨[], s, by rw [hc]; rfl, by simp⟩
    · obtain ⟨a, b, rfl, ha⟩ := ih ((List.mem_cons.1 h).resolve_left (fun h => hc h.symm))
      exact ⟨c :: a, b, rfl, by simp only [List.mem_cons, not_or]; exact ⟨fun e => hc e.symm, ha⟩⟩

theorem fix_split (n : Nat) : ∀ s : GoString, s.length ≤ n → splitSlash (Json.fix s) = (splitSlash s).map Json.fix := by
  induction n with
  | zero =>
    intro s hs
    obtain rfl : s = [] := List.eq_nil_of_length_eq_zero (by omega)
    rfl
  | succ n ih =>
    intro s hs
    by_cases hm : slash ∈ s
    · obtain ⟨a, b, rfl, ha⟩ := first_slash s hm
      rw [fix_slash, splitSlash_append _ _ ha, splitSlash_append _ _ (fun h => ha (mem_fix slash (by decide) a h)), ih b (by simp at hs; omega)]
      rfl
    · rw [splitSlash_plain s hm, splitSlash_plain _ (fun h => hm (mem_fix slash (by decide) s h))]
      rfl

theorem foldl_clean_mem (rooted : Bool) (es stack : List GoString) (e : GoString) (he : e ∈ es.foldl (cleanStep rooted) stack) : e ∈ es ∨ e ∈ stack ∨ e = dotdot := by
  induction es generalizing stack with
  | nil => exact .inr (.inl he)
  | cons a es ih =>
    rcases ih _ he with h | h | h
    · exact .inl (List.mem_cons_of_mem _ h)
    · unfold cleanStep at h
      split at h
      · exact .inr (.inl h)
      split at h
      · split at h
        · split at h
          · cases h
          · exact .inr (.inr (List.mem_singleton.1 h))
        · split at h
          · rcases List.mem_cons.1 h with h | h
            · exact .inr (.inr h)
            · exact .inr (.inl h)
          · exact .inr (.inl (List.mem_cons_of_mem _ h))
      · rcases List.mem_cons.1 h with h | h
        · exact .inl (by rw [h]; simp)
        · exact .inr (.inl h)
    · exact .inr (.inr h)

/-- Cleaning a path that is valid UTF-8 leaves it valid UTF-8. -/
theorem text_clean (p : GoString) (ha : isAbs p = true) (ht : Json.fix p = p) : Json.fix (cleanPath p) = cleanPath p := by
  rw [clean_eq ha, fix_absOf]
  congr 1
  have hall : ∀ e ∈ splitSlash p, Json.fix e = e := by
    have h := fix_split p.length p (Nat.le_refl _)
    rw [ht] at h
    intro e he
    have key : ∀ l : List GoString, l = l.map Json.fix → ∀ e ∈ l, Json.fix e = e := by
      intro l
      induction l with
      | nil => intro _ e he; cases he
      | cons a l ih =>
        intro hl e he
        injection hl with h1 h2
        rcases List.mem_cons.1 he with rfl | he
        · exact h1.symm
        · exact ih h2 e he
    exact key _ h e he
  have : ∀ e ∈ (kept p).reverse, Json.fix e = e := by
    intro e he
    rcases foldl_clean_mem true _ _ e (List.mem_reverse.1 he) with h | h | h
    · exact hall e h
    · cases h
    · subst h; decide
  exact (List.map_congr_left this).trans (List.map_id _)

/-- The daemon of a user whose home directory has an absolute path in valid UTF-8: its data directory meets the assumptions of the catalogue's theorems, and its downloads
directory those of C36, C87 and C93. -/
theorem C87_home {env : Env} (hj : env.json = goJson) (cwd home : GoString) (hhome : isAbs home = true) (ht : IsText home) :
    Healthy env (daemonCat cwd home).dataDir ∧ AbsClean (daemonCat cwd home).downloadsDir ∧ IsText (daemonCat cwd home).downloadsDir ∧
    (daemonCat cwd home).downloadsDir ≠ (daemonCat cwd home).dataDir := by
  obtain ⟨h1, h2, h3, -⟩ := C93_start cwd home hhome (fun _ => False)
  obtain ⟨hs, hpl, hc, e1, e2⟩ := daemonCat_dirs cwd home hhome
  have hfix : Json.fix (absOf hs) = absOf hs := by
    rw [← hc]
    exact text_clean home hhome ((C68_text home).2 ht)
  have hsplit : hs.map Json.fix = hs := by
    rw [fix_absOf] at hfix
    refine absOf_inj _ _ (fun e he => ?_) hpl hfix
    obtain ⟨x, hx, rfl⟩ := List.mem_map.1 he
    exact fix_plain x (hpl x hx)
  have key : ∀ b, Json.fix b = b → Json.fix (absOf (hs ++ [Json.ascii ".flu-network", b])) = absOf (hs ++ [Json.ascii ".flu-network", b]) := by
    intro b hb
    rw [fix_absOf, List.map_append, hsplit]
    have : Json.fix (Json.ascii ".flu-network") = Json.ascii ".flu-network" := by decide
    simp [this, hb]
  refine ⟨(C68_healthy hj).2 ⟨h1, (C68_text _).1 ?_⟩, h2, (C68_text _).1 ?_, h3⟩
  · rw [e1]; exact key _ (by decide)
  · rw [e2]; exact key _ (by decide)

/-- C87 for the daemon as `main.go` starts it: if the user shares none of the catalogue's own files and the names of downloads are plain file names, then no recorded file
is one of the catalogue's own, whatever faults, crashes and restarts there are. -/
theorem C87_daemon_partial {env : Env} (hj : env.json = goJson) (cwd home : GoString) (hhome : isAbs home = true) (ht : IsText home) {c : Cat} {fs : FS}
    (hr : OpenReach env (daemonCat cwd home).dataDir (daemonCat cwd home).downloadsDir (Op.Decent env (daemonCat cwd home).dataDir) (.running c fs)) :
    (∀ h p, c.pathOf h = some p → ¬ CatFile (daemonCat cwd home).dataDir p) ∧
    Reach env (daemonCat cwd home).dataDir (daemonCat cwd home).downloadsDir (.running c fs) := by
  obtain ⟨h1, h2, h3, h4⟩ := C87_home hj cwd home hhome ht
  exact C87_partial h1 hj h2 ((C68_text _).2 h3) h4 hr

/-- The hypotheses can be met: `/h/`, written with a slash too many. -/
example : isAbs [47, 104, 47] = true ∧ IsText [47, 104, 47] ∧ (daemonCat [47] [47, 104, 47]).downloadsDir = Json.ascii "/h/.flu-network/downloads" :=
  ⟨by decide, (C68_text _).1 (by decide), by decide⟩

end Flu
