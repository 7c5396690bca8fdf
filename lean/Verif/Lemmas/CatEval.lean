import Verif.Model.Catalogue
import Verif.Lemmas.Paths
/-! # Running the catalogue model when no call faults -/
namespace Flu

section
variable {σ α β : Type}
theorem IOM.bind_apply (x : IOM σ α) (f : α → IOM σ β) (s : σ) : (x >>= f) s =
    match x s with
    | (.ok a, s') => f a s'
    | (.err e, s') => (.err e, s')
    | (.panic, s') => (.panic, s')
    | (.exit, s') => (.exit, s')
    | (.crash, s') => (.crash, s') := rfl
theorem IOM.pure_apply (a : α) (s : σ) : (pure a : IOM σ α) s = (.ok a, s) := rfl
theorem IOM.lift_apply (r : Res α) (s : σ) : (IOM.lift r : IOM σ α) s = (r, s) := rfl
theorem IOM.modify_apply (f : σ → σ) (s : σ) : (IOM.modify f : IOM σ Unit) s = (.ok (), f s) := rfl
end

theorem getFS_apply (s : St) : getFS s = (.ok s.fs, s) := rfl
theorem getCat_apply (s : St) : getCat s = (.ok s.cat, s) := rfl

theorem nextFault_nil (c : Cat) (fs : FS) : nextFault ⟨c, fs, []⟩ = (.ok .none, ⟨c, fs, []⟩) := rfl

theorem osWriteFile_nil (p : Path) (d : Bytes) (c : Cat) (fs : FS) : osWriteFile p d ⟨c, fs, []⟩ = (.ok (), ⟨c, fs.put p (some d), []⟩) := rfl
theorem osReadFile_nil (p : Path) (c : Cat) (fs : FS) : osReadFile p ⟨c, fs, []⟩ =
    ((match fs p with | some d => .ok d | none => .err .io), ⟨c, fs, []⟩) := by
  unfold osReadFile
  simp only [IOM.bind_apply, nextFault_nil, getFS_apply]
  cases fs p <;> rfl
theorem osStat_nil (p : Path) (c : Cat) (fs : FS) : osStat p ⟨c, fs, []⟩ = (.ok ((fs p).map List.length), ⟨c, fs, []⟩) := rfl
theorem osTouch_nil (c : Cat) (fs : FS) : osTouch ⟨c, fs, []⟩ = (.ok (), ⟨c, fs, []⟩) := rfl
theorem osRemove_nil (p : Path) (c : Cat) (fs : FS) : osRemove p ⟨c, fs, []⟩ =
    (match fs p with | some _ => (.ok (), ⟨c, fs.put p none, []⟩) | none => (.err .io, ⟨c, fs, []⟩)) := by
  unfold osRemove
  simp only [IOM.bind_apply, nextFault_nil, getFS_apply]
  cases fs p <;> rfl
theorem osOpenCreate_nil (p : Path) (c : Cat) (fs : FS) :
    osOpenCreate p ⟨c, fs, []⟩ = (.ok (), ⟨c, fs.put p (some ((fs p).getD [])), []⟩) := rfl
theorem osWriteAt_nil (p : Path) (d : Bytes) (start : Nat) (c : Cat) (fs : FS) :
    osWriteAt p d start ⟨c, fs, []⟩ = (.ok (), ⟨c, fs.put p (some (overlay ((fs p).getD []) start d)), []⟩) := by
  unfold osWriteAt
  rw [if_neg (by omega)]; rfl
theorem osHashFile_nil (env : Env) (p : Path) (c : Cat) (fs : FS) : osHashFile env p ⟨c, fs, []⟩ =
    ((match fs p with | some d => .ok (env.sha1 d) | none => .err .io), ⟨c, fs, []⟩) := by
  unfold osHashFile
  rw [IOM.bind_apply, osReadFile_nil]
  cases fs p <;> rfl

/-- The catalogue with a given in-memory index. -/
abbrev Cat.withIndex (c : Cat) (ind : IndexFile) : Cat := { c with indexFile := some ind }

theorem getIndex_eval (d dl : Path) (ind : IndexFile) (fs : FS) (fl : List Fault) :
    getIndex ⟨⟨d, dl, some ind⟩, fs, fl⟩ = (.ok ind, ⟨⟨d, dl, some ind⟩, fs, fl⟩) := rfl
theorem setIndex_eval (d dl : Path) (oi : Option IndexFile) (ind : IndexFile) (fs : FS) (fl : List Fault) :
    setIndex ind ⟨⟨d, dl, oi⟩, fs, fl⟩ = (.ok (), ⟨⟨d, dl, some ind⟩, fs, fl⟩) := rfl
theorem saveIndex_nil (env : Env) (d dl : Path) (ind : IndexFile) (fs : FS) :
    saveIndex env ⟨⟨d, dl, some ind⟩, fs, []⟩ =
      (.ok (), ⟨⟨d, dl, some ind⟩, fs.put (indexPath ind.dataDir) (some (env.json.enc ind.toJSON)), []⟩) := rfl
theorem updateRecord_eval (r : Record) (d dl : Path) (ind : IndexFile) (fs : FS) (fl : List Fault) :
    updateRecord r ⟨⟨d, dl, some ind⟩, fs, fl⟩ =
      (.ok (), ⟨⟨d, dl, some { ind with index := mapPut ind.index r.sha1Hash r }⟩, fs, fl⟩) := rfl

/-! ### Go maps as lists of entries -/

theorem mapGet_nil (k : Sha1Hash) : mapGet ([] : List (Sha1Hash × α)) k = none := rfl
theorem mapGet_cons (e : Sha1Hash × α) (m : List (Sha1Hash × α)) (k : Sha1Hash) :
    mapGet (e :: m) k = if e.1 = k then some e.2 else mapGet m k := by
  unfold mapGet
  rw [List.find?_cons]
  by_cases h : e.1 = k
  · rw [decide_eq_true h, if_pos h]; rfl
  · rw [decide_eq_false h, if_neg h]

theorem mapGet_append (m m' : List (Sha1Hash × α)) (k : Sha1Hash) : mapGet (m ++ m') k = (mapGet m k).or (mapGet m' k) := by
  induction m with
  | nil => simp [mapGet_nil]
  | cons e m ih =>
    rw [List.cons_append, mapGet_cons, mapGet_cons, ih]
    split <;> simp

theorem mapGet_eq_none (m : List (Sha1Hash × α)) (k : Sha1Hash) : mapGet m k = none ↔ ∀ e ∈ m, e.1 ≠ k := by
  induction m with
  | nil => simp [mapGet_nil]
  | cons e m ih =>
    rw [mapGet_cons]
    split
    · rename_i h; simp [h]
    · rename_i h; simp [ih, h]

theorem mapGet_mem (m : List (Sha1Hash × α)) (k : Sha1Hash) (v : α) (h : mapGet m k = some v) : (k, v) ∈ m := by
  induction m with
  | nil => simp [mapGet_nil] at h
  | cons e m ih =>
    rw [mapGet_cons] at h
    split at h
    · rename_i hk
      injection h with h
      rw [← hk, ← h]; simp
    · exact List.mem_cons_of_mem _ (ih h)

theorem mapGet_of_mem (m : List (Sha1Hash × α)) (k : Sha1Hash) (v : α) (hn : (m.map (·.1)).Nodup) (h : (k, v) ∈ m) : mapGet m k = some v := by
  induction m with
  | nil => cases h
  | cons e m ih =>
    rw [mapGet_cons]
    simp only [List.map_cons, List.nodup_cons] at hn
    rcases List.mem_cons.1 h with rfl | h
    · simp
    · have : e.1 ≠ k := by
        intro he; apply hn.1; rw [he]; exact List.mem_map_of_mem (f := (·.1)) h
      rw [if_neg this]; exact ih hn.2 h

theorem any_key (m : List (Sha1Hash × α)) (k : Sha1Hash) : m.any (fun e => decide (e.1 = k)) = true ↔ mapGet m k ≠ none := by
  rw [Ne, mapGet_eq_none, List.any_eq_true]
  constructor
  · rintro ⟨e, he, h⟩ hall; exact hall e he (of_decide_eq_true h)
  · intro h; apply Classical.byContradiction; intro hn
    exact h (fun e he hk => hn ⟨e, he, decide_eq_true hk⟩)

theorem mapGet_put (m : List (Sha1Hash × α)) (k k' : Sha1Hash) (v : α) :
    mapGet (mapPut m k v) k' = if k = k' then some v else mapGet m k' := by
  unfold mapPut
  split
  · rename_i hany
    induction m with
    | nil => simp at hany
    | cons e m ih =>
      simp only [List.map_cons, mapGet_cons]
      by_cases he : e.1 = k
      · simp only [he, if_true]
        by_cases hk : k = k'
        · simp [hk]
        · rw [if_neg hk, if_neg hk, if_neg hk]
          -- the rest of the list does not matter for another key
          have : ∀ m : List (Sha1Hash × α), mapGet (m.map (fun e => if e.1 = k then (k, v) else e)) k' = mapGet m k' := by
            intro m
            induction m with
            | nil => rfl
            | cons e m ih =>
              rw [List.map_cons, mapGet_cons, mapGet_cons, ih]
              by_cases h : e.1 = k
              · simp [h, hk]
              · simp [h]
          exact this m
      · simp only [he, if_false]
        have hany' : m.any (fun e => decide (e.1 = k)) = true := by
          rw [List.any_cons, decide_eq_false he, Bool.false_or] at hany; exact hany
        rw [ih hany']
        by_cases hk : k = k'
        · subst hk; simp [he]
        · simp [hk]
  · rename_i hany
    have hnone : mapGet m k = none := by
      apply Classical.byContradiction; intro h; exact hany ((any_key m k).2 h)
    rw [mapGet_append, mapGet_cons, mapGet_nil]
    by_cases hk : k = k'
    · subst hk; simp [hnone]
    · simp [hk]

theorem mapGet_del (m : List (Sha1Hash × α)) (k k' : Sha1Hash) : mapGet (mapDel m k) k' = if k = k' then none else mapGet m k' := by
  unfold mapDel
  induction m with
  | nil => simp [mapGet_nil]
  | cons e m ih =>
    rw [List.filter_cons]
    by_cases he : e.1 = k
    · simp only [he, ne_eq, not_true_eq_false, decide_false, Bool.false_eq_true, if_false, ih, mapGet_cons]
      by_cases hk : k = k' <;> simp [hk]
    · have : decide (e.1 ≠ k) = true := by simp [he]
      simp only [this, if_true, mapGet_cons, ih]
      by_cases hk : k = k'
      · subst hk; simp [he]
      · simp [hk]

theorem keys_put (m : List (Sha1Hash × α)) (k : Sha1Hash) (v : α) :
    (mapPut m k v).map (·.1) = if m.any (fun e => decide (e.1 = k)) then m.map (·.1) else m.map (·.1) ++ [k] := by
  unfold mapPut
  split
  · rw [List.map_map]; apply List.map_congr_left
    intro e _; simp only [Function.comp]; split
    · rename_i h; exact h.symm
    · rfl
  · simp

theorem nodup_put (m : List (Sha1Hash × α)) (k : Sha1Hash) (v : α) (h : (m.map (·.1)).Nodup) : ((mapPut m k v).map (·.1)).Nodup := by
  rw [keys_put]
  split
  · exact h
  · rename_i hany
    have hnone : mapGet m k = none := by
      apply Classical.byContradiction; intro h; exact hany ((any_key m k).2 h)
    rw [List.nodup_append]
    refine ⟨h, by simp, ?_⟩
    intro a ha b hb
    simp at hb; subst hb
    obtain ⟨e, he, rfl⟩ := List.mem_map.1 ha
    exact (mapGet_eq_none m b).1 hnone e he

theorem nodup_del (m : List (Sha1Hash × α)) (k : Sha1Hash) (h : (m.map (·.1)).Nodup) : ((mapDel m k).map (·.1)).Nodup := by
  unfold mapDel
  exact List.Nodup.sublist (List.Sublist.map _ List.filter_sublist) h

theorem mem_put (m : List (Sha1Hash × α)) (k : Sha1Hash) (v : α) (e : Sha1Hash × α) (h : e ∈ mapPut m k v) : e = (k, v) ∨ e ∈ m := by
  unfold mapPut at h
  split at h
  · obtain ⟨x, hx, rfl⟩ := List.mem_map.1 h
    split
    · left; rfl
    · right; exact hx
  · rcases List.mem_append.1 h with h | h
    · exact .inr h
    · left; simpa using h

theorem mem_del (m : List (Sha1Hash × α)) (k : Sha1Hash) (e : Sha1Hash × α) (h : e ∈ mapDel m k) : e ∈ m := (List.mem_filter.1 h).1

/-! ### Paths of catalogue files -/

/-- An absolute clean path. -/
def AbsClean (p : Path) : Prop := ∃ es, (∀ e ∈ es, Plain e) ∧ p = absOf es

theorem hex_digit_range (v : Nat) (h : v < 16) : (48 ≤ (Hex.digit v).toNat ∧ (Hex.digit v).toNat ≤ 57) ∨ (97 ≤ (Hex.digit v).toNat ∧ (Hex.digit v).toNat ≤ 102) := by
  unfold Hex.digit
  split <;> simp only [UInt8.toNat_ofNat'] <;> omega

theorem hex_encode_mem (bs : Bytes) (c : UInt8) (h : c ∈ Hex.encode bs) :
    (48 ≤ c.toNat ∧ c.toNat ≤ 57) ∨ (97 ≤ c.toNat ∧ c.toNat ≤ 102) := by
  unfold Hex.encode at h
  obtain ⟨b, _, hb⟩ := List.mem_flatMap.1 h
  have hlt := b.toNat_lt
  simp only [List.mem_cons, List.not_mem_nil, or_false] at hb
  rcases hb with rfl | rfl
  · exact hex_digit_range _ (by omega)
  · exact hex_digit_range _ (by omega)

theorem hex_encode_length (bs : Bytes) : (Hex.encode bs).length = 2 * bs.length := by
  unfold Hex.encode
  induction bs with
  | nil => rfl
  | cons b bs ih => rw [List.flatMap_cons, List.length_append, ih]; simp; omega

theorem toString_length (h : Sha1Hash) : h.toString.length = 40 := by
  unfold Sha1Hash.toString; rw [hex_encode_length, h.2]

theorem plain_hash (h : Sha1Hash) : Plain h.toString := by
  have hl := toString_length h
  refine ⟨?_, ?_, ?_, ?_⟩
  · intro e; rw [e] at hl; simp at hl
  · intro e; rw [e] at hl; simp [dot] at hl
  · intro e; rw [e] at hl; simp [dotdot] at hl
  · intro e
    have := hex_encode_mem h.1 slash e
    simp [slash] at this

theorem indexFileName_eq : indexFileName = [105, 110, 100, 101, 120, 46, 106, 115, 111, 110] := rfl

theorem plain_indexFileName : Plain indexFileName := by
  rw [indexFileName_eq]
  exact ⟨by decide, by decide, by decide, by decide⟩

theorem indexPath_abs (ds : List GoString) (hd : ∀ e ∈ ds, Plain e) : indexPath (absOf ds) = absOf (ds ++ [indexFileName]) :=
  joinPath_plain ds hd _ plain_indexFileName

theorem progressPath_abs (ds : List GoString) (hd : ∀ e ∈ ds, Plain e) (h : Sha1Hash) :
    progressPath (absOf ds) h = absOf (ds ++ [h.toString]) := joinPath_plain ds hd _ (plain_hash h)

theorem plain_snoc {ds : List GoString} {n : GoString} (hd : ∀ e ∈ ds, Plain e) (hn : Plain n) : ∀ e ∈ ds ++ [n], Plain e := by
  intro e he
  rcases List.mem_append.1 he with h | h
  · exact hd e h
  · simp at h; subst h; exact hn

/-- The index file is not a progress file, of this directory or of another one. -/
theorem indexPath_ne_progressPath (d d' : Path) (hd : AbsClean d) (hd' : AbsClean d') (h : Sha1Hash) : indexPath d ≠ progressPath d' h := by
  obtain ⟨ds, hds, rfl⟩ := hd
  obtain ⟨ds', hds', rfl⟩ := hd'
  rw [indexPath_abs ds hds, progressPath_abs ds' hds']
  intro e
  have := absOf_inj _ _ (plain_snoc hds plain_indexFileName) (plain_snoc hds' (plain_hash h)) e
  have h2 := List.append_inj_right' this (by simp)
  have h3 := toString_length h
  rw [← List.cons.inj h2 |>.1, indexFileName_eq] at h3
  simp at h3

theorem hex_encode_inj (a b : Bytes) (h : Hex.encode a = Hex.encode b) : a = b := by
  induction a generalizing b with
  | nil =>
    cases b with
    | nil => rfl
    | cons y ys => simp [Hex.encode] at h
  | cons x xs ih =>
    cases b with
    | nil => simp [Hex.encode] at h
    | cons y ys =>
      simp only [Hex.encode, List.flatMap_cons, List.cons_append, List.nil_append, List.cons.injEq] at h
      obtain ⟨h1, h2, h3⟩ := h
      have hx := x.toNat_lt; have hy := y.toNat_lt
      have inj : ∀ u v : Nat, u < 16 → v < 16 → Hex.digit u = Hex.digit v → u = v := by
        intro u v hu hv e
        have := congrArg UInt8.toNat e
        unfold Hex.digit at this
        simp only [UInt8.toNat_ofNat'] at this
        split at this <;> split at this <;> omega
      have e1 := inj _ _ (by omega) (by omega) h1
      have e2 := inj _ _ (by omega) (by omega) h2
      rw [ih ys h3]
      congr 1
      apply UInt8.toNat_inj.1; omega

theorem toString_inj (a b : Sha1Hash) (h : a.toString = b.toString) : a = b := Subtype.ext (hex_encode_inj a.1 b.1 h)

/-- Different hashes have different progress files. -/
theorem progressPath_inj (d : Path) (hd : AbsClean d) (h h' : Sha1Hash) (e : progressPath d h = progressPath d h') : h = h' := by
  obtain ⟨ds, hds, rfl⟩ := hd
  rw [progressPath_abs ds hds, progressPath_abs ds hds] at e
  have := absOf_inj _ _ (plain_snoc hds (plain_hash h)) (plain_snoc hds (plain_hash h')) e
  have h2 := List.append_inj_right' this (by simp)
  exact toString_inj h h' (List.cons.inj h2).1

theorem FS.put_same (fs : FS) (p : Path) (c : Option Bytes) : fs.put p c p = c := by simp [FS.put]
theorem FS.put_other (fs : FS) (p q : Path) (c : Option Bytes) (h : q ≠ p) : fs.put p c q = fs q := by simp [FS.put, h]
theorem FS.put_apply (fs : FS) (p q : Path) (c : Option Bytes) : fs.put p c q = if q = p then c else fs q := rfl

end Flu
