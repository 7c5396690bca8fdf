import Verif.Lemmas.LaxJson
import Verif.Props.DeathPoints
import Verif.Props.Rewritten
import Verif.Props.Cli
/-!
# An index file that is not an index (C139)

C100 says which files are read; here is the other direction.  Whatever stands in the index file, the daemon starts only if it is a JSON text that describes an index, and
then it lists what the text describes.  The grammar is in `Spec/LaxJson`.
-/
namespace Flu
open Spec

namespace Spec

/-- A JSON text of an index with these entries. -/
def DescribesIndex (b : Bytes) (pid lastTouched : Int) (dataDir : GoString) (es : List (GoString × RecordJSON)) : Prop :=
  ∃ v, LaxText b v ∧ WideIndex pid lastTouched dataDir es v

/-- Of every key the last entry is for a file: key and hash are forty hexadecimal digits. -/
def ForFiles (es : List (GoString × RecordJSON)) : Prop := ∀ k r, LastEntry es k r → IsHashText k ∧ IsHashText r.sha1Hash

end Spec

/-- C139 (accepted texts): what is accepted is a JSON text that describes what was read. -/
theorem C139_accepted (b : Bytes) (j : IndexJSON) (h : goJson.dec b = some j) :
    ∃ es, DescribesIndex b j.pid j.lastTouched j.dataDir es ∧ (j.index.map (·.1)).Nodup ∧ ∀ k r, (k, r) ∈ j.index ↔ LastEntry es k r := by
  obtain ⟨v, es, h1, h2, h3, h4⟩ := Json.decode_lax h
  exact ⟨es, ⟨v, h1, h2⟩, h3, h4⟩

/-- A hash that was read from text. -/
theorem fromString_hash {s : GoString} {h : Sha1Hash} {u : Unit} (e : Sha1Hash.zero.fromStringSafe s = (.ok u, h)) : IsHashText s ∧ s.map lower = h.toString := by
  rcases C21_accepts Sha1Hash.zero s with ⟨h1, h2, h3⟩ | ⟨h1, ⟨e', h2⟩, h3⟩
  · rw [e] at h3; exact ⟨h1, h3.symm⟩
  · rw [e] at h2; cases h2

theorem fromJSON_ok {j : RecordJSON} {r : Record} (h : j.fromJSON = .ok r) :
    IsHashText j.sha1Hash ∧ j.sha1Hash.map lower = r.sha1Hash.toString ∧ r.filePath = j.filePath ∧ r.sizeInBytes = j.sizeInBytes ∧ r.chunkSize = j.chunkSize := by
  unfold RecordJSON.fromJSON at h
  split at h
  · rename_i u hh he
    cases h
    obtain ⟨h1, h2⟩ := fromString_hash he
    exact ⟨h1, h2, rfl, rfl, rfl⟩
  · cases h

/-- What the loop over the entries makes of them. -/
theorem indexFromJSON_ok : ∀ (l : List (GoString × RecordJSON)) (m m' : List (Sha1Hash × Record)), indexFromJSON l m = .ok m' →
    (∀ e ∈ l, IsHashText e.1 ∧ IsHashText e.2.sha1Hash) ∧
    (∀ h r, mapGet m' h = some r → mapGet m h = some r ∨ ∃ e ∈ l, e.1.map lower = h.toString ∧ e.2.fromJSON = .ok r) ∧
    (∀ h, (mapGet m h ≠ none ∨ ∃ e ∈ l, e.1.map lower = h.toString) → mapGet m' h ≠ none)
  | [], m, m', h => by
    cases h
    refine ⟨by simp, fun _ _ h => .inl h, ?_⟩
    rintro h (h1 | ⟨_, h1, _⟩)
    · exact h1
    · cases h1
  | (str, rec) :: l, m, m', h => by
    rw [indexFromJSON] at h
    split at h
    · rename_i u hh he
      obtain ⟨k1, k2⟩ := fromString_hash he
      cases hf : rec.fromJSON with
      | ok r0 =>
        rw [hf] at h
        obtain ⟨i1, i2, i3⟩ := indexFromJSON_ok l _ m' h
        obtain ⟨j1, -⟩ := fromJSON_ok hf
        refine ⟨?_, ?_, ?_⟩
        · intro e he
          rcases List.mem_cons.1 he with rfl | he
          · exact ⟨k1, j1⟩
          · exact i1 e he
        · intro g r hg
          rcases i2 g r hg with h1 | ⟨e, h1, h2⟩
          · rw [mapGet_put] at h1
            split at h1
            · rename_i hgg
              injection h1 with h1
              subst hgg h1
              exact .inr ⟨(str, rec), by simp, k2, hf⟩
            · exact .inl h1
          · exact .inr ⟨e, by simp [h1], h2⟩
        · intro g hg
          apply i3
          by_cases hgg : hh = g
          · left; rw [mapGet_put, if_pos hgg]; simp
          · rcases hg with hg | ⟨e, h1, h2⟩
            · left; rw [mapGet_put, if_neg hgg]; exact hg
            · rcases List.mem_cons.1 h1 with rfl | h1
              · exact absurd (toString_inj _ _ (k2.symm.trans h2)) hgg
              · exact .inr ⟨e, h1, h2⟩
      | _ => rw [hf] at h; cases h
    · cases h

/-- Reading the progress does not fail for want of the file in the catalogue. -/
theorem viewProgress_found (d : Path) (fs : FS) (r : Record) : viewProgress d fs r ≠ .err .fileNotFound := by
  unfold viewProgress
  split
  · intro h; cases h
  · split
    · intro h; cases h
    · rename_i data _
      intro h
      cases hd : Bitset.deserialize data with
      | err e =>
        rw [hd] at h
        cases h
        unfold Bitset.deserialize at hd
        split at hd
        · cases hd
        · simp only at hd
          split at hd <;> cases hd
      | _ => rw [hd] at h; cases h

/-- The loop over entries that are all for files. -/
theorem indexFromJSON_all : ∀ (l : List (GoString × RecordJSON)) (m : List (Sha1Hash × Record)), (∀ e ∈ l, IsHashText e.1 ∧ IsHashText e.2.sha1Hash) →
    ∃ m', indexFromJSON l m = .ok m'
  | [], m, _ => ⟨m, rfl⟩
  | (str, rec) :: l, m, hl => by
    obtain ⟨h1, h2⟩ := hl (str, rec) (by simp)
    rw [indexFromJSON]
    have key : ∀ s, IsHashText s → ∃ h, Sha1Hash.zero.fromStringSafe s = (.ok (), h) := by
      intro s hs
      rcases C21_accepts Sha1Hash.zero s with ⟨-, g, -⟩ | ⟨g, -⟩
      · rcases he : Sha1Hash.zero.fromStringSafe s with ⟨a, h⟩
        rw [he] at g
        exact ⟨h, by rw [show a = _ from g]⟩
      · exact absurd hs g
    obtain ⟨h, e1⟩ := key _ h1
    obtain ⟨g, e2⟩ := key _ h2
    have e3 : rec.fromJSON = .ok { filePath := rec.filePath, sizeInBytes := rec.sizeInBytes, sha1Hash := g, progressFile := none, chunkSize := rec.chunkSize } := by
      unfold RecordJSON.fromJSON; rw [e2]
    rw [e1, e3]
    exact indexFromJSON_all l _ (fun e he => hl e (by simp [he]))

section
variable {env : Env} {d : Path}

/-- Starting on a file that is there: nothing is written, and success means that the file could be read. -/
theorem s_init_present {b : Bytes} {fs0 : FS} (hb : fs0 (indexPath d) = some b) :
    Triple (fun c fs => c.dataDir = d ∧ fs = fs0) (Cat.init env)
      (fun _ c fs => (c.dataDir = d ∧ fs = fs0) ∧ ∃ ind, unmarshalIndex env b = .ok ind ∧ c.indexFile = some ind) (fun _ fs => fs = fs0) := by
  have base : ∀ (c : Cat) (fs : FS), (c.dataDir = d ∧ fs = fs0) → fs = fs0 := fun _ _ h => h.2
  refine Triple.bind Triple.getCat ?_
  intro cat
  refine Triple.bind (Q := fun _ c fs => (c.dataDir = d ∧ fs = fs0) ∧ cat.dataDir = d) (Triple.setIndex _ ?_) ?_
  · rintro c fs ⟨⟨h1, h2⟩, rfl⟩; exact ⟨⟨h1, h2⟩, h1⟩
  intro _
  apply Triple.facts
  intro hcd
  rw [hcd]
  refine Triple.bind (Triple.osTouch base) ?_
  intro _
  refine Triple.bind (Triple.osTouch base) ?_
  intro _
  refine Triple.bind (Triple.osStat _ base) ?_
  intro o
  cases o with
  | some _ =>
    refine (Triple.bind (Triple.osReadFile _ base) ?_ : Triple (fun c fs => c.dataDir = d ∧ fs = fs0) (do
      let data ← osReadFile (indexPath d)
      let ind ← IOM.lift (unmarshalIndex env data)
      setIndex ind) _ (fun _ fs => fs = fs0)).pre (fun _ _ h => h.1)
    intro data
    refine Triple.bind (Q := fun ind c fs => (c.dataDir = d ∧ fs = fs0) ∧ unmarshalIndex env b = .ok ind) (Triple.lift _ ?_ (fun c fs h => h.1.2)) ?_
    · rintro ind hu c fs ⟨⟨h1, rfl⟩, hf⟩
      rw [hb] at hf; cases hf
      exact ⟨⟨h1, rfl⟩, hu⟩
    · intro ind
      refine Triple.setIndex _ ?_
      rintro c fs ⟨⟨h1, h2⟩, h3⟩
      exact ⟨⟨h1, h2⟩, ind, h3, rfl⟩
  | none =>
    rintro s ⟨⟨-, h1⟩, h2⟩
    rw [h1, hb] at h2
    cases h2

theorem unmarshal_described (hj : env.json = goJson) {b : Bytes} {ind : IndexFile} (h : unmarshalIndex env b = .ok ind) :
    ∃ es, DescribesIndex b ind.pid ind.lastTouched ind.dataDir es ∧ ForFiles es ∧
      (∀ g r, mapGet ind.index g = some r → ∃ k j, LastEntry es k j ∧ k.map lower = g.toString ∧ j.fromJSON = .ok r) ∧
      (∀ g k j, LastEntry es k j → k.map lower = g.toString → mapGet ind.index g ≠ none) := by
  unfold unmarshalIndex at h
  rw [hj] at h
  split at h
  · cases h
  · rename_i j hdec
    obtain ⟨es, h1, -, h3⟩ := C139_accepted b j hdec
    cases hi : indexFromJSON j.index [] with
    | ok m =>
      rw [hi] at h
      cases h
      obtain ⟨i1, i2, i3⟩ := indexFromJSON_ok _ _ _ hi
      refine ⟨es, h1, fun k r hl => i1 (k, r) ((h3 k r).2 hl), ?_, ?_⟩
      · intro g r hg
        rcases i2 g r hg with h | ⟨⟨k, j'⟩, h4, h5, h6⟩
        · cases h
        · exact ⟨k, j', (h3 k j').1 h4, h5, h6⟩
      · intro g k j' hl hk
        exact i3 g (.inr ⟨(k, j'), (h3 k j').2 hl, hk⟩)
    | _ => rw [hi] at h; cases h

/-- C139 (refusing): if the index file is anything but a JSON text of an index whose entries are for files, the daemon does not start, and the file stays as it is;
whatever the disk does. -/
theorem C139_refused (hj : env.json = goJson) {b : Bytes} {fs : FS} (hb : fs (indexPath d) = some b)
    (hbad : ∀ pid lastTouched dataDir es, DescribesIndex b pid lastTouched dataDir es → ¬ ForFiles es) (dl : Path) (oi : Option IndexFile) (fl : List Fault) :
    (∀ s', Cat.init env ⟨⟨d, dl, oi⟩, fs, fl⟩ ≠ (.ok (), s')) ∧ (Cat.init env ⟨⟨d, dl, oi⟩, fs, fl⟩).2.fs = fs := by
  obtain ⟨h1, h2⟩ := s_init_present (env := env) hb ⟨⟨d, dl, oi⟩, fs, fl⟩ ⟨rfl, rfl⟩
  have key : ∀ s', Cat.init env ⟨⟨d, dl, oi⟩, fs, fl⟩ ≠ (.ok (), s') := by
    intro s' hrun
    obtain ⟨-, ind, hu, -⟩ := h1 _ _ hrun
    obtain ⟨es, g1, g2, -⟩ := unmarshal_described hj hu
    exact hbad _ _ _ _ g1 g2
  refine ⟨key, ?_⟩
  rcases hrun : Cat.init env ⟨⟨d, dl, oi⟩, fs, fl⟩ with ⟨r, s'⟩
  cases r with
  | ok x => exact absurd hrun (key s')
  | _ => exact h2 _ s' hrun (fun _ h => by cases h)

/-- C139 (listing): a daemon that starts on an index file shows what the text of that file describes, and nothing else; the file stays as it is. -/
theorem C139_listed (hj : env.json = goJson) {b : Bytes} {fs : FS} (hb : fs (indexPath d) = some b) (dl : Path) (oi : Option IndexFile) (fl : List Fault) (s' : St)
    (hrun : Cat.init env ⟨⟨d, dl, oi⟩, fs, fl⟩ = (.ok (), s')) :
    s'.fs = fs ∧ ∃ pid lastTouched dataDir es, DescribesIndex b pid lastTouched dataDir es ∧ ForFiles es ∧
      (∀ h e, observe s'.cat s'.fs h = .ok e → ∃ k r, LastEntry es k r ∧ k.map lower = h.toString ∧ r.sha1Hash.map lower = e.sha1Hash.toString ∧ e.filePath = r.filePath ∧
        e.sizeInBytes = r.sizeInBytes ∧ e.chunkSize = r.chunkSize) ∧
      (∀ h, observe s'.cat s'.fs h = .err .fileNotFound → ∀ k r, LastEntry es k r → k.map lower ≠ h.toString) := by
  obtain ⟨h1, -⟩ := s_init_present (env := env) hb ⟨⟨d, dl, oi⟩, fs, fl⟩ ⟨rfl, rfl⟩
  obtain ⟨⟨hd, hfs⟩, ind, hu, hc⟩ := h1 _ _ hrun
  obtain ⟨es, g1, g2, g3, g4⟩ := unmarshal_described hj hu
  refine ⟨hfs, _, _, _, es, g1, g2, ?_, ?_⟩
  · intro h e ho
    rcases hcat : s'.cat with ⟨d', dl', oi'⟩
    rw [hcat] at hc ho
    simp only at hc
    subst hc
    rw [observe_eq] at ho
    unfold obsRec at ho
    cases hm : mapGet ind.index h with
    | none => rw [hm] at ho; cases ho
    | some r =>
      rw [hm] at ho
      simp only at ho
      obtain ⟨k, j, k1, k2, k3⟩ := g3 h r hm
      obtain ⟨-, j2, j3, j4, j5⟩ := fromJSON_ok k3
      cases hv : viewProgress d' s'.fs r with
      | ok p =>
        rw [hv] at ho
        cases ho
        exact ⟨k, j, k1, k2, j2, j3, j4, j5⟩
      | _ => rw [hv] at ho; cases ho
  · intro h ho k r hl hk
    rcases hcat : s'.cat with ⟨d', dl', oi'⟩
    rw [hcat] at hc ho
    simp only at hc
    subst hc
    rw [observe_eq] at ho
    unfold obsRec at ho
    cases hm : mapGet ind.index h with
    | none => exact g4 h k r hl hk hm
    | some r' =>
      rw [hm] at ho
      simp only at ho
      cases hv : viewProgress d' s'.fs r' with
      | err e => rw [hv] at ho; cases ho; exact viewProgress_found _ _ _ hv
      | _ => rw [hv] at ho; cases ho

/-- C139 (starting): on a JSON text of an index whose entries are for files the daemon starts, whoever wrote it, if the disk works. -/
theorem C139_starts (hj : env.json = goJson) {b : Bytes} {fs : FS} (hb : fs (indexPath d) = some b) {pid lastTouched : Int} {dataDir : GoString}
    {es : List (GoString × RecordJSON)} (hd : DescribesIndex b pid lastTouched dataDir es) (hf : ForFiles es) (dl : Path) (oi : Option IndexFile) :
    ∃ s', Cat.init env ⟨⟨d, dl, oi⟩, fs, []⟩ = (.ok (), s') := by
  obtain ⟨v, ht, hv⟩ := hd
  obtain ⟨idx, h1, -, h3⟩ := Json.decode_laxText ht hv
  have h1 : goJson.dec b = _ := h1
  obtain ⟨m, h4⟩ := indexFromJSON_all idx [] (fun e he => hf e.1 e.2 ((h3 e.1 e.2).1 he))
  have hu : unmarshalIndex env b = .ok ⟨pid, lastTouched, m, dataDir⟩ := by
    unfold unmarshalIndex
    rw [hj, h1]
    simp only
    rw [h4]
    rfl
  unfold Cat.init
  simp only [IOM.bind_apply, getCat_apply, setIndex_eval, osTouch_nil, osStat_nil, hb, Option.map_some, IOM.pure_apply, osReadFile_nil, IOM.lift_apply, hu]
  exact ⟨_, rfl⟩

/-- C139: on a working disk the daemon starts just on the texts of an index whose entries are for files. -/
theorem C139_exact (hj : env.json = goJson) {b : Bytes} {fs : FS} (hb : fs (indexPath d) = some b) (dl : Path) (oi : Option IndexFile) :
    (∃ s', Cat.init env ⟨⟨d, dl, oi⟩, fs, []⟩ = (.ok (), s')) ↔ ∃ pid lastTouched dataDir es, DescribesIndex b pid lastTouched dataDir es ∧ ForFiles es := by
  constructor
  · rintro ⟨s', h⟩
    obtain ⟨-, pid, t, dir, es, h1, h2, -⟩ := C139_listed hj hb dl oi [] s' h
    exact ⟨pid, t, dir, es, h1, h2⟩
  · rintro ⟨pid, t, dir, es, h1, h2⟩
    exact C139_starts hj hb h1 h2 dl oi

end

theorem numText_nonempty {b : Bytes} (h : NumText b) : b ≠ [] := by
  obtain ⟨sg, int, fr, ex, e, -, ⟨n, hd⟩, -⟩ := h
  obtain ⟨h1, -, -⟩ := Json.decText_digits hd
  intro hb
  rw [hb] at e
  have := List.append_eq_nil_iff.1 e.symm
  exact h1 (List.append_eq_nil_iff.1 this.2).1

theorem laxVal_nonempty {n : Nat} {v : Json.JVal} : ¬ LaxVal n [] v := by
  have key : ¬ LaxAtom [] v := by
    intro h
    generalize hb : ([] : Bytes) = b at h
    cases h with
    | num h => exact numText_nonempty h hb.symm
    | _ => cases hb
  cases n with
  | zero => exact key
  | succ n =>
    rintro (h | ⟨_, _, h, _⟩ | ⟨_, _, _, h, _⟩ | ⟨_, _, h, _⟩ | ⟨_, _, _, h, _⟩)
    · exact key h
    all_goals cases h

/-- The hypotheses of `C139_refused` can be met: an empty index file, as a full disk leaves it, is no index. -/
example (pid lastTouched : Int) (dataDir : GoString) (es : List (GoString × RecordJSON)) : ¬ DescribesIndex [] pid lastTouched dataDir es := by
  rintro ⟨v, ⟨w, b, w', -, hv, -, h⟩, -⟩
  have := List.append_eq_nil_iff.1 h.symm
  rw [(List.append_eq_nil_iff.1 this.2).1] at hv
  exact laxVal_nonempty hv

/-- … and so is an index with an entry that is not for a file. -/
example (es : List (GoString × RecordJSON)) (r : RecordJSON) (hes : es = [([97, 98, 99], r)]) : ¬ ForFiles es := by
  intro h
  have := (h [97, 98, 99] r ⟨[], [], hes, by simp⟩).1.1
  cases this

/-- The hypotheses of `C139_listed` and of `C139_starts` can be met: a text with white space and `null` for everything. -/
example (env : Env) (hj : env.json = goJson) (d dl : Path) (fs : FS) :
    ∃ s', DescribesIndex [32, 110, 117, 108, 108, 10] 0 0 [] [] ∧ ForFiles [] ∧ Cat.init env ⟨⟨d, dl, none⟩, fs.put (indexPath d) (some [32, 110, 117, 108, 108, 10]), []⟩ = (.ok (), s') := by
  have h1 : DescribesIndex [32, 110, 117, 108, 108, 10] 0 0 [] [] := by
    refine ⟨.null, ⟨[32], [110, 117, 108, 108], [10], ?_, .inl .null, ?_, rfl⟩, .inl ⟨rfl, rfl, rfl, rfl, rfl⟩⟩
    · intro c hc; simp only [List.mem_singleton] at hc; exact .inl hc
    · intro c hc; simp only [List.mem_singleton] at hc; exact .inr (.inr (.inl hc))
  have hf : ForFiles [] := by rintro k r ⟨a, b, h, -⟩; cases a <;> cases h
  obtain ⟨s', h3⟩ := C139_starts (env := env) hj (FS.put_same fs (indexPath d) _) h1 hf dl none
  exact ⟨s', h1, hf, h3⟩

/-- A text with a record, whose path is written with a byte that is not UTF-8. -/
example : LaxStr [47, 255] [47, 0xEF, 0xBF, 0xBD] := by
  refine LaxStr.char 47 ⟨by omega, by omega⟩ (by omega) (by omega) (by omega) (LaxStr.bad 255 (by decide) ?_ .nil)
  intro x t hx e
  have := (runeLen_utf8 x hx t).1
  rw [← e] at this
  have h2 := (runeLen_utf8 x hx t).2
  rw [← this] at h2
  exact absurd h2 (by decide)

end Flu
