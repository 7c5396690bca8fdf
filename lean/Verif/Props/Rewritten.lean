import Verif.Lemmas.JsonWritten
import Verif.Props.Catalogue2
/-!
# An index file that another program has written (C100)

The index is a JSON file in the data directory.  Other programs (an editor, a backup tool, `jq`) may write it anew: with other white space, other order of the members,
other escapes, further members.  The grammar is in `Spec/JsonText`.
-/
namespace Flu

/-- C100 (reading): every JSON text that describes an index is read as that index; of several entries for the same hash the last one counts. -/
theorem C100_reads (b : Bytes) (v : Json.JVal) (pid lastTouched : Int) (dataDir : GoString) (es : List (GoString × RecordJSON)) (hb : Spec.JsonText b v)
    (hv : Spec.IsIndex pid lastTouched dataDir es v) :
    ∃ idx, goJson.dec b = some ⟨pid, lastTouched, idx, dataDir⟩ ∧ (idx.map (·.1)).Nodup ∧ ∀ k r, (k, r) ∈ idx ↔ Spec.LastEntry es k r :=
  Json.decode_text hb hv

/-- C100 (writing): what the daemon writes is a JSON text that describes its index, so other programs can read it. -/
theorem C100_writes (j : IndexJSON) (h1 : Json.Int64 j.pid) (h2 : Json.Int64 j.lastTouched) (h3 : ∀ e ∈ j.index, Json.Int64 e.2.sizeInBytes ∧ Json.Int64 e.2.chunkSize) :
    ∃ v es, Spec.JsonText (goJson.enc j) v ∧ Spec.IsIndex j.pid j.lastTouched (goJson.fix j.dataDir) es v ∧
      es.Perm (j.index.map (fun e => (goJson.fix e.1, e.2.fixed goJson.fix))) :=
  ⟨_, _, Json.jsonText_encode j, Json.isIndex_enc j h1 h2 h3, (List.mergeSort_perm _ _).map _⟩

theorem perm_of_mem {α : Type} : ∀ (l m : List α), l.Nodup → m.Nodup → (∀ a, a ∈ l ↔ a ∈ m) → l.Perm m
  | [], m, _, _, h => by
    rcases m with _ | ⟨a, m⟩
    · exact .nil
    · exact absurd ((h a).2 (by simp)) (by simp)
  | a :: l, m, hl, hm, h => by
    obtain ⟨s, t, rfl⟩ := List.append_of_mem ((h a).1 (by simp))
    rw [List.nodup_cons] at hl
    have hp : (s ++ a :: t).Perm (a :: (s ++ t)) := List.perm_middle
    have hm' := hp.nodup_iff.1 hm
    rw [List.nodup_cons] at hm'
    refine (List.Perm.cons a (perm_of_mem l (s ++ t) hl.2 hm'.2 (fun x => ?_))).trans hp.symm
    have hx := h x
    rw [hp.mem_iff, List.mem_cons, List.mem_cons] at hx
    constructor
    · intro hxl
      rcases hx.1 (.inr hxl) with rfl | h'
      · exact absurd hxl hl.1
      · exact h'
    · intro hxs
      rcases hx.2 (.inr hxs) with rfl | h'
      · exact absurd hxs hm'.1
      · exact h'

theorem nodup_of_keys {α β : Type} (l : List (α × β)) (h : (l.map (·.1)).Nodup) : l.Nodup := by
  unfold List.Nodup at h ⊢
  rw [List.pairwise_map] at h
  exact h.imp (fun hab e => hab (by rw [e]))

/-- Reading an index with the same entries in any order. -/
theorem unmarshal_perm (env : Env) (ind : IndexFile) (hn : (ind.index.map (·.1)).Nodup) (b : Bytes) (l : List (GoString × RecordJSON))
    (h1 : env.json.dec b = some ⟨ind.pid, ind.lastTouched, l, env.json.fix ind.dataDir⟩) (h2 : l.Perm (ind.toJSON.index.map (fun e => (e.1, e.2.fixed env.json.fix)))) :
    ∃ m, unmarshalIndex env b = .ok { pid := ind.pid, lastTouched := ind.lastTouched, index := m, dataDir := env.json.fix ind.dataDir } ∧
      (m.map (·.1)).Nodup ∧ ∀ h, mapGet m h = (mapGet ind.index h).map (Record.reloaded env.json.fix) := by
  have h3 : ind.toJSON.index.map (fun e => (e.1, e.2.fixed env.json.fix)) =
      ind.index.map (fun e => (e.1.toString, e.2.toJSON.fixed env.json.fix)) := by
    simp [IndexFile.toJSON, List.map_map, Function.comp_def]
  rw [h3] at h2
  obtain ⟨X', hp, he⟩ := perm_map_inv _ _ _ h2 ind.index rfl
  have hnX : (X'.map (·.1)).Nodup := (hp.map _).nodup_iff.2 hn
  refine ⟨X'.foldl (fun m e => mapPut m e.1 (e.2.reloaded env.json.fix)) [], ?_, ?_, ?_⟩
  · unfold unmarshalIndex
    rw [h1]
    simp only
    rw [he, indexFromJSON_map, Res.bind_ok]
    rfl
  · exact nodup_foldl (Record.reloaded env.json.fix) X' [] (by simp)
  · intro h
    rw [mapGet_foldl (Record.reloaded env.json.fix) X' [] hnX, mapGet_perm X' ind.index hp hn]
    simp [mapGet_nil]

section
variable {env : Env} {d dl : Path} {c : Cat} {fs : FS}

/-- C100: while the daemon is not running, another program replaces the index file by another JSON text that describes the same index.  The daemon starts on it, leaves
it alone, and shows everything as it would after a plain restart (compare C30). -/
theorem C100_restart (hj : env.json = goJson) (hh : Healthy env d) (hr : CleanReach env d dl (.running c fs)) {b b' : Bytes} {v v' : Json.JVal} {pid lastTouched : Int}
    {dataDir : GoString} {es es' : List (GoString × RecordJSON)} (hf : fs (indexPath d) = some b) (hb : Spec.JsonText b v) (hv : Spec.IsIndex pid lastTouched dataDir es v)
    (hb' : Spec.JsonText b' v') (hv' : Spec.IsIndex pid lastTouched dataDir es' v') (hes : ∀ k r, Spec.LastEntry es k r ↔ Spec.LastEntry es' k r) (pid' now' : Int) :
    ∃ c', Cat.init { env with pid := pid', now := now' } ⟨⟨d, dl, none⟩, fs.put (indexPath d) (some b'), []⟩ = (.ok (), ⟨c', fs.put (indexPath d) (some b'), []⟩) ∧
      ∀ h, (observe c fs h = .err .fileNotFound ∧ observe c' (fs.put (indexPath d) (some b')) h = .err .fileNotFound) ∨
        ∃ e, observe c fs h = .ok e ∧ observe c' (fs.put (indexPath d) (some b')) h = .ok (e.refix goJson.fix) := by
  obtain ⟨ind, rfl, hs⟩ := hr.sync hh.abs hh.utf8
  obtain ⟨ind0, hw, h2, h3⟩ := hs.index
  rw [hf] at h2
  cases h2
  -- the two texts have the same entries
  obtain ⟨idx, i1, i2, i3⟩ := C100_reads _ _ _ _ _ _ hb hv
  obtain ⟨idx', j1, j2, j3⟩ := C100_reads _ _ _ _ _ _ hb' hv'
  obtain ⟨l, g1, g2⟩ := env.json.dec_enc ind0.toJSON
    (by
      intro e he
      simp only [IndexFile.toJSON, List.mem_map] at he
      obtain ⟨x, _, rfl⟩ := he
      exact isAscii_toString _)
    (by
      have : ind0.toJSON.index.map (·.1) = (ind0.index.map (·.1)).map Sha1Hash.toString := by
        simp [IndexFile.toJSON, List.map_map, Function.comp_def]
      rw [this]
      have hn := hw.nodup
      unfold List.Nodup at hn ⊢
      rw [List.pairwise_map]
      exact hn.imp (fun hab e => hab (toString_inj _ _ e)))
  rw [← hj, g1] at i1
  injection i1 with i1
  injection i1 with e1 e2 e3 e4
  subst e3
  have hp : idx'.Perm l := perm_of_mem _ _ (nodup_of_keys _ j2) (nodup_of_keys _ i2) (fun x => by
    obtain ⟨k, r⟩ := x
    rw [j3, i3]; exact (hes k r).symm)
  rw [← hj, ← e1, ← e2, ← e4] at j1
  obtain ⟨m, m1, m2, m3⟩ := unmarshal_perm { env with pid := pid', now := now' } ind0 hw.nodup b' idx' j1 (hp.trans g2)
  have hinit : Cat.init { env with pid := pid', now := now' } ⟨⟨d, dl, none⟩, fs.put (indexPath d) (some b'), []⟩ =
      (.ok (), ⟨⟨d, dl, some ⟨ind0.pid, ind0.lastTouched, m, env.json.fix ind0.dataDir⟩⟩, fs.put (indexPath d) (some b'), []⟩) := by
    unfold Cat.init
    simp only [IOM.bind_apply, getCat_apply, setIndex_eval, osTouch_nil, osStat_nil, FS.put_same, Option.map_some, IOM.pure_apply, osReadFile_nil, IOM.lift_apply, m1]
  refine ⟨_, hinit, fun h => ?_⟩
  have hget : mapGet m h = (mapGet ind.index h).map (Record.reloaded env.json.fix) := (m3 h).trans (h3 h)
  rw [observe_eq, observe_eq]
  unfold obsRec
  simp only
  rw [hget]
  rcases hm : mapGet ind.index h with _ | r
  · exact .inl ⟨rfl, rfl⟩
  refine .inr ?_
  obtain ⟨p, h4, h5, -⟩ := hs.prog h r hm
  simp only [Option.map_some]
  have hne : progressPath d r.sha1Hash ≠ indexPath d := fun e => indexPath_ne_progressPath d d hh.abs hh.abs _ e.symm
  have h6 : viewProgress d (fs.put (indexPath d) (some b')) (Record.reloaded env.json.fix r) = .ok p := by
    exact (viewProgress_fs d fs _ (Record.reloaded env.json.fix r) (FS.put_other _ _ _ _ hne)).trans h5
  rw [h4, h6, ← hj]
  exact ⟨_, rfl, rfl⟩

end

/-- The index of a new data directory as another program may write it: white space, the members in another order and in another case, and one more member. -/
def exRewritten (p t : Int) (dir : GoString) : Bytes :=
  Json.ascii "{ " ++ Json.encField "index" (Json.ascii "{ }") ++ 44 :: (Json.encField "comment" (Json.ascii "[]") ++ 44 :: (Json.encField "dataDir" (Json.encStr dir) ++ 44 ::
    (Json.encField "lastTouched" (Json.encInt t) ++ 44 :: (Json.encField "PID" (Json.encInt p) ++ Json.ascii " }\n"))))

theorem exRewritten_text (p t : Int) (dir : GoString) (hp : Json.Int64 p) (ht : Json.Int64 t) (hd : goJson.fix dir = dir) :
    ∃ v, Spec.JsonText (exRewritten p t dir) v ∧ Spec.IsIndex p t dir [] v := by
  have ws1 : Spec.JWs [32] := by intro c hc; simp only [List.mem_singleton] at hc; exact .inl hc
  have h5 := Spec.MembersText.one (V := Spec.ValText 9999) Json.ws_nil (Json.strText_name (Json.ascii "PID") (by decide)) Json.ws_nil Json.ws_nil (Json.valText_int 9999 p) ws1
  have h4 := Json.members_next (V := Spec.ValText 9999) "lastTouched" (by decide) (Json.valText_int 9999 t) h5
  have h3 := Json.members_next (V := Spec.ValText 9999) "dataDir" (by decide) (Json.valText_str 9999 dir) h4
  have h2 := Json.members_next (V := Spec.ValText (9998 + 1)) "comment" (by decide) (b := [91, 93]) (v := .arr []) (.inr (.inl ⟨[], Json.ws_nil, rfl, rfl⟩)) h3
  have h1 := Spec.MembersText.more (V := Spec.ValText (9998 + 1)) ws1 (Json.strText_name (Json.ascii "index") (by decide)) Json.ws_nil Json.ws_nil (b := [123, 32, 125]) (v := .obj [])
    (.inr (.inr (.inr (.inl ⟨[32], ws1, rfl, rfl⟩)))) Json.ws_nil h2
  have hfix : Json.fix dir = dir := hd
  rw [hfix] at h1
  refine ⟨.obj _, ⟨[], _, [10], Json.ws_nil, .inr (.inr (.inr (.inr ⟨_, _, h1, rfl, rfl⟩))), ?_, ?_⟩, .inr ⟨_, rfl, ?_, ?_, ?_, ?_⟩⟩
  · intro c hc; simp only [List.mem_singleton] at hc; exact .inr (.inr (.inl hc))
  · simp [exRewritten, Json.ascii, Json.encField]
  · exact Json.once_at [_, _, _, _] _ _ _ (Json.sameName_dec (by decide)) (Json.isInt_enc hp 0) (Json.others_dec (by simp only [List.cons_append, List.nil_append, List.append_nil, List.map_cons, List.map_nil]; decide))
  · exact Json.once_at [_, _, _] _ _ _ (Json.sameName_dec (by decide)) (Json.isInt_enc ht 0) (Json.others_dec (by simp only [List.cons_append, List.nil_append, List.map_cons, List.map_nil]; decide))
  · exact Json.once_at [] _ _ _ (Json.sameName_dec (by decide)) (.inr ⟨[], [], rfl, .nil, rfl⟩) (Json.others_dec (by simp only [List.cons_append, List.nil_append, List.map_cons, List.map_nil]; decide))
  · exact Json.once_at [_, _] _ _ _ (Json.sameName_dec (by decide)) (.inr rfl) (Json.others_dec (by simp only [List.cons_append, List.nil_append, List.map_cons, List.map_nil]; decide))

/-- The hypotheses of `C100_restart` can be met: a new data directory whose index another program has written anew. -/
example (sha1 : Bytes → Sha1Hash) (fs : FS) (hf : ∀ p, CatFile exDir p → fs p = none) : ∃ c fs' b v pid t es v', CleanReach (exEnv sha1 goJson) exDir exDown (.running c fs') ∧
    fs' (indexPath exDir) = some b ∧ Spec.JsonText b v ∧ Spec.IsIndex pid t exDir es v ∧ Spec.JsonText (exRewritten pid t exDir) v' ∧
    Spec.IsIndex pid t exDir [] v' ∧ (∀ k r, Spec.LastEntry es k r ↔ Spec.LastEntry [] k r) ∧ exRewritten pid t exDir ≠ b := by
  have hh := ex_healthy sha1 goJson
  have h0 := CleanReach.fresh (exEnv sha1 goJson) exDir exDown hh.utf8 fs hf
  have hp : Json.Int64 (exEnv sha1 goJson).pid := by constructor <;> (dsimp only [exEnv]; decide)
  have ht : Json.Int64 (exEnv sha1 goJson).now := by constructor <;> (dsimp only [exEnv]; decide)
  have hd : goJson.fix exDir = exDir := hh.utf8
  obtain ⟨v', h1, h2⟩ := exRewritten_text _ _ exDir hp ht hd
  obtain ⟨v, es, g1, g2, g3⟩ := C100_writes (freshIdx (exEnv sha1 goJson) exDir).toJSON hp ht (fun e he => by cases he)
  have : es = [] := List.Perm.eq_nil g3
  subst this
  have g2' : Spec.IsIndex (exEnv sha1 goJson).pid (exEnv sha1 goJson).now (goJson.fix exDir) [] v := g2
  rw [hd] at g2'
  refine ⟨_, _, _, v, _, _, [], v', h0, FS.put_same _ _ _, g1, g2', h1, h2, fun k r => Iff.rfl, ?_⟩
  intro h
  have := congrArg (fun b : Bytes => (b.drop 1).head?) h
  have h3 : ((goJson.enc (freshIdx (exEnv sha1 goJson) exDir).toJSON).drop 1).head? = some 34 := by simp [goJson, Json.encode, Json.encField]
  have h4 : ((exRewritten (exEnv sha1 goJson).pid (exEnv sha1 goJson).now exDir).drop 1).head? = some 32 := by simp [exRewritten, Json.ascii]
  have h5 := (h4.symm.trans this).trans h3
  cases h5

/-- Two entries for the same hash: the last one counts. -/
example (k : GoString) (r1 r2 : RecordJSON) (r : RecordJSON) : Spec.LastEntry [(k, r1), (k, r2)] k r ↔ r = r2 := by
  constructor
  · rintro ⟨a, b, h, h1⟩
    rcases a with _ | ⟨x, _ | ⟨y, a⟩⟩
    · injection h with h2 h3
      subst h3
      exact absurd rfl (h1 (k, r2) (by simp))
    · injection h with h2 h3
      injection h3 with h4 h5
      injection h4 with h6 h7
      exact h7.symm
    · injection h with h2 h3
      injection h3 with h4 h5
      cases a <;> cases h5
  · rintro rfl
    exact ⟨[(k, r1)], [], rfl, by simp⟩

/-- Spellings of a name that count as the same: other case, `ſ` for `s`, the Kelvin sign for `k`. -/
example : Spec.SameName "ChunkSize" (Json.ascii "chunksIZE") ∧ Spec.SameName "ChunkSize" (Json.ascii "chun" ++ [0xE2, 0x84, 0xAA, 0xC5, 0xBF] ++ Json.ascii "ize") ∧
    ¬ Spec.SameName "ChunkSize" (Json.ascii "ChunkSizes") :=
  ⟨Json.sameName_dec (by decide), Json.sameName_dec (by decide), Json.others_dec (ks := [Json.ascii "ChunkSizes"]) (by decide) _ (by simp)⟩

/-- Members that are missing or `null` leave the zero value. -/
example : Spec.IsRecord ⟨[97], 0, [], 0⟩ (.obj [(Json.ascii "filepath", .str [97]), (Json.ascii "FILEPATH", .null), (Json.ascii "ChunkSize", .null)]) :=
  .inr ⟨_, rfl,
    .take (Json.sameName_dec (by decide)) (.inr rfl) (.take (Json.sameName_dec (by decide)) (.inl ⟨rfl, rfl⟩) (Json.member_skip _ _ (Json.others_dec (by decide)))),
    Json.member_skip _ _ (Json.others_dec (by decide)), Json.member_skip _ _ (Json.others_dec (by decide)),
    Json.once_at [_, _] _ _ [] (Json.sameName_dec (by decide)) (.inl ⟨rfl, rfl⟩) (Json.others_dec (by decide))⟩

end Flu
