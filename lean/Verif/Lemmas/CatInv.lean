import Verif.Model.CatSystem
import Verif.Lemmas.CatHoare
import Verif.Lemmas.Bitset2
import Verif.Props.Sha1
/-!
# Invariants of the catalogue under arbitrary faults
-/
namespace Flu

/-! ### Reading back a marshalled index -/

theorem perm_map_inv {α β : Type} (f : α → β) (l l' : List β) (h : l.Perm l') : ∀ X : List α, l' = X.map f → ∃ X' : List α, X'.Perm X ∧ l = X'.map f := by
  induction h with
  | nil => intro X hX; cases X <;> simp_all
  | cons x h ih =>
    intro X hX
    cases X with
    | nil => simp at hX
    | cons y X =>
      simp only [List.map_cons, List.cons.injEq] at hX
      obtain ⟨X', hp, he⟩ := ih X hX.2
      exact ⟨y :: X', hp.cons y, by simp [hX.1, he]⟩
  | swap x y l =>
    intro X hX
    match X with
    | [] => simp at hX
    | [_] => simp at hX
    | a :: b :: X =>
      simp only [List.map_cons, List.cons.injEq] at hX
      exact ⟨b :: a :: X, List.Perm.swap _ _ _, by simp [hX.1, hX.2.1, hX.2.2]⟩
  | trans h1 h2 ih1 ih2 =>
    intro X hX
    obtain ⟨X', hp, he⟩ := ih2 X hX
    obtain ⟨X'', hp', he'⟩ := ih1 X' he
    exact ⟨X'', hp'.trans hp, he'⟩

/-- What is left of a record after saving and reloading the index. -/
def Record.reloaded (fix : GoString → GoString) (r : Record) : Record := { r with filePath := fix r.filePath, progressFile := none }

theorem isAscii_toString (h : Sha1Hash) : isAscii h.toString := by
  intro c hc
  have := hex_encode_mem h.1 c hc
  omega

theorem fromJSON_reloaded (env : Env) (r : Record) :
    (r.toJSON.fixed env.json.fix).fromJSON = .ok (r.reloaded env.json.fix) := by
  unfold RecordJSON.fromJSON RecordJSON.fixed Record.toJSON Record.reloaded
  simp only
  rw [env.json.fix_ascii _ (isAscii_toString _), C21_roundtrip]

theorem indexFromJSON_map (env : Env) (X : List (Sha1Hash × Record)) (m : List (Sha1Hash × Record)) :
    indexFromJSON (X.map (fun e => (e.1.toString, e.2.toJSON.fixed env.json.fix))) m =
      .ok (X.foldl (fun m e => mapPut m e.1 (e.2.reloaded env.json.fix)) m) := by
  induction X generalizing m with
  | nil => rfl
  | cons e X ih =>
    rw [List.map_cons, indexFromJSON, C21_roundtrip]
    simp only
    rw [fromJSON_reloaded, Res.bind_ok, ih, List.foldl_cons]

theorem mapGet_foldl (g : Record → Record) (X : List (Sha1Hash × Record)) (m : List (Sha1Hash × Record)) (hn : (X.map (·.1)).Nodup) (h : Sha1Hash) :
    mapGet (X.foldl (fun m e => mapPut m e.1 (g e.2)) m) h = ((mapGet X h).map g).or (mapGet m h) := by
  induction X generalizing m with
  | nil => simp [mapGet_nil]
  | cons e X ih =>
    simp only [List.map_cons, List.nodup_cons] at hn
    rw [List.foldl_cons, ih _ hn.2, mapGet_cons, mapGet_put]
    by_cases he : e.1 = h
    · subst he
      have : mapGet X e.1 = none := by
        rw [mapGet_eq_none]; intro x hx hk
        exact hn.1 (List.mem_map.2 ⟨x, hx, hk⟩)
      simp [this]
    · simp [he]

theorem nodup_foldl (g : Record → Record) (X : List (Sha1Hash × Record)) (m : List (Sha1Hash × Record)) (hn : (m.map (·.1)).Nodup) :
    ((X.foldl (fun m e => mapPut m e.1 (g e.2)) m).map (·.1)).Nodup := by
  induction X generalizing m with
  | nil => exact hn
  | cons e X ih => exact ih _ (nodup_put m _ _ hn)

theorem mapGet_perm {α : Type} (X Y : List (Sha1Hash × α)) (hp : X.Perm Y) (hn : (Y.map (·.1)).Nodup) (h : Sha1Hash) : mapGet X h = mapGet Y h := by
  have hnX : (X.map (·.1)).Nodup := (hp.map _).nodup_iff.2 hn
  cases hy : mapGet Y h with
  | none =>
    rw [mapGet_eq_none] at hy ⊢
    intro e he; exact hy e (hp.mem_iff.1 he)
  | some v => exact mapGet_of_mem X h v hnX (hp.mem_iff.2 (mapGet_mem Y h v hy))

/-- Reading back an index that was written completely: the same records, paths passed through the JSON string filter, no progress loaded. -/
theorem unmarshal_marshal (env : Env) (ind : IndexFile) (hn : (ind.index.map (·.1)).Nodup) :
    ∃ m, unmarshalIndex env (env.json.enc ind.toJSON) =
        .ok { pid := ind.pid, lastTouched := ind.lastTouched, index := m, dataDir := env.json.fix ind.dataDir } ∧
      (m.map (·.1)).Nodup ∧ ∀ h, mapGet m h = (mapGet ind.index h).map (Record.reloaded env.json.fix) := by
  obtain ⟨l, h1, h2⟩ := env.json.dec_enc ind.toJSON
    (by
      intro e he
      simp only [IndexFile.toJSON, List.mem_map] at he
      obtain ⟨x, _, rfl⟩ := he
      exact isAscii_toString _)
    (by
      have : ind.toJSON.index.map (·.1) = (ind.index.map (·.1)).map Sha1Hash.toString := by
        simp [IndexFile.toJSON, List.map_map, Function.comp_def]
      rw [this]
      unfold List.Nodup at hn ⊢
      rw [List.pairwise_map]
      exact hn.imp (fun hab e => hab (toString_inj _ _ e)))
  have h3 : ind.toJSON.index.map (fun e => (e.1, e.2.fixed env.json.fix)) =
      ind.index.map (fun e => (e.1.toString, e.2.toJSON.fixed env.json.fix)) := by
    simp [IndexFile.toJSON, List.map_map, Function.comp_def]
  rw [h3] at h2
  obtain ⟨X', hp, he⟩ := perm_map_inv _ _ _ h2 ind.index rfl
  have hnX : (X'.map (·.1)).Nodup := (hp.map _).nodup_iff.2 hn
  refine ⟨X'.foldl (fun m e => mapPut m e.1 (e.2.reloaded env.json.fix)) [], ?_, ?_, ?_⟩
  · unfold unmarshalIndex
    rw [h1]
    simp only
    rw [he, indexFromJSON_map, Res.bind_ok]
    rfl
  · exact nodup_foldl (Record.reloaded env.json.fix) X' [] (by simp)
  · intro h
    rw [mapGet_foldl (Record.reloaded env.json.fix) X' [] hnX, mapGet_perm X' ind.index hp hn]
    simp [mapGet_nil]

/-! ### Bitsets read from disk -/

/-- A bitset as it may come from a progress file, complete or cut short. -/
structure Loaded (b : Bitset) : Prop where
  size_nonneg : 0 ≤ b.size
  size_lt : b.size < 2 ^ 63
  len : b.data.length ≤ (b.size.toNat + 63) / 64
  above : ∀ i, b.size.toNat ≤ i → b.has i = false

theorem Bitset.Wf.loaded {b : Bitset} (w : b.Wf) : Loaded b := ⟨w.size_nonneg, w.size_lt, by rw [w.len]; exact Nat.le_refl _, w.above⟩

theorem Loaded.set {b b' : Bitset} (w : Loaded b) (x : BitVec 64) (h : x.toNat < 2 ^ 63 - 1) (e : b.set x = .ok b') : Loaded b' := by
  obtain ⟨d, e', hl, hh⟩ := Bitset.set_eq b x h
  rw [e'] at e; cases e
  have h1 := w.size_nonneg; have h2 := w.size_lt; have h3 := w.len
  refine ⟨by show 0 ≤ max b.size _; omega, by show max b.size _ < _; omega, ?_, ?_⟩
  · show d.length ≤ ((max b.size ((x.toNat : Int) + 1)).toNat + 63) / 64
    omega
  · intro i hi
    rw [hh i, w.above i (by simp only at hi; omega)]
    simp only [Bool.false_or, decide_eq_false_iff_not]
    simp only at hi; omega

/-- Reading back a torn progress file: if it can be read at all, the size is right and the bits are among those written. -/
theorem deserialize_torn (b b' : Bitset) (data : Bytes) (w : Loaded b) (hp : data <+: b.serialize) (h : Bitset.deserialize data = .ok b') :
    ∃ k, b' = ⟨b.data.take k, b.size⟩ := by
  obtain ⟨rest, hr⟩ := hp
  have hs := Bitset.serialize_of_deserialize data b' h
  have hsz : b'.size = b.size ∧ ∃ k, b'.data = b.data.take k := by
    have hd := h
    unfold Bitset.deserialize at h
    split at h
    · cases h
    · rename_i hl
      simp only at h
      split at h
      · cases h
      · rename_i hmod
        have hl' := Bitset.serialize_length b'
        rw [hs] at hl'
        have hwhole := Bitset.deserialize_serialize b (by have := w.size_nonneg; omega) w.size_lt
        have hlb := Bitset.serialize_length b
        unfold Bitset.deserialize at hwhole
        rw [if_neg (by omega)] at hwhole
        simp only at hwhole
        rw [if_neg (by rw [List.length_drop]; omega)] at hwhole
        injection hwhole with hwhole
        injection h with h
        have e8 : data.take 8 = b.serialize.take 8 := by
          rw [← hr, List.take_append_of_le_length (by omega)]
        refine ⟨by rw [← h, ← hwhole, e8], b'.data.length, ?_⟩
        have words : ∀ (l r : Bytes), l.length % 8 = 0 → Bitset.wordsOf (l ++ r) = Bitset.wordsOf l ++ Bitset.wordsOf r := by
          intro l
          induction l using Bitset.wordsOf.induct with
          | case1 a b c d e f g h rest ih =>
            intro r hl
            simp only [List.length_cons] at hl
            simp only [List.cons_append, Bitset.wordsOf]
            rw [ih r (by omega)]
          | case2 l hl =>
            intro r hlen
            have : l = [] := by
              match l, hl with
              | [], _ => rfl
              | [_], _ => simp at hlen
              | [_, _], _ => simp at hlen
              | [_, _, _], _ => simp at hlen
              | [_, _, _, _], _ => simp at hlen
              | [_, _, _, _, _], _ => simp at hlen
              | [_, _, _, _, _, _], _ => simp at hlen
              | [_, _, _, _, _, _, _], _ => simp at hlen
              | a :: b :: c :: d :: e :: f :: g :: h :: rest, hl => exact absurd rfl (hl a b c d e f g h rest)
            subst this; simp [Bitset.wordsOf]
        have e1 : b.data = Bitset.wordsOf (b.serialize.drop 8) := (congrArg Bitset.data hwhole).symm
        have e2 : b'.data = Bitset.wordsOf (data.drop 8) := by rw [← h]
        rw [e1, e2, ← hr, List.drop_append_of_le_length (by omega), words _ _ (by omega), List.take_left']
        rfl
  obtain ⟨h1, k, h2⟩ := hsz
  refine ⟨k, ?_⟩
  cases b'
  simp only at h1 h2
  rw [h1, h2]

theorem has_take (d : List Word) (k : Nat) (s s' : Int) (i : Nat) (h : (⟨d.take k, s⟩ : Bitset).has i = true) : (⟨d, s'⟩ : Bitset).has i = true := by
  unfold Bitset.has at h ⊢
  simp only [List.getElem?_take] at h
  split at h
  · exact h
  · simp at h

theorem Loaded.torn {b b' : Bitset} (data : Bytes) (w : Loaded b) (hp : data <+: b.serialize) (h : Bitset.deserialize data = .ok b') : Loaded b' := by
  obtain ⟨k, rfl⟩ := deserialize_torn b b' data w hp h
  refine ⟨w.size_nonneg, w.size_lt, ?_, ?_⟩
  · have := w.len
    simp only [List.length_take]; omega
  · intro i hi
    have := w.above i hi
    cases hh : (⟨b.data.take k, b.size⟩ : Bitset).has i with
    | false => rfl
    | true => rw [has_take b.data k b.size b.size i hh] at this; cases this

theorem newBitset_ok (n : Int) (h : n < 2 ^ 63) (b : Bitset) (e : Bitset.newBitset n = .ok b) : b.Wf ∧ 0 ≤ n ∧ b.size = n ∧ ∀ i, b.has i = false := by
  by_cases h0 : n < 0
  · unfold Bitset.newBitset at e
    rw [if_pos h0] at e; cases e
  · obtain ⟨b0, e0, h1, h2, h3⟩ := Bitset.newBitset_spec n.toNat (by omega)
    rw [show ((n.toNat : Nat) : Int) = n by omega] at e0 h1
    rw [e0] at e; cases e
    exact ⟨h2, by omega, h1, h3⟩

theorem asInt64_lt (v : UInt64) : asInt64 v < 2 ^ 63 := by
  unfold asInt64
  have := BitVec.toInt_lt (x := v.toBitVec)
  simpa using this

theorem chunkCountOf_lt (size cs : Int) (h : size < 2 ^ 63) (hcs : 0 ≤ cs) (n : Int) (e : chunkCountOf size cs = .ok n) : n < 2 ^ 63 := by
  unfold chunkCountOf at e
  split at e
  · cases e
  · rename_i hne
    simp only at e
    injection e with e
    by_cases hs : 0 ≤ size
    · obtain ⟨a, rfl⟩ := Int.eq_ofNat_of_zero_le hs
      obtain ⟨b, rfl⟩ := Int.eq_ofNat_of_zero_le hcs
      have e1 : ((a : Nat) : Int).tdiv (b : Nat) = ((a / b : Nat) : Int) := rfl
      have e2 : ((a : Nat) : Int).tmod (b : Nat) = ((a % b : Nat) : Int) := rfl
      rw [e1, e2] at e
      have hb : 0 < b := by omega
      have hle : a / b ≤ a := Nat.div_le_self a b
      split at e
      · by_cases hb1 : b = 1
        · subst hb1; simp at *
        · have : a / b < 2 ^ 63 - 1 := by
            have : a / b ≤ a / 2 := Nat.div_le_div_left (by omega) (by omega)
            omega
          omega
      · omega
    · have : size.tdiv cs ≤ 0 := by
        have := Int.tdiv_nonneg (a := -size) (b := cs) (by omega) hcs
        rw [Int.neg_tdiv] at this; omega
      split at e <;> omega

/-! ### The invariant -/

/-- A record's loaded progress belongs to its own progress file; its chunk size fits in 32 bits. -/
structure RecOK (d : Path) (r : Record) : Prop where
  cs_nonneg : 0 ≤ r.chunkSize
  cs_lt : r.chunkSize < 2 ^ 32
  file : ∀ p, r.progressFile = some p → p.filePath = progressPath d r.sha1Hash ∧ Loaded p.progress

structure WFIdx (d : Path) (ind : IndexFile) : Prop where
  dir : ind.dataDir = d
  nodup : (ind.index.map (·.1)).Nodup
  own : ∀ k r, (k, r) ∈ ind.index → r.sha1Hash = k
  recs : ∀ k r, (k, r) ∈ ind.index → RecOK d r

theorem WFIdx.put {d : Path} {ind : IndexFile} (w : WFIdx d ind) (r : Record) (hr : RecOK d r) :
    WFIdx d { ind with index := mapPut ind.index r.sha1Hash r } := by
  refine ⟨w.dir, nodup_put _ _ _ w.nodup, ?_, ?_⟩
  · intro k r' h
    rcases mem_put _ _ _ _ h with h | h
    · cases h; rfl
    · exact w.own k r' h
  · intro k r' h
    rcases mem_put _ _ _ _ h with h | h
    · cases h; exact hr
    · exact w.recs k r' h

theorem WFIdx.del {d : Path} {ind : IndexFile} (w : WFIdx d ind) (h : Sha1Hash) : WFIdx d { ind with index := mapDel ind.index h } :=
  ⟨w.dir, nodup_del _ _ w.nodup, fun k r hm => w.own k r (mem_del _ _ _ hm), fun k r hm => w.recs k r (mem_del _ _ _ hm)⟩

/-- The catalogue's files are what the daemon wrote, perhaps cut short. -/
structure DiskOK (env : Env) (d : Path) (fs : FS) : Prop where
  index : ∀ data, fs (indexPath d) = some data → ∃ ind, WFIdx d ind ∧ data <+: env.json.enc ind.toJSON
  progress : ∀ h data, fs (progressPath d h) = some data → ∃ b, Loaded b ∧ data <+: b.serialize

/-- The invariant of a running daemon. -/
structure Inv (env : Env) (d dl : Path) (c : Cat) (fs : FS) : Prop where
  dataDir : c.dataDir = d
  downloadsDir : c.downloadsDir = dl
  mem : ∃ ind, c.indexFile = some ind ∧ WFIdx d ind
  disk : DiskOK env d fs

theorem DiskOK.putIndex {env : Env} {d : Path} {fs : FS} (w : DiskOK env d fs) (hd : AbsClean d) (ind : IndexFile) (hi : WFIdx d ind)
    (data : Bytes) (hp : data <+: env.json.enc ind.toJSON) : DiskOK env d (fs.put (indexPath d) (some data)) := by
  refine ⟨?_, ?_⟩
  · intro x hx
    rw [FS.put_same] at hx; cases hx
    exact ⟨ind, hi, hp⟩
  · intro h x hx
    rw [FS.put_other _ _ _ _ (fun e => indexPath_ne_progressPath d d hd hd h e.symm)] at hx
    exact w.progress h x hx

theorem DiskOK.putProgress {env : Env} {d : Path} {fs : FS} (w : DiskOK env d fs) (hd : AbsClean d) (h : Sha1Hash) (o : Option Bytes)
    (ho : ∀ data, o = some data → ∃ b, Loaded b ∧ data <+: b.serialize) : DiskOK env d (fs.put (progressPath d h) o) := by
  refine ⟨?_, ?_⟩
  · intro x hx
    rw [FS.put_other _ _ _ _ (indexPath_ne_progressPath d d hd hd h)] at hx
    exact w.index x hx
  · intro h' x hx
    rw [FS.put_apply] at hx
    split at hx
    · exact ho x hx
    · exact w.progress h' x hx

theorem DiskOK.putOther {env : Env} {d : Path} {fs : FS} (w : DiskOK env d fs) (p : Path) (hp : ¬ CatFile d p) (o : Option Bytes) :
    DiskOK env d (fs.put p o) := by
  refine ⟨?_, ?_⟩
  · intro x hx
    rw [FS.put_other _ _ _ _ (fun e => hp (.inl e.symm))] at hx
    exact w.index x hx
  · intro h' x hx
    rw [FS.put_other _ _ _ _ (fun e => hp (.inr ⟨h', e.symm⟩))] at hx
    exact w.progress h' x hx

end Flu
