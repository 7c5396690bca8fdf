import Verif.Lemmas.JsonText
/-!
# What the decoder stores
-/
namespace Flu.Json
open Flu.Spec

theorem lower_small {a : UInt8} (h : a < 128) : lower a < 128 := by
  unfold lower
  split
  · rename_i h1
    rw [UInt8.lt_iff_toNat_lt, UInt8.toNat_add]
    have := UInt8.le_iff_toNat_le.1 h1.2
    simp only [UInt8.reduceToNat] at this ⊢
    omega
  · exact h

theorem small_of_lower {a : UInt8} (h : lower a < 128) : a < 128 := by
  unfold lower at h
  split at h
  · rename_i h1
    exact UInt8.lt_of_le_of_lt h1.2 (by decide)
  · exact h

theorem spelling_of_fold (k : Bytes) : ∀ n : Bytes, (∀ c ∈ n, c < 128) → foldName k = n.map lower → Spelling n k := by
  induction k using foldName.induct with
  | case1 r ih =>
    intro n hn h
    rw [foldName] at h
    rcases n with _ | ⟨c, n⟩
    · cases h
    · rw [List.map_cons] at h
      injection h with h1 h2
      exact .longS (k := r) h1.symm (ih n (fun c hc => hn c (by simp [hc])) h2)
  | case2 r ih =>
    intro n hn h
    rw [foldName] at h
    rcases n with _ | ⟨c, n⟩
    · cases h
    · rw [List.map_cons] at h
      injection h with h1 h2
      exact .kelvin (k := r) h1.symm (ih n (fun c hc => hn c (by simp [hc])) h2)
  | case3 c r g1 g2 ih =>
    intro n hn h
    rw [foldName.eq_3 c r g1 g2] at h
    rcases n with _ | ⟨a, n⟩
    · cases h
    · rw [List.map_cons] at h
      injection h with h1 h2
      refine .letter (small_of_lower ?_) h1.symm (ih n (fun c hc => hn c (by simp [hc])) h2)
      rw [h1]; exact lower_small (hn a (by simp))
  | case4 =>
    intro n hn h
    rcases n with _ | ⟨a, n⟩
    · exact .nil
    · cases h

theorem fold_of_spelling {n k : Bytes} (h : Spelling n k) : foldName k = n.map lower := by
  induction h with
  | nil => rfl
  | @letter c c' n k hc h _ ih =>
    have e1 : ∀ r, c' :: k ≠ 0xC5 :: 0xBF :: r := by intro r e; injection e with e1 _; subst e1; exact absurd hc (by decide)
    have e2 : ∀ r, c' :: k ≠ 0xE2 :: 0x84 :: 0xAA :: r := by intro r e; injection e with e1 _; subst e1; exact absurd hc (by decide)
    rw [foldName.eq_3 c' k (fun r a b => e1 r (by rw [a, b])) (fun r a b => e2 r (by rw [a, b])), ih, List.map_cons]
    congr 1; exact h.symm
  | @longS c n k h _ ih =>
    show foldName (0xC5 :: 0xBF :: k) = _
    rw [foldName, ih, List.map_cons]
    congr 1; exact h.symm
  | @kelvin c n k h _ ih =>
    show foldName (0xE2 :: 0x84 :: 0xAA :: k) = _
    rw [foldName, ih, List.map_cons]
    congr 1; exact h.symm

theorem isField_iff (name : String) (k : Bytes) (hn : ∀ c ∈ ascii name, c < 128 := by decide) : isField name k = true ↔ SameName name k :=
  decide_eq_true_iff.trans ⟨spelling_of_fold k _ hn, fold_of_spelling⟩

theorem isField_false (name : String) (k : Bytes) (h : ¬ SameName name k) (hn : ∀ c ∈ ascii name, c < 128 := by decide) : isField name k = false := by
  cases hf : isField name k with
  | false => rfl
  | true => exact absurd ((isField_iff name k hn).1 hf) h

theorem member_same {α : Type} {name : String} {put : JVal → α → α → Prop} {k : Bytes} {v : JVal} {l : List (Bytes × JVal)} {x z : α} (hk : SameName name k)
    (h : Member name put ((k, v) :: l) x z) : ∃ y, put v x y ∧ Member name put l y z := by
  cases h with
  | skip h1 _ => exact absurd hk h1
  | take _ hv h => exact ⟨_, hv, h⟩

theorem member_other {α : Type} {name : String} {put : JVal → α → α → Prop} {k : Bytes} {v : JVal} {l : List (Bytes × JVal)} {x z : α} (hk : ¬ SameName name k)
    (h : Member name put ((k, v) :: l) x z) : Member name put l x z := by
  cases h with
  | skip _ h => exact h
  | take h1 _ _ => exact absurd h1 hk

theorem member_nil {α : Type} {name : String} {put : JVal → α → α → Prop} {x z : α} (h : Member name put [] x z) : x = z := by
  cases h; rfl

theorem asInt_is {i old : Int} {v : JVal} (h : IsInt v old i) : asInt old v = some i := by
  rcases h with ⟨rfl, rfl⟩ | ⟨-, -, b, h1, rfl⟩
  · rfl
  · exact intOf_text h1

theorem asStr_is {s old : Bytes} {v : JVal} (h : IsStr v old s) : asStr old v = some s := by
  rcases h with ⟨rfl, rfl⟩ | rfl <;> rfl

theorem sameName_ne {a b : String} {k : Bytes} (ha : SameName a k) (hab : (ascii a).map lower ≠ (ascii b).map lower) : ¬ SameName b k := by
  intro hb
  exact hab ((fold_of_spelling ha).symm.trans (fold_of_spelling hb))

theorem storeRecord_is (tgt : RecordJSON) : ∀ (l : List (Bytes × JVal)) (r : RecordJSON), Member "FilePath" IsStr l r.filePath tgt.filePath →
    Member "SizeInBytes" IsInt l r.sizeInBytes tgt.sizeInBytes → Member "Sha1Hash" IsStr l r.sha1Hash tgt.sha1Hash →
    Member "ChunkSize" IsInt l r.chunkSize tgt.chunkSize → storeRecord l r = some tgt
  | [], r, h1, h2, h3, h4 => by
    have e1 := member_nil h1; have e2 := member_nil h2; have e3 := member_nil h3; have e4 := member_nil h4
    cases r; cases tgt
    simp only at e1 e2 e3 e4
    subst e1 e2 e3 e4; rfl
  | (k, v) :: l, r, h1, h2, h3, h4 => by
    have ih := storeRecord_is tgt l
    rw [storeRecord]
    by_cases k1 : SameName "FilePath" k
    · obtain ⟨_, g1, g2⟩ := member_same k1 h1
      rw [if_pos ((isField_iff _ _).2 k1), asStr_is g1]
      exact ih _ g2 (member_other (sameName_ne k1 (by decide)) h2) (member_other (sameName_ne k1 (by decide)) h3) (member_other (sameName_ne k1 (by decide)) h4)
    rw [if_neg (by rw [isField_false _ _ k1]; decide)]
    by_cases k2 : SameName "SizeInBytes" k
    · obtain ⟨_, g1, g2⟩ := member_same k2 h2
      rw [if_pos ((isField_iff _ _).2 k2), asInt_is g1]
      exact ih _ (member_other k1 h1) g2 (member_other (sameName_ne k2 (by decide)) h3) (member_other (sameName_ne k2 (by decide)) h4)
    rw [if_neg (by rw [isField_false _ _ k2]; decide)]
    by_cases k3 : SameName "Sha1Hash" k
    · obtain ⟨_, g1, g2⟩ := member_same k3 h3
      rw [if_pos ((isField_iff _ _).2 k3), asStr_is g1]
      exact ih _ (member_other k1 h1) (member_other k2 h2) g2 (member_other (sameName_ne k3 (by decide)) h4)
    rw [if_neg (by rw [isField_false _ _ k3]; decide)]
    by_cases k4 : SameName "ChunkSize" k
    · obtain ⟨_, g1, g2⟩ := member_same k4 h4
      rw [if_pos ((isField_iff _ _).2 k4), asInt_is g1]
      exact ih _ (member_other k1 h1) (member_other k2 h2) (member_other k3 h3) g2
    rw [if_neg (by rw [isField_false _ _ k4]; decide)]
    exact ih _ (member_other k1 h1) (member_other k2 h2) (member_other k3 h3) (member_other k4 h4)

theorem asRecord_is {r : RecordJSON} {v : JVal} (h : IsRecord r v) : asRecord v = some r := by
  rcases h with ⟨rfl, rfl⟩ | ⟨l, rfl, h1, h2, h3, h4⟩
  · rfl
  · exact storeRecord_is r l _ h1 h2 h3 h4

theorem storeMap_is {es : List (Bytes × RecordJSON)} {l : List (Bytes × JVal)} (h : AreEntries es l) :
    ∀ m, storeMap l m = some (es.foldl (fun m e => strPut m e.1 e.2) m) := by
  induction h with
  | nil => intro m; rfl
  | cons h hs ih =>
    intro m
    rw [storeMap, asRecord_is h]
    exact ih _

/-- The map after storing these entries one after the other. -/
def putAll (es : List (Bytes × RecordJSON)) : List (Bytes × RecordJSON) := es.foldl (fun m e => strPut m e.1 e.2) []

theorem asMap_is {x y : List (Bytes × RecordJSON)} {v : JVal} (h : IsMap v x y) : asMap (putAll x) v = some (putAll y) := by
  rcases h with ⟨rfl, rfl⟩ | ⟨m, es, rfl, h, rfl⟩
  · rfl
  · rw [asMap, storeMap_is h, putAll, putAll, List.foldl_append]

theorem storeIndex_is (pid lt : Int) (es : List (Bytes × RecordJSON)) (dir : Bytes) :
    ∀ (l : List (Bytes × JVal)) (r : IndexJSON) (x : List (Bytes × RecordJSON)), r.index = putAll x → Member "Pid" IsInt l r.pid pid →
    Member "LastTouched" IsInt l r.lastTouched lt → Member "Index" IsMap l x es → Member "DataDir" IsStr l r.dataDir dir → storeIndex l r = some ⟨pid, lt, putAll es, dir⟩
  | [], r, x, h0, h1, h2, h3, h4 => by
    have e1 := member_nil h1; have e2 := member_nil h2; have e3 := member_nil h3; have e4 := member_nil h4
    cases r
    simp only at e1 e2 e3 e4 h0
    subst e1 e2 e3 e4 h0; rfl
  | (k, v) :: l, r, x, h0, h1, h2, h3, h4 => by
    have ih := storeIndex_is pid lt es dir l
    rw [storeIndex]
    by_cases k1 : SameName "Pid" k
    · obtain ⟨_, g1, g2⟩ := member_same k1 h1
      rw [if_pos ((isField_iff _ _).2 k1), asInt_is g1]
      exact ih _ x h0 g2 (member_other (sameName_ne k1 (by decide)) h2) (member_other (sameName_ne k1 (by decide)) h3) (member_other (sameName_ne k1 (by decide)) h4)
    rw [if_neg (by rw [isField_false _ _ k1]; decide)]
    by_cases k2 : SameName "LastTouched" k
    · obtain ⟨_, g1, g2⟩ := member_same k2 h2
      rw [if_pos ((isField_iff _ _).2 k2), asInt_is g1]
      exact ih _ x h0 (member_other k1 h1) g2 (member_other (sameName_ne k2 (by decide)) h3) (member_other (sameName_ne k2 (by decide)) h4)
    rw [if_neg (by rw [isField_false _ _ k2]; decide)]
    by_cases k3 : SameName "Index" k
    · obtain ⟨y, g1, g2⟩ := member_same k3 h3
      rw [if_pos ((isField_iff _ _).2 k3), h0, asMap_is g1]
      exact ih _ y rfl (member_other k1 h1) (member_other k2 h2) g2 (member_other (sameName_ne k3 (by decide)) h4)
    rw [if_neg (by rw [isField_false _ _ k3]; decide)]
    by_cases k4 : SameName "DataDir" k
    · obtain ⟨_, g1, g2⟩ := member_same k4 h4
      rw [if_pos ((isField_iff _ _).2 k4), asStr_is g1]
      exact ih _ x h0 (member_other k1 h1) (member_other k2 h2) (member_other k3 h3) g2
    rw [if_neg (by rw [isField_false _ _ k4]; decide)]
    exact ih _ x h0 (member_other k1 h1) (member_other k2 h2) (member_other k3 h3) (member_other k4 h4)

/-! ### A map with string keys -/

theorem strPut_keys (m : List (Bytes × RecordJSON)) (k : Bytes) (r : RecordJSON) (hn : (m.map (·.1)).Nodup) : ((strPut m k r).map (·.1)).Nodup := by
  unfold strPut
  split
  · have : (m.map (fun e => if e.1 = k then (k, r) else e)).map (·.1) = m.map (·.1) := by
      rw [List.map_map]
      apply List.map_congr_left
      intro e _
      simp only [Function.comp]
      split
      · rename_i h; exact h.symm
      · rfl
    rw [this]; exact hn
  · rename_i h
    rw [List.map_append, List.nodup_append]
    refine ⟨hn, by simp, ?_⟩
    intro a ha b hb hab
    simp only [List.map_cons, List.map_nil, List.mem_singleton] at hb
    obtain ⟨e, he, rfl⟩ := List.mem_map.1 ha
    exact h (List.any_eq_true.2 ⟨e, he, decide_eq_true (hab.trans hb)⟩)

theorem strPut_mem (m : List (Bytes × RecordJSON)) (k : Bytes) (r : RecordJSON) (k' : Bytes) (r' : RecordJSON) :
    (k', r') ∈ strPut m k r ↔ (k' = k ∧ r' = r) ∨ (k' ≠ k ∧ (k', r') ∈ m) := by
  unfold strPut
  split
  · rename_i h
    obtain ⟨e0, he0, hk0⟩ := List.any_eq_true.1 h
    have hk0 : e0.1 = k := of_decide_eq_true hk0
    rw [List.mem_map]
    constructor
    · rintro ⟨e, he, h1⟩
      split at h1
      · injection h1 with a b; exact .inl ⟨a.symm, b.symm⟩
      · rename_i hne; subst h1; exact .inr ⟨hne, he⟩
    · rintro (⟨rfl, rfl⟩ | ⟨h1, h2⟩)
      · exact ⟨e0, he0, if_pos hk0⟩
      · exact ⟨_, h2, if_neg h1⟩
  · rename_i h
    rw [List.mem_append, List.mem_singleton]
    constructor
    · rintro (h1 | h1)
      · refine .inr ⟨fun hk => h (List.any_eq_true.2 ⟨_, h1, decide_eq_true hk⟩), h1⟩
      · injection h1 with a b; exact .inl ⟨a, b⟩
    · rintro (⟨rfl, rfl⟩ | ⟨h1, h2⟩)
      · exact .inr rfl
      · exact .inl h2

theorem strPut_all (es : List (Bytes × RecordJSON)) : ∀ m, (m.map (·.1)).Nodup →
    ((es.foldl (fun m e => strPut m e.1 e.2) m).map (·.1)).Nodup ∧
    ∀ k r, (k, r) ∈ es.foldl (fun m e => strPut m e.1 e.2) m ↔ LastEntry es k r ∨ ((k, r) ∈ m ∧ ∀ e ∈ es, e.1 ≠ k) := by
  induction es with
  | nil =>
    intro m hn
    refine ⟨hn, fun k r => ⟨fun h => .inr ⟨h, by simp⟩, ?_⟩⟩
    rintro (⟨a, b, h, -⟩ | ⟨h, -⟩)
    · cases a <;> cases h
    · exact h
  | cons e es ih =>
    intro m hn
    obtain ⟨h1, h2⟩ := ih _ (strPut_keys m e.1 e.2 hn)
    refine ⟨h1, fun k r => ?_⟩
    rw [List.foldl_cons, h2, strPut_mem]
    constructor
    · rintro (⟨a, b, rfl, h⟩ | ⟨⟨rfl, rfl⟩ | ⟨h3, h4⟩, h5⟩)
      · exact .inl ⟨e :: a, b, rfl, h⟩
      · exact .inl ⟨[], es, rfl, h5⟩
      · refine .inr ⟨h4, fun x hx => ?_⟩
        rcases List.mem_cons.1 hx with rfl | hx
        · exact fun h => h3 h.symm
        · exact h5 x hx
    · rintro (⟨a, b, h, h3⟩ | ⟨h3, h4⟩)
      · rcases a with _ | ⟨x, a⟩
        · rw [List.nil_append] at h
          injection h with ha hb
          subst ha; subst hb
          exact .inr ⟨.inl ⟨rfl, rfl⟩, h3⟩
        · rw [List.cons_append] at h
          injection h with ha hb
          exact .inl ⟨a, b, hb, h3⟩
      · exact .inr ⟨.inr ⟨fun h => h4 e (by simp) h.symm, h3⟩, fun x hx => h4 x (by simp [hx])⟩

/-- What the decoder makes of a text that describes an index. -/
theorem decode_text {b : Bytes} {v : JVal} {pid lt : Int} {dir : Bytes} {es : List (Bytes × RecordJSON)} (hb : JsonText b v) (hv : IsIndex pid lt dir es v) :
    ∃ idx, decode b = some ⟨pid, lt, idx, dir⟩ ∧ (idx.map (·.1)).Nodup ∧ ∀ k r, (k, r) ∈ idx ↔ LastEntry es k r := by
  obtain ⟨k1, k2⟩ := strPut_all es [] (by simp)
  refine ⟨putAll es, ?_, k1, fun k r => ?_⟩
  · unfold decode
    rw [parseDoc_text hb]
    rcases hv with ⟨rfl, rfl, rfl, rfl, rfl⟩ | ⟨l, rfl, h1, h2, h3, h4⟩
    · rfl
    · exact storeIndex_is pid lt es dir l _ [] rfl h1 h2 h3 h4
  · rw [putAll, k2]; simp

end Flu.Json
