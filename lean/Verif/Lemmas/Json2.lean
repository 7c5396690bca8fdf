import Verif.Lemmas.Json
/-!
# The JSON model: reading back an encoded index, and that no proper prefix of it can be read
-/
namespace Flu.Json

/-! ### Numbers -/

theorem decNat_digits (n : Nat) : ∀ c ∈ decNat n, isDigit c = true := by
  induction n using Nat.strongRecOn with
  | ind n ih =>
    have key : ∀ k < 10, isDigit (UInt8.ofNat (48 + k)) = true := by decide
    intro c hc
    rw [decNat] at hc
    split at hc
    · rename_i h
      simp only [List.mem_singleton] at hc
      rw [hc]; exact key n h
    · simp only [List.mem_append, List.mem_singleton] at hc
      rcases hc with hc | rfl
      · exact ih _ (by omega) c hc
      · exact key _ (by omega)

theorem natOf_decNat (n : Nat) : natOf (decNat n) = n := by
  induction n using Nat.strongRecOn with
  | ind n ih =>
    have key : ∀ k < 10, (UInt8.ofNat (48 + k)).toNat - 48 = k := by decide
    rw [decNat]
    split
    · rename_i h
      simp only [natOf, List.foldl_cons, List.foldl_nil, key n h]; omega
    · rename_i h
      have h1 := ih (n / 10) (by omega)
      unfold natOf at h1 ⊢
      rw [List.foldl_append, h1, List.foldl_cons, List.foldl_nil, key _ (by omega)]
      omega

theorem decNat_head (n : Nat) : ∃ c w, decNat n = c :: w ∧ isDigit c = true ∧ (c = 48 → w = []) := by
  induction n using Nat.strongRecOn with
  | ind n ih =>
    have key : ∀ k < 10, isDigit (UInt8.ofNat (48 + k)) = true := by decide
    rw [decNat]
    split
    · rename_i h; exact ⟨_, [], rfl, key n h, fun _ => rfl⟩
    · rename_i h
      obtain ⟨c, w, h1, h2, h3⟩ := ih (n / 10) (by omega)
      refine ⟨c, w ++ [UInt8.ofNat (48 + n % 10)], by rw [h1]; rfl, h2, fun h0 => ?_⟩
      have h4 := h3 h0
      subst h4
      exfalso
      have := natOf_decNat (n / 10)
      rw [h1, h0] at this
      have h5 : natOf [48] = 0 := rfl
      omega

theorem takeWhile_digits (w : Bytes) (hw : ∀ c ∈ w, isDigit c = true) (c : UInt8) (hc : isDigit c = false) (t : Bytes) :
    (w ++ c :: t).takeWhile isDigit = w ∧ (w ++ c :: t).dropWhile isDigit = c :: t := by
  induction w with
  | nil => simp [hc]
  | cons a w ih =>
    obtain ⟨h1, h2⟩ := ih (fun c hc => hw c (by simp [hc]))
    simp [hw a (by simp), h1, h2]

/-- `,` or `}`. -/
def isEnd (c : UInt8) : Prop := c = 44 ∨ c = 125

theorem scanDigits_decNat (n : Nat) (c : UInt8) (hc : isEnd c) (t : Bytes) : scanDigits (decNat n ++ c :: t) = some (decNat n, c :: t) := by
  obtain ⟨a, w, h1, h2, h3⟩ := decNat_head n
  have hw := decNat_digits n
  have hcd : isDigit c = false := by rcases hc with rfl | rfl <;> rfl
  obtain ⟨k1, k2⟩ := takeWhile_digits _ hw c hcd t
  unfold scanDigits
  split
  · rename_i r heq
    rw [h1, List.cons_append, List.cons.injEq] at heq
    have := h3 heq.1
    subst this
    rw [h1, heq.1, ← heq.2]; rfl
  · rw [k1, k2, h1]; rfl

theorem scanFrac_end (c : UInt8) (hc : isEnd c) (t : Bytes) : scanFrac (c :: t) = some ([], c :: t) := by
  rcases hc with rfl | rfl <;> rfl
theorem scanExp_end (c : UInt8) (hc : isEnd c) (t : Bytes) : scanExp (c :: t) = some ([], c :: t) := by
  rcases hc with rfl | rfl <;> rfl

theorem scanSign_decNat (n : Nat) (t : Bytes) : scanSign (decNat n ++ t) = ([], decNat n ++ t) := by
  obtain ⟨a, w, h1, h2, h3⟩ := decNat_head n
  unfold scanSign
  split
  · rename_i r heq
    rw [h1, List.cons_append, List.cons.injEq] at heq
    rw [heq.1] at h2; exact absurd h2 (by decide)
  · rfl

theorem scanNum_encInt (i : Int) (c : UInt8) (hc : isEnd c) (t : Bytes) : scanNum (encInt i ++ c :: t) = some (encInt i, c :: t) := by
  unfold encInt scanNum
  split
  · rw [List.cons_append, show scanSign (45 :: (decNat i.natAbs ++ c :: t)) = ([45], decNat i.natAbs ++ c :: t) from rfl]
    simp only [scanDigits_decNat _ c hc, scanFrac_end c hc, scanExp_end c hc, Option.bind_eq_bind, Option.bind_some, List.append_nil]
    rfl
  · simp only [scanSign_decNat, scanDigits_decNat _ c hc, scanFrac_end c hc, scanExp_end c hc, Option.bind_eq_bind, Option.bind_some, List.append_nil, List.nil_append]
    rfl

theorem intOf_encInt (i : Int) : intOf (encInt i) = some i := by
  have hall : (decNat i.natAbs).all isDigit = true := List.all_eq_true.2 (decNat_digits _)
  unfold encInt
  split
  · simp only [intOf, hall, if_true, natOf_decNat]
    congr 1; omega
  · obtain ⟨a, w, h1, h2, h3⟩ := decNat_head i.natAbs
    unfold intOf
    split
    · rename_i ds heq
      rw [h1, List.cons.injEq] at heq
      rw [heq.1] at h2; exact absurd h2 (by decide)
    · rw [hall, natOf_decNat, if_pos rfl]
      congr 1; omega

/-! ### Values -/

theorem skipWs_cons (c : UInt8) (r : Bytes) (h : isSpace c = false) : skipWs (c :: r) = c :: r := by simp [skipWs, h]

theorem encInt_head (i : Int) (t : Bytes) : ∃ a w, encInt i ++ t = a :: w ∧ (isDigit a = true ∨ a = 45) := by
  unfold encInt
  split
  · exact ⟨45, _, rfl, .inr rfl⟩
  · obtain ⟨a, w, h1, h2, h3⟩ := decNat_head i.natAbs
    exact ⟨a, w ++ t, by rw [h1]; rfl, .inl h2⟩

set_option maxRecDepth 8000 in
theorem digit_ne (a : UInt8) (h : isDigit a = true ∨ a = 45) :
    isSpace a = false ∧ a ≠ 123 ∧ a ≠ 91 ∧ a ≠ 34 ∧ a ≠ 116 ∧ a ≠ 102 ∧ a ≠ 110 := by
  have key : ∀ n < 256, (isDigit (UInt8.ofNat n) = true ∨ UInt8.ofNat n = 45) →
      isSpace (UInt8.ofNat n) = false ∧ UInt8.ofNat n ≠ 123 ∧ UInt8.ofNat n ≠ 91 ∧ UInt8.ofNat n ≠ 34 ∧ UInt8.ofNat n ≠ 116 ∧ UInt8.ofNat n ≠ 102 ∧ UInt8.ofNat n ≠ 110 := by
    decide
  have := key a.toNat a.toNat_lt
  rw [UInt8.ofNat_toNat] at this
  exact this h

/-- The parser on anything that starts like a number. -/
theorem parseVal_num' (n : Nat) (b : Bytes) (a : UInt8) (w : Bytes) (hb : skipWs b = a :: w) (h : isDigit a = true ∨ a = 45) :
    parseVal (n + 1) b = (scanNum (a :: w)).map (fun x => (.num x.1, x.2)) := by
  obtain ⟨h0, h1, h2, h3, h4, h5, h6⟩ := digit_ne a h
  rw [parseVal, hb]
  split
  all_goals first
    | rfl
    | (rename_i heq; simp only [List.cons.injEq] at heq; exact absurd heq.1 ‹_›)

theorem parseVal_num (n : Nat) (a : UInt8) (w : Bytes) (h : isDigit a = true ∨ a = 45) :
    parseVal (n + 1) (a :: w) = (scanNum (a :: w)).map (fun x => (.num x.1, x.2)) :=
  parseVal_num' n _ a w (skipWs_cons a w (digit_ne a h).1) h

theorem parseVal_int (n : Nat) (i : Int) (c : UInt8) (hc : isEnd c) (t : Bytes) : parseVal (n + 1) (encInt i ++ c :: t) = some (.num (encInt i), c :: t) := by
  obtain ⟨a, w, h1, h2⟩ := encInt_head i (c :: t)
  rw [h1, parseVal_num n a w h2, ← h1, scanNum_encInt i c hc t]
  rfl

theorem encStr_eq (s : GoString) (t : Bytes) : encStr s ++ t = 34 :: (escape s ++ 34 :: t) := by
  simp [encStr, escape]

theorem parseVal_str (n : Nat) (s : GoString) (t : Bytes) : parseVal (n + 1) (encStr s ++ t) = some (.str (fix s), t) := by
  rw [encStr_eq, parseVal, skipWs_cons 34 _ rfl]
  simp only [parseStr_enc, Option.map_some]

theorem unquote_letters (w : Bytes) (h : ∀ c ∈ w, c < 0x80 ∧ c ≠ 92) : unquote w = w := by
  induction w with
  | nil => rfl
  | cons a w ih =>
    have ha := h a (by simp)
    have := unquote_plain [a] w 0 rfl (by simp [runeLen, ha.1]) (by simpa using ha.2)
    rw [List.singleton_append] at this
    rw [this, ih (fun c hc => h c (by simp [hc]))]
    rfl

/-- Names of fields need no escaping. -/
theorem parseStr_name (w : Bytes) (h : ∀ c ∈ w, c ≠ 34 ∧ c ≠ 92 ∧ ¬ c < 32 ∧ c < 0x80) (t : Bytes) : parseStr (w ++ 34 :: t) = some (w, t) := by
  unfold parseStr
  rw [scanStr_plain w _ (fun c hc => ⟨(h c hc).1, (h c hc).2.1, (h c hc).2.2.1⟩), scanStr.eq_def]
  simp only [if_true, Option.map_some, List.append_nil]
  rw [unquote_letters w (fun c hc => ⟨(h c hc).2.2.2, (h c hc).2.1⟩)]

/-- A member whose value is followed by a comma. -/
theorem members_more (pv : Bytes → Option (JVal × Bytes)) (n : Nat) (r1 r2 r4 : Bytes) (v : JVal) (k : GoString)
    (hk : parseStr r1 = some (k, 58 :: r2)) (hv : pv r2 = some (v, 44 :: r4)) :
    members pv (n + 1) (34 :: r1) = (members pv n r4).map (fun x => ((k, v) :: x.1, x.2)) := by
  rw [members, skipWs_cons 34 _ rfl]
  simp only [hk, skipWs_cons 58 _ rfl, hv, skipWs_cons 44 _ rfl]

theorem members_last (pv : Bytes → Option (JVal × Bytes)) (n : Nat) (r1 r2 r4 : Bytes) (v : JVal) (k : GoString)
    (hk : parseStr r1 = some (k, 58 :: r2)) (hv : pv r2 = some (v, 125 :: r4)) :
    members pv (n + 1) (34 :: r1) = some ([(k, v)], r4) := by
  rw [members, skipWs_cons 34 _ rfl]
  simp only [hk, skipWs_cons 58 _ rfl, hv, skipWs_cons 125 _ rfl]

/-- More rounds than needed do no harm. -/
theorem members_fuel (pv : Bytes → Option (JVal × Bytes)) : ∀ (n m : Nat) (b : Bytes) (x : List (GoString × JVal) × Bytes), n ≤ m →
    members pv n b = some x → members pv m b = some x := by
  intro n
  induction n with
  | zero => intro m b x _ h; simp [members] at h
  | succ n ih =>
    intro m b x hm h
    rcases m with _ | m
    · omega
    rw [members] at h ⊢
    split at h
    · rename_i r hs
      try simp only [hs]
      split at h
      · cases h
      rename_i k r1 hk
      try simp only [hk]
      split at h
      · rename_i r2 h2
        try simp only [h2]
        split at h
        · cases h
        rename_i v r3 hv
        try simp only [hv]
        split at h
        · rename_i r4 h4
          try simp only [h4]
          obtain ⟨y, hy, rfl⟩ := Option.map_eq_some_iff.1 h
          rw [ih m r4 y (by omega) hy]
          rfl
        · rename_i r4 h4
          exact h
        · cases h
      · cases h
    · cases h

theorem parseVal_obj (n : Nat) (r : Bytes) (l : List (GoString × JVal)) (t : Bytes) (k : Nat) (hk : k ≤ (34 :: r).length) (h : members (parseVal n) k (34 :: r) = some (l, t)) :
    parseVal (n + 1) (123 :: 34 :: r) = some (.obj l, t) := by
  rw [parseVal, skipWs_cons 123 _ rfl]
  simp only [skipWs_cons 34 _ rfl, members_fuel _ _ _ _ _ hk h, Option.map_some]
  rfl

/-! ### Records -/

/-- What the parser makes of a record. -/
def recVal (r : RecordJSON) : JVal :=
  .obj [(ascii "FilePath", .str (fix r.filePath)), (ascii "SizeInBytes", .num (encInt r.sizeInBytes)), (ascii "Sha1Hash", .str (fix r.sha1Hash)),
    (ascii "ChunkSize", .num (encInt r.chunkSize))]

theorem parseVal_record (n : Nat) (r : RecordJSON) (t : Bytes) : parseVal (n + 2) (encRecord r ++ t) = some (recVal r, t) := by
  have e : encRecord r ++ t = 123 :: 34 :: (ascii "FilePath" ++ 34 :: 58 :: (encStr r.filePath ++ 44 :: 34 :: (ascii "SizeInBytes" ++ 34 :: 58 ::
      (encInt r.sizeInBytes ++ 44 :: 34 :: (ascii "Sha1Hash" ++ 34 :: 58 :: (encStr r.sha1Hash ++ 44 :: 34 :: (ascii "ChunkSize" ++ 34 :: 58 ::
        (encInt r.chunkSize ++ 125 :: t)))))))) := by
    simp [encRecord, encField]
  rw [e]
  have h4 := members_last (parseVal (n + 1)) 0 _ _ t _ _ (parseStr_name (ascii "ChunkSize") (by decide) _) (parseVal_int n r.chunkSize 125 (.inr rfl) t)
  have h3 := members_more (parseVal (n + 1)) 1 _ _ _ _ _ (parseStr_name (ascii "Sha1Hash") (by decide) _) (parseVal_str n r.sha1Hash _) |>.trans (by rw [h4])
  have h2 := members_more (parseVal (n + 1)) 2 _ _ _ _ _ (parseStr_name (ascii "SizeInBytes") (by decide) _) (parseVal_int n r.sizeInBytes 44 (.inl rfl) _) |>.trans (by rw [h3])
  have h1 := members_more (parseVal (n + 1)) 3 _ _ _ _ _ (parseStr_name (ascii "FilePath") (by decide) _) (parseVal_str n r.filePath _) |>.trans (by rw [h2])
  exact parseVal_obj (n + 1) _ _ t 4 (by simp [ascii]) h1

/-- What the parser makes of the entries of the map. -/
def entryVal (e : GoString × RecordJSON) : GoString × JVal := (fix e.1, recVal e.2)

theorem members_entries (n : Nat) (t : Bytes) : ∀ (l : List (GoString × RecordJSON)), l ≠ [] →
    members (parseVal (n + 2)) l.length (encEntries l ++ t) = some (l.map entryVal, t)
  | [], h => absurd rfl h
  | [e], _ => by
    have h : encEntries [e] ++ t = 34 :: (escape e.1 ++ 34 :: 58 :: (encRecord e.2 ++ 125 :: t)) := by
      simp [encEntries, encStr, escape]
    rw [h]
    exact members_last (parseVal (n + 2)) 0 _ _ t _ _ (parseStr_enc e.1 _) (parseVal_record n e.2 _)
  | e :: f :: rest, _ => by
    have h : encEntries (e :: f :: rest) ++ t = 34 :: (escape e.1 ++ 34 :: 58 :: (encRecord e.2 ++ 44 :: (encEntries (f :: rest) ++ t))) := by
      simp [encEntries, encStr, escape]
    rw [h]
    refine (members_more (parseVal (n + 2)) (f :: rest).length _ _ _ _ _ (parseStr_enc e.1 _) (parseVal_record n e.2 _)).trans ?_
    rw [members_entries n t (f :: rest) (by simp)]
    rfl

theorem encEntries_length : ∀ l : List (GoString × RecordJSON), l.length ≤ (encEntries l).length
  | [] => by simp
  | [e] => by simp [encEntries, encStr]
  | e :: f :: rest => by
    have := encEntries_length (f :: rest)
    simp only [encEntries, List.length_append, List.length_cons, encStr] at this ⊢
    omega

theorem encEntries_head (l : List (GoString × RecordJSON)) (h : l ≠ []) (t : Bytes) : ∃ r, encEntries l ++ t = 34 :: r := by
  rcases l with _ | ⟨e, _ | ⟨f, rest⟩⟩
  · exact absurd rfl h
  · exact ⟨_, by simp only [encEntries, encStr, List.cons_append]; rfl⟩
  · exact ⟨_, by simp only [encEntries, encStr, List.cons_append]; rfl⟩

theorem parseVal_entries (n : Nat) (l : List (GoString × RecordJSON)) (t : Bytes) : parseVal (n + 3) (123 :: (encEntries l ++ t)) = some (.obj (l.map entryVal), t) := by
  by_cases h : l = []
  · subst h
    rw [parseVal, skipWs_cons 123 _ rfl]
    simp only [encEntries, List.cons_append, List.nil_append, skipWs_cons 125 _ rfl, List.map_nil]
    rw [if_neg (by omega)]
  · have hm := members_entries n t l h
    have hl := encEntries_length l
    obtain ⟨r, hr⟩ := encEntries_head l h t
    rw [hr] at hm ⊢
    refine parseVal_obj (n + 2) r _ t _ ?_ hm
    rw [← hr, List.length_append]; omega

/-- What the parser makes of an encoded index. -/
def indexVal (j : IndexJSON) : List (GoString × JVal) :=
  [(ascii "Pid", .num (encInt j.pid)), (ascii "LastTouched", .num (encInt j.lastTouched)),
    (ascii "Index", .obj ((j.index.mergeSort (fun a b => strLe a.1 b.1)).map entryVal)), (ascii "DataDir", .str (fix j.dataDir))]

theorem parseVal_encode (n : Nat) (j : IndexJSON) (t : Bytes) : parseVal (n + 4) (encode j ++ t) = some (.obj (indexVal j), t) := by
  have e : encode j ++ t = 123 :: 34 :: (ascii "Pid" ++ 34 :: 58 :: (encInt j.pid ++ 44 :: 34 :: (ascii "LastTouched" ++ 34 :: 58 ::
      (encInt j.lastTouched ++ 44 :: 34 :: (ascii "Index" ++ 34 :: 58 :: (123 :: (encEntries (j.index.mergeSort (fun a b => strLe a.1 b.1)) ++ 44 :: 34 ::
        (ascii "DataDir" ++ 34 :: 58 :: (encStr j.dataDir ++ 125 :: t))))))))) := by
    simp [encode, encField]
  rw [e]
  have h4 := members_last (parseVal (n + 3)) 0 _ _ t _ _ (parseStr_name (ascii "DataDir") (by decide) _) (parseVal_str (n + 2) j.dataDir _)
  have h3 := members_more (parseVal (n + 3)) 1 _ _ _ _ _ (parseStr_name (ascii "Index") (by decide) _)
    (parseVal_entries n (j.index.mergeSort (fun a b => strLe a.1 b.1)) _) |>.trans (by rw [h4])
  have h2 := members_more (parseVal (n + 3)) 2 _ _ _ _ _ (parseStr_name (ascii "LastTouched") (by decide) _) (parseVal_int (n + 2) j.lastTouched 44 (.inl rfl) _) |>.trans (by rw [h3])
  have h1 := members_more (parseVal (n + 3)) 3 _ _ _ _ _ (parseStr_name (ascii "Pid") (by decide) _) (parseVal_int (n + 2) j.pid 44 (.inl rfl) _) |>.trans (by rw [h2])
  exact parseVal_obj (n + 3) _ _ t 4 (by simp [ascii]) h1

theorem parseDoc_encode (j : IndexJSON) : parseDoc (encode j) = some (.obj (indexVal j)) := by
  have := parseVal_encode 9997 j []
  rw [List.append_nil] at this
  unfold parseDoc
  rw [this]
  rfl

/-! ### Storing -/

theorem asRecord_recVal (r : RecordJSON) : asRecord (recVal r) = some (r.fixed fix) := by
  have f1 : isField "FilePath" (ascii "FilePath") = true := by decide
  have f2 : isField "FilePath" (ascii "SizeInBytes") = false ∧ isField "SizeInBytes" (ascii "SizeInBytes") = true := by decide
  have f3 : isField "FilePath" (ascii "Sha1Hash") = false ∧ isField "SizeInBytes" (ascii "Sha1Hash") = false ∧ isField "Sha1Hash" (ascii "Sha1Hash") = true := by decide
  have f4 : isField "FilePath" (ascii "ChunkSize") = false ∧ isField "SizeInBytes" (ascii "ChunkSize") = false ∧ isField "Sha1Hash" (ascii "ChunkSize") = false ∧
    isField "ChunkSize" (ascii "ChunkSize") = true := by decide
  simp only [recVal, asRecord, storeRecord, f1, f2, f3, f4, if_true, Bool.false_eq_true, if_false, asStr, asInt, intOf_encInt, Option.map_some, Option.bind_eq_bind,
    Option.bind_some]
  rfl

theorem storeMap_entries : ∀ (l : List (GoString × RecordJSON)) (m : List (GoString × RecordJSON)), (∀ e ∈ l, isAscii e.1) → ((m ++ l).map (·.1)).Nodup →
    storeMap (l.map entryVal) m = some (m ++ l.map (fun e => (e.1, e.2.fixed fix)))
  | [], m, _, _ => by simp [storeMap]
  | e :: l, m, ha, hn => by
    have h1 : fix e.1 = e.1 := fix_ascii _ (ha e (by simp))
    have h2 : m.any (fun x => decide (x.1 = e.1)) = false := by
      rw [List.any_eq_false]
      intro x hx
      simp only [decide_eq_true_eq]
      intro he
      rw [List.map_append, List.nodup_append] at hn
      exact hn.2.2 x.1 (List.mem_map_of_mem hx) e.1 (by simp) he
    simp only [List.map_cons, entryVal, storeMap, asRecord_recVal, Option.bind_eq_bind, Option.bind_some, h1, strPut, h2, Bool.false_eq_true, if_false]
    have := storeMap_entries l (m ++ [(e.1, e.2.fixed fix)]) (fun x hx => ha x (by simp [hx])) (by
      simpa [List.map_append] using hn)
    rw [this]
    simp

theorem decode_encode (j : IndexJSON) (ha : ∀ e ∈ j.index, isAscii e.1) (hn : (j.index.map (·.1)).Nodup) :
    ∃ l, decode (encode j) = some { j with index := l, dataDir := fix j.dataDir } ∧ l.Perm (j.index.map (fun e => (e.1, e.2.fixed fix))) := by
  have hp := List.mergeSort_perm j.index (fun a b => strLe a.1 b.1)
  generalize hs : j.index.mergeSort (fun a b => strLe a.1 b.1) = l at hp
  refine ⟨l.map (fun e => (e.1, e.2.fixed fix)), ?_, hp.map _⟩
  have h1 := storeMap_entries l [] (fun e he => ha e (hp.subset he)) (by
    rw [List.nil_append]; exact (hp.map _).nodup_iff.2 hn)
  have f1 : isField "Pid" (ascii "Pid") = true := by decide
  have f2 : isField "Pid" (ascii "LastTouched") = false ∧ isField "LastTouched" (ascii "LastTouched") = true := by decide
  have f3 : isField "Pid" (ascii "Index") = false ∧ isField "LastTouched" (ascii "Index") = false ∧ isField "Index" (ascii "Index") = true := by decide
  have f4 : isField "Pid" (ascii "DataDir") = false ∧ isField "LastTouched" (ascii "DataDir") = false ∧ isField "Index" (ascii "DataDir") = false ∧
    isField "DataDir" (ascii "DataDir") = true := by decide
  simp only [decode, parseDoc_encode, Option.bind_eq_bind, Option.bind_some, indexVal, storeIndex, f1, f2, f3, f4, if_true, Bool.false_eq_true, if_false, asStr, asInt,
    intOf_encInt, Option.map_some, asMap, hs, h1, List.nil_append]

/-! ### Prefixes -/

/-- Parsers that, once they have found the end of a value, do not care what follows. -/
def Ext (pv : Bytes → Option (JVal × Bytes)) : Prop :=
  ∀ b v r x, pv b = some (v, r) → (r ≠ [] ∨ ∀ lit, v ≠ .num lit) → pv (b ++ x) = some (v, r ++ x)

theorem skipWs_append (b : Bytes) (h : skipWs b ≠ []) (x : Bytes) : skipWs (b ++ x) = skipWs b ++ x := by
  induction b with
  | nil => exact absurd rfl h
  | cons a b ih =>
    unfold skipWs at *
    rw [List.cons_append, List.dropWhile_cons, List.dropWhile_cons]
    split
    · rename_i hs
      rw [List.dropWhile_cons, if_pos hs] at h
      exact ih h
    · rfl

theorem skipWs_ext {b r : Bytes} {c : UInt8} (h : skipWs b = c :: r) (x : Bytes) : skipWs (b ++ x) = c :: (r ++ x) := by
  rw [skipWs_append b (by rw [h]; simp), h]; rfl

theorem scanStr_ext : ∀ (b w r x : Bytes), scanStr b = some (w, r) → scanStr (b ++ x) = some (w, r ++ x) := by
  intro b
  induction hn : b.length using Nat.strongRecOn generalizing b with
  | ind n ih =>
    subst hn
    intro w r x h
    rw [scanStr.eq_def] at h
    split at h
    · cases h
    rename_i c b
    rw [List.cons_append, scanStr.eq_def]
    simp only []
    split at h
    · rename_i hc; simp only [Option.some.injEq, Prod.mk.injEq] at h
      rw [if_pos hc, h.1, h.2]
    rename_i hc
    rw [if_neg hc]
    split at h
    · rename_i hc2
      rw [if_pos hc2]
      split at h
      · cases h
      rename_i e r'
      simp only [List.cons_append]
      split at h
      · rename_i he
        rw [if_pos he]
        split at h
        · rename_i h1 h2 h3 h4 r''
          simp only [List.cons_append]
          split at h
          · rename_i hx
            rw [if_pos hx]
            obtain ⟨y, hy, hw⟩ := Option.map_eq_some_iff.1 h
            rw [ih _ (by simp; omega) r'' rfl y.1 y.2 x hy]
            simp only [Prod.mk.injEq] at hw
            rw [Option.map_some, ← hw.1, ← hw.2]
          · cases h
        · cases h
      · rename_i he
        rw [if_neg he]
        split at h
        · rename_i hx
          rw [if_pos hx]
          obtain ⟨y, hy, hw⟩ := Option.map_eq_some_iff.1 h
          rw [ih _ (by simp; omega) r' rfl y.1 y.2 x hy]
          simp only [Prod.mk.injEq] at hw
          rw [Option.map_some, ← hw.1, ← hw.2]
        · cases h
    · rename_i hc2
      rw [if_neg hc2]
      split at h
      · cases h
      · rename_i hc3
        rw [if_neg hc3]
        obtain ⟨y, hy, hw⟩ := Option.map_eq_some_iff.1 h
        rw [ih _ (by simp) b rfl y.1 y.2 x hy]
        simp only [Prod.mk.injEq] at hw
        rw [Option.map_some, ← hw.1, ← hw.2]

theorem parseStr_ext (b : Bytes) (w : GoString) (r x : Bytes) (h : parseStr b = some (w, r)) : parseStr (b ++ x) = some (w, r ++ x) := by
  unfold parseStr at h ⊢
  obtain ⟨y, hy, hw⟩ := Option.map_eq_some_iff.1 h
  rw [scanStr_ext b y.1 y.2 x hy]
  simp only [Prod.mk.injEq] at hw
  rw [Option.map_some, ← hw.1, ← hw.2]

theorem digits_ext (b x : Bytes) (h : b.dropWhile isDigit ≠ []) :
    (b ++ x).takeWhile isDigit = b.takeWhile isDigit ∧ (b ++ x).dropWhile isDigit = b.dropWhile isDigit ++ x := by
  induction b with
  | nil => exact absurd rfl h
  | cons a b ih =>
    rw [List.cons_append, List.dropWhile_cons, List.takeWhile_cons, List.dropWhile_cons, List.takeWhile_cons]
    split
    · rename_i hs
      rw [List.dropWhile_cons, if_pos hs] at h
      rw [(ih h).1, (ih h).2]; exact ⟨rfl, rfl⟩
    · exact ⟨rfl, rfl⟩

theorem scanDigits_ext (b w r x : Bytes) (h : scanDigits b = some (w, r)) (hr : r ≠ []) : scanDigits (b ++ x) = some (w, r ++ x) := by
  unfold scanDigits at h
  split at h
  · simp only [Option.some.injEq, Prod.mk.injEq] at h
    rw [← h.1, ← h.2]; rfl
  · rename_i hb
    split at h
    · cases h
    · rename_i he
      simp only [Option.some.injEq, Prod.mk.injEq] at h
      obtain ⟨k1, k2⟩ := digits_ext b x (by rw [h.2]; exact hr)
      unfold scanDigits
      split
      · rename_i r' heq
        rcases b with _ | ⟨c, b⟩
        · simp at he
        · rw [List.cons_append, List.cons.injEq] at heq
          exact absurd (by rw [heq.1]) (hb b)
      · rw [k1, k2, if_neg he, h.1, h.2]

theorem scanFrac_ext (b w r x : Bytes) (h : scanFrac b = some (w, r)) (hr : r ≠ []) : scanFrac (b ++ x) = some (w, r ++ x) := by
  unfold scanFrac at h
  split at h
  · rename_i b'
    split at h
    · cases h
    · rename_i he
      simp only [Option.some.injEq, Prod.mk.injEq] at h
      obtain ⟨k1, k2⟩ := digits_ext b' x (by rw [h.2]; exact hr)
      simp only [scanFrac, List.cons_append]
      rw [k1, k2, if_neg he, h.1, h.2]
  · rename_i hb
    simp only [Option.some.injEq, Prod.mk.injEq] at h
    rcases b with _ | ⟨c, b⟩
    · exact absurd h.2.symm hr
    unfold scanFrac
    split
    · rename_i r' heq
      rw [List.cons_append, List.cons.injEq] at heq
      exact absurd (by rw [heq.1]) (hb b)
    · rw [← h.1, ← h.2]

theorem expSign_ext (b x : Bytes) (h : b ≠ []) : expSign (b ++ x) = ((expSign b).1, (expSign b).2 ++ x) := by
  rcases b with _ | ⟨c, b⟩
  · exact absurd rfl h
  · simp only [expSign, List.cons_append]
    split <;> rfl

theorem scanExp_ext (b w r x : Bytes) (h : scanExp b = some (w, r)) (hr : r ≠ []) : scanExp (b ++ x) = some (w, r ++ x) := by
  rcases b with _ | ⟨e, b⟩
  · simp only [scanExp, Option.some.injEq, Prod.mk.injEq] at h
    exact absurd h.2.symm hr
  simp only [scanExp, List.cons_append] at h ⊢
  split at h
  · rename_i he
    rw [if_pos he]
    split at h
    · cases h
    · rename_i hd
      simp only [Option.some.injEq, Prod.mk.injEq] at h
      have hb : b ≠ [] := by rintro rfl; simp [expSign] at hd
      obtain ⟨k1, k2⟩ := digits_ext (expSign b).2 x (by rw [h.2]; exact hr)
      rw [expSign_ext b x hb]
      simp only [k1, k2, if_neg hd, h.1, h.2]
  · rename_i he
    rw [if_neg he]
    simp only [Option.some.injEq, Prod.mk.injEq] at h
    rw [← h.1, ← h.2]; rfl

theorem scanSign_ext (b x : Bytes) (h : b ≠ []) : scanSign (b ++ x) = ((scanSign b).1, (scanSign b).2 ++ x) := by
  rcases b with _ | ⟨c, b⟩
  · exact absurd rfl h
  by_cases hc : c = 45
  · subst hc; rfl
  · have : ∀ t, scanSign (c :: t) = ([], c :: t) := by
      intro t; unfold scanSign; split
      · rename_i heq; simp only [List.cons.injEq] at heq; exact absurd heq.1 hc
      · rfl
    rw [List.cons_append, this, this]; rfl

/-- Scanners leave the rest non-empty only if they were given something. -/
theorem scanDigits_rest (b w r : Bytes) (h : scanDigits b = some (w, r)) : b ≠ [] := by
  rintro rfl; simp [scanDigits] at h

theorem scanFrac_rest (b w r : Bytes) (h : scanFrac b = some (w, r)) (hr : r ≠ []) : b ≠ [] := by
  rintro rfl; simp [scanFrac] at h; exact hr h.2

theorem scanExp_rest (b w r : Bytes) (h : scanExp b = some (w, r)) (hr : r ≠ []) : b ≠ [] := by
  rintro rfl; simp [scanExp] at h; exact hr h.2

theorem scanNum_ext (b w r x : Bytes) (h : scanNum b = some (w, r)) (hr : r ≠ []) : scanNum (b ++ x) = some (w, r ++ x) := by
  unfold scanNum at h ⊢
  simp only [Option.bind_eq_bind, Option.bind_eq_some_iff, Prod.exists] at h
  obtain ⟨ds, r1, h1, fr, r2, h2, ex, r3, h3, h4⟩ := h
  simp only [Option.pure_def, Option.some.injEq, Prod.mk.injEq] at h4
  obtain ⟨h4, rfl⟩ := h4
  have hr2 := scanExp_rest _ _ _ h3 hr
  have hr1 := scanFrac_rest _ _ _ h2 hr2
  have hb : b ≠ [] := by rintro rfl; simp [scanSign, scanDigits] at h1
  rw [scanSign_ext b x hb]
  simp only [scanDigits_ext _ _ _ x h1 hr1, scanFrac_ext _ _ _ x h2 hr2, scanExp_ext _ _ _ x h3 hr, Option.bind_eq_bind, Option.bind_some, Option.pure_def, h4]

theorem members_ext (pv : Bytes → Option (JVal × Bytes)) (hpv : Ext pv) : ∀ (n : Nat) (b : Bytes) (l : List (GoString × JVal)) (r x : Bytes),
    members pv n b = some (l, r) → members pv n (b ++ x) = some (l, r ++ x) := by
  intro n
  induction n with
  | zero => intro b l r x h; simp [members] at h
  | succ n ih =>
    intro b l r x h
    rw [members] at h
    split at h
    case h_2 => cases h
    rename_i r0 hs
    split at h
    case h_1 => cases h
    rename_i k r1 hk
    split at h
    case h_2 => cases h
    rename_i r2 h2
    split at h
    case h_1 => cases h
    rename_i v r3 hv
    have h3 : skipWs r3 ≠ [] → r3 ≠ [] := by rintro h rfl; exact h rfl
    split at h
    · rename_i r4 h4
      obtain ⟨y, hy, hw⟩ := Option.map_eq_some_iff.1 h
      simp only [Prod.mk.injEq] at hw
      rw [members, skipWs_ext hs x]
      simp only [parseStr_ext _ _ _ x hk, skipWs_ext h2 x, hpv _ _ _ x hv (.inl (h3 (by rw [h4]; simp))), skipWs_ext h4 x, ih r4 y.1 y.2 x hy]
      rw [Option.map_some, ← hw.1, ← hw.2]
    · rename_i r4 h4
      simp only [Option.some.injEq, Prod.mk.injEq] at h
      rw [members, skipWs_ext hs x]
      simp only [parseStr_ext _ _ _ x hk, skipWs_ext h2 x, hpv _ _ _ x hv (.inl (h3 (by rw [h4]; simp))), skipWs_ext h4 x]
      rw [h.1, h.2]
    · cases h

theorem elements_ext (pv : Bytes → Option (JVal × Bytes)) (hpv : Ext pv) : ∀ (n : Nat) (b : Bytes) (l : List JVal) (r x : Bytes),
    elements pv n b = some (l, r) → elements pv n (b ++ x) = some (l, r ++ x) := by
  intro n
  induction n with
  | zero => intro b l r x h; simp [elements] at h
  | succ n ih =>
    intro b l r x h
    rw [elements] at h
    split at h
    case h_1 => cases h
    rename_i v r3 hv
    have h3 : skipWs r3 ≠ [] → r3 ≠ [] := by rintro h rfl; exact h rfl
    split at h
    · rename_i r4 h4
      obtain ⟨y, hy, hw⟩ := Option.map_eq_some_iff.1 h
      simp only [Prod.mk.injEq] at hw
      rw [elements]
      simp only [hpv _ _ _ x hv (.inl (h3 (by rw [h4]; simp))), skipWs_ext h4 x, ih r4 y.1 y.2 x hy]
      rw [Option.map_some, ← hw.1, ← hw.2]
    · rename_i r4 h4
      simp only [Option.some.injEq, Prod.mk.injEq] at h
      rw [elements]
      simp only [hpv _ _ _ x hv (.inl (h3 (by rw [h4]; simp))), skipWs_ext h4 x]
      rw [h.1, h.2]
    · cases h

theorem elements_fuel (pv : Bytes → Option (JVal × Bytes)) : ∀ (n m : Nat) (b : Bytes) (x : List JVal × Bytes), n ≤ m →
    elements pv n b = some x → elements pv m b = some x := by
  intro n
  induction n with
  | zero => intro m b x _ h; simp [elements] at h
  | succ n ih =>
    intro m b x hm h
    rcases m with _ | m
    · omega
    rw [elements] at h ⊢
    split at h
    · cases h
    rename_i v r3 hv
    try simp only [hv]
    split at h
    · rename_i r4 h4
      try simp only [h4]
      obtain ⟨y, hy, rfl⟩ := Option.map_eq_some_iff.1 h
      rw [ih m r4 y (by omega) hy]
      rfl
    · rename_i r4 h4
      exact h
    · cases h

theorem scanNum_head (b w r : Bytes) (h : scanNum b = some (w, r)) : ∃ a t, b = a :: t ∧ (isDigit a = true ∨ a = 45) := by
  unfold scanNum at h
  simp only [Option.bind_eq_bind, Option.bind_eq_some_iff, Prod.exists] at h
  obtain ⟨ds, r1, h1, -⟩ := h
  rcases b with _ | ⟨a, b⟩
  · simp [scanSign, scanDigits] at h1
  refine ⟨a, b, rfl, ?_⟩
  by_cases ha : a = 45
  · exact .inr ha
  left
  have : scanSign (a :: b) = ([], a :: b) := by
    unfold scanSign; split
    · rename_i heq; simp only [List.cons.injEq] at heq; exact absurd heq.1 ha
    · rfl
  rw [this] at h1
  by_cases h48 : a = 48
  · subst h48; rfl
  unfold scanDigits at h1
  split at h1
  · rename_i heq; simp only [List.cons.injEq] at heq; exact absurd heq.1 h48
  · by_cases hd : isDigit a = true
    · exact hd
    · simp [hd] at h1

theorem parseVal_ne {n : Nat} {b : Bytes} {x : JVal × Bytes} (h : parseVal n b = some x) : skipWs b ≠ [] := by
  intro hb
  rcases n with _ | n
  · simp [parseVal] at h
  · rw [parseVal, hb] at h
    simp [scanNum, scanSign, scanDigits] at h

theorem parseVal_ext : ∀ n, Ext (parseVal n) := by
  intro n
  induction n with
  | zero => intro b v r x h; simp [parseVal] at h
  | succ n ih =>
    intro b v r x h hr
    rw [parseVal] at h ⊢
    split at h
    · rename_i r0 hs
      rw [skipWs_ext hs x]
      simp only []
      split at h
      · rename_i r1 h1
        by_cases hn : n = 0
        · rw [if_pos hn] at h; cases h
        rw [if_neg hn] at h
        simp only [Option.some.injEq, Prod.mk.injEq] at h
        simp only [skipWs_ext h1 x, if_neg hn, ← h.1, ← h.2]
      · rename_i h1
        obtain ⟨y, hy, hw⟩ := Option.map_eq_some_iff.1 h
        simp only [Prod.mk.injEq] at hw
        have h2 := members_fuel _ _ (r0 ++ x).length _ _ (by simp) (members_ext _ ih _ _ _ _ x hy)
        have h3 : ∃ r2, skipWs r0 = 34 :: r2 := by
          generalize r0.length = k at hy
          rcases k with _ | k
          · simp [members] at hy
          rw [members] at hy
          split at hy
          · rename_i r2 h5; exact ⟨r2, h5⟩
          · cases hy
        obtain ⟨r2, h3⟩ := h3
        simp only [skipWs_ext h3 x, h2]
        simp only [Option.map_some, ← hw.1, ← hw.2]
        rfl
    · rename_i r0 hs
      rw [skipWs_ext hs x]
      simp only []
      split at h
      · rename_i r1 h1
        by_cases hn : n = 0
        · rw [if_pos hn] at h; cases h
        rw [if_neg hn] at h
        simp only [Option.some.injEq, Prod.mk.injEq] at h
        simp only [skipWs_ext h1 x, if_neg hn, ← h.1, ← h.2]
      · rename_i h1
        obtain ⟨y, hy, hw⟩ := Option.map_eq_some_iff.1 h
        simp only [Prod.mk.injEq] at hw
        have h2 := elements_fuel _ _ (r0 ++ x).length _ _ (by simp) (elements_ext _ ih _ _ _ _ x hy)
        have h3 : skipWs r0 ≠ [] := by
          generalize r0.length = k at hy
          rcases k with _ | k
          · simp [elements] at hy
          rw [elements] at hy
          split at hy
          · cases hy
          · rename_i v r3 hv; exact parseVal_ne hv
        have h4 : ∀ r', skipWs (r0 ++ x) ≠ 93 :: r' := by
          intro r' he
          rw [skipWs_append r0 h3] at he
          rcases hq : skipWs r0 with _ | ⟨c, q⟩
          · exact h3 hq
          · rw [hq, List.cons_append, List.cons.injEq] at he
            exact h1 q (by rw [hq, he.1])
        split
        · rename_i r' he; exact absurd he (h4 r')
        · rw [h2, Option.map_some, ← hw.1, ← hw.2]
    · rename_i r0 hs
      rw [skipWs_ext hs x]
      obtain ⟨y, hy, hw⟩ := Option.map_eq_some_iff.1 h
      simp only [Prod.mk.injEq] at hw
      simp only [parseStr_ext _ _ _ x hy, Option.map_some, ← hw.1, ← hw.2]
    · rename_i r0 hs
      rw [skipWs_ext hs x]
      simp only [Option.some.injEq, Prod.mk.injEq] at h
      simp only [List.cons_append, ← h.1, ← h.2]
    · rename_i r0 hs
      rw [skipWs_ext hs x]
      simp only [Option.some.injEq, Prod.mk.injEq] at h
      simp only [List.cons_append, ← h.1, ← h.2]
    · rename_i r0 hs
      rw [skipWs_ext hs x]
      simp only [Option.some.injEq, Prod.mk.injEq] at h
      simp only [List.cons_append, ← h.1, ← h.2]
    · rename_i h1 h2 h3 h4 h5 h6
      obtain ⟨y, hy, hw⟩ := Option.map_eq_some_iff.1 h
      simp only [Prod.mk.injEq] at hw
      obtain ⟨a, w, e1, e2⟩ := scanNum_head _ _ _ hy
      have hne : r ≠ [] := by
        rcases hr with hr | hr
        · exact hr
        · exact absurd hw.1.symm (hr _)
      have := parseVal_num' n (b ++ x) a (w ++ x) (skipWs_ext e1 x) e2
      rw [parseVal] at this
      refine this.trans ?_
      rw [← List.cons_append, ← e1, scanNum_ext _ _ _ x hy (by rw [hw.2]; exact hne), Option.map_some, ← hw.1, hw.2]

/-- No proper prefix of an encoded index can be read. -/
theorem decode_prefix (j : IndexJSON) (p : Bytes) (hp : p <+: encode j) (hne : p ≠ encode j) : decode p = none := by
  obtain ⟨x, hx⟩ := hp
  have hx0 : x ≠ [] := by rintro rfl; exact hne (by simpa using hx)
  have key : parseDoc p = none := by
    unfold parseDoc
    cases hv : parseVal 10001 p with
    | none => rfl
    | some y =>
      obtain ⟨v, r⟩ := y
      simp only []
      split
      · rename_i hr
        exfalso
        have hfull := parseVal_encode 9997 j []
        rw [List.append_nil] at hfull
        by_cases hnum : r ≠ [] ∨ ∀ lit, v ≠ .num lit
        · have := parseVal_ext _ _ _ _ x hv hnum
          rw [hx, hfull] at this
          simp only [Option.some.injEq, Prod.mk.injEq] at this
          have h2 := this.2
          cases r with
          | nil => exact hx0 h2.symm
          | cons => simp at h2
        · -- a number at the top: the text would have to start with a digit
          have h1 : ∃ lit, v = .num lit := by
            refine Classical.byContradiction fun hh => hnum (.inr fun lit hl => hh ⟨lit, hl⟩)
          obtain ⟨lit, rfl⟩ := h1
          rcases p with _ | ⟨c, p⟩
          · exact parseVal_ne hv rfl
          · have hc : c = 123 := by
              have := congrArg List.head? hx
              simpa [encode] using this
            subst hc
            rw [parseVal, skipWs_cons 123 _ rfl] at hv
            simp only [] at hv
            split at hv
            · cases hv
            · obtain ⟨y, -, hy⟩ := Option.map_eq_some_iff.1 hv
              cases hy
      · rfl
  unfold decode
  rw [key]
  rfl

end Flu.Json

/-- Go's `encoding/json` obeys the laws that the catalogue theorems assume. -/
def Flu.goJson : Flu.JsonCodec where
  enc := Flu.Json.encode
  dec := Flu.Json.decode
  fix := Flu.Json.fix
  fix_ascii := Flu.Json.fix_ascii
  fix_idem := Flu.Json.fix_idem
  dec_enc := Flu.Json.decode_encode
  dec_prefix := Flu.Json.decode_prefix
