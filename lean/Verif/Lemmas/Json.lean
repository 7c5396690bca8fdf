import Verif.Model.Json
/-!
# Lemmas about the JSON model
-/
namespace Flu.Json

/-! ### UTF-8 -/

/-- The possible shapes of a valid first character. -/
theorem runeLen_cases (s : Bytes) : runeLen s = 0 ∨
    (∃ a r, s = a :: r ∧ a < 0x80 ∧ ∀ t, runeLen (a :: t) = 1) ∨
    (∃ a b r, s = a :: b :: r ∧ 0x80 ≤ a ∧ 0x80 ≤ b ∧ ∀ t, runeLen (a :: b :: t) = 2) ∨
    (∃ a b c r, s = a :: b :: c :: r ∧ 0x80 ≤ a ∧ 0x80 ≤ b ∧ 0x80 ≤ c ∧ ∀ t, runeLen (a :: b :: c :: t) = 3) ∨
    (∃ a b c d r, s = a :: b :: c :: d :: r ∧ 0x80 ≤ a ∧ 0x80 ≤ b ∧ 0x80 ≤ c ∧ 0x80 ≤ d ∧ ∀ t, runeLen (a :: b :: c :: d :: t) = 4) := by
  have hw : ∀ lo hi c, within lo hi c = true → lo ≤ c := by
    intro lo hi c h; simp only [within, Bool.and_eq_true, decide_eq_true_eq] at h; exact h.1
  rcases s with _ | ⟨a, s⟩
  · left; rfl
  by_cases h1 : a < 0x80
  · right; left; exact ⟨a, s, rfl, h1, fun t => by simp [runeLen, h1]⟩
  have ha : 0x80 ≤ a := UInt8.not_lt.1 h1
  by_cases h2 : within 0xC2 0xDF a = true
  · rcases s with _ | ⟨b, s⟩
    · left; simp [runeLen, h1, h2]
    by_cases h : within 0x80 0xBF b = true
    · right; right; left
      exact ⟨a, b, s, rfl, ha, hw _ _ _ h, fun t => by simp [runeLen, h1, h2, h]⟩
    · left; simp [runeLen, h1, h2, h]
  by_cases h3 : within 0xE0 0xEF a = true
  · rcases s with _ | ⟨b, _ | ⟨c, s⟩⟩
    · left; simp [runeLen, h1, h2, h3]
    · left; simp [runeLen, h1, h2, h3]
    by_cases h : (within (if a = 0xE0 then 0xA0 else 0x80) (if a = 0xED then 0x9F else 0xBF) b && within 0x80 0xBF c) = true
    · right; right; right; left
      refine ⟨a, b, c, s, rfl, ha, ?_, ?_, fun t => ?_⟩
      · have := hw _ _ _ (Bool.and_eq_true _ _ ▸ h).1
        split at this
        · exact UInt8.le_trans (by decide) this
        · exact this
      · exact hw _ _ _ (Bool.and_eq_true _ _ ▸ h).2
      · simp only [runeLen, h1, if_false, h2, h3, if_true, h, Bool.false_eq_true]
    · left
      simp only [runeLen, h1, if_false, h2, h3, if_true, h, Bool.false_eq_true]
  by_cases h4 : within 0xF0 0xF4 a = true
  · rcases s with _ | ⟨b, _ | ⟨c, _ | ⟨d, s⟩⟩⟩
    · left; simp [runeLen, h1, h2, h3, h4]
    · left; simp [runeLen, h1, h2, h3, h4]
    · left; simp [runeLen, h1, h2, h3, h4]
    by_cases h : (within (if a = 0xF0 then 0x90 else 0x80) (if a = 0xF4 then 0x8F else 0xBF) b && within 0x80 0xBF c && within 0x80 0xBF d) = true
    · right; right; right; right
      have hh := h
      simp only [Bool.and_eq_true] at hh
      refine ⟨a, b, c, d, s, rfl, ha, ?_, hw _ _ _ hh.1.2, hw _ _ _ hh.2, fun t => ?_⟩
      · have := hw _ _ _ hh.1.1
        split at this
        · exact UInt8.le_trans (by decide) this
        · exact this
      · simp only [runeLen, h1, if_false, h2, h3, h4, if_true, h, Bool.false_eq_true]
    · left
      simp only [runeLen, h1, if_false, h2, h3, h4, if_true, h, Bool.false_eq_true]
  · left; simp [runeLen, h1, h2, h3, h4]

theorem fixFuel_fuel : ∀ (n m : Nat) (s : Bytes), s.length ≤ n → s.length ≤ m → fixFuel n s = fixFuel m s := by
  intro n
  induction n with
  | zero => intro m s h _; rcases s with _ | ⟨a, s⟩; · cases m <;> rfl
            · simp at h
  | succ n ih =>
    intro m s h1 h2
    rcases s with _ | ⟨a, s⟩
    · cases m <;> rfl
    rcases m with _ | m
    · simp at h2
    simp only [List.length_cons, Nat.add_le_add_iff_right] at h1 h2
    simp only [fixFuel]
    cases runeLen (a :: s) with
    | zero => simp only []; rw [ih m s h1 h2]
    | succ k =>
      simp only []
      rw [ih m _ (by simp; omega) (by simp; omega)]

theorem fix_nil : fix [] = [] := rfl

theorem fix_invalid (a : UInt8) (s : Bytes) (h : runeLen (a :: s) = 0) : fix (a :: s) = replacement ++ fix s := by
  show fixFuel (s.length + 1) (a :: s) = _
  simp only [fixFuel, h]
  rfl

theorem fix_valid (w t : Bytes) (k : Nat) (hw : w.length = k + 1) (h : runeLen (w ++ t) = k + 1) : fix (w ++ t) = w ++ fix t := by
  rcases w with _ | ⟨a, w⟩
  · simp at hw
  show fixFuel ((w ++ t).length + 1) (a :: (w ++ t)) = _
  rw [List.cons_append] at h
  simp only [fixFuel, h]
  have e1 : (a :: (w ++ t)).take (k + 1) = a :: w := by
    have := List.take_left (l₁ := a :: w) (l₂ := t)
    rw [hw] at this; exact this
  have e2 : (a :: (w ++ t)).drop (k + 1) = t := by
    have := List.drop_left (l₁ := a :: w) (l₂ := t)
    rw [hw] at this; exact this
  rw [e1, e2]
  congr 1
  exact fixFuel_fuel _ _ _ (by simp) (Nat.le_refl _)

/-- Induction along the characters. -/
theorem chars_induction {P : Bytes → Prop} (h0 : P []) (hbad : ∀ a s, runeLen (a :: s) = 0 → P s → P (a :: s))
    (hone : ∀ a s, a < 0x80 → (∀ t, runeLen (a :: t) = 1) → P s → P (a :: s))
    (hmore : ∀ w s k, w.length = k + 2 → (∀ c ∈ w, 0x80 ≤ c) → (∀ t, runeLen (w ++ t) = k + 2) → P s → P (w ++ s)) : ∀ s, P s := by
  intro s
  induction hn : s.length using Nat.strongRecOn generalizing s with
  | ind n ih =>
    subst hn
    rcases s with _ | ⟨a, s⟩
    · exact h0
    rcases runeLen_cases (a :: s) with h | ⟨x, r, hs, h1, h⟩ | ⟨x, y, r, hs, h1, h2, h⟩ | ⟨x, y, z, r, hs, h1, h2, h3, h⟩ | ⟨x, y, z, u, r, hs, h1, h2, h3, h4, h⟩
    · exact hbad a s h (ih _ (by simp) s rfl)
    · rw [hs]; exact hone x r h1 h (ih _ (by rw [hs]; simp) r rfl)
    · rw [hs]
      exact hmore [x, y] r 0 rfl (by simp [h1, h2]) h (ih _ (by rw [hs]; simp; omega) r rfl)
    · rw [hs]
      exact hmore [x, y, z] r 1 rfl (by simp [h1, h2, h3]) h (ih _ (by rw [hs]; simp; omega) r rfl)
    · rw [hs]
      exact hmore [x, y, z, u] r 2 rfl (by simp [h1, h2, h3, h4]) h (ih _ (by rw [hs]; simp; omega) r rfl)

theorem fix_ascii (s : GoString) (h : isAscii s) : fix s = s := by
  induction s with
  | nil => rfl
  | cons a s ih =>
    have ha : a < 0x80 := by have := h a (by simp); exact UInt8.lt_iff_toNat_lt.2 this
    have := fix_valid [a] s 0 rfl (by simp [runeLen, ha])
    rw [List.singleton_append] at this
    rw [this, ih (fun c hc => h c (by simp [hc]))]
    rfl

theorem fix_idem (s : GoString) : fix (fix s) = fix s := by
  induction s using chars_induction with
  | h0 => rfl
  | hbad a s h ih =>
    rw [fix_invalid a s h, fix_valid replacement (fix s) 2 rfl (by simp [replacement, runeLen, within])]
    rw [ih]
  | hone a s ha h ih =>
    have := fix_valid [a] s 0 rfl (h s)
    rw [List.singleton_append] at this
    rw [this]
    rw [fix_valid [a] (fix s) 0 rfl (h _), ih]
  | hmore w s k hw _ h ih =>
    rw [fix_valid w s _ hw (h s), fix_valid w (fix s) _ hw (h _), ih]

/-! ### Strings -/

theorem escapeFuel_fuel : ∀ (n m : Nat) (s : Bytes), s.length ≤ n → s.length ≤ m → escapeFuel n s = escapeFuel m s := by
  intro n
  induction n with
  | zero => intro m s h _; rcases s with _ | ⟨a, s⟩; · cases m <;> rfl
            · simp at h
  | succ n ih =>
    intro m s h1 h2
    rcases s with _ | ⟨a, s⟩
    · cases m <;> rfl
    rcases m with _ | m
    · simp at h2
    simp only [List.length_cons, Nat.add_le_add_iff_right] at h1 h2
    simp only [escapeFuel]
    rcases runeLen (a :: s) with _ | _ | k
    · simp only []; rw [ih m s h1 h2]
    · simp only []; rw [ih m s h1 h2]
    · simp only []
      rw [ih m _ (by simp; omega) (by simp; omega)]

def escape (s : GoString) : Bytes := escapeFuel s.length s

theorem escape_nil : escape [] = [] := rfl
/-- `a<b>&"c"\n` as encoding/json writes it. -/
example : escape [97, 60, 98, 62, 38, 34, 99, 34, 10] = ascii "a\\u003cb\\u003e\\u0026\\\"c\\\"\\n" := by decide
theorem escape_invalid (a : UInt8) (s : Bytes) (h : runeLen (a :: s) = 0) : escape (a :: s) = ascii "\\ufffd" ++ escape s := by
  show escapeFuel (s.length + 1) (a :: s) = _
  simp only [escapeFuel, h]; rfl
theorem escape_one (a : UInt8) (s : Bytes) (h : runeLen (a :: s) = 1) : escape (a :: s) = escapeByte a ++ escape s := by
  show escapeFuel (s.length + 1) (a :: s) = _
  simp only [escapeFuel, h]; rfl
theorem escape_more (w t : Bytes) (k : Nat) (hw : w.length = k + 2) (h : runeLen (w ++ t) = k + 2) :
    escape (w ++ t) = (if w = [0xE2, 0x80, 0xA8] then ascii "\\u2028" else if w = [0xE2, 0x80, 0xA9] then ascii "\\u2029" else w) ++ escape t := by
  rcases w with _ | ⟨a, w⟩
  · simp at hw
  show escapeFuel ((w ++ t).length + 1) (a :: (w ++ t)) = _
  rw [List.cons_append] at h
  simp only [escapeFuel, h]
  have e1 : (a :: (w ++ t)).take (k + 2) = a :: w := by
    have := List.take_left (l₁ := a :: w) (l₂ := t)
    rw [hw] at this; exact this
  have e2 : (a :: (w ++ t)).drop (k + 2) = t := by
    have := List.drop_left (l₁ := a :: w) (l₂ := t)
    rw [hw] at this; exact this
  rw [e1, e2]
  congr 1
  exact escapeFuel_fuel _ _ _ (by simp) (Nat.le_refl _)

theorem unquoteFuel_fuel : ∀ (n m : Nat) (s : Bytes), s.length ≤ n → s.length ≤ m → unquoteFuel n s = unquoteFuel m s := by
  intro n
  induction n with
  | zero => intro m s h _; rcases s with _ | ⟨a, s⟩; · cases m <;> rfl
            · simp at h
  | succ n ih =>
    intro m s h1 h2
    rcases s with _ | ⟨a, s⟩
    · cases m <;> rfl
    rcases m with _ | m
    · simp at h2
    simp only [List.length_cons, Nat.add_le_add_iff_right] at h1 h2
    have hd : ∀ k, unquoteFuel n (s.drop k) = unquoteFuel m (s.drop k) := fun k => ih m _ (by simp; omega) (by simp; omega)
    simp only [unquoteFuel, hd]
    split
    · split
      · rfl
      · split
        · rfl
        · simp only [List.length_cons] at h1 h2
          rw [ih m _ (by omega) (by omega)]
    · cases runeLen (a :: s) with
      | zero => simp only []; rw [ih m s h1 h2]
      | succ k => simp only [List.drop_succ_cons]; rw [hd]

theorem unquote_plain (w t : Bytes) (k : Nat) (hw : w.length = k + 1) (h : runeLen (w ++ t) = k + 1) (h92 : w.head? ≠ some 92) :
    unquote (w ++ t) = w ++ unquote t := by
  rcases w with _ | ⟨a, w⟩
  · simp at hw
  show unquoteFuel ((w ++ t).length + 1) (a :: (w ++ t)) = _
  rw [List.cons_append] at h
  have ha : a ≠ 92 := by simpa using h92
  simp only [unquoteFuel, h, if_neg ha]
  have e1 : (a :: (w ++ t)).take (k + 1) = a :: w := by
    have := List.take_left (l₁ := a :: w) (l₂ := t)
    rw [hw] at this; exact this
  have e2 : (a :: (w ++ t)).drop (k + 1) = t := by
    have := List.drop_left (l₁ := a :: w) (l₂ := t)
    rw [hw] at this; exact this
  rw [e1, e2]
  congr 1
  exact unquoteFuel_fuel _ _ _ (by simp) (Nat.le_refl _)

theorem unquote_u4 (h1 h2 h3 h4 : UInt8) (u : Nat) (t : Bytes) (hu : getu4 [92, 117, h1, h2, h3, h4] = some u) (hs : ¬ (0xD800 ≤ u ∧ u < 0xE000)) :
    unquote (92 :: 117 :: h1 :: h2 :: h3 :: h4 :: t) = encodeRune u ++ unquote t := by
  have hu' : getu4 (92 :: 117 :: h1 :: h2 :: h3 :: h4 :: t) = some u := hu
  show unquoteFuel (_ + 1) _ = _
  simp only [unquoteFuel, hu', if_neg hs, if_true]
  congr 1
  exact unquoteFuel_fuel _ _ _ (by simp; omega) (Nat.le_refl _)

theorem unquote_esc (e : UInt8) (t : Bytes) (he : e ≠ 117) :
    unquote (92 :: e :: t) = (if e = 98 then 8 else if e = 102 then 12 else if e = 110 then 10 else if e = 114 then 13 else if e = 116 then 9 else e) :: unquote t := by
  have hu : getu4 (92 :: e :: t) = none := by
    unfold getu4
    split
    · rename_i heq; simp only [List.cons.injEq, true_and] at heq; exact absurd heq.1 he
    · rfl
  show unquoteFuel (_ + 1) _ = _
  simp only [unquoteFuel, hu, if_true]
  congr 1
  exact unquoteFuel_fuel _ _ _ (by simp) (Nat.le_refl _)

theorem escapeByte_unquote (a : UInt8) (ha : a < 0x80) (h1 : ∀ t, runeLen (a :: t) = 1) (t : Bytes) : unquote (escapeByte a ++ t) = a :: unquote t := by
  unfold escapeByte
  split
  · rename_i h
    rw [show [92, a] ++ t = 92 :: a :: t from rfl, unquote_esc a t (by rcases h with rfl | rfl <;> decide)]
    rcases h with rfl | rfl <;> rfl
  · rename_i hn
    split
    · rename_i h; subst h; exact unquote_esc 110 t (by decide)
    split
    · rename_i h; subst h; exact unquote_esc 114 t (by decide)
    split
    · rename_i h; subst h; exact unquote_esc 116 t (by decide)
    split
    · have key : ∀ c : UInt8, c < 0x80 → getu4 [92, 117, 48, 48, hexDigit (c >>> 4), hexDigit (c &&& 15)] = some c.toNat ∧ encodeRune c.toNat = [c] := by
        intro c hc
        have : c.toNat < 128 := UInt8.lt_iff_toNat_lt.1 hc
        obtain ⟨n, hn, rfl⟩ : ∃ n, n < 128 ∧ c = UInt8.ofNat n := ⟨c.toNat, this, by simp⟩
        have : ∀ n < 128, getu4 [92, 117, 48, 48, hexDigit (UInt8.ofNat n >>> 4), hexDigit (UInt8.ofNat n &&& 15)] = some (UInt8.ofNat n).toNat ∧
            encodeRune (UInt8.ofNat n).toNat = [UInt8.ofNat n] := by decide
        exact this n hn
      have hlt : a.toNat < 128 := UInt8.lt_iff_toNat_lt.1 ha
      have := unquote_u4 48 48 (hexDigit (a >>> 4)) (hexDigit (a &&& 15)) a.toNat t (key a ha).1 (by omega)
      rw [(key a ha).2] at this
      exact this
    · rw [unquote_plain [a] t 0 rfl (h1 t) (by simp at hn ⊢; exact hn.1)]
      rfl

/-- Reading back what was written gives the string with its invalid bytes replaced. -/
theorem unquote_escape (s : GoString) : unquote (escape s) = fix s := by
  induction s using chars_induction with
  | h0 => rfl
  | hbad a s h ih =>
    rw [escape_invalid a s h, fix_invalid a s h, ← ih]
    exact unquote_u4 102 102 102 100 0xFFFD (escape s) (by decide) (by decide)
  | hone a s ha h ih =>
    rw [escape_one a s (h s), escapeByte_unquote a ha h, ih]
    exact (fix_valid [a] s 0 rfl (h s)).symm
  | hmore w s k hw hc h ih =>
    rw [escape_more w s k hw (h s), fix_valid w s _ hw (h s), ← ih]
    split
    · rename_i e; subst e; exact unquote_u4 50 48 50 56 0x2028 (escape s) (by decide) (by decide)
    split
    · rename_i e; subst e; exact unquote_u4 50 48 50 57 0x2029 (escape s) (by decide) (by decide)
    · refine unquote_plain w (escape s) _ hw (h _) ?_
      rcases w with _ | ⟨a, w⟩
      · simp at hw
      · intro e
        simp only [List.head?_cons, Option.some.injEq] at e
        have := hc a (by simp)
        rw [e] at this
        revert this; decide

theorem scanStr_plain (w t : Bytes) (h : ∀ c ∈ w, c ≠ 34 ∧ c ≠ 92 ∧ ¬ c < 32) : scanStr (w ++ t) = (scanStr t).map (fun x => (w ++ x.1, x.2)) := by
  induction w with
  | nil => simp
  | cons a w ih =>
    have ha := h a (by simp)
    rw [List.cons_append, scanStr.eq_def]
    simp only [if_neg ha.1, if_neg ha.2.1, if_neg ha.2.2]
    rw [ih (fun c hc => h c (by simp [hc]))]
    simp [Option.map_map, Function.comp_def]

theorem scanStr_u (h1 h2 h3 h4 : UInt8) (t : Bytes)
    (h : ((hexVal h1).isSome && (hexVal h2).isSome && (hexVal h3).isSome && (hexVal h4).isSome) = true) :
    scanStr (92 :: 117 :: h1 :: h2 :: h3 :: h4 :: t) = (scanStr t).map (fun x => (92 :: 117 :: h1 :: h2 :: h3 :: h4 :: x.1, x.2)) := by
  rw [scanStr.eq_def]
  simp only [h, if_true, show ¬ ((92 : UInt8) = 34) by decide, if_false]

theorem scanStr_escapeByte (a : UInt8) (ha : a < 0x80) (t : Bytes) : scanStr (escapeByte a ++ t) = (scanStr t).map (fun x => (escapeByte a ++ x.1, x.2)) := by
  unfold escapeByte
  split
  · rename_i h
    rcases h with rfl | rfl
    · rw [show [92, 92] ++ t = 92 :: 92 :: t from rfl, scanStr.eq_def]; rfl
    · rw [show [92, 34] ++ t = 92 :: 34 :: t from rfl, scanStr.eq_def]; rfl
  rename_i hn
  split
  · rw [show [92, 110] ++ t = 92 :: 110 :: t from rfl, scanStr.eq_def]; rfl
  split
  · rw [show [92, 114] ++ t = 92 :: 114 :: t from rfl, scanStr.eq_def]; rfl
  split
  · rw [show [92, 116] ++ t = 92 :: 116 :: t from rfl, scanStr.eq_def]; rfl
  split
  · have key : ∀ n < 128, ((hexVal 48).isSome && (hexVal 48).isSome && (hexVal (hexDigit (UInt8.ofNat n >>> 4))).isSome && (hexVal (hexDigit (UInt8.ofNat n &&& 15))).isSome) = true := by decide
    have hlt : a.toNat < 128 := UInt8.lt_iff_toNat_lt.1 ha
    have := key a.toNat hlt
    rw [UInt8.ofNat_toNat] at this
    exact scanStr_u _ _ _ _ t this
  · rename_i hz
    refine scanStr_plain [a] t ?_
    intro c hc
    simp only [List.mem_singleton] at hc
    subst hc
    simp only [not_or] at hn hz
    exact ⟨hn.2, hn.1, hz.1⟩

/-- The scanner finds the closing quote the encoder wrote. -/
theorem scanStr_escape (s : GoString) (t : Bytes) : scanStr (escape s ++ 34 :: t) = some (escape s, t) := by
  induction s using chars_induction with
  | h0 => rw [escape_nil, List.nil_append, scanStr.eq_def]; rfl
  | hbad a s h ih =>
    rw [escape_invalid a s h, List.append_assoc]
    rw [show ascii "\\ufffd" ++ (escape s ++ 34 :: t) = 92 :: 117 :: 102 :: 102 :: 102 :: 100 :: (escape s ++ 34 :: t) from rfl, scanStr_u _ _ _ _ _ (by decide), ih]
    rfl
  | hone a s ha h ih =>
    rw [escape_one a s (h s), List.append_assoc, scanStr_escapeByte a ha, ih]
    rfl
  | hmore w s k hw hc h ih =>
    rw [escape_more w s k hw (h s), List.append_assoc]
    split
    · rw [show ascii "\\u2028" ++ (escape s ++ 34 :: t) = 92 :: 117 :: 50 :: 48 :: 50 :: 56 :: (escape s ++ 34 :: t) from rfl, scanStr_u _ _ _ _ _ (by decide), ih]
      rfl
    split
    · rw [show ascii "\\u2029" ++ (escape s ++ 34 :: t) = 92 :: 117 :: 50 :: 48 :: 50 :: 57 :: (escape s ++ 34 :: t) from rfl, scanStr_u _ _ _ _ _ (by decide), ih]
      rfl
    · rw [scanStr_plain w _ (fun c hm => ?_), ih]; · rfl
      have h1 := hc c hm
      have h2 : 128 ≤ c.toNat := UInt8.le_iff_toNat_le.1 h1
      refine ⟨?_, ?_, ?_⟩
      · rintro rfl; revert h1; decide
      · rintro rfl; revert h1; decide
      · intro hlt
        have : c.toNat < 32 := UInt8.lt_iff_toNat_lt.1 hlt
        omega

theorem parseStr_enc (s : GoString) (t : Bytes) : parseStr (escape s ++ 34 :: t) = some (fix s, t) := by
  unfold parseStr
  rw [scanStr_escape, Option.map_some, unquote_escape]

end Flu.Json
