import Verif.Lemmas.Json2
import Verif.Spec.JsonText
import Verif.Props.Json
/-!
# The decoder accepts every JSON text
-/
namespace Flu.Json
open Flu.Spec

/-! ### White space -/

theorem isSpace_of {c : UInt8} (h : c = 32 ∨ c = 9 ∨ c = 10 ∨ c = 13) : isSpace c = true := decide_eq_true h

theorem skipWs_ws (w r : Bytes) (h : JWs w) : skipWs (w ++ r) = skipWs r := by
  induction w with
  | nil => rfl
  | cons a w ih =>
    have ha : isSpace a = true := isSpace_of (h a (by simp))
    have := ih (fun c hc => h c (by simp [hc]))
    unfold skipWs at this ⊢
    rw [List.cons_append, List.dropWhile_cons_of_pos ha]
    exact this

/-- What may follow a value. -/
def Stops (t : Bytes) : Prop := ∀ c r, t = c :: r → isSpace c = true ∨ c = 44 ∨ c = 93 ∨ c = 125

theorem Stops.ws {w t : Bytes} (hw : JWs w) (ht : Stops t) : Stops (w ++ t) := by
  intro c r h
  rcases w with _ | ⟨a, w⟩
  · exact ht c r h
  · rw [List.cons_append] at h
    injection h with h1 h2
    subst h1
    exact .inl (isSpace_of (hw a (by simp)))

theorem stops_cons (c : UInt8) (r : Bytes) (h : isSpace c = true ∨ c = 44 ∨ c = 93 ∨ c = 125) : Stops (c :: r) := by
  intro c' r' he
  injection he with h1 h2
  rw [← h1]; exact h

theorem stops_nil : Stops [] := fun c r h => by cases h

set_option maxRecDepth 8000 in
theorem stop_not (c : UInt8) (h : isSpace c = true ∨ c = 44 ∨ c = 93 ∨ c = 125) : isDigit c = false ∧ c ≠ 46 ∧ c ≠ 101 ∧ c ≠ 69 := by
  have key : ∀ n < 256, (isSpace (UInt8.ofNat n) = true ∨ UInt8.ofNat n = 44 ∨ UInt8.ofNat n = 93 ∨ UInt8.ofNat n = 125) →
      isDigit (UInt8.ofNat n) = false ∧ UInt8.ofNat n ≠ 46 ∧ UInt8.ofNat n ≠ 101 ∧ UInt8.ofNat n ≠ 69 := by decide
  have := key c.toNat (UInt8.toNat_lt c)
  rw [show UInt8.ofNat c.toNat = c by simp] at this
  exact this h

/-! ### Strings -/

theorem hexDigit_val {c : UInt8} {n : Nat} (h : HexDigit c n) : hexVal c = some n := by
  cases h with
  | dec n h => exact (by decide : ∀ n < 10, hexVal (UInt8.ofNat (48 + n)) = some n) n h
  | low n h => exact (by decide : ∀ n < 6, hexVal (UInt8.ofNat (97 + n)) = some (10 + n)) n h
  | up n h => exact (by decide : ∀ n < 6, hexVal (UInt8.ofNat (65 + n)) = some (10 + n)) n h

theorem encodeRune_utf8 (c : Nat) : encodeRune c = utf8 c := rfl

theorem hex4_getu4 {x : Bytes} {u : Nat} (h : Hex4 x u) : ∃ a b c d, x = [a, b, c, d] ∧ getu4 [92, 117, a, b, c, d] = some u ∧
    ((hexVal a).isSome && (hexVal b).isSome && (hexVal c).isSome && (hexVal d).isSome) = true := by
  cases h with
  | mk ha hb hc hd =>
    refine ⟨_, _, _, _, rfl, ?_, ?_⟩
    · unfold getu4
      simp only [hexDigit_val ha, hexDigit_val hb, hexDigit_val hc, hexDigit_val hd, Option.bind_eq_bind, Option.bind_some]
      rfl
    · simp [hexDigit_val ha, hexDigit_val hb, hexDigit_val hc, hexDigit_val hd]

/-- Two escapes that make a surrogate pair. -/
theorem unquote_pair (a b c d a' b' c' d' : UInt8) (hi lo : Nat) (t : Bytes) (h1 : getu4 [92, 117, a, b, c, d] = some (0xD800 + hi)) (hhi : hi < 1024)
    (h2 : getu4 [92, 117, a', b', c', d'] = some (0xDC00 + lo)) (hlo : lo < 1024) :
    unquote (92 :: 117 :: a :: b :: c :: d :: 92 :: 117 :: a' :: b' :: c' :: d' :: t) = encodeRune (0x10000 + hi * 1024 + lo) ++ unquote t := by
  have h1' : getu4 (92 :: 117 :: a :: b :: c :: d :: 92 :: 117 :: a' :: b' :: c' :: d' :: t) = some (0xD800 + hi) := h1
  have h2' : getu4 (92 :: 117 :: a' :: b' :: c' :: d' :: t) = some (0xDC00 + lo) := h2
  show unquoteFuel (_ + 1) _ = _
  simp only [unquoteFuel, h1', if_true, List.drop_succ_cons, List.drop_zero, h2']
  rw [if_pos (by omega), if_pos (by omega), show (0xD800 + hi - 0xD800) * 1024 + (0xDC00 + lo - 0xDC00) + 0x10000 = 0x10000 + hi * 1024 + lo by omega]
  refine congrArg (encodeRune _ ++ ·) ?_
  · exact unquoteFuel_fuel _ _ _ (by simp; omega) (Nat.le_refl _)

/-- The bytes of a character that needs no escape. -/
theorem utf8_plain (c : Nat) (hc : Scalar c) (h32 : 32 ≤ c) (hq : c ≠ 34) (hb : c ≠ 92) : ∀ x ∈ utf8 c, x ≠ 34 ∧ x ≠ 92 ∧ ¬ x < 32 := by
  have key : ∀ n : Nat, n < 256 → 32 ≤ n → n ≠ 34 → n ≠ 92 → UInt8.ofNat n ≠ 34 ∧ UInt8.ofNat n ≠ 92 ∧ ¬ UInt8.ofNat n < 32 := by
    intro n hn h1 h2 h3
    have e := toNat_ofNat8 n hn
    refine ⟨fun h => h2 (by rw [h] at e; exact e.symm), fun h => h3 (by rw [h] at e; exact e.symm), fun h => ?_⟩
    have := UInt8.lt_iff_toNat_lt.1 h
    rw [e] at this
    have h32' : (32 : UInt8).toNat = 32 := rfl
    omega
  obtain ⟨h1, h2⟩ := hc
  intro x hx
  unfold utf8 at hx
  split at hx
  · simp only [List.mem_singleton] at hx
    subst hx; exact key c (by omega) h32 hq hb
  split at hx
  · simp only [List.mem_cons, List.not_mem_nil, or_false] at hx
    rcases hx with rfl | rfl <;> exact key _ (by omega) (by omega) (by omega) (by omega)
  split at hx
  · simp only [List.mem_cons, List.not_mem_nil, or_false] at hx
    rcases hx with rfl | rfl | rfl <;> exact key _ (by omega) (by omega) (by omega) (by omega)
  · simp only [List.mem_cons, List.not_mem_nil, or_false] at hx
    rcases hx with rfl | rfl | rfl | rfl <;> exact key _ (by omega) (by omega) (by omega) (by omega)

theorem scanStr_esc (e : UInt8) (t : Bytes) (he : e ≠ 117) (h : e = 34 ∨ e = 92 ∨ e = 47 ∨ e = 98 ∨ e = 102 ∨ e = 110 ∨ e = 114 ∨ e = 116) :
    scanStr (92 :: e :: t) = (scanStr t).map (fun x => (92 :: e :: x.1, x.2)) := by
  rw [scanStr.eq_def]
  simp only [if_neg he, if_pos h, if_true, show ¬ ((92 : UInt8) = 34) by decide, if_false]

theorem strText {raw s : Bytes} (h : StrText raw s) : (∀ t, scanStr (raw ++ 34 :: t) = some (raw, t)) ∧ unquote raw = s := by
  induction h with
  | nil => exact ⟨fun t => by rw [List.nil_append, scanStr.eq_def]; simp, rfl⟩
  | @char c r s hc h32 hq hb h ih =>
    have hp := utf8_plain c hc h32 hq hb
    obtain ⟨h1, h2⟩ := runeLen_utf8 c hc r
    refine ⟨fun t => by rw [List.append_assoc, scanStr_plain _ _ hp, ih.1 t]; rfl, ?_⟩
    rw [unquote_plain (utf8 c) r ((utf8 c).length - 1) (by omega) (by omega) ?_, ih.2]
    rcases hu : utf8 c with _ | ⟨a, w⟩
    · simp
    · have := hp a (by rw [hu]; simp)
      simpa using this.2.1
  | @short e v r s he h ih =>
    have key : ∀ p ∈ shortEscapes, p.1 ≠ 117 ∧ (p.1 = 34 ∨ p.1 = 92 ∨ p.1 = 47 ∨ p.1 = 98 ∨ p.1 = 102 ∨ p.1 = 110 ∨ p.1 = 114 ∨ p.1 = 116) ∧
        (if p.1 = 98 then 8 else if p.1 = 102 then 12 else if p.1 = 110 then 10 else if p.1 = 114 then 13 else if p.1 = 116 then 9 else p.1) = p.2 := by decide
    obtain ⟨k1, k2, k3⟩ := key _ he
    refine ⟨fun t => ?_, ?_⟩
    · rw [List.cons_append, List.cons_append, scanStr_esc e _ k1 k2, ih.1 t]; rfl
    · rw [unquote_esc e r k1, ih.2]
      exact congrArg (· :: s) k3
  | @hex x u r s hx hu h ih =>
    obtain ⟨a, b, c, d, rfl, h1, h2⟩ := hex4_getu4 hx
    refine ⟨fun t => ?_, ?_⟩
    · show scanStr (92 :: 117 :: a :: b :: c :: d :: (r ++ 34 :: t)) = _
      rw [scanStr_u a b c d _ h2, ih.1 t]; rfl
    · show unquote (92 :: 117 :: a :: b :: c :: d :: r) = _
      rw [unquote_u4 a b c d u r h1 hu.2, ih.2, encodeRune_utf8]
  | @pair x y hi lo r s hx hhi hy hlo h ih =>
    obtain ⟨a, b, c, d, rfl, h1, h2⟩ := hex4_getu4 hx
    obtain ⟨a', b', c', d', rfl, h3, h4⟩ := hex4_getu4 hy
    refine ⟨fun t => ?_, ?_⟩
    · show scanStr (92 :: 117 :: a :: b :: c :: d :: 92 :: 117 :: a' :: b' :: c' :: d' :: (r ++ 34 :: t)) = _
      rw [scanStr_u a b c d _ h2, scanStr_u a' b' c' d' _ h4, ih.1 t]; rfl
    · show unquote (92 :: 117 :: a :: b :: c :: d :: 92 :: 117 :: a' :: b' :: c' :: d' :: r) = _
      rw [unquote_pair a b c d a' b' c' d' hi lo r h1 hhi h3 hlo, ih.2, encodeRune_utf8]

theorem parseStr_text {raw s : Bytes} (h : StrText raw s) (t : Bytes) : parseStr (raw ++ 34 :: t) = some (s, t) := by
  obtain ⟨h1, h2⟩ := strText h
  unfold parseStr
  rw [h1, Option.map_some, h2]

/-! ### Numbers -/

theorem decText_digits {b : Bytes} {n : Nat} (h : DecText b n) : b ≠ [] ∧ (∀ c ∈ b, isDigit c = true) ∧ natOf b = n := by
  have key : ∀ k < 10, isDigit (UInt8.ofNat (48 + k)) = true ∧ (UInt8.ofNat (48 + k)).toNat - 48 = k := by decide
  induction h with
  | one n h => exact ⟨by simp, by simpa using (key n h).1, by simp only [natOf, List.foldl_cons, List.foldl_nil, (key n h).2]; omega⟩
  | @more n h b m hb ih =>
    refine ⟨by simp, ?_, ?_⟩
    · intro c hc
      rcases List.mem_append.1 hc with hc | hc
      · exact ih.2.1 c hc
      · simp only [List.mem_singleton] at hc
        subst hc; exact (key n h).1
    · have := ih.2.2
      unfold natOf at this ⊢
      rw [List.foldl_append, this, List.foldl_cons, List.foldl_nil, (key n h).2]

/-- Digits up to a byte that is none, or to the end. -/
theorem takeDigits (w r : Bytes) (hw : ∀ c ∈ w, isDigit c = true) (hr : ∀ c r', r = c :: r' → isDigit c = false) :
    (w ++ r).takeWhile isDigit = w ∧ (w ++ r).dropWhile isDigit = r := by
  rcases r with _ | ⟨c, r⟩
  · rw [List.append_nil]
    induction w with
    | nil => exact ⟨rfl, rfl⟩
    | cons a w ih =>
      have ha := hw a (by simp)
      have := ih (fun c hc => hw c (by simp [hc]))
      exact ⟨by rw [List.takeWhile_cons_of_pos ha, this.1], by rw [List.dropWhile_cons_of_pos ha, this.2]⟩
  · exact takeWhile_digits w hw c (hr c r rfl) r

theorem scanNum_text {b : Bytes} (h : NumText b) (t : Bytes) (ht : Stops t) : scanNum (b ++ t) = some (b, t) ∧ ∃ a r, b = a :: r ∧ (isDigit a = true ∨ a = 45) := by
  obtain ⟨sign, int, frac, exp, rfl, h1, ⟨n, h2⟩, h3, h4, h5⟩ := h
  obtain ⟨d1, d2, -⟩ := decText_digits h2
  have hend : ∀ c r', t = c :: r' → isDigit c = false ∧ c ≠ 46 ∧ c ≠ 101 ∧ c ≠ 69 := fun c r' e => stop_not c (ht c r' e)
  -- what follows the exponent, the fraction, the integer part
  have hexp : scanExp (exp ++ t) = some (exp, t) := by
    rcases h5 with rfl | ⟨e, sg, ds, m, he, hsg, hds, rfl⟩
    · unfold scanExp
      rcases t with _ | ⟨c, t⟩
      · rfl
      · have := hend c t rfl
        simp [this]
    · obtain ⟨k1, k2, -⟩ := decText_digits hds
      obtain ⟨k3, k4⟩ := takeDigits ds t k2 (fun c r' e => (hend c r' e).1)
      have hsign : expSign (sg ++ (ds ++ t)) = (sg, ds ++ t) := by
        rcases hsg with rfl | rfl | rfl
        · rcases ds with _ | ⟨a, ds⟩
          · exact absurd rfl k1
          · have ha := digit_ne a (.inl (k2 a (by simp)))
            have : ¬ (a = 43 ∨ a = 45) := by
              have hd := k2 a (by simp)
              rintro (rfl | rfl) <;> exact absurd hd (by decide)
            simp [expSign, this]
        · rfl
        · rfl
      rw [List.cons_append, List.append_assoc]
      unfold scanExp
      simp only [if_pos he, hsign, k3, k4]
      simp [k1]
  have hexp' : ∀ c r', exp ++ t = c :: r' → isDigit c = false ∧ c ≠ 46 := by
    intro c r' e
    rcases h5 with rfl | ⟨x, sg, ds, m, he, -, -, rfl⟩
    · exact ⟨(hend c r' e).1, (hend c r' e).2.1⟩
    · rw [List.cons_append] at e
      injection e with e1 e2
      subst e1
      rcases he with rfl | rfl <;> decide
  have hfrac : scanFrac (frac ++ (exp ++ t)) = some (frac, exp ++ t) := by
    rcases h4 with rfl | ⟨ds, m, hds, rfl⟩
    · unfold scanFrac
      rw [List.nil_append]
      split
      · rename_i r heq
        exact absurd rfl (hexp' 46 r heq).2
      · rfl
    · obtain ⟨k1, k2, -⟩ := decText_digits hds
      obtain ⟨k3, k4⟩ := takeDigits ds (exp ++ t) k2 (fun c r' e => (hexp' c r' e).1)
      rw [List.cons_append]
      unfold scanFrac
      simp only [k3, k4]
      simp [k1]
  have hfrac' : ∀ c r', frac ++ (exp ++ t) = c :: r' → isDigit c = false := by
    intro c r' e
    rcases h4 with rfl | ⟨ds, m, hds, rfl⟩
    · exact (hexp' c r' e).1
    · rw [List.cons_append] at e
      injection e with e1 e2
      subst e1; decide
  have hdig : scanDigits (int ++ (frac ++ (exp ++ t))) = some (int, frac ++ (exp ++ t)) := by
    obtain ⟨k3, k4⟩ := takeDigits int (frac ++ (exp ++ t)) d2 hfrac'
    rcases h3 with rfl | h3
    · rfl
    · unfold scanDigits
      split
      · rename_i r heq
        rcases int with _ | ⟨a, int⟩
        · exact absurd rfl d1
        · rw [List.cons_append] at heq
          injection heq with e1 e2
          subst e1; exact absurd rfl h3
      · rw [k3, k4]
        simp [d1]
  obtain ⟨a, int', hint⟩ : ∃ a r, int = a :: r := by
    rcases int with _ | ⟨a, r⟩
    · exact absurd rfl d1
    · exact ⟨a, r, rfl⟩
  have ha : isDigit a = true := d2 a (by rw [hint]; simp)
  have hsign : scanSign (sign ++ (int ++ (frac ++ (exp ++ t)))) = (sign, int ++ (frac ++ (exp ++ t))) := by
    rcases h1 with rfl | rfl
    · unfold scanSign
      rw [List.nil_append]
      split
      · rename_i r heq
        rw [hint, List.cons_append] at heq
        injection heq with e1 e2
        subst e1; exact absurd ha (by decide)
      · rfl
    · rfl
  refine ⟨?_, ?_⟩
  · rw [List.append_assoc, List.append_assoc, List.append_assoc]
    unfold scanNum
    simp only [hsign, hdig, hfrac, hexp, Option.bind_eq_bind, Option.bind_some]
    simp
  · rcases h1 with rfl | rfl
    · exact ⟨a, int' ++ (frac ++ exp), by rw [hint]; rfl, .inl ha⟩
    · exact ⟨45, _, rfl, .inr rfl⟩

theorem intOf_text {b : Bytes} {i : Int} (h : IntText b i) : intOf b = some i := by
  obtain ⟨-, ds, n, h1, h2⟩ := h
  obtain ⟨d1, d2, d3⟩ := decText_digits h1
  have hall : ds.all isDigit = true := List.all_eq_true.2 d2
  rcases h2 with ⟨rfl, rfl⟩ | ⟨rfl, rfl⟩
  · unfold intOf
    split
    · rename_i r
      exact absurd (d2 45 (by simp)) (by decide)
    · rw [hall, d3]; rfl
  · simp only [intOf, hall, if_true, d3]

/-! ### Values -/

/-- A parser that accepts these texts. -/
def Reads (pv : Bytes → Option (JVal × Bytes)) (V : Bytes → JVal → Prop) : Prop :=
  ∀ w b v t, JWs w → V b v → Stops t → pv (w ++ (b ++ t)) = some (v, t)

theorem atom_head {b : Bytes} {v : JVal} (h : AtomText b v) : ∃ a r, b = a :: r ∧ isSpace a = false ∧ a ≠ 93 := by
  cases h with
  | num h =>
    obtain ⟨-, a, r, h1, h2⟩ := scanNum_text h [] stops_nil
    refine ⟨a, r, h1, (digit_ne a h2).1, ?_⟩
    rintro rfl
    rcases h2 with h2 | h2
    · exact absurd h2 (by decide)
    · cases h2
  | _ => exact ⟨_, _, rfl, rfl, by decide⟩

theorem valText_head : ∀ {n : Nat} {b : Bytes} {v : JVal}, ValText n b v → ∃ a r, b = a :: r ∧ isSpace a = false ∧ a ≠ 93
  | 0, b, v, h => atom_head h
  | n + 1, b, v, h => by
    rcases h with h | ⟨w, -, rfl, -⟩ | ⟨body, l, -, rfl, -⟩ | ⟨w, -, rfl, -⟩ | ⟨body, l, -, rfl, -⟩
    · exact atom_head h
    all_goals exact ⟨_, _, rfl, rfl, by decide⟩

theorem parseVal_atom (n : Nat) (w b : Bytes) (v : JVal) (t : Bytes) (hw : JWs w) (h : AtomText b v) (ht : Stops t) : parseVal (n + 1) (w ++ (b ++ t)) = some (v, t) := by
  cases h with
  | num h =>
    obtain ⟨h1, a, r, h2, h3⟩ := scanNum_text h t ht
    have hs : skipWs (w ++ (b ++ t)) = a :: (r ++ t) := by
      rw [skipWs_ws w _ hw, h2, List.cons_append, skipWs_cons a _ (digit_ne a h3).1]
    rw [parseVal_num' n _ a (r ++ t) hs h3, ← List.cons_append, ← h2, h1]
    rfl
  | str h =>
    rw [List.cons_append, List.append_assoc, List.singleton_append]
    unfold parseVal
    rw [skipWs_ws w _ hw, skipWs_cons 34 _ rfl]
    simp only [parseStr_text h t, Option.map_some]
  | null => unfold parseVal; rw [skipWs_ws w _ hw, List.cons_append, skipWs_cons 110 _ rfl]; rfl
  | true => unfold parseVal; rw [skipWs_ws w _ hw, List.cons_append, skipWs_cons 116 _ rfl]; rfl
  | false => unfold parseVal; rw [skipWs_ws w _ hw, List.cons_append, skipWs_cons 102 _ rfl]; rfl

theorem elements_text {pv : Bytes → Option (JVal × Bytes)} {V : Bytes → JVal → Prop} (hpv : Reads pv V) {body : Bytes} {l : List JVal} (h : ElemsText V body l) (t : Bytes) :
    ∀ k, body.length + 1 ≤ k → elements pv k (body ++ 93 :: t) = some (l, t) := by
  induction h with
  | @one w b w' v hw hv hw' =>
    intro k hk
    rcases k with _ | k
    · omega
    have h1 := hpv w b v (w' ++ 93 :: t) hw hv ((stops_cons 93 t (by simp)).ws hw')
    rw [List.append_assoc, List.append_assoc, elements, h1]
    simp only [skipWs_ws w' _ hw', skipWs_cons 93 _ rfl]
  | @more w b w' rest v l hw hv hw' h ih =>
    intro k hk
    rcases k with _ | k
    · omega
    have h1 := hpv w b v (w' ++ 44 :: (rest ++ 93 :: t)) hw hv ((stops_cons 44 _ (by simp)).ws hw')
    rw [show w ++ (b ++ (w' ++ 44 :: rest)) ++ 93 :: t = w ++ (b ++ (w' ++ 44 :: (rest ++ 93 :: t))) by simp, elements, h1]
    simp only [skipWs_ws w' _ hw', skipWs_cons 44 _ rfl]
    rw [ih k (by simp at hk; omega)]
    rfl

theorem members_text {pv : Bytes → Option (JVal × Bytes)} {V : Bytes → JVal → Prop} (hpv : Reads pv V) {body : Bytes} {l : List (Bytes × JVal)} (h : MembersText V body l) (t : Bytes) :
    ∀ k, body.length + 1 ≤ k → members pv k (body ++ 125 :: t) = some (l, t) := by
  induction h with
  | @one w raw key w1 w2 b w3 v hw hk hw1 hw2 hv hw3 =>
    intro k hlen
    rcases k with _ | k
    · omega
    have h1 := hpv w2 b v (w3 ++ 125 :: t) hw2 hv ((stops_cons 125 t (by simp)).ws hw3)
    rw [show w ++ 34 :: (raw ++ 34 :: (w1 ++ 58 :: (w2 ++ (b ++ w3)))) ++ 125 :: t = w ++ 34 :: (raw ++ 34 :: (w1 ++ 58 :: (w2 ++ (b ++ (w3 ++ 125 :: t))))) by simp, members,
      skipWs_ws w _ hw, skipWs_cons 34 _ rfl]
    simp only [parseStr_text hk, skipWs_ws w1 _ hw1, skipWs_cons 58 _ rfl, h1, skipWs_ws w3 _ hw3, skipWs_cons 125 _ rfl]
  | @more w raw key w1 w2 b w3 rest v l hw hk hw1 hw2 hv hw3 h ih =>
    intro k hlen
    rcases k with _ | k
    · omega
    have h1 := hpv w2 b v (w3 ++ 44 :: (rest ++ 125 :: t)) hw2 hv ((stops_cons 44 _ (by simp)).ws hw3)
    rw [show w ++ 34 :: (raw ++ 34 :: (w1 ++ 58 :: (w2 ++ (b ++ (w3 ++ 44 :: rest))))) ++ 125 :: t =
      w ++ 34 :: (raw ++ 34 :: (w1 ++ 58 :: (w2 ++ (b ++ (w3 ++ 44 :: (rest ++ 125 :: t)))))) by simp, members, skipWs_ws w _ hw, skipWs_cons 34 _ rfl]
    simp only [parseStr_text hk, skipWs_ws w1 _ hw1, skipWs_cons 58 _ rfl, h1, skipWs_ws w3 _ hw3, skipWs_cons 44 _ rfl]
    rw [ih k (by simp at hlen; omega)]
    rfl

/-- The first byte of the elements of an array that is not white space. -/
theorem elems_head {n : Nat} {body : Bytes} {l : List JVal} (h : ElemsText (ValText n) body l) (t : Bytes) : ∃ a r, skipWs (body ++ t) = a :: r ∧ a ≠ 93 := by
  cases h with
  | @one w b w' v hw hv hw' =>
    obtain ⟨a, r, rfl, h2, h3⟩ := valText_head hv
    refine ⟨a, r ++ w' ++ t, ?_, h3⟩
    rw [List.append_assoc, skipWs_ws w _ hw]
    simp only [List.cons_append, skipWs_cons a _ h2]
  | @more w b w' rest v l hw hv hw' h =>
    obtain ⟨a, r, rfl, h2, h3⟩ := valText_head hv
    refine ⟨a, r ++ (w' ++ 44 :: rest) ++ t, ?_, h3⟩
    rw [List.append_assoc, skipWs_ws w _ hw]
    simp only [List.cons_append, skipWs_cons a _ h2]

theorem members_head {V : Bytes → JVal → Prop} {body : Bytes} {l : List (Bytes × JVal)} (h : MembersText V body l) (t : Bytes) : ∃ r, skipWs (body ++ t) = 34 :: r := by
  cases h with
  | @one w raw key w1 w2 b w3 v hw hk hw1 hw2 hv hw3 =>
    rw [List.append_assoc, skipWs_ws w _ hw, List.cons_append, skipWs_cons 34 _ rfl]
    exact ⟨_, rfl⟩
  | @more w raw key w1 w2 b w3 rest v l hw hk hw1 hw2 hv hw3 h =>
    rw [List.append_assoc, skipWs_ws w _ hw, List.cons_append, skipWs_cons 34 _ rfl]
    exact ⟨_, rfl⟩

theorem parseVal_text : ∀ n, Reads (parseVal (n + 1)) (ValText n)
  | 0 => fun w b v t hw h ht => parseVal_atom 0 w b v t hw h ht
  | n + 1 => fun w b v t hw h ht => by
    have ih := parseVal_text n
    rcases h with h | ⟨w1, h1, rfl, rfl⟩ | ⟨body, l, h1, rfl, rfl⟩ | ⟨w1, h1, rfl, rfl⟩ | ⟨body, l, h1, rfl, rfl⟩
    · exact parseVal_atom (n + 1) w b v t hw h ht
    · rw [parseVal, skipWs_ws w _ hw, List.cons_append, skipWs_cons 91 _ rfl]
      simp only [List.append_assoc, List.singleton_append, skipWs_ws w1 _ h1, skipWs_cons 93 _ rfl, Nat.add_one_ne_zero, if_false]
    · obtain ⟨a, r, h2, h3⟩ := elems_head h1 (93 :: t)
      have h4 := elements_text ih h1 t (body ++ 93 :: t).length (by simp)
      rw [parseVal, skipWs_ws w _ hw, List.cons_append, skipWs_cons 91 _ rfl]
      simp only [List.append_assoc, List.singleton_append, h2, h4, Option.map_some]
      split
      · rename_i heq; injection heq with e1 _; exact absurd e1 h3
      · rfl
    · rw [parseVal, skipWs_ws w _ hw, List.cons_append, skipWs_cons 123 _ rfl]
      simp only [List.append_assoc, List.singleton_append, skipWs_ws w1 _ h1, skipWs_cons 125 _ rfl, Nat.add_one_ne_zero, if_false]
    · obtain ⟨r, h2⟩ := members_head h1 (125 :: t)
      have h4 := members_text ih h1 t (body ++ 125 :: t).length (by simp)
      rw [parseVal, skipWs_ws w _ hw, List.cons_append, skipWs_cons 123 _ rfl]
      simp only [List.append_assoc, List.singleton_append, h2, h4, Option.map_some]
      rfl

/-- The decoder reads every JSON text as what it is. -/
theorem parseDoc_text {b : Bytes} {v : JVal} (h : JsonText b v) : parseDoc b = some v := by
  obtain ⟨w, b', w', h1, h2, h3, rfl⟩ := h
  have hs : Stops w' := by have := stops_nil.ws h3; rwa [List.append_nil] at this
  have := parseVal_text 10000 w b' v w' h1 h2 hs
  unfold parseDoc
  rw [this]
  have hw : skipWs w' = [] := by have := skipWs_ws w' [] h3; rw [List.append_nil] at this; exact this
  simp only [hw, if_true]

end Flu.Json
