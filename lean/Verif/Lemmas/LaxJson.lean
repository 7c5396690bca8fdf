import Verif.Lemmas.JsonWritten
import Verif.Spec.LaxJson
/-!
# What the decoder accepts

The converse of `Lemmas/JsonText` and `Lemmas/JsonStore`: whatever is accepted is a text of the grammar in `Spec/LaxJson`; and every text of this grammar is accepted.
-/
namespace Flu.Json
open Flu.Spec

theorem ofNat_back (k : Nat) (c : UInt8) (h : k ≤ c.toNat) : UInt8.ofNat (k + (c.toNat - k)) = c := by
  rw [show k + (c.toNat - k) = c.toNat by omega]; exact UInt8.ofNat_toNat

theorem hexVal_digit {c : UInt8} {n : Nat} (h : hexVal c = some n) : HexDigit c n := by
  unfold hexVal at h
  simp only [UInt8.le_iff_toNat_le] at h
  split at h
  · rename_i hc
    injection h with h
    have e := ofNat_back 48 c (by simpa using hc.1)
    have h2 : c.toNat ≤ 57 := by simpa using hc.2
    rw [h] at e; rw [← e]; exact .dec n (by omega)
  split at h
  · rename_i hc
    injection h with h
    have e := ofNat_back 97 c (by simpa using hc.1)
    have h1 : 97 ≤ c.toNat := by simpa using hc.1
    have h2 : c.toNat ≤ 102 := by simpa using hc.2
    rw [show n = 10 + (c.toNat - 97) by omega, ← e, ofNat_back 97 c h1]
    have := HexDigit.low (c.toNat - 97) (by omega)
    rwa [ofNat_back 97 c h1] at this
  split at h
  · rename_i hc
    injection h with h
    have h1 : 65 ≤ c.toNat := by simpa using hc.1
    have h2 : c.toNat ≤ 70 := by simpa using hc.2
    have := HexDigit.up (c.toNat - 65) (by omega)
    rwa [ofNat_back 65 c h1, show 10 + (c.toNat - 65) = n by omega] at this
  · cases h

theorem getu4_hex {b : Bytes} {u : Nat} (h : getu4 b = some u) : ∃ x t, b = 92 :: 117 :: (x ++ t) ∧ Hex4 x u := by
  unfold getu4 at h
  split at h
  · rename_i h1 h2 h3 h4 t
    cases e1 : hexVal h1 with
    | none => rw [e1] at h; cases h
    | some a =>
      cases e2 : hexVal h2 with
      | none => rw [e1, e2] at h; cases h
      | some b =>
        cases e3 : hexVal h3 with
        | none => rw [e1, e2, e3] at h; cases h
        | some c =>
          cases e4 : hexVal h4 with
          | none => rw [e1, e2, e3, e4] at h; cases h
          | some d =>
            rw [e1, e2, e3, e4] at h
            injection h with h
            exact ⟨[h1, h2, h3, h4], t, rfl, hex4_lit _ _ _ _ _ _ _ _ (hexVal_digit e1) (hexVal_digit e2) (hexVal_digit e3) (hexVal_digit e4) _ h⟩
  · cases h

theorem getu4_app (a b c d : UInt8) (t : Bytes) : getu4 (92 :: 117 :: a :: b :: c :: d :: t) = getu4 [92, 117, a, b, c, d] := rfl

/-- Text that the scanner lets pass between quotes. -/
inductive Scanned : Bytes → Prop
  | nil : Scanned []
  | plain (c : UInt8) {r : Bytes} (hq : c ≠ 34) (hb : c ≠ 92) (h32 : ¬ c < 32) (h : Scanned r) : Scanned (c :: r)
  | esc (e : UInt8) {r : Bytes} (he : e = 34 ∨ e = 92 ∨ e = 47 ∨ e = 98 ∨ e = 102 ∨ e = 110 ∨ e = 114 ∨ e = 116) (h : Scanned r) : Scanned (92 :: e :: r)
  | u (x : Bytes) (v : Nat) {r : Bytes} (hx : Hex4 x v) (h : Scanned r) : Scanned (92 :: 117 :: (x ++ r))

theorem scanStr_scanned : ∀ (n : Nat) (b raw rest : Bytes), b.length ≤ n → scanStr b = some (raw, rest) → b = raw ++ 34 :: rest ∧ Scanned raw := by
  intro n
  induction n with
  | zero =>
    intro b raw rest hl h
    rcases b with _ | ⟨c, b⟩
    · cases h
    · cases hl
  | succ n ih =>
    intro b raw rest hl h
    rw [scanStr.eq_def] at h
    rcases b with _ | ⟨c, r⟩
    · cases h
    simp only [List.length_cons] at hl
    simp only at h
    split at h
    · rename_i hc; cases h; rw [hc]; exact ⟨rfl, .nil⟩
    split at h
    · rename_i hc
      rcases r with _ | ⟨e, r'⟩
      · cases h
      simp only [List.length_cons] at hl
      simp only at h
      split at h
      · rename_i he
        split at h
        · rename_i h1 h2 h3 h4 r''
          simp only [List.length_cons] at hl
          split at h
          · rename_i hx
            obtain ⟨⟨raw', rest'⟩, k1, k2⟩ := Option.map_eq_some_iff.1 h
            cases k2
            obtain ⟨g1, g2⟩ := ih _ _ _ (by omega) k1
            simp only [Bool.and_eq_true, Option.isSome_iff_exists] at hx
            obtain ⟨⟨⟨⟨a, ha⟩, ⟨b, hb⟩⟩, ⟨c', hc'⟩⟩, ⟨d, hd⟩⟩ := hx
            subst hc he
            exact ⟨by rw [g1]; rfl, Scanned.u [h1, h2, h3, h4] _ (.mk (hexVal_digit ha) (hexVal_digit hb) (hexVal_digit hc') (hexVal_digit hd)) g2⟩
          · cases h
        · cases h
      split at h
      · rename_i he
        obtain ⟨⟨raw', rest'⟩, k1, k2⟩ := Option.map_eq_some_iff.1 h
        cases k2
        obtain ⟨g1, g2⟩ := ih _ _ _ (by omega) k1
        subst hc
        exact ⟨by rw [g1]; rfl, .esc e he g2⟩
      · cases h
    split at h
    · cases h
    · obtain ⟨⟨raw', rest'⟩, k1, k2⟩ := Option.map_eq_some_iff.1 h
      cases k2
      obtain ⟨g1, g2⟩ := ih _ _ _ (by omega) k1
      exact ⟨by rw [g1]; rfl, .plain c (by assumption) (by assumption) (by assumption) g2⟩

theorem Scanned.drop {r : Bytes} : ∀ w : Bytes, (∀ x ∈ w, x ≠ 92) → Scanned (w ++ r) → Scanned r
  | [], _, h => h
  | a :: w, hw, h => by
    have ha := hw a (by simp)
    refine Scanned.drop w (fun x hx => hw x (by simp [hx])) ?_
    generalize he : (a :: w) ++ r = t at h
    cases h with
    | nil => cases he
    | plain c _ _ _ h => cases he; exact h
    | esc e _ h => injection he with h1 _; exact absurd h1 ha
    | u x v hx h => injection he with h1 _; exact absurd h1 ha

theorem Scanned.rest {x : Bytes} {v : Nat} {r : Bytes} (hx : Hex4 x v) (h : Scanned (92 :: 117 :: (x ++ r))) : Scanned r := by
  generalize he : 92 :: 117 :: (x ++ r) = t at h
  cases h with
  | nil => cases he
  | plain c _ hb _ _ => cases he; exact absurd rfl hb
  | esc e h1 _ => cases he; exact absurd h1 (by decide)
  | u y v' hy h =>
    cases hx; cases hy
    simp only [List.cons_append, List.nil_append, List.cons.injEq] at he
    rw [he.2.2.2.2.2.2]; exact h

theorem unquote_lone (a b c d : UInt8) (u : Nat) (t : Bytes) (h1 : getu4 [92, 117, a, b, c, d] = some u) (hu : 0xD800 ≤ u ∧ u < 0xE000)
    (h2 : ∀ v, getu4 t = some v → ¬ (u < 0xDC00 ∧ 0xDC00 ≤ v ∧ v < 0xE000)) :
    unquote (92 :: 117 :: a :: b :: c :: d :: t) = replacement ++ unquote t := by
  have h1' : getu4 (92 :: 117 :: a :: b :: c :: d :: t) = some u := h1
  show unquoteFuel (_ + 1) _ = _
  simp only [unquoteFuel, h1', if_true, List.drop_succ_cons, List.drop_zero]
  rw [if_pos hu]
  cases h : getu4 t with
  | none => exact congrArg (replacement ++ ·) (unquoteFuel_fuel _ _ _ (by simp; omega) (Nat.le_refl _))
  | some v =>
    simp only
    rw [if_neg (h2 v h)]
    exact congrArg (replacement ++ ·) (unquoteFuel_fuel _ _ _ (by simp; omega) (Nat.le_refl _))

theorem scanned_lax : ∀ (n : Nat) (raw : Bytes), raw.length ≤ n → Scanned raw → LaxStr raw (unquote raw) := by
  intro n
  induction n with
  | zero =>
    intro raw hl _
    rcases raw with _ | ⟨c, b⟩
    · exact .nil
    · cases hl
  | succ n ih =>
    intro raw hl h
    cases h with
    | nil => exact .nil
    | @plain c r hq hb h32 h =>
      simp only [List.length_cons] at hl
      by_cases h0 : runeLen (c :: r) = 0
      · have he : unquote (c :: r) = utf8 0xFFFD ++ unquote r := by
          show unquoteFuel (_ + 1) _ = _
          simp only [unquoteFuel, if_neg hb, h0]
          rfl
        rw [he]
        refine .bad c ?_ ?_ (ih r (by omega) h)
        · apply UInt8.not_lt.1
          intro hlt
          have h1 := runeLen_utf8 c.toNat (scalar_ascii c hlt) r
          rw [utf8_ascii c hlt] at h1
          rw [show [c] ++ r = c :: r from rfl, h0] at h1
          exact absurd h1.1 (by simp)
        · intro x t hx e
          have := runeLen_utf8 x hx t
          rw [← e, h0] at this
          omega
      · obtain ⟨x, hx, hxe⟩ := utf8_of_runeLen _ h0
        have e : c :: r = utf8 x ++ (c :: r).drop (runeLen (c :: r)) := by rw [← hxe, List.take_append_drop]
        generalize (c :: r).drop (runeLen (c :: r)) = t at e
        have hlen := runeLen_utf8 x hx t
        have hpl : 32 ≤ x ∧ x ≠ 34 ∧ x ≠ 92 := by
          by_cases h128 : x < 128
          · have hux : utf8 x = [UInt8.ofNat x] := by unfold utf8; rw [if_pos h128]
            rw [hux] at e
            injection e with e1 e2
            have hcx : c.toNat = x := by rw [e1, UInt8.toNat_ofNat']; omega
            rw [UInt8.lt_iff_toNat_lt] at h32
            refine ⟨by simpa [hcx] using h32, ?_, ?_⟩
            · intro e; subst e; exact hq e1
            · intro e; subst e; exact hb e1
          · omega
        have hp := utf8_plain x hx hpl.1 hpl.2.1 hpl.2.2
        have h' : Scanned (c :: r) := .plain c hq hb h32 h
        rw [e] at h' ⊢
        have hl' : (utf8 x).length + t.length = r.length + 1 := by
          have := congrArg List.length e
          simpa using this.symm
        rw [unquote_plain (utf8 x) t ((utf8 x).length - 1) (by omega) (by omega) ?_]
        · refine .char x hx hpl.1 hpl.2.1 hpl.2.2 (ih t (by omega) ?_)
          exact Scanned.drop _ (fun y hy => (hp y hy).2.1) h'
        · rcases hu : utf8 x with _ | ⟨a, w⟩
          · simp
          · have := hp a (by rw [hu]; simp)
            simpa using this.2.1
    | @esc e r he h =>
      simp only [List.length_cons] at hl
      rw [unquote_esc e r (by rcases he with rfl | rfl | rfl | rfl | rfl | rfl | rfl | rfl <;> decide)]
      refine .short e _ ?_ (ih r (by omega) h)
      rcases he with rfl | rfl | rfl | rfl | rfl | rfl | rfl | rfl <;> decide
    | @u x v r hx h =>
      obtain ⟨a, b, c, d, rfl, h1, h2⟩ := hex4_getu4 hx
      simp only [List.length_cons, List.length_append, List.length_nil] at hl
      by_cases hs : 0xD800 ≤ v ∧ v < 0xE000
      · by_cases hp : ∃ y w t, r = 92 :: 117 :: (y ++ t) ∧ Hex4 y w ∧ v < 0xDC00 ∧ 0xDC00 ≤ w ∧ w < 0xE000
        · obtain ⟨y, w, t, rfl, hy, k1, k2, k3⟩ := hp
          have ht := Scanned.rest hy h
          obtain ⟨a', b', c', d', rfl, h3, h4⟩ := hex4_getu4 hy
          simp only [List.length_cons, List.length_append, List.length_nil] at hl
          have e1 : v = 0xD800 + (v - 0xD800) := by omega
          have e2 : w = 0xDC00 + (w - 0xDC00) := by omega
          have := LaxStr.pair [a, b, c, d] [a', b', c', d'] (v - 0xD800) (w - 0xDC00) (by rw [← e1]; exact hx) (by omega) (by rw [← e2]; exact hy) (by omega) (ih t (by omega) ht)
          have h5 := unquote_pair a b c d a' b' c' d' (v - 0xD800) (w - 0xDC00) t (by rw [← e1]; exact h1) (by omega) (by rw [← e2]; exact h3) (by omega)
          rw [encodeRune_utf8] at h5
          rw [← h5] at this
          exact this
        · have h5 := unquote_lone a b c d v r h1 hs (by
            rintro w hw ⟨k1, k2, k3⟩
            obtain ⟨y, t, e, hy⟩ := getu4_hex hw
            exact hp ⟨y, w, t, e, hy, k1, k2, k3⟩)
          have := LaxStr.lone [a, b, c, d] v hx hs (fun k1 y w t hy k2 k3 e => hp ⟨y, w, t, e, hy, k1, k2, k3⟩) (ih r (by omega) h)
          rw [show utf8 0xFFFD = replacement from rfl, ← h5] at this
          exact this
      · have hv : v < 65536 := by cases hx; rename_i ha hb hc hd; cases ha <;> cases hb <;> cases hc <;> cases hd <;> omega
        have h5 := unquote_u4 a b c d v r h1 hs
        have := LaxStr.hex [a, b, c, d] v hx ⟨by omega, hs⟩ (ih r (by omega) h)
        rw [← encodeRune_utf8, ← h5] at this
        exact this

theorem parseStr_lax {b rest : Bytes} {s : GoString} (h : parseStr b = some (s, rest)) : ∃ raw, b = raw ++ 34 :: rest ∧ LaxStr raw s := by
  obtain ⟨⟨raw, rest'⟩, h1, h2⟩ := Option.map_eq_some_iff.1 h
  cases h2
  obtain ⟨g1, g2⟩ := scanStr_scanned _ _ _ _ (Nat.le_refl _) h1
  exact ⟨raw, g1, scanned_lax _ _ (Nat.le_refl _) g2⟩

/-! ### White space and numbers -/

theorem mem_takeWhile {p : UInt8 → Bool} {c : UInt8} : ∀ {l : Bytes}, c ∈ l.takeWhile p → p c = true
  | [], h => by cases h
  | a :: l, h => by
    rw [List.takeWhile_cons] at h
    split at h
    · rename_i ha
      rcases List.mem_cons.1 h with rfl | h
      · exact ha
      · exact mem_takeWhile h
    · cases h

theorem skipWs_split (b : Bytes) : ∃ w, JWs w ∧ b = w ++ skipWs b := by
  refine ⟨b.takeWhile isSpace, fun c hc => ?_, (List.takeWhile_append_dropWhile ..).symm⟩
  have := mem_takeWhile hc
  exact of_decide_eq_true this

theorem digit_text {c : UInt8} (h : isDigit c = true) : c.toNat - 48 < 10 ∧ UInt8.ofNat (48 + (c.toNat - 48)) = c := by
  have := of_decide_eq_true h
  simp only [UInt8.le_iff_toNat_le] at this
  have h1 : 48 ≤ c.toNat := by simpa using this.1
  have h2 : c.toNat ≤ 57 := by simpa using this.2
  exact ⟨by omega, ofNat_back 48 c h1⟩

theorem decText_more : ∀ (ds p : Bytes) (m : Nat), DecText p m → (∀ c ∈ ds, isDigit c = true) → DecText (p ++ ds) (ds.foldl (fun n c => n * 10 + (c.toNat - 48)) m)
  | [], p, m, h, _ => by rw [List.append_nil]; exact h
  | c :: ds, p, m, h, hd => by
    obtain ⟨h1, h2⟩ := digit_text (hd c (by simp))
    have := DecText.more _ h1 h
    rw [h2] at this
    have := decText_more ds _ _ this (fun x hx => hd x (by simp [hx]))
    rw [List.append_assoc] at this
    exact this

theorem decText_of {ds : Bytes} (h0 : ds ≠ []) (hd : ∀ c ∈ ds, isDigit c = true) : DecText ds (natOf ds) := by
  rcases ds with _ | ⟨c, ds⟩
  · exact absurd rfl h0
  · obtain ⟨h1, h2⟩ := digit_text (hd c (by simp))
    have := DecText.one _ h1
    rw [h2] at this
    have := decText_more ds _ _ this (fun x hx => hd x (by simp [hx]))
    rw [natOf, List.foldl_cons, Nat.zero_mul, Nat.zero_add]
    exact this

theorem takeDigits_text {b : Bytes} (h : ¬ (b.takeWhile isDigit).isEmpty = true) : DecText (b.takeWhile isDigit) (natOf (b.takeWhile isDigit)) :=
  decText_of (fun e => h (by rw [e]; rfl)) (fun c hc => mem_takeWhile hc)

theorem scanDigits_lax {b ds r : Bytes} (h : scanDigits b = some (ds, r)) : b = ds ++ r ∧ (∃ n, DecText ds n) ∧ (ds = [48] ∨ ds.head? ≠ some 48) := by
  unfold scanDigits at h
  split at h
  · cases h; exact ⟨rfl, ⟨0, DecText.one 0 (by omega)⟩, .inl rfl⟩
  · rename_i hn
    split at h
    · cases h
    · rename_i he
      cases h
      refine ⟨(List.takeWhile_append_dropWhile ..).symm, ⟨_, takeDigits_text he⟩, .inr ?_⟩
      rcases b with _ | ⟨c, b⟩
      · simp
      · rw [List.takeWhile_cons]
        split
        · intro e
          injection e with e
          exact hn b (by rw [e])
        · simp

theorem scanFrac_lax {b fr r : Bytes} (h : scanFrac b = some (fr, r)) : b = fr ++ r ∧ (fr = [] ∨ ∃ ds n, DecText ds n ∧ fr = 46 :: ds) := by
  unfold scanFrac at h
  split at h
  · split at h
    · cases h
    · rename_i he
      cases h
      exact ⟨by rw [List.cons_append, List.takeWhile_append_dropWhile], .inr ⟨_, _, takeDigits_text he, rfl⟩⟩
  · cases h; exact ⟨rfl, .inl rfl⟩

theorem expSign_split (b : Bytes) : b = (expSign b).1 ++ (expSign b).2 ∧ ((expSign b).1 = [] ∨ (expSign b).1 = [43] ∨ (expSign b).1 = [45]) := by
  unfold expSign
  split
  · split
    · rename_i h
      rcases h with rfl | rfl
      · exact ⟨rfl, .inr (.inl rfl)⟩
      · exact ⟨rfl, .inr (.inr rfl)⟩
    · exact ⟨rfl, .inl rfl⟩
  · exact ⟨rfl, .inl rfl⟩

theorem scanExp_lax {b ex r : Bytes} (h : scanExp b = some (ex, r)) :
    b = ex ++ r ∧ (ex = [] ∨ ∃ e sg ds n, (e = 101 ∨ e = 69) ∧ (sg = [] ∨ sg = [43] ∨ sg = [45]) ∧ DecText ds n ∧ ex = e :: (sg ++ ds)) := by
  unfold scanExp at h
  split at h
  · rename_i e r'
    split at h
    · rename_i he
      split at h
      · cases h
      · rename_i hd
        cases h
        obtain ⟨h1, h2⟩ := expSign_split r'
        refine ⟨?_, .inr ⟨e, _, _, _, he, h2, takeDigits_text hd, rfl⟩⟩
        rw [List.cons_append, List.append_assoc, List.takeWhile_append_dropWhile, ← h1]
    · cases h; exact ⟨rfl, .inl rfl⟩
  · cases h; exact ⟨rfl, .inl rfl⟩

theorem scanSign_split (b : Bytes) : b = (scanSign b).1 ++ (scanSign b).2 ∧ ((scanSign b).1 = [] ∨ (scanSign b).1 = [45]) := by
  unfold scanSign
  split
  · exact ⟨rfl, .inr rfl⟩
  · exact ⟨rfl, .inl rfl⟩

theorem scanNum_lax {b lit r : Bytes} (h : scanNum b = some (lit, r)) : b = lit ++ r ∧ NumText lit := by
  unfold scanNum at h
  obtain ⟨⟨ds, r1⟩, h1, h⟩ := Option.bind_eq_some_iff.1 h
  obtain ⟨⟨fr, r2⟩, h2, h⟩ := Option.bind_eq_some_iff.1 h
  obtain ⟨⟨ex, r3⟩, h3, h⟩ := Option.bind_eq_some_iff.1 h
  obtain ⟨k1, k2, k3⟩ := scanDigits_lax h1
  obtain ⟨k4, k5⟩ := scanFrac_lax h2
  obtain ⟨k6, k7⟩ := scanExp_lax h3
  obtain ⟨k8, k9⟩ := scanSign_split b
  cases h
  refine ⟨?_, (scanSign b).1, ds, fr, ex, by simp only [List.append_assoc], k9, k2, k3, k5, k7⟩
  rw [List.append_assoc, List.append_assoc, List.append_assoc, ← k6, ← k4, ← k1]
  exact k8

theorem intOf_lax {lit : Bytes} {i : Int} (hn : NumText lit) (h : intOf lit = some i) : IntText lit i := by
  refine ⟨hn, ?_⟩
  obtain ⟨sg, int, fr, ex, e, hs, ⟨n, hd⟩, -, -, -⟩ := hn
  obtain ⟨g1, g2, -⟩ := decText_digits hd
  unfold intOf at h
  split at h
  · rename_i ds
    split at h
    · rename_i ha
      cases h
      have hds : ∀ c ∈ ds, isDigit c = true := List.all_eq_true.1 ha
      refine ⟨ds, natOf ds, decText_of ?_ hds, .inr ⟨rfl, rfl⟩⟩
      rintro rfl
      rcases hs with rfl | rfl
      · rcases int with _ | ⟨c, int⟩
        · exact g1 rfl
        · injection e with e1 _
          have := g2 c (by simp)
          rw [← e1] at this
          exact absurd this (by decide)
      · injection e with _ e
        rcases int with _ | ⟨c, int⟩
        · exact g1 rfl
        · cases e
    · cases h
  · rename_i hne
    split at h
    · rename_i ha
      cases h
      have hds : ∀ c ∈ lit, isDigit c = true := List.all_eq_true.1 ha
      refine ⟨lit, natOf lit, decText_of ?_ hds, .inl ⟨rfl, rfl⟩⟩
      rintro rfl
      have := congrArg List.length e
      rcases int with _ | ⟨c, int⟩
      · exact g1 rfl
      · simp at this
    · cases h

/-! ### Values -/

/-- A parser that accepts nothing but texts of `V`. -/
def Accepts (pv : Bytes → Option (JVal × Bytes)) (V : Bytes → JVal → Prop) : Prop :=
  ∀ b v r, pv b = some (v, r) → ∃ w t, JWs w ∧ V t v ∧ b = w ++ (t ++ r)

theorem elements_lax {pv : Bytes → Option (JVal × Bytes)} {V : Bytes → JVal → Prop} (hpv : Accepts pv V) :
    ∀ (n : Nat) (b : Bytes) (l : List JVal) (r : Bytes), elements pv n b = some (l, r) → ∃ body, ElemsText V body l ∧ b = body ++ 93 :: r := by
  intro n
  induction n with
  | zero => intro b l r h; cases h
  | succ n ih =>
    intro b l r h
    rw [elements] at h
    split at h
    · cases h
    · rename_i v r3 h1
      obtain ⟨w, t, hw, hv, rfl⟩ := hpv _ _ _ h1
      obtain ⟨w3, hw3, e3⟩ := skipWs_split r3
      split at h
      · rename_i r4 h4
        obtain ⟨⟨l', r'⟩, k1, k2⟩ := Option.map_eq_some_iff.1 h
        cases k2
        obtain ⟨body, g1, g2⟩ := ih _ _ _ k1
        refine ⟨_, .more hw hv hw3 g1, ?_⟩
        rw [e3, h4, g2]; simp
      · rename_i r4 h4
        cases h
        refine ⟨_, .one hw hv hw3, ?_⟩
        rw [e3, h4]; simp
      · cases h

theorem members_lax {pv : Bytes → Option (JVal × Bytes)} {V : Bytes → JVal → Prop} (hpv : Accepts pv V) :
    ∀ (n : Nat) (b : Bytes) (l : List (GoString × JVal)) (r : Bytes), members pv n b = some (l, r) → ∃ body, LaxMembers V body l ∧ b = body ++ 125 :: r := by
  intro n
  induction n with
  | zero => intro b l r h; cases h
  | succ n ih =>
    intro b l r h
    rw [members] at h
    obtain ⟨w, hw, e⟩ := skipWs_split b
    split at h
    · rename_i r0 h0
      split at h
      · cases h
      · rename_i key r1 hk
        obtain ⟨raw, ek, hraw⟩ := parseStr_lax hk
        obtain ⟨w1, hw1, e1⟩ := skipWs_split r1
        split at h
        · rename_i r2 h2
          split at h
          · cases h
          · rename_i v r3 h3
            obtain ⟨w2, t, hw2, hv, e2⟩ := hpv _ _ _ h3
            obtain ⟨w3, hw3, e3⟩ := skipWs_split r3
            split at h
            · rename_i r4 h4
              obtain ⟨⟨l', r'⟩, k1, k2⟩ := Option.map_eq_some_iff.1 h
              cases k2
              obtain ⟨body, g1, g2⟩ := ih _ _ _ k1
              refine ⟨_, .more hw hraw hw1 hw2 hv hw3 g1, ?_⟩
              rw [e, h0, ek, e1, h2, e2, e3, h4, g2]; simp
            · rename_i r4 h4
              cases h
              refine ⟨_, .one hw hraw hw1 hw2 hv hw3, ?_⟩
              rw [e, h0, ek, e1, h2, e2, e3, h4]; simp
            · cases h
        · cases h
    · cases h

theorem laxAtom_val (n : Nat) {b : Bytes} {v : JVal} (h : LaxAtom b v) : LaxVal n b v := by
  cases n with
  | zero => exact h
  | succ n => exact .inl h

theorem elements_none (n : Nat) (b : Bytes) : elements (parseVal 0) n b = none := by
  cases n <;> rfl

theorem members_none (n : Nat) (b : Bytes) : members (parseVal 0) n b = none := by
  cases n with
  | zero => rfl
  | succ n =>
    rw [members]
    split
    · split
      · rfl
      · split <;> rfl
    · rfl

theorem parseVal_lax : ∀ n, Accepts (parseVal (n + 1)) (LaxVal n) := by
  intro n
  induction n with
  | zero =>
    intro b v r h
    rw [parseVal] at h
    obtain ⟨w, hw, e⟩ := skipWs_split b
    refine ⟨w, ?_⟩
    suffices hs : ∃ t, LaxAtom t v ∧ skipWs b = t ++ r by
      obtain ⟨t, h1, h2⟩ := hs
      exact ⟨t, hw, h1, by rw [← h2]; exact e⟩
    split at h
    · split at h
      · rw [if_pos rfl] at h; cases h
      · rw [members_none] at h; cases h
    · split at h
      · rw [if_pos rfl] at h; cases h
      · rw [elements_none] at h; cases h
    · rename_i r0 h0
      rw [h0]
      obtain ⟨⟨s, r'⟩, k1, k2⟩ := Option.map_eq_some_iff.1 h
      cases k2
      obtain ⟨raw, g1, g2⟩ := parseStr_lax k1
      refine ⟨_, .str g2, ?_⟩
      rw [g1]; simp
    · rename_i r0 h0; cases h; rw [h0]; exact ⟨_, .true, rfl⟩
    · rename_i r0 h0; cases h; rw [h0]; exact ⟨_, .false, rfl⟩
    · rename_i r0 h0; cases h; rw [h0]; exact ⟨_, .null, rfl⟩
    · obtain ⟨⟨lit, r'⟩, k1, k2⟩ := Option.map_eq_some_iff.1 h
      cases k2
      obtain ⟨g1, g2⟩ := scanNum_lax k1
      exact ⟨_, .num g2, g1⟩
  | succ n ih =>
    intro b v r h
    rw [parseVal] at h
    obtain ⟨w, hw, e⟩ := skipWs_split b
    refine ⟨w, ?_⟩
    suffices hs : ∃ t, LaxVal (n + 1) t v ∧ skipWs b = t ++ r by
      obtain ⟨t, h1, h2⟩ := hs
      exact ⟨t, hw, h1, by rw [← h2]; exact e⟩
    split at h
    · rename_i r0 h0
      rw [h0]
      obtain ⟨w1, hw1, e1⟩ := skipWs_split r0
      split at h
      · rename_i r' h1
        rw [if_neg (by omega)] at h
        cases h
        refine ⟨_, .inr (.inr (.inr (.inl ⟨w1, hw1, rfl, rfl⟩))), ?_⟩
        rw [e1, h1]; simp
      · obtain ⟨⟨l, r'⟩, k1, k2⟩ := Option.map_eq_some_iff.1 h
        cases k2
        obtain ⟨body, g1, g2⟩ := members_lax ih _ _ _ _ k1
        refine ⟨_, .inr (.inr (.inr (.inr ⟨body, l, g1, rfl, rfl⟩))), ?_⟩
        rw [g2]; simp
    · rename_i r0 h0
      rw [h0]
      obtain ⟨w1, hw1, e1⟩ := skipWs_split r0
      split at h
      · rename_i r' h1
        rw [if_neg (by omega)] at h
        cases h
        refine ⟨_, .inr (.inl ⟨w1, hw1, rfl, rfl⟩), ?_⟩
        rw [e1, h1]; simp
      · obtain ⟨⟨l, r'⟩, k1, k2⟩ := Option.map_eq_some_iff.1 h
        cases k2
        obtain ⟨body, g1, g2⟩ := elements_lax ih _ _ _ _ k1
        refine ⟨_, .inr (.inr (.inl ⟨body, l, g1, rfl, rfl⟩)), ?_⟩
        rw [g2]; simp
    · rename_i r0 h0
      rw [h0]
      obtain ⟨⟨s, r'⟩, k1, k2⟩ := Option.map_eq_some_iff.1 h
      cases k2
      obtain ⟨raw, g1, g2⟩ := parseStr_lax k1
      refine ⟨_, .inl (.str g2), ?_⟩
      rw [g1]; simp
    · rename_i r0 h0; cases h; rw [h0]; exact ⟨_, .inl .true, rfl⟩
    · rename_i r0 h0; cases h; rw [h0]; exact ⟨_, .inl .false, rfl⟩
    · rename_i r0 h0; cases h; rw [h0]; exact ⟨_, .inl .null, rfl⟩
    · obtain ⟨⟨lit, r'⟩, k1, k2⟩ := Option.map_eq_some_iff.1 h
      cases k2
      obtain ⟨g1, g2⟩ := scanNum_lax k1
      exact ⟨_, .inl (.num g2), g1⟩

theorem parseDoc_lax {b : Bytes} {v : JVal} (h : parseDoc b = some v) : LaxText b v := by
  unfold parseDoc at h
  split at h
  · rename_i v' r h1
    split at h
    · rename_i h2
      cases h
      obtain ⟨w, t, hw, hv, e⟩ := parseVal_lax _ _ _ _ h1
      obtain ⟨w', hw', e'⟩ := skipWs_split r
      rw [h2, List.append_nil] at e'
      exact ⟨w, t, w', hw, hv, hw', by rw [e, ← e']⟩
    · cases h
  · cases h

/-! ### What the values mean -/

/-- A value that has been written somewhere. -/
def Occurs (v : JVal) : Prop := ∃ n b, LaxVal n b v

theorem occurs_num {lit : Bytes} (h : Occurs (.num lit)) : NumText lit := by
  obtain ⟨n, b, h⟩ := h
  have key : ∀ {b : Bytes}, LaxAtom b (.num lit) → NumText lit := by intro b h; cases h; assumption
  cases n with
  | zero => exact key h
  | succ n =>
    rcases h with h | ⟨_, _, _, h⟩ | ⟨_, _, _, _, h⟩ | ⟨_, _, _, h⟩ | ⟨_, _, _, _, h⟩
    · exact key h
    all_goals cases h

theorem members_occurs {V : Bytes → JVal → Prop} {body : Bytes} {l : List (Bytes × JVal)} (h : LaxMembers V body l) : ∀ e ∈ l, ∃ b, V b e.2 := by
  induction h with
  | one _ _ _ _ hv _ => intro e he; rw [List.mem_singleton] at he; subst he; exact ⟨_, hv⟩
  | more _ _ _ _ hv _ _ ih =>
    intro e he
    rcases List.mem_cons.1 he with rfl | he
    · exact ⟨_, hv⟩
    · exact ih e he

theorem occurs_obj {l : List (Bytes × JVal)} (h : Occurs (.obj l)) : ∀ e ∈ l, Occurs e.2 := by
  obtain ⟨n, b, h⟩ := h
  cases n with
  | zero => cases h
  | succ n =>
    rcases h with h | ⟨_, _, _, h⟩ | ⟨_, _, _, _, h⟩ | ⟨_, _, _, h⟩ | ⟨body, l', hm, _, h⟩
    · cases h
    · cases h
    · cases h
    · cases h; intro e he; cases he
    · cases h
      intro e he
      obtain ⟨b, hb⟩ := members_occurs hm e he
      exact ⟨n, b, hb⟩

theorem asInt_wide {i old : Int} {v : JVal} (ho : Occurs v) (h : asInt old v = some i) : WideInt v old i := by
  unfold asInt at h
  split at h
  · cases h; exact .inl ⟨rfl, rfl⟩
  · exact .inr ⟨_, intOf_lax (occurs_num ho) h, rfl⟩
  · cases h

theorem asStr_wide {s old : Bytes} {v : JVal} (h : asStr old v = some s) : IsStr v old s := by
  unfold asStr at h
  split at h
  · cases h; exact .inl ⟨rfl, rfl⟩
  · cases h; exact .inr rfl
  · cases h

theorem not_field {name : String} {k : Bytes} (h : ¬ isField name k = true) : ¬ SameName name k :=
  fun hs => h (decide_eq_true (fold_of_spelling hs))

theorem storeRecord_wide (tgt : RecordJSON) : ∀ (l : List (Bytes × JVal)) (r : RecordJSON), (∀ e ∈ l, Occurs e.2) → storeRecord l r = some tgt →
    Member "FilePath" IsStr l r.filePath tgt.filePath ∧ Member "SizeInBytes" WideInt l r.sizeInBytes tgt.sizeInBytes ∧ Member "Sha1Hash" IsStr l r.sha1Hash tgt.sha1Hash ∧
    Member "ChunkSize" WideInt l r.chunkSize tgt.chunkSize
  | [], r, _, h => by cases h; exact ⟨.nil _, .nil _, .nil _, .nil _⟩
  | (k, v) :: l, r, ho, h => by
    have hov := ho (k, v) (by simp)
    have ih := fun r' => storeRecord_wide tgt l r' (fun e he => ho e (by simp [he]))
    rw [storeRecord] at h
    split at h
    · rename_i k1
      have k1 := (isField_iff _ _).1 k1
      obtain ⟨r', h1, h2⟩ := Option.bind_eq_some_iff.1 h
      obtain ⟨x, g1, g2⟩ := Option.map_eq_some_iff.1 h1
      cases g2
      obtain ⟨i1, i2, i3, i4⟩ := ih _ h2
      exact ⟨.take k1 (asStr_wide g1) i1, .skip (sameName_ne k1 (by decide)) i2, .skip (sameName_ne k1 (by decide)) i3, .skip (sameName_ne k1 (by decide)) i4⟩
    rename_i n1; have n1 := not_field n1
    split at h
    · rename_i k1
      have k1 := (isField_iff _ _).1 k1
      obtain ⟨r', h1, h2⟩ := Option.bind_eq_some_iff.1 h
      obtain ⟨x, g1, g2⟩ := Option.map_eq_some_iff.1 h1
      cases g2
      obtain ⟨i1, i2, i3, i4⟩ := ih _ h2
      exact ⟨.skip n1 i1, .take k1 (asInt_wide hov g1) i2, .skip (sameName_ne k1 (by decide)) i3, .skip (sameName_ne k1 (by decide)) i4⟩
    rename_i n2; have n2 := not_field n2
    split at h
    · rename_i k1
      have k1 := (isField_iff _ _).1 k1
      obtain ⟨r', h1, h2⟩ := Option.bind_eq_some_iff.1 h
      obtain ⟨x, g1, g2⟩ := Option.map_eq_some_iff.1 h1
      cases g2
      obtain ⟨i1, i2, i3, i4⟩ := ih _ h2
      exact ⟨.skip n1 i1, .skip n2 i2, .take k1 (asStr_wide g1) i3, .skip (sameName_ne k1 (by decide)) i4⟩
    rename_i n3; have n3 := not_field n3
    split at h
    · rename_i k1
      have k1 := (isField_iff _ _).1 k1
      obtain ⟨r', h1, h2⟩ := Option.bind_eq_some_iff.1 h
      obtain ⟨x, g1, g2⟩ := Option.map_eq_some_iff.1 h1
      cases g2
      obtain ⟨i1, i2, i3, i4⟩ := ih _ h2
      exact ⟨.skip n1 i1, .skip n2 i2, .skip n3 i3, .take k1 (asInt_wide hov g1) i4⟩
    rename_i n4; have n4 := not_field n4
    obtain ⟨i1, i2, i3, i4⟩ := ih _ h
    exact ⟨.skip n1 i1, .skip n2 i2, .skip n3 i3, .skip n4 i4⟩

theorem asRecord_wide {r : RecordJSON} {v : JVal} (ho : Occurs v) (h : asRecord v = some r) : WideRecord r v := by
  unfold asRecord at h
  split at h
  · cases h; exact .inl ⟨rfl, rfl⟩
  · exact .inr ⟨_, rfl, storeRecord_wide r _ _ (occurs_obj ho) h⟩
  · cases h

theorem storeMap_wide : ∀ (l : List (Bytes × JVal)) (m m' : List (Bytes × RecordJSON)), (∀ e ∈ l, Occurs e.2) → storeMap l m = some m' →
    ∃ es, WideEntries es l ∧ m' = es.foldl (fun m e => strPut m e.1 e.2) m
  | [], m, m', _, h => by cases h; exact ⟨[], .nil, rfl⟩
  | (k, v) :: l, m, m', ho, h => by
    rw [storeMap] at h
    obtain ⟨r, h1, h2⟩ := Option.bind_eq_some_iff.1 h
    obtain ⟨es, g1, g2⟩ := storeMap_wide l _ m' (fun e he => ho e (by simp [he])) h2
    exact ⟨(k, r) :: es, .cons (asRecord_wide (ho (k, v) (by simp)) h1) g1, g2⟩

theorem asMap_wide {x : List (Bytes × RecordJSON)} {m' : List (Bytes × RecordJSON)} {v : JVal} (ho : Occurs v) (h : asMap (putAll x) v = some m') :
    ∃ y, WideMap v x y ∧ m' = putAll y := by
  unfold asMap at h
  split at h
  · cases h; exact ⟨[], .inl ⟨rfl, rfl⟩, rfl⟩
  · obtain ⟨es, g1, g2⟩ := storeMap_wide _ _ _ (occurs_obj ho) h
    refine ⟨x ++ es, .inr ⟨_, es, rfl, g1, rfl⟩, ?_⟩
    rw [g2, putAll, putAll, List.foldl_append]
  · cases h

theorem storeIndex_wide (tgt : IndexJSON) : ∀ (l : List (Bytes × JVal)) (r : IndexJSON) (x : List (Bytes × RecordJSON)), (∀ e ∈ l, Occurs e.2) → r.index = putAll x →
    storeIndex l r = some tgt → ∃ es, Member "Pid" WideInt l r.pid tgt.pid ∧ Member "LastTouched" WideInt l r.lastTouched tgt.lastTouched ∧ Member "Index" WideMap l x es ∧
      Member "DataDir" IsStr l r.dataDir tgt.dataDir ∧ tgt.index = putAll es
  | [], r, x, _, hx, h => by cases h; exact ⟨x, .nil _, .nil _, .nil _, .nil _, hx⟩
  | (k, v) :: l, r, x, ho, hx, h => by
    have hov := ho (k, v) (by simp)
    have ih := fun r' x' => storeIndex_wide tgt l r' x' (fun e he => ho e (by simp [he]))
    rw [storeIndex] at h
    split at h
    · rename_i k1
      have k1 := (isField_iff _ _).1 k1
      obtain ⟨r', h1, h2⟩ := Option.bind_eq_some_iff.1 h
      obtain ⟨y, g1, g2⟩ := Option.map_eq_some_iff.1 h1
      cases g2
      obtain ⟨es, i1, i2, i3, i4, i5⟩ := ih { r with pid := y } x hx h2
      exact ⟨es, .take k1 (asInt_wide hov g1) i1, .skip (sameName_ne k1 (by decide)) i2, .skip (sameName_ne k1 (by decide)) i3, .skip (sameName_ne k1 (by decide)) i4, i5⟩
    rename_i n1; have n1 := not_field n1
    split at h
    · rename_i k1
      have k1 := (isField_iff _ _).1 k1
      obtain ⟨r', h1, h2⟩ := Option.bind_eq_some_iff.1 h
      obtain ⟨y, g1, g2⟩ := Option.map_eq_some_iff.1 h1
      cases g2
      obtain ⟨es, i1, i2, i3, i4, i5⟩ := ih { r with lastTouched := y } x hx h2
      exact ⟨es, .skip n1 i1, .take k1 (asInt_wide hov g1) i2, .skip (sameName_ne k1 (by decide)) i3, .skip (sameName_ne k1 (by decide)) i4, i5⟩
    rename_i n2; have n2 := not_field n2
    split at h
    · rename_i k1
      have k1 := (isField_iff _ _).1 k1
      obtain ⟨r', h1, h2⟩ := Option.bind_eq_some_iff.1 h
      obtain ⟨y, g1, g2⟩ := Option.map_eq_some_iff.1 h1
      cases g2
      rw [hx] at g1
      obtain ⟨z, j1, j2⟩ := asMap_wide hov g1
      obtain ⟨es, i1, i2, i3, i4, i5⟩ := ih _ z j2 h2
      exact ⟨es, .skip n1 i1, .skip n2 i2, .take k1 j1 i3, .skip (sameName_ne k1 (by decide)) i4, i5⟩
    rename_i n3; have n3 := not_field n3
    split at h
    · rename_i k1
      have k1 := (isField_iff _ _).1 k1
      obtain ⟨r', h1, h2⟩ := Option.bind_eq_some_iff.1 h
      obtain ⟨y, g1, g2⟩ := Option.map_eq_some_iff.1 h1
      cases g2
      obtain ⟨es, i1, i2, i3, i4, i5⟩ := ih { r with dataDir := y } x hx h2
      exact ⟨es, .skip n1 i1, .skip n2 i2, .skip n3 i3, .take k1 (asStr_wide g1) i4, i5⟩
    rename_i n4; have n4 := not_field n4
    obtain ⟨es, i1, i2, i3, i4, i5⟩ := ih _ x hx h
    exact ⟨es, .skip n1 i1, .skip n2 i2, .skip n3 i3, .skip n4 i4, i5⟩

/-- Whatever the decoder accepts is a text that describes what it has read. -/
theorem decode_lax {b : Bytes} {j : IndexJSON} (h : decode b = some j) :
    ∃ v es, LaxText b v ∧ WideIndex j.pid j.lastTouched j.dataDir es v ∧ (j.index.map (·.1)).Nodup ∧ ∀ k r, (k, r) ∈ j.index ↔ LastEntry es k r := by
  unfold decode at h
  obtain ⟨v, h1, h2⟩ := Option.bind_eq_some_iff.1 h
  have ht := parseDoc_lax h1
  have ho : Occurs v := by obtain ⟨_, b', _, _, hv, _⟩ := ht; exact ⟨_, b', hv⟩
  split at h2
  · cases h2
    refine ⟨_, [], ht, .inl ⟨rfl, rfl, rfl, rfl, rfl⟩, by simp, fun k r => ⟨fun h => (by cases h), ?_⟩⟩
    rintro ⟨a, b, h, -⟩
    cases a <;> cases h
  · obtain ⟨es, i1, i2, i3, i4, i5⟩ := storeIndex_wide j _ ⟨0, 0, [], []⟩ [] (occurs_obj ho) rfl h2
    obtain ⟨k1, k2⟩ := strPut_all es [] (by simp)
    refine ⟨_, es, ht, .inr ⟨_, rfl, i1, i2, i3, i4⟩, by rw [i5]; exact k1, fun k r => ?_⟩
    rw [i5, putAll, k2]; simp
  · cases h2

/-! ### Every text of the grammar is accepted -/

theorem laxStr_text {raw s : Bytes} (h : LaxStr raw s) : (∀ t, scanStr (raw ++ 34 :: t) = some (raw, t)) ∧ unquote raw = s := by
  induction h with
  | nil => exact ⟨fun t => by rw [List.nil_append, scanStr.eq_def]; simp, rfl⟩
  | @char c r s hc h32 hq hb h ih =>
    have hp := utf8_plain c hc h32 hq hb
    obtain ⟨h1, h2⟩ := runeLen_utf8 c hc r
    refine ⟨fun t => by rw [List.append_assoc, scanStr_plain _ _ hp, ih.1 t]; rfl, ?_⟩
    rw [unquote_plain (utf8 c) r ((utf8 c).length - 1) (by omega) (by omega) ?_, ih.2]
    rcases hu : utf8 c with _ | ⟨a, w⟩
    · simp
    · have := hp a (by rw [hu]; simp)
      simpa using this.2.1
  | @short e v r s he h ih =>
    have key : ∀ p ∈ shortEscapes, p.1 ≠ 117 ∧ (p.1 = 34 ∨ p.1 = 92 ∨ p.1 = 47 ∨ p.1 = 98 ∨ p.1 = 102 ∨ p.1 = 110 ∨ p.1 = 114 ∨ p.1 = 116) ∧
        (if p.1 = 98 then 8 else if p.1 = 102 then 12 else if p.1 = 110 then 10 else if p.1 = 114 then 13 else if p.1 = 116 then 9 else p.1) = p.2 := by decide
    obtain ⟨k1, k2, k3⟩ := key _ he
    refine ⟨fun t => ?_, ?_⟩
    · rw [List.cons_append, List.cons_append, scanStr_esc e _ k1 k2, ih.1 t]; rfl
    · rw [unquote_esc e r k1, ih.2]
      exact congrArg (· :: s) k3
  | @hex x u r s hx hu h ih =>
    obtain ⟨a, b, c, d, rfl, h1, h2⟩ := hex4_getu4 hx
    refine ⟨fun t => ?_, ?_⟩
    · show scanStr (92 :: 117 :: a :: b :: c :: d :: (r ++ 34 :: t)) = _
      rw [scanStr_u a b c d _ h2, ih.1 t]; rfl
    · show unquote (92 :: 117 :: a :: b :: c :: d :: r) = _
      rw [unquote_u4 a b c d u r h1 hu.2, ih.2, encodeRune_utf8]
  | @pair x y hi lo r s hx hhi hy hlo h ih =>
    obtain ⟨a, b, c, d, rfl, h1, h2⟩ := hex4_getu4 hx
    obtain ⟨a', b', c', d', rfl, h3, h4⟩ := hex4_getu4 hy
    refine ⟨fun t => ?_, ?_⟩
    · show scanStr (92 :: 117 :: a :: b :: c :: d :: 92 :: 117 :: a' :: b' :: c' :: d' :: (r ++ 34 :: t)) = _
      rw [scanStr_u a b c d _ h2, scanStr_u a' b' c' d' _ h4, ih.1 t]; rfl
    · show unquote (92 :: 117 :: a :: b :: c :: d :: 92 :: 117 :: a' :: b' :: c' :: d' :: r) = _
      rw [unquote_pair a b c d a' b' c' d' hi lo r h1 hhi h3 hlo, ih.2, encodeRune_utf8]
  | @bad c r s hc hn h ih =>
    have h128 : 128 ≤ c.toNat := by simpa using UInt8.le_iff_toNat_le.1 hc
    have hp : ∀ x ∈ [c], x ≠ 34 ∧ x ≠ 92 ∧ ¬ x < 32 := by
      intro x hx
      rw [List.mem_singleton] at hx
      subst hx
      refine ⟨fun e => ?_, fun e => ?_, fun e => ?_⟩
      · rw [e] at h128; exact absurd h128 (by decide)
      · rw [e] at h128; exact absurd h128 (by decide)
      · have := UInt8.lt_iff_toNat_lt.1 e
        have h32 : (32 : UInt8).toNat = 32 := rfl
        omega
    have h0 : runeLen (c :: r) = 0 := by
      refine Classical.byContradiction (fun h0 => ?_)
      obtain ⟨x, hx, hxe⟩ := utf8_of_runeLen _ h0
      exact hn x _ hx (by rw [← hxe]; exact (List.take_append_drop _ _).symm)
    refine ⟨fun t => by rw [List.cons_append]; exact (scanStr_plain [c] (r ++ 34 :: t) hp).trans (by rw [ih.1 t]; rfl), ?_⟩
    rw [← ih.2]
    show unquoteFuel (_ + 1) _ = _
    simp only [unquoteFuel, if_neg (hp c (by simp)).2.1, h0]
    rfl
  | @lone x u r s hx hu hn h ih =>
    obtain ⟨a, b, c, d, rfl, h1, h2⟩ := hex4_getu4 hx
    refine ⟨fun t => ?_, ?_⟩
    · show scanStr (92 :: 117 :: a :: b :: c :: d :: (r ++ 34 :: t)) = _
      rw [scanStr_u a b c d _ h2, ih.1 t]; rfl
    · show unquote (92 :: 117 :: a :: b :: c :: d :: r) = _
      rw [unquote_lone a b c d u r h1 hu ?_, ih.2]
      · rfl
      · rintro v hv ⟨k1, k2, k3⟩
        obtain ⟨y, t, e, hy⟩ := getu4_hex hv
        exact hn k1 y v t hy k2 k3 e

theorem parseStr_laxText {raw s : Bytes} (h : LaxStr raw s) (t : Bytes) : parseStr (raw ++ 34 :: t) = some (s, t) := by
  obtain ⟨h1, h2⟩ := laxStr_text h
  unfold parseStr
  rw [h1, Option.map_some, h2]

theorem laxAtom_head {b : Bytes} {v : JVal} (h : LaxAtom b v) : ∃ a r, b = a :: r ∧ isSpace a = false ∧ a ≠ 93 := by
  cases h with
  | num h =>
    obtain ⟨-, a, r, h1, h2⟩ := scanNum_text h [] stops_nil
    refine ⟨a, r, h1, (digit_ne a h2).1, ?_⟩
    rintro rfl
    rcases h2 with h2 | h2
    · exact absurd h2 (by decide)
    · cases h2
  | _ => exact ⟨_, _, rfl, rfl, by decide⟩

theorem laxVal_head : ∀ {n : Nat} {b : Bytes} {v : JVal}, LaxVal n b v → ∃ a r, b = a :: r ∧ isSpace a = false ∧ a ≠ 93
  | 0, b, v, h => laxAtom_head h
  | n + 1, b, v, h => by
    rcases h with h | ⟨w, -, rfl, -⟩ | ⟨body, l, -, rfl, -⟩ | ⟨w, -, rfl, -⟩ | ⟨body, l, -, rfl, -⟩
    · exact laxAtom_head h
    all_goals exact ⟨_, _, rfl, rfl, by decide⟩

theorem parseVal_laxAtom (n : Nat) (w b : Bytes) (v : JVal) (t : Bytes) (hw : JWs w) (h : LaxAtom b v) (ht : Stops t) : parseVal (n + 1) (w ++ (b ++ t)) = some (v, t) := by
  cases h with
  | num h =>
    obtain ⟨h1, a, r, h2, h3⟩ := scanNum_text h t ht
    have hs : skipWs (w ++ (b ++ t)) = a :: (r ++ t) := by
      rw [skipWs_ws w _ hw, h2, List.cons_append, skipWs_cons a _ (digit_ne a h3).1]
    rw [parseVal_num' n _ a (r ++ t) hs h3, ← List.cons_append, ← h2, h1]
    rfl
  | str h =>
    rw [List.cons_append, List.append_assoc, List.singleton_append]
    unfold parseVal
    rw [skipWs_ws w _ hw, skipWs_cons 34 _ rfl]
    simp only [parseStr_laxText h t, Option.map_some]
  | null => unfold parseVal; rw [skipWs_ws w _ hw, List.cons_append, skipWs_cons 110 _ rfl]; rfl
  | true => unfold parseVal; rw [skipWs_ws w _ hw, List.cons_append, skipWs_cons 116 _ rfl]; rfl
  | false => unfold parseVal; rw [skipWs_ws w _ hw, List.cons_append, skipWs_cons 102 _ rfl]; rfl

theorem members_laxText {pv : Bytes → Option (JVal × Bytes)} {V : Bytes → JVal → Prop} (hpv : Reads pv V) {body : Bytes} {l : List (Bytes × JVal)} (h : LaxMembers V body l) (t : Bytes) :
    ∀ k, body.length + 1 ≤ k → members pv k (body ++ 125 :: t) = some (l, t) := by
  induction h with
  | @one w raw key w1 w2 b w3 v hw hk hw1 hw2 hv hw3 =>
    intro k hlen
    rcases k with _ | k
    · omega
    have h1 := hpv w2 b v (w3 ++ 125 :: t) hw2 hv ((stops_cons 125 t (by simp)).ws hw3)
    rw [show w ++ 34 :: (raw ++ 34 :: (w1 ++ 58 :: (w2 ++ (b ++ w3)))) ++ 125 :: t = w ++ 34 :: (raw ++ 34 :: (w1 ++ 58 :: (w2 ++ (b ++ (w3 ++ 125 :: t))))) by simp, members,
      skipWs_ws w _ hw, skipWs_cons 34 _ rfl]
    simp only [parseStr_laxText hk, skipWs_ws w1 _ hw1, skipWs_cons 58 _ rfl, h1, skipWs_ws w3 _ hw3, skipWs_cons 125 _ rfl]
  | @more w raw key w1 w2 b w3 rest v l hw hk hw1 hw2 hv hw3 h ih =>
    intro k hlen
    rcases k with _ | k
    · omega
    have h1 := hpv w2 b v (w3 ++ 44 :: (rest ++ 125 :: t)) hw2 hv ((stops_cons 44 _ (by simp)).ws hw3)
    rw [show w ++ 34 :: (raw ++ 34 :: (w1 ++ 58 :: (w2 ++ (b ++ (w3 ++ 44 :: rest))))) ++ 125 :: t =
      w ++ 34 :: (raw ++ 34 :: (w1 ++ 58 :: (w2 ++ (b ++ (w3 ++ 44 :: (rest ++ 125 :: t)))))) by simp, members, skipWs_ws w _ hw, skipWs_cons 34 _ rfl]
    simp only [parseStr_laxText hk, skipWs_ws w1 _ hw1, skipWs_cons 58 _ rfl, h1, skipWs_ws w3 _ hw3, skipWs_cons 44 _ rfl]
    rw [ih k (by simp at hlen; omega)]
    rfl

/-- The first byte of the elements of an array that is not white space. -/
theorem laxElems_head {n : Nat} {body : Bytes} {l : List JVal} (h : ElemsText (LaxVal n) body l) (t : Bytes) : ∃ a r, skipWs (body ++ t) = a :: r ∧ a ≠ 93 := by
  cases h with
  | @one w b w' v hw hv hw' =>
    obtain ⟨a, r, rfl, h2, h3⟩ := laxVal_head hv
    refine ⟨a, r ++ w' ++ t, ?_, h3⟩
    rw [List.append_assoc, skipWs_ws w _ hw]
    simp only [List.cons_append, skipWs_cons a _ h2]
  | @more w b w' rest v l hw hv hw' h =>
    obtain ⟨a, r, rfl, h2, h3⟩ := laxVal_head hv
    refine ⟨a, r ++ (w' ++ 44 :: rest) ++ t, ?_, h3⟩
    rw [List.append_assoc, skipWs_ws w _ hw]
    simp only [List.cons_append, skipWs_cons a _ h2]

theorem laxMembers_head {V : Bytes → JVal → Prop} {body : Bytes} {l : List (Bytes × JVal)} (h : LaxMembers V body l) (t : Bytes) : ∃ r, skipWs (body ++ t) = 34 :: r := by
  cases h with
  | @one w raw key w1 w2 b w3 v hw hk hw1 hw2 hv hw3 =>
    rw [List.append_assoc, skipWs_ws w _ hw, List.cons_append, skipWs_cons 34 _ rfl]
    exact ⟨_, rfl⟩
  | @more w raw key w1 w2 b w3 rest v l hw hk hw1 hw2 hv hw3 h =>
    rw [List.append_assoc, skipWs_ws w _ hw, List.cons_append, skipWs_cons 34 _ rfl]
    exact ⟨_, rfl⟩

theorem parseVal_laxText : ∀ n, Reads (parseVal (n + 1)) (LaxVal n)
  | 0 => fun w b v t hw h ht => parseVal_laxAtom 0 w b v t hw h ht
  | n + 1 => fun w b v t hw h ht => by
    have ih := parseVal_laxText n
    rcases h with h | ⟨w1, h1, rfl, rfl⟩ | ⟨body, l, h1, rfl, rfl⟩ | ⟨w1, h1, rfl, rfl⟩ | ⟨body, l, h1, rfl, rfl⟩
    · exact parseVal_laxAtom (n + 1) w b v t hw h ht
    · rw [parseVal, skipWs_ws w _ hw, List.cons_append, skipWs_cons 91 _ rfl]
      simp only [List.append_assoc, List.singleton_append, skipWs_ws w1 _ h1, skipWs_cons 93 _ rfl, Nat.add_one_ne_zero, if_false]
    · obtain ⟨a, r, h2, h3⟩ := laxElems_head h1 (93 :: t)
      have h4 := elements_text ih h1 t (body ++ 93 :: t).length (by simp)
      rw [parseVal, skipWs_ws w _ hw, List.cons_append, skipWs_cons 91 _ rfl]
      simp only [List.append_assoc, List.singleton_append, h2, h4, Option.map_some]
      split
      · rename_i heq; injection heq with e1 _; exact absurd e1 h3
      · rfl
    · rw [parseVal, skipWs_ws w _ hw, List.cons_append, skipWs_cons 123 _ rfl]
      simp only [List.append_assoc, List.singleton_append, skipWs_ws w1 _ h1, skipWs_cons 125 _ rfl, Nat.add_one_ne_zero, if_false]
    · obtain ⟨r, h2⟩ := laxMembers_head h1 (125 :: t)
      have h4 := members_laxText ih h1 t (body ++ 125 :: t).length (by simp)
      rw [parseVal, skipWs_ws w _ hw, List.cons_append, skipWs_cons 123 _ rfl]
      simp only [List.append_assoc, List.singleton_append, h2, h4, Option.map_some]
      rfl

/-- The decoder reads every JSON text as what it is. -/
theorem parseDoc_laxText {b : Bytes} {v : JVal} (h : LaxText b v) : parseDoc b = some v := by
  obtain ⟨w, b', w', h1, h2, h3, rfl⟩ := h
  have hs : Stops w' := by have := stops_nil.ws h3; rwa [List.append_nil] at this
  have := parseVal_laxText 10000 w b' v w' h1 h2 hs
  unfold parseDoc
  rw [this]
  have hw : skipWs w' = [] := by have := skipWs_ws w' [] h3; rw [List.append_nil] at this; exact this
  simp only [hw, if_true]

theorem asInt_ofWide {i old : Int} {v : JVal} (h : WideInt v old i) : asInt old v = some i := by
  rcases h with ⟨rfl, rfl⟩ | ⟨b, h1, rfl⟩
  · rfl
  · exact intOf_text h1

theorem storeRecord_ofWide (tgt : RecordJSON) : ∀ (l : List (Bytes × JVal)) (r : RecordJSON), Member "FilePath" IsStr l r.filePath tgt.filePath →
    Member "SizeInBytes" WideInt l r.sizeInBytes tgt.sizeInBytes → Member "Sha1Hash" IsStr l r.sha1Hash tgt.sha1Hash →
    Member "ChunkSize" WideInt l r.chunkSize tgt.chunkSize → storeRecord l r = some tgt
  | [], r, h1, h2, h3, h4 => by
    have e1 := member_nil h1; have e2 := member_nil h2; have e3 := member_nil h3; have e4 := member_nil h4
    cases r; cases tgt
    simp only at e1 e2 e3 e4
    subst e1 e2 e3 e4; rfl
  | (k, v) :: l, r, h1, h2, h3, h4 => by
    have ih := storeRecord_ofWide tgt l
    rw [storeRecord]
    by_cases k1 : SameName "FilePath" k
    · obtain ⟨_, g1, g2⟩ := member_same k1 h1
      rw [if_pos ((isField_iff _ _).2 k1), asStr_is g1]
      exact ih _ g2 (member_other (sameName_ne k1 (by decide)) h2) (member_other (sameName_ne k1 (by decide)) h3) (member_other (sameName_ne k1 (by decide)) h4)
    rw [if_neg (by rw [isField_false _ _ k1]; decide)]
    by_cases k2 : SameName "SizeInBytes" k
    · obtain ⟨_, g1, g2⟩ := member_same k2 h2
      rw [if_pos ((isField_iff _ _).2 k2), asInt_ofWide g1]
      exact ih _ (member_other k1 h1) g2 (member_other (sameName_ne k2 (by decide)) h3) (member_other (sameName_ne k2 (by decide)) h4)
    rw [if_neg (by rw [isField_false _ _ k2]; decide)]
    by_cases k3 : SameName "Sha1Hash" k
    · obtain ⟨_, g1, g2⟩ := member_same k3 h3
      rw [if_pos ((isField_iff _ _).2 k3), asStr_is g1]
      exact ih _ (member_other k1 h1) (member_other k2 h2) g2 (member_other (sameName_ne k3 (by decide)) h4)
    rw [if_neg (by rw [isField_false _ _ k3]; decide)]
    by_cases k4 : SameName "ChunkSize" k
    · obtain ⟨_, g1, g2⟩ := member_same k4 h4
      rw [if_pos ((isField_iff _ _).2 k4), asInt_ofWide g1]
      exact ih _ (member_other k1 h1) (member_other k2 h2) (member_other k3 h3) g2
    rw [if_neg (by rw [isField_false _ _ k4]; decide)]
    exact ih _ (member_other k1 h1) (member_other k2 h2) (member_other k3 h3) (member_other k4 h4)

theorem asRecord_ofWide {r : RecordJSON} {v : JVal} (h : WideRecord r v) : asRecord v = some r := by
  rcases h with ⟨rfl, rfl⟩ | ⟨l, rfl, h1, h2, h3, h4⟩
  · rfl
  · exact storeRecord_ofWide r l _ h1 h2 h3 h4

theorem storeMap_ofWide {es : List (Bytes × RecordJSON)} {l : List (Bytes × JVal)} (h : WideEntries es l) :
    ∀ m, storeMap l m = some (es.foldl (fun m e => strPut m e.1 e.2) m) := by
  induction h with
  | nil => intro m; rfl
  | cons h hs ih =>
    intro m
    rw [storeMap, asRecord_ofWide h]
    exact ih _

theorem asMap_ofWide {x y : List (Bytes × RecordJSON)} {v : JVal} (h : WideMap v x y) : asMap (putAll x) v = some (putAll y) := by
  rcases h with ⟨rfl, rfl⟩ | ⟨m, es, rfl, h, rfl⟩
  · rfl
  · rw [asMap, storeMap_ofWide h, putAll, putAll, List.foldl_append]

theorem storeIndex_ofWide (pid lt : Int) (es : List (Bytes × RecordJSON)) (dir : Bytes) :
    ∀ (l : List (Bytes × JVal)) (r : IndexJSON) (x : List (Bytes × RecordJSON)), r.index = putAll x → Member "Pid" WideInt l r.pid pid →
    Member "LastTouched" WideInt l r.lastTouched lt → Member "Index" WideMap l x es → Member "DataDir" IsStr l r.dataDir dir → storeIndex l r = some ⟨pid, lt, putAll es, dir⟩
  | [], r, x, h0, h1, h2, h3, h4 => by
    have e1 := member_nil h1; have e2 := member_nil h2; have e3 := member_nil h3; have e4 := member_nil h4
    cases r
    simp only at e1 e2 e3 e4 h0
    subst e1 e2 e3 e4 h0; rfl
  | (k, v) :: l, r, x, h0, h1, h2, h3, h4 => by
    have ih := storeIndex_ofWide pid lt es dir l
    rw [storeIndex]
    by_cases k1 : SameName "Pid" k
    · obtain ⟨_, g1, g2⟩ := member_same k1 h1
      rw [if_pos ((isField_iff _ _).2 k1), asInt_ofWide g1]
      exact ih _ x h0 g2 (member_other (sameName_ne k1 (by decide)) h2) (member_other (sameName_ne k1 (by decide)) h3) (member_other (sameName_ne k1 (by decide)) h4)
    rw [if_neg (by rw [isField_false _ _ k1]; decide)]
    by_cases k2 : SameName "LastTouched" k
    · obtain ⟨_, g1, g2⟩ := member_same k2 h2
      rw [if_pos ((isField_iff _ _).2 k2), asInt_ofWide g1]
      exact ih _ x h0 (member_other k1 h1) g2 (member_other (sameName_ne k2 (by decide)) h3) (member_other (sameName_ne k2 (by decide)) h4)
    rw [if_neg (by rw [isField_false _ _ k2]; decide)]
    by_cases k3 : SameName "Index" k
    · obtain ⟨y, g1, g2⟩ := member_same k3 h3
      rw [if_pos ((isField_iff _ _).2 k3), h0, asMap_ofWide g1]
      exact ih _ y rfl (member_other k1 h1) (member_other k2 h2) g2 (member_other (sameName_ne k3 (by decide)) h4)
    rw [if_neg (by rw [isField_false _ _ k3]; decide)]
    by_cases k4 : SameName "DataDir" k
    · obtain ⟨_, g1, g2⟩ := member_same k4 h4
      rw [if_pos ((isField_iff _ _).2 k4), asStr_is g1]
      exact ih _ x h0 (member_other k1 h1) (member_other k2 h2) (member_other k3 h3) g2
    rw [if_neg (by rw [isField_false _ _ k4]; decide)]
    exact ih _ x h0 (member_other k1 h1) (member_other k2 h2) (member_other k3 h3) (member_other k4 h4)

/-- What the decoder makes of a text that describes an index. -/
theorem decode_laxText {b : Bytes} {v : JVal} {pid lt : Int} {dir : Bytes} {es : List (Bytes × RecordJSON)} (hb : LaxText b v) (hv : WideIndex pid lt dir es v) :
    ∃ idx, decode b = some ⟨pid, lt, idx, dir⟩ ∧ (idx.map (·.1)).Nodup ∧ ∀ k r, (k, r) ∈ idx ↔ LastEntry es k r := by
  obtain ⟨k1, k2⟩ := strPut_all es [] (by simp)
  refine ⟨putAll es, ?_, k1, fun k r => ?_⟩
  · unfold decode
    rw [parseDoc_laxText hb]
    rcases hv with ⟨rfl, rfl, rfl, rfl, rfl⟩ | ⟨l, rfl, h1, h2, h3, h4⟩
    · rfl
    · exact storeIndex_ofWide pid lt es dir l _ [] rfl h1 h2 h3 h4
  · rw [putAll, k2]; simp

end Flu.Json
