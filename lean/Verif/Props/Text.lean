import Verif.Model.Text
import Verif.Props.Listing
import Verif.Props.Cli
import Verif.Props.Sha1
import Verif.Lemmas.Json2
/-!
# What the client prints says what the daemon answered (C89)
-/
namespace Flu
open Json (ascii encInt decNat isDigit)

/-! ### Lines -/

/-- A text made of lines. -/
def unlines (ls : List Bytes) : Bytes := ls.flatMap (· ++ [10])

theorem unlines_append (a b : List Bytes) : unlines (a ++ b) = unlines a ++ unlines b := List.flatMap_append

theorem line_inj : ∀ (x y s t : Bytes), 10 ∉ x → 10 ∉ y → x ++ 10 :: s = y ++ 10 :: t → x = y ∧ s = t
  | [], [], _, _, _, _, h => ⟨rfl, (List.cons.inj h).2⟩
  | [], b :: y, _, _, _, hy, h => absurd (List.cons.inj h).1 (fun e => hy (by rw [e]; exact List.mem_cons_self))
  | a :: x, [], _, _, hx, _, h => absurd (List.cons.inj h).1 (fun e => hx (by rw [← e]; exact List.mem_cons_self))
  | a :: x, b :: y, s, t, hx, hy, h => by
    obtain ⟨h1, h2⟩ := List.cons.inj h
    obtain ⟨h3, h4⟩ := line_inj x y s t (fun h => hx (List.mem_cons_of_mem _ h)) (fun h => hy (List.mem_cons_of_mem _ h)) h2
    exact ⟨by rw [h1, h3], h4⟩

theorem unlines_inj : ∀ (a b : List Bytes), (∀ l ∈ a, 10 ∉ l) → (∀ l ∈ b, 10 ∉ l) → unlines a = unlines b → a = b
  | [], [], _, _, _ => rfl
  | [], l :: b, _, _, h => by
    have := congrArg List.length h
    simp [unlines] at this
  | l :: a, [], _, _, h => by
    have := congrArg List.length h
    simp [unlines] at this
  | l :: a, m :: b, ha, hb, h => by
    have h' : l ++ 10 :: unlines a = m ++ 10 :: unlines b := by simpa [unlines] using h
    obtain ⟨h1, h2⟩ := line_inj l m _ _ (ha l (by simp)) (hb m (by simp)) h'
    rw [h1, unlines_inj a b (fun l h => ha l (by simp [h])) (fun l h => hb l (by simp [h])) h2]

/-- Groups of lines, a first line that does not satisfy `p` and further ones that do, can be told apart. -/
theorem groups_inj (p : Bytes → Bool) : ∀ (a b : List (Bytes × List Bytes)), (∀ g ∈ a, p g.1 = false ∧ ∀ x ∈ g.2, p x = true) →
    (∀ g ∈ b, p g.1 = false ∧ ∀ x ∈ g.2, p x = true) → a.flatMap (fun g => g.1 :: g.2) = b.flatMap (fun g => g.1 :: g.2) → a = b
  | [], [], _, _, _ => rfl
  | [], g :: b, _, _, h => by simp at h
  | g :: a, [], _, _, h => by simp at h
  | (x, r) :: a, (y, s) :: b, ha, hb, h => by
    simp only [List.flatMap_cons, List.cons_append, List.cons.injEq] at h
    obtain ⟨h1, h2⟩ := h
    have key : ∀ (r : List Bytes) (c : List (Bytes × List Bytes)), (∀ x ∈ r, p x = true) → (∀ g ∈ c, p g.1 = false ∧ ∀ x ∈ g.2, p x = true) →
        (r ++ c.flatMap (fun g => g.1 :: g.2)).takeWhile p = r := by
      intro r c hr hc
      rw [List.takeWhile_append_of_pos hr]
      cases c with
      | nil => simp
      | cons g c => simp [List.flatMap_cons, (hc g (by simp)).1]
    have e1 := key r a (ha (x, r) (by simp)).2 (fun g h => ha g (by simp [h]))
    have e2 := key s b (hb (y, s) (by simp)).2 (fun g h => hb g (by simp [h]))
    have hrs : r = s := by rw [← e1, ← e2, h2]
    subst hrs
    rw [h1, groups_inj p a b (fun g h => ha g (by simp [h])) (fun g h => hb g (by simp [h])) (List.append_cancel_left h2)]

/-! ### Numbers -/

theorem encInt_chars (i : Int) (c : UInt8) (h : c ∈ encInt i) : isDigit c = true ∨ c = 45 := by
  unfold encInt at h
  split at h
  · rcases List.mem_cons.1 h with h | h
    · exact .inr h
    · exact .inl (Json.decNat_digits _ c h)
  · exact .inl (Json.decNat_digits _ c h)

theorem encInt_line (i : Int) : (10 : UInt8) ∉ encInt i := fun h => by rcases encInt_chars i 10 h with h | h <;> exact absurd h (by decide)

theorem encInt_inj (i j : Int) (h : encInt i = encInt j) : i = j := by
  have := Json.intOf_encInt i
  rw [h, Json.intOf_encInt j] at this
  exact (Option.some.inj this).symm

theorem hex_line (h : Bytes) : (10 : UInt8) ∉ Hex.encode h := by
  have key : ∀ k < 16, Hex.digit k ≠ 10 := by decide
  unfold Hex.encode
  intro hm
  obtain ⟨b, -, hb⟩ := List.mem_flatMap.1 hm
  have := b.toNat_lt
  simp only [List.mem_cons, List.not_mem_nil, or_false] at hb
  rcases hb with hb | hb
  · exact key _ (by omega) hb.symm
  · exact key _ (by omega) hb.symm

theorem hex_inj (a b : Sha1Hash) (h : Hex.encode a.1 = Hex.encode b.1) : a = b := C21_injective a b h

theorem decText_digits (n : Nat) : ∀ c ∈ decText n, isDigit c = true := by
  unfold decText encInt
  rw [if_neg (by omega)]
  exact Json.decNat_digits _

theorem decText_inj (n m : Nat) (h : decText n = decText m) : n = m := by
  have := encInt_inj _ _ h
  omega

theorem decText_sep (n m : Nat) (c : UInt8) (hc : isDigit c = false) (s t : Bytes) (h : decText n ++ c :: s = decText m ++ c :: t) : n = m ∧ s = t := by
  obtain ⟨a1, a2⟩ := Json.takeWhile_digits _ (decText_digits n) c hc s
  obtain ⟨b1, b2⟩ := Json.takeWhile_digits _ (decText_digits m) c hc t
  rw [h] at a1 a2
  rw [b1] at a1
  rw [b2] at a2
  exact ⟨(decText_inj _ _ a1).symm, (List.cons.inj a2).2.symm⟩

theorem digit_line {w : Bytes} (h : ∀ c ∈ w, isDigit c = true) : (10 : UInt8) ∉ w := fun hm => absurd (h 10 hm) (by decide)

/-! ### The listing -/

namespace Spec
/-- A text of one line. -/
def OneLine (s : GoString) : Prop := (10 : UInt8) ∉ s
end Spec
open Spec

theorem splitSlash_line : ∀ (s : GoString), OneLine s → ∀ e ∈ splitSlash s, OneLine e
  | [], _, e, he => by
    rw [show splitSlash [] = [[]] from rfl] at he
    rw [List.mem_singleton.1 he]
    exact List.not_mem_nil
  | c :: cs, h, e, he => by
    have ih := splitSlash_line cs (fun hm => h (List.mem_cons_of_mem _ hm))
    have hc : c ≠ 10 := fun e => h (by rw [e]; exact List.mem_cons_self)
    unfold splitSlash at he
    split at he
    · rcases List.mem_cons.1 he with rfl | he
      · exact List.not_mem_nil
      · exact ih e he
    · split at he
      · rw [List.mem_singleton.1 he]
        intro hm
        exact hc (List.mem_singleton.1 hm).symm
      · rename_i w ws hw
        rcases List.mem_cons.1 he with rfl | he
        · intro hm
          rcases List.mem_cons.1 hm with hm | hm
          · exact hc hm.symm
          · exact ih w (by rw [hw]; simp) hm
        · exact ih e (by rw [hw]; simp [he])

theorem splitFile_line (s : GoString) (h : OneLine s) : OneLine (splitFile s) := by
  unfold splitFile
  rcases hg : (splitSlash s).getLast? with _ | e
  · exact List.not_mem_nil
  · exact splitSlash_line s h e (List.mem_of_getLast? hg)

/-- The lines of an item. -/
def itemLines (li : ListItem) (pc : Int) : List Bytes :=
  [splitFile li.filePath, ascii "\tPath: " ++ li.filePath, ascii "\tSize (bytes): " ++ encInt li.sizeInBytes, ascii "\tSha1 Hash: " ++ Hex.encode li.hash.1,
   ascii "\tChunk Count: " ++ encInt li.chunkCount, ascii "\tChunks Downloaded: " ++ encInt li.chunksDownloaded, ascii "\tChunk Size: " ++ encInt li.chunkSize,
   ascii "\tIntegrity: " ++ encInt pc ++ ascii "%"]

theorem text_ok {li : ListItem} {t : Bytes} (h : li.text = .ok t) : ∃ pc, integrity li.chunksDownloaded li.chunkCount = .ok pc ∧ t = unlines (itemLines li pc) := by
  unfold ListItem.text at h
  rcases hp : integrity li.chunksDownloaded li.chunkCount with pc | e | _ | _ | _
  · rw [hp, Res.bind_ok, Res.pure_eq] at h
    refine ⟨pc, rfl, ?_⟩
    rw [← Res.ok.inj h]
    have e1 : ascii "%\n" = ascii "%" ++ [10] := rfl
    have e2 : ascii "\n" = [10] := rfl
    simp only [unlines, itemLines, List.flatMap_cons, List.flatMap_nil, List.append_nil, e1, e2, List.append_assoc]
  all_goals (rw [hp] at h; cases h)

theorem text_of {li : ListItem} {pc : Int} (h : integrity li.chunksDownloaded li.chunkCount = .ok pc) : li.text = .ok (unlines (itemLines li pc)) := by
  unfold ListItem.text
  rw [h, Res.bind_ok, Res.pure_eq]
  have e1 : ascii "%\n" = ascii "%" ++ [10] := rfl
  have e2 : ascii "\n" = [10] := rfl
  simp only [unlines, itemLines, List.flatMap_cons, List.flatMap_nil, List.append_nil, e1, e2, List.append_assoc]

/-- Items with the percentages printed for them. -/
theorem listText_ok : ∀ {l : List ListItem} {t : Bytes}, listText l = .ok t → ∃ ps : List Int, ps.length = l.length ∧
    t = unlines ((l.zip ps).flatMap (fun x => itemLines x.1 x.2))
  | [], t, h => ⟨[], rfl, (Res.ok.inj h).symm⟩
  | li :: rest, t, h => by
    unfold listText at h
    rcases h1 : li.text with a | e | _ | _ | _
    · rw [h1, Res.bind_ok] at h
      rcases h2 : listText rest with b | e | _ | _ | _
      · rw [h2, Res.bind_ok, Res.pure_eq] at h
        obtain ⟨pc, -, ha⟩ := text_ok h1
        obtain ⟨ps, hl, hb⟩ := listText_ok h2
        refine ⟨pc :: ps, by simp [hl], ?_⟩
        rw [← Res.ok.inj h, ha, hb, List.zip_cons_cons, List.flatMap_cons, unlines_append]
      all_goals (rw [h2] at h; cases h)
    all_goals (rw [h1] at h; cases h)

theorem ascii_line (s : String) (h : (10 : UInt8) ∉ ascii s) (w : Bytes) (hw : (10 : UInt8) ∉ w) : (10 : UInt8) ∉ ascii s ++ w := fun hm =>
  (List.mem_append.1 hm).elim h hw

theorem itemLines_line (li : ListItem) (pc : Int) (h : OneLine li.filePath) : ∀ l ∈ itemLines li pc, (10 : UInt8) ∉ l := by
  intro l hl
  simp only [itemLines, List.mem_cons, List.not_mem_nil, or_false] at hl
  rcases hl with rfl | rfl | rfl | rfl | rfl | rfl | rfl | rfl
  · exact splitFile_line _ h
  · exact ascii_line _ (by decide) _ h
  · exact ascii_line _ (by decide) _ (encInt_line _)
  · exact ascii_line _ (by decide) _ (hex_line _)
  · exact ascii_line _ (by decide) _ (encInt_line _)
  · exact ascii_line _ (by decide) _ (encInt_line _)
  · exact ascii_line _ (by decide) _ (encInt_line _)
  · intro hm
    rcases List.mem_append.1 hm with hm | hm
    · exact ascii_line _ (by decide) _ (encInt_line _) hm
    · exact absurd hm (by decide)

theorem itemLines_inj (a b : ListItem) (p q : Int) (h : itemLines a p = itemLines b q) : a = b := by
  simp only [itemLines, List.cons.injEq, and_true] at h
  obtain ⟨-, h1, h2, h3, h4, h5, h6, -⟩ := h
  obtain ⟨a1, a2, a3, a4, a5, a6⟩ := a
  obtain ⟨b1, b2, b3, b4, b5, b6⟩ := b
  simp only at h1 h2 h3 h4 h5 h6
  rw [List.append_cancel_left h1, encInt_inj _ _ (List.append_cancel_left h2), hex_inj _ _ (List.append_cancel_left h3), encInt_inj _ _ (List.append_cancel_left h4),
    encInt_inj _ _ (List.append_cancel_left h5), encInt_inj _ _ (List.append_cancel_left h6)]

/-- C89, for paths without line breaks: two listings that print the same are the same. -/
theorem C89_partial (l1 l2 : List ListItem) (t : Bytes) (h1 : ∀ i ∈ l1, OneLine i.filePath) (h2 : ∀ i ∈ l2, OneLine i.filePath) (ht1 : listText l1 = .ok t)
    (ht2 : listText l2 = .ok t) : l1 = l2 := by
  obtain ⟨ps, hp, e1⟩ := listText_ok ht1
  obtain ⟨qs, hq, e2⟩ := listText_ok ht2
  have key : ∀ (l : List ListItem) (ps : List Int), (∀ i ∈ l, OneLine i.filePath) → ∀ x ∈ (l.zip ps).flatMap (fun x => itemLines x.1 x.2), (10 : UInt8) ∉ x := by
    intro l ps h x hx
    obtain ⟨⟨i, p⟩, hi, hx⟩ := List.mem_flatMap.1 hx
    exact itemLines_line i p (h i (List.of_mem_zip hi).1) x hx
  have := unlines_inj _ _ (key l1 ps h1) (key l2 qs h2) (e1.symm.trans e2)
  clear e1 e2 h1 h2 ht1 ht2 key
  induction l1 generalizing l2 ps qs with
  | nil =>
    cases l2 with
    | nil => rfl
    | cons b l2 =>
      cases qs with
      | nil => simp at hq
      | cons q qs => simp [itemLines] at this
  | cons a l1 ih =>
    cases ps with
    | nil => simp at hp
    | cons p ps =>
      cases l2 with
      | nil => simp [itemLines] at this
      | cons b l2 =>
        cases qs with
        | nil => simp at hq
        | cons q qs =>
          simp only [List.zip_cons_cons, List.flatMap_cons] at this
          obtain ⟨e1, e2⟩ := List.append_inj this rfl
          rw [itemLines_inj a b p q e1, ih l2 ps (by simpa using hp) qs (by simpa using hq) e2]

theorem integrity_ok_iff (d c : Int) : (∃ pc, integrity d c = .ok pc) ↔ c ≠ 0 := by
  constructor
  · rintro ⟨pc, h⟩ rfl
    rw [C57_empty] at h
    cases h
  · intro hc
    unfold integrity goDiv
    rw [if_neg hc, Res.bind_ok, if_neg (by decide)]
    exact ⟨_, rfl⟩

theorem integrity_panic (d c : Int) (h : c = 0) : integrity d c = .panic := by rw [h, C57_empty]

/-- C89: a listing is printed exactly if every item has chunks; otherwise the client dies and prints none of it. -/
theorem C89_prints (l : List ListItem) : ((∃ t, listText l = .ok t) ↔ ∀ i ∈ l, i.chunkCount ≠ 0) ∧ ((∃ i ∈ l, i.chunkCount = 0) → listText l = .panic) := by
  induction l with
  | nil => exact ⟨⟨fun _ i hi => absurd hi List.not_mem_nil, fun _ => ⟨[], rfl⟩⟩, fun ⟨i, hi, _⟩ => absurd hi List.not_mem_nil⟩
  | cons li rest ih =>
    obtain ⟨ih1, ih2⟩ := ih
    by_cases hc : li.chunkCount = 0
    · have hp : listText (li :: rest) = .panic := by
        unfold listText ListItem.text
        rw [integrity_panic _ _ hc]; rfl
      refine ⟨⟨fun ⟨t, ht⟩ => (by rw [hp] at ht; cases ht), fun h => absurd hc (h li (by simp))⟩, fun _ => hp⟩
    · obtain ⟨pc, hpc⟩ := (integrity_ok_iff li.chunksDownloaded li.chunkCount).2 hc
      have ht : ∃ a, li.text = .ok a := by
        unfold ListItem.text
        rw [hpc]
        exact ⟨_, rfl⟩
      obtain ⟨a, ha⟩ := ht
      constructor
      · constructor
        · rintro ⟨t, ht⟩ i hi
          rcases List.mem_cons.1 hi with rfl | hi
          · exact hc
          · refine ih1.1 ?_ i hi
            unfold listText at ht
            rw [ha, Res.bind_ok] at ht
            rcases hr : listText rest with b | e | _ | _ | _
            · exact ⟨b, rfl⟩
            all_goals (rw [hr] at ht; cases ht)
        · intro h
          obtain ⟨b, hb⟩ := ih1.2 (fun i hi => h i (by simp [hi]))
          refine ⟨a ++ b, ?_⟩
          unfold listText
          rw [ha, hb]; rfl
      · rintro ⟨i, hi, h0⟩
        rcases List.mem_cons.1 hi with rfl | hi
        · exact absurd h0 hc
        · unfold listText
          rw [ha, Res.bind_ok, ih2 ⟨i, hi, h0⟩]; rfl

theorem splitSlash_ne (s : GoString) : splitSlash s ≠ [] := by
  cases s with
  | nil => exact List.cons_ne_nil _ _
  | cons c cs =>
    unfold splitSlash
    split
    · exact List.cons_ne_nil _ _
    · split <;> exact List.cons_ne_nil _ _

theorem splitFile_slash (s t : GoString) : splitFile (s ++ slash :: t) = splitFile t := by
  unfold splitFile
  induction s with
  | nil =>
    rw [List.nil_append, splitSlash, if_pos rfl]
    rcases h : splitSlash t with _ | ⟨w, ws⟩
    · exact absurd h (splitSlash_ne t)
    · simp
  | cons c cs ih =>
    rw [List.cons_append, splitSlash]
    rcases h : splitSlash (cs ++ slash :: t) with _ | ⟨w, ws⟩
    · exact absurd h (splitSlash_ne _)
    · rw [h] at ih
      split
      · rw [← ih]; simp
      · simp only
        cases ws with
        | nil =>
          exfalso
          have hlen : ∀ s t : GoString, 2 ≤ (splitSlash (s ++ slash :: t)).length := by
            intro s t
            induction s with
            | nil =>
              rw [List.nil_append, splitSlash, if_pos rfl, List.length_cons]
              have := List.length_pos_iff.2 (splitSlash_ne t)
              omega
            | cons c cs ih =>
              rw [List.cons_append, splitSlash]
              split
              · rw [List.length_cons]; omega
              · split
                · rename_i h; rw [h] at ih; simp at ih
                · rename_i h; rw [h] at ih; simpa using ih
          have := hlen cs t
          rw [h] at this
          simp at this
        | cons v vs => rw [← ih]; simp

/-- C89: whatever two items are, if their files have the same name and the path of the second has a slash, then a single item prints exactly as the two do:
the second with another path. -/
theorem C89_forged (a b : ListItem) (ta tb d n : GoString) (ha : a.text = .ok ta) (hb : b.text = .ok tb) (hp : b.filePath = d ++ slash :: n)
    (hname : splitFile a.filePath = splitFile b.filePath) : ∃ q : GoString, listText [{ b with filePath := q }] = listText [a, b] ∧ q.length = ta.length + b.filePath.length := by
  obtain ⟨pa, hpa, ea⟩ := text_ok ha
  obtain ⟨pb, hpb, eb⟩ := text_ok hb
  have ea' : ta = splitFile a.filePath ++ (10 :: (ascii "\tPath: " ++ (a.filePath ++ 10 :: unlines ((itemLines a pa).drop 2)))) := by
    rw [ea]; simp [unlines, itemLines]
  obtain ⟨q, hq⟩ : ∃ q, q = a.filePath ++ (10 :: unlines ((itemLines a pa).drop 2)) ++ (splitFile b.filePath ++ 10 :: (ascii "\tPath: " ++ b.filePath)) := ⟨_, rfl⟩
  have e3 : splitFile q = splitFile a.filePath := by
    have : q = (a.filePath ++ (10 :: unlines ((itemLines a pa).drop 2)) ++ (splitFile b.filePath ++ 10 :: (ascii "\tPath: " ++ d))) ++ slash :: n := by
      rw [hq, hp]; simp
    rw [this, splitFile_slash, hname, hp, splitFile_slash]
  refine ⟨q, ?_, by rw [hq, ea', hname]; simp only [List.length_append, List.length_cons]; omega⟩
  have e5 : ({ b with filePath := q } : ListItem).text = .ok (unlines (itemLines { b with filePath := q } pb)) := text_of (li := { b with filePath := q }) hpb
  simp only [listText, ha, hb, e5, Res.bind_ok, Res.pure_eq, List.append_nil]
  rw [ea', eb]
  simp only [itemLines, e3]
  simp only [itemLines, unlines, List.flatMap_cons, List.flatMap_nil, List.append_nil, List.append_assoc, List.cons_append, List.nil_append, List.drop_succ_cons, List.drop_zero,
    hname, hq]

/-- C89 in full, for the listing of another host: whatever entries it sends, the listing is printed, and it says which entries they are. -/
def C89_statement : Prop := (∀ l : List ListFilesEntry, ∃ t, listText (l.map remoteItem) = .ok t) ∧
  ∀ (l1 l2 : List ListFilesEntry) (t : Bytes), (∀ f ∈ l1 ++ l2, f.fileName.length ≤ 255) → listText (l1.map remoteItem) = .ok t → listText (l2.map remoteItem) = .ok t → l1 = l2


theorem remoteItem_inj (f g : ListFilesEntry) (h : remoteItem f = remoteItem g) : f = g := by
  obtain ⟨a1, a2, a3, a4, a5, a6⟩ := f
  obtain ⟨b1, b2, b3, b4, b5, b6⟩ := g
  simp only [remoteItem, ListItem.mk.injEq] at h
  obtain ⟨h1, h2, h3, h4, h5, h6⟩ := h
  have e2 : a1 = b1 := UInt64.toBitVec_inj.1 (BitVec.toInt_inj.1 h2)
  have e4 : a2 = b2 := UInt32.toNat_inj.1 (by omega)
  have e5 : a3 = b3 := UInt32.toNat_inj.1 (by omega)
  have e6 : a4 = b4 := UInt32.toNat_inj.1 (by omega)
  rw [e2, e4, e5, e6, h3, h1]

/-- C89, for a listing of another host: if no name has a line break, the text says which entries were sent. -/
theorem C89_remote_partial (l1 l2 : List ListFilesEntry) (t : Bytes) (h1 : ∀ f ∈ l1 ++ l2, OneLine f.fileName) (ht1 : listText (l1.map remoteItem) = .ok t)
    (ht2 : listText (l2.map remoteItem) = .ok t) : l1 = l2 := by
  have key : ∀ l : List ListFilesEntry, (∀ f ∈ l, OneLine f.fileName) → ∀ i ∈ l.map remoteItem, OneLine i.filePath := by
    intro l h i hi
    obtain ⟨f, hf, rfl⟩ := List.mem_map.1 hi
    exact h f hf
  have := C89_partial _ _ t (key l1 (fun f hf => h1 f (by simp [hf]))) (key l2 (fun f hf => h1 f (by simp [hf]))) ht1 ht2
  clear h1 ht1 ht2 key
  induction l1 generalizing l2 with
  | nil =>
    cases l2 with
    | nil => rfl
    | cons b l2 => cases this
  | cons a l1 ih =>
    cases l2 with
    | nil => cases this
    | cons b l2 =>
      simp only [List.map_cons, List.cons.injEq] at this
      rw [remoteItem_inj a b this.1, ih l2 this.2]

/-- C89, for the listing of one's own files: if no path has a line break, the text says path, size, hash, number of chunks, number of chunks held and chunk size of each. -/
theorem C89_local_partial (l1 l2 : List Export) (t : Bytes) (h1 : ∀ e ∈ l1 ++ l2, OneLine e.filePath) (ht1 : listText (l1.map localItem) = .ok t)
    (ht2 : listText (l2.map localItem) = .ok t) :
    l1.map (fun e => (e.filePath, e.sizeInBytes, e.sha1Hash, e.progress.sizeOf, e.progress.count, e.chunkSize)) =
      l2.map (fun e => (e.filePath, e.sizeInBytes, e.sha1Hash, e.progress.sizeOf, e.progress.count, e.chunkSize)) := by
  have key : ∀ l : List Export, (∀ e ∈ l, OneLine e.filePath) → ∀ i ∈ l.map localItem, OneLine i.filePath := by
    intro l h i hi
    obtain ⟨f, hf, rfl⟩ := List.mem_map.1 hi
    exact h f hf
  have := C89_partial _ _ t (key l1 (fun f hf => h1 f (by simp [hf]))) (key l2 (fun f hf => h1 f (by simp [hf]))) ht1 ht2
  have h3 := congrArg (List.map (fun i : ListItem => (i.filePath, i.sizeInBytes, i.hash, i.chunkCount, i.chunksDownloaded.toNat, i.chunkSize))) this
  rw [List.map_map, List.map_map] at h3
  exact h3

/-- C57: for a file of one's own catalogue, `list` shows 100% exactly if all its chunks are there. -/
theorem C57_list {env : Env} {d dl : Path} {c : Cat} {fs : FS} (hh : Healthy env d) (hreach : Reach env d dl (.running c fs)) (h : Sha1Hash) (e : Export)
    (ho : observe c fs h = .ok e) (h0 : 0 < e.progress.sizeOf) (hb : e.progress.sizeOf * 10000 < 2 ^ 63) :
    integrity (localItem e).chunksDownloaded (localItem e).chunkCount = .ok 100 ↔ ∀ i : Nat, (i : Int) < e.progress.sizeOf → e.saved i := by
  have w := observe_loaded hh hreach h e ho
  have hs : e.progress.sizeOf = (e.progress.size.toNat : Int) := by
    have := w.size_nonneg
    show e.progress.size = _
    omega
  have hc := w.count
  have hle : e.progress.count ≤ e.progress.size.toNat := by
    rw [hc]
    have := List.countP_le_length (p := e.progress.has) (l := List.range e.progress.size.toNat)
    rwa [List.length_range] at this
  have hlt := w.size_lt
  show integrity (e.progress.count : Int) e.progress.sizeOf = .ok 100 ↔ _
  rw [hs, C57_complete e.progress.count e.progress.size.toNat (by omega) hle (by omega), hc]
  constructor
  · intro heq i hi
    have hall : ∀ i ∈ List.range e.progress.size.toNat, e.progress.has i = true := by
      rw [← List.countP_eq_length, List.length_range]; exact heq
    exact (e.saved_iff i (by omega)).2 (hall i (List.mem_range.2 (by omega)))
  · intro hall
    have : (List.range e.progress.size.toNat).countP e.progress.has = (List.range e.progress.size.toNat).length := by
      rw [List.countP_eq_length]
      intro i hi
      rw [List.mem_range] at hi
      exact (e.saved_iff i (by omega)).1 (hall i (by omega))
    rw [this, List.length_range]

/-- The entry of a file of one byte called `/x` in the example. -/
def exEntry (h : Sha1Hash) : ListFilesEntry := { sizeInBytes := 1, chunkCount := 1, chunkSize := 1, chunksDownloaded := 1, hash := h, fileName := [47, 120] }


/-- C89 is false: one entry with line breaks in its name prints as two. -/
theorem C89_refuted : ¬ C89_statement := by
  intro h
  have hi : integrity 1 1 = .ok 100 := C57_percent 1 1 (by omega) (by omega)
  have ht : (remoteItem (exEntry Sha1Hash.zero)).text = .ok (unlines (itemLines (remoteItem (exEntry Sha1Hash.zero)) 100)) := text_of hi
  obtain ⟨q, hq, hlen⟩ := C89_forged (remoteItem (exEntry Sha1Hash.zero)) (remoteItem (exEntry Sha1Hash.zero)) _ _ [] [120] ht ht rfl rfl
  have hl : (unlines (itemLines (remoteItem (exEntry Sha1Hash.zero)) 100)).length ≤ 253 := by
    simp [unlines, itemLines, remoteItem, exEntry, Hex.encode_length, Sha1Hash.zero, encInt, decNat, ascii, splitFile, splitSlash, slash]
  obtain ⟨t, hok⟩ : ∃ t, listText [remoteItem (exEntry Sha1Hash.zero), remoteItem (exEntry Sha1Hash.zero)] = .ok t := by
    simp only [listText, ht, Res.bind_ok, Res.pure_eq]
    exact ⟨_, rfl⟩
  have := h.2 [{ exEntry Sha1Hash.zero with fileName := q }] [exEntry Sha1Hash.zero, exEntry Sha1Hash.zero] _ (by
    intro f hf
    simp only [List.cons_append, List.nil_append, List.mem_cons, List.not_mem_nil, or_false, or_self] at hf
    rcases hf with rfl | rfl
    · show q.length ≤ 255
      have : (remoteItem (exEntry Sha1Hash.zero)).filePath.length = 2 := rfl
      omega
    · show 2 ≤ 255
      omega) (hq.trans hok) hok
  simp at this

/-- C89 is false also because an entry without chunks ends the client. -/
theorem C89_dies (l : List ListFilesEntry) (f : ListFilesEntry) (hf : f ∈ l) (h0 : f.chunkCount = 0) : listText (l.map remoteItem) = .panic := by
  refine (C89_prints _).2 ⟨remoteItem f, List.mem_map.2 ⟨f, hf, rfl⟩, ?_⟩
  show ((f.chunkCount.toNat : Nat) : Int) = 0
  rw [h0]; rfl

/-! ### Hosts -/

/-- The line of a range. -/
def rangeLine (r : UInt16 × UInt16) : Bytes := ascii "  " ++ decText r.1.toNat ++ ascii ":" ++ decText r.2.toNat

theorem rangeLine_inj (r s : UInt16 × UInt16) (h : rangeLine r = rangeLine s) : r = s := by
  simp only [rangeLine, List.append_assoc] at h
  obtain ⟨h1, h2⟩ := decText_sep _ _ 58 (by decide) _ _ (List.append_cancel_left h)
  obtain ⟨r1, r2⟩ := r
  obtain ⟨s1, s2⟩ := s
  simp only at h1 h2
  rw [UInt16.toNat_inj.1 h1, UInt16.toNat_inj.1 (decText_inj _ _ h2)]

theorem chimLines_eq : ∀ (l : List UInt16) (t : Bytes), chimLines l = .ok t → ∃ r, chimRanges l = .ok r ∧ t = unlines (r.map rangeLine)
  | [], t, h => ⟨[], rfl, (Res.ok.inj h).symm⟩
  | [_], t, h => by cases h
  | a :: b :: rest, t, h => by
    unfold chimLines at h
    rcases h1 : chimLines rest with u | e | _ | _ | _
    · rw [h1, Res.bind_ok, Res.pure_eq] at h
      obtain ⟨r, hr, hu⟩ := chimLines_eq rest u h1
      refine ⟨(a, b) :: r, by unfold chimRanges; rw [hr]; rfl, ?_⟩
      rw [← Res.ok.inj h, hu]
      have e2 : ascii "\n" = [10] := rfl
      simp only [unlines, rangeLine, List.map_cons, List.flatMap_cons, List.append_assoc, e2]
    all_goals (rw [h1] at h; cases h)

/-- The first line of a host. -/
def hostLine (c : ChimItem) : Bytes :=
  ascii "IP: " ++ decText (c.ip.1.getD 0 0).toNat ++ ascii "." ++ decText (c.ip.1.getD 1 0).toNat ++ ascii "." ++ decText (c.ip.1.getD 2 0).toNat ++ ascii "." ++
    decText (c.ip.1.getD 3 0).toNat ++ ascii ":" ++ decText c.port.toNat

theorem quad_inj : ∀ (a b : ByteArr 4), (a.1.getD 0 0).toNat = (b.1.getD 0 0).toNat → (a.1.getD 1 0).toNat = (b.1.getD 1 0).toNat →
    (a.1.getD 2 0).toNat = (b.1.getD 2 0).toNat → (a.1.getD 3 0).toNat = (b.1.getD 3 0).toNat → a = b
  | ⟨[x1, x2, x3, x4], _⟩, ⟨[y1, y2, y3, y4], _⟩, h1, h2, h3, h4 => by
    simp only [List.getD_cons_zero, List.getD_cons_succ] at h1 h2 h3 h4
    apply Subtype.ext
    show [x1, x2, x3, x4] = [y1, y2, y3, y4]
    rw [UInt8.toNat_inj.1 h1, UInt8.toNat_inj.1 h2, UInt8.toNat_inj.1 h3, UInt8.toNat_inj.1 h4]

theorem hostLine_inj (c d : ChimItem) (h : hostLine c = hostLine d) : c.ip = d.ip ∧ c.port = d.port := by
  simp only [hostLine, List.append_assoc] at h
  obtain ⟨h1, h⟩ := decText_sep _ _ 46 (by decide) _ _ (List.append_cancel_left h)
  obtain ⟨h2, h⟩ := decText_sep _ _ 46 (by decide) _ _ h
  obtain ⟨h3, h⟩ := decText_sep _ _ 46 (by decide) _ _ h
  obtain ⟨h4, h⟩ := decText_sep _ _ 58 (by decide) _ _ h
  refine ⟨?_, UInt16.toNat_inj.1 (decText_inj _ _ h)⟩
  exact quad_inj _ _ h1 h2 h3 h4

theorem sep_line {s : String} (h : (10 : UInt8) ∉ ascii s) {w : Bytes} (hw : (10 : UInt8) ∉ w) (n : Nat) : (10 : UInt8) ∉ w ++ ascii s ++ decText n := by
  intro hm
  rcases List.mem_append.1 hm with hm | hm
  · exact (List.mem_append.1 hm).elim hw h
  · exact digit_line (decText_digits n) hm

theorem rangeLine_line (r : UInt16 × UInt16) : (10 : UInt8) ∉ rangeLine r :=
  sep_line (by decide) (ascii_line _ (by decide) _ (digit_line (decText_digits _))) _

theorem hostLine_line (c : ChimItem) : (10 : UInt8) ∉ hostLine c :=
  sep_line (by decide) (sep_line (by decide) (sep_line (by decide) (sep_line (by decide) (ascii_line _ (by decide) _ (digit_line (decText_digits _))) _) _) _) _

theorem chimItem_text {c : ChimItem} {t : Bytes} (h : c.text = .ok t) : ∃ r, chimRanges c.chunks = .ok r ∧ t = unlines (hostLine c :: r.map rangeLine) := by
  unfold ChimItem.text at h
  rcases h1 : chimLines c.chunks with u | e | _ | _ | _
  · rw [h1, Res.bind_ok, Res.pure_eq] at h
    obtain ⟨r, hr, hu⟩ := chimLines_eq _ _ h1
    refine ⟨r, hr, ?_⟩
    rw [← Res.ok.inj h, hu]
    have e2 : ascii "\n" = [10] := rfl
    simp only [unlines, hostLine, List.flatMap_cons, List.append_assoc, e2]
  all_goals (rw [h1] at h; cases h)

/-- The lines of a host. -/
def hostGroup (c : ChimItem) : Bytes × List Bytes := (hostLine c, match chimRanges c.chunks with | .ok r => r.map rangeLine | _ => [])

theorem chimsText_ok : ∀ {l : List ChimItem} {t : Bytes}, chimsText l = .ok t → (∀ c ∈ l, ∃ r, chimRanges c.chunks = .ok r) ∧
    t = unlines ((l.map hostGroup).flatMap (fun g => g.1 :: g.2))
  | [], t, h => ⟨fun c hc => absurd hc List.not_mem_nil, (Res.ok.inj h).symm⟩
  | c :: rest, t, h => by
    unfold chimsText at h
    rcases h1 : c.text with a | e | _ | _ | _
    · rw [h1, Res.bind_ok] at h
      rcases h2 : chimsText rest with b | e | _ | _ | _
      · rw [h2, Res.bind_ok, Res.pure_eq] at h
        obtain ⟨r, hr, ha⟩ := chimItem_text h1
        obtain ⟨hg, hb⟩ := chimsText_ok h2
        refine ⟨fun d hd => ?_, ?_⟩
        · rcases List.mem_cons.1 hd with rfl | hd
          · exact ⟨r, hr⟩
          · exact hg d hd
        · rw [← Res.ok.inj h, ha, hb, List.map_cons, List.flatMap_cons, unlines_append, hostGroup, hr]
      all_goals (rw [h2] at h; cases h)
    all_goals (rw [h1] at h; cases h)

/-- Whether a line is indented. -/
def indented (l : Bytes) : Bool := l.head? == some 32

theorem hostGroup_shape (c : ChimItem) : indented (hostGroup c).1 = false ∧ ∀ x ∈ (hostGroup c).2, indented x = true := by
  refine ⟨rfl, fun x hx => ?_⟩
  unfold hostGroup at hx
  simp only at hx
  split at hx
  · obtain ⟨r, -, rfl⟩ := List.mem_map.1 hx
    rfl
  · cases hx

theorem hostGroup_line (c : ChimItem) : ∀ x ∈ (hostGroup c).1 :: (hostGroup c).2, (10 : UInt8) ∉ x := by
  intro x hx
  rcases List.mem_cons.1 hx with rfl | hx
  · exact hostLine_line c
  · unfold hostGroup at hx
    simp only at hx
    split at hx
    · obtain ⟨r, -, rfl⟩ := List.mem_map.1 hx
      exact rangeLine_line r
    · cases hx

theorem hostGroup_inj (c d : ChimItem) (hc : ∃ r, chimRanges c.chunks = .ok r) (hd : ∃ r, chimRanges d.chunks = .ok r) (h : hostGroup c = hostGroup d) : c = d := by
  obtain ⟨r, hr⟩ := hc
  obtain ⟨s, hs⟩ := hd
  unfold hostGroup at h
  rw [hr, hs] at h
  obtain ⟨h1, h2⟩ := Prod.mk.inj h
  obtain ⟨e1, e2⟩ := hostLine_inj c d h1
  have e3 : r = s := List.map_inj_right (fun a b => rangeLine_inj a b) |>.1 h2
  have e4 := (C62_ranges c.chunks).2 r hr
  have e5 := (C62_ranges d.chunks).2 s hs
  obtain ⟨c1, c2, c3⟩ := c
  obtain ⟨d1, d2, d3⟩ := d
  simp only at e1 e2 e4 e5
  rw [e1, e2, ← e4, ← e5, e3]

/-- C89, for `chims`: two answers that print the same are the same. -/
theorem C89_chims (l1 l2 : List ChimItem) (t : Bytes) (h1 : chimsText l1 = .ok t) (h2 : chimsText l2 = .ok t) : l1 = l2 := by
  obtain ⟨a1, a2⟩ := chimsText_ok h1
  obtain ⟨b1, b2⟩ := chimsText_ok h2
  have kl : ∀ l : List ChimItem, ∀ x ∈ (l.map hostGroup).flatMap (fun g => g.1 :: g.2), (10 : UInt8) ∉ x := by
    intro l x hx
    obtain ⟨g, hg, hx⟩ := List.mem_flatMap.1 hx
    obtain ⟨c, -, rfl⟩ := List.mem_map.1 hg
    exact hostGroup_line c x hx
  have kg : ∀ l : List ChimItem, ∀ g ∈ l.map hostGroup, indented g.1 = false ∧ ∀ x ∈ g.2, indented x = true := by
    intro l g hg
    obtain ⟨c, -, rfl⟩ := List.mem_map.1 hg
    exact hostGroup_shape c
  have := groups_inj indented _ _ (kg l1) (kg l2) (unlines_inj _ _ (kl l1) (kl l2) (a2.symm.trans b2))
  clear a2 b2 kl kg h1 h2
  induction l1 generalizing l2 with
  | nil =>
    cases l2 with
    | nil => rfl
    | cons b l2 => cases this
  | cons a l1 ih =>
    cases l2 with
    | nil => cases this
    | cons b l2 =>
      simp only [List.map_cons, List.cons.injEq] at this
      rw [hostGroup_inj a b (a1 a (by simp)) (b1 b (by simp)) this.1, ih l2 (fun c hc => a1 c (by simp [hc])) (fun c hc => b1 c (by simp [hc])) this.2]

theorem chimLines_total : ∀ (l : List UInt16), (l.length % 2 = 0 → ∃ t, chimLines l = .ok t) ∧ (l.length % 2 = 1 → chimLines l = .panic)
  | [] => ⟨fun _ => ⟨[], rfl⟩, fun h => (by cases h)⟩
  | [_] => ⟨fun h => (by cases h), fun _ => rfl⟩
  | a :: b :: rest => by
    obtain ⟨h1, h2⟩ := chimLines_total rest
    have e : (a :: b :: rest).length = rest.length + 2 := rfl
    constructor
    · intro h
      obtain ⟨t, ht⟩ := h1 (by omega)
      unfold chimLines
      rw [ht]
      exact ⟨_, rfl⟩
    · intro h
      unfold chimLines
      rw [h2 (by omega)]; rfl

/-- C89, for the answers of hosts to a search: the text says address, port and chunks of each. -/
theorem C89_hosts (l1 l2 : List HostResp) (t : Bytes) (h1 : chimsText (l1.map chimItem) = .ok t) (h2 : chimsText (l2.map chimItem) = .ok t) :
    l1.map (fun r => (r.addr, r.port, r.chunks)) = l2.map (fun r => (r.addr, r.port, r.chunks)) := by
  have h3 := congrArg (List.map (fun i : ChimItem => (i.ip, i.port, i.chunks))) (C89_chims _ _ t h1 h2)
  rw [List.map_map, List.map_map] at h3
  exact h3

/-- C89: the answers of `chims` are printed exactly if each host sent an even number of bounds; otherwise the client dies and prints none of them. -/
theorem C89_chims_prints (l : List ChimItem) :
    ((∃ t, chimsText l = .ok t) ↔ ∀ c ∈ l, c.chunks.length % 2 = 0) ∧ ((∃ c ∈ l, c.chunks.length % 2 = 1) → chimsText l = .panic) := by
  induction l with
  | nil => exact ⟨⟨fun _ i hi => absurd hi List.not_mem_nil, fun _ => ⟨[], rfl⟩⟩, fun ⟨i, hi, _⟩ => absurd hi List.not_mem_nil⟩
  | cons c rest ih =>
    obtain ⟨ih1, ih2⟩ := ih
    obtain ⟨k1, k2⟩ := chimLines_total c.chunks
    rcases Nat.mod_two_eq_zero_or_one c.chunks.length with hc | hc
    · obtain ⟨u, hu⟩ := k1 hc
      have ha : ∃ a, c.text = .ok a := by
        unfold ChimItem.text
        rw [hu]
        exact ⟨_, rfl⟩
      obtain ⟨a, ha⟩ := ha
      constructor
      · constructor
        · rintro ⟨t, ht⟩ i hi
          rcases List.mem_cons.1 hi with rfl | hi
          · exact hc
          · refine ih1.1 ?_ i hi
            unfold chimsText at ht
            rw [ha, Res.bind_ok] at ht
            rcases hr : chimsText rest with b | e | _ | _ | _
            · exact ⟨b, rfl⟩
            all_goals (rw [hr] at ht; cases ht)
        · intro h
          obtain ⟨b, hb⟩ := ih1.2 (fun i hi => h i (by simp [hi]))
          refine ⟨a ++ b, ?_⟩
          unfold chimsText
          rw [ha, hb]; rfl
      · rintro ⟨i, hi, h0⟩
        rcases List.mem_cons.1 hi with rfl | hi
        · omega
        · unfold chimsText
          rw [ha, Res.bind_ok, ih2 ⟨i, hi, h0⟩]; rfl
    · have hp : chimsText (c :: rest) = .panic := by
        unfold chimsText ChimItem.text
        rw [k2 hc]; rfl
      refine ⟨⟨fun ⟨t, ht⟩ => (by rw [hp] at ht; cases ht), fun h => ?_⟩, fun _ => hp⟩
      have := h c (by simp)
      omega

/-! ### Clean -/

namespace Spec
/-- What `clean` tells about one file: its path, what was done, the error if the file could not be read, and both hashes if they differ. -/
def told (x : CleanItem × Bytes) : GoString × Action × Option Bytes × Option (Sha1Hash × Sha1Hash) :=
  (x.1.filePath, x.1.action, if x.1.action = .missing then some x.2 else none, if x.1.action = .changed then some (x.1.indexedHash, x.1.currentHash) else none)
end Spec

/-- The lines of an item. -/
def cleanGroup (x : CleanItem × Bytes) : Bytes × List Bytes :=
  (x.1.filePath, match x.1.action with
    | .missing => [ascii "  - File is missing. Removed from index", ascii "  - " ++ x.2]
    | .inProgress => [ascii "  - Download in progress. Ignored"]
    | .changed => [ascii "  - File has changed since indexing. Removed from Index", ascii "    Indexed Hash: " ++ Hex.encode x.1.indexedHash.1,
        ascii "    Current Hash: " ++ Hex.encode x.1.currentHash.1]
    | .fine => [ascii "  - Download complete & Hashes match. Ignored"])

theorem cleanItemText_eq (i : CleanItem) (e : Bytes) : cleanItemText e i = unlines ((cleanGroup (i, e)).1 :: (cleanGroup (i, e)).2) := by
  obtain ⟨p, h, c, a⟩ := i
  cases a
  all_goals
    simp only [cleanItemText, unlines, cleanGroup, List.flatMap_cons, List.flatMap_nil, List.append_nil, Sha1Hash.toString, show ascii "\n" = [10] from rfl, List.append_assoc]

theorem cleanText_eq : ∀ (l : List (CleanItem × Bytes)), cleanText l = unlines ((l.map cleanGroup).flatMap (fun g => g.1 :: g.2))
  | [] => rfl
  | (i, e) :: rest => by
    rw [cleanText, cleanItemText_eq, cleanText_eq rest, List.map_cons, List.flatMap_cons, unlines_append]

theorem cleanGroup_shape (x : CleanItem × Bytes) (h : isAbs x.1.filePath = true) : indented (cleanGroup x).1 = false ∧ ∀ l ∈ (cleanGroup x).2, indented l = true := by
  refine ⟨?_, ?_⟩
  · show indented x.1.filePath = false
    unfold isAbs at h
    unfold indented
    rw [beq_iff_eq] at h
    rw [h]; rfl
  · intro l hl
    unfold cleanGroup at hl
    simp only at hl
    split at hl
    all_goals simp only [List.mem_cons, List.not_mem_nil, or_false] at hl
    · rcases hl with rfl | rfl <;> rfl
    · rw [hl]; rfl
    · rcases hl with rfl | rfl | rfl <;> rfl
    · rw [hl]; rfl

theorem cleanGroup_line (x : CleanItem × Bytes) (h : OneLine x.1.filePath) (he : OneLine x.2) : ∀ l ∈ (cleanGroup x).1 :: (cleanGroup x).2, (10 : UInt8) ∉ l := by
  intro l hl
  rcases List.mem_cons.1 hl with rfl | hl
  · exact h
  · unfold cleanGroup at hl
    simp only at hl
    split at hl
    all_goals simp only [List.mem_cons, List.not_mem_nil, or_false] at hl
    · rcases hl with rfl | rfl
      · decide
      · exact ascii_line _ (by decide) _ he
    · rw [hl]; decide
    · rcases hl with rfl | rfl | rfl
      · decide
      · exact ascii_line _ (by decide) _ (hex_line _)
      · exact ascii_line _ (by decide) _ (hex_line _)
    · rw [hl]; decide

theorem cleanGroup_inj (x y : CleanItem × Bytes) (h : cleanGroup x = cleanGroup y) : told x = told y := by
  obtain ⟨⟨p, i, c, a⟩, e⟩ := x
  obtain ⟨⟨q, j, d, b⟩, f⟩ := y
  obtain ⟨h1, h2⟩ := Prod.mk.inj h
  have hp : p = q := h1
  subst hp
  cases a <;> cases b <;> simp only [List.cons.injEq, and_true, and_false, reduceCtorEq] at h2
  case missing.missing => rw [List.append_cancel_left h2.2]; rfl
  case inProgress.inProgress => rfl
  case fine.fine => rfl
  case changed.changed =>
    rw [hex_inj _ _ (List.append_cancel_left h2.2.1), hex_inj _ _ (List.append_cancel_left h2.2.2)]; rfl
  all_goals exact absurd h2 (by decide)

/-- C89, for `clean` and paths without line breaks: two results that print the same tell the same. -/
theorem C89_clean_partial (l1 l2 : List (CleanItem × Bytes)) (h1 : ∀ x ∈ l1 ++ l2, isAbs x.1.filePath = true ∧ OneLine x.1.filePath ∧ OneLine x.2)
    (ht : cleanText l1 = cleanText l2) : l1.map told = l2.map told := by
  rw [cleanText_eq, cleanText_eq] at ht
  have kl : ∀ l : List (CleanItem × Bytes), (∀ x ∈ l, isAbs x.1.filePath = true ∧ OneLine x.1.filePath ∧ OneLine x.2) →
      ∀ x ∈ (l.map cleanGroup).flatMap (fun g => g.1 :: g.2), (10 : UInt8) ∉ x := by
    intro l h x hx
    obtain ⟨g, hg, hx⟩ := List.mem_flatMap.1 hx
    obtain ⟨c, hc, rfl⟩ := List.mem_map.1 hg
    exact cleanGroup_line c (h c hc).2.1 (h c hc).2.2 x hx
  have kg : ∀ l : List (CleanItem × Bytes), (∀ x ∈ l, isAbs x.1.filePath = true ∧ OneLine x.1.filePath ∧ OneLine x.2) →
      ∀ g ∈ l.map cleanGroup, indented g.1 = false ∧ ∀ x ∈ g.2, indented x = true := by
    intro l h g hg
    obtain ⟨c, hc, rfl⟩ := List.mem_map.1 hg
    exact cleanGroup_shape c (h c hc).1
  have m1 : ∀ x ∈ l1, isAbs x.1.filePath = true ∧ OneLine x.1.filePath ∧ OneLine x.2 := fun x hx => h1 x (by simp [hx])
  have m2 : ∀ x ∈ l2, isAbs x.1.filePath = true ∧ OneLine x.1.filePath ∧ OneLine x.2 := fun x hx => h1 x (by simp [hx])
  have := groups_inj indented _ _ (kg l1 m1) (kg l2 m2) (unlines_inj _ _ (kl l1 m1) (kl l2 m2) ht)
  clear ht kl kg m1 m2 h1
  induction l1 generalizing l2 with
  | nil =>
    cases l2 with
    | nil => rfl
    | cons b l2 => cases this
  | cons a l1 ih =>
    cases l2 with
    | nil => cases this
    | cons b l2 =>
      simp only [List.map_cons, List.cons.injEq] at this
      rw [List.map_cons, List.map_cons, cleanGroup_inj a b this.1, ih l2 this.2]

/-- A name with a line break ends a listing in the wrong place; names without are told apart (`C89_partial`, `C89_remote_partial`: two entries, one host with one range). -/
example : OneLine (exEntry Sha1Hash.zero).fileName ∧ ¬ OneLine (ascii "a\nb") ∧ (∃ t, listText ([exEntry Sha1Hash.zero, exEntry Sha1Hash.blank].map remoteItem) = .ok t) ∧
    ∃ t, chimsText [⟨⟨[192, 168, 0, 1], rfl⟩, 61696, [0, 4, 7, 7]⟩] = .ok t :=
  ⟨show (10 : UInt8) ∉ [47, 120] by decide, fun h => h (by decide), (C89_prints _).1.2 (by decide), (C89_chims_prints _).1.2 (by decide)⟩

/-- `C89_clean_partial`: a missing file and a file that changed. -/
example (h : Sha1Hash) : ∀ x ∈ [((⟨[47, 120], h, Sha1Hash.blank, .missing⟩ : CleanItem), ascii "open /x: no such file or directory"), (⟨[47, 121], h, Sha1Hash.zero, .changed⟩, [])],
    isAbs x.1.filePath = true ∧ OneLine x.1.filePath ∧ OneLine x.2 := by
  intro x hx
  simp only [List.mem_cons, List.not_mem_nil, or_false] at hx
  rcases hx with rfl | rfl
  · exact ⟨rfl, show (10 : UInt8) ∉ [47, 120] by decide, show (10 : UInt8) ∉ ascii "open /x: no such file or directory" by decide⟩
  · exact ⟨rfl, show (10 : UInt8) ∉ [47, 121] by decide, List.not_mem_nil⟩

/-- `C57_list`, `C89_local_partial`: a shared file, listed. -/
example (sha1 : Bytes → Sha1Hash) (json : JsonCodec) : ∃ (c : Cat) (fs : FS) (e : Export) (t : Bytes), Reach (exEnv sha1 json) exDir exDown (.running c fs) ∧
    observe c fs (sha1 [1, 2, 3]) = .ok e ∧ e.progress.sizeOf = 1 ∧ e.progress.sizeOf * 10000 < 2 ^ 63 ∧ OneLine e.filePath ∧ listText ([e].map localItem) = .ok t := by
  obtain ⟨c, fs, b, h1, h2, h3, h4, h5, h6⟩ := ex_clean sha1 json
  obtain ⟨t, ht⟩ := ((C89_prints ([(⟨absOf [[102]], 3, sha1 [1, 2, 3], b, 4194304⟩ : Export)].map localItem)).1).2 (by
    intro i hi
    cases List.mem_singleton.1 hi
    show b.sizeOf ≠ 0
    rw [h4]; decide)
  exact ⟨c, fs, _, t, h1.reach, h3, h4, by show b.sizeOf * 10000 < _; rw [h4]; decide, by show (10 : UInt8) ∉ absOf [[102]]; decide, ht⟩

end Flu
