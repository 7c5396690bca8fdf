import Verif.Model.GoClean
import Verif.Lemmas.Paths
/-!
# The byte loop of `filepath.Clean` computes what its documentation says
-/

namespace Flu

/-- What the buffer holds when the elements `es` are kept. -/
def outOf (rooted : Bool) (es : List Bytes) : Bytes := (if rooted then [slash] else []) ++ joinSlash es

theorem joinSlash_concat (es : List Bytes) (e : Bytes) :
    joinSlash (es ++ [e]) = if es = [] then e else joinSlash es ++ slash :: e := by
  induction es with
  | nil => rfl
  | cons a t ih =>
    cases t with
    | nil => simp [joinSlash]
    | cons b t => simp only [List.cons_append] at ih ⊢; simp [joinSlash, ih]

theorem LazyBuf.put_spec (buf : Bytes) (w : Nat) (c : UInt8) (h : w < buf.length) :
    LazyBuf.put buf w c = .ok ⟨some (buf.set w c), w + 1⟩ ∧ (buf.set w c).take (w + 1) = buf.take w ++ [c] := by
  refine ⟨by simp [LazyBuf.put, h], ?_⟩
  rw [List.take_add_one, List.take_set_of_le (Nat.le_refl w)]
  simp [h]

theorem LazyBuf.append_spec (path : Bytes) (b : LazyBuf) (c : UInt8) (hc : (b.cells path).length = path.length) (hw : b.w < path.length) :
    ∃ b', b.append path c = .ok b' ∧ (b'.cells path).length = path.length ∧ b'.w = b.w + 1 ∧ b'.string path = b.string path ++ [c] := by
  obtain ⟨buf, w⟩ := b
  cases buf with
  | none =>
    simp only [LazyBuf.append]
    split
    · rename_i h
      refine ⟨_, rfl, rfl, rfl, ?_⟩
      simp only [LazyBuf.string, LazyBuf.cells, Option.getD_none]
      rw [List.take_add_one, h]; rfl
    · have hl : w < (path.take w ++ List.replicate (path.length - w) 0).length := by
        simp only at hw
        simp only [List.length_append, List.length_take, List.length_replicate]; omega
      obtain ⟨h1, h2⟩ := LazyBuf.put_spec _ w c hl
      refine ⟨_, h1, ?_, rfl, ?_⟩
      · simp only at hw
        simp only [LazyBuf.cells, Option.getD_some, List.length_set, List.length_append, List.length_take, List.length_replicate]; omega
      · simp only [LazyBuf.string, LazyBuf.cells, Option.getD_some, Option.getD_none]
        rw [h2]
        congr 1
        simp only at hw
        rw [List.take_append_of_le_length (by simp; omega), List.take_take, Nat.min_self]
  | some buf =>
    simp only [LazyBuf.cells, Option.getD_some] at hc
    simp only at hw
    obtain ⟨h1, h2⟩ := LazyBuf.put_spec buf w c (by omega)
    exact ⟨_, h1, by simp [LazyBuf.cells, hc], rfl, h2⟩

theorem LazyBuf.appendAll_spec (path : Bytes) (cs : Bytes) : ∀ (b : LazyBuf), (b.cells path).length = path.length → b.w + cs.length ≤ path.length →
    ∃ b', b.appendAll path cs = .ok b' ∧ (b'.cells path).length = path.length ∧ b'.w = b.w + cs.length ∧ b'.string path = b.string path ++ cs := by
  induction cs with
  | nil => intro b hc _; exact ⟨b, rfl, hc, rfl, by simp⟩
  | cons c cs ih =>
    intro b hc hw
    simp only [List.length_cons] at hw
    obtain ⟨b1, h1, h2, h3, h4⟩ := b.append_spec path c hc (by omega)
    obtain ⟨b2, g1, g2, g3, g4⟩ := ih b1 h2 (by omega)
    refine ⟨b2, by simp [LazyBuf.appendAll, h1, Res.bind, g1], g2, by simp; omega, by simp [g4, h4]⟩

theorem LazyBuf.string_length (path : Bytes) (b : LazyBuf) (hc : (b.cells path).length = path.length) (hw : b.w ≤ path.length) :
    (b.string path).length = b.w := by
  simp only [LazyBuf.string, List.length_take]; omega

theorem backtrack_spec (cells : Bytes) (dd stop : Nat) (hstop : stop = dd ∨ (dd < stop ∧ cells[stop]? = some slash)) : ∀ w, stop ≤ w →
    (∀ j, stop < j → j ≤ w → ∃ c, cells[j]? = some c ∧ c ≠ slash) → backtrack cells dd w = .ok stop := by
  intro w
  induction w with
  | zero => intro h _; simp at h; simp [backtrack, h]
  | succ w ih =>
    intro h hj
    by_cases he : stop = w + 1
    · subst he
      rcases hstop with h1 | ⟨h1, h2⟩
      · simp [backtrack, ← h1]
      · simp [backtrack, h1, h2]
    · obtain ⟨c, h1, h2⟩ := hj (w + 1) (by omega) (Nat.le_refl _)
      have hd : dd < w + 1 := by rcases hstop with h3 | ⟨h3, _⟩ <;> omega
      simp only [backtrack, hd, if_true, h1, h2, if_false]
      exact ih (by omega) (fun j a b => hj j a (by omega))

/-- The buffer and `dotdot` belong to the stack of kept elements. -/
structure OutKept (path : Bytes) (rooted : Bool) (b : LazyBuf) (dd : Nat) (plains : List Bytes) (k : Nat) : Prop where
  plain : ∀ e ∈ plains, Plain e
  root : rooted = true → k = 0
  cells : (b.cells path).length = path.length
  fits : b.w ≤ path.length
  text : b.string path = outOf rooted (plains ++ List.replicate k dotdot).reverse
  mark : dd = (outOf rooted (List.replicate k dotdot)).length

theorem joinSlash_eq_nil (es : List Bytes) (h : ∀ e ∈ es, e ≠ []) : joinSlash es = [] ↔ es = [] := by
  cases es with
  | nil => simp [joinSlash]
  | cons a t =>
    cases t with
    | nil => simpa [joinSlash] using h a (by simp)
    | cons b t => simp [joinSlash]

theorem outOf_concat (rooted : Bool) (es : List Bytes) (e : Bytes) :
    outOf rooted (es ++ [e]) = outOf rooted es ++ (if es = [] then [] else [slash]) ++ e := by
  unfold outOf
  rw [joinSlash_concat]
  by_cases he : es = []
  · simp [he, joinSlash]
  · simp [he]

/-- Going back over the last element. -/
theorem backtrack_elem (s pre e t : Bytes) (sep : Bool) (dd : Nat) (hs : s = pre ++ (if sep then [slash] else []) ++ e ++ t) (hne : e ≠ []) (he : slash ∉ e)
    (hdd : if sep then dd ≤ pre.length else dd = pre.length) :
    backtrack s dd (pre.length + (if sep then 1 else 0) + e.length - 1) = .ok pre.length := by
  have hl : 0 < e.length := List.length_pos_iff.mpr hne
  refine backtrack_spec s dd pre.length ?_ _ (by split <;> omega) ?_
  · cases sep
    · left; simpa using hdd.symm
    · simp only [if_true] at hdd
      by_cases h : pre.length = dd
      · exact .inl h
      · refine .inr ⟨by omega, ?_⟩
        subst hs; simp
  · intro j h1 h2
    subst hs
    cases sep
    · simp only [Bool.false_eq_true, if_false, List.append_nil, Nat.add_zero] at h2 ⊢
      have hj : j - pre.length < e.length := by omega
      refine ⟨e[j - pre.length], ?_, fun h => he (h ▸ List.getElem_mem hj)⟩
      rw [List.append_assoc, List.getElem?_append_right (by omega), List.getElem?_append_left hj, List.getElem?_eq_getElem hj]
    · simp only [if_true] at h2 ⊢
      have hj : j - pre.length - 1 < e.length := by omega
      refine ⟨e[j - pre.length - 1], ?_, fun h => he (h ▸ List.getElem_mem hj)⟩
      rw [List.append_assoc, List.append_assoc, List.getElem?_append_right (by omega), List.getElem?_append_right (by simp; omega),
        List.getElem?_append_left (by simpa using hj)]
      simp [List.getElem?_eq_getElem hj]

theorem joinSlash_length_le (a b : List Bytes) : (joinSlash a).length ≤ (joinSlash (a ++ b)).length := by
  induction a with
  | nil => simp [joinSlash]
  | cons x t ih =>
    cases t with
    | nil => cases b <;> simp [joinSlash]
    | cons y t => simp only [List.cons_append] at ih ⊢; simp [joinSlash]; omega

theorem OutKept.width {path : Bytes} {rooted : Bool} {b : LazyBuf} {dd : Nat} {plains : List Bytes} {k : Nat} (h : OutKept path rooted b dd plains k) :
    b.w = (outOf rooted (plains ++ List.replicate k dotdot).reverse).length := by
  rw [← h.text, LazyBuf.string_length path b h.cells h.fits]

theorem rep_eq_nil (k : Nat) : (List.replicate k dotdot).reverse = [] ↔ k = 0 := by simp

theorem tidyUp_spec {path : Bytes} {rooted : Bool} {b : LazyBuf} {dd : Nat} {plains : List Bytes} {k : Nat} (h : OutKept path rooted b dd plains k)
    (room : rooted = false → b.w + (if b.w = 0 then 2 else 3) ≤ path.length) :
    ∃ b' dd' plains' k', tidyUp path rooted b dd = .ok (b', dd') ∧ OutKept path rooted b' dd' plains' k' ∧
      plains' ++ List.replicate k' dotdot = cleanStep rooted (plains ++ List.replicate k dotdot) dotdot ∧
      b'.w ≤ b.w + (if rooted then 0 else if b.w = 0 then 2 else 3) := by
  have hw := h.width
  cases plains with
  | cons p ps =>
    have hp := h.plain p (by simp)
    have htext := h.text
    simp only [List.cons_append, List.reverse_cons] at htext hw
    rw [outOf_concat] at htext hw
    generalize hes : (ps ++ List.replicate k dotdot).reverse = es at htext hw
    have hddle : dd ≤ (outOf rooted es).length := by
      rw [h.mark, ← hes]
      simp only [outOf, List.length_append, List.reverse_append, List.reverse_replicate]
      have := joinSlash_length_le (List.replicate k dotdot) ps.reverse
      omega
    have hes0 : es = [] → dd = (outOf rooted es).length := by
      intro h0
      have : k = 0 := by
        rw [h0] at hes
        simp at hes
        exact hes.1
      rw [h.mark, h0, this]; rfl
    have hlp : 0 < p.length := List.length_pos_iff.mpr hp.ne_nil
    have hcells : b.cells path = outOf rooted es ++ (if decide (es ≠ []) = true then [slash] else []) ++ p ++ (b.cells path).drop b.w := by
      conv => lhs; rw [← List.take_append_drop b.w (b.cells path)]
      congr 1
      rw [show (b.cells path).take b.w = b.string path from rfl, htext]
      by_cases h0 : es = [] <;> simp [h0]
    have hback := backtrack_elem _ (outOf rooted es) p ((b.cells path).drop b.w) (decide (es ≠ [])) dd hcells hp.ne_nil hp.no_slash
      (by by_cases h0 : es = []
          · simpa [h0] using hes0 h0
          · simpa [h0] using hddle)
    have hw' : b.w = (outOf rooted es).length + (if decide (es ≠ []) = true then 1 else 0) + p.length := by
      rw [hw]
      by_cases h0 : es = []
      · simp [h0]
      · simp [h0]; omega
    rw [← hw'] at hback
    refine ⟨⟨b.buf, (outOf rooted es).length⟩, dd, ps, k, ?_, ⟨fun e he => h.plain e (by simp [he]), h.root, h.cells, ?_, ?_, h.mark⟩, ?_, ?_⟩
    · have : dd < b.w := by omega
      simp [tidyUp, this, hback, Res.bind]
    · have := h.fits
      show (outOf rooted es).length ≤ _
      omega
    · show (b.cells path).take (outOf rooted es).length = _
      rw [hcells, hes]
      simp [List.append_assoc]
    · have : cleanStep rooted (p :: ps ++ List.replicate k dotdot) dotdot = ps ++ List.replicate k dotdot := by
        simp [cleanStep, show dotdot ≠ [] by decide, show dotdot ≠ dot by decide, hp.ne_dotdot]
      rw [this]
    · show (outOf rooted es).length ≤ _
      omega
  | nil =>
    simp only [List.nil_append] at hw ⊢
    have hdd : dd = b.w := by rw [h.mark, hw]; simp
    cases rooted with
    | true =>
      have hk := h.root rfl
      subst hk
      exact ⟨b, dd, [], 0, by simp [tidyUp, hdd], h, by simp [cleanStep, show dotdot ≠ [] by decide, show dotdot ≠ dot by decide], by simp⟩
    | false =>
      have room := room rfl
      have hk0 : b.w = 0 ↔ k = 0 := by
        rw [hw]
        simp only [outOf, Bool.false_eq_true, if_false, List.nil_append, List.length_eq_zero_iff]
        rw [joinSlash_eq_nil _ (by intro e he; simp at he; rw [he.2]; decide)]
        simp
      have hstart : ∃ b1, (if 0 < b.w then b.append path slash else .ok b) = .ok b1 ∧ (b1.cells path).length = path.length ∧
          b1.w = b.w + (if b.w = 0 then 0 else 1) ∧ b1.string path = b.string path ++ (if k = 0 then [] else [slash]) := by
        by_cases h0 : b.w = 0
        · exact ⟨b, by simp [h0], h.cells, by simp [h0], by simp [hk0.mp h0]⟩
        · rw [if_neg h0] at room
          obtain ⟨b1, a1, a2, a3, a4⟩ := b.append_spec path slash h.cells (by omega)
          have hk : k ≠ 0 := fun hk => h0 (hk0.mpr hk)
          exact ⟨b1, by rw [if_pos (by omega), a1], a2, by rw [a3, if_neg h0], by rw [a4, if_neg hk]⟩
      obtain ⟨b1, a1, a2, a3, a4⟩ := hstart
      obtain ⟨b2, c1, c2, c3, c4⟩ := b1.append_spec path 46 a2 (by split at room <;> split at a3 <;> omega)
      obtain ⟨b3, d1, d2, d3, d4⟩ := b2.append_spec path 46 c2 (by split at room <;> split at a3 <;> omega)
      have hfit : b3.w ≤ path.length := by split at room <;> split at a3 <;> omega
      have ht : b3.string path = outOf false (List.replicate (k + 1) dotdot).reverse := by
        rw [d4, c4, a4, h.text]
        rw [List.reverse_replicate, List.replicate_succ', outOf_concat]
        simp [dotdot]
      refine ⟨b3, b3.w, [], k + 1, ?_, ⟨by simp, by simp, d2, hfit, by simpa using ht, ?_⟩, ?_, ?_⟩
      · simp [tidyUp, hdd, a1, c1, d1, Res.bind]
      · rw [← LazyBuf.string_length path b3 d2 hfit, ht, List.reverse_replicate]
      · cases k with
        | zero => simp [cleanStep, show dotdot ≠ [] by decide, show dotdot ≠ dot by decide]
        | succ k => simp [cleanStep, show dotdot ≠ [] by decide, show dotdot ≠ dot by decide, List.replicate_succ]
      · by_cases h0 : b.w = 0 <;> simp [h0] at a3 ⊢ <;> omega

theorem foldl_elem (rooted : Bool) (stack : List Bytes) (e rest : Bytes) (he : slash ∉ e) (hr : atEnd rest = true) :
    (splitSlash (e ++ rest)).foldl (cleanStep rooted) stack = (splitSlash rest).foldl (cleanStep rooted) (cleanStep rooted stack e) := by
  cases rest with
  | nil => simp [splitSlash_plain e he, splitSlash, cleanStep_nil]
  | cons c cs =>
    have hc : c = slash := by simpa [atEnd] using hr
    subst hc
    rw [splitSlash_append e cs he]
    simp [splitSlash, cleanStep_nil]

theorem atEnd_dropWhile (cs : Bytes) : atEnd (cs.dropWhile (· ≠ slash)) = true := by
  induction cs with
  | nil => rfl
  | cons c cs ih =>
    rw [List.dropWhile_cons]
    split
    · exact ih
    · rename_i h; simp only [ne_eq, decide_not, Bool.not_eq_true', decide_eq_false_iff_not, Decidable.not_not] at h; simp [atEnd, h]

theorem takeWhile_no_slash (cs : Bytes) : slash ∉ cs.takeWhile (· ≠ slash) := by
  induction cs with
  | nil => simp
  | cons c cs ih =>
    rw [List.takeWhile_cons]
    split
    · rename_i h
      simp only [ne_eq, decide_not, Bool.not_eq_true', decide_eq_false_iff_not] at h
      simp only [List.mem_cons, not_or]
      exact ⟨fun e => h e.symm, ih⟩
    · simp

/-- The loop, from any buffer that holds kept elements. -/
theorem tidyLoop_spec (path : Bytes) (rooted : Bool) : ∀ (n : Nat) (rest : Bytes) (b : LazyBuf) (dd : Nat) (plains : List Bytes) (k : Nat), rest.length ≤ n →
    OutKept path rooted b dd plains k → b.w + rest.length ≤ path.length →
    (atEnd rest = true ∨ b.w = (if rooted then 1 else 0) ∨ b.w + rest.length < path.length) →
    ∃ b', tidyLoop path rooted rest b dd = .ok b' ∧ (b'.cells path).length = path.length ∧ b'.w ≤ path.length ∧
      b'.string path = outOf rooted ((splitSlash rest).foldl (cleanStep rooted) (plains ++ List.replicate k dotdot)).reverse := by
  intro n
  induction n with
  | zero =>
    intro rest b dd plains k hn h _ _
    have : rest = [] := List.length_eq_zero_iff.mp (by omega)
    subst this
    rw [tidyLoop]
    exact ⟨b, rfl, h.cells, h.fits, by simpa [splitSlash, cleanStep_nil] using h.text⟩
  | succ n ih =>
    intro rest b dd plains k hn h hfit hsep
    cases rest with
    | nil =>
      rw [tidyLoop]
      exact ⟨b, rfl, h.cells, h.fits, by simpa [splitSlash, cleanStep_nil] using h.text⟩
    | cons c cs =>
      simp only [List.length_cons] at hn hfit hsep
      rw [tidyLoop]
      split
      · rename_i hc
        obtain ⟨b', e1, e2, e3, e4⟩ := ih cs b dd plains k (by omega) h (by omega) (.inr (.inr (by omega)))
        exact ⟨b', e1, e2, e3, by rw [e4]; simp [splitSlash, hc, cleanStep_nil]⟩
      rename_i hc
      have hsep' : b.w = (if rooted then 1 else 0) ∨ b.w + (cs.length + 1) < path.length := by
        rcases hsep with h1 | h1
        · simp [atEnd, hc] at h1
        · exact h1
      split
      · rename_i hd
        obtain ⟨b', e1, e2, e3, e4⟩ := ih cs b dd plains k (by omega) h (by omega) (.inl hd.2)
        refine ⟨b', e1, e2, e3, ?_⟩
        have hf := foldl_elem rooted (plains ++ List.replicate k dotdot) [c] cs (by simp [hd.1]; decide) hd.2
        rw [e4, show c :: cs = [c] ++ cs from rfl, hf]
        congr 3
        simp [cleanStep, hd.1, dot]
      rename_i hd
      split
      · rename_i hdd
        obtain ⟨h46, hhead, hend⟩ := hdd
        obtain ⟨cs', hcs⟩ : ∃ cs', cs = 46 :: cs' := by
          cases cs with
          | nil => simp at hhead
          | cons x t => simp at hhead; exact ⟨t, by rw [hhead]⟩
        subst hcs
        subst h46
        simp only [List.drop_succ_cons, List.drop_zero] at hend ⊢
        simp only [List.length_cons] at hn hfit hsep'
        have hroom : rooted = false → b.w + (if b.w = 0 then 2 else 3) ≤ path.length := by
          intro hr
          simp only [hr, Bool.false_eq_true, if_false] at hsep'
          split <;> omega
        obtain ⟨b1, dd1, pl1, k1, u1, u2, u3, u4⟩ := tidyUp_spec h hroom
        have hb1 : b1.w + cs'.length ≤ path.length := by
          cases rooted
          · simp only [Bool.false_eq_true, if_false] at u4 hsep'
            split at u4 <;> omega
          · simp only [if_true] at u4; omega
        obtain ⟨b', e1, e2, e3, e4⟩ := ih cs' b1 dd1 pl1 k1 (by omega) u2 hb1 (.inl hend)
        refine ⟨b', by rw [u1]; exact e1, e2, e3, ?_⟩
        have hf := foldl_elem rooted (plains ++ List.replicate k dotdot) dotdot cs' (by decide) hend
        rw [e4, u3, show (46 : UInt8) :: 46 :: cs' = dotdot ++ cs' from rfl, hf]
      · rename_i hdd
        generalize hel : c :: cs.takeWhile (· ≠ slash) = e
        generalize hrest : cs.dropWhile (· ≠ slash) = rest
        have hat : atEnd rest = true := by rw [← hrest]; exact atEnd_dropWhile cs
        have hcat : c :: cs = e ++ rest := by rw [← hel, ← hrest, List.cons_append, List.takeWhile_append_dropWhile]
        have hlen : cs.length + 1 = e.length + rest.length := by
          have := congrArg List.length hcat
          simpa using this
        have hpos : 0 < e.length := by rw [← hel]; simp
        have hns : slash ∉ e := by
          rw [← hel]
          simp only [List.mem_cons, not_or]
          exact ⟨fun h => hc h.symm, takeWhile_no_slash cs⟩
        have hplain : Plain e := by
          refine ⟨fun h0 => by simp [h0] at hpos, fun h0 => ?_, fun h0 => ?_, hns⟩
          · rw [h0] at hcat
            simp only [dot, List.cons_append, List.nil_append, List.cons.injEq] at hcat
            exact hd ⟨hcat.1, by rw [hcat.2]; exact hat⟩
          · rw [h0] at hcat
            simp only [dotdot, List.cons_append, List.nil_append, List.cons.injEq] at hcat
            exact hdd ⟨hcat.1, by rw [hcat.2]; rfl, by rw [hcat.2]; exact hat⟩
        have hwid := h.width
        generalize hst : plains ++ List.replicate k dotdot = st at *
        have hstne : ∀ x ∈ st.reverse, x ≠ [] := by
          intro x hx
          rw [List.mem_reverse, ← hst, List.mem_append] at hx
          rcases hx with hx | hx
          · exact (h.plain x hx).ne_nil
          · rw [(List.mem_replicate.mp hx).2]; decide
        have hbase : b.w = (if rooted then 1 else 0) ↔ st.reverse = [] := by
          rw [hwid, ← joinSlash_eq_nil _ hstne]
          cases rooted <;> simp [outOf]
        have hcond : ((rooted = true ∧ b.w ≠ 1) ∨ (rooted = false ∧ b.w ≠ 0)) ↔ ¬ st.reverse = [] := by
          rw [← hbase]; cases rooted <;> simp
        have hstart : ∃ b1, (if (rooted = true ∧ b.w ≠ 1) ∨ (rooted = false ∧ b.w ≠ 0) then b.append path slash else .ok b) = .ok b1 ∧
            (b1.cells path).length = path.length ∧ b1.w + (cs.length + 1) ≤ path.length ∧
            b1.string path = outOf rooted st.reverse ++ (if st.reverse = [] then [] else [slash]) := by
          by_cases h0 : st.reverse = []
          · exact ⟨b, by rw [if_neg (fun hx => hcond.mp hx h0)], h.cells, by omega, by rw [h.text, hst]; simp [h0]⟩
          · have hlt : b.w + (cs.length + 1) < path.length := by
              rcases hsep' with h1 | h1
              · exact absurd (hbase.mp h1) h0
              · exact h1
            obtain ⟨b1, a1, a2, a3, a4⟩ := b.append_spec path slash h.cells (by omega)
            exact ⟨b1, by rw [if_pos (hcond.mpr h0), a1], a2, by omega, by rw [a4, h.text, hst]; simp [h0]⟩
        obtain ⟨b1, a1, a2, a3, a4⟩ := hstart
        obtain ⟨b2, d1, d2, d3, d4⟩ := b1.appendAll_spec path e a2 (by omega)
        have hk2 : OutKept path rooted b2 dd (e :: plains) k := by
          refine ⟨?_, h.root, d2, by omega, ?_, h.mark⟩
          · intro x hx
            rcases List.mem_cons.mp hx with hx | hx
            · rw [hx]; exact hplain
            · exact h.plain x hx
          · rw [d4, a4, List.cons_append, hst, List.reverse_cons, outOf_concat]
        obtain ⟨b', e1, e2, e3, e4⟩ := ih rest b2 dd (e :: plains) k (by omega) hk2 (by omega) (.inl hat)
        refine ⟨b', ?_, e2, e3, ?_⟩
        · rw [a1]
          show (LazyBuf.appendAll path b1 e).bind _ = _
          rw [d1]
          exact e1
        · rw [e4, hcat, foldl_elem rooted st e rest hns hat, cleanStep_plain rooted st e hplain, ← hst]; rfl

/-- `filepath.Clean`, as the library computes it, never panics, and returns what the element-wise definition says. -/
theorem goClean_eq (p : Bytes) : goClean p = .ok (cleanPath p) := by
  cases p with
  | nil => rfl
  | cons c cs =>
    have hfin : ∀ (rooted : Bool) (b : LazyBuf), rooted = isAbs (c :: cs) → (b.cells (c :: cs)).length = (c :: cs).length → b.w ≤ (c :: cs).length →
        b.string (c :: cs) = outOf rooted ((splitSlash (c :: cs)).foldl (cleanStep rooted) []).reverse →
        ((if b.w = 0 then b.append (c :: cs) 46 else .ok b).bind fun b' => Res.ok (b'.string (c :: cs))) = .ok (cleanPath (c :: cs)) := by
      intro rooted b hr h1 h2 h3
      have hl := LazyBuf.string_length _ b h1 h2
      have hne : ∀ x ∈ ((splitSlash (c :: cs)).foldl (cleanStep rooted) []).reverse, x ≠ [] := by
        intro x hx
        have hkeep : ∀ (es st : List Bytes), (∀ x ∈ st, x ≠ []) → ∀ x ∈ es.foldl (cleanStep rooted) st, x ≠ [] := by
          intro es
          induction es with
          | nil => intro st h; exact h
          | cons e es ih =>
            intro st h
            apply ih
            intro y hy
            unfold cleanStep at hy
            split at hy
            · exact h y hy
            · rename_i h0
              split at hy
              · cases st with
                | nil => cases rooted <;> simp at hy; rw [hy]; decide
                | cons top t =>
                  simp only at hy
                  split at hy
                  · rcases List.mem_cons.mp hy with hy | hy
                    · rw [hy]; decide
                    · exact h y hy
                  · exact h y (by simp [hy])
              · rcases List.mem_cons.mp hy with hy | hy
                · rw [hy]; exact fun h1 => h0 (.inl h1)
                · exact h y hy
        exact hkeep _ [] (by simp) x (List.mem_reverse.mp hx)
      unfold cleanPath renderPath
      rw [← hr]
      generalize ((splitSlash (c :: cs)).foldl (cleanStep rooted) []).reverse = es at *
      by_cases h0 : b.w = 0
      · rw [h0] at hl
        have hs := List.length_eq_zero_iff.mp hl
        rw [h3] at hs
        cases rooted with
        | true => simp [outOf] at hs
        | false =>
          have he : es = [] := (joinSlash_eq_nil es hne).mp (by simpa [outOf] using hs)
          obtain ⟨b', a1, a2, a3, a4⟩ := b.append_spec (c :: cs) 46 h1 (by rw [h0]; simp)
          rw [if_pos h0, a1]
          simp [Res.bind, a4, h3, he, outOf, joinSlash, dot]
      · rw [if_neg h0]
        show Res.ok (b.string (c :: cs)) = _
        rw [h3]
        cases rooted with
        | true => simp [outOf]
        | false =>
          have he : es ≠ [] := by
            intro he
            apply h0
            rw [← hl, h3, he]
            rfl
          simp [outOf, he]
    by_cases hc : c = slash
    · have habs : isAbs (c :: cs) = true := by simp [isAbs, hc]
      obtain ⟨b1, a1, a2, a3, a4⟩ := LazyBuf.append_spec (c :: cs) ⟨none, 0⟩ slash rfl (by simp)
      have hk : OutKept (c :: cs) true b1 1 [] 0 := ⟨by simp, by simp, a2, by rw [a3]; simp, by rw [a4]; rfl, rfl⟩
      simp only [Nat.zero_add] at a3
      obtain ⟨b', e1, e2, e3, e4⟩ := tidyLoop_spec (c :: cs) true cs.length cs b1 1 [] 0 (Nat.le_refl _) hk (by rw [a3]; simp; omega) (.inr (.inl (by simp [a3])))
      have := hfin true b' habs.symm e2 e3 (by rw [e4]; simp [splitSlash, hc, cleanStep_nil])
      simp only [goClean, hc, if_true]
      rw [hc] at a1 e1 this
      rw [a1]
      simp only [Res.bind] at e1 this ⊢
      rw [e1]
      exact this
    · have habs : isAbs (c :: cs) = false := by simp [isAbs, hc]
      have hk : OutKept (c :: cs) false ⟨none, 0⟩ 0 [] 0 := ⟨by simp, by simp, rfl, by simp, rfl, rfl⟩
      obtain ⟨b', e1, e2, e3, e4⟩ := tidyLoop_spec (c :: cs) false (c :: cs).length (c :: cs) ⟨none, 0⟩ 0 [] 0 (Nat.le_refl _) hk (by simp) (.inr (.inl (by simp)))
      have := hfin false b' habs.symm e2 e3 (by rw [e4]; simp)
      simp only [goClean, hc, if_false]
      rw [e1]
      exact this

/-- `filepath.Join` likewise. -/
theorem goJoin_eq (es : List Bytes) : goJoin es = .ok (joinPath es) := by
  induction es with
  | nil => rfl
  | cons e es ih =>
    cases e with
    | nil => rw [goJoin, ih]; simp [joinPath]
    | cons c cs => simp [goJoin, goClean_eq, joinPath]

theorem lastSlash_spec (path : Bytes) : ∀ n, n ≤ path.length →
    (lastSlash path n = none ∧ slash ∉ path.take n) ∨ ∃ i, lastSlash path n = some i ∧ i < n ∧ path[i]? = some slash ∧ slash ∉ (path.take n).drop (i + 1) := by
  intro n
  induction n with
  | zero => intro _; exact .inl ⟨rfl, by simp⟩
  | succ n ih =>
    intro hn
    obtain ⟨c, hc⟩ : ∃ c, path[n]? = some c := ⟨path[n], List.getElem?_eq_getElem (by omega)⟩
    have htake : path.take (n + 1) = path.take n ++ [c] := by rw [List.take_add_one, hc]; rfl
    by_cases h : c = slash
    · right
      refine ⟨n, by simp [lastSlash, hc, h], by omega, by rw [hc, h], ?_⟩
      rw [List.drop_eq_nil_of_le (by simp; omega)]; simp
    · have hrec : lastSlash path (n + 1) = lastSlash path n := by simp [lastSlash, hc, h]
      have hm : slash ∉ [c] := by simpa using fun e => h e.symm
      rcases ih (by omega) with ⟨h1, h2⟩ | ⟨i, h1, h2, h3, h4⟩
      · left; rw [hrec, htake]; exact ⟨h1, by simp only [List.mem_append, not_or]; exact ⟨h2, hm⟩⟩
      · right
        refine ⟨i, by rw [hrec, h1], by omega, h3, ?_⟩
        rw [htake, List.drop_append_of_le_length (by simp; omega)]
        simp only [List.mem_append, not_or]
        exact ⟨h4, hm⟩

/-- The file part of `path.Split` likewise. -/
theorem goSplitFile_eq (path : Bytes) : goSplitFile path = splitFile path := by
  unfold goSplitFile splitFile
  rcases lastSlash_spec path path.length (Nat.le_refl _) with ⟨h1, h2⟩ | ⟨i, h1, h2, h3, h4⟩
  · rw [h1]
    rw [List.take_length] at h2
    simp [splitSlash_plain path h2]
  · rw [h1]
    rw [List.take_length] at h4
    have hs : path = path.take i ++ slash :: path.drop (i + 1) := by
      conv => lhs; rw [← List.take_append_drop i path]
      congr 1
      rw [List.drop_eq_getElem_cons h2]
      congr 1
      rw [List.getElem?_eq_getElem h2] at h3
      exact Option.some.inj h3
    conv => rhs; rw [hs, splitSlash_concat, splitSlash_plain _ h4]
    simp

end Flu
