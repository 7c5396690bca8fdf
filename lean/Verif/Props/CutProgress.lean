import Verif.Props.FullDisk
import Verif.Props.Starve
import Verif.Props.Resume

/-!
C119: what a write of a progress file that is cut short leaves behind.
-/

namespace Flu

open Bitset

/-! ### Bitsets without their last words -/

theorem Bitset.flatMap_take (ws : List Word) : ∀ k, (ws.flatMap (fun w => beBytes 8 w.toNat)).take (8 * k) = (ws.take k).flatMap (fun w => beBytes 8 w.toNat) := by
  induction ws with
  | nil => intro k; simp
  | cons w ws ih =>
    intro k
    cases k with
    | zero => simp
    | succ k =>
      have h8 : (beBytes 8 w.toNat).length = 8 := beBytes_length _ _
      rw [List.take_succ_cons, List.flatMap_cons, List.flatMap_cons, ← ih k, List.take_append, h8, List.take_of_length_le (by omega)]
      congr 2

/-- What `Deserialize` accepts consists of whole words. -/
theorem Bitset.deserialize_length (x : Bytes) (b : Bitset) (h : deserialize x = .ok b) : x.length = 8 + 8 * b.data.length := by
  rw [← serialize_of_deserialize x b h, serialize_length]

/-- Reading back the first `j` bytes of what `Serialize` gives. -/
theorem Bitset.deserialize_cut (b : Bitset) (h1 : -2 ^ 63 ≤ b.size) (h2 : b.size < 2 ^ 63) (j : Nat) :
    (j < 8 → deserialize (b.serialize.take j) = .panic) ∧
    (8 ≤ j → j < 8 + 8 * b.data.length → j % 8 ≠ 0 → ∃ x, deserialize (b.serialize.take j) = .err x) ∧
    (8 ≤ j → j % 8 = 0 ∨ 8 + 8 * b.data.length ≤ j → deserialize (b.serialize.take j) = .ok ⟨b.data.take ((j - 8) / 8), b.size⟩) := by
  have hl := serialize_length b
  have hcut : ∀ k, b.serialize.take (8 + 8 * k) = (⟨b.data.take k, b.size⟩ : Bitset).serialize := by
    intro k
    unfold serialize
    rw [List.take_append, beBytes_length, List.take_of_length_le (by rw [beBytes_length]; omega), Nat.add_sub_cancel_left, flatMap_take]
  refine ⟨?_, ?_, ?_⟩
  · intro hj
    unfold deserialize
    rw [if_pos (by rw [List.length_take]; omega)]
  · intro h8 hj hm
    unfold deserialize
    rw [if_neg (by rw [List.length_take, hl]; omega)]
    simp only
    rw [if_pos (by rw [List.length_drop, List.length_take, hl]; omega)]
    exact ⟨_, rfl⟩
  · intro h8 hj
    by_cases hL : 8 + 8 * b.data.length ≤ j
    · rw [List.take_of_length_le (by omega), List.take_of_length_le (by omega)]
      exact deserialize_serialize b h1 h2
    · obtain ⟨k, rfl⟩ : ∃ k, j = 8 + 8 * k := ⟨(j - 8) / 8, by omega⟩
      rw [hcut, show (8 + 8 * k - 8) / 8 = k by omega]
      exact deserialize_serialize ⟨b.data.take k, b.size⟩ h1 h2

theorem Bitset.has_cut (d : List Word) (k : Nat) (s s' : Int) (i : Nat) : (⟨d.take k, s⟩ : Bitset).has i = ((⟨d, s'⟩ : Bitset).has i && decide (i < 64 * k)) := by
  unfold Bitset.has
  simp only [List.getElem?_take]
  by_cases hi : i / 64 < k
  · rw [if_pos hi, decide_eq_true (by omega), Bool.and_true]
  · rw [if_neg hi, decide_eq_false (by omega), Bool.and_false]
    simp

theorem Bitset.fullLoop_short (d : List Word) (hd : ∀ i, i < d.length → d[i]? = some (BitVec.allOnes 64)) : ∀ l : List Nat, (∃ i ∈ l, d.length ≤ i) → fullLoop d l = .panic := by
  intro l
  induction l with
  | nil => rintro ⟨i, h, -⟩; cases h
  | cons i l ih =>
    rintro ⟨m, hm, hml⟩
    by_cases hi : i < d.length
    · have hg : d[i] = BitVec.allOnes 64 := by
        have := hd i hi
        rw [List.getElem?_eq_getElem hi] at this
        exact Option.some.inj this
      rcases List.mem_cons.1 hm with rfl | hm
      · omega
      · simp only [fullLoop, indexAt_lt _ _ hi, Res.bind_ok, hg, bne_self_eq_false, Bool.false_eq_true, ↓reduceIte]
        exact ih ⟨m, hm, hml⟩
    · simp only [fullLoop, indexAt_nat, List.getElem?_eq_none (Nat.le_of_not_lt hi)]
      rfl

theorem Bitset.fullLoop_missing (d : List Word) : ∀ (n a : Nat), (∃ i, a ≤ i ∧ i < a + n ∧ i < d.length ∧ d[i]? ≠ some (BitVec.allOnes 64)) → fullLoop d (List.range' a n) = .ok false := by
  intro n
  induction n with
  | zero => rintro a ⟨i, h1, h2, -⟩; omega
  | succ n ih =>
    rintro a ⟨i, h1, h2, h3, h4⟩
    have ha : a < d.length := by omega
    rw [List.range'_succ]
    simp only [fullLoop, indexAt_lt _ _ ha, Res.bind_ok]
    by_cases hg : d[a] = BitVec.allOnes 64
    · simp only [hg, bne_self_eq_false, Bool.false_eq_true, ↓reduceIte]
      refine ih (a + 1) ⟨i, ?_, by omega, h3, h4⟩
      rcases Nat.lt_or_ge a i with h | h
      · exact h
      · have : i = a := by omega
        subst this
        rw [List.getElem?_eq_getElem ha, hg] at h4
        exact absurd rfl h4
    · rw [if_pos (by simpa only [bne_iff_ne, ne_eq] using hg)]
      rfl

/-- Whether a bitset without its last words is full: the question panics if there is nothing missing before the gap. -/
theorem Bitset.full_cut (b : Bitset) (hn : 0 ≤ b.size) (hshort : b.data.length < (b.size.toNat + 63) / 64) :
    ((∀ i, i < 64 * b.data.length → b.has i = true) → b.full = .panic) ∧ ((∃ i, i < 64 * b.data.length ∧ b.has i = false) → b.full = .ok false) := by
  have h0 : b.size ≠ 0 := by intro h; rw [h] at hshort; simp at hshort
  have hm : b.data.length ≤ (b.size.toNat - 1) / 64 := by omega
  unfold full
  simp only [h0, ↓reduceIte, tdiv_size b h0 hn, tmod_size b h0 hn, Int.toNat_natCast]
  have hw : ∀ i, i < b.data.length → (b.data[i]? = some (BitVec.allOnes 64) ↔ ∀ j, j < 64 → b.has (64 * i + j) = true) := by
    intro i hi
    rw [List.getElem?_eq_getElem hi, Option.some.injEq, allOnes_iff]
    refine forall_congr' fun j => imp_congr_right fun hj => ?_
    have e1 : (64 * i + j) / 64 = i := by omega
    have e2 : (64 * i + j) % 64 = j := by omega
    simp [has, e1, e2, hi]
  constructor
  · intro hall
    have hones : ∀ i, i < b.data.length → b.data[i]? = some (BitVec.allOnes 64) := fun i hi => (hw i hi).2 fun j hj => hall _ (by omega)
    rcases Nat.lt_or_ge b.data.length ((b.size.toNat - 1) / 64) with h | h
    · rw [fullLoop_short _ hones _ ⟨b.data.length, by simpa using h, Nat.le_refl _⟩]
      rfl
    · rw [fullLoop_eq _ _ (by intro i hi; simp at hi; omega), decide_eq_true (by intro i hi; simp at hi; exact hones i (by omega))]
      rw [Res.bind_ok, indexAt_nat, List.getElem?_eq_none (by omega)]
      rfl
  · rintro ⟨i, h1, h2⟩
    rw [List.range_eq_range', fullLoop_missing _ _ _ ⟨i / 64, by omega, by omega, by omega, fun h => ?_⟩]
    · rfl
    · have := (hw (i / 64) (by omega)).1 h (i % 64) (by omega)
      rw [show 64 * (i / 64) + i % 64 = i by omega, h2] at this
      cases this

/-! ### Specification -/

/-- How many bytes the complete progress file of a file has: eight for the number of chunks, and eight for each 64 chunks. -/
def Spec.progressBytes (e : Export) : Nat := 8 + 8 * ((e.progress.sizeOf.toNat + 63) / 64)

/-- `e'` shows the same file as `e`, and as saved exactly those chunks below `k` that `e` shows as saved, and the `n`-th if it is below `k`. -/
structure Spec.ShownUpTo (fix : GoString → GoString) (e : Export) (n k : Nat) (e' : Export) : Prop where
  path : e'.filePath = fix e.filePath
  size : e'.sizeInBytes = e.sizeInBytes
  hash : e'.sha1Hash = e.sha1Hash
  chunkSize : e'.chunkSize = e.chunkSize
  count : e'.progress.sizeOf = e.progress.sizeOf
  saved : ∀ m, m < 2 ^ 63 → (e'.saved m ↔ (e.saved m ∨ m = n) ∧ m < k)

open Spec

section
variable {env : Env} {d dl : Path} {c : Cat} {fs : FS} {h : Sha1Hash} {e : Export} {n : UInt16} {data : Bytes} {fl : List Fault} {r : Res Unit} {s' : St}

/-- A call of `SaveChunk`, however it ends, as a step of the system that is followed by the end of the process. -/
theorem save_stops (hreach : Reach env d dl (.running c fs)) (hsafe : (Op.save h n data).Safe d c) (hrun : saveChunk h n data ⟨c, fs, fl⟩ = (r, s')) : Reach env d dl (.stopped s'.fs) := by
  obtain ⟨fs0, h3, h4⟩ := hreach
  have hstep := Step.call (env := env) (dl := dl) (.save h n data) fl c fs hsafe
  rw [show (Op.save h n data).run env ⟨c, fs, fl⟩ = (r, s') from hrun] at hstep
  cases r with
  | ok _ => exact ⟨fs0, h3, (h4.step hstep).step (Step.kill _ _)⟩
  | err _ => exact ⟨fs0, h3, (h4.step hstep).step (Step.kill _ _)⟩
  | panic => exact ⟨fs0, h3, h4.step hstep⟩
  | exit => exact ⟨fs0, h3, h4.step hstep⟩
  | crash => exact ⟨fs0, h3, h4.step hstep⟩

/-- What the disk holds after a `SaveChunk` that does not succeed. -/
theorem save_disk (hh : Healthy env d) (hclean : CleanReach env d dl (.running c fs)) (ho : observe c fs h = .ok e) (hpath : ¬ CatFile d e.filePath)
    (hn : (n.toNat : Int) < e.progress.sizeOf) :
    ∃ b : Bitset, b.Wf ∧ b.size = e.progress.size ∧ (∀ i, b.has i = (e.progress.has i || decide (i = n.toNat))) ∧ ∃ k, (k = 2 ∨ k = 3) ∧
      (∀ fl r s', saveChunk h n data ⟨c, fs, fl⟩ = (r, s') → (∀ x, r ≠ .ok x) →
        (s'.fs = fs ∨ ∃ y, s'.fs = fs.put e.filePath (some y)) ∨ ∃ j y, s'.fs = (fs.put e.filePath (some y)).put (progressPath d h) (some (b.serialize.take j))) ∧
      ∀ j rest, ∃ r s' y, saveChunk h n data ⟨c, fs, List.replicate k .none ++ .crash (some j) :: rest⟩ = (r, s') ∧ r = .crash ∧
        s'.fs = (fs.put e.filePath (some y)).put (progressPath d h) (some (b.serialize.take j)) := by
  have hI : Inv env d dl c fs := hclean.reach.inv hh.abs hh.utf8
  obtain ⟨ind, rfl, hs⟩ := hclean.sync hh.abs hh.utf8
  obtain ⟨_, e1, hw⟩ := hI.split
  cases e1
  rw [observe_eq] at ho
  unfold obsRec at ho
  rcases hm : mapGet ind.index h with _ | r0
  · rw [hm] at ho; cases ho
  rw [hm] at ho
  obtain ⟨p, hv, ho⟩ := (Res.bind_ok_iff _ _ _).1 ho
  cases ho
  replace hpath : ¬ CatFile d r0.filePath := hpath
  replace hn : (n.toNat : Int) < p.progress.size := hn
  have hrec := hw.recs _ _ (mapGet_mem _ _ _ hm)
  obtain ⟨hpp, hpl⟩ := viewProgress_loaded hI.disk hrec hv
  rw [hw.ownGet _ _ hm] at hpp
  have hwf : p.progress.Wf := by
    obtain ⟨p', q1, -, q2⟩ := hs.prog h r0 hm
    rw [hv] at q1; cases q1; exact q2
  obtain ⟨k, hk, ind', b, hb, hU⟩ := Uses.savePrep (E := fun f => f = fs ∨ ∃ y, f = fs.put r0.filePath (some y)) (dl := dl) n data hm hv hrec.cs_nonneg (.inl rfl) (fun y => .inr ⟨y, rfl⟩)
  have hn16 := n.toNat_lt
  have hnn : (BitVec.ofNat 64 n.toNat).toNat = n.toNat := by simp only [BitVec.toNat_ofNat]; omega
  have hb' := hb
  obtain ⟨dd, e1, e2, e3⟩ := Bitset.set_eq p.progress (BitVec.ofNat 64 n.toNat) (by omega)
  rw [e1] at hb'
  have hbw : b.Wf := set_wf _ _ _ (by omega) hwf hb
  refine ⟨b, hbw, ?_, ?_, k, hk, ?_, ?_⟩
  · cases hb'
    show max p.progress.size _ = p.progress.size
    rw [hnn]; omega
  · cases hb'
    intro i
    rw [e3 i, hnn]
    rfl
  · intro fl r s' hrun hr
    rw [saveChunk_prep, IOM.bind_apply] at hrun
    by_cases hall : ∀ f ∈ fl.take k, f = .none
    · rw [(hU fl).1 hall] at hrun
      simp only at hrun
      unfold ProgressFile.save osWriteFile at hrun
      rw [hpp] at hrun
      rcases hg : fl.drop k with _ | ⟨f, g⟩
      · rw [hg] at hrun; cases hrun; exact absurd rfl (hr ())
      · rw [hg] at hrun
        cases f with
        | none => cases hrun; exact absurd rfl (hr ())
        | fail eff =>
          cases eff with
          | none => cases hrun; exact .inl (.inr ⟨_, rfl⟩)
          | some j => cases hrun; exact .inr ⟨j, _, rfl⟩
        | crash eff =>
          cases eff with
          | none => cases hrun; exact .inl (.inr ⟨_, rfl⟩)
          | some j => cases hrun; exact .inr ⟨j, _, rfl⟩
    · have hbad : ∃ f ∈ fl.take k, f ≠ .none := by
        apply Classical.byContradiction
        intro hno
        exact hall (fun f hf => Classical.byContradiction (fun hn => hno ⟨f, hf, hn⟩))
      obtain ⟨x, s1, h1, h2, h3⟩ := (hU fl).2 hbad
      rw [h1] at hrun
      have : s' = s1 := by
        cases x with
        | ok a => exact absurd rfl (h2 a)
        | err _ => cases hrun; rfl
        | panic => cases hrun; rfl
        | exit => cases hrun; rfl
        | crash => cases hrun; rfl
      rw [this]
      exact .inl h3
  · intro j rest
    have hall : ∀ f ∈ (List.replicate k Fault.none ++ .crash (some j) :: rest).take k, f = .none := by
      rw [List.take_left' (List.length_replicate ..)]
      exact fun f hf => List.eq_of_mem_replicate hf
    rw [saveChunk_prep, IOM.bind_apply, (hU _).1 hall]
    simp only
    unfold ProgressFile.save osWriteFile
    rw [hpp, List.drop_left' (List.length_replicate ..)]
    exact ⟨_, _, _, rfl, rfl, rfl⟩

/-- A daemon that is started on a disk with this progress file. -/
theorem cut_restart (hh : Healthy env d) (hclean : CleanReach env d dl (.running c fs)) (ho : observe c fs h = .ok e) {fs1 : FS} (hidx : fs1 (indexPath d) = fs (indexPath d)) {bytes : Bytes}
    (hprog : fs1 (progressPath d h) = some bytes) (pid now : Int) :
    ∃ c', Cat.init { env with pid := pid, now := now } ⟨⟨d, dl, none⟩, fs1, []⟩ = (.ok (), ⟨c', fs1, []⟩) ∧
      observe c' fs1 h = (deserialize bytes >>= fun b => pure ⟨env.json.fix e.filePath, e.sizeInBytes, e.sha1Hash, b, e.chunkSize⟩) ∧
      ∀ k e2, fs1 (progressPath d k) = fs (progressPath d k) → observe c fs k = .ok e2 → observe c' fs1 k = .ok (e2.refix env.json.fix) := by
  have hI : Inv env d dl c fs := hclean.reach.inv hh.abs hh.utf8
  obtain ⟨ind, rfl, hs⟩ := hclean.sync hh.abs hh.utf8
  obtain ⟨_, e1, hw⟩ := hI.split
  cases e1
  rw [observe_eq] at ho
  unfold obsRec at ho
  rcases hm : mapGet ind.index h with _ | r0
  · rw [hm] at ho; cases ho
  rw [hm] at ho
  obtain ⟨p, hv, ho⟩ := (Res.bind_ok_iff _ _ _).1 ho
  cases ho
  obtain ⟨ind0, g1, g2, g3⟩ := hs.index
  obtain ⟨m, k1, -, k2⟩ := init_nil_old { env with pid := pid, now := now } d dl none fs1 ind0 g1.nodup (by rw [hidx]; exact g2)
  refine ⟨_, k1, ?_, ?_⟩
  rotate_left
  · intro k e2 hk he
    rw [observe_eq] at he ⊢
    unfold obsRec at he ⊢
    simp only
    rw [k2]
    rcases hm2 : mapGet ind.index k with _ | r2
    · rw [hm2] at he; cases he
    rw [hm2] at he
    obtain ⟨p2, hv2, he⟩ := (Res.bind_ok_iff _ _ _).1 he
    cases he
    replace g3 := g3 k
    rw [hm2] at g3
    simp only [g3, Option.map_some]
    obtain ⟨p3, q1, q2, -⟩ := hs.prog k r2 hm2
    rw [hv2] at q1; cases q1
    have : viewProgress d fs1 (r2.reloaded env.json.fix) = .ok p2 := by
      rw [← q2]
      have hk2 : fs1 (progressPath d r2.sha1Hash) = fs (progressPath d r2.sha1Hash) := by rw [hw.ownGet _ _ hm2, hk]
      unfold viewProgress
      show (match fs1 (progressPath d r2.sha1Hash) with | none => _ | some data => _) = (match fs (progressPath d r2.sha1Hash) with | none => _ | some data => _)
      rw [hk2]
      rfl
    rw [this]
    rfl
  rw [observe_eq]
  unfold obsRec
  simp only
  rw [k2]
  replace g3 := g3 h
  rw [hm] at g3
  simp only [g3, Option.map_some]
  unfold viewProgress
  have : (r0.reloaded env.json.fix).progressFile = none := rfl
  have hh0 : (r0.reloaded env.json.fix).sha1Hash = h := by show r0.sha1Hash = h; exact hw.ownGet _ _ hm
  simp only [this, hh0, hprog]
  cases deserialize bytes <;> rfl

/-- C119: what a daemon shows that is started after a `SaveChunk` that did not succeed, whichever operations of the disk failed and wherever the process died.  Either everything is shown as before, or
the progress file is left with some number of bytes, and that number decides. -/
theorem C119_cut (hh : Healthy env d) (hclean : CleanReach env d dl (.running c fs)) (ho : observe c fs h = .ok e) (hpath : ¬ CatFile d e.filePath) (hn : (n.toNat : Int) < e.progress.sizeOf)
    (hrun : saveChunk h n data ⟨c, fs, fl⟩ = (r, s')) (hr : ∀ x, r ≠ .ok x) :
    (Spec.Kept env d dl c s'.fs ∧ Usable env d dl s'.fs) ∨
    ∃ bytes, s'.fs (progressPath d h) = some bytes ∧ bytes.length ≤ progressBytes e ∧
      ∀ pid now, ∃ c', Cat.init { env with pid := pid, now := now } ⟨⟨d, dl, none⟩, s'.fs, []⟩ = (.ok (), ⟨c', s'.fs, []⟩) ∧
        (∀ k e2, k ≠ h → observe c fs k = .ok e2 → observe c' s'.fs k = .ok (e2.refix env.json.fix)) ∧
        (bytes.length < 8 → observe c' s'.fs h = .panic) ∧
        (8 ≤ bytes.length → bytes.length % 8 ≠ 0 → ∃ x, observe c' s'.fs h = .err x) ∧
        (8 ≤ bytes.length → bytes.length % 8 = 0 → ∃ e', observe c' s'.fs h = .ok e' ∧ ShownUpTo env.json.fix e n.toNat (8 * (bytes.length - 8)) e') := by
  obtain ⟨b, hb, hbs, hbm, -, -, hd, -⟩ := save_disk (data := data) hh hclean ho hpath hn
  rcases hd fl r s' hrun hr with (h1 | ⟨y, h1⟩) | ⟨j, y, h1⟩
  · left; rw [h1]; exact ⟨hclean.kept hh, (C31_partial hh hclean).1⟩
  · left; rw [h1]
    exact ⟨(CleanReach.userRunning _ _ _ _ hpath hclean).kept hh, (C31_partial hh (CleanReach.userRunning _ _ _ _ hpath hclean)).1⟩
  · right
    have hprog : s'.fs (progressPath d h) = some (b.serialize.take j) := by rw [h1, FS.put_same]
    have hidx : s'.fs (indexPath d) = fs (indexPath d) := by
      rw [h1, FS.put_other _ _ _ _ (indexPath_ne_progressPath d d hh.abs hh.abs _), FS.put_other _ _ _ _ (fun e => hpath (.inl e.symm))]
    have hlen : b.serialize.length = progressBytes e := by
      rw [serialize_length, hb.len, hbs]; rfl
    have hl : (b.serialize.take j).length = min j (8 + 8 * b.data.length) := by rw [List.length_take, serialize_length]
    refine ⟨_, hprog, by rw [List.length_take, hlen]; omega, fun pid now => ?_⟩
    obtain ⟨c', q1, q2, q3⟩ := cut_restart hh hclean ho hidx hprog pid now
    obtain ⟨w1, w2, w3⟩ := deserialize_cut b (by have := hb.size_nonneg; omega) hb.size_lt j
    have hoth : ∀ k, k ≠ h → s'.fs (progressPath d k) = fs (progressPath d k) := fun k hk => by
      rw [h1, FS.put_other _ _ _ _ (fun x => hk (progressPath_inj d hh.abs _ _ x)), FS.put_other _ _ _ _ (fun x => hpath (.inr ⟨k, x.symm⟩))]
    refine ⟨c', q1, fun k e2 hk he => q3 k e2 (hoth k hk) he, ?_⟩
    rw [q2, hl]
    refine ⟨fun h8 => ?_, fun h8 hm => ?_, fun h8 hm => ?_⟩
    · rw [w1 (by omega)]; rfl
    · obtain ⟨x, hx⟩ := w2 (by omega) (by omega) (by omega)
      rw [hx]; exact ⟨x, rfl⟩
    · rw [w3 (by omega) (by omega)]
      refine ⟨_, rfl, rfl, rfl, rfl, rfl, hbs, fun m hm63 => ?_⟩
      rw [Export.saved_iff _ _ hm63, Export.saved_iff _ _ hm63]
      show (⟨b.data.take ((j - 8) / 8), b.size⟩ : Bitset).has m = true ↔ _
      rw [has_cut _ _ _ b.size]
      show (b.has m && _) = true ↔ _
      rw [hbm, Bool.and_eq_true, Bool.or_eq_true, decide_eq_true_iff, decide_eq_true_iff]
      refine and_congr_right fun hs => ?_
      have hlt : m < b.size.toNat := by
        rcases Nat.lt_or_ge m b.size.toNat with h | h
        · exact h
        · have := hb.above m h
          rw [hbm] at this
          rcases hs with hs | hs
          · rw [hs] at this; cases this
          · rw [decide_eq_true hs] at this; simp at this
      have := hb.len
      omega

theorem obsRec_ok {ind : IndexFile} (ho : obsRec d fs ind.index h = .ok e) : ∃ r p, mapGet ind.index h = some r ∧ viewProgress d fs r = .ok p ∧ e = r.exportWith p := by
  unfold obsRec at ho
  rcases hm : mapGet ind.index h with _ | r
  · rw [hm] at ho; cases ho
  · rw [hm] at ho
    simp only at ho
    rcases hv : viewProgress d fs r with p | _ | _ | _ | _ <;> rw [hv] at ho <;> cases ho
    exact ⟨r, p, rfl, hv, rfl⟩

/-- Before, the progress file is whole. -/
theorem progress_whole (hh : Healthy env d) (hclean : CleanReach env d dl (.running c fs)) (ho : observe c fs h = .ok e) : ∃ x, fs (progressPath d h) = some x ∧ x.length = progressBytes e := by
  have hI : Inv env d dl c fs := hclean.reach.inv hh.abs hh.utf8
  obtain ⟨ind, rfl, hs⟩ := hclean.sync hh.abs hh.utf8
  obtain ⟨ind', hi, hw⟩ := hI.split
  cases hi
  rw [observe_eq] at ho
  obtain ⟨r, p, g1, g2, rfl⟩ := obsRec_ok ho
  obtain ⟨p', q1, q2, q3⟩ := hs.prog h r g1
  rw [g2] at q1
  cases q1
  have hown := hw.ownGet h r g1
  unfold viewProgress at q2
  simp only at q2
  rw [hown] at q2
  rcases hx : fs (progressPath d h) with _ | x
  · rw [hx] at q2; cases q2
  · refine ⟨x, rfl, ?_⟩
    rw [hx] at q2
    simp only at q2
    rcases hdes : deserialize x with b | _ | _ | _ | _ <;> rw [hdes] at q2 <;> cases q2
    have h1 := deserialize_length x b hdes
    have h2 := q3.len
    show x.length = 8 + 8 * ((b.size.toNat + 63) / 64)
    simp only at h2
    rw [h1, h2]

theorem cut_differs (hh : Healthy env d) (hclean : CleanReach env d dl (.running c fs)) (ho : observe c fs h = .ok e) {fs1 : FS} {bytes : Bytes} (hb : fs1 (progressPath d h) = some bytes)
    (hlen : bytes.length ≠ progressBytes e) : fs1 (progressPath d h) ≠ fs (progressPath d h) := by
  obtain ⟨x, h1, h2⟩ := progress_whole hh hclean ho
  rw [hb, h1]
  intro hx
  rw [Option.some.inj hx] at hlen
  exact hlen h2

/-- What is left of the progress, with the bitset. -/
theorem cut_bytes (hh : Healthy env d) (hclean : CleanReach env d dl (.running c fs)) (ho : observe c fs h = .ok e) (hpath : ¬ CatFile d e.filePath) (hn : (n.toNat : Int) < e.progress.sizeOf)
    (hrun : saveChunk h n data ⟨c, fs, fl⟩ = (r, s')) (hr : ∀ x, r ≠ .ok x) {bytes : Bytes} (hb : s'.fs (progressPath d h) = some bytes) (hne : s'.fs (progressPath d h) ≠ fs (progressPath d h)) :
    s'.fs (indexPath d) = fs (indexPath d) ∧ ∃ (b : Bitset) (j : Nat), b.Wf ∧ b.size = e.progress.size ∧ (∀ i, b.has i = (e.progress.has i || decide (i = n.toNat))) ∧ bytes = b.serialize.take j ∧
      8 + 8 * b.data.length = progressBytes e := by
  obtain ⟨b, hw, hbs, hbm, -, -, hd, -⟩ := save_disk (data := data) hh hclean ho hpath hn
  rcases hd fl r s' hrun hr with (h1 | ⟨y, h1⟩) | ⟨j, y, h1⟩
  · rw [h1] at hne; exact absurd rfl hne
  · rw [h1, FS.put_other _ _ _ _ (fun x => hpath (.inr ⟨h, x.symm⟩))] at hne; exact absurd rfl hne
  · refine ⟨?_, b, j, hw, hbs, hbm, ?_, by rw [hw.len, hbs]; rfl⟩
    · rw [h1, FS.put_other _ _ _ _ (indexPath_ne_progressPath d d hh.abs hh.abs _), FS.put_other _ _ _ _ (fun e => hpath (.inl e.symm))]
    · rw [h1, FS.put_same] at hb
      exact (Option.some.inj hb).symm

/-- C119: if what is left is too short to be read or not a number of whole words, then from then on no daemon, however often it is started, can list its files, show the file or forget it, nor
download it anew or share it. -/
theorem C119_stuck (hh : Healthy env d) (hclean : CleanReach env d dl (.running c fs)) (ho : observe c fs h = .ok e) (hpath : ¬ CatFile d e.filePath) (hn : (n.toNat : Int) < e.progress.sizeOf)
    (hrun : saveChunk h n data ⟨c, fs, fl⟩ = (r, s')) (hr : ∀ x, r ≠ .ok x) {bytes : Bytes} (hb : s'.fs (progressPath d h) = some bytes) (hlen : bytes.length < 8 ∨ bytes.length % 8 ≠ 0) {c' : Cat} {fs' : FS} (hsteps : Steps env d dl (.stopped s'.fs) (.running c' fs')) (fl' : List Fault) :
    (∀ order, MapOrder c' order → h ∈ order ∧ ∀ es s', listFiles order ⟨c', fs', fl'⟩ ≠ (.ok es, s')) ∧ (∀ e s', contains h ⟨c', fs', fl'⟩ ≠ (.ok e, s')) ∧
      (∀ s', unshareFile env h ⟨c', fs', fl'⟩ ≠ (.ok (), s')) ∧ (∀ size cs name e s', registerDownload env size cs h name ⟨c', fs', fl'⟩ ≠ (.ok e, s')) ∧
      ∀ path r s', shareFile env path ⟨c', fs', fl'⟩ = (.ok r, s') → r.sha1Hash ≠ h := by
  have hne := cut_differs hh hclean ho hb (by unfold progressBytes; omega)
  obtain ⟨hidx, b, j, hw, hbs, hbm, rfl, hL⟩ := cut_bytes hh hclean ho hpath hn hrun hr hb hne
  have hl : (b.serialize.take j).length = min j (8 + 8 * b.data.length) := by rw [List.length_take, serialize_length]
  have hI : Inv env d dl c fs := hclean.reach.inv hh.abs hh.utf8
  have hstop : Reach env d dl (.stopped s'.fs) := by
    refine save_stops hclean.reach ?_ hrun
    intro q hq
    rw [observe_path hh hclean.reach h e ho] at hq
    cases hq
    exact hpath
  have hstuck : StuckDisk env d h s'.fs := by
    obtain ⟨ind, rfl, hs⟩ := hclean.sync hh.abs hh.utf8
    obtain ⟨ind0, g1, g2, g3⟩ := hs.index
    obtain ⟨w1, w2, -⟩ := deserialize_cut b (by have := hw.size_nonneg; omega) hw.size_lt j
    refine ⟨?_, _, ind0, by rw [hidx]; exact g2, g1, List.prefix_refl _, ?_⟩
    · intro x hx bb hbb
      rw [hb] at hx; cases hx
      rcases Nat.lt_or_ge j 8 with h8 | h8
      · rw [w1 h8] at hbb; cases hbb
      · obtain ⟨x, hx⟩ := w2 h8 (by omega) (by omega)
        rw [hx] at hbb; cases hbb
    · intro hx
      have := g3 h
      rw [hx] at this
      rw [observe_eq] at ho
      unfold obsRec at ho
      rcases hm : mapGet ind.index h with _ | r0
      · rw [hm] at ho; cases ho
      · rw [hm] at this; cases this
  obtain ⟨q1, q2, q3, -, q5, q6⟩ := C31_forever hh hstop hstuck hsteps fl'
  exact ⟨q1, q2, q3, q5, q6⟩

/-- What `FileComplete` says comes from the progress that the file is shown with. -/
theorem complete_shown (hh : Healthy env d) (hreach : Reach env d dl (.running c fs)) {fl : List Fault} {v : Bool} {s' : St} (hrun : fileComplete h ⟨c, fs, fl⟩ = (.ok v, s')) :
    ∃ e, observe c fs h = .ok e ∧ e.progress.full = .ok v := by
  obtain ⟨ind, rfl, hw⟩ := (hreach.inv hh.abs hh.utf8).split
  obtain ⟨-, e, g1, g2⟩ := ((ro_complete (dl := dl) (fs0 := fs) hw.ownGet h) ⟨_, fs, fl⟩ (RO.init d dl ind fs)).1 _ _ hrun
  exact ⟨e, by rw [observe_eq]; exact g1, g2⟩

/-- C119: if whole words are left but not all of them, then asking whether the file is complete cannot be answered if no chunk is missing among those that are left, and is answered with no
otherwise.  In any state in which the file is shown as it was after the start. -/
theorem C119_complete (hh : Healthy env d) (hclean : CleanReach env d dl (.running c fs)) (ho : observe c fs h = .ok e) (hpath : ¬ CatFile d e.filePath) (hn : (n.toNat : Int) < e.progress.sizeOf)
    (hrun : saveChunk h n data ⟨c, fs, fl⟩ = (r, s')) (hr : ∀ x, r ≠ .ok x) {bytes : Bytes} (hb : s'.fs (progressPath d h) = some bytes)
    (h8 : 8 ≤ bytes.length) (hm : bytes.length % 8 = 0) (hshort : bytes.length < progressBytes e) (pid now : Int) {c' : Cat}
    (hinit : Cat.init { env with pid := pid, now := now } ⟨⟨d, dl, none⟩, s'.fs, []⟩ = (.ok (), ⟨c', s'.fs, []⟩))
    {c2 : Cat} {fs2 : FS} (hreach : Reach env d dl (.running c2 fs2)) (hsame : observe c2 fs2 h = observe c' s'.fs h) (fl2 : List Fault) :
    ((∀ m, m < 8 * (bytes.length - 8) → e.saved m ∨ m = n.toNat) → ∀ v s2, fileComplete h ⟨c2, fs2, fl2⟩ ≠ (.ok v, s2)) ∧
    ((∃ m, m < 8 * (bytes.length - 8) ∧ ¬ e.saved m ∧ m ≠ n.toNat) → ∀ v s2, fileComplete h ⟨c2, fs2, fl2⟩ = (.ok v, s2) → v = false) := by
  have hne := cut_differs hh hclean ho hb (by omega)
  obtain ⟨hidx, b, j, hw, hbs, hbm, rfl, hL⟩ := cut_bytes hh hclean ho hpath hn hrun hr hb hne
  have hl : (b.serialize.take j).length = min j (8 + 8 * b.data.length) := by rw [List.length_take, serialize_length]
  obtain ⟨c3, q1, q2, -⟩ := cut_restart hh hclean ho hidx hb pid now
  rw [hinit] at q1
  cases q1
  obtain ⟨-, -, w3⟩ := deserialize_cut b (by have := hw.size_nonneg; omega) hw.size_lt j
  rw [w3 (by omega) (by omega)] at q2
  have hk : (b.data.take ((j - 8) / 8)).length = (j - 8) / 8 := by rw [List.length_take]; omega
  have hlen := hw.len
  have hs63 := hw.size_lt
  obtain ⟨f1, f2⟩ := full_cut ⟨b.data.take ((j - 8) / 8), b.size⟩ hw.size_nonneg (by show (b.data.take ((j - 8) / 8)).length < _; rw [hk]; show _ < (b.size.toNat + 63) / 64; omega)
  replace f1 : (∀ i, i < 64 * (b.data.take ((j - 8) / 8)).length → _) → _ := f1
  replace f2 : (∃ i, i < 64 * (b.data.take ((j - 8) / 8)).length ∧ _) → _ := f2
  rw [hk] at f1 f2
  have hhas : ∀ m, m < 8 * ((b.serialize.take j).length - 8) → ((⟨b.data.take ((j - 8) / 8), b.size⟩ : Bitset).has m = true ↔ e.saved m ∨ m = n.toNat) := by
    intro m hm'
    rw [has_cut _ _ _ b.size, decide_eq_true (by omega), Bool.and_true]
    show b.has m = true ↔ _
    rw [hbm, Bool.or_eq_true, decide_eq_true_iff, Export.saved_iff _ _ (by omega)]
  constructor
  · intro hall v s2 hrun2
    obtain ⟨e2, g1, g2⟩ := complete_shown hh hreach hrun2
    rw [hsame, q2] at g1
    cases g1
    rw [f1 (fun i hi => (hhas i (by omega)).2 (hall i (by omega)))] at g2
    cases g2
  · rintro ⟨m, h1, h2, h3⟩ v s2 hrun2
    obtain ⟨e2, g1, g2⟩ := complete_shown hh hreach hrun2
    rw [hsame, q2] at g1
    cases g1
    rw [f2 ⟨m, by omega, by
      cases hx : (⟨b.data.take ((j - 8) / 8), b.size⟩ : Bitset).has m with
      | false => rfl
      | true => rcases (hhas m h1).1 hx with h | h
                · exact absurd h h2
                · exact absurd h h3⟩] at g2
    cases g2
    rfl

/-- C119: every number of bytes can be left behind, by a process that dies in the middle of the write. -/
theorem C119_every (hh : Healthy env d) (hclean : CleanReach env d dl (.running c fs)) (ho : observe c fs h = .ok e) (hpath : ¬ CatFile d e.filePath) (hn : (n.toNat : Int) < e.progress.sizeOf)
    (data : Bytes) (j : Nat) (hj : j ≤ progressBytes e) : ∃ fl s' bytes, saveChunk h n data ⟨c, fs, fl⟩ = (.crash, s') ∧ s'.fs (progressPath d h) = some bytes ∧ bytes.length = j := by
  obtain ⟨b, hw, hbs, hbm, k, -, -, hd⟩ := save_disk (data := data) hh hclean ho hpath hn
  obtain ⟨r, s', y, h1, rfl, h2⟩ := hd j []
  refine ⟨_, s', _, h1, by rw [h2, FS.put_same], ?_⟩
  have hL : b.serialize.length = progressBytes e := by rw [serialize_length, hw.len, hbs]; rfl
  rw [List.length_take, hL]
  omega

/-! ### Downloads of such a file -/

/-- A download that has not asked for a chunk. -/
def DLPos.Early : DLPos → Prop
  | .check => True
  | .setup _ => True
  | .refused => True
  | .test _ => True
  | _ => False

/-- A download of a file of which `FileComplete` cannot be answered does not get beyond asking it. -/
theorem early_step {t : Nat} {s s2 : DLState} (hst : DLStep env d (.thread t) s (.alive s2)) {th : DLThread} (ht : s.threads t = some th) (hp : th.pos.Early)
    (hno : ∀ fl v s', fileComplete th.hash ⟨s.cat, s.fs, fl⟩ ≠ (.ok v, s')) : ∃ th2, s2.threads t = some th2 ∧ th2.hash = th.hash ∧ th2.pos.Early := by
  have hself : ∀ th0, s.threads t = some th0 → th0 = th := fun th0 h0 => by rw [ht] at h0; exact (Option.some.inj h0).symm
  cases hst with
  | start _ h' _ ht' => rw [ht] at ht'; cases ht'
  | check _ _ th0 fl b s' ht' hp' hrun => obtain rfl := hself _ ht'; exact ⟨_, upd_self _ _ _, rfl, trivial⟩
  | setup _ _ th0 fl w b own s' ht' hp' hrun => obtain rfl := hself _ ht'; exact ⟨_, upd_self _ _ _, rfl, trivial⟩
  | refuse _ _ th0 fl w b e s' ht' hp' hrun => obtain rfl := hself _ ht'; exact ⟨_, upd_self _ _ _, rfl, trivial⟩
  | test _ _ th0 fl own v s' ht' hp' hrun => obtain rfl := hself _ ht'; exact absurd hrun (hno _ _ _)
  | want _ _ th0 fl own' r rest s' ht' hp' hrun => rw [hself _ ht'] at hp'; rw [hp'] at hp; cases hp
  | search _ _ th0 own c rs ht' hp' => rw [hself _ ht'] at hp'; rw [hp'] at hp; cases hp
  | again _ _ th0 own c ht' hp' => rw [hself _ ht'] at hp'; rw [hp'] at hp; cases hp
  | skip _ _ th0 own c r todo ht' hp' hl hk => rw [hself _ ht'] at hp'; rw [hp'] at hp; cases hp
  | dial _ _ th0 own c r todo ht' hp' hl hk => rw [hself _ ht'] at hp'; rw [hp'] at hp; cases hp
  | fetched _ _ th0 fl own c r todo queue ok s' ht' hp' hsafe hrun => rw [hself _ ht'] at hp'; rw [hp'] at hp; cases hp
  | gaveUp _ _ th0 fl own c r todo queue s' ht' hp' hrun => rw [hself _ ht'] at hp'; rw [hp'] at hp; cases hp

/-- C119: if whole words are left but not all of them and no chunk is missing among those, then in the daemon that is started afterwards no download of the file gets as far as asking for a chunk,
whatever else the daemon does, as long as nobody saves a chunk of the file or forgets it, and each one that has set itself up ends the daemon with its next step. -/
theorem C119_get (hh : Healthy env d) (hclean : CleanReach env d dl (.running c fs)) (ho : observe c fs h = .ok e) (hpath : ¬ CatFile d e.filePath) (hn : (n.toNat : Int) < e.progress.sizeOf)
    (hrun : saveChunk h n data ⟨c, fs, fl⟩ = (r, s')) (hr : ∀ x, r ≠ .ok x) {bytes : Bytes} (hb : s'.fs (progressPath d h) = some bytes)
    (h8 : 8 ≤ bytes.length) (hm : bytes.length % 8 = 0) (hshort : bytes.length < progressBytes e) (hall : ∀ m, m < 8 * (bytes.length - 8) → e.saved m ∨ m = n.toNat) (pid now : Int) {s0 : DLState}
    (hinit : Cat.init { env with pid := pid, now := now } ⟨⟨d, dl, none⟩, s'.fs, []⟩ = (.ok (), ⟨s0.cat, s'.fs, []⟩)) (hfs : s0.fs = s'.fs) (hnone : ∀ t, s0.threads t = none)
    {s : DLState} (hruns : DLRun env d (fun a _ => ∀ o, a = .call o → ¬ o.Touches h) s0 (.alive s)) :
    observe s.cat s.fs h = observe s0.cat s0.fs h ∧ (∀ t th, s.threads t = some th → th.hash = h → th.pos.Early) ∧
      ∀ t th own x, s.threads t = some th → th.hash = h → th.pos = .test own → DLStep env d (.thread t) s x → x = .dead (.catalogue t) := by
  have hne := cut_differs hh hclean ho hb (by omega)
  have hsafe : (Op.save h n data).Safe d c := by
    intro q hq
    rw [observe_path hh hclean.reach h e ho] at hq
    cases hq
    exact hpath
  have hreach0 : Reach env d dl (.running s0.cat s0.fs) := by
    obtain ⟨fs0, k1, k2⟩ := save_stops hclean.reach hsafe hrun
    refine ⟨fs0, k1, .step k2 ?_⟩
    have := Step.start (env := env) (d := d) (dl := dl) pid now [] s'.fs
    rw [hinit] at this
    rw [hfs]
    exact this
  have hno : ∀ s1 : DLState, Reach env d dl (.running s1.cat s1.fs) → observe s1.cat s1.fs h = observe s0.cat s0.fs h → ∀ fl v s2, fileComplete h ⟨s1.cat, s1.fs, fl⟩ ≠ (.ok v, s2) := by
    intro s1 i1 i2 fl2
    exact (C119_complete hh hclean ho hpath hn hrun hr hb h8 hm hshort pid now hinit i1 (by rw [i2, hfs]) fl2).1 hall
  have hshown : observe s0.cat s0.fs h ≠ .err .fileNotFound := by
    obtain ⟨hidx, b, j, hw, -, -, rfl, -⟩ := cut_bytes hh hclean ho hpath hn hrun hr hb hne
    have hl : (b.serialize.take j).length = min j (8 + 8 * b.data.length) := by rw [List.length_take, serialize_length]
    obtain ⟨c3, q1, q2, -⟩ := cut_restart hh hclean ho hidx hb pid now
    rw [hinit] at q1
    cases q1
    obtain ⟨-, -, w3⟩ := deserialize_cut b (by have := hw.size_nonneg; omega) hw.size_lt j
    rw [hfs, q2, w3 (by omega) (by omega)]
    intro hx; cases hx
  have key : ∀ x, DLRun env d (fun a _ => ∀ o, a = .call o → ¬ o.Touches h) s0 x → ∀ s, x = .alive s →
      Reach env d dl (.running s.cat s.fs) ∧ observe s.cat s.fs h = observe s0.cat s0.fs h ∧ ∀ t th, s.threads t = some th → th.hash = h → th.pos.Early := by
    intro x hx
    induction hx with
    | refl => intro s hs; cases hs; exact ⟨hreach0, rfl, fun t th ht => by rw [hnone] at ht; cases ht⟩
    | @step s1 x a _ hst hok ih =>
      rintro s rfl
      obtain ⟨i1, i2, i3⟩ := ih s1 rfl
      refine ⟨hst.reach i1, ?_, ?_⟩
      · have hnf : observe s1.cat s1.fs h ≠ .err .fileNotFound := by rw [i2]; exact hshown
        rcases hst.effect.1 with ⟨h1, h2⟩ | ⟨p, x, rfl, hp, h1, h2⟩ | ⟨o, fl, r, st', h1, h2, h3, h4, h5, h6⟩
        · rw [h1, h2]; exact i2
        · rw [h1, h2, observe_user hh i1 p x hp h]; exact i2
        · rw [h4, h5]
          have key : ¬ o.Touches h → observe st'.cat st'.fs h = observe s0.cat s0.fs h := fun g1 => by rw [observe_other hh i1 h hnf o h1 g1 fl r st' h2, i2]
          rcases h6 with rfl | ⟨t, th, rfl, ht, -, h6⟩
          · exact key (hok o rfl)
          · rcases h6 with h6 | ⟨n, b, rfl, -, own, host, todo, hpos⟩
            · exact key (h6 h)
            · refine key fun (hx : th.hash = h) => ?_
              have := i3 t th ht hx
              rw [hpos] at this
              exact this
      · intro t th ht hth
        by_cases ha : a = .thread t
        · subst ha
          rcases ht1 : s1.threads t with _ | th1
          · cases hst with
            | start _ h' _ ht' =>
              cases (upd_self s1.threads t _).symm.trans ht
              trivial
            | _ => simp_all
          · have hh1 : th1.hash = h := by
              obtain ⟨th2, g1, g2, -⟩ := hst.remembers ht1
              rw [ht] at g1
              cases g1
              rw [← g2]; exact hth
            obtain ⟨th2, g1, g2, g3⟩ := early_step hst ht1 (i3 t th1 ht1 hh1) (by rw [hh1]; exact hno s1 i1 i2)
            rw [ht] at g1
            cases g1
            exact g3
        · rw [hst.effect.2 t ha] at ht
          exact i3 t th ht hth
  obtain ⟨i1, i2, i3⟩ := key _ hruns s rfl
  refine ⟨i2, i3, ?_⟩
  intro t th own x ht hth hpos hst
  have hself : ∀ th0, s.threads t = some th0 → th0 = th := fun th0 h0 => by rw [ht] at h0; exact (Option.some.inj h0).symm
  cases hst with
  | testDies => rfl
  | test _ _ th0 fl own v s' ht' hp' hrun => obtain rfl := hself _ ht'; rw [hth] at hrun; exact absurd hrun (hno s i1 i2 _ _ _)
  | _ => simp_all

/-- C119: and a `get` of the file does end it, as soon as some host is found. -/
theorem C119_dies (hh : Healthy env d) (hclean : CleanReach env d dl (.running c fs)) (ho : observe c fs h = .ok e) (hpath : ¬ CatFile d e.filePath) (hn : (n.toNat : Int) < e.progress.sizeOf)
    (hrun : saveChunk h n data ⟨c, fs, fl⟩ = (r, s')) (hr : ∀ x, r ≠ .ok x) {bytes : Bytes} (hb : s'.fs (progressPath d h) = some bytes)
    (h8 : 8 ≤ bytes.length) (hm : bytes.length % 8 = 0) (hshort : bytes.length < progressBytes e) (hall : ∀ m, m < 8 * (bytes.length - 8) → e.saved m ∨ m = n.toNat) (pid now : Int) {c' : Cat}
    (hinit : Cat.init { env with pid := pid, now := now } ⟨⟨d, dl, none⟩, s'.fs, []⟩ = (.ok (), ⟨c', s'.fs, []⟩))
    (w : DLWire) (own : ByteArr 4) (rs : List HostResp) (peer : HostResp) (rest : List HostResp) (hown : ownAddress w.addrs = .ok own) (hrs : w.responses = some rs)
    (hg : goodHosts own rs = peer :: rest) (t : Nat) :
    DLRun env d (fun a _ => a = .thread t) (justStarted c' s'.fs) (.dead (.catalogue t)) := by
  have hne := cut_differs hh hclean ho hb (by omega)
  obtain ⟨e', ho'⟩ : ∃ e', observe c' s'.fs h = .ok e' := by
    obtain ⟨hidx, b, j, hw, -, -, rfl, -⟩ := cut_bytes hh hclean ho hpath hn hrun hr hb hne
    have hl : (b.serialize.take j).length = min j (8 + 8 * b.data.length) := by rw [List.length_take, serialize_length]
    obtain ⟨c3, q1, q2, -⟩ := cut_restart hh hclean ho hidx hb pid now
    rw [hinit] at q1
    cases q1
    obtain ⟨-, -, w3⟩ := deserialize_cut b (by have := hw.size_nonneg; omega) hw.size_lt j
    rw [q2, w3 (by omega) (by omega)]
    exact ⟨_, rfl⟩
  have hcheck : startCheck h ⟨c', s'.fs, []⟩ = (.ok true, (contains h ⟨c', s'.fs, []⟩).2) := by
    unfold startCheck
    rw [IOM.bind_apply]
    unfold IOM.attempt
    rw [show contains h ⟨c', s'.fs, []⟩ = (.ok e', (contains h ⟨c', s'.fs, []⟩).2) from Prod.ext ho' rfl]
    rfl
  generalize (contains h ⟨c', s'.fs, []⟩).2 = s1 at hcheck
  have hsetup : startSetup env w h true s1 = (.ok own, s1) := by
    unfold startSetup
    rw [IOM.bind_apply, IOM.lift_apply, hown]
    rcases w with ⟨addrs, rs', desc⟩
    simp only [] at hrs ⊢
    subst hrs
    simp only [hg]
    rfl
  have r1 : DLRun env d (fun a _ => a = .thread t) (justStarted c' s'.fs) (.alive { justStarted c' s'.fs with threads := upd (fun _ => none) t (some ⟨h, .check, []⟩) }) :=
    .step (.thread t) .refl (DLStep.start t h _ rfl) rfl
  have r2 := DLRun.step (.thread t) r1 (DLStep.check t _ ⟨h, .check, []⟩ [] true s1 (upd_self (fun _ => none) t _) rfl hcheck) rfl
  obtain ⟨cat1, fs1, fl1⟩ := s1
  have r3 := DLRun.step (.thread t) r2 (DLStep.setup t _ ⟨h, .setup true, []⟩ fl1 w true own ⟨cat1, fs1, fl1⟩ (upd_self (upd (fun _ => none) t _) t _) rfl hsetup) rfl
  refine DLRun.step (.thread t) r3 (DLStep.testDies t _ ⟨h, .test own, []⟩ [] own (upd_self _ _ _) rfl ?_) rfl
  intro v hv
  have hget := C119_get hh hclean ho hpath hn hrun hr hb h8 hm hshort hall pid now (s0 := justStarted c' s'.fs) hinit rfl (fun _ => rfl) (r3.mono (fun a _ ha o hx => by rw [ha] at hx; cases hx))
  have := hget.2.2 t ⟨h, .test own, []⟩ own _ (upd_self _ _ _) rfl rfl (DLStep.test t _ ⟨h, .test own, []⟩ [] own v _ (upd_self _ _ _) rfl (Prod.ext hv rfl))
  cases this

/-! ### A download that goes on after words were lost -/

/-- How many words the progress has after a chunk was saved. -/
theorem saveChunk_words (hh : Healthy env d) (hreach : Reach env d dl (.running c fs)) {fl : List Fault} {s' : St} (hrun : saveChunk h n data ⟨c, fs, fl⟩ = (.ok (), s')) {e' : Export}
    (ho : observe c fs h = .ok e) (ho' : observe s'.cat s'.fs h = .ok e') : e'.progress.data.length = max e.progress.data.length (n.toNat / 64 + 1) := by
  have hI : Inv env d dl c fs := hreach.inv hh.abs hh.utf8
  obtain ⟨ind, rfl, hw⟩ := hI.split
  have hn16 := n.toNat_lt
  rw [observe_eq] at ho
  obtain ⟨r0, p, hm, hv, rfl⟩ := obsRec_ok ho
  have hk : r0.sha1Hash = h := hw.ownGet _ _ hm
  obtain ⟨b, hb, -, hfs, m', hc, hmore⟩ := (t_saveChunk_full (d := d) (dl := dl) (fs0 := fs) hw.ownGet h n data r0 p hm hv ⟨_, fs, fl⟩ (RO.init d dl ind fs)).1 _ _ hrun
  obtain ⟨dd, e1, e2, -⟩ := Bitset.set_eq p.progress (BitVec.ofNat 64 n.toNat) (by simp only [BitVec.toNat_ofNat]; omega)
  rw [e1] at hb; cases hb
  have hnn : (BitVec.ofNat 64 n.toNat).toNat = n.toNat := by rw [BitVec.toNat_ofNat]; omega
  rw [hnn] at e2 hc
  rw [hc, observe_eq] at ho'
  unfold obsRec at ho'
  simp only at ho'
  subst hk
  rw [mapGet_put, if_pos rfl] at ho'
  cases ho'
  exact e2

/-- Of such a progress: there are words for fewer than `K` chunks, nothing else has been asked for, and the download is not at its end. -/
structure CutInv (K : Nat) (e : Export) (th : DLThread) : Prop where
  words : 64 * e.progress.data.length ≤ K
  rounds : ∀ q ∈ th.rounds, q.1.toNat < K
  want : ∀ own, th.pos = .want own → ∃ i, i < K ∧ ¬ e.saved i
  going : th.pos ≠ .finished

theorem CutInv.step (hh : Healthy env d) {t : Nat} {e0 : Export} {s s2 : DLState} {th : DLThread} {a : Actor} {K : Nat} (hK : K % 64 = 0) (hKs : (K : Int) < e0.progress.sizeOf)
    (hreach : Reach env d dl (.running s.cat s.fs)) (hsize : e0.progress.sizeOf ≤ 65536) (honly : Only h t s) (hI : DLInv h t e0 s e th) (hC : CutInv K e th)
    (hcall : ∀ o, a = .call o → ¬ o.Touches h) (hst : DLStep env d a s (.alive s2)) {e' : Export} {th' : DLThread} (hI' : DLInv h t e0 s2 e' th') : CutInv K e' th' := by
  have hne : observe s.cat s.fs h ≠ .err .fileNotFound := by rw [hI.obs]; intro hx; cases hx
  have hrw : ∀ {s2 : DLState} {e2 th2}, DLInv h t e0 s2 e' th' → observe s2.cat s2.fs h = .ok e2 → s2.threads t = some th2 → e' = e2 ∧ th' = th2 := by
    intro s2 e2 th2 hI' h1 h2
    have h3 := hI'.obs; have h4 := hI'.thread
    rw [h1] at h3; rw [h2] at h4
    cases h3; cases h4
    exact ⟨rfl, rfl⟩
  by_cases hat : a = .thread t
  rotate_left
  · have hobs : observe s2.cat s2.fs h = observe s.cat s.fs h := by
      refine hst.elsewhere hh hreach h hne hcall ?_
      rintro t' th' rfl ht' hb hk
      exact hat (by rw [honly t' th' ht' hk hb])
    obtain ⟨rfl, rfl⟩ := hrw hI' (hobs.trans hI.obs) ((hst.effect.2 t hat).trans hI.thread)
    exact hC
  subst hat
  have hhere := hI.here
  have hthr := hI.thread
  have hself : ∀ th0, s.threads t = some th0 → th0 = th := fun th0 h0 => by rw [hthr] at h0; exact (Option.some.inj h0).symm
  have hwords := hC.words
  cases hst with
  | start _ h' _ ht => rw [hthr] at ht; cases ht
  | check _ _ th0 fl b s' ht hp hrun => rw [hself _ ht] at hp; rw [hp] at hhere; cases hhere
  | setup _ _ th0 fl w b own s' ht hp hrun => rw [hself _ ht] at hp; rw [hp] at hhere; cases hhere
  | refuse _ _ th0 fl w b e s' ht hp hrun => rw [hself _ ht] at hp; rw [hp] at hhere; cases hhere
  | test _ _ th0 fl own v s' ht hp hrun =>
    obtain rfl := hself _ ht
    rw [hI.hash] at hrun
    obtain ⟨-, -, -, -, h4⟩ := C34_complete hh hreach h fl v s' hrun
    obtain ⟨rfl, rfl⟩ := hrw hI' ((h4 h).trans hI.obs) (upd_self _ _ _)
    obtain ⟨e2, g1, g2⟩ := complete_shown hh hreach hrun
    rw [hI.obs] at g1; cases g1
    have hsz : e'.progress.size = e0.progress.sizeOf := hI.size
    obtain ⟨f1, f2⟩ := full_cut e'.progress (by omega) (by omega)
    by_cases hall : ∀ i, i < 64 * e'.progress.data.length → e'.progress.has i = true
    · rw [f1 hall] at g2; cases g2
    · obtain ⟨i, hi⟩ := Classical.not_forall.1 hall
      obtain ⟨hi1, hi2⟩ := Classical.not_imp.1 hi
      rw [f2 ⟨i, hi1, by cases hx : e'.progress.has i with | false => rfl | true => exact absurd hx hi2⟩] at g2
      cases g2
      refine ⟨hwords, hC.rounds, fun _ _ => ⟨i, by omega, ?_⟩, fun hx => by cases hx⟩
      rw [Export.saved_iff _ _ (by omega)]
      exact hi2
  | want _ _ th0 fl own r rest s' ht hp hrun =>
    obtain rfl := hself _ ht
    rw [hI.hash] at hrun
    obtain ⟨e1, h1, -, h3, h4⟩ := C34_missing hh hreach h fl _ s' hrun
    rw [hI.obs] at h1; cases h1
    obtain ⟨-, -, h6⟩ := h4 (by rw [hI.size]; exact hsize)
    obtain ⟨-, h8⟩ := h6 r rest rfl
    obtain ⟨rfl, rfl⟩ := hrw hI' ((h3 h).trans hI.obs) (upd_self _ _ _)
    refine ⟨hwords, ?_, (fun _ hx => by cases hx), fun hx => by cases hx⟩
    intro q hq
    rcases List.mem_cons.1 hq with rfl | hq
    · obtain ⟨i, hi, hs⟩ := hC.want own hp
      show r.start.toNat < K
      rcases Nat.lt_or_ge i r.start.toNat with hl | hl
      · exact absurd (h8 i hl) hs
      · omega
    · exact hC.rounds q hq
  | search _ _ th0 own c rs ht hp =>
    obtain rfl := hself _ ht
    obtain ⟨rfl, rfl⟩ := hrw hI' hI.obs (upd_self _ _ _)
    exact ⟨hwords, hC.rounds, (fun _ hx => by cases hx), fun hx => by cases hx⟩
  | again _ _ th0 own c ht hp =>
    obtain rfl := hself _ ht
    obtain ⟨rfl, rfl⟩ := hrw hI' hI.obs (upd_self _ _ _)
    exact ⟨hwords, hC.rounds, (fun _ hx => by cases hx), fun hx => by cases hx⟩
  | skip _ _ th0 own c r todo ht hp hl hk =>
    obtain rfl := hself _ ht
    obtain ⟨rfl, rfl⟩ := hrw hI' hI.obs (upd_self _ _ _)
    exact ⟨hwords, hC.rounds, (fun _ hx => by cases hx), fun hx => by cases hx⟩
  | dial _ _ th0 own c r todo ht hp hl hk =>
    obtain rfl := hself _ ht
    obtain ⟨rfl, rfl⟩ := hrw hI' hI.obs (upd_self _ _ _)
    exact ⟨hwords, hC.rounds, (fun _ hx => by cases hx), fun hx => by cases hx⟩
  | gaveUp _ _ th0 fl own c r todo queue s' ht hp hrun =>
    obtain rfl := hself _ ht
    have hsame : s'.cat = s.cat ∧ s'.fs = s.fs := by
      rw [downloadChunk_eq] at hrun
      rcases hr : recvLoop env.sha1 .fresh queue with ⟨x, out⟩ | e | _ | _ | _
      · rw [hr] at hrun
        rcases out with c | _ | ⟨b, ok⟩
        · cases hrun
        · cases hrun; exact ⟨rfl, rfl⟩
        · obtain ⟨_, s1, h1, h2⟩ := (IOM.bind_ok_iff _ _ _ _ _).1 hrun
          cases h2
      all_goals (rw [hr] at hrun; cases hrun)
    obtain ⟨rfl, rfl⟩ := hrw hI' (by show observe s'.cat s'.fs h = _; rw [hsame.1, hsame.2]; exact hI.obs) (upd_self _ _ _)
    exact ⟨hwords, hC.rounds, (fun _ hx => by cases hx), fun hx => by cases hx⟩
  | fetched _ _ th0 fl own c r todo queue ok s' ht hp hsafe hrun =>
    obtain rfl := hself _ ht
    rw [hp] at hhere
    obtain ⟨b0, rest, hrounds⟩ := hhere
    obtain ⟨acks, b, h1, h2⟩ := downloadChunk_saved env _ _ _ _ _ _ hrun
    rw [hI.hash] at h2
    have hc := hC.rounds (c, b0) (by rw [hrounds]; exact List.mem_cons_self)
    simp only [] at hc
    have ho' : observe s'.cat s'.fs h = .ok e' := hI'.obs
    have hlen := saveChunk_words hh hreach h2 hI.obs ho'
    obtain ⟨-, rfl⟩ := hrw hI' ho' (upd_self _ _ _)
    refine ⟨by rw [hlen]; omega, ?_, (fun _ hx => by cases hx), fun hx => by cases hx⟩
    intro q hq
    replace hq : q ∈ delivered th0.rounds := hq
    rw [hrounds] at hq
    rcases List.mem_cons.1 hq with rfl | hq
    · exact hc
    · exact hC.rounds q (by rw [hrounds]; exact List.mem_cons_of_mem _ hq)

/-- C119: if whole words are left but not all of them, a download of the file that is the only one of it never gets to its end, and never has a chunk of those whose words were lost. -/
theorem C119_never (hh : Healthy env d) (hclean : CleanReach env d dl (.running c fs)) (ho : observe c fs h = .ok e) (hpath : ¬ CatFile d e.filePath) (hn : (n.toNat : Int) < e.progress.sizeOf)
    (hrun : saveChunk h n data ⟨c, fs, fl⟩ = (r, s')) (hr : ∀ x, r ≠ .ok x) {bytes : Bytes} (hb : s'.fs (progressPath d h) = some bytes)
    (h8 : 8 ≤ bytes.length) (hm : bytes.length % 8 = 0) (hshort : bytes.length < progressBytes e) (hsize : e.progress.sizeOf ≤ 65536) (pid now : Int) {s0 : DLState}
    {c' : Cat} (hinit : Cat.init { env with pid := pid, now := now } ⟨⟨d, dl, none⟩, s'.fs, []⟩ = (.ok (), ⟨c', s'.fs, []⟩)) (hfs : s0.fs = s'.fs)
    (hobs0 : observe s0.cat s'.fs h = observe c' s'.fs h) (hreach0 : Reach env d dl (.running s0.cat s0.fs)) {t : Nat} {own : ByteArr 4} (ht : s0.threads t = some ⟨h, .test own, []⟩) (honly : Only h t s0)
    {s : DLState} (hruns : DLRun env d (Alone h t) s0 (.alive s)) :
    ∃ e2 th, observe s.cat s.fs h = .ok e2 ∧ s.threads t = some th ∧ th.pos ≠ .finished ∧ ∀ m, 8 * (bytes.length - 8) ≤ m → m < 2 ^ 63 → ¬ e2.saved m := by
  have hne := cut_differs hh hclean ho hb (by omega)
  obtain ⟨hidx, b, j, hw, hbs, hbm, rfl, hL⟩ := cut_bytes hh hclean ho hpath hn hrun hr hb hne
  have hl : (b.serialize.take j).length = min j (8 + 8 * b.data.length) := by rw [List.length_take, serialize_length]
  obtain ⟨c3, q1, q2, -⟩ := cut_restart hh hclean ho hidx hb pid now
  rw [hinit] at q1
  cases q1
  obtain ⟨-, -, w3⟩ := deserialize_cut b (by have := hw.size_nonneg; omega) hw.size_lt j
  rw [w3 (by omega) (by omega)] at q2
  have hk : (b.data.take ((j - 8) / 8)).length = (j - 8) / 8 := by rw [List.length_take]; omega
  have hlen := hw.len
  have hs63 := hw.size_lt
  replace q2 : observe c' s'.fs h = .ok ⟨env.json.fix e.filePath, e.sizeInBytes, e.sha1Hash, ⟨b.data.take ((j - 8) / 8), b.size⟩, e.chunkSize⟩ := q2
  generalize he0 : (⟨env.json.fix e.filePath, e.sizeInBytes, e.sha1Hash, ⟨b.data.take ((j - 8) / 8), b.size⟩, e.chunkSize⟩ : Export) = e0 at q2
  replace q2 : observe s0.cat s0.fs h = .ok e0 := by rw [hfs, hobs0]; exact q2
  have hw0 : e0.progress.data.length = (j - 8) / 8 := by rw [← he0]; exact hk
  have hsz0 : e0.progress.sizeOf = e.progress.sizeOf := by rw [← he0]; exact hbs
  have hI0 : DLInv h t e0 s0 e0 ⟨h, .test own, []⟩ :=
    ⟨q2, ht, rfl, rfl, rfl, fun i _ => (by simp [gotten]), fun _ hr => (by cases hr), List.Pairwise.nil, trivial⟩
  have hbs' : b.size = e.progress.sizeOf := hbs
  have hKs : ((8 * ((b.serialize.take j).length - 8) : Nat) : Int) < e0.progress.sizeOf := by rw [hsz0]; omega
  have hC0 : CutInv (8 * ((b.serialize.take j).length - 8)) e0 ⟨h, .test own, []⟩ :=
    ⟨by rw [hw0]; omega, (fun _ hq => by cases hq), (fun _ hx => by cases hx), fun hx => by cases hx⟩
  have key : ∀ x, DLRun env d (Alone h t) s0 x → ∀ s, x = .alive s → Reach env d dl (.running s.cat s.fs) ∧ ∃ e2 th, DLInv h t e0 s e2 th ∧ CutInv (8 * ((b.serialize.take j).length - 8)) e2 th := by
    intro x hx
    induction hx with
    | refl => intro s hs; cases hs; exact ⟨hreach0, e0, _, hI0, hC0⟩
    | @step s1 x a hr1 hst hok ih =>
      rintro s rfl
      obtain ⟨i1, e1, th1, i2, i3⟩ := ih s1 rfl
      obtain ⟨e2, th2, i4⟩ := i2.step hh i1 (by omega) (hr1.only honly) hok.1 hst
      exact ⟨hst.reach i1, e2, th2, i4, i3.step hh (by omega) hKs i1 (by omega) (hr1.only honly) i2 hok.1 hst i4⟩
  obtain ⟨i1, e2, th, i2, i3⟩ := key _ hruns s rfl
  refine ⟨e2, th, i2.obs, i2.thread, i3.going, ?_⟩
  intro m hm1 hm2 hsaved
  rw [Export.saved_iff _ _ hm2] at hsaved
  have hwords := i3.words
  unfold Bitset.has at hsaved
  rw [List.getElem?_eq_none (by omega)] at hsaved
  simp at hsaved

/-! ### Cases -/

/-- The state of `ex_download` when its download has been registered. -/
theorem ex_uncut (sha1 : Bytes → Sha1Hash) (json : JsonCodec) (h : Sha1Hash) : ∃ c fs e, CleanReach (exEnv sha1 json) exDir exDown (.running c fs) ∧ observe c fs h = .ok e ∧
    ¬ CatFile exDir e.filePath ∧ e.progress.sizeOf = 3 := by
  obtain ⟨c, fs, e, s1, s2, s3, h0, h1, -⟩ := ex_download sha1 json h
  obtain ⟨g1, g2, -⟩ := C33_start (ex_healthy sha1 json) h0.reach [10, 20, 30, 40, 50] 2 h [120] [] e s1 (by decide) (by decide) ex_not_catFile2 h1
  have hreach1 := CleanReach.call (.register 5 2 h [120]) _ _ (.ok ()) s1 h0 trivial (CM.void_ok _ _ _ _ h1) rfl
  obtain ⟨-, ⟨b, k1, k2, k3, k5, k4⟩, -, h5⟩ := C29_register (ex_healthy sha1 json) h0.reach _ 2 h [120] [] e s1 (by decide) (by decide) h1
  refine ⟨s1.cat, s1.fs, e, hreach1, g2, by rw [g1]; exact ex_not_catFile2, ?_⟩
  rw [k1]; exact k3

/-- `C119_cut`, `C119_complete`, `C119_get`, `C119_dies`: of the sixteen bytes of the progress of three chunks, eight are left. -/
example (sha1 : Bytes → Sha1Hash) (json : JsonCodec) (h : Sha1Hash) : ∃ c fs e fl r s' bytes c', CleanReach (exEnv sha1 json) exDir exDown (.running c fs) ∧ observe c fs h = .ok e ∧
    ¬ CatFile exDir e.filePath ∧ ((2 : UInt16).toNat : Int) < e.progress.sizeOf ∧ saveChunk h 2 [50] ⟨c, fs, fl⟩ = (r, s') ∧ (∀ x, r ≠ .ok x) ∧ s'.fs (progressPath exDir h) = some bytes ∧
    8 ≤ bytes.length ∧ bytes.length % 8 = 0 ∧ bytes.length < progressBytes e ∧ (∀ m, m < 8 * (bytes.length - 8) → e.saved m ∨ m = (2 : UInt16).toNat) ∧
    Cat.init { exEnv sha1 json with pid := 1, now := 2 } ⟨⟨exDir, exDown, none⟩, s'.fs, []⟩ = (.ok (), ⟨c', s'.fs, []⟩) := by
  obtain ⟨c, fs, e, h1, h2, h3, h4⟩ := ex_uncut sha1 json h
  have hn : ((2 : UInt16).toNat : Int) < e.progress.sizeOf := by rw [h4]; decide
  have hp : progressBytes e = 16 := by unfold progressBytes; rw [h4]; rfl
  obtain ⟨fl, s', bytes, g1, g2, g3⟩ := C119_every (ex_healthy sha1 json) h1 h2 h3 hn [50] 8 (by omega)
  have hr : ∀ x, (Res.crash : Res Unit) ≠ .ok x := fun x hx => by cases hx
  obtain ⟨c', g4, -⟩ := cut_restart (ex_healthy sha1 json) h1 h2 (cut_bytes (ex_healthy sha1 json) h1 h2 h3 hn g1 hr g2 (cut_differs (ex_healthy sha1 json) h1 h2 g2 (by omega))).1 g2 1 2
  exact ⟨c, fs, e, fl, _, s', bytes, c', h1, h2, h3, hn, g1, hr, g2, by omega, by omega, by omega, fun m hm => by omega, g4⟩

/-- `C119_stuck`: three are left, or nine. -/
example (sha1 : Bytes → Sha1Hash) (json : JsonCodec) (h : Sha1Hash) (j : Nat) (hj : j = 3 ∨ j = 9) : ∃ c fs e fl r s' bytes c' fs', CleanReach (exEnv sha1 json) exDir exDown (.running c fs) ∧
    observe c fs h = .ok e ∧ ¬ CatFile exDir e.filePath ∧ ((2 : UInt16).toNat : Int) < e.progress.sizeOf ∧ saveChunk h 2 [50] ⟨c, fs, fl⟩ = (r, s') ∧ (∀ x, r ≠ .ok x) ∧
    s'.fs (progressPath exDir h) = some bytes ∧ (bytes.length < 8 ∨ bytes.length % 8 ≠ 0) ∧ Steps (exEnv sha1 json) exDir exDown (.stopped s'.fs) (.running c' fs') := by
  obtain ⟨c, fs, e, h1, h2, h3, h4⟩ := ex_uncut sha1 json h
  have hn : ((2 : UInt16).toNat : Int) < e.progress.sizeOf := by rw [h4]; decide
  have hp : progressBytes e = 16 := by unfold progressBytes; rw [h4]; rfl
  obtain ⟨fl, s', bytes, g1, g2, g3⟩ := C119_every (ex_healthy sha1 json) h1 h2 h3 hn [50] j (by omega)
  have hr : ∀ x, (Res.crash : Res Unit) ≠ .ok x := fun x hx => by cases hx
  obtain ⟨c', g4, -⟩ := cut_restart (ex_healthy sha1 json) h1 h2 (cut_bytes (ex_healthy sha1 json) h1 h2 h3 hn g1 hr g2 (cut_differs (ex_healthy sha1 json) h1 h2 g2 (by omega))).1 g2 1 2
  refine ⟨c, fs, e, fl, _, s', bytes, c', s'.fs, h1, h2, h3, hn, g1, hr, g2, by omega, .step (.refl _) ?_⟩
  have := Step.start (env := exEnv sha1 json) (d := exDir) (dl := exDown) 1 2 [] s'.fs
  rw [g4] at this
  exact this

/-- `C119_never`: of the progress of a hundred chunks, none of which is there, one word of two is left, and the file is being downloaded. -/
example (sha1 : Bytes → Sha1Hash) (json : JsonCodec) (h : Sha1Hash) : ∃ c fs e fl r s' bytes c', ∃ s0 : DLState, CleanReach (exEnv sha1 json) exDir exDown (.running c fs) ∧ observe c fs h = .ok e ∧
    ¬ CatFile exDir e.filePath ∧ ((7 : UInt16).toNat : Int) < e.progress.sizeOf ∧ saveChunk h 7 [1, 2] ⟨c, fs, fl⟩ = (r, s') ∧ (∀ x, r ≠ .ok x) ∧ s'.fs (progressPath exDir h) = some bytes ∧
    8 ≤ bytes.length ∧ bytes.length % 8 = 0 ∧ bytes.length < progressBytes e ∧ e.progress.sizeOf ≤ 65536 ∧
    Cat.init { exEnv sha1 json with pid := 1, now := 2 } ⟨⟨exDir, exDown, none⟩, s'.fs, []⟩ = (.ok (), ⟨c', s'.fs, []⟩) ∧ s0.fs = s'.fs ∧ s0.cat = c' ∧
    Reach (exEnv sha1 json) exDir exDown (.running s0.cat s0.fs) ∧ s0.threads 1 = some ⟨h, .test exOwn, []⟩ ∧ Only h 1 s0 := by
  have hh := ex_healthy sha1 json
  have h0 : CleanReach (exEnv sha1 json) exDir exDown (.running ⟨exDir, exDown, some (freshIdx (exEnv sha1 json) exDir)⟩ (exFS1 sha1 json)) :=
    CleanReach.fresh (exEnv sha1 json) exDir exDown hh.utf8 exFS ex_fs_clean
  obtain ⟨e, s1, h1⟩ := registerDownload_total (exEnv sha1 json) 200 2 h [120] exDir exDown (freshIdx (exEnv sha1 json) exDir) (exFS1 sha1 json) rfl (by decide) (by decide)
  have hreach1 := CleanReach.call (.register 200 2 h [120]) _ _ (.ok ()) s1 h0 trivial (CM.void_ok _ _ _ _ h1) rfl
  obtain ⟨-, ⟨b, k1, k2, k3, -⟩, -⟩ := C29_register hh h0.reach _ 2 h [120] [] e s1 (by decide) (by decide) h1
  have hsz : e.progress.sizeOf = 100 := by rw [k1]; exact k3
  have h3 : ¬ CatFile exDir e.filePath := by rw [k1]; exact ex_not_catFile2
  have hn : ((7 : UInt16).toNat : Int) < e.progress.sizeOf := by rw [hsz]; decide
  have hp : progressBytes e = 24 := by unfold progressBytes; rw [hsz]; rfl
  obtain ⟨fl, s', bytes, g1, g2, g3⟩ := C119_every hh hreach1 k2 h3 hn [1, 2] 16 (by omega)
  have hr : ∀ x, (Res.crash : Res Unit) ≠ .ok x := fun x hx => by cases hx
  obtain ⟨c', g4, -⟩ := cut_restart hh hreach1 k2 (cut_bytes hh hreach1 k2 h3 hn g1 hr g2 (cut_differs hh hreach1 k2 g2 (by omega))).1 g2 1 2
  refine ⟨s1.cat, s1.fs, e, fl, _, s', bytes, c', ⟨c', s'.fs, false, fun _ => false, fun t => if t = 1 then some ⟨h, .test exOwn, []⟩ else none⟩, hreach1, k2, h3, hn, g1, hr, g2, by omega, by omega,
    by omega, by omega, g4, rfl, rfl, ?_, rfl, ?_⟩
  · have hsafe : (Op.save h 7 [1, 2]).Safe exDir s1.cat := by
      intro q hq
      rw [observe_path hh hreach1.reach h e k2] at hq
      cases hq
      exact h3
    obtain ⟨fs0, k1, k2⟩ := save_stops hreach1.reach hsafe g1
    refine ⟨fs0, k1, .step k2 ?_⟩
    have := Step.start (env := exEnv sha1 json) (d := exDir) (dl := exDown) 1 2 [] s'.fs
    rw [g4] at this
    exact this
  · intro t th ht _ _
    simp only [] at ht
    split at ht
    · assumption
    · cases ht

end

end Flu
