import Verif.Props.Works
import Verif.Props.Unlocked
import Verif.Props.Json
/-!
# The index file depends only on what the catalogue knows (C117)
-/
namespace Flu
open Flu.Json Spec

/-! ### Byte-wise order of strings -/

theorem strLe_refl : ∀ a, strLe a a = true
  | [] => rfl
  | a :: as => by unfold strLe; rw [if_pos rfl]; exact strLe_refl as

theorem strLe_total : ∀ a b, (strLe a b || strLe b a) = true
  | [], _ => by simp [strLe]
  | _ :: _, [] => by simp [strLe]
  | a :: as, b :: bs => by
    unfold strLe
    by_cases h : a = b
    · subst h; rw [if_pos rfl, if_pos rfl]; exact strLe_total as bs
    · rw [if_neg h, if_neg (fun e => h e.symm)]
      simp only [Bool.or_eq_true, decide_eq_true_eq, UInt8.lt_iff_toNat_lt]
      have : a.toNat ≠ b.toNat := fun e => h (UInt8.toNat_inj.1 e)
      omega

theorem strLe_antisymm : ∀ a b, strLe a b = true → strLe b a = true → a = b
  | [], [], _, _ => rfl
  | [], _ :: _, _, h => by simp [strLe] at h
  | _ :: _, [], h, _ => by simp [strLe] at h
  | a :: as, b :: bs, h1, h2 => by
    unfold strLe at h1 h2
    by_cases h : a = b
    · subst h
      rw [if_pos rfl] at h1 h2
      rw [strLe_antisymm as bs h1 h2]
    · rw [if_neg h] at h1
      rw [if_neg (fun e => h e.symm)] at h2
      simp only [decide_eq_true_eq, UInt8.lt_iff_toNat_lt] at h1 h2
      omega

theorem strLe_trans : ∀ a b c, strLe a b = true → strLe b c = true → strLe a c = true
  | [], _, _, _, _ => rfl
  | _ :: _, [], _, h, _ => by simp [strLe] at h
  | _ :: _, _ :: _, [], _, h => by simp [strLe] at h
  | a :: as, b :: bs, c :: cs, h1, h2 => by
    unfold strLe at h1 h2 ⊢
    by_cases h : a = b
    · subst h
      rw [if_pos rfl] at h1
      by_cases h' : a = c
      · subst h'
        rw [if_pos rfl] at h2 ⊢
        exact strLe_trans as bs cs h1 h2
      · rw [if_neg h'] at h2 ⊢
        exact h2
    · rw [if_neg h] at h1
      simp only [decide_eq_true_eq, UInt8.lt_iff_toNat_lt] at h1
      by_cases h' : b = c
      · subst h'
        rw [if_neg h]
        simp only [decide_eq_true_eq, UInt8.lt_iff_toNat_lt]
        exact h1
      · rw [if_neg h'] at h2
        simp only [decide_eq_true_eq, UInt8.lt_iff_toNat_lt] at h2
        rw [if_neg (by rintro rfl; omega)]
        simp only [decide_eq_true_eq, UInt8.lt_iff_toNat_lt]
        omega

/-- A map is written in the same way whatever the order in which its entries are kept. -/
theorem sort_unique (l1 l2 : List (GoString × RecordJSON)) (hp : l1.Perm l2) (hn : (l1.map (·.1)).Nodup) :
    l1.mergeSort (fun a b => strLe a.1 b.1) = l2.mergeSort (fun a b => strLe a.1 b.1) := by
  have p1 := List.mergeSort_perm l1 (fun a b => strLe a.1 b.1)
  have p2 := List.mergeSort_perm l2 (fun a b => strLe a.1 b.1)
  have sorted : ∀ l : List (GoString × RecordJSON), (l.mergeSort (fun a b => strLe a.1 b.1)).Pairwise (fun a b => strLe a.1 b.1 = true) :=
    List.pairwise_mergeSort (fun a b c => strLe_trans a.1 b.1 c.1) (fun a b => strLe_total a.1 b.1)
  refine List.Perm.eq_of_pairwise (le := fun a b => strLe a.1 b.1 = true) ?_ (sorted l1) (sorted l2) (p1.trans (hp.trans p2.symm))
  intro a b ha hb h1 h2
  have e := strLe_antisymm _ _ h1 h2
  replace ha := p1.mem_iff.1 ha
  replace hb := hp.mem_iff.2 (p2.mem_iff.1 hb)
  rcases a with ⟨k, x⟩
  rcases b with ⟨k', y⟩
  obtain rfl : k = k' := e
  clear p1 p2 hp h1 h2 sorted
  induction l1 with
  | nil => cases ha
  | cons z l ih =>
    rw [List.map_cons, List.nodup_cons] at hn
    rcases List.mem_cons.1 ha with rfl | ha'
    · rcases List.mem_cons.1 hb with h | hb'
      · exact h.symm
      · exact absurd (List.mem_map.2 ⟨_, hb', rfl⟩) hn.1
    · rcases List.mem_cons.1 hb with rfl | hb'
      · exact absurd (List.mem_map.2 ⟨_, ha', rfl⟩) hn.1
      · exact ih hn.2 ha' hb'

/-! ### The specification -/

/-- The numbers with which the index file begins: the process that made it, and the time. -/
def Spec.Head (x : Bytes) : Prop :=
  ∃ pid time : Bytes, (∀ c ∈ pid, c = 45 ∨ 48 ≤ c ∧ c ≤ 57) ∧ (∀ c ∈ time, c = 45 ∨ 48 ≤ c ∧ c ≤ 57) ∧ x = ascii "{\"Pid\":" ++ pid ++ ascii ",\"LastTouched\":" ++ time

/-- Two catalogues know the same files, at the same places. -/
def Spec.SameFiles (c1 : Cat) (fs1 : FS) (c2 : Cat) (fs2 : FS) : Prop :=
  ∀ h, match observe c1 fs1 h, observe c2 fs2 h with
    | .ok e1, .ok e2 => e1.filePath = e2.filePath ∧ e1.sizeInBytes = e2.sizeInBytes ∧ e1.chunkSize = e2.chunkSize
    | .ok _, _ => False
    | _, .ok _ => False
    | _, _ => True

theorem encInt_numeral (i : Int) : ∀ c ∈ encInt i, c = 45 ∨ 48 ≤ c ∧ c ≤ 57 := by
  have hd : ∀ n, ∀ c ∈ decNat n, c = 45 ∨ 48 ≤ c ∧ c ≤ 57 := by
    intro n c hc
    have := decNat_digits n c hc
    unfold isDigit at this
    exact .inr (by simpa using this)
  intro c hc
  unfold encInt at hc
  split at hc
  · rcases List.mem_cons.1 hc with rfl | hc
    · exact .inl rfl
    · exact hd _ c hc
  · exact hd _ c hc

/-- What the index file holds after the numbers. -/
theorem encode_head (j : IndexJSON) : ∃ x, Head x ∧ encode j = x ++ (44 :: (encField "Index" (123 :: encEntries (j.index.mergeSort (fun a b => strLe a.1 b.1))) ++ 44 :: (encField "DataDir" (encStr j.dataDir) ++ [125]))) := by
  refine ⟨_, ⟨encInt j.pid, encInt j.lastTouched, encInt_numeral _, encInt_numeral _, rfl⟩, ?_⟩
  have e1 : ascii "{\"Pid\":" = 123 :: 34 :: (ascii "Pid" ++ [34, 58]) := by decide
  have e2 : ascii ",\"LastTouched\":" = 44 :: 34 :: (ascii "LastTouched" ++ [34, 58]) := by decide
  rw [e1, e2]
  unfold encode encField
  simp

section
variable {env : Env} {d dl : Path} {c1 c2 : Cat} {fs1 fs2 : FS}

/-- **C117**: the index file of a daemon is determined, apart from the numbers at its beginning, by the files that the catalogue knows. -/
theorem C117_same_file (hj : env.json = goJson) (hh : Healthy env d) (h1 : CleanReach env d dl (.running c1 fs1)) (h2 : CleanReach env d dl (.running c2 fs2))
    (hs : SameFiles c1 fs1 c2 fs2) (ha : ∀ h e, observe c1 fs1 h = .ok e → isAscii e.filePath) :
    ∃ x y rest, Head x ∧ Head y ∧ fs1 (indexPath d) = some (x ++ rest) ∧ fs2 (indexPath d) = some (y ++ rest) := by
  have onDisk : ∀ {c : Cat} {fs : FS}, CleanReach env d dl (.running c fs) → ∃ ind0, WFIdx d ind0 ∧ fs (indexPath d) = some (env.json.enc ind0.toJSON) ∧
      ∀ h, (∃ e r, observe c fs h = .ok e ∧ mapGet ind0.index h = some r ∧ env.json.fix r.filePath = env.json.fix e.filePath ∧ r.sizeInBytes = e.sizeInBytes ∧ r.chunkSize = e.chunkSize) ∨
        observe c fs h = .err .fileNotFound ∧ mapGet ind0.index h = none := by
    intro c fs hc
    have hI : Inv env d dl c fs := hc.reach.inv hh.abs hh.utf8
    obtain ⟨ind, rfl, hsync⟩ := hc.sync hh.abs hh.utf8
    obtain ⟨ind0, w, hf, hm⟩ := hsync.index
    refine ⟨ind0, w, hf, fun h => ?_⟩
    have hm := hm h
    rcases clean_known hh hc h with ⟨e, ho⟩ | ho
    · obtain ⟨r, p, g1, g2, rfl⟩ := (observe_record hI e).1 ho
      have g1 : mapGet ind.index h = some r := g1
      rw [g1] at hm
      rcases hx : mapGet ind0.index h with _ | r0
      · rw [hx] at hm; cases hm
      · rw [hx] at hm
        have hm := Option.some.inj hm
        have hz : r0.sizeInBytes = r.sizeInBytes := show (r0.reloaded env.json.fix).sizeInBytes = (r.reloaded env.json.fix).sizeInBytes by rw [hm]
        have hc : r0.chunkSize = r.chunkSize := show (r0.reloaded env.json.fix).chunkSize = (r.reloaded env.json.fix).chunkSize by rw [hm]
        exact .inl ⟨_, r0, ho, rfl, congrArg Record.filePath hm, hz, hc⟩
    · refine .inr ⟨ho, ?_⟩
      rcases hx : mapGet ind0.index h with _ | r0
      · rfl
      · rw [hx] at hm
        rcases hy : mapGet ind.index h with _ | r
        · rw [hy] at hm; cases hm
        · obtain ⟨p, hp, -⟩ := hsync.prog h r hy
          rw [(observe_record hI _).2 ⟨r, p, hy, hp, rfl⟩] at ho
          cases ho
  obtain ⟨i1, w1, f1, r1⟩ := onDisk h1
  obtain ⟨i2, w2, f2, r2⟩ := onDisk h2
  rw [hj] at f1 f2
  obtain ⟨x, hx, ex⟩ := encode_head i1.toJSON
  obtain ⟨y, hy, ey⟩ := encode_head i2.toJSON
  have f1 : fs1 (indexPath d) = some (encode i1.toJSON) := f1
  have f2 : fs2 (indexPath d) = some (encode i2.toJSON) := f2
  have hfix : env.json.fix = Json.fix := by rw [hj]; rfl
  have key : ∀ (ia ib : IndexFile), WFIdx d ia → WFIdx d ib → (∀ h ra, mapGet ia.index h = some ra → ∃ rb, mapGet ib.index h = some rb ∧ rb.toJSON = ra.toJSON) →
      ∀ z ∈ ia.toJSON.index, z ∈ ib.toJSON.index := by
    intro ia ib wa wb hab z hz
    obtain ⟨⟨k, ra⟩, hm, rfl⟩ := List.mem_map.1 hz
    obtain ⟨rb, g1, g2⟩ := hab k ra (mapGet_of_mem _ _ _ wa.nodup hm)
    refine List.mem_map.2 ⟨(k, rb), mapGet_mem _ _ _ g1, ?_⟩
    show (k.toString, rb.toJSON) = (k.toString, ra.toJSON)
    rw [g2]
  have nod : ∀ (i : IndexFile), WFIdx d i → (i.toJSON.index.map (·.1)).Nodup := by
    intro i w
    show ((i.index.map (fun e => (e.1.toString, e.2.toJSON))).map (·.1)).Nodup
    rw [List.map_map, show ((·.1) ∘ fun e : Sha1Hash × Record => (e.1.toString, e.2.toJSON)) = Sha1Hash.toString ∘ (·.1) from rfl, ← List.map_map]
    exact List.Pairwise.map _ (fun a b hab e => hab (toString_inj _ _ e)) w.nodup
  have same : ∀ h ra rb, mapGet i1.index h = some ra → mapGet i2.index h = some rb → rb.toJSON = ra.toJSON := by
    intro h ra rb ga gb
    rcases r1 h with ⟨e1, ra', o1, ga', p1, s1, c1⟩ | ⟨-, ga'⟩
    · rcases r2 h with ⟨e2, rb', o2, gb', p2, s2, c2⟩ | ⟨-, gb'⟩
      · rw [ga] at ga'; cases ga'
        rw [gb] at gb'; cases gb'
        have hsh := hs h
        rw [o1, o2] at hsh
        obtain ⟨q1, q2, q3⟩ := hsh
        rw [hfix] at p1 p2
        have asc := ha h e1 o1
        have fe : Json.fix e1.filePath = e1.filePath := goJson.fix_ascii _ asc
        rw [fe] at p1
        rw [← q1, fe] at p2
        have a1 : ra.filePath = e1.filePath := by rw [← p1]; exact (fix_of_ascii _ (p1 ▸ asc)).symm
        have a2 : rb.filePath = e1.filePath := by rw [← p2]; exact (fix_of_ascii _ (p2 ▸ asc)).symm
        have k1 := w1.own h ra (mapGet_mem _ _ _ ga)
        have k2 := w2.own h rb (mapGet_mem _ _ _ gb)
        unfold Record.toJSON
        rw [a1, a2, k1, k2, s1, s2, c1, c2, q2, q3]
      · rw [gb] at gb'; cases gb'
    · rw [ga] at ga'; cases ga'
  have hperm : i1.toJSON.index.Perm i2.toJSON.index := by
    refine (List.perm_ext_iff_of_nodup ((nod i1 w1).of_map _ (fun a b h e => h (congrArg _ e))) ((nod i2 w2).of_map _ (fun a b h e => h (congrArg _ e)))).2 (fun z => ⟨key i1 i2 w1 w2 ?_ z, key i2 i1 w2 w1 ?_ z⟩)
    · intro h ra ga
      rcases r1 h with ⟨e1, ra', o1, -⟩ | ⟨-, ga'⟩
      · rcases r2 h with ⟨e2, rb, -, gb, -⟩ | ⟨o2, -⟩
        · exact ⟨rb, gb, same h ra rb ga gb⟩
        · have := hs h; rw [o1, o2] at this; exact this.elim
      · rw [ga] at ga'; cases ga'
    · intro h rb gb
      rcases r2 h with ⟨e2, rb', o2, -⟩ | ⟨-, gb'⟩
      · rcases r1 h with ⟨e1, ra, -, ga, -⟩ | ⟨o1, -⟩
        · exact ⟨ra, ga, (same h ra rb ga gb).symm⟩
        · have := hs h; rw [o1, o2] at this; exact this.elim
      · rw [gb] at gb'; cases gb'
  refine ⟨x, y, _, hx, hy, by rw [f1, ex], ?_⟩
  rw [f2, ey, sort_unique _ _ hperm (nod i1 w1)]
  have : i1.toJSON.dataDir = i2.toJSON.dataDir := w1.dir.trans w2.dir.symm
  rw [this]

end

/-- `C117_same_file`: a daemon with a shared file, and the daemon that is started after it. -/
example (sha1 : Bytes → Sha1Hash) : ∃ c1 fs1 c2 fs2, CleanReach (exEnv sha1 goJson) exDir exDown (.running c1 fs1) ∧ CleanReach (exEnv sha1 goJson) exDir exDown (.running c2 fs2) ∧
    SameFiles c1 fs1 c2 fs2 ∧ (∃ h e, observe c1 fs1 h = .ok e) ∧ ∀ h e, observe c1 fs1 h = .ok e → isAscii e.filePath := by
  have hh := ex_healthy sha1 goJson
  obtain ⟨c, fs, b, hr, -, ho, -, -, hord⟩ := ex_clean sha1 goJson
  have hasc : isAscii (absOf [[102]]) := by unfold isAscii; decide
  have only : ∀ h e, observe c fs h = .ok e → e.filePath = absOf [[102]] := by
    intro h e he
    have hI := hr.reach.inv hh.abs hh.utf8
    obtain ⟨r, p, g1, -, -⟩ := (observe_record hI e).1 he
    obtain ⟨ind, hc, hperm⟩ := hord
    obtain ⟨ind', rfl, -⟩ := hI.split
    cases hc
    have g1 : mapGet ind.index h = some r := g1
    have := hperm.mem_iff.2 (List.mem_map.2 ⟨_, mapGet_mem _ _ _ g1, rfl⟩)
    rw [List.mem_singleton] at this
    simp only at this
    subst this
    rw [ho] at he
    cases he
    rfl
  obtain ⟨c', -, k1, k2, k3, k4⟩ := C30_restart hh hr 7 8
  refine ⟨c, fs, c', fs, hr, k1, fun h => ?_, ⟨_, _, ho⟩, fun h e he => by rw [only h e he]; exact hasc⟩
  rcases k4 h with ⟨e, he⟩ | he
  · rw [he, k2 h e he]
    refine ⟨?_, rfl, rfl⟩
    show e.filePath = goJson.fix e.filePath
    rw [only h e he, goJson.fix_ascii _ hasc]
  · rw [he, k3 h he]; trivial

end Flu
