import Verif.Props.LossyNet
import Verif.Props.Spread
/-!
# What a lost packet leaves in a file is passed on (C115)
-/
namespace Flu
open Spec

section
variable {sha1 : Bytes → Sha1Hash} {content : Bytes} {F : Bytes}

theorem LossyRun.take {l0 l : Link} (h : LossyRun sha1 content false l0 l) : ∃ q, LossyTake sha1 content l0 q l := by
  induction h with
  | refl => exact ⟨[], .refl⟩
  | step _ h' ih =>
    obtain ⟨q, ih⟩ := ih
    cases h' with
    | host h' =>
      cases h' with
      | sender e s he hs => exact ⟨q, .sender ih e s he hs.mono⟩
      | ack s hs ha => exact ⟨q, .ack ih s hs.mono ha⟩
      | receive c d rest hr hn => exact ⟨_, .receive ih c d rest hr hn⟩
      | timeout c hr hf => cases hf
    | network net acks hn ha => exact ⟨q, .network ih net acks hn ha⟩

theorem LTake.lossy {l0 l : Link} {q : List (Option Bytes)} (h : LTake sha1 content l0 q l) : LossyTake sha1 content l0 q l := by
  induction h with
  | refl => exact .refl
  | sender _ e s he hs ih => exact .sender ih e s he hs
  | ack _ s hs ha ih => exact .ack ih s hs ha
  | receive _ c d rest hr hn ih => exact .receive ih c d rest hr hn
  | timeout _ c hr ih => exact .timeout ih c hr

/-- One lost packet. -/
theorem Line.CarriesIn.corrupts {ln : Line} {cap : UInt16} (hc : ln.CarriesIn sha1 F cap) (h2 : 2 ≤ cap.toNat)
    (hst : ¬ CanStall (chunkAt F net_cs ln.chunk.toNat).length net_cs (cap.toNat - 1)) (i : Nat) (hi1 : 1000 ≤ i) (hi2 : i < 2024) (v : UInt8)
    (hv : (chunkAt F net_cs ln.chunk.toNat)[i]? = some v) (hv0 : v ≠ 0) :
    ∃ q l x b ok, LossyTake sha1 ln.content ln.start q l ∧ recvLoop sha1 .fresh q = .ok (x, .finished b ok) ∧ b ≠ chunkAt F net_cs ln.chunk.toNat := by
  obtain ⟨hn, start, ch, cr, rd, h1, h3, h4⟩ := hc
  obtain ⟨-, -, -, h5⟩ := C23_describes sha1 ln.content start net_cs ch cr h1
  have h6 := kickstart_good cr start net_cs cap h5 (by decide) rd _ _ h4
  obtain ⟨l, b, ok, ⟨rd', p', s0, g1, g2, g3⟩, g4, g5⟩ := C114_corrupts (cap := cap) ch cr h1 (by decide) h2 i hi1 hi2 v (by rw [h3]; exact hv) hv0 (by rw [h3]; exact hst)
  have hrd := g1 rfl
  subst hrd
  rw [h6] at g2
  cases g2
  obtain ⟨q, hq⟩ := g3.take
  have hl := hq.loop rfl
  rw [g4] at hl
  obtain ⟨x, hl⟩ := hl
  rw [h3] at g5
  exact ⟨q, l, x, b, ok, hq, hl, g5⟩

end

theorem chunks_ext {F G : Bytes} (cs : Nat) (hcs : 0 < cs) (hl : F.length = G.length) (h : ∀ n, n < (F.length + cs - 1) / cs → chunkAt F cs n = chunkAt G cs n) : F = G := by
  apply List.ext_getElem?
  intro i
  by_cases hi : i < F.length
  · have hn : i / cs < (F.length + cs - 1) / cs := by
      rw [Nat.div_lt_iff_lt_mul hcs]
      have h1 := Nat.div_add_mod (F.length + cs - 1) cs
      have h2 := Nat.mod_lt (F.length + cs - 1) hcs
      rw [Nat.mul_comm] at h1
      omega
    have h3 := congrArg (fun z : Bytes => z[i % cs]?) (h _ hn)
    simp only [chunkAt_get, if_pos (Nat.mod_lt i hcs)] at h3
    have h4 := Nat.div_add_mod i cs
    rw [Nat.mul_comm] at h4
    rw [h4] at h3
    exact h3
  · rw [List.getElem?_eq_none (by omega), List.getElem?_eq_none (by omega)]

section
variable {place : Nat → Place} {sha1 : Bytes → Sha1Hash} {h : Sha1Hash} {F : Bytes}

theorem LossyNRun.trans {ok : NEv → Net → Net → Prop} {s0 s1 s2 : Net} (h1 : LossyNRun place ok s0 s1) (h2 : LossyNRun place ok s1 s2) : LossyNRun place ok s0 s2 := by
  induction h2 with
  | refl => exact h1
  | step a _ hst hok ih => exact .step a ih hst hok

theorem NRun.lossy {ok : NEv → Net → Net → Prop} {s0 s : Net} (h : NRun place ok s0 s) : LossyNRun place ok s0 s := by
  induction h with
  | refl => exact .refl
  | step a _ hst hok ih => exact .step a ih (.plain hst) hok

/-- Host `i` has (part of) its own version of the file. -/
structure Versions (place : Nat → Place) (h : Sha1Hash) (A : Nat → Bytes) (s : Net) : Prop where
  clean : ∀ i, CleanReach (place i).env (place i).d (place i).dl (.running (s.cat i) (s.fs i))
  hosts : ∀ i, HostRight (place i).d h (A i) (s.cat i) (s.fs i)

def setVer (A : Nat → Bytes) (j : Nat) (b : Bytes) : Nat → Bytes := fun i => if i = j then b else A i

theorem setVer_self (A : Nat → Bytes) (j : Nat) (b : Bytes) : setVer A j b j = b := by simp [setVer]
theorem setVer_other (A : Nat → Bytes) (j i : Nat) (b : Bytes) (hi : i ≠ j) : setVer A j b i = A i := by simp [setVer, hi]

theorem setVer_twice (A : Nat → Bytes) (j : Nat) (b c : Bytes) : setVer (setVer A j b) j c = setVer A j c := by
  funext t; by_cases ht : t = j <;> simp [setVer, ht]

/-- What is not touched by a run about host `j`. -/
def Others (j : Nat) (s s' : Net) : Prop := ∀ t, t ≠ j → s'.fs t = s.fs t ∧ ∀ k, observe (s'.cat t) (s'.fs t) k = observe (s.cat t) (s.fs t) k

theorem Others.trans {j : Nat} {s s1 s2 : Net} (h1 : Others j s s1) (h2 : Others j s1 s2) : Others j s s2 :=
  fun t ht => ⟨(h2 t ht).1.trans (h1 t ht).1, fun k => ((h2 t ht).2 k).trans ((h1 t ht).2 k)⟩

/-- A chunk is fetched, and whatever came out is saved. `how` says which transfers are possible. -/
theorem Versions.fetch (hh : ∀ i, Healthy (place i).env (place i).d) (hsha : ∀ i, (place i).env.sha1 = sha1) {A : Nat → Bytes} {s : Net} (hI : Versions place h A s)
    (i j : Nat) (hl : (A i).length = (A j).length) (e e' : Export) (he : observe (s.cat i) (s.fs i) h = .ok e) (n : UInt16) (hn : e.saved n.toNat) (he' : observe (s.cat j) (s.fs j) h = .ok e')
    (P : Bytes → Prop)
    (how : ∀ ln : Line, ln.CarriesIn sha1 (A i) 1024 → ln.chunk = n → ∃ q l x b ok, LossyTake sha1 ln.content ln.start q l ∧ recvLoop sha1 .fresh q = .ok (x, .finished b ok) ∧ P b) :
    ∃ s' b, LossyNRun place (Careful place h F) s s' ∧ P b ∧ Partly (chunkAt (A i) net_cs n.toNat) b ∧ Others j s s' ∧ Versions place h (setVer A j (patch (A j) net_cs n.toNat b)) s' ∧
      ∃ e2, observe (s'.cat j) (s'.fs j) h = .ok e2 ∧ e2.filePath = e'.filePath ∧ e2.progress.sizeOf = e'.progress.sizeOf ∧ ∀ m, m < 2 ^ 63 → (e2.saved m ↔ e'.saved m ∨ m = n.toNat) := by
  obtain ⟨s1, ln, h1, h2, h3, h4, h5, h6, h7⟩ := (hI.hosts i).opens hh hsha (hI.clean i) e he n hn
  obtain ⟨q, l, x, b, ok, k1, k2, k3⟩ := how ln h5 h4
  subst h4
  have hb : Partly (chunkAt (A i) net_cs ln.chunk.toNat) b := by
    rcases Line.Carries.lossy_out ⟨1024, h5⟩ k1 with ⟨_, _, g⟩ | ⟨_, g⟩ | ⟨_, b', g, g'⟩ <;> rw [k2] at g <;> cases g
    exact g'
  have hcl : ∀ t, CleanReach (place t).env (place t).d (place t).dl (.running (s1.cat t) (s1.fs t)) := by
    intro t
    rcases h7 t with hx | hx
    · rw [hx, h6.fs]; exact hI.clean t
    · exact hx
  have hr : ∀ t, HostRight (place t).d h (A t) (s1.cat t) (s1.fs t) := fun t => (hI.hosts t).of_same (h6.obs t h) (fun e _ => by rw [h6.fs])
  have he1 : observe (s1.cat j) (s1.fs j) h = .ok e' := by rw [h6.obs]; exact he'
  obtain ⟨g1, -, old, -, g2⟩ := hr j e' he1
  have hsafe : ∀ data, (Op.save h ln.chunk data).Safe (place j).d (s1.cat j) := by
    intro data p hp
    rw [observe_path (hh j) (hcl j).reach h e' he1] at hp
    cases hp; exact g1
  obtain ⟨s2, hs⟩ := saveChunk_total (hh j) (hcl j).reach h ln.chunk b e' he1
  have hrun : downloadChunk (place j).env h ln.chunk q (s1.st j) = (.ok (.saved ok), s2) := by
    rw [downloadChunk_eq, hsha j, k2]
    simp only []
    rw [IOM.bind_apply]
    unfold IOM.orPanic
    have hs' : saveChunk h ln.chunk b (s1.st j) = (.ok (), s2) := hs
    rw [hs']
    rfl
  have hstep : LossyNStep place (.fetch j h ln.chunk) s1 (s1.put j s2) := by
    have := LossyNStep.fetch (place := place) j s1 ln q l (.saved ok) s2 h2 (by rw [hsha j]; exact k1) (by rw [h3]; exact hsafe) (by rw [h3]; exact hrun)
    rw [h3] at this
    exact this
  obtain ⟨e0, e2, m1, m2, m3, m4, m5, -⟩ := saveChunk_effect (hh j) (hcl j).reach h ln.chunk b [] (hsafe _) s2 hs
  rw [he1] at m1; cases m1
  have aux : ∀ t, t ≠ j → (s1.put j s2).fs t = s1.fs t ∧ (s1.put j s2).cat t = s1.cat t := fun t ht => by simp [Net.put, ht]
  have hn' : ln.chunk.toNat < ((A j).length + net_cs - 1) / net_cs := by rw [← hl]; exact h5.1
  refine ⟨s1.put j s2, b, .step _ (.step _ .refl (.plain h1) trivial) hstep (fun hx => absurd rfl hx), k3, hb, ?_, ⟨?_, ?_⟩, e2, ?_, ?_, ?_, m5⟩
  · intro t ht
    rw [(aux t ht).1, (aux t ht).2]
    exact ⟨h6.fs t, h6.obs t⟩
  · intro t
    by_cases ht : t = j
    · subst ht
      rw [(Net.put_self s1 t s2).1, (Net.put_self s1 t s2).2]
      exact CleanReach.call (.save h ln.chunk b) _ _ _ s2 (hcl t) (hsafe b) hs rfl
    · rw [(aux t ht).1, (aux t ht).2]; exact hcl t
  · intro t
    by_cases ht : t = j
    · subst ht
      rw [(Net.put_self s1 t s2).1, (Net.put_self s1 t s2).2, setVer_self]
      exact (hr t).save_any (hh t) (hcl t) ln.chunk hn' b (by rw [hb.1, chunkAt_length, chunkAt_length, hl]) s2 hs
    · rw [(aux t ht).1, (aux t ht).2, setVer_other _ _ _ _ ht]; exact hr t
  · rw [(Net.put_self s1 j s2).1, (Net.put_self s1 j s2).2]
    exact m2
  · rw [m3]
  · rw [m4, g2.count]
    omega

/-- The chunks from `m0` to `m` are fetched without losses, one after the other. -/
theorem Versions.fetchAll (hh : ∀ i, Healthy (place i).env (place i).d) (hsha : ∀ i, (place i).env.sha1 = sha1) {A : Nat → Bytes} {s : Net} (hI : Versions place h A s)
    (i j : Nat) (hij : j ≠ i) (hl : (A i).length = (A j).length) (e e' : Export) (he : observe (s.cat i) (s.fs i) h = .ok e) (he' : observe (s.cat j) (s.fs j) h = .ok e')
    (hst : ∀ n : Nat, ¬ CanStall (chunkAt (A i) net_cs n).length net_cs 1024) (m0 k : Nat) (hm : m0 + k ≤ 65536) (hn : ∀ n, n < m0 + k → e.saved n) :
    ∃ s' B, LossyNRun place (Careful place h F) s s' ∧ Others j s s' ∧ Versions place h (setVer A j B) s' ∧ B.length = (A j).length ∧
      (∀ n, m0 ≤ n → n < m0 + k → chunkAt B net_cs n = chunkAt (A i) net_cs n) ∧ (∀ n, n < m0 → chunkAt B net_cs n = chunkAt (A j) net_cs n) ∧
      ∃ e2, observe (s'.cat j) (s'.fs j) h = .ok e2 ∧ e2.filePath = e'.filePath ∧ e2.progress.sizeOf = e'.progress.sizeOf ∧
        ∀ n, n < 2 ^ 63 → (e2.saved n ↔ e'.saved n ∨ (m0 ≤ n ∧ n < m0 + k)) := by
  induction k with
  | zero =>
    refine ⟨s, A j, .refl, fun _ _ => ⟨rfl, fun _ => rfl⟩, ?_, rfl, fun n h1 h2 => by omega, fun _ _ => rfl, e', he', rfl, rfl, fun n _ => ?_⟩
    · have : setVer A j (A j) = A := by funext t; by_cases ht : t = j <;> simp [setVer, ht]
      rw [this]; exact hI
    · constructor
      · exact .inl
      · rintro (h | h)
        · exact h
        · omega
  | succ k ih =>
    obtain ⟨s1, B, h1, h2, h3, h4, h5, h5', e1, h6, h7, h8, h9⟩ := ih (by omega) (fun n h => hn n (by omega))
    have hm' : (UInt16.ofNat (m0 + k)).toNat = m0 + k := UInt16.toNat_ofNat_of_lt' (by show m0 + k < 65536; omega)
    have hi' : setVer A j B i = A i := setVer_other _ _ _ _ (fun hx => hij hx.symm)
    obtain ⟨s2, b, g1, g2, g3, g4, g5, e2, g6, g7, g8, g9⟩ := h3.fetch (F := F) hh hsha i j (by rw [hi', setVer_self, h4]; exact hl) e e1 (by rw [(h2 i (fun hx => hij hx.symm)).2]; exact he)
      (UInt16.ofNat (m0 + k)) (by rw [hm']; exact hn _ (by omega)) h6 (fun b => b = chunkAt (A i) net_cs (m0 + k)) (by
        intro ln hc hx
        rw [hi'] at hc
        obtain ⟨q, l, x, r1, r2⟩ := hc.arrives (by decide) (hst _)
        exact ⟨q, l, x, _, _, r1.lossy, r2, by rw [hx, hm']⟩)
    subst g2
    rw [hm', setVer_self] at g5
    rw [hm'] at g9
    have hbl : (chunkAt (A i) net_cs (m0 + k)).length = (chunkAt B net_cs (m0 + k)).length := by rw [chunkAt_length, chunkAt_length, h4, hl]
    rw [setVer_twice] at g5
    have hlen : (chunkAt (A i) net_cs (m0 + k)).length ≤ net_cs := by rw [chunkAt_length]; exact Nat.min_le_left _ _
    refine ⟨s2, _, h1.trans g1, h2.trans g4, g5, by rw [patch_length, h4], ?_, ?_, e2, g6, g7.trans h7, g8.trans h8, ?_⟩
    · intro n a1 a2
      by_cases hx : n = m0 + k
      · subst hx; exact patch_chunk _ _ _ hbl
      · rw [patch_other _ _ _ _ hlen hx]; exact h5 n a1 (by omega)
    · intro n a1
      rw [patch_other _ _ _ _ hlen (by omega)]; exact h5' n a1
    · intro n hlt
      rw [g9 n hlt, h9 n hlt]
      constructor
      · rintro ((h | h) | h)
        · exact .inl h
        · exact .inr (by omega)
        · exact .inr (by omega)
      · rintro (h | h)
        · exact .inl (.inl h)
        · by_cases hx : n = m0 + k
          · exact .inr hx
          · exact .inl (.inr (by omega))

/-- **C115, passed on**: when one host has all of a file (of at most 65536 chunks, the last of which cannot stall) and two others have begun to download it, one lost packet can be enough for both to
have the same wrong file and to show it as complete: the first gets a chunk with a hole, the second gets everything from the first, without a further loss. -/
theorem C115_passed_on (hh : ∀ i, Healthy (place i).env (place i).d) (hsha : ∀ i, (place i).env.sha1 = sha1) (hb : h.isBlank = false) (hbig : F.length ≤ 65536 * 4194304)
    (hst : ¬ CanStall (F.length % 4194304) 4194304 1024) (hst0 : ¬ CanStall (F.take 4194304).length 4194304 1023)
    (x : Nat) (hx1 : 1000 ≤ x) (hx2 : x < 2024) (v : UInt8) (hv : F[x]? = some v) (hv0 : v ≠ 0)
    {s0 s : Net} (h0 : Before place h s0) (hrun : NRun place (Careful place h F) s0 s)
    (i j k : Nat) (hij : j ≠ i) (hik : k ≠ i) (hjk : k ≠ j) (e ej ek : Export) (he : observe (s.cat i) (s.fs i) h = .ok e) (hall : ∀ n : Nat, (n : Int) < e.progress.sizeOf → e.saved n)
    (hj : observe (s.cat j) (s.fs j) h = .ok ej) (hk : observe (s.cat k) (s.fs k) h = .ok ek) :
    ∃ s' G, LossyNRun place (Careful place h F) s s' ∧ G ≠ F ∧ ∀ t, t = j ∨ t = k → ∃ e2, observe (s'.cat t) (s'.fs t) h = .ok e2 ∧
      (∀ n : Nat, (n : Int) < e2.progress.sizeOf → e2.saved n) ∧ s'.fs t e2.filePath = some G := by
  have hN := NetRight.run hh hsha hb (by omega) h0 hrun
  have hI : Versions place h (fun _ => F) s := ⟨hN.clean, hN.hosts⟩
  have hF : 0 < F.length := by
    have := (List.getElem?_eq_some_iff.1 hv).1
    omega
  obtain ⟨-, -, _, -, g⟩ := hN.hosts i e he
  obtain ⟨-, -, _, -, gj⟩ := hN.hosts j ej hj
  obtain ⟨-, -, _, -, gk⟩ := hN.hosts k ek hk
  have hc := g.count
  have hcj := gj.count
  have hck := gk.count
  have hm : (F.length + net_cs - 1) / net_cs ≤ 65536 := by simp only [net_cs]; omega
  have hm1 : 1 ≤ (F.length + net_cs - 1) / net_cs := by simp only [net_cs]; omega
  generalize hcnt : (F.length + net_cs - 1) / net_cs = cnt at *
  -- the first host gets chunk 0 with a hole
  obtain ⟨s1, b, a1, a2, a3, a4, a5, e1, a6, a7, a8, a9⟩ := hI.fetch (F := F) hh hsha i j rfl e ej he 0 (hall 0 (by omega)) hj (fun b => b ≠ chunkAt F net_cs 0) (by
    intro ln hc hx
    have h0c : ln.chunk.toNat = 0 := by rw [hx]; rfl
    have hch : chunkAt F net_cs ln.chunk.toNat = F.take 4194304 := by rw [h0c]; simp [chunkAt]
    obtain ⟨q, l, z, b, ok, r1, r2, r3⟩ := hc.corrupts (by decide) (by rw [hch]; exact hst0) x hx1 hx2 v (by
      rw [hch, List.getElem?_take, if_pos (by omega)]; exact hv) hv0
    exact ⟨q, l, z, b, ok, r1, r2, by rw [h0c] at r3; exact r3⟩)
  have h00 : (0 : UInt16).toNat = 0 := rfl
  simp only [h00] at a3 a5 a9
  have hbl : b.length = (chunkAt F net_cs 0).length := a3.1
  -- and the others as they are
  have ji : i ≠ j := fun hx => hij hx.symm
  have ki : i ≠ k := fun hx => hik hx.symm
  have kj : j ≠ k := fun hx => hjk hx.symm
  have hst' : ∀ {G : Bytes}, G.length = F.length → ∀ n : Nat, ¬ CanStall (chunkAt G net_cs n).length net_cs 1024 := by
    intro G hG n
    have := stall_last hst n
    have e1 : (chunkAt G net_cs n).length = (chunkAt F net_cs n).length := by rw [chunkAt_length, chunkAt_length, hG]
    rw [e1]
    exact this
  obtain ⟨s2, B, b1, b2, b3, b4, b5, b6, e2, b7, b8, b9, b10⟩ := a5.fetchAll (F := F) hh hsha i j hij (by rw [setVer_self, setVer_other _ _ _ _ ji, patch_length]) e e1 (by rw [(a4 i ji).2]; exact he) a6
    (by rw [setVer_other _ _ _ _ ji]; exact hst' rfl) 1 (cnt - 1) (by omega) (fun n hn => hall n (by omega))
  rw [setVer_twice] at b3
  rw [setVer_self] at b4 b6
  rw [patch_length] at b4
  have hB0 : chunkAt B net_cs 0 = b := by rw [b6 0 (by omega), patch_chunk _ _ _ hbl]
  have hne : B ≠ F := by intro hx; rw [hx] at hB0; exact a2 hB0.symm
  have hall2 : ∀ n : Nat, n < cnt → e2.saved n := by
    intro n hn
    rw [b10 n (by omega), a9 n (by omega)]
    by_cases hz : n = 0
    · exact .inl (.inr hz)
    · exact .inr (by omega)
  -- the second host gets everything from the first
  obtain ⟨s3, C, c1, c2, c3, c4, c5, -, e3, c7, c8, c9, c10⟩ := b3.fetchAll (F := F) hh hsha j k hjk (by rw [setVer_self, setVer_other _ _ _ _ hjk, b4]) e2 ek b7
    (by rw [(b2 k hjk).2, (a4 k hjk).2]; exact hk) (by rw [setVer_self]; exact hst' b4) 0 cnt (by omega) (fun n hn => hall2 n (by omega))
  rw [setVer_self] at c5
  rw [setVer_other _ _ _ _ hjk] at c4
  have hC : C = B := chunks_ext net_cs (by decide) (c4.trans b4.symm) (fun n hn => c5 n (by omega) (by rw [c4, hcnt] at hn; omega))
  subst hC
  have hj3 : observe (s3.cat j) (s3.fs j) h = .ok e2 := by rw [(c2 j kj).2]; exact b7
  have fin : ∀ t et, observe (s3.cat t) (s3.fs t) h = .ok et → HostRight (place t).d h C (s3.cat t) (s3.fs t) → (∀ n : Nat, n < cnt → et.saved n) → et.progress.sizeOf = (cnt : Int) →
      ∃ e2, observe (s3.cat t) (s3.fs t) h = .ok e2 ∧ (∀ n : Nat, (n : Int) < e2.progress.sizeOf → e2.saved n) ∧ s3.fs t e2.filePath = some C := by
    intro t et h1 h2 h3 h4
    obtain ⟨-, -, old, h6, h7⟩ := h2 et h1
    have h5 : ∀ n : Nat, (n : Int) < et.progress.sizeOf → et.saved n := fun n hn => h3 n (by omega)
    exact ⟨et, h1, h5, (C33_content C old net_cs _ et h7 (by intro hx; rw [hx] at b4; simp at b4; omega) h5).2 h6⟩
  refine ⟨s3, C, (a1.trans b1).trans c1, hne, ?_⟩
  rintro t (rfl | rfl)
  · refine fin t e2 hj3 ?_ hall2 (by rw [b9, a8, hcj])
    have := c3.hosts t
    rw [setVer_other _ _ _ _ kj, setVer_self] at this
    exact this
  · refine fin t e3 c7 ?_ (fun n hn => (c10 n (by omega)).2 (.inr (by omega))) (by rw [c9, hck])
    have := c3.hosts t
    rw [setVer_self] at this
    exact this

/-- C115: nothing shows it at the second host: whatever the versions that the hosts have, a chunk that arrives without losses has the hash that its sender announced, and the daemon goes on. -/
theorem C115_silent (hh : ∀ i, Healthy (place i).env (place i).d) (hsha : ∀ i, (place i).env.sha1 = sha1) (hb : h.isBlank = false) (hbig : F.length < 2 ^ 63) {s0 s : Net}
    (h0 : Before place h s0) (hrun : LossyNRun place (Careful place h F) s0 s) (i : Nat) (e : Export) (he : observe (s.cat i) (s.fs i) h = .ok e) (ln : Line) (hln : ln ∈ s.lines) (hk : ln.hash = h)
    (q : List (Option Bytes)) (l : Link) (ht : LTake sha1 ln.content ln.start q l) : ∃ out s', downloadChunk (place i).env h ln.chunk q (s.st i) = (.ok out, s') ∧ out ≠ .saved false := by
  have hI := NetPartly.run hh hsha hb hbig h0 hrun
  obtain ⟨G, -, hc⟩ := hI.lines ln hln hk
  have heq := downloadChunk_eq (place i).env h ln.chunk q (s.st i)
  rw [hsha i] at heq
  rcases hc.out ht with ⟨x, c, g⟩ | ⟨x, g⟩ | ⟨x, g⟩ <;> rw [g] at heq
  · exact ⟨_, _, heq, by simp⟩
  · exact ⟨_, _, heq, by simp⟩
  · obtain ⟨s', hs⟩ := saveChunk_total (hh i) (hI.clean i).reach h ln.chunk ((G.drop (ln.chunk.toNat * net_cs)).take net_cs) e he
    refine ⟨.saved true, s', ?_, by simp⟩
    rw [heq]
    simp only []
    rw [IOM.bind_apply]
    unfold IOM.orPanic
    have hs' : saveChunk h ln.chunk ((G.drop (ln.chunk.toNat * net_cs)).take net_cs) (s.st i) = (.ok (), s') := hs
    rw [hs']
    rfl

/-- C115: whatever happens to the packets, no chunk that arrives kills the daemon that fetches it; the chunk counts as saved from then on, and no other one is lost. -/
theorem C115_arrives (hh : ∀ i, Healthy (place i).env (place i).d) (hsha : ∀ i, (place i).env.sha1 = sha1) (hb : h.isBlank = false) (hbig : F.length < 2 ^ 63) {s0 s : Net}
    (h0 : Before place h s0) (hrun : LossyNRun place (Careful place h F) s0 s) (i : Nat) (e : Export) (he : observe (s.cat i) (s.fs i) h = .ok e) (ln : Line) (hln : ln ∈ s.lines) (hk : ln.hash = h)
    (q : List (Option Bytes)) (l : Link) (ht : LossyTake sha1 ln.content ln.start q l) :
    ∃ out s', downloadChunk (place i).env h ln.chunk q (s.st i) = (.ok out, s') ∧
      (∀ ok, out = .saved ok → ∃ e', observe s'.cat s'.fs h = .ok e' ∧ e'.saved ln.chunk.toNat ∧ ∀ n, n < 2 ^ 63 → e.saved n → e'.saved n) := by
  have hI := NetPartly.run hh hsha hb hbig h0 hrun
  obtain ⟨G, -, hc⟩ := hI.lines ln hln hk
  obtain ⟨G', -, hr⟩ := hI.hosts i
  have heq := downloadChunk_eq (place i).env h ln.chunk q (s.st i)
  rw [hsha i] at heq
  rcases hc.lossy_out ht with ⟨x, c, g⟩ | ⟨x, g⟩ | ⟨x, b, g, -⟩ <;> rw [g] at heq
  · exact ⟨_, _, heq, by intro ok hx; cases hx⟩
  · exact ⟨_, _, heq, by intro ok hx; cases hx⟩
  · obtain ⟨s', hs⟩ := saveChunk_total (hh i) (hI.clean i).reach h ln.chunk b e he
    refine ⟨.saved (decide (sha1 b = sha1 (chunkAt G net_cs ln.chunk.toNat))), s', ?_, fun _ _ => ?_⟩
    · rw [heq]
      simp only []
      rw [IOM.bind_apply]
      unfold IOM.orPanic
      have hs' : saveChunk h ln.chunk b (s.st i) = (.ok (), s') := hs
      rw [hs']
      rfl
    · have hsafe : (Op.save h ln.chunk b).Safe (place i).d (s.cat i) := by
        intro p hp
        rw [observe_path (hh i) (hI.clean i).reach h e he] at hp
        cases hp; exact (hr e he).1
      obtain ⟨e0, e', k1, k2, -, -, k5, -⟩ := saveChunk_effect (hh i) (hI.clean i).reach h ln.chunk _ [] hsafe s' hs
      rw [he] at k1; cases k1
      have hn16 := ln.chunk.toNat_lt
      exact ⟨e', k2, (k5 _ (by omega)).2 (.inr rfl), fun n hn hsv => (k5 n hn).2 (.inl hsv)⟩

end

/-! ### A case, and what does not hold -/

/-- Host 0 has put `F` at `/f` and shared it; host 1 and then host 2 have begun to download it. -/
theorem ex_lossy_net (sha1 : Bytes → Sha1Hash) (json : JsonCodec) (F : Bytes) (hF : F.length < 2 ^ 63) (hb : (sha1 F).isBlank = false) :
    Before (exPlaces sha1 json) (sha1 F) (exNet sha1 json) ∧
    ∃ s e e1 e2, NRun (exPlaces sha1 json) (Careful (exPlaces sha1 json) (sha1 F) F) (exNet sha1 json) s ∧ observe (s.cat 0) (s.fs 0) (sha1 F) = .ok e ∧
      (∀ n : Nat, (n : Int) < e.progress.sizeOf → e.saved n) ∧ observe (s.cat 1) (s.fs 1) (sha1 F) = .ok e1 ∧ observe (s.cat 2) (s.fs 2) (sha1 F) = .ok e2 := by
  have hh := ex_healthy sha1 json
  have h0 : Before (exPlaces sha1 json) (sha1 F) (exNet sha1 json) :=
    ⟨fun _ => CleanReach.fresh (exEnv sha1 json) exDir exDown hh.utf8 exFS ex_fs_clean, fun _ => rfl, fun _ => by simp [exNet], fun ln hl => by simp [exNet] at hl⟩
  refine ⟨h0, ?_⟩
  have hp : ¬ CatFile exDir (absOf [[102]]) := ex_not_catFile 102 (by simp)
  have e1 : absPath (exEnv sha1 json).cwd [102] = absOf [[102]] := by
    show absPath [47] [102] = _
    decide
  have hfile : ((exFS1 sha1 json).put (absOf [[102]]) (some F)) (absPath (exEnv sha1 json).cwd [102]) = some F := by rw [e1]; simp [FS.put]
  have hreach : Reach (exEnv sha1 json) exDir exDown (.running ⟨exDir, exDown, some (freshIdx (exEnv sha1 json) exDir)⟩ ((exFS1 sha1 json).put (absOf [[102]]) (some F))) :=
    (CleanReach.userRunning _ _ _ _ hp (CleanReach.fresh (exEnv sha1 json) exDir exDown hh.utf8 exFS ex_fs_clean)).reach
  obtain ⟨r, s2, h⟩ := shareFile_total (exEnv sha1 json) [102] exDir exDown (freshIdx (exEnv sha1 json) exDir) _ F hfile rfl hF
  have hop := CM.void_ok _ _ _ _ h
  obtain ⟨F', h1, -, h3, -⟩ := C26_share hh hreach [102] [] r s2 h
  rw [hfile] at h1; cases h1
  obtain ⟨b, h4, -, -, h5⟩ := h3 hF
  have run1 : NRun (exPlaces sha1 json) (Careful (exPlaces sha1 json) (sha1 F) F) (exNet sha1 json)
      ((exNet sha1 json).put 0 ⟨(exNet sha1 json).cat 0, ((exNet sha1 json).fs 0).put (absOf [[102]]) (some F), []⟩) :=
    .step (.user 0 (absOf [[102]])) .refl (.user 0 _ _ _ hp) (fun e he => by cases he)
  have run2 := run1.step (.call 0 (.share [102])) (.call 0 (.share [102]) _ (.ok ()) s2 rfl (by
    have : Net.st ((exNet sha1 json).put 0 ⟨(exNet sha1 json).cat 0, ((exNet sha1 json).fs 0).put (absOf [[102]]) (some F), []⟩) 0 =
        ⟨⟨exDir, exDown, some (freshIdx (exEnv sha1 json) exDir)⟩, (exFS1 sha1 json).put (absOf [[102]]) (some F), []⟩ := rfl
    rw [this]
    exact hop) rfl) (by
    intro X hX hs
    have hX : ((exFS1 sha1 json).put (absOf [[102]]) (some F)) (absPath (exEnv sha1 json).cwd [102]) = some X := hX
    rw [hfile] at hX
    cases hX
    refine ⟨rfl, ?_⟩
    show ¬ CatFile exDir (absPath (exEnv sha1 json).cwd [102])
    rw [e1]
    exact hp)
  generalize hs : (Net.put ((exNet sha1 json).put 0 ⟨(exNet sha1 json).cat 0, ((exNet sha1 json).fs 0).put (absOf [[102]]) (some F), []⟩) 0 s2) = s at run2
  have ho : observe (s.cat 0) (s.fs 0) (sha1 F) = .ok ⟨absPath (exEnv sha1 json).cwd [102], F.length, sha1 F, b, 4194304⟩ := by
    rw [← hs, (Net.put_self _ 0 s2).1, (Net.put_self _ 0 s2).2]
    exact h4
  have hrest : ∀ j, j ≠ 0 → s.fs j = exFS1 sha1 json ∧ s.cat j = ⟨exDir, exDown, some (freshIdx (exEnv sha1 json) exDir)⟩ := by
    intro j hj
    rw [← hs]
    constructor
    · simp [Net.put, hj]; rfl
    · simp [Net.put, hj]; rfl
  have hfree : (((exFS1 sha1 json) (joinPath [exDown, [102]])).getD []).length ≤ F.length := by
    unfold exFS1
    rw [FS.put_other _ _ _ _ (fun e => ex_not_catFile3 (.inl e)), ex_path3]
    exact Nat.zero_le _
  have hname : IsBaseName (absPath (exEnv sha1 json).cwd [102]) [102] := by rw [e1]; exact ⟨by decide, .inr ⟨[], rfl⟩⟩
  obtain ⟨s3, k1, k2, e3, k3, -, -⟩ := C112_start (place := exPlaces sha1 json) (fun _ => hh) (fun _ => rfl) hb hF h0 run2 0 1 _ ho (by rw [(hrest 1 (by omega)).1, (hrest 1 (by omega)).2]; rfl)
    [102] hname ex_not_catFile3 (by rw [(hrest 1 (by omega)).1]; exact hfree)
  obtain ⟨s4, q1, q2, e4, q3, -, -⟩ := C112_start (place := exPlaces sha1 json) (fun _ => hh) (fun _ => rfl) hb hF h0 (run2.trans k1) 0 2 _ (by rw [(k2 0 (by omega)).2]; exact ho)
    (by rw [(k2 2 (by omega)).2, (hrest 2 (by omega)).1, (hrest 2 (by omega)).2]; rfl)
    [102] hname ex_not_catFile3 (by rw [(k2 2 (by omega)).1, (hrest 2 (by omega)).1]; exact hfree)
  exact ⟨s4, _, e3, e4, (run2.trans k1).trans q1, by rw [(q2 0 (by omega)).2, (k2 0 (by omega)).2]; exact ho, h5, by rw [(q2 1 (by omega)).2]; exact k3, q3⟩

/-- What one would like to hold: on any network, a host that shows the file as complete has exactly the file. -/
def C115_statement (sha1 : Bytes → Sha1Hash) : Prop :=
  ∀ (place : Nat → Place) (h : Sha1Hash) (F : Bytes), (∀ i, Healthy (place i).env (place i).d) → (∀ i, (place i).env.sha1 = sha1) → h.isBlank = false → F ≠ [] → F.length < 2 ^ 63 →
    ∀ s0 s, Before place h s0 → LossyNRun place (Careful place h F) s0 s → ∀ i e, observe (s.cat i) (s.fs i) h = .ok e → (∀ n : Nat, (n : Int) < e.progress.sizeOf → e.saved n) →
      s.fs i e.filePath = some F

/-- **C115**: it does not hold, whatever the hash function (as long as one file of 5000 sevens does not have the hash of only zeros). -/
theorem C115_refuted (sha1 : Bytes → Sha1Hash) (json : JsonCodec) (hb : (sha1 (List.replicate 5000 7)).isBlank = false) : ¬ C115_statement sha1 := by
  intro hst
  obtain ⟨h0, s, e, e1, e2, h1, h2, h3, h4, h5⟩ := ex_lossy_net sha1 json (List.replicate 5000 7) (by rw [List.length_replicate]; omega) hb
  obtain ⟨s', G, k1, k2, k3⟩ := C115_passed_on (place := exPlaces sha1 json) (fun _ => ex_healthy sha1 json) (fun _ => rfl) hb (by rw [List.length_replicate]; omega)
    (by rw [List.length_replicate]; unfold CanStall; omega) (by rw [List.length_take, List.length_replicate]; unfold CanStall; omega)
    1500 (by omega) (by omega) 7 (by rw [List.getElem?_replicate, if_pos (by omega)]) (by decide) h0 h1 0 1 2 (by omega) (by omega) (by omega) e e1 e2 h2 h3 h4 h5
  obtain ⟨e3, g1, g2, g3⟩ := k3 1 (.inl rfl)
  have := hst (exPlaces sha1 json) _ _ (fun _ => ex_healthy sha1 json) (fun _ => rfl) hb (by intro hx; have := congrArg List.length hx; rw [List.length_replicate] at this; cases this) (by rw [List.length_replicate]; omega) _ _ h0 (h1.lossy.trans k1) 1 e3 g1 g2
  rw [g3] at this
  injection this with this
  exact k2 this

/-- `C115_network_partial`, `C115_arrives`, `C115_silent`: a run with a lost packet, and an open upload of what it has left behind. -/
example (sha1 : Bytes → Sha1Hash) (json : JsonCodec) (hb : (sha1 (List.replicate 5000 7)).isBlank = false) :
    ∃ s e1 e2 G ln q l, LossyNRun (exPlaces sha1 json) (Careful (exPlaces sha1 json) (sha1 (List.replicate 5000 7)) (List.replicate 5000 7)) (exNet sha1 json) s ∧ G ≠ List.replicate 5000 7 ∧
      observe (s.cat 1) (s.fs 1) (sha1 (List.replicate 5000 7)) = .ok e1 ∧ s.fs 1 e1.filePath = some G ∧ observe (s.cat 2) (s.fs 2) (sha1 (List.replicate 5000 7)) = .ok e2 ∧
      ln ∈ s.lines ∧ ln.hash = sha1 (List.replicate 5000 7) ∧ ln.Carries sha1 G ∧ LTake sha1 ln.content ln.start q l ∧ q ≠ [] := by
  obtain ⟨h0, s, e, e1, e2, h1, h2, h3, h4, h5⟩ := ex_lossy_net sha1 json (List.replicate 5000 7) (by rw [List.length_replicate]; omega) hb
  obtain ⟨s', G, k1, k2, k3⟩ := C115_passed_on (place := exPlaces sha1 json) (fun _ => ex_healthy sha1 json) (fun _ => rfl) hb (by rw [List.length_replicate]; omega)
    (by rw [List.length_replicate]; unfold CanStall; omega) (by rw [List.length_take, List.length_replicate]; unfold CanStall; omega)
    1500 (by omega) (by omega) 7 (by rw [List.getElem?_replicate, if_pos (by omega)]) (by decide) h0 h1 0 1 2 (by omega) (by omega) (by omega) e e1 e2 h2 h3 h4 h5
  obtain ⟨e3, g1, g2, g3⟩ := k3 1 (.inl rfl)
  obtain ⟨e4, g4, -, -⟩ := k3 2 (.inr rfl)
  have hI := NetPartly.run (place := exPlaces sha1 json) (sha1 := sha1) (fun _ => ex_healthy sha1 json) (fun _ => rfl) hb (by rw [List.length_replicate]; omega) h0 (h1.lossy.trans k1)
  obtain ⟨G', hG, hr⟩ := hI.hosts 1
  obtain ⟨-, -, old, q3, q4⟩ := hr e3 g1
  have hl : G'.length = 5000 := by rw [hG.1, List.length_replicate]
  have hGG : G' = G := by
    have := (C33_content G' old net_cs _ e3 q4 (by intro hx; rw [hx] at hl; cases hl) g2).2 q3
    rw [g3] at this
    injection this with this
    exact this.symm
  subst hGG
  have hc := q4.count
  obtain ⟨s1, ln, m1, m2, m3, m4, m5, m6, -⟩ := hr.opens (place := exPlaces sha1 json) (sha1 := sha1) (fun _ => ex_healthy sha1 json) (fun _ => rfl) (hI.clean 1) e3 g1 0
    (g2 0 (by rw [hc, hl]; decide))
  have h0c : ln.chunk.toNat = 0 := by rw [m4]; rfl
  obtain ⟨q, l, x, r1, r2⟩ := m5.arrives (by decide) (by
    rw [h0c, List.length_take, List.length_drop, hl]; unfold CanStall; decide)
  exact ⟨s1, e3, e4, G', ln, q, l, (h1.lossy.trans k1).step _ (.plain m1) trivial, k2, by rw [m6.obs]; exact g1, by rw [m6.fs]; exact g3, by rw [m6.obs]; exact g4, m2, m3, ⟨1024, m5⟩, r1, by
    rintro rfl; simp [recvLoop] at r2⟩

end Flu
