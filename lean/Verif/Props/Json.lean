import Verif.Lemmas.Json2
import Verif.Spec.Utf8
import Verif.Props.Catalogue2
/-!
# The index file as JSON text: which names survive
-/
namespace Flu
open Flu.Json

theorem within_iff (lo hi c : UInt8) : within lo hi c = true ↔ lo.toNat ≤ c.toNat ∧ c.toNat ≤ hi.toNat := by
  simp only [within, Bool.and_eq_true, decide_eq_true_eq, UInt8.le_iff_toNat_le]

theorem toNat_ofNat8 (n : Nat) (h : n < 256) : (UInt8.ofNat n).toNat = n := by
  simp [Nat.mod_eq_of_lt h]

theorem ofNat8_eq {n : Nat} {c : UInt8} (h : n = c.toNat) : UInt8.ofNat n = c := by rw [h]; simp

/-- Encoded scalar values are recognised as characters, whatever follows. -/
theorem runeLen_utf8 (c : Nat) (hc : Spec.Scalar c) (t : Bytes) : runeLen (Spec.utf8 c ++ t) = (Spec.utf8 c).length ∧ 0 < (Spec.utf8 c).length := by
  obtain ⟨h1, h2⟩ := hc
  unfold Spec.utf8
  split
  · rename_i h
    have : UInt8.ofNat c < 0x80 := UInt8.lt_iff_toNat_lt.2 (by rw [toNat_ofNat8 c (by omega)]; exact h)
    simp [runeLen, this]
  rename_i k1
  split
  · rename_i h
    have e1 := toNat_ofNat8 (0xC0 + c / 64) (by omega)
    have e2 := toNat_ofNat8 (0x80 + c % 64) (by omega)
    generalize UInt8.ofNat (0xC0 + c / 64) = a at *
    generalize UInt8.ofNat (0x80 + c % 64) = b at *
    have a1 : ¬ a < 0x80 := by rw [UInt8.lt_iff_toNat_lt, e1]; show ¬ _ < 128; omega
    have a2 : within 0xC2 0xDF a = true := (within_iff _ _ _).2 (by rw [e1]; exact ⟨by show 194 ≤ _; omega, by show _ ≤ 223; omega⟩)
    have a3 : within 0x80 0xBF b = true := (within_iff _ _ _).2 (by rw [e2]; exact ⟨by show 128 ≤ _; omega, by show _ ≤ 191; omega⟩)
    simp [runeLen, a1, a2, a3]
  rename_i k2
  split
  · rename_i h
    have e1 := toNat_ofNat8 (0xE0 + c / 4096) (by omega)
    have e2 := toNat_ofNat8 (0x80 + c / 64 % 64) (by omega)
    have e3 := toNat_ofNat8 (0x80 + c % 64) (by omega)
    generalize UInt8.ofNat (0xE0 + c / 4096) = a at *
    generalize UInt8.ofNat (0x80 + c / 64 % 64) = b at *
    generalize UInt8.ofNat (0x80 + c % 64) = x at *
    have a1 : ¬ a < 0x80 := by rw [UInt8.lt_iff_toNat_lt, e1]; show ¬ _ < 128; omega
    have a2 : ¬ within 0xC2 0xDF a = true := by rw [within_iff, e1]; show ¬ (_ ∧ _ ≤ 223); omega
    have a3 : within 0xE0 0xEF a = true := (within_iff _ _ _).2 (by rw [e1]; exact ⟨by show 224 ≤ _; omega, by show _ ≤ 239; omega⟩)
    have a4 : within (if a = 0xE0 then 0xA0 else 0x80) (if a = 0xED then 0x9F else 0xBF) b = true := by
      rw [within_iff, e2]
      constructor
      · split
        · rename_i ha; rw [ha] at e1; have e1' : (224 : Nat) = 0xE0 + c / 4096 := e1; show 160 ≤ _; omega
        · show 128 ≤ _; omega
      · split
        · rename_i ha; rw [ha] at e1; have e1' : (237 : Nat) = 0xE0 + c / 4096 := e1; show _ ≤ 159; omega
        · show _ ≤ 191; omega
    have a5 : within 0x80 0xBF x = true := (within_iff _ _ _).2 (by rw [e3]; exact ⟨by show 128 ≤ _; omega, by show _ ≤ 191; omega⟩)
    refine ⟨?_, by simp⟩
    simp only [List.cons_append, List.nil_append, runeLen, a1, a2, a3, a4, a5, if_false, if_true, Bool.and_self, Bool.false_eq_true, List.length_cons, List.length_nil]
  · rename_i k3
    have e1 := toNat_ofNat8 (0xF0 + c / 262144) (by omega)
    have e2 := toNat_ofNat8 (0x80 + c / 4096 % 64) (by omega)
    have e3 := toNat_ofNat8 (0x80 + c / 64 % 64) (by omega)
    have e4 := toNat_ofNat8 (0x80 + c % 64) (by omega)
    generalize UInt8.ofNat (0xF0 + c / 262144) = a at *
    generalize UInt8.ofNat (0x80 + c / 4096 % 64) = b at *
    generalize UInt8.ofNat (0x80 + c / 64 % 64) = x at *
    generalize UInt8.ofNat (0x80 + c % 64) = y at *
    have a1 : ¬ a < 0x80 := by rw [UInt8.lt_iff_toNat_lt, e1]; show ¬ _ < 128; omega
    have a2 : ¬ within 0xC2 0xDF a = true := by rw [within_iff, e1]; show ¬ (_ ∧ _ ≤ 223); omega
    have a2' : ¬ within 0xE0 0xEF a = true := by rw [within_iff, e1]; show ¬ (_ ∧ _ ≤ 239); omega
    have a3 : within 0xF0 0xF4 a = true := (within_iff _ _ _).2 (by rw [e1]; exact ⟨by show 240 ≤ _; omega, by show _ ≤ 244; omega⟩)
    have a4 : within (if a = 0xF0 then 0x90 else 0x80) (if a = 0xF4 then 0x8F else 0xBF) b = true := by
      rw [within_iff, e2]
      constructor
      · split
        · rename_i ha; rw [ha] at e1; have e1' : (240 : Nat) = 0xF0 + c / 262144 := e1; show 144 ≤ _; omega
        · show 128 ≤ _; omega
      · split
        · rename_i ha; rw [ha] at e1; have e1' : (244 : Nat) = 0xF0 + c / 262144 := e1; show _ ≤ 143; omega
        · show _ ≤ 191; omega
    have a5 : within 0x80 0xBF x = true := (within_iff _ _ _).2 (by rw [e3]; exact ⟨by show 128 ≤ _; omega, by show _ ≤ 191; omega⟩)
    have a6 : within 0x80 0xBF y = true := (within_iff _ _ _).2 (by rw [e4]; exact ⟨by show 128 ≤ _; omega, by show _ ≤ 191; omega⟩)
    refine ⟨?_, by simp⟩
    simp only [List.cons_append, List.nil_append, runeLen, a1, a2, a2', a3, a4, a5, a6, if_false, if_true, Bool.and_self, Bool.false_eq_true, List.length_cons, List.length_nil]

/-- What is recognised as a character encodes a scalar value. -/
theorem utf8_of_runeLen (s : Bytes) (h : runeLen s ≠ 0) : ∃ c, Spec.Scalar c ∧ s.take (runeLen s) = Spec.utf8 c := by
  rcases s with _ | ⟨a, s⟩
  · exact absurd rfl h
  by_cases h1 : a < 0x80
  · have e : runeLen (a :: s) = 1 := by simp [runeLen, h1]
    have h1' : a.toNat < 128 := UInt8.lt_iff_toNat_lt.1 h1
    refine ⟨a.toNat, ⟨by omega, by omega⟩, ?_⟩
    rw [e, Spec.utf8, if_pos h1']
    simp
  have h1' : 128 ≤ a.toNat := UInt8.le_iff_toNat_le.1 (UInt8.not_lt.1 h1)
  have hmod : ∀ x : UInt8, x.toNat < 256 := fun x => x.toNat_lt
  by_cases h2 : within 0xC2 0xDF a = true
  · rcases s with _ | ⟨b, s⟩
    · simp [runeLen, h1, h2] at h
    by_cases hb : within 0x80 0xBF b = true
    · have e : runeLen (a :: b :: s) = 2 := by simp [runeLen, h1, h2, hb]
      rw [within_iff] at h2 hb
      have k1 : 194 ≤ a.toNat ∧ a.toNat ≤ 223 := h2
      have k2 : 128 ≤ b.toNat ∧ b.toNat ≤ 191 := hb
      refine ⟨(a.toNat - 192) * 64 + (b.toNat - 128), ⟨by omega, by omega⟩, ?_⟩
      rw [e, Spec.utf8, if_neg (by omega), if_pos (by omega), ofNat8_eq (c := a) (by omega), ofNat8_eq (c := b) (by omega)]
      rfl
    · simp [runeLen, h1, h2, hb] at h
  by_cases h3 : within 0xE0 0xEF a = true
  · rcases s with _ | ⟨b, _ | ⟨x, s⟩⟩
    · simp [runeLen, h1, h2, h3] at h
    · simp [runeLen, h1, h2, h3] at h
    by_cases hb : (within (if a = 0xE0 then 0xA0 else 0x80) (if a = 0xED then 0x9F else 0xBF) b && within 0x80 0xBF x) = true
    · have e : runeLen (a :: b :: x :: s) = 3 := by simp only [runeLen, h1, if_false, h2, h3, if_true, hb, Bool.false_eq_true]
      rw [Bool.and_eq_true, within_iff, within_iff] at hb
      rw [within_iff] at h3
      have k1 : 224 ≤ a.toNat ∧ a.toNat ≤ 239 := h3
      have k3 : 128 ≤ x.toNat ∧ x.toNat ≤ 191 := hb.2
      have k2 : (a.toNat = 224 → 160 ≤ b.toNat) ∧ (a.toNat = 237 → b.toNat ≤ 159) ∧ 128 ≤ b.toNat ∧ b.toNat ≤ 191 := by
        obtain ⟨⟨u, v⟩, -⟩ := hb
        refine ⟨fun ha => ?_, fun ha => ?_, ?_, ?_⟩
        · rw [if_pos (UInt8.toNat_inj.1 ha)] at u; exact u
        · rw [if_pos (UInt8.toNat_inj.1 ha)] at v; exact v
        · split at u
          · have : 160 ≤ b.toNat := u; omega
          · exact u
        · split at v
          · have : b.toNat ≤ 159 := v; omega
          · exact v
      refine ⟨(a.toNat - 224) * 4096 + (b.toNat - 128) * 64 + (x.toNat - 128), ⟨by omega, by omega⟩, ?_⟩
      rw [e, Spec.utf8, if_neg (by omega), if_neg (by omega), if_pos (by omega), ofNat8_eq (c := a) (by omega), ofNat8_eq (c := b) (by omega),
        ofNat8_eq (c := x) (by omega)]
      rfl
    · exfalso; apply h
      simp only [runeLen, h1, if_false, h2, h3, if_true, hb, Bool.false_eq_true]
  by_cases h4 : within 0xF0 0xF4 a = true
  · rcases s with _ | ⟨b, _ | ⟨x, _ | ⟨y, s⟩⟩⟩
    · simp [runeLen, h1, h2, h3, h4] at h
    · simp [runeLen, h1, h2, h3, h4] at h
    · simp [runeLen, h1, h2, h3, h4] at h
    by_cases hb : (within (if a = 0xF0 then 0x90 else 0x80) (if a = 0xF4 then 0x8F else 0xBF) b && within 0x80 0xBF x && within 0x80 0xBF y) = true
    · have e : runeLen (a :: b :: x :: y :: s) = 4 := by simp only [runeLen, h1, if_false, h2, h3, h4, if_true, hb, Bool.false_eq_true]
      rw [Bool.and_eq_true, Bool.and_eq_true, within_iff, within_iff, within_iff] at hb
      rw [within_iff] at h4
      have k1 : 240 ≤ a.toNat ∧ a.toNat ≤ 244 := h4
      have k3 : 128 ≤ x.toNat ∧ x.toNat ≤ 191 := hb.1.2
      have k4 : 128 ≤ y.toNat ∧ y.toNat ≤ 191 := hb.2
      have k2 : (a.toNat = 240 → 144 ≤ b.toNat) ∧ (a.toNat = 244 → b.toNat ≤ 143) ∧ 128 ≤ b.toNat ∧ b.toNat ≤ 191 := by
        obtain ⟨⟨⟨u, v⟩, -⟩, -⟩ := hb
        refine ⟨fun ha => ?_, fun ha => ?_, ?_, ?_⟩
        · rw [if_pos (UInt8.toNat_inj.1 ha)] at u; exact u
        · rw [if_pos (UInt8.toNat_inj.1 ha)] at v; exact v
        · split at u
          · have : 144 ≤ b.toNat := u; omega
          · exact u
        · split at v
          · have : b.toNat ≤ 143 := v; omega
          · exact v
      refine ⟨(a.toNat - 240) * 262144 + (b.toNat - 128) * 4096 + (x.toNat - 128) * 64 + (y.toNat - 128), ⟨by omega, by omega⟩, ?_⟩
      rw [e, Spec.utf8, if_neg (by omega), if_neg (by omega), if_neg (by omega), ofNat8_eq (c := a) (by omega), ofNat8_eq (c := b) (by omega),
        ofNat8_eq (c := x) (by omega), ofNat8_eq (c := y) (by omega)]
      rfl
    · exfalso; apply h
      simp only [runeLen, h1, if_false, h2, h3, h4, if_true, hb, Bool.false_eq_true]
  · simp [runeLen, h1, h2, h3, h4] at h

/-- C68: a string comes back from the index file unchanged exactly if it is text. -/
theorem C68_text (s : GoString) : goJson.fix s = s ↔ Spec.IsText s := by
  show Json.fix s = s ↔ _
  constructor
  · induction s using chars_induction with
    | h0 => intro _; exact ⟨[], by simp, rfl⟩
    | hbad a s h ih =>
      intro he
      rw [fix_invalid a s h] at he
      exfalso
      have : replacement ++ Json.fix s = [0xEF, 0xBF, 0xBD] ++ Json.fix s := rfl
      rw [this] at he
      rw [← he] at h
      simp [runeLen, within] at h
    | hone a s ha h ih =>
      intro he
      have h1 := fix_valid [a] s 0 rfl (h s)
      rw [List.singleton_append] at h1
      rw [h1] at he
      obtain ⟨cs, hcs, e⟩ := ih (List.cons.inj he).2
      obtain ⟨c, hc, e2⟩ := utf8_of_runeLen (a :: s) (by rw [h s]; decide)
      rw [h s] at e2
      refine ⟨c :: cs, ?_, ?_⟩
      · intro x hx; rcases List.mem_cons.1 hx with rfl | hx
        · exact hc
        · exact hcs x hx
      · rw [List.flatMap_cons, ← e2, ← e]; rfl
    | hmore w s k hw hc h ih =>
      intro he
      rw [fix_valid w s _ hw (h s)] at he
      obtain ⟨cs, hcs, e⟩ := ih (List.append_cancel_left he)
      obtain ⟨c, hsc, e2⟩ := utf8_of_runeLen (w ++ s) (by rw [h s]; omega)
      rw [h s, List.take_left' hw] at e2
      refine ⟨c :: cs, ?_, ?_⟩
      · intro x hx; rcases List.mem_cons.1 hx with rfl | hx
        · exact hsc
        · exact hcs x hx
      · rw [List.flatMap_cons, ← e2, ← e]
  · rintro ⟨cs, hcs, rfl⟩
    induction cs with
    | nil => rfl
    | cons c cs ih =>
      rw [List.flatMap_cons]
      obtain ⟨h1, h2⟩ := runeLen_utf8 c (hcs c (by simp)) (cs.flatMap Spec.utf8)
      rw [fix_valid (Spec.utf8 c) _ ((Spec.utf8 c).length - 1) (by omega) (by rw [h1]; omega), ih (fun x hx => hcs x (by simp [hx]))]


/-! ### What a restart does to names -/

section
variable {env : Env} {d dl : Path} {c : Cat} {fs : FS}

/-- A data directory with a text name is healthy when JSON is Go's. -/
theorem C68_healthy (hj : env.json = goJson) : Healthy env d ↔ AbsClean d ∧ Spec.IsText d := by
  constructor
  · intro h; exact ⟨h.abs, (C68_text d).1 (hj ▸ h.utf8)⟩
  · intro h; exact ⟨h.1, by rw [hj]; exact (C68_text d).2 h.2⟩

/-- The claim in full: a restart changes nothing the daemon shows, whatever the names of the files. -/
def C68_statement : Prop :=
  ∀ (env : Env) (d dl : Path) (c : Cat) (fs : FS), env.json = goJson → AbsClean d → Spec.IsText d → CleanReach env d dl (.running c fs) → ∀ pid now : Int,
    ∃ c', Cat.init { env with pid := pid, now := now } ⟨⟨d, dl, none⟩, fs, []⟩ = (.ok (), ⟨c', fs, []⟩) ∧ ∀ h, observe c' fs h = observe c fs h

/-- What of C68 is true: a restart keeps hash, size, chunk size and progress of every record, and it keeps the path exactly when the path is text.
Missing: records whose path is not text; their path changes. -/
theorem C68_partial (hj : env.json = goJson) (hd : AbsClean d) (ht : Spec.IsText d) (hr : CleanReach env d dl (.running c fs)) (pid now : Int) :
    ∃ c', Cat.init { env with pid := pid, now := now } ⟨⟨d, dl, none⟩, fs, []⟩ = (.ok (), ⟨c', fs, []⟩) ∧
      ∀ h, (observe c fs h = .err .fileNotFound ∧ observe c' fs h = .err .fileNotFound) ∨
        ∃ e p', observe c fs h = .ok e ∧ observe c' fs h = .ok { e with filePath := p' } ∧ Spec.IsText p' ∧ (p' = e.filePath ↔ Spec.IsText e.filePath) := by
  have hh : Healthy env d := (C68_healthy hj).2 ⟨hd, ht⟩
  obtain ⟨c', h1, -, h2, h3, h4⟩ := C30_restart hh hr pid now
  refine ⟨c', h1, fun h => ?_⟩
  rcases h4 h with ⟨e, he⟩ | he
  · refine .inr ⟨e, goJson.fix e.filePath, he, ?_, (C68_text _).1 (goJson.fix_idem _), C68_text _⟩
    rw [h2 h e he, hj]; rfl
  · exact .inl ⟨he, h3 h he⟩

end

/-- Files of the example: `/\xff` holds 1, 2, 3. -/
def ex68FS : FS := fun p => if p = absOf [[255]] then some [1, 2, 3] else none

theorem ex68_plain : ∀ e ∈ ([[255]] : List GoString), Plain e := by
  intro e he
  simp only [List.mem_singleton] at he
  subst he
  exact ⟨by decide, by decide, by decide, by decide⟩

theorem ex68_not_catFile : ¬ CatFile exDir (absOf [[255]]) := by
  have hd := ex_plain 100 (by simp)
  rintro (e | ⟨x, e⟩)
  · rw [exDir, indexPath_abs _ hd] at e
    have := absOf_inj _ _ ex68_plain (plain_snoc hd plain_indexFileName) e
    simp at this
  · rw [exDir, progressPath_abs _ hd] at e
    have := absOf_inj _ _ ex68_plain (plain_snoc hd (plain_hash x)) e
    simp at this

theorem ex68_fs_clean : ∀ p, CatFile exDir p → ex68FS p = none := by
  intro p hp
  unfold ex68FS
  rw [if_neg]
  rintro rfl
  exact ex68_not_catFile hp

/-- A daemon that shares the file named by the single byte 255. -/
theorem ex68_shared (sha1 : Bytes → Sha1Hash) : ∃ c fs b, CleanReach (exEnv sha1 goJson) exDir exDown (.running c fs) ∧
    observe c fs (sha1 [1, 2, 3]) = .ok ⟨[47, 255], 3, sha1 [1, 2, 3], b, 4194304⟩ := by
  have hh := ex_healthy sha1 goJson
  have h0 := CleanReach.fresh (exEnv sha1 goJson) exDir exDown hh.utf8 ex68FS ex68_fs_clean
  have e : absPath (exEnv sha1 goJson).cwd [255] = absOf [[255]] := by show absPath [47] [255] = [47, 255]; decide
  have hf : (ex68FS.put (indexPath exDir) (some ((exEnv sha1 goJson).json.enc (freshIdx (exEnv sha1 goJson) exDir).toJSON))) (absPath (exEnv sha1 goJson).cwd [255]) = some [1, 2, 3] := by
    rw [e, FS.put_other _ _ _ _ (fun h => ex68_not_catFile (.inl h))]
    simp [ex68FS]
  obtain ⟨r, s', h⟩ := shareFile_total (exEnv sha1 goJson) [255] exDir exDown (freshIdx (exEnv sha1 goJson) exDir) _ [1, 2, 3] hf rfl (by decide)
  have hreach := CleanReach.call (.share [255]) _ _ (.ok ()) s' h0 trivial (CM.void_ok _ _ _ _ h) rfl
  obtain ⟨content, h1, -, h3, -⟩ := C26_share hh h0.reach [255] [] r s' h
  rw [hf] at h1; cases h1
  obtain ⟨b, hb, -⟩ := h3 (by decide)
  rw [e] at hb
  exact ⟨_, _, b, hreach, hb⟩

/-- C68 is false of the code: after sharing the file named by the byte 255 and restarting, the daemon serves that hash from another path. -/
theorem C68_refuted : ¬ C68_statement := by
  intro hst
  let sha1 : Bytes → Sha1Hash := fun _ => ⟨List.replicate 20 0, by simp⟩
  obtain ⟨c, fs, b, hr, ho⟩ := ex68_shared sha1
  have hh := (C68_healthy (env := exEnv sha1 goJson) (d := exDir) rfl).1 (ex_healthy sha1 goJson)
  obtain ⟨c', h1, h2⟩ := hst (exEnv sha1 goJson) exDir exDown c fs rfl hh.1 hh.2 hr 0 0
  obtain ⟨c'', h3, h4⟩ := C68_partial rfl hh.1 hh.2 hr 0 0
  rw [h1] at h3
  cases h3
  rcases h4 (sha1 [1, 2, 3]) with ⟨h5, -⟩ | ⟨e, p', h5, h6, h7, h8⟩
  · rw [ho] at h5; cases h5
  · rw [h2, h5] at h6
    have h9 : e = { e with filePath := p' } := by injection h6
    have h10 : e.filePath = p' := by rw [h9]
    rw [ho] at h5
    have h11 : e.filePath = [47, 255] := by injection h5 with h5; rw [← h5]
    rw [← h10, h11] at h7
    have h12 := (C68_text _).2 h7
    revert h12
    show ¬ (Json.fix [47, 255] = [47, 255])
    decide

/-- `C68_partial`: a catalogue with a record whose path is text, and one with a record whose path is not. -/
example (sha1 : Bytes → Sha1Hash) : ∃ c fs e, CleanReach (exEnv sha1 goJson) exDir exDown (.running c fs) ∧ AbsClean exDir ∧ Spec.IsText exDir ∧
    observe c fs (sha1 [1, 2, 3]) = .ok e ∧ Spec.IsText e.filePath := by
  obtain ⟨c, fs, b, h1, -, h2, -⟩ := ex_clean sha1 goJson
  have hh := (C68_healthy (env := exEnv sha1 goJson) (d := exDir) rfl).1 (ex_healthy sha1 goJson)
  exact ⟨c, fs, _, h1, hh.1, hh.2, h2, (C68_text _).1 (by show Json.fix [47, 102] = [47, 102]; decide)⟩

example (sha1 : Bytes → Sha1Hash) : ∃ c fs e, CleanReach (exEnv sha1 goJson) exDir exDown (.running c fs) ∧ AbsClean exDir ∧ Spec.IsText exDir ∧
    observe c fs (sha1 [1, 2, 3]) = .ok e ∧ ¬ Spec.IsText e.filePath := by
  obtain ⟨c, fs, b, h1, h2⟩ := ex68_shared sha1
  have hh := (C68_healthy (env := exEnv sha1 goJson) (d := exDir) rfl).1 (ex_healthy sha1 goJson)
  refine ⟨c, fs, _, h1, hh.1, hh.2, h2, fun h => ?_⟩
  have h12 := (C68_text _).2 h
  revert h12
  show ¬ (Json.fix [47, 255] = [47, 255])
  decide

/-- Text includes names outside ASCII: `é`, `€`, and a character outside the basic plane. -/
example : Spec.IsText [0xC3, 0xA9, 0xE2, 0x82, 0xAC, 0xF0, 0x9F, 0x98, 0x80] :=
  ⟨[0xE9, 0x20AC, 0x1F600], by unfold Spec.Scalar; decide, by decide⟩

/-! ### Data directories whose name is not text -/

theorem runeLen_slash (a : UInt8) (s b : Bytes) (h : runeLen (a :: s) = 0) : runeLen (a :: (s ++ 47 :: b)) = 0 := by
  have hw : within 0x80 0xBF 47 = false := by decide
  have hw1 : ∀ lo hi : UInt8, 0x80 ≤ lo → within lo hi 47 = false := by
    intro lo hi hl
    simp only [within, Bool.and_eq_false_iff, decide_eq_false_iff_not, UInt8.le_iff_toNat_le] at hl ⊢
    left
    have : (47 : UInt8).toNat = 47 := rfl
    have : (0x80 : UInt8).toNat = 128 := rfl
    omega
  have hl1 : (0x80 : UInt8) ≤ (if a = 0xE0 then 0xA0 else 0x80) := by split <;> decide
  have hl2 : (0x80 : UInt8) ≤ (if a = 0xF0 then 0x90 else 0x80) := by split <;> decide
  have h1 := hw1 _ (if a = 0xED then 0x9F else 0xBF) hl1
  have h2 := hw1 _ (if a = 0xF4 then 0x8F else 0xBF) hl2
  simp only [runeLen] at h ⊢
  by_cases c1 : a < 0x80
  · rw [if_pos c1] at h; cases h
  rw [if_neg c1] at h ⊢
  by_cases c2 : within 0xC2 0xDF a = true
  · rw [if_pos c2] at h ⊢
    rcases s with _ | ⟨x, s⟩
    · simp [hw]
    · exact h
  rw [if_neg c2] at h ⊢
  by_cases c3 : within 0xE0 0xEF a = true
  · rw [if_pos c3] at h ⊢
    rcases s with _ | ⟨x, _ | ⟨y, s⟩⟩
    · rcases b with _ | ⟨y, b⟩
      · rfl
      · simp only [List.nil_append, h1, Bool.false_and, Bool.false_eq_true, if_false]
    · simp only [List.cons_append, List.nil_append, hw, Bool.and_false, Bool.false_eq_true, if_false]
    · exact h
  rw [if_neg c3] at h ⊢
  by_cases c4 : within 0xF0 0xF4 a = true
  · rw [if_pos c4] at h ⊢
    rcases s with _ | ⟨x, _ | ⟨y, _ | ⟨z, s⟩⟩⟩
    · rcases b with _ | ⟨y, _ | ⟨z, b⟩⟩
      · rfl
      · rfl
      · simp only [List.nil_append, h2, Bool.false_and, Bool.false_eq_true, if_false]
    · rcases b with _ | ⟨z, b⟩
      · rfl
      · simp only [List.cons_append, List.nil_append, hw, Bool.and_false, Bool.false_and, Bool.false_eq_true, if_false]
    · simp only [List.cons_append, List.nil_append, hw, Bool.and_false, Bool.false_eq_true, if_false]
    · exact h
  rw [if_neg c4]

theorem fix_slash (a b : GoString) : Json.fix (a ++ slash :: b) = Json.fix a ++ slash :: Json.fix b := by
  induction a using chars_induction with
  | h0 => exact fix_valid [47] b 0 rfl (by simp [runeLen])
  | hbad x s h ih => rw [fix_invalid x s h, List.cons_append, fix_invalid x (s ++ slash :: b) (runeLen_slash x s b h), ih, List.append_assoc]
  | hone x s hx h ih =>
    have h1 := fix_valid [x] (s ++ slash :: b) 0 rfl (h _)
    have h2 := fix_valid [x] s 0 rfl (h _)
    simp only [List.singleton_append] at h1 h2
    rw [List.cons_append, h1, h2, ih, List.cons_append]
  | hmore w s k hw hc h ih => rw [List.append_assoc, fix_valid w _ _ hw (h _), fix_valid w s _ hw (h _), ih, List.append_assoc]

theorem mem_fix (c : UInt8) (hc : c < 0x80) (s : GoString) : c ∈ Json.fix s → c ∈ s := by
  induction s using chars_induction with
  | h0 => exact id
  | hbad x s h ih =>
    rw [fix_invalid x s h, List.mem_append]
    rintro (h1 | h1)
    · exfalso
      simp only [replacement, List.mem_cons, List.not_mem_nil, or_false] at h1
      rcases h1 with rfl | rfl | rfl <;> revert hc <;> decide
    · exact List.mem_cons_of_mem _ (ih h1)
  | hone x s hx h ih =>
    have h2 := fix_valid [x] s 0 rfl (h _)
    simp only [List.singleton_append] at h2
    rw [h2, List.mem_cons, List.mem_cons]
    rintro (h1 | h1)
    · exact .inl h1
    · exact .inr (ih h1)
  | hmore w s k hw hc h ih =>
    rw [fix_valid w s _ hw (h _), List.mem_append, List.mem_append]
    rintro (h1 | h1)
    · exact .inl h1
    · exact .inr (ih h1)

theorem fix_of_ascii (s : GoString) (h : isAscii (Json.fix s)) : Json.fix s = s := by
  induction s using chars_induction with
  | h0 => rfl
  | hbad x s h1 ih =>
    rw [fix_invalid x s h1] at h
    have := h 0xEF (by simp [replacement])
    exfalso; revert this; decide
  | hone x s hx h1 ih =>
    have h2 := fix_valid [x] s 0 rfl (h1 _)
    simp only [List.singleton_append] at h2
    rw [h2] at h ⊢
    rw [ih (fun c hc => h c (by simp [hc]))]
  | hmore w s k hw hc h1 ih =>
    rw [fix_valid w s _ hw (h1 _)] at h ⊢
    rw [ih (fun c hc => h c (by simp [hc]))]

theorem fix_plain (e : GoString) (h : Plain e) : Plain (Json.fix e) := by
  have key : ∀ w : GoString, isAscii w → e ≠ w → Json.fix e ≠ w := by
    intro w hw hne he
    exact hne ((fix_of_ascii e (he ▸ hw)).symm.trans he)
  refine ⟨key [] (by intro c hc; cases hc) h.ne_nil, key dot ?_ h.ne_dot, key dotdot ?_ h.ne_dotdot, fun hm => h.no_slash (mem_fix _ (by decide) _ hm)⟩
  · unfold isAscii; decide
  · unfold isAscii; decide

theorem fix_absOf (es : List GoString) : Json.fix (absOf es) = absOf (es.map Json.fix) := by
  have hj : Json.fix (joinSlash es) = joinSlash (es.map Json.fix) := by
    induction es with
    | nil => rfl
    | cons e es ih =>
      rcases es with _ | ⟨f, es⟩
      · rfl
      · simp only [joinSlash, List.map_cons] at ih ⊢
        rw [fix_slash, ih]
  show Json.fix (slash :: joinSlash es) = slash :: joinSlash (es.map Json.fix)
  have := fix_slash [] (joinSlash es)
  rw [List.nil_append, fix_nil, List.nil_append] at this
  rw [this, hj]

theorem absClean_fix (d : Path) (h : AbsClean d) : AbsClean (Json.fix d) := by
  obtain ⟨es, he, rfl⟩ := h
  refine ⟨es.map Json.fix, ?_, fix_absOf es⟩
  intro e hm
  obtain ⟨x, hx, rfl⟩ := List.mem_map.1 hm
  exact fix_plain x (he x hx)

theorem indexPath_inj (d d' : Path) (h : AbsClean d) (h' : AbsClean d') (e : indexPath d = indexPath d') : d = d' := by
  obtain ⟨es, he, rfl⟩ := h
  obtain ⟨es', he', rfl⟩ := h'
  rw [indexPath_abs _ he, indexPath_abs _ he'] at e
  have := absOf_inj _ _ (plain_snoc he plain_indexFileName) (plain_snoc he' plain_indexFileName) e
  rw [List.append_cancel_right this]

/-- The first start in any directory. -/
theorem init_nil_first (env : Env) (d dl : Path) (oi : Option IndexFile) (fs : FS) (hf : fs (indexPath d) = none) :
    Cat.init env ⟨⟨d, dl, oi⟩, fs, []⟩ =
      (.ok (), ⟨⟨d, dl, some (freshIdx env (env.json.fix d))⟩, fs.put (indexPath d) (some (env.json.enc (freshIdx env d).toJSON)), []⟩) := by
  obtain ⟨m, h1, h2, h3⟩ := unmarshal_marshal env (freshIdx env d) (by simp [freshIdx])
  have hm : m = [] := mapGet_all_none m (fun k => by rw [h3]; rfl)
  subst hm
  unfold Cat.init
  have e : ∀ d, (freshIdx env d) = { pid := env.pid, lastTouched := env.now, index := [], dataDir := d } := fun _ => rfl
  rw [e] at h1
  simp only [IOM.bind_apply, getCat_apply, setIndex_eval, osTouch_nil, osStat_nil, hf, Option.map_none, saveIndex_nil, osReadFile_nil,
    FS.put_same, IOM.lift_apply, h1, e]

/-- The claim in full: whatever the data directory is called, a file shared with a daemon started there is still shared after a restart. -/
def C69_statement : Prop :=
  ∀ (env : Env) (d dl : Path) (fs : FS) (path : GoString) (content : Bytes), env.json = goJson → AbsClean d → AbsClean env.cwd → (∀ p, CatFile d p → fs p = none) →
    fs (absPath env.cwd path) = some content → content.length < 2 ^ 63 →
    ∃ s1 r s2, Cat.init env ⟨⟨d, dl, none⟩, fs, []⟩ = (.ok (), s1) ∧ shareFile env path s1 = (.ok r, s2) ∧
      ∀ pid now : Int, ∃ s3 e, Cat.init { env with pid := pid, now := now } ⟨⟨d, dl, none⟩, s2.fs, []⟩ = (.ok (), s3) ∧ observe s3.cat s3.fs (env.sha1 content) = .ok e

/-- C69 fails in every directory whose name is not text: sharing reports success and shows the file, and after a restart the daemon shows nothing at all. -/
theorem C69_lost (env : Env) (d dl : Path) (fs : FS) (path : GoString) (content : Bytes) (hj : env.json = goJson) (hd : AbsClean d) (ht : ¬ Spec.IsText d)
    (hfs : ∀ p, CatFile d p → fs p = none) (hf : fs (absPath env.cwd path) = some content) (hl : content.length < 2 ^ 63) :
    ∃ s1 r s2, Cat.init env ⟨⟨d, dl, none⟩, fs, []⟩ = (.ok (), s1) ∧ shareFile env path s1 = (.ok r, s2) ∧
      (∃ e, observe s2.cat s2.fs (env.sha1 content) = .ok e ∧ e.filePath = absPath env.cwd path) ∧
      ∀ pid now : Int, ∃ s3, Cat.init { env with pid := pid, now := now } ⟨⟨d, dl, none⟩, s2.fs, []⟩ = (.ok (), s3) ∧ ∀ h, observe s3.cat s3.fs h = .err .fileNotFound := by
  have hne : env.json.fix d ≠ d := by rw [hj]; exact fun h => ht ((C68_text d).1 h)
  have hd' : AbsClean (env.json.fix d) := by rw [hj]; exact absClean_fix d hd
  have h1 := init_nil_first env d dl none fs (hfs _ (.inl rfl))
  have hnc : absPath env.cwd path ≠ indexPath d := by
    intro e; rw [e, hfs _ (.inl rfl)] at hf; cases hf
  have hf1 : (fs.put (indexPath d) (some (env.json.enc (freshIdx env d).toJSON))) (absPath env.cwd path) = some content := by
    rw [FS.put_other _ _ _ _ hnc, hf]
  obtain ⟨r, s2, h2⟩ := shareFile_total env path d dl (freshIdx env (env.json.fix d)) _ content hf1 rfl hl
  refine ⟨_, r, s2, h1, h2, ?_, ?_⟩
  · obtain ⟨content', p, full, m1, g1, -, g3, g4, g5, g6, -⟩ := shareFile_nil_ok env path d dl _ _ r s2 h2
    rw [hf1] at g1; cases g1
    rw [g6]
    simp only
    rw [observe_eq]
    unfold obsRec
    rw [mapGet_put, if_pos rfl]
    refine ⟨⟨r.filePath, r.sizeInBytes, r.sha1Hash, full, r.chunkSize⟩, ?_, ?_⟩
    · rw [g5]; rfl
    · rw [g5]
  · intro pid now
    obtain ⟨content', p, full, m1, g1, g2, g3, g4, g5, g6, g7, g8⟩ := shareFile_nil_ok env path d dl _ _ r s2 h2
    rw [hf1] at g1; cases g1
    obtain ⟨hp, -⟩ := newProgressFile_ok _ (asInt64_lt _) (by show (0 : Int) ≤ 4194304; omega) p g3
    have hfin : s2.fs (indexPath d) = some (env.json.enc (freshIdx env d).toJSON) := by
      rw [g6]
      simp only
      rw [FS.put_other _ _ _ _ (by rw [hp]; exact indexPath_ne_progressPath d d hd hd _),
        FS.put_other _ _ _ _ (show indexPath d ≠ indexPath (freshIdx env (env.json.fix d)).dataDir from fun e => hne (indexPath_inj _ _ hd hd' e).symm), FS.put_same]
    obtain ⟨m, k1, -, k3⟩ := init_nil_old { env with pid := pid, now := now } d dl none s2.fs (freshIdx env d) (by simp [freshIdx]) hfin
    refine ⟨_, k1, fun h => ?_⟩
    simp only
    rw [observe_eq]
    unfold obsRec
    rw [k3]
    rfl

/-- What of C69 is true: the claim, for data directories whose name is text.  Missing: the others, where `C69_lost` shows the opposite. -/
theorem C69_partial (env : Env) (d dl : Path) (fs : FS) (path : GoString) (content : Bytes) (hj : env.json = goJson) (hd : AbsClean d) (ht : Spec.IsText d)
    (hfs : ∀ p, CatFile d p → fs p = none) (hf : fs (absPath env.cwd path) = some content) (hl : content.length < 2 ^ 63) :
    ∃ s1 r s2, Cat.init env ⟨⟨d, dl, none⟩, fs, []⟩ = (.ok (), s1) ∧ shareFile env path s1 = (.ok r, s2) ∧
      ∀ pid now : Int, ∃ s3 e, Cat.init { env with pid := pid, now := now } ⟨⟨d, dl, none⟩, s2.fs, []⟩ = (.ok (), s3) ∧ observe s3.cat s3.fs (env.sha1 content) = .ok e := by
  have hh : Healthy env d := (C68_healthy hj).2 ⟨hd, ht⟩
  have h1 := init_nil_fresh env d dl none fs hh.utf8 (hfs _ (.inl rfl))
  have hr := CleanReach.fresh env d dl hh.utf8 fs hfs
  have hnc : absPath env.cwd path ≠ indexPath d := by
    intro e; rw [e, hfs _ (.inl rfl)] at hf; cases hf
  have hf1 : (fs.put (indexPath d) (some (env.json.enc (freshIdx env d).toJSON))) (absPath env.cwd path) = some content := by
    rw [FS.put_other _ _ _ _ hnc, hf]
  obtain ⟨r, s2, h2⟩ := shareFile_total env path d dl (freshIdx env d) _ content hf1 rfl hl
  refine ⟨_, r, s2, h1, h2, fun pid now => ?_⟩
  have hreach := CleanReach.call (.share path) _ _ (.ok ()) s2 hr trivial (CM.void_ok _ _ _ _ h2) rfl
  obtain ⟨content', k1, -, k3, -⟩ := C26_share hh hr.reach path [] r s2 h2
  rw [hf1] at k1; cases k1
  obtain ⟨b, hb, -⟩ := k3 hl
  obtain ⟨c', g1, g2⟩ := C68_partial hj hd ht hreach pid now
  rcases g2 (env.sha1 content) with ⟨g3, -⟩ | ⟨e, p', g3, g4, -⟩
  · rw [hb] at g3; cases g3
  · exact ⟨_, _, g1, g4⟩

/-- C69 is false of the code. -/
theorem C69_refuted : ¬ C69_statement := by
  intro hst
  let env : Env := exEnv (fun _ => ⟨List.replicate 20 0, by simp⟩) goJson
  have hcl : AbsClean (absOf [[255]]) := ⟨_, ex68_plain, rfl⟩
  have hnt : ¬ Spec.IsText (absOf [[255]]) := by
    intro h
    have := (C68_text _).2 h
    revert this
    show ¬ (Json.fix [47, 255] = [47, 255])
    decide
  have e : absPath env.cwd [102] = absOf [[102]] := by show absPath [47] [102] = [47, 102]; decide
  have hfs : ∀ p, CatFile (absOf [[255]]) p → exFS p = none := by
    intro p hp
    unfold exFS
    rw [if_neg]
    rintro rfl
    have hd := ex68_plain
    rcases hp with e | ⟨x, e⟩
    · rw [indexPath_abs _ hd] at e
      have := absOf_inj _ _ (ex_plain 102 (by simp)) (plain_snoc hd plain_indexFileName) e
      simp at this
    · rw [progressPath_abs _ hd] at e
      have := absOf_inj _ _ (ex_plain 102 (by simp)) (plain_snoc hd (plain_hash x)) e
      simp at this
  have hf : exFS (absPath env.cwd [102]) = some [1, 2, 3] := by rw [e]; simp [exFS]
  have hcwd : AbsClean env.cwd := ⟨[], by simp, rfl⟩
  obtain ⟨s1, r, s2, h1, h2, h3⟩ := hst env (absOf [[255]]) exDown exFS [102] [1, 2, 3] rfl hcl hcwd hfs hf (by decide)
  obtain ⟨s1', r', s2', k1, k2, -, k3⟩ := C69_lost env (absOf [[255]]) exDown exFS [102] [1, 2, 3] rfl hcl hnt hfs hf (by decide)
  rw [h1] at k1; cases k1
  rw [h2] at k2; cases k2
  obtain ⟨s3, e3, h4, h5⟩ := h3 0 0
  obtain ⟨s3', k4, k5⟩ := k3 0 0
  rw [h4] at k4; cases k4
  rw [k5] at h5; cases h5

/-- `C69_partial`: the data directory of the running example. -/
example (sha1 : Bytes → Sha1Hash) : (exEnv sha1 goJson).json = goJson ∧ AbsClean exDir ∧ Spec.IsText exDir ∧ (∀ p, CatFile exDir p → exFS p = none) ∧
    exFS (absPath (exEnv sha1 goJson).cwd [102]) = some [1, 2, 3] := by
  have hh := (C68_healthy (env := exEnv sha1 goJson) (d := exDir) rfl).1 (ex_healthy sha1 goJson)
  refine ⟨rfl, hh.1, hh.2, ex_fs_clean, ?_⟩
  have e : absPath (exEnv sha1 goJson).cwd [102] = absOf [[102]] := by show absPath [47] [102] = [47, 102]; decide
  rw [e]; simp [exFS]

end Flu
