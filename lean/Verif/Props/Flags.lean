import Verif.Model.Flags
import Verif.Props.Cli
/-!
# What a command line makes of the process (C130)
-/
namespace Flu
namespace Spec

/-- One or two minus signs. -/
def IsDash (s : GoString) : Prop := s = Json.ascii "-" ∨ s = Json.ascii "--"

/-- Words for yes and for no. -/
def IsYes (v : GoString) : Prop := v ∈ ["1", "t", "T", "true", "TRUE", "True"].map Json.ascii
def IsNo (v : GoString) : Prop := v ∈ ["0", "f", "F", "false", "FALSE", "False"].map Json.ascii

/-- The argument asks for the daemon, or for no daemon. -/
inductive SetsDaemon : GoString → Bool → Prop
  | plain (dash : GoString) (h : IsDash dash) : SetsDaemon (dash ++ Json.ascii "d") true
  | yes (dash v : GoString) (h : IsDash dash) (hv : IsYes v) : SetsDaemon (dash ++ Json.ascii "d=" ++ v) true
  | no (dash v : GoString) (h : IsDash dash) (hv : IsNo v) : SetsDaemon (dash ++ Json.ascii "d=" ++ v) false

/-- The argument asks for help. -/
inductive AsksHelp : GoString → Prop
  | plain (dash w : GoString) (h : IsDash dash) (hw : w = Json.ascii "h" ∨ w = Json.ascii "help") : AsksHelp (dash ++ w)
  | value (dash w v : GoString) (h : IsDash dash) (hw : w = Json.ascii "h" ∨ w = Json.ascii "help") : AsksHelp (dash ++ w ++ Json.ascii "=" ++ v)

/-- The argument looks like a flag: a minus sign and something after it, but not `--` alone. -/
def LooksFlag (s : GoString) : Prop := ∃ r, r ≠ [] ∧ s = 45 :: r ∧ s ≠ Json.ascii "--"

/-- The arguments begin with these settings of the daemon flag. -/
inductive Settings : List GoString → List Bool → List GoString → Prop
  | none (rest : List GoString) : Settings rest [] rest
  | more {s : GoString} {b : Bool} {args : List GoString} {bs : List Bool} {rest : List GoString} (h : SetsDaemon s b) (hr : Settings args bs rest) : Settings (s :: args) (b :: bs) rest

end Spec

/-! ### One argument -/

theorem cutEq_some (l p v : GoString) : cutEq l = (p, some v) ↔ l = p ++ 61 :: v ∧ (61 : UInt8) ∉ p := by
  induction l generalizing p with
  | nil => simp [cutEq]
  | cons c r ih =>
    rw [cutEq]
    split
    · rename_i hc
      subst hc
      cases p with
      | nil => simp
      | cons q p => simp only [Prod.mk.injEq, List.cons_append, List.cons.injEq, List.mem_cons, not_or]; constructor
                    · rintro ⟨h, -⟩; cases h
                    · rintro ⟨⟨h, -⟩, h', -⟩; exact absurd h h'
    · rename_i hc
      cases p with
      | nil => simp [hc]
      | cons q p =>
        have := ih p
        constructor
        · intro h
          rw [Prod.mk.injEq, List.cons.injEq] at h
          obtain ⟨hl, hn⟩ := this.1 (Prod.ext h.1.2 h.2)
          rw [← h.1.1, List.cons_append, ← hl]
          exact ⟨rfl, fun hm => (List.mem_cons.1 hm).elim (fun h => hc h.symm) hn⟩
        · rintro ⟨h, hn⟩
          rw [List.cons_append, List.cons.injEq] at h
          have := this.2 ⟨h.2, fun hm => hn (List.mem_cons_of_mem _ hm)⟩
          rw [this, h.1]

theorem cutEq_none (l p : GoString) : cutEq l = (p, none) ↔ l = p ∧ (61 : UInt8) ∉ p := by
  induction l generalizing p with
  | nil =>
    constructor
    · intro h; cases h; simp
    · rintro ⟨rfl, -⟩; rfl
  | cons c r ih =>
    rw [cutEq]
    split
    · rename_i hc
      subst hc
      constructor
      · intro h; cases h
      · rintro ⟨rfl, h⟩; exact absurd (List.mem_cons_self) h
    · rename_i hc
      cases p with
      | nil => simp
      | cons q p =>
        constructor
        · intro h
          rw [Prod.mk.injEq, List.cons.injEq] at h
          obtain ⟨hl, hn⟩ := (ih p).1 (Prod.ext h.1.2 h.2)
          rw [← h.1.1, ← hl]
          exact ⟨rfl, fun hm => (List.mem_cons.1 hm).elim (fun h => hc h.symm) (by rw [hl]; exact hn)⟩
        · rintro ⟨h, hn⟩
          rw [List.cons.injEq] at h
          have := (ih p).2 ⟨h.2, fun hm => hn (List.mem_cons_of_mem _ hm)⟩
          rw [this, h.1]

theorem parseBool_yes (v : GoString) : goParseBool v = some true ↔ Spec.IsYes v := by
  unfold goParseBool Spec.IsYes
  split
  · exact ⟨fun _ => by assumption, fun _ => rfl⟩
  · rename_i hn
    constructor
    · intro h; split at h <;> cases h
    · intro h; exact absurd h hn

theorem yes_no {v : GoString} (h : Spec.IsYes v) : ¬ Spec.IsNo v := by
  unfold Spec.IsYes Spec.IsNo at *
  revert v
  decide

theorem parseBool_no (v : GoString) : goParseBool v = some false ↔ Spec.IsNo v := by
  constructor
  · unfold goParseBool Spec.IsNo
    split
    · intro h; cases h
    · split
      · intro; assumption
      · intro h; cases h
  · intro h
    have hy : ¬ v ∈ ["1", "t", "T", "true", "TRUE", "True"].map Json.ascii := fun h' => yes_no h' h
    have hn : v ∈ ["0", "f", "F", "false", "FALSE", "False"].map Json.ascii := h
    unfold goParseBool
    rw [if_neg hy, if_pos hn]

/-- The name of a flag, with or without a value. -/
theorem flagName_sets (n : GoString) (b : Bool) :
    flagName n = .sets b ↔ (n = Json.ascii "d" ∧ b = true) ∨ (∃ v, n = Json.ascii "d=" ++ v ∧ ((b = true ∧ Spec.IsYes v) ∨ (b = false ∧ Spec.IsNo v))) := by
  have e1 : Json.ascii "d" = [100] := by decide
  have e2 : Json.ascii "d=" = [100, 61] := by decide
  rw [e1, e2]
  match n with
  | [] => simp [flagName]
  | c :: r =>
    rw [flagName]
    by_cases hc : c = 45 ∨ c = 61
    · rw [if_pos hc]
      constructor
      · intro h; cases h
      · rintro (⟨h, -⟩ | ⟨v, h, -⟩) <;> (rw [List.cons_eq_cons.1 h |>.1] at hc; exact absurd hc (by decide))
    rw [if_neg hc]
    rcases hcut : cutEq r with ⟨p, _ | v⟩
    · obtain ⟨rfl, hn⟩ := (cutEq_none _ _).1 hcut
      simp only
      by_cases hd : c :: r = [100]
      · rw [if_pos hd]
        cases hd
        cases b <;> simp
      · rw [if_neg hd]
        constructor
        · intro h; split at h <;> cases h
        · rintro (⟨h, -⟩ | ⟨v, h, -⟩)
          · exact absurd h hd
          · have : r = 61 :: v := (List.cons_eq_cons.1 h).2
            rw [this] at hn; simp at hn
    · obtain ⟨rfl, hn⟩ := (cutEq_some _ _ _).1 hcut
      simp only
      by_cases hd : c :: p = [100]
      · rw [if_pos hd]
        cases hd
        have : (∃ w, ([100] ++ 61 :: v : GoString) = [100, 61] ++ w ∧ ((b = true ∧ Spec.IsYes w) ∨ (b = false ∧ Spec.IsNo w))) ↔ ((b = true ∧ Spec.IsYes v) ∨ (b = false ∧ Spec.IsNo v)) := by
          constructor
          · rintro ⟨w, h, h'⟩
            have : v = w := by simpa using h
            rw [this]; exact h'
          · intro h; exact ⟨v, rfl, h⟩
        constructor
        · intro h
          right
          apply this.2
          cases hp : goParseBool v with
          | none => rw [hp] at h; cases h
          | some b' =>
            rw [hp] at h
            cases h
            cases b
            · exact .inr ⟨rfl, (parseBool_no v).1 hp⟩
            · exact .inl ⟨rfl, (parseBool_yes v).1 hp⟩
        · rintro (⟨h, -⟩ | h)
          · simp at h
          · rcases this.1 h with ⟨rfl, h'⟩ | ⟨rfl, h'⟩
            · rw [(parseBool_yes v).2 h']
            · rw [(parseBool_no v).2 h']
      · rw [if_neg hd]
        constructor
        · intro h; split at h <;> cases h
        · rintro (⟨h, -⟩ | ⟨w, h, -⟩)
          · simp at h
          · exfalso
            apply hd
            obtain ⟨h1, h2⟩ := List.cons_eq_cons.1 h
            cases p with
            | nil => rw [h1]
            | cons q p =>
              have : q = 61 := (List.cons_eq_cons.1 h2).1
              rw [this] at hn; simp at hn

theorem flagName_help (n : GoString) :
    flagName n = .help ↔ ∃ w, (w = Json.ascii "h" ∨ w = Json.ascii "help") ∧ (n = w ∨ ∃ v, n = w ++ Json.ascii "=" ++ v) := by
  have e0 : Json.ascii "=" = [61] := by decide
  have e1 : Json.ascii "h" = [104] := by decide
  have e2 : Json.ascii "help" = [104, 101, 108, 112] := by decide
  rw [e0, e1, e2]
  match n with
  | [] => simp [flagName]
  | c :: r =>
    have key : ∀ w : GoString, (w = [104] ∨ w = [104, 101, 108, 112]) → (c :: r = w ∨ ∃ v, c :: r = w ++ [61] ++ v) → c = 104 := by
      rintro w (rfl | rfl) (h | ⟨v, h⟩) <;> exact (List.cons_eq_cons.1 h).1
    have free : ∀ w : GoString, (w = [104] ∨ w = [104, 101, 108, 112]) → (61 : UInt8) ∉ w := by
      rintro w (rfl | rfl) <;> decide
    rw [flagName, e1, e2]
    by_cases hc : c = 45 ∨ c = 61
    · rw [if_pos hc]
      constructor
      · intro h; cases h
      · rintro ⟨w, hw, h⟩
        rw [key w hw h] at hc; revert hc; decide
    rw [if_neg hc]
    have cut : ∀ w : GoString, (w = [104] ∨ w = [104, 101, 108, 112]) → ((c :: r = w ∨ ∃ v, c :: r = w ++ [61] ++ v) ↔ c :: (cutEq r).1 = w) := by
      intro w hw
      have hf := free w hw
      rcases hcut : cutEq r with ⟨p, _ | v⟩
      · obtain ⟨rfl, hn⟩ := (cutEq_none _ _).1 hcut
        constructor
        · rintro (h | ⟨v, h⟩)
          · exact h
          · have hm : (61 : UInt8) ∈ c :: r := by rw [h]; simp
            rcases List.mem_cons.1 hm with h | h
            · exact absurd (.inr h.symm) hc
            · exact absurd h hn
        · exact fun h => .inl h
      · obtain ⟨rfl, hn⟩ := (cutEq_some _ _ _).1 hcut
        constructor
        · rintro (h | ⟨v', h⟩)
          · exact absurd (by rw [← h]; simp) hf
          · have hq : cutEq (w ++ 61 :: v') = (w, some v') := (cutEq_some _ _ _).2 ⟨rfl, hf⟩
            have hq' : cutEq (c :: (p ++ 61 :: v)) = (c :: p, some v) :=
              (cutEq_some _ _ _).2 ⟨rfl, fun hm => (List.mem_cons.1 hm).elim (fun h => hc (.inr h.symm)) hn⟩
            rw [h, List.append_assoc] at hq'
            exact (Prod.mk.inj (hq'.symm.trans hq)).1
        · rintro h
          right
          exact ⟨v, by rw [← h]; simp⟩
    have hd : ∀ w : GoString, (w = [104] ∨ w = [104, 101, 108, 112]) → w ≠ [100] := by
      rintro w (rfl | rfl) <;> decide
    constructor
    · intro h
      simp only at h
      split at h
      · split at h
        · cases h
        · split at h <;> cases h
      · split at h
        · rename_i hw
          exact ⟨_, hw.symm, (cut _ hw.symm).2 rfl⟩
        · cases h
    · rintro ⟨w, hw, h⟩
      have := (cut w hw).1 h
      simp only
      rw [if_neg (by rw [this]; exact hd w hw), if_pos (by rw [this]; exact hw.symm)]

/-- An argument with minus signs, and its name. -/
theorem flagOne_iff (s : GoString) (x : FlagOne) (hx : x ≠ .stop) (hb : x ≠ .bad) :
    flagOne s = x ↔ ∃ dash n, Spec.IsDash dash ∧ s = dash ++ n ∧ flagName n = x := by
  have e1 : Json.ascii "-" = [45] := by decide
  have e2 : Json.ascii "--" = [45, 45] := by decide
  have bad : ∀ r, flagName (45 :: r) = .bad := fun r => by rw [flagName, if_pos (.inl rfl)]
  unfold Spec.IsDash
  rw [e1, e2]
  constructor
  · intro h
    match s with
    | [] => exact absurd h.symm hx
    | [_] => exact absurd h.symm hx
    | a :: b :: r =>
      rw [flagOne] at h
      split at h
      · exact absurd h.symm hx
      rename_i ha
      have ha := Decidable.not_not.1 ha
      subst ha
      split at h
      · exact ⟨[45], b :: r, .inl rfl, rfl, h⟩
      rename_i hb'
      have hb' := Decidable.not_not.1 hb'
      subst hb'
      split at h
      · exact absurd h.symm hx
      · exact ⟨[45, 45], r, .inr rfl, rfl, h⟩
  · rintro ⟨dash, n, hd | hd, rfl, h⟩
    · subst hd
      match n with
      | [] => exact absurd h.symm hb
      | b :: r =>
        show (if (45 : UInt8) ≠ 45 then FlagOne.stop else if b ≠ 45 then flagName (b :: r) else if r = [] then .stop else flagName r) = x
        rw [if_neg (by decide)]
        by_cases hb' : b = 45
        · subst hb'
          rw [bad] at h
          exact absurd h.symm hb
        · rw [if_pos hb']; exact h
    · subst hd
      show (if (45 : UInt8) ≠ 45 then FlagOne.stop else if (45 : UInt8) ≠ 45 then flagName (45 :: n) else if n = [] then .stop else flagName n) = x
      rw [if_neg (by decide), if_neg (by decide)]
      by_cases hn : n = []
      · subst hn; exact absurd h.symm hb
      · rw [if_neg hn]; exact h

theorem flagOne_sets (s : GoString) (b : Bool) : flagOne s = .sets b ↔ Spec.SetsDaemon s b := by
  rw [flagOne_iff s _ (by nofun) (by nofun)]
  constructor
  · rintro ⟨dash, n, hd, rfl, h⟩
    rcases (flagName_sets n b).1 h with ⟨rfl, rfl⟩ | ⟨v, rfl, ⟨rfl, hv⟩ | ⟨rfl, hv⟩⟩
    · exact .plain dash hd
    · rw [← List.append_assoc]; exact .yes dash v hd hv
    · rw [← List.append_assoc]; exact .no dash v hd hv
  · intro h
    cases h with
    | plain dash hd => exact ⟨dash, _, hd, rfl, (flagName_sets _ _).2 (.inl ⟨rfl, rfl⟩)⟩
    | yes dash v hd hv => exact ⟨dash, _, hd, List.append_assoc _ _ _, (flagName_sets _ _).2 (.inr ⟨v, rfl, .inl ⟨rfl, hv⟩⟩)⟩
    | no dash v hd hv => exact ⟨dash, _, hd, List.append_assoc _ _ _, (flagName_sets _ _).2 (.inr ⟨v, rfl, .inr ⟨rfl, hv⟩⟩)⟩

theorem flagOne_help (s : GoString) : flagOne s = .help ↔ Spec.AsksHelp s := by
  rw [flagOne_iff s _ (by nofun) (by nofun)]
  constructor
  · rintro ⟨dash, n, hd, rfl, h⟩
    obtain ⟨w, hw, rfl | ⟨v, rfl⟩⟩ := (flagName_help n).1 h
    · exact .plain dash _ hd hw
    · rw [← List.append_assoc, ← List.append_assoc]; exact .value dash w v hd hw
  · intro h
    cases h with
    | plain dash w hd hw => exact ⟨dash, w, hd, rfl, (flagName_help _).2 ⟨w, hw, .inl rfl⟩⟩
    | value dash w v hd hw => exact ⟨dash, w ++ Json.ascii "=" ++ v, hd, by simp, (flagName_help _).2 ⟨w, hw, .inr ⟨v, rfl⟩⟩⟩

theorem flagName_runs (n : GoString) : flagName n ≠ .stop := by
  intro h
  match n with
  | [] => cases h
  | c :: r =>
    rw [flagName] at h
    split at h
    · cases h
    simp only at h
    split at h
    · split at h
      · cases h
      · split at h <;> cases h
    · split at h <;> cases h

theorem flagOne_stop (s : GoString) : flagOne s = .stop ↔ ¬ Spec.LooksFlag s := by
  have e2 : Json.ascii "--" = [45, 45] := by decide
  unfold Spec.LooksFlag
  rw [e2]
  match s with
  | [] => simp [flagOne]
  | [a] => simp [flagOne]
  | a :: b :: r =>
    rw [flagOne]
    by_cases ha : a = 45
    · subst ha
      rw [if_neg (by simp)]
      by_cases hb : b = 45
      · subst hb
        rw [if_neg (by simp)]
        by_cases hr : r = []
        · subst hr
          simp
        · rw [if_neg hr]
          constructor
          · intro h; exact absurd h (flagName_runs r)
          · intro h; exact absurd ⟨45 :: r, by simp, rfl, by simpa using hr⟩ h
      · rw [if_pos hb]
        constructor
        · intro h; exact absurd h (flagName_runs _)
        · intro h; exact absurd ⟨b :: r, by simp, rfl, by simp [hb]⟩ h
    · rw [if_pos ha]
      simp [ha]

/-! ### All arguments -/

/-- The flags of the arguments, up to what ends them. -/
theorem flagParse_split (args : List GoString) (d : Bool) : ∃ bs rest, Spec.Settings args bs rest ∧ (∀ s rest', rest = s :: rest' → ∀ b, ¬ Spec.SetsDaemon s b) ∧
    flagParse d args = match rest with
      | [] => .ok (bs.getLast?.getD d)
      | s :: _ => match flagOne s with
        | .help => .error .help
        | .bad => .error .usage
        | _ => .ok (bs.getLast?.getD d) := by
  induction args generalizing d with
  | nil => exact ⟨[], [], .none _, nofun, rfl⟩
  | cons s args ih =>
    cases h : flagOne s with
    | sets b =>
      obtain ⟨bs, rest, hs, hn, he⟩ := ih b
      refine ⟨b :: bs, rest, .more ((flagOne_sets s b).1 h) hs, hn, ?_⟩
      rw [flagParse, h]
      simp only
      rw [he]
      have : (b :: bs).getLast?.getD d = bs.getLast?.getD b := by cases bs <;> simp [List.getLast?_cons]
      rw [this]
    | stop =>
      refine ⟨[], s :: args, .none _, ?_, by rw [flagParse, h]; simp only [h]; rfl⟩
      rintro _ _ h' b hb; cases h'; rw [(flagOne_sets s b).2 hb] at h; cases h
    | help =>
      refine ⟨[], s :: args, .none _, ?_, by rw [flagParse, h]; simp only [h]⟩
      rintro _ _ h' b hb; cases h'; rw [(flagOne_sets s b).2 hb] at h; cases h
    | bad =>
      refine ⟨[], s :: args, .none _, ?_, by rw [flagParse, h]; simp only [h]⟩
      rintro _ _ h' b hb; cases h'; rw [(flagOne_sets s b).2 hb] at h; cases h

theorem sets_one {s : GoString} {b b' : Bool} (h : Spec.SetsDaemon s b) (h' : Spec.SetsDaemon s b') : b = b' := by
  have := ((flagOne_sets s b).2 h).symm.trans ((flagOne_sets s b').2 h')
  cases this; rfl

/-- The settings are determined by the arguments. -/
theorem settings_one {args rest rest' : List GoString} {bs bs' : List Bool} (h : Spec.Settings args bs rest) (h' : Spec.Settings args bs' rest')
    (hn : ∀ s r, rest = s :: r → ∀ b, ¬ Spec.SetsDaemon s b) (hn' : ∀ s r, rest' = s :: r → ∀ b, ¬ Spec.SetsDaemon s b) : bs = bs' ∧ rest = rest' := by
  induction h generalizing bs' with
  | none rest =>
    cases h' with
    | none => exact ⟨rfl, rfl⟩
    | more hs hr => exact absurd hs (hn _ _ rfl _)
  | more hs hr ih =>
    cases h' with
    | none => exact absurd hs (hn' _ _ rfl _)
    | more hs' hr' =>
      obtain ⟨rfl, rfl⟩ := ih hr' hn
      rw [sets_one hs hs']
      exact ⟨rfl, rfl⟩

/-- Nothing that sets the flag is anything else. -/
theorem not_sets {s : GoString} (h : (∀ b, flagOne s ≠ .sets b)) : ∀ b, ¬ Spec.SetsDaemon s b := fun b hb => h b ((flagOne_sets s b).2 hb)

section
variable {parseIP : GoString → Option Bytes} {dial : Bool}

/-- C130: the process becomes a daemon exactly if its arguments begin with settings of the flag `-d`, the last of them a yes, and then end or go on with something that is no flag. -/
theorem C130_daemon (args : List GoString) : mainRun parseIP dial args = .daemon ↔
    ∃ bs rest, Spec.Settings args bs rest ∧ bs.getLast? = some true ∧ ∀ s, rest.head? = some s → ¬ Spec.LooksFlag s := by
  obtain ⟨bs, rest, hs, hn, he⟩ := flagParse_split args false
  unfold mainRun
  rw [he]
  constructor
  · intro h
    refine ⟨bs, rest, hs, ?_⟩
    match rest with
    | [] =>
      simp only at h
      refine ⟨?_, nofun⟩
      rcases hl : bs.getLast? with _ | (_ | _)
      · rw [hl] at h; cases h
      · rw [hl] at h; cases h
      · rfl
    | s :: r =>
      simp only at h
      cases ho : flagOne s with
      | sets b => exact absurd ((flagOne_sets s b).1 ho) (hn _ _ rfl b)
      | help => rw [ho] at h; cases h
      | bad => rw [ho] at h; cases h
      | stop =>
        rw [ho] at h
        simp only at h
        refine ⟨?_, fun s' hs' => by cases hs'; exact (flagOne_stop s).1 ho⟩
        rcases hl : bs.getLast? with _ | (_ | _)
        · rw [hl] at h; cases h
        · rw [hl] at h; cases h
        · rfl
  · rintro ⟨bs', rest', hs', hl, hf⟩
    have hn' : ∀ s r, rest' = s :: r → ∀ b, ¬ Spec.SetsDaemon s b := by
      rintro s r rfl
      exact not_sets (fun b => by rw [(flagOne_stop s).2 (hf s rfl)]; nofun)
    obtain ⟨rfl, rfl⟩ := settings_one hs hs' hn hn'
    match rest with
    | [] => simp only [hl]; rfl
    | s :: r => simp only [(flagOne_stop s).2 (hf s rfl), hl]; rfl

/-- C130: help is printed exactly if the first argument that is not a setting asks for it. -/
theorem C130_help (args : List GoString) : mainRun parseIP dial args = .help ↔ ∃ bs s rest, Spec.Settings args bs (s :: rest) ∧ Spec.AsksHelp s := by
  obtain ⟨bs, rest, hs, hn, he⟩ := flagParse_split args false
  unfold mainRun
  rw [he]
  constructor
  · intro h
    match rest with
    | [] => simp only at h; split at h <;> simp_all
    | s :: r =>
      simp only at h
      cases ho : flagOne s with
      | sets b => exact absurd ((flagOne_sets s b).1 ho) (hn _ _ rfl b)
      | help => exact ⟨bs, s, r, hs, (flagOne_help s).1 ho⟩
      | bad => rw [ho] at h; cases h
      | stop => rw [ho] at h; simp only at h; split at h <;> simp_all
  · rintro ⟨bs', s, rest', hs', hh⟩
    have ho := (flagOne_help s).2 hh
    obtain ⟨rfl, rfl⟩ := settings_one hs hs' hn (by rintro _ _ h; cases h; exact not_sets (fun b => by rw [ho]; nofun))
    simp only [ho]

/-- C130: the process ends with the usage message exactly if the first argument that is not a setting looks like a flag and does not ask for help. -/
theorem C130_usage (args : List GoString) : mainRun parseIP dial args = .usage ↔
    ∃ bs s rest, Spec.Settings args bs (s :: rest) ∧ Spec.LooksFlag s ∧ ¬ Spec.AsksHelp s ∧ ∀ b, ¬ Spec.SetsDaemon s b := by
  obtain ⟨bs, rest, hs, hn, he⟩ := flagParse_split args false
  unfold mainRun
  rw [he]
  constructor
  · intro h
    match rest with
    | [] => simp only at h; split at h <;> simp_all
    | s :: r =>
      simp only at h
      cases ho : flagOne s with
      | sets b => exact absurd ((flagOne_sets s b).1 ho) (hn _ _ rfl b)
      | help => rw [ho] at h; cases h
      | bad =>
        refine ⟨bs, s, r, hs, ?_, ?_, hn _ _ rfl⟩
        · exact Classical.not_not.1 (fun hl => by rw [(flagOne_stop s).2 hl] at ho; cases ho)
        · intro hh; rw [(flagOne_help s).2 hh] at ho; cases ho
      | stop => rw [ho] at h; simp only at h; split at h <;> simp_all
  · rintro ⟨bs', s, rest', hs', hl, hh, hn'⟩
    obtain ⟨rfl, rfl⟩ := settings_one hs hs' hn (by rintro _ _ h; cases h; exact hn')
    cases ho : flagOne s with
    | sets b => exact absurd ((flagOne_sets s b).1 ho) (hn' b)
    | help => exact absurd ((flagOne_help s).1 ho) hh
    | stop => exact absurd hl ((flagOne_stop s).1 ho)
    | bad => simp only [ho]

/-- No command's name looks like a flag. -/
theorem means_head {args : List GoString} {r : CliReq} (h : Means parseIP args r) : ∃ s rest, args = s :: rest ∧ flagOne s = .stop := by
  cases h <;> exact ⟨_, _, rfl, by decide⟩

/-- C130: with a daemon running, a command reaches it exactly if the whole command line stands for it: no flag is taken out of a command, none is accepted before it, and no
argument of a command, whatever it looks like, is taken for a flag. -/
theorem C130_command (args : List GoString) (r : CliReq) : mainRun parseIP true args = .client (.call r) ↔ Means parseIP args r := by
  constructor
  · intro h
    unfold mainRun at h
    split at h
    · rename_i x hx
      obtain ⟨bs, rest, -, -, he⟩ := flagParse_split args false
      rw [hx, h] at he
      match rest with
      | [] => cases he
      | s :: _ => simp only at he; split at he <;> cases he
    · cases h
    · exact (C62_sends parseIP args r).1 (Started.client.inj h)
  · intro h
    obtain ⟨s, rest, rfl, ho⟩ := means_head h
    unfold mainRun
    rw [flagParse, ho]
    show Started.client (cliRun parseIP true (s :: rest)) = _
    rw [(C62_sends _ _ _).2 h]

/-- C130: without a daemon no command does anything: the client dies when there is anything on the command line but settings and flags, and says so when there is nothing. -/
theorem C130_alone (args : List GoString) (o : CliOut) (h : mainRun parseIP false args = .client o) : o = if args = [] then .message else .panic := by
  unfold mainRun at h
  split at h
  · rename_i x hx
    obtain ⟨bs, rest, -, -, he⟩ := flagParse_split args false
    rw [hx, h] at he
    match rest with
    | [] => cases he
    | s :: _ => simp only at he; split at he <;> cases he
  · cases h
  · cases h
    cases args <;> rfl

/-- C130: a setting that says no, before a command, makes the command unknown: nothing is sent. -/
theorem C130_no (s : GoString) (rest : List GoString) (h : Spec.LooksFlag s) (r : CliReq) : mainRun parseIP dial (s :: rest) ≠ .client (.call r) := by
  intro hm
  cases dial with
  | false => have := C130_alone _ _ hm; simp at this
  | true =>
    obtain ⟨s', rest', he, ho⟩ := means_head ((C130_command _ _).1 hm)
    cases he
    exact (flagOne_stop s).1 ho h

/-- `C130_command`: `flu share -d` shares the file called `-d`. -/
example : mainRun parseIP true [Spec.share, Json.ascii "-d"] = .client (.call (.share (Json.ascii "-d"))) := (C130_command _ _).2 (.share _)

/-- `C130_daemon`: `flu --d=0 -d share` starts a daemon and shares nothing. -/
example : mainRun parseIP dial [Json.ascii "--d=0", Json.ascii "-d", Spec.share] = .daemon :=
  (C130_daemon _).2 ⟨[false, true], [Spec.share], .more (.no (Json.ascii "--") (Json.ascii "0") (by unfold Spec.IsDash; decide) (by unfold Spec.IsNo; decide))
    (.more (.plain (Json.ascii "-") (by unfold Spec.IsDash; decide)) (.none _)), rfl, by
      intro s hs; cases hs; exact (flagOne_stop _).1 (by decide)⟩

/-- `C130_usage`, `C130_help`, `C130_no`, `C130_alone`. -/
example : mainRun parseIP dial [Json.ascii "-d", Json.ascii "-x"] = .usage ∧ mainRun parseIP dial [Json.ascii "-d", Json.ascii "-h=1"] = .help ∧
    mainRun parseIP true [Json.ascii "-d=false", Spec.list] = .client .message ∧ mainRun parseIP false [Spec.list] = .client .panic := ⟨by rfl, by rfl, by rfl, by rfl⟩

end
end Flu
