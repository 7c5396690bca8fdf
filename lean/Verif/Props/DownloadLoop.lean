import Verif.Lemmas.CatIso
import Verif.Props.Download
import Verif.Props.Server
import Verif.Model.DownloadLoop
/-!
# The download loop (C56)
-/
namespace Flu
open Spec

/-! ### Specification -/

instance (e : Export) (i : Nat) : Decidable (e.saved i) := by unfold Export.saved; infer_instance

/-- The chunks of a file that are missing, lowest first. -/
def Spec.missingList (e : Export) : List Nat := (List.range e.progress.sizeOf.toNat).filter (fun i => decide (¬ e.saved i))

/-- The chunks that were delivered, oldest first. -/
def Spec.gotten (rounds : List (UInt16 × Bool)) : List Nat := ((rounds.filter (·.2)).map (·.1.toNat)).reverse

/-- A call of `StartDownload` that still does something. -/
def DLPos.Busy : DLPos → Prop
  | .refused | .finished => False
  | _ => True

/-- Thread `t` is the only download of `h`. -/
def Spec.Only (h : Sha1Hash) (t : Nat) (s : DLState) : Prop := ∀ t' th, s.threads t' = some th → th.hash = h → th.pos.Busy → t' = t

/-- Nobody else downloads `h` or takes it out of the catalogue. -/
def Spec.Alone (h : Sha1Hash) (t : Nat) (a : Actor) (x : DLSys) : Prop :=
  (∀ o, a = .call o → ¬ o.Touches h) ∧ ∀ s, x = .alive s → Only h t s

/-! ### Steps as calls of the catalogue -/

section
variable {env : Env} {d dl : Path}

theorem IOM.lift_bind_inv {σ α β : Type} (r : Res α) (f : α → IOM σ β) (s s' : σ) (x : Res β) (h : (IOM.lift r >>= f) s = (x, s')) (hret : x.returns = true) :
    (∃ a, r = .ok a ∧ f a s = (x, s')) ∨ (∃ e, r = .err e ∧ x = .err e ∧ s' = s) := by
  rw [IOM.bind_apply, IOM.lift_apply] at h
  cases r with
  | ok a => exact .inl ⟨a, rfl, h⟩
  | err e => cases h; exact .inr ⟨e, rfl, rfl, rfl⟩
  | panic => cases h; cases hret
  | exit => cases h; cases hret
  | crash => cases h; cases hret

theorem downloadMetaData_hash (hash : Sha1Hash) (raw : Contact) (f : ListFilesEntry) (h : downloadMetaData hash raw = .ok f) : f.hash = hash := by
  unfold downloadMetaData at h
  obtain ⟨⟨i, files⟩, h1, h⟩ := (Res.bind_ok_iff _ _ _).1 h
  simp only [] at h
  split at h
  · split at h
    · rename_i hh; cases h; exact hh
    · cases h
  · cases h

theorem CM.void_err {α : Type} (x : CM α) (s s' : St) (e : Err) (h : x s = (.err e, s')) : CM.void x s = (.err e, s') := by
  unfold CM.void
  rw [IOM.bind_apply, h]

/-- The setup of a download changes nothing, or registers the file. -/
theorem startSetup_effect (w : DLWire) (hash : Sha1Hash) (known : Bool) (s s' : St) (r : Res (ByteArr 4)) (hrun : startSetup env w hash known s = (r, s'))
    (hret : r.returns = true) :
    s' = s ∨ ∃ size cs name r', (Op.register size cs hash name).run env s = (r', s') ∧ r'.returns = true := by
  unfold startSetup at hrun
  rcases IOM.lift_bind_inv _ _ _ _ _ hrun hret with ⟨own, h1, h2⟩ | ⟨e, h1, h2, rfl⟩
  rotate_left
  · exact .inl rfl
  rcases w with ⟨addrs, _ | rs, desc⟩
  · cases h2; cases hret
  simp only [] at h2
  cases hg : goodHosts own rs with
  | nil => rw [hg] at h2; cases h2; exact .inl rfl
  | cons g gs =>
  rw [hg] at h2
  simp only [] at h2
  split at h2
  · cases h2; exact .inl rfl
  rcases IOM.lift_bind_inv _ _ _ _ _ h2 hret with ⟨f, h3, h4⟩ | ⟨e, h3, h4, rfl⟩
  rotate_left
  · exact .inl rfl
  right
  have hf := downloadMetaData_hash _ _ _ h3
  rw [hf] at h4
  rw [IOM.bind_apply] at h4
  rcases hr : registerDownload env f.sizeInBytes f.chunkSize hash f.fileName s with ⟨x, s1⟩
  rw [hr] at h4
  refine ⟨f.sizeInBytes, f.chunkSize, f.fileName, ?_⟩
  cases x with
  | ok a => cases h4; exact ⟨_, CM.void_ok _ _ _ _ hr, rfl⟩
  | err e => cases h4; exact ⟨_, CM.void_err _ _ _ _ hr, rfl⟩
  | panic => cases h4; cases hret
  | exit => cases h4; cases hret
  | crash => cases h4; cases hret

theorem startCheck_effect (hash : Sha1Hash) (s s' : St) (b : Bool) (hrun : startCheck hash s = (.ok b, s')) :
    ∃ r, (Op.contains hash).run env s = (r, s') ∧ r.returns = true := by
  unfold startCheck at hrun
  obtain ⟨a, s1, h1, h2⟩ := (IOM.bind_ok_iff _ _ _ _ _).1 hrun
  have hs : s1 = s' := by
    split at h2 <;> (cases h2; rfl)
  subst hs
  rcases attempt_eq _ _ _ _ h1 with ⟨v, -, h⟩ | ⟨e, -, h⟩
  · exact ⟨_, CM.void_ok _ _ _ _ h, rfl⟩
  · exact ⟨_, CM.void_err _ _ _ _ h, rfl⟩

/-- What a step does to the catalogue and the files: nothing, one call, or a change by another program; and what it does to the other threads: nothing. -/
theorem DLStep.effect {a : Actor} {s s2 : DLState} (h : DLStep env d a s (.alive s2)) :
    ((s2.cat = s.cat ∧ s2.fs = s.fs) ∨ (∃ p x, a = .user p ∧ ¬ CatFile d p ∧ s2.cat = s.cat ∧ s2.fs = s.fs.put p x) ∨
      ∃ o fl r st', o.Safe d s.cat ∧ o.run env ⟨s.cat, s.fs, fl⟩ = (r, st') ∧ r.returns = true ∧ s2.cat = st'.cat ∧ s2.fs = st'.fs ∧
        (a = .call o ∨ ∃ t th, a = .thread t ∧ s.threads t = some th ∧ th.pos.Busy ∧ ((∀ k, ¬ o.Touches k) ∨ ∃ n b, o = .save th.hash n b ∧ r = .ok () ∧ ∃ own host todo, th.pos = .fetching own n host todo))) ∧
    (∀ t, a ≠ .thread t → s2.threads t = s.threads t) := by
  have other : ∀ {t0 t : Nat} {th : DLThread} {f : Nat → Option DLThread}, Actor.thread t0 ≠ .thread t → upd f t0 (some th) t = f t := by
    intro t0 t th f hne
    unfold upd
    rw [if_neg (fun e => hne (by rw [e]))]
  cases h with
  | start t h s ht => exact ⟨.inl ⟨rfl, rfl⟩, fun _ => other⟩
  | check t s th fl b s' ht hp hrun =>
    obtain ⟨r, h1, h2⟩ := startCheck_effect (env := env) _ _ _ _ hrun
    exact ⟨.inr (.inr ⟨.contains th.hash, fl, r, s', trivial, h1, h2, rfl, rfl, .inr ⟨t, th, rfl, ht, by rw [hp]; trivial, .inl (fun k hk => hk)⟩⟩), fun _ => other⟩
  | setup t s th fl w b own s' ht hp hrun =>
    refine ⟨?_, fun _ => other⟩
    rcases startSetup_effect w _ b _ _ _ hrun rfl with h | ⟨size, cs, name, r', h1, h2⟩
    · rw [h]; exact .inl ⟨rfl, rfl⟩
    · exact .inr (.inr ⟨.register size cs th.hash name, fl, r', s', trivial, h1, h2, rfl, rfl, .inr ⟨t, th, rfl, ht, by rw [hp]; trivial, .inl (fun k hk => hk)⟩⟩)
  | refuse t s th fl w b e s' ht hp hrun =>
    refine ⟨?_, fun _ => other⟩
    rcases startSetup_effect w _ b _ _ _ hrun rfl with h | ⟨size, cs, name, r', h1, h2⟩
    · rw [h]; exact .inl ⟨rfl, rfl⟩
    · exact .inr (.inr ⟨.register size cs th.hash name, fl, r', s', trivial, h1, h2, rfl, rfl, .inr ⟨t, th, rfl, ht, by rw [hp]; trivial, .inl (fun k hk => hk)⟩⟩)
  | test t s th fl own v s' ht hp hrun =>
    exact ⟨.inr (.inr ⟨.complete th.hash, fl, .ok (), s', trivial, CM.void_ok _ _ _ _ hrun, rfl, rfl, rfl, .inr ⟨t, th, rfl, ht, by rw [hp]; trivial, .inl (fun k hk => hk)⟩⟩), fun _ => other⟩
  | want t s th fl own r rest s' ht hp hrun =>
    exact ⟨.inr (.inr ⟨.missing th.hash, fl, .ok (), s', trivial, CM.void_ok _ _ _ _ hrun, rfl, rfl, rfl, .inr ⟨t, th, rfl, ht, by rw [hp]; trivial, .inl (fun k hk => hk)⟩⟩), fun _ => other⟩
  | search t s th own c rs ht hp => exact ⟨.inl ⟨rfl, rfl⟩, fun _ => other⟩
  | again t s th own c ht hp => exact ⟨.inl ⟨rfl, rfl⟩, fun _ => other⟩
  | skip t s th own c r todo ht hp hl hk => exact ⟨.inl ⟨rfl, rfl⟩, fun _ => other⟩
  | dial t s th own c r todo ht hp hl hk => exact ⟨.inl ⟨rfl, rfl⟩, fun _ => other⟩
  | fetched t s th fl own c r todo queue ok s' ht hp hsafe hrun =>
    obtain ⟨acks, b, h1, h2⟩ := downloadChunk_saved env _ _ _ _ _ _ hrun
    exact ⟨.inr (.inr ⟨.save th.hash c b, fl, .ok (), s', hsafe b, h2, rfl, rfl, rfl, .inr ⟨t, th, rfl, ht, by rw [hp]; trivial, .inr ⟨c, b, rfl, rfl, own, r, todo, hp⟩⟩⟩), fun _ => other⟩
  | gaveUp t s th fl own c r todo queue s' ht hp hrun =>
    refine ⟨.inl ?_, fun _ => other⟩
    rw [downloadChunk_eq] at hrun
    rcases hr : recvLoop env.sha1 .fresh queue with ⟨x, out⟩ | e | _ | _ | _
    · rw [hr] at hrun
      rcases out with c | _ | ⟨b, ok⟩
      · cases hrun
      · cases hrun; exact ⟨rfl, rfl⟩
      · obtain ⟨_, s1, h1, h2⟩ := (IOM.bind_ok_iff _ _ _ _ _).1 hrun
        cases h2
    all_goals (rw [hr] at hrun; cases hrun)
  | call o s fl r s' hsafe hrun hret => exact ⟨.inr (.inr ⟨o, fl, r, s', hsafe, hrun, hret, rfl, rfl, .inl rfl⟩), fun _ _ => rfl⟩
  | user p s x hp => exact ⟨.inr (.inl ⟨p, x, rfl, hp, rfl, rfl⟩), fun _ _ => rfl⟩

theorem Reach.op {c : Cat} {fs : FS} (h : Reach env d dl (.running c fs)) (o : Op) (hs : o.Safe d c) (fl : List Fault) (r : Res Unit) (s' : St)
    (hrun : o.run env ⟨c, fs, fl⟩ = (r, s')) (hret : r.returns = true) : Reach env d dl (.running s'.cat s'.fs) := by
  apply h.returns o hs fl s'
  rcases Res.returns_cases hret with rfl | ⟨e, rfl⟩
  · exact .inl hrun
  · exact .inr ⟨e, hrun⟩

theorem Reach.user {c : Cat} {fs : FS} (h : Reach env d dl (.running c fs)) (p : Path) (x : Option Bytes) (hp : ¬ CatFile d p) :
    Reach env d dl (.running c (fs.put p x)) := by
  obtain ⟨fs0, h0, h1⟩ := h
  exact ⟨fs0, h0, h1.step (.userRunning c fs p x hp)⟩

theorem observe_user (hh : Healthy env d) {c : Cat} {fs : FS} (h : Reach env d dl (.running c fs)) (p : Path) (x : Option Bytes) (hp : ¬ CatFile d p) (g : Sha1Hash) :
    observe c (fs.put p x) g = observe c fs g := by
  have hI : Inv env d dl c fs := h.inv hh.abs hh.utf8
  obtain ⟨ind, rfl, hw⟩ := hI.split
  rw [observe_eq, observe_eq]
  exact obsRec_fs_own _ _ _ _ _ hw.ownGet (FS.put_other _ _ _ _ (fun e => hp (.inr ⟨_, e.symm⟩)))

/-- A step keeps the catalogue well formed. -/
theorem DLStep.reach {a : Actor} {s s2 : DLState} (h : DLStep env d a s (.alive s2)) (hreach : Reach env d dl (.running s.cat s.fs)) :
    Reach env d dl (.running s2.cat s2.fs) := by
  rcases h.effect.1 with ⟨h1, h2⟩ | ⟨p, x, -, hp, h1, h2⟩ | ⟨o, fl, r, st', h1, h2, h3, h4, h5, -⟩
  · rw [h1, h2]; exact hreach
  · rw [h1, h2]; exact hreach.user p x hp
  · rw [h4, h5]; exact hreach.op o h1 fl r st' h2 h3

/-- A step that does not concern `h` changes nothing about it. -/
theorem DLStep.elsewhere (hh : Healthy env d) {a : Actor} {s s2 : DLState} (h : DLStep env d a s (.alive s2)) (hreach : Reach env d dl (.running s.cat s.fs)) (k : Sha1Hash)
    (hk : observe s.cat s.fs k ≠ .err .fileNotFound) (hcall : ∀ o, a = .call o → ¬ o.Touches k)
    (hthread : ∀ t th, a = .thread t → s.threads t = some th → th.pos.Busy → th.hash ≠ k) : observe s2.cat s2.fs k = observe s.cat s.fs k := by
  rcases h.effect.1 with ⟨h1, h2⟩ | ⟨p, x, -, hp, h1, h2⟩ | ⟨o, fl, r, st', h1, h2, h3, h4, h5, h6⟩
  · rw [h1, h2]
  · rw [h1, h2]; exact observe_user hh hreach p x hp k
  · rw [h4, h5]
    refine observe_other hh hreach k hk o h1 ?_ fl r st' h2
    rcases h6 with rfl | ⟨t, th, rfl, ht, hb, h6⟩
    · exact hcall o rfl
    · rcases h6 with h6 | ⟨n, b, rfl, -⟩
      · exact h6 k
      · exact fun ht' => hthread t th rfl ht hb ht'


/-! ### Lists of chunks -/

theorem mem_gotten (rounds : List (UInt16 × Bool)) (i : Nat) : i ∈ gotten rounds ↔ ∃ r ∈ rounds, r.2 = true ∧ r.1.toNat = i := by
  unfold gotten
  rw [List.mem_reverse, List.mem_map]
  constructor
  · rintro ⟨r, h1, h2⟩
    obtain ⟨h3, h4⟩ := List.mem_filter.1 h1
    exact ⟨r, h3, h4, h2⟩
  · rintro ⟨r, h1, h2, h3⟩
    exact ⟨r, List.mem_filter.2 ⟨h1, h2⟩, h3⟩

theorem mem_missingList (e : Export) (i : Nat) : i ∈ missingList e ↔ i < e.progress.sizeOf.toNat ∧ ¬ e.saved i := by
  unfold missingList
  rw [List.mem_filter, List.mem_range, decide_eq_true_iff]

theorem missingList_sorted (e : Export) : (missingList e).Pairwise (· < ·) := by
  unfold missingList
  exact List.pairwise_lt_range.filter _

/-- A chunk is asked for again only if it was not delivered. -/
def RoundsOrdered (rounds : List (UInt16 × Bool)) : Prop :=
  rounds.Pairwise (fun new old => old.1.toNat < new.1.toNat ∨ (old.1 = new.1 ∧ old.2 = false))

theorem RoundsOrdered.gotten_sorted {rounds : List (UInt16 × Bool)} (h : RoundsOrdered rounds) : (gotten rounds).Pairwise (· < ·) := by
  unfold gotten
  rw [List.pairwise_reverse, List.pairwise_map]
  rw [List.pairwise_filter]
  refine List.Pairwise.imp ?_ h
  intro a b hab _ hb
  rcases hab with hab | ⟨-, hab⟩
  · exact hab
  · rw [hab] at hb; cases hb

/-- An increasing list that contains, with each of its elements, all smaller elements of another increasing list, is a prefix of that list. -/
theorem sorted_prefix : ∀ (A B : List Nat), A.Pairwise (· < ·) → B.Pairwise (· < ·) → (∀ a ∈ A, a ∈ B) → (∀ a ∈ A, ∀ b ∈ B, b < a → b ∈ A) → A <+: B
  | [], B, _, _, _, _ => List.nil_prefix
  | a :: A, [], _, _, h, _ => absurd (h a List.mem_cons_self) List.not_mem_nil
  | a :: A, b :: B, hA, hB, h1, h2 => by
    obtain ⟨hA1, hA2⟩ := List.pairwise_cons.1 hA
    obtain ⟨hB1, hB2⟩ := List.pairwise_cons.1 hB
    have hab : a = b := by
      rcases List.mem_cons.1 (h1 a List.mem_cons_self) with h | h
      · exact h
      · have hlt := hB1 a h
        rcases List.mem_cons.1 (h2 a List.mem_cons_self b List.mem_cons_self hlt) with h' | h'
        · exact h'.symm
        · have := hA1 b h'; omega
    subst hab
    rw [List.cons_prefix_cons]
    refine ⟨rfl, sorted_prefix A B hA2 hB2 ?_ ?_⟩
    · intro x hx
      rcases List.mem_cons.1 (h1 x (List.mem_cons_of_mem _ hx)) with h | h
      · have := hA1 x hx; omega
      · exact h
    · intro x hx y hy hyx
      rcases List.mem_cons.1 (h2 x (List.mem_cons_of_mem _ hx) y (List.mem_cons_of_mem _ hy) hyx) with h | h
      · have := hB1 y hy; omega
      · exact h

/-! ### The single download -/

/-- What is true at each place of the loop. -/
def DLPos.Here (e : Export) (rounds : List (UInt16 × Bool)) : DLPos → Prop
  | .check | .setup _ | .refused => False
  | .test _ => True
  | .want _ => ∃ i : Nat, (i : Int) < e.progress.sizeOf ∧ ¬ e.saved i
  | .search _ c | .hosts _ c _ | .fetching _ c _ _ => ∃ b rest, rounds = (c, b) :: rest
  | .finished => ∀ i : Nat, (i : Int) < e.progress.sizeOf → e.saved i

structure DLInv (h : Sha1Hash) (t : Nat) (e0 : Export) (s : DLState) (e : Export) (th : DLThread) : Prop where
  obs : observe s.cat s.fs h = .ok e
  thread : s.threads t = some th
  hash : th.hash = h
  path : e.filePath = e0.filePath
  size : e.progress.sizeOf = e0.progress.sizeOf
  gained : ∀ i, i < 2 ^ 63 → (e.saved i ↔ e0.saved i ∨ i ∈ gotten th.rounds)
  asked : ∀ r ∈ th.rounds, (r.1.toNat : Int) < e.progress.sizeOf ∧ ¬ e0.saved r.1.toNat ∧ ∀ j, j < r.1.toNat → e.saved j
  order : RoundsOrdered th.rounds
  here : th.pos.Here e th.rounds

theorem upd_self {α β : Type} [DecidableEq α] (f : α → β) (a : α) (b : β) : upd f a b a = b := by unfold upd; rw [if_pos rfl]

/-- The invariant when only the place changes. -/
theorem DLInv.goto {h : Sha1Hash} {t : Nat} {e0 : Export} {s : DLState} {e : Export} {th : DLThread} (hI : DLInv h t e0 s e th) (s2 : DLState) (pos : DLPos)
    (hobs : observe s2.cat s2.fs h = observe s.cat s.fs h) (hthr : s2.threads t = some { th with pos := pos }) (hhere : pos.Here e th.rounds) :
    DLInv h t e0 s2 e { th with pos := pos } :=
  ⟨by rw [hobs]; exact hI.obs, hthr, hI.hash, hI.path, hI.size, hI.gained, hI.asked, hI.order, hhere⟩

theorem DLInv.step (hh : Healthy env d) {h : Sha1Hash} {t : Nat} {e0 : Export} {s s2 : DLState} {e : Export} {th : DLThread} {a : Actor}
    (hreach : Reach env d dl (.running s.cat s.fs)) (hsize : e0.progress.sizeOf ≤ 65536) (honly : Only h t s) (hI : DLInv h t e0 s e th)
    (hcall : ∀ o, a = .call o → ¬ o.Touches h) (hst : DLStep env d a s (.alive s2)) : ∃ e' th', DLInv h t e0 s2 e' th' := by
  have hne : observe s.cat s.fs h ≠ .err .fileNotFound := by rw [hI.obs]; intro hx; cases hx
  by_cases hat : a = .thread t
  rotate_left
  · have hobs : observe s2.cat s2.fs h = observe s.cat s.fs h := by
      refine hst.elsewhere hh hreach h hne hcall ?_
      rintro t' th' rfl ht' hb hk
      exact hat (by rw [honly t' th' ht' hk hb])
    exact ⟨e, th, by rw [hobs]; exact hI.obs, by rw [hst.effect.2 t hat]; exact hI.thread, hI.hash, hI.path, hI.size, hI.gained, hI.asked, hI.order, hI.here⟩
  subst hat
  have hhere := hI.here
  have hthr := hI.thread
  have hself : ∀ th0, s.threads t = some th0 → th0 = th := fun th0 h0 => by rw [hthr] at h0; exact (Option.some.inj h0).symm
  cases hst with
  | start _ h' _ ht => rw [hthr] at ht; cases ht
  | check _ _ th0 fl b s' ht hp hrun => rw [hself _ ht] at hp; rw [hp] at hhere; cases hhere
  | setup _ _ th0 fl w b own s' ht hp hrun => rw [hself _ ht] at hp; rw [hp] at hhere; cases hhere
  | refuse _ _ th0 fl w b e s' ht hp hrun => rw [hself _ ht] at hp; rw [hp] at hhere; cases hhere
  | test _ _ th0 fl own v s' ht hp hrun =>
    obtain rfl := hself _ ht
    rw [hI.hash] at hrun
    obtain ⟨e', h1, h2, -, h4⟩ := C34_complete hh hreach h fl v s' hrun
    rw [hI.obs] at h1; cases h1
    refine ⟨e, _, hI.goto _ _ (h4 h) (upd_self _ _ _) ?_⟩
    cases v with
    | true => exact h2.1 rfl
    | false =>
      apply Classical.byContradiction
      intro hc
      exact Bool.noConfusion (h2.2 (fun i hi => Classical.byContradiction (fun hs => hc ⟨i, hi, hs⟩)))
  | want _ _ th0 fl own r rest s' ht hp hrun =>
    obtain rfl := hself _ ht
    rw [hI.hash] at hrun
    obtain ⟨e', h1, -, h3, h4⟩ := C34_missing hh hreach h fl _ s' hrun
    rw [hI.obs] at h1; cases h1
    obtain ⟨-, h5, h6⟩ := h4 (by rw [hI.size]; exact hsize)
    obtain ⟨h7, h8⟩ := h6 r rest rfl
    have hr16 := r.start.toNat_lt
    have h9 : (r.start.toNat : Int) < e.progress.sizeOf := by
      rw [hp] at hhere
      obtain ⟨i, hi, hs⟩ := hhere
      rcases Nat.lt_or_ge i r.start.toNat with hl | hl
      · exact absurd (h8 i hl) hs
      · omega
    have hg : gotten ((r.start, false) :: th0.rounds) = gotten th0.rounds := rfl
    refine ⟨e, ⟨th0.hash, .search own r.start, (r.start, false) :: th0.rounds⟩, (h3 h).trans hI.obs, upd_self _ _ _, hI.hash, hI.path, hI.size, ?_, ?_, ?_, ⟨false, _, rfl⟩⟩
    · intro i hi; rw [hg]; exact hI.gained i hi
    · intro q hq
      rcases List.mem_cons.1 hq with rfl | hq
      · exact ⟨h9, fun hs => h7 ((hI.gained _ (by show r.start.toNat < _; omega)).2 (.inl hs)), h8⟩
      · exact hI.asked q hq
    · refine List.pairwise_cons.2 ⟨?_, hI.order⟩
      intro q hq
      obtain ⟨-, -, q3⟩ := hI.asked q hq
      rcases Nat.lt_trichotomy q.1.toNat r.start.toNat with hl | hl | hl
      · exact .inl hl
      · right
        refine ⟨UInt16.toNat_inj.1 hl, ?_⟩
        cases hq2 : q.2 with
        | false => rfl
        | true => exact absurd ((hI.gained _ (by omega)).2 (.inr ((mem_gotten _ _).2 ⟨q, hq, hq2, hl⟩))) h7
      · exact absurd (q3 _ hl) h7
  | search _ _ th0 own c rs ht hp =>
    obtain rfl := hself _ ht
    rw [hp] at hhere
    exact ⟨e, _, hI.goto _ _ rfl (upd_self _ _ _) hhere⟩
  | again _ _ th0 own c ht hp =>
    obtain rfl := hself _ ht
    exact ⟨e, _, hI.goto _ _ rfl (upd_self _ _ _) trivial⟩
  | skip _ _ th0 own c r todo ht hp hl hk =>
    obtain rfl := hself _ ht
    rw [hp] at hhere
    exact ⟨e, _, hI.goto _ _ rfl (upd_self _ _ _) hhere⟩
  | dial _ _ th0 own c r todo ht hp hl hk =>
    obtain rfl := hself _ ht
    rw [hp] at hhere
    exact ⟨e, _, hI.goto _ _ rfl (upd_self _ _ _) hhere⟩
  | gaveUp _ _ th0 fl own c r todo queue s' ht hp hrun =>
    obtain rfl := hself _ ht
    rw [hp] at hhere
    have hsame : s'.cat = s.cat ∧ s'.fs = s.fs := by
      rw [downloadChunk_eq] at hrun
      rcases hr : recvLoop env.sha1 .fresh queue with ⟨x, out⟩ | e | _ | _ | _
      · rw [hr] at hrun
        rcases out with c | _ | ⟨b, ok⟩
        · cases hrun
        · cases hrun; exact ⟨rfl, rfl⟩
        · obtain ⟨_, s1, h1, h2⟩ := (IOM.bind_ok_iff _ _ _ _ _).1 hrun
          cases h2
      all_goals (rw [hr] at hrun; cases hrun)
    refine ⟨e, _, hI.goto _ _ ?_ (upd_self _ _ _) hhere⟩
    show observe s'.cat s'.fs h = _
    rw [hsame.1, hsame.2]
  | fetched _ _ th0 fl own c r todo queue ok s' ht hp hsafe hrun =>
    obtain rfl := hself _ ht
    rw [hp] at hhere
    obtain ⟨b0, rest, hrounds⟩ := hhere
    obtain ⟨acks, b, h1, h2⟩ := downloadChunk_saved env _ _ _ _ _ _ hrun
    rw [hI.hash] at h2 hsafe
    obtain ⟨e1, e', k1, k2, k3, k4, k5, k6, k7⟩ := saveChunk_effect hh hreach h c b fl (hsafe b) s' h2
    rw [hI.obs] at k1; cases k1
    have hc16 := c.toNat_lt
    obtain ⟨hc1, hc2, hc3⟩ := hI.asked (c, b0) (by rw [hrounds]; exact List.mem_cons_self)
    simp only [] at hc1 hc2 hc3
    have hsz : e'.progress.sizeOf = e.progress.sizeOf := by rw [k4]; omega
    have hdel : delivered th0.rounds = (c, true) :: rest := by rw [hrounds]; rfl
    have hmono : ∀ j, j < 2 ^ 63 → e.saved j → e'.saved j := fun j hj hs => (k5 j hj).2 (.inl hs)
    refine ⟨e', ⟨th0.hash, .hosts own c todo, delivered th0.rounds⟩, k2, upd_self _ _ _, hI.hash, by rw [k3]; exact hI.path, hsz.trans hI.size, ?_, ?_, ?_, ⟨true, rest, hdel⟩⟩
    · intro i hi
      rw [k5 i hi, hI.gained i hi]
      simp only [mem_gotten, hdel, hrounds]
      constructor
      · rintro ((h | ⟨q, hq, q2, q3⟩) | h)
        · exact .inl h
        · rcases List.mem_cons.1 hq with rfl | hq
          · exact .inr ⟨(c, true), List.mem_cons_self, rfl, q3⟩
          · exact .inr ⟨q, List.mem_cons_of_mem _ hq, q2, q3⟩
        · exact .inr ⟨(c, true), List.mem_cons_self, rfl, h.symm⟩
      · rintro (h | ⟨q, hq, q2, q3⟩)
        · exact .inl (.inl h)
        · rcases List.mem_cons.1 hq with rfl | hq
          · exact .inr q3.symm
          · exact .inl (.inr ⟨q, List.mem_cons_of_mem _ hq, q2, q3⟩)
    · intro q hq
      have hq16 := q.1.toNat_lt
      simp only [hdel] at hq
      rw [hsz]
      rcases List.mem_cons.1 hq with rfl | hq
      · exact ⟨hc1, hc2, fun j hj => hmono j (by simp only [] at hj; omega) (hc3 j hj)⟩
      · obtain ⟨q1, q2, q3⟩ := hI.asked q (by rw [hrounds]; exact List.mem_cons_of_mem _ hq)
        exact ⟨q1, q2, fun j hj => hmono j (by omega) (q3 j hj)⟩
    · have ho := hI.order
      unfold RoundsOrdered at ho ⊢
      rw [hrounds, List.pairwise_cons] at ho
      simp only [hdel]
      rw [List.pairwise_cons]
      exact ho

theorem DLRun.only {h : Sha1Hash} {t : Nat} {s0 s : DLState} (h0 : Only h t s0) (hrun : DLRun env d (Alone h t) s0 (.alive s)) : Only h t s := by
  generalize hx : DLSys.alive s = x at hrun
  cases hrun with
  | refl => cases hx; exact h0
  | step a _ _ hok => exact hok.2 s hx.symm

theorem DLRun.inv (hh : Healthy env d) {h : Sha1Hash} {t : Nat} {s0 : DLState} {e0 : Export} (hreach : Reach env d dl (.running s0.cat s0.fs))
    (hsize : e0.progress.sizeOf ≤ 65536) (h0 : Only h t s0) (hI : ∃ e th, DLInv h t e0 s0 e th) {x : DLSys} (hrun : DLRun env d (Alone h t) s0 x) :
    ∀ s, x = .alive s → Reach env d dl (.running s.cat s.fs) ∧ ∃ e th, DLInv h t e0 s e th := by
  induction hrun with
  | refl => intro s hs; cases hs; exact ⟨hreach, hI⟩
  | step a hr hst hok ih =>
    intro s2 hs; subst hs
    obtain ⟨h1, e, th, h2⟩ := ih _ rfl
    exact ⟨hst.reach h1, h2.step hh h1 hsize (hr.only h0) hok.1 hst⟩

/-- C56: the only download of a file of at most 65536 chunks never indexes an empty list.  What it obtained, in this order, is an initial part of the list of chunks that
were missing at the beginning; and it is the whole list, and the file is complete, when the download stops.  If some host delivered in each round, there were exactly as many rounds
as missing chunks. -/
theorem C56_single (hh : Healthy env d) (h : Sha1Hash) (t : Nat) (own : ByteArr 4) (s0 : DLState) (hreach : Reach env d dl (.running s0.cat s0.fs))
    (ht : s0.threads t = some ⟨h, .test own, []⟩) (honly : Only h t s0) (e0 : Export) (ho : observe s0.cat s0.fs h = .ok e0)
    (hsize : e0.progress.sizeOf ≤ 65536) (x : DLSys) (hrun : DLRun env d (Alone h t) s0 x) :
    x ≠ .dead (.noMissing t) ∧ ∀ s, x = .alive s → ∃ e th, observe s.cat s.fs h = .ok e ∧ s.threads t = some th ∧
      e.progress.sizeOf = e0.progress.sizeOf ∧ (∀ i, i < 2 ^ 63 → (e.saved i ↔ e0.saved i ∨ i ∈ gotten th.rounds)) ∧
      gotten th.rounds <+: missingList e0 ∧
      (th.pos = .finished → gotten th.rounds = missingList e0 ∧ (∀ i : Nat, (i : Int) < e.progress.sizeOf → e.saved i) ∧
        ((∀ r ∈ th.rounds, r.2 = true) → th.rounds.length = (missingList e0).length)) := by
  have hI : DLInv h t e0 s0 e0 ⟨h, .test own, []⟩ :=
    ⟨ho, ht, rfl, rfl, rfl, fun i _ => (by simp [gotten]), fun _ hr => (by cases hr), List.Pairwise.nil, trivial⟩
  constructor
  · intro hx
    subst hx
    generalize hy : DLSys.dead (.noMissing t) = y at hrun
    cases hrun with
    | refl => cases hy
    | step a hr hst hok =>
      subst hy
      obtain ⟨h1, e, th, hI⟩ := DLRun.inv hh hreach hsize honly ⟨_, _, hI⟩ hr _ rfl
      cases hst with
      | wantNone _ _ th0 fl own s' ht hp hrun =>
        have hthr := hI.thread
        rw [ht] at hthr; cases hthr
        rw [hI.hash] at hrun
        obtain ⟨e', k1, -, -, k4⟩ := C34_missing hh h1 h fl _ s' hrun
        rw [hI.obs] at k1; cases k1
        have hhere := hI.here
        rw [hp] at hhere
        obtain ⟨i, hi, hs⟩ := hhere
        exact hs ((k4 (by rw [hI.size]; exact hsize)).2.1.1 rfl i hi)
  · intro s hs
    obtain ⟨h1, e, th, hI⟩ := DLRun.inv hh hreach hsize honly ⟨_, _, hI⟩ hrun s hs
    have hloaded := observe_loaded hh h1 h e hI.obs
    have hnn := hloaded.size_nonneg
    unfold Bitset.sizeOf at hsize
    have hpre : gotten th.rounds <+: missingList e0 := by
      refine sorted_prefix _ _ hI.order.gotten_sorted (missingList_sorted e0) ?_ ?_
      · intro i hi
        obtain ⟨r, hr, -, rfl⟩ := (mem_gotten _ _).1 hi
        obtain ⟨a1, a2, -⟩ := hI.asked r hr
        rw [mem_missingList, ← hI.size]
        exact ⟨by omega, a2⟩
      · intro i hi j hj hji
        obtain ⟨r, hr, -, rfl⟩ := (mem_gotten _ _).1 hi
        have hr16 := r.1.toNat_lt
        obtain ⟨-, -, a3⟩ := hI.asked r hr
        rcases (hI.gained j (by omega)).1 (a3 j hji) with hs | hs
        · exact absurd hs ((mem_missingList _ _).1 hj).2
        · exact hs
    refine ⟨e, th, hI.obs, hI.thread, hI.size, hI.gained, hpre, ?_⟩
    intro hfin
    have hhere := hI.here
    rw [hfin] at hhere
    have heq : gotten th.rounds = missingList e0 := by
      refine hpre.eq_of_length_le ?_
      have hsub : ∀ j ∈ missingList e0, j ∈ gotten th.rounds := by
        intro j hj
        obtain ⟨j1, j2⟩ := (mem_missingList _ _).1 hj
        have hsz := hI.size
        unfold Bitset.sizeOf at hsz j1
        rcases (hI.gained j (by omega)).1 (hhere j (by unfold Bitset.sizeOf; omega)) with hs | hs
        · exact absurd hs j2
        · exact hs
      exact (sorted_prefix _ _ (missingList_sorted e0) hI.order.gotten_sorted hsub (fun _ _ b hb _ => hpre.subset hb)).length_le
    refine ⟨heq, hhere, ?_⟩
    intro hall
    rw [← heq]
    unfold gotten
    rw [List.length_reverse, List.length_map, List.filter_eq_self.2 hall]


/-- C56: what a round asks for is the lowest missing chunk, whatever else goes on, if the file has at most 65536 chunks. -/
theorem C56_lowest (hh : Healthy env d) (s s2 : DLState) (hreach : Reach env d dl (.running s.cat s.fs)) (t : Nat) (th : DLThread) (own : ByteArr 4)
    (ht : s.threads t = some th) (hp : th.pos = .want own) (e : Export) (ho : observe s.cat s.fs th.hash = .ok e) (hsize : e.progress.sizeOf ≤ 65536)
    (hst : DLStep env d (.thread t) s (.alive s2)) :
    ∃ c, s2.threads t = some ⟨th.hash, .search own c, (c, false) :: th.rounds⟩ ∧ (missingList e).head? = some c.toNat := by
  have hself : ∀ th0, s.threads t = some th0 → th0 = th := fun th0 h0 => by rw [ht] at h0; exact (Option.some.inj h0).symm
  have key : ∀ fl (r : Range) rest s', missingChunks th.hash ⟨s.cat, s.fs, fl⟩ = (.ok (r :: rest), s') → (missingList e).head? = some r.start.toNat := by
    intro fl r rest s' hrun
    obtain ⟨e', h1, -, h3, h4⟩ := C34_missing hh hreach _ fl _ s' hrun
    rw [ho] at h1; cases h1
    obtain ⟨⟨u, -⟩, h5, h6⟩ := h4 hsize
    obtain ⟨h7, h8⟩ := h6 r rest rfl
    have hex : ∃ i : Nat, (i : Int) < e.progress.sizeOf ∧ ¬ e.saved i := by
      apply Classical.byContradiction
      intro hc
      have := h5.2 (fun i hi => Classical.byContradiction (fun hs => hc ⟨i, hi, hs⟩))
      cases this
    obtain ⟨i, hi, hs⟩ := hex
    have h9 : r.start.toNat < e.progress.sizeOf.toNat := by
      rcases Nat.lt_or_ge i r.start.toNat with hl | hl
      · exact absurd (h8 i hl) hs
      · omega
    have hpre : [r.start.toNat] <+: missingList e := by
      refine sorted_prefix _ _ (List.pairwise_singleton _ _) (missingList_sorted e) ?_ ?_
      · intro a ha
        rw [List.mem_singleton.1 ha, mem_missingList]
        exact ⟨h9, h7⟩
      · intro a ha b hb hba
        rw [List.mem_singleton.1 ha] at hba
        exact absurd (h8 b hba) ((mem_missingList _ _).1 hb).2
    obtain ⟨tl, htl⟩ := hpre
    rw [← htl]; rfl
  cases hst with
  | start _ h' _ ht' => rw [ht] at ht'; cases ht'
  | check _ _ th0 fl b s' ht hp' hrun => rw [hself _ ht, hp] at hp'; cases hp'
  | setup _ _ th0 fl w b own s' ht hp' hrun => rw [hself _ ht, hp] at hp'; cases hp'
  | refuse _ _ th0 fl w b e s' ht hp' hrun => rw [hself _ ht, hp] at hp'; cases hp'
  | test _ _ th0 fl own v s' ht hp' hrun => rw [hself _ ht, hp] at hp'; cases hp'
  | search _ _ th0 own c rs ht hp' => rw [hself _ ht, hp] at hp'; cases hp'
  | again _ _ th0 own c ht hp' => rw [hself _ ht, hp] at hp'; cases hp'
  | skip _ _ th0 own c r todo ht hp' hl hk => rw [hself _ ht, hp] at hp'; cases hp'
  | dial _ _ th0 own c r todo ht hp' hl hk => rw [hself _ ht, hp] at hp'; cases hp'
  | gaveUp _ _ th0 fl own c r todo queue s' ht hp' hrun => rw [hself _ ht, hp] at hp'; cases hp'
  | fetched _ _ th0 fl own c r todo queue ok s' ht hp' hsafe hrun => rw [hself _ ht, hp] at hp'; cases hp'
  | want _ _ th0 fl own' r rest s' ht' hp' hrun =>
    obtain rfl := hself _ ht'
    rw [hp] at hp'; cases hp'
    exact ⟨r.start, upd_self _ _ _, key fl r rest s' hrun⟩

/-! ### A run that completes -/

theorem DLRun.trans {ok : Actor → DLSys → Prop} {s0 s1 : DLState} {x : DLSys} (h1 : DLRun env d ok s0 (.alive s1)) (h2 : DLRun env d ok s1 x) : DLRun env d ok s0 x := by
  induction h2 with
  | refl => exact h1
  | step a _ h' hok ih => exact .step a ih h' hok

theorem DLRun.mono {ok ok' : Actor → DLSys → Prop} (hmono : ∀ a x, ok a x → ok' a x) {s0 : DLState} {x : DLSys} (h : DLRun env d ok s0 x) : DLRun env d ok' s0 x := by
  induction h with
  | refl => exact .refl
  | step a _ h' hok ih => exact .step a ih h' (hmono _ _ hok)

/-- Every chunk can be delivered. -/
theorem deliverable (sha1 : Bytes → Sha1Hash) (B : Bytes) (hB : B.length < 2 ^ 32) :
    ∃ queue acks, recvLoop sha1 .fresh queue = .ok (acks, .finished B true) := by
  have hr := C43_delivers sha1 B (sha1 B) 1 ⟨0, (sha1 B).1 ++ put32 (UInt32.ofNat B.length) ++ B.take 1⟩ ⟨1, []⟩
    ((List.range B.length).filterMap (fun i => if i = 0 then none else some ⟨UInt32.ofNat i, (B.drop i).take 1⟩)) [] hB (by decide) ⟨rfl, rfl⟩ ?_
    ⟨by decide, rfl⟩ ?_
  · rw [decide_eq_true rfl] at hr
    exact ⟨_, _, hr⟩
  · intro p hp
    obtain ⟨i, hi, hpi⟩ := List.mem_filterMap.1 hp
    rw [List.mem_range] at hi
    split at hpi
    · cases hpi
    · rename_i hi0
      cases hpi
      have ht : (UInt32.ofNat i).toNat = i := by rw [UInt32.toNat_ofNat']; omega
      have hl : ((B.drop i).take 1).length = 1 := by rw [List.length_take, List.length_drop]; omega
      refine ⟨?_, ?_, by simp only [hl]; omega, by simp only [hl, ht]; omega, by simp only [hl, ht]⟩
      · intro hx
        have := congrArg UInt32.toNat hx
        rw [ht] at this
        exact hi0 this
      · intro hx
        simp only [] at hx
        rw [hx] at hl; cases hl
  · intro i h1 h2
    have ht : (UInt32.ofNat i).toNat = i := by rw [UInt32.toNat_ofNat']; omega
    have hl : ((B.drop i).take 1).length = 1 := by rw [List.length_take, List.length_drop]; omega
    refine ⟨⟨UInt32.ofNat i, (B.drop i).take 1⟩, List.mem_filterMap.2 ⟨i, List.mem_range.2 h2, by rw [if_neg (by omega)]⟩, ?_, ?_⟩
    · simp only [ht]; omega
    · simp only [ht, hl]; omega

/-- The datagrams of a peer that sends the bytes `B`, if it sends anything to the end: whatever the receiver assembles is `B`. -/
def Spec.Assembles (sha1 : Bytes → Sha1Hash) (B : Bytes) (queue : List (Option Bytes)) : Prop :=
  ∀ acks b ok, recvLoop sha1 .fresh queue = .ok (acks, .finished b ok) → b = B

/-- What is asked of a step from `s` to `s'` while the file `F` (hash `h`, chunks of `cs` bytes) is downloaded to `path`: the peers of this download send the right chunk or give up;
other calls, other downloads and other programs leave the file and its record alone. -/
structure HonestStep (env : Env) (h : Sha1Hash) (F : Bytes) (cs : Nat) (path : Path) (a : Actor) (s s' : DLState) : Prop where
  call : ∀ o, a = .call o → ¬ o.Touches h ∧ ∀ k n data, o = .save k n data → s.cat.pathOf k ≠ some path
  user : a ≠ .user path
  others : ∀ t th, a = .thread t → s.threads t = some th → th.hash ≠ h → s.cat.pathOf th.hash ≠ some path
  peers : ∀ t th own n r todo, a = .thread t → s.threads t = some th → th.hash = h → th.pos = .fetching own n r todo →
    ∃ queue fl out s1, Assembles env.sha1 ((F.drop (n.toNat * cs)).take cs) queue ∧ downloadChunk env h n queue ⟨s.cat, s.fs, fl⟩ = (.ok out, s1) ∧ s'.cat = s1.cat ∧ s'.fs = s1.fs

/-- Any number of such steps. -/
inductive HonestRun (env : Env) (d : Path) (h : Sha1Hash) (F : Bytes) (cs : Nat) (path : Path) (s0 : DLState) : DLState → Prop
  | refl : HonestRun env d h F cs path s0 s0
  | step {s s' : DLState} (a : Actor) (hr : HonestRun env d h F cs path s0 s) (hs : DLStep env d a s (.alive s')) (hok : HonestStep env h F cs path a s s') :
      HonestRun env d h F cs path s0 s'

theorem HonestRun.trans {env : Env} {d : Path} {h : Sha1Hash} {F : Bytes} {cs : Nat} {path : Path} {s0 s1 s2 : DLState} (h1 : HonestRun env d h F cs path s0 s1)
    (h2 : HonestRun env d h F cs path s1 s2) : HonestRun env d h F cs path s0 s2 := by
  induction h2 with
  | refl => exact h1
  | step a _ hs hok ih => exact .step a ih hs hok

theorem HonestStep.quiet {env : Env} {h : Sha1Hash} {F : Bytes} {cs : Nat} {path : Path} {t : Nat} {s s' : DLState} {th : DLThread} (ht : s.threads t = some th)
    (hth : th.hash = h) (hpos : ∀ own n r todo, th.pos ≠ .fetching own n r todo) : HonestStep env h F cs path (.thread t) s s' := by
  refine ⟨(by intro o ho; cases ho), (by intro hx; cases hx), ?_, ?_⟩
  · intro t' th' h1 h2 h3
    cases h1
    rw [ht] at h2; cases h2
    exact absurd hth h3
  · intro t' th' own n r todo h1 h2 _ h4
    cases h1
    rw [ht] at h2; cases h2
    exact absurd h4 (hpos own n r todo)

/-- A download between two rounds, when nothing went wrong so far. -/
structure DLReady (env : Env) (d dl : Path) (h : Sha1Hash) (t : Nat) (own : ByteArr 4) (r : HostResp) (F old : Bytes) (cs : Nat) (s : DLState) (e : Export)
    (rounds : List (UInt16 × Bool)) : Prop where
  clean : CleanReach env d dl (.running s.cat s.fs)
  obs : observe s.cat s.fs h = .ok e
  path : ¬ CatFile d e.filePath
  size : e.progress.sizeOf ≤ 65536
  down : Downloading F old cs (s.fs e.filePath) e
  free : s.locked = false
  idle : s.downloads (h, r.addr) = false
  thread : s.threads t = some ⟨h, .test own, rounds⟩

theorem upd_upd {α β : Type} [DecidableEq α] (f : α → β) (a : α) (b c : β) : upd (upd f a b) a c = upd f a c := by
  funext x; unfold upd; split <;> rfl

theorem DLReady.fetch (hh : Healthy env d) {h : Sha1Hash} {t : Nat} {own : ByteArr 4} {r : HostResp} {F old : Bytes} {cs : Nat} {s : DLState} {e : Export}
    {rounds : List (UInt16 × Bool)} (hr : DLReady env d dl h t own r F old cs s e rounds) (hgood : goodHosts own [r] = [r]) (hmiss : missingList e ≠ []) :
    ∃ s2 e2 c, DLRun env d (fun a _ => a = .thread t) s (.alive s2) ∧ HonestRun env d h F cs e.filePath s s2 ∧ DLReady env d dl h t own r F old cs s2 e2 ((c, true) :: rounds) ∧
      missingList e2 = (missingList e).filter (· ≠ c.toNat) ∧ c.toNat ∈ missingList e ∧ e2.filePath = e.filePath ∧ e2.progress.sizeOf = e.progress.sizeOf ∧
      (∀ t', t' ≠ t → s2.threads t' = s.threads t') := by
  have hnn := (observe_loaded hh hr.clean.reach h e hr.obs).size_nonneg
  have hsafe0 : ∀ (c : Cat) (fs : FS), Reach env d dl (.running c fs) → observe c fs h = .ok e → ∀ n data, (Op.save h n data).Safe d c := by
    intro c fs hreach ho n data p hp
    rw [observe_path hh hreach h e ho] at hp
    cases hp; exact hr.path
  -- the test
  obtain ⟨⟨v, s1, h1⟩, -⟩ := C34_total hh hr.clean h e hr.obs
  obtain ⟨e', g1, g2, g3, g4⟩ := C34_complete hh hr.clean.reach h [] v s1 h1
  rw [hr.obs] at g1; cases g1
  have hv : v = false := by
    cases v with
    | false => rfl
    | true =>
      exfalso
      apply hmiss
      rw [List.eq_nil_iff_forall_not_mem]
      intro i hi
      obtain ⟨i1, i2⟩ := (mem_missingList _ _).1 hi
      exact i2 (g2.1 rfl i (by omega))
  subst hv
  have hc1 := hr.clean.returns (.complete h) trivial s1 (.inl (CM.void_ok _ _ _ _ h1))
  have ho1 : observe s1.cat s1.fs h = .ok e := (g4 h).trans hr.obs
  have st1 := DLStep.test (env := env) (d := d) t s ⟨h, .test own, rounds⟩ [] own false s1 hr.thread rfl h1
  -- the list of missing chunks
  obtain ⟨-, hm⟩ := C34_total hh hc1 h e ho1
  obtain ⟨rs, s2, h2⟩ := hm hr.size
  obtain ⟨e', k1, k2, k3, k4⟩ := C34_missing hh hc1.reach h [] rs s2 h2
  rw [ho1] at k1; cases k1
  obtain ⟨-, k5, k6⟩ := k4 hr.size
  have hc2 := hc1.returns (.missing h) trivial s2 (.inl (CM.void_ok _ _ _ _ h2))
  have ho2 : observe s2.cat s2.fs h = .ok e := (k3 h).trans ho1
  obtain ⟨i0, hi0⟩ := List.exists_mem_of_ne_nil _ hmiss
  obtain ⟨i1, i2⟩ := (mem_missingList _ _).1 hi0
  rcases rs with _ | ⟨rg, rest⟩
  · exact absurd (k5.1 rfl i0 (by omega)) i2
  obtain ⟨k7, k8⟩ := k6 rg rest rfl
  have hlt : rg.start.toNat < e.progress.sizeOf.toNat := by
    rcases Nat.lt_or_ge i0 rg.start.toNat with hl | hl
    · exact absurd (k8 i0 hl) i2
    · omega
  have hcount : rg.start.toNat < (F.length + cs - 1) / cs := by
    have := hr.down.count; omega
  have st2 := DLStep.want (env := env) (d := d) t
    ({ s with cat := s1.cat, fs := s1.fs }.move t ⟨h, .test own, rounds⟩ (if false = true then .finished else .want own))
    ⟨h, .want own, rounds⟩ [] own rg rest s2 (upd_self _ _ _) rfl h2
  have st3 := DLStep.search (env := env) (d := d) t (th := ⟨h, .search own rg.start, (rg.start, false) :: rounds⟩) own rg.start [r]
    (s := ({ ({ s with cat := s1.cat, fs := s1.fs }.move t ⟨h, .test own, rounds⟩ (if false = true then .finished else .want own)) with
      cat := s2.cat, fs := s2.fs }.move t { (⟨h, .want own, rounds⟩ : DLThread) with rounds := (rg.start, false) :: rounds } (.search own rg.start)))
    (upd_self _ _ _) rfl
  rw [hgood] at st3
  have st4 := DLStep.dial (env := env) (d := d) t (th := ⟨h, .hosts own rg.start [r], (rg.start, false) :: rounds⟩) own rg.start r []
    (s := (({ ({ s with cat := s1.cat, fs := s1.fs }.move t ⟨h, .test own, rounds⟩ (if false = true then .finished else .want own)) with
      cat := s2.cat, fs := s2.fs }.move t { (⟨h, .want own, rounds⟩ : DLThread) with rounds := (rg.start, false) :: rounds } (.search own rg.start)).move t
        ⟨h, .search own rg.start, (rg.start, false) :: rounds⟩ (.hosts own rg.start [r])))
    (upd_self _ _ _) rfl hr.free hr.idle
  -- the transfer
  have hcsl := observe_chunkSize hh hr.clean.reach h e hr.obs
  have hcs : cs < 2 ^ 32 := by have := hr.down.chunkSize; omega
  obtain ⟨queue, acks, hq⟩ := deliverable env.sha1 ((F.drop (rg.start.toNat * cs)).take cs) (by rw [List.length_take]; omega)
  obtain ⟨s3, h3⟩ := saveChunk_total hh hc2.reach h rg.start ((F.drop (rg.start.toNat * cs)).take cs) e ho2
  have hfs2 : s2.fs = s.fs := k2.trans g3
  obtain ⟨e2, m1, m2, m3, m4⟩ := C33_step hh hc2.reach F old cs h rg.start [] e ho2 hr.path (by rw [hfs2]; exact hr.down) hcount s3 h3
  have hsafe := hsafe0 _ _ hc2.reach ho2
  obtain ⟨e2', e3, n1, n2, n3, n4, n5, -, -⟩ := saveChunk_effect hh hc2.reach h rg.start _ [] (hsafe _ _) s3 h3
  rw [m1] at n2; cases n2
  rw [ho2] at n1; cases n1
  have hsz : e2.progress.sizeOf = e.progress.sizeOf := by rw [n4]; omega
  have hc3 := hc2.returns (.save h rg.start _) (hsafe _ _) s3 (.inl h3)
  have hrun : downloadChunk env h rg.start queue ⟨s2.cat, s2.fs, []⟩ = (.ok (.saved true), s3) := by
    rw [downloadChunk_eq, hq]
    simp only []
    rw [IOM.bind_apply]
    unfold IOM.orPanic
    rw [h3]
    rfl
  have st5 := DLStep.fetched (env := env) (d := d) t (th := ⟨h, .fetching own rg.start r [], (rg.start, false) :: rounds⟩) [] own rg.start r [] queue true s3
    (s := ({ (({ ({ s with cat := s1.cat, fs := s1.fs }.move t ⟨h, .test own, rounds⟩ (if false = true then .finished else .want own)) with
      cat := s2.cat, fs := s2.fs }.move t { (⟨h, .want own, rounds⟩ : DLThread) with rounds := (rg.start, false) :: rounds } (.search own rg.start)).move t
        ⟨h, .search own rg.start, (rg.start, false) :: rounds⟩ (.hosts own rg.start [r])) with
      locked := true, downloads := upd s.downloads (h, r.addr) true }.move t ⟨h, .hosts own rg.start [r], (rg.start, false) :: rounds⟩ (.fetching own rg.start r [])))
    (upd_self _ _ _) rfl (hsafe _) hrun
  have st6 := DLStep.again (env := env) (d := d) t (th := ⟨h, .hosts own rg.start [], (rg.start, true) :: rounds⟩) own rg.start
    (s := ({ ({ (({ ({ s with cat := s1.cat, fs := s1.fs }.move t ⟨h, .test own, rounds⟩ (if false = true then .finished else .want own)) with
      cat := s2.cat, fs := s2.fs }.move t { (⟨h, .want own, rounds⟩ : DLThread) with rounds := (rg.start, false) :: rounds } (.search own rg.start)).move t
        ⟨h, .search own rg.start, (rg.start, false) :: rounds⟩ (.hosts own rg.start [r])) with
      locked := true, downloads := upd s.downloads (h, r.addr) true }.move t ⟨h, .hosts own rg.start [r], (rg.start, false) :: rounds⟩ (.fetching own rg.start r [])) with
        cat := s3.cat, fs := s3.fs, locked := false, downloads := upd (upd s.downloads (h, r.addr) true) (h, r.addr) false }.move t
          { (⟨h, .fetching own rg.start r [], (rg.start, false) :: rounds⟩ : DLThread) with rounds := delivered ((rg.start, false) :: rounds) } (.hosts own rg.start [])))
    (upd_self _ _ _) rfl
  have run := ((((((DLRun.refl (env := env) (d := d) (ok := fun a _ => a = Actor.thread t) (s0 := s)).step _ st1 rfl).step _ st2 rfl).step _ st3 rfl).step _ st4 rfl).step _ st5 rfl).step _ st6 rfl
  have quiet : ∀ {s s' : DLState} {th : DLThread}, s.threads t = some th → th.hash = h → (∀ own n r todo, th.pos ≠ .fetching own n r todo) →
      HonestStep env h F cs e.filePath (.thread t) s s' := fun g1 g2 g3 => .quiet g1 g2 g3
  have hok : ∀ {s s' : DLState} {rounds : List (UInt16 × Bool)}, s.threads t = some ⟨h, .fetching own rg.start r [], rounds⟩ → s.cat = s2.cat → s.fs = s2.fs →
      s'.cat = s3.cat → s'.fs = s3.fs → HonestStep env h F cs e.filePath (.thread t) s s' := by
    intro s s' rounds g1 g2 g3 g4 g5
    refine ⟨(by intro o ho; cases ho), (by intro hx; cases hx), ?_, ?_⟩
    · intro t' th' h1 h2 h3
      cases h1
      rw [g1] at h2; cases h2
      exact absurd rfl h3
    · intro t' th' own' n r' todo h1 h2 _ h4
      cases h1
      rw [g1] at h2; cases h2
      cases h4
      refine ⟨queue, [], _, s3, ?_, by rw [g2, g3]; exact hrun, g4, g5⟩
      intro acks' b ok' hx
      rw [hq] at hx; cases hx; rfl
  have hrun2 := (((((((HonestRun.refl (env := env) (d := d) (h := h) (F := F) (cs := cs) (path := e.filePath) (s0 := s)).step _ st1 (quiet hr.thread rfl (by intro _ _ _ _ hx; cases hx))).step _ st2
    (quiet (upd_self _ _ _) rfl (by intro _ _ _ _ hx; cases hx))).step _ st3 (quiet (upd_self _ _ _) rfl (by intro _ _ _ _ hx; cases hx))).step _ st4
    (quiet (upd_self _ _ _) rfl (by intro _ _ _ _ hx; cases hx))).step _ st5 (hok (upd_self _ _ _) rfl rfl rfl rfl)).step _ st6 (quiet (upd_self _ _ _) rfl (by intro _ _ _ _ hx; cases hx)))
  refine ⟨_, e2, rg.start, run, hrun2, ⟨hc3, m1, by rw [m2]; exact hr.path, by rw [hsz]; exact hr.size, by rw [m2]; exact m3, rfl, upd_self _ _ _, upd_self _ _ _⟩, ?_, ?_, m2, hsz, ?_⟩
  · unfold missingList
    rw [hsz, List.filter_filter]
    apply List.filter_congr
    intro i hi
    rw [List.mem_range] at hi
    have := hr.size
    have := n5 i (by omega)
    rw [← Bool.decide_and]
    apply decide_eq_decide.2
    rw [this]
    constructor
    · intro hx; exact ⟨fun he => hx (.inr he), fun he => hx (.inl he)⟩
    · rintro ⟨a, b⟩ (hx | hx)
      · exact b hx
      · exact a hx
  · rw [mem_missingList]; exact ⟨hlt, k7⟩
  · intro t' ht'
    show upd _ _ _ _ = _
    simp only [DLState.move, upd, if_neg ht']

theorem DLReady.all (hh : Healthy env d) {h : Sha1Hash} {t : Nat} {own : ByteArr 4} {r : HostResp} {F old : Bytes} {cs : Nat} (hgood : goodHosts own [r] = [r]) (n : Nat) :
    ∀ {s : DLState} {e : Export} {rounds : List (UInt16 × Bool)}, DLReady env d dl h t own r F old cs s e rounds → (missingList e).length = n →
    ∃ s2 e2 new, DLRun env d (fun a _ => a = .thread t) s (.alive s2) ∧ HonestRun env d h F cs e.filePath s s2 ∧ DLReady env d dl h t own r F old cs s2 e2 (new ++ rounds) ∧ new.length = n ∧
      (∀ x ∈ new, x.2 = true) ∧ missingList e2 = [] ∧ e2.filePath = e.filePath ∧ (∀ t', t' ≠ t → s2.threads t' = s.threads t') := by
  induction n with
  | zero =>
    intro s e rounds hr hn
    exact ⟨s, e, [], .refl, .refl, hr, rfl, fun _ hx => (by cases hx), List.length_eq_zero_iff.1 hn, rfl, fun _ _ => rfl⟩
  | succ n ih =>
    intro s e rounds hr hn
    obtain ⟨s2, e2, c, h1, h1', h2, h3, h4, h5, -, h6⟩ := hr.fetch hh hgood (by intro hx; rw [hx] at hn; cases hn)
    have hlen : (missingList e2).length = n := by
      rw [h3]
      have hnd : (missingList e).Nodup := (missingList_sorted e).imp (fun h => Nat.ne_of_lt h)
      have := hnd.erase_eq_filter c.toNat
      have h7 := List.length_erase_of_mem h4
      rw [this] at h7
      have h8 : (missingList e).filter (· ≠ c.toNat) = (missingList e).filter (fun x => x != c.toNat) := by
        apply List.filter_congr
        intro x _
        by_cases hx : x = c.toNat <;> simp [hx]
      rw [h8, h7, hn]; rfl
    obtain ⟨s3, e3, new, k1, k1', k2, k3, k4, k5, k6, k7⟩ := ih h2 hlen
    rw [h5] at k1'
    refine ⟨s3, e3, new ++ [(c, true)], h1.trans k1, h1'.trans k1', by rw [List.append_assoc]; exact k2, by rw [List.length_append, k3]; rfl, ?_, k5, k6.trans h5, fun t' ht' => (k7 t' ht').trans (h6 t' ht')⟩
    intro x hx
    rcases List.mem_append.1 hx with hx | hx
    · exact k4 x hx
    · rw [List.mem_singleton.1 hx]

theorem dl_completes (hh : Healthy env d) {h : Sha1Hash} {t : Nat} {own : ByteArr 4} {r : HostResp} {F old : Bytes} {cs : Nat} (hgood : goodHosts own [r] = [r])
    {s : DLState} {e : Export} (hr : DLReady env d dl h t own r F old cs s e []) (hF : F ≠ []) (hold : old.length ≤ F.length) :
    ∃ s2 e2 rounds, DLRun env d (fun a _ => a = .thread t) s (.alive s2) ∧ s2.threads t = some ⟨h, .finished, rounds⟩ ∧ rounds.length = (missingList e).length ∧
      (∀ x ∈ rounds, x.2 = true) ∧ CleanReach env d dl (.running s2.cat s2.fs) ∧ observe s2.cat s2.fs h = .ok e2 ∧
      (∀ i : Nat, (i : Int) < e2.progress.sizeOf → e2.saved i) ∧ s2.fs e.filePath = some F ∧ (∀ t', t' ≠ t → s2.threads t' = s.threads t') ∧
      HonestRun env d h F cs e.filePath s s2 ∧ e2.filePath = e.filePath := by
  obtain ⟨s1, e1, new, h1, h1', h2, h3, h4, h5, h6, h7⟩ := DLReady.all hh hgood _ hr rfl
  rw [List.append_nil] at h2
  obtain ⟨⟨v, s', g1⟩, -⟩ := C34_total hh h2.clean h e1 h2.obs
  obtain ⟨e', k1, k2, k3, k4⟩ := C34_complete hh h2.clean.reach h [] v s' g1
  rw [h2.obs] at k1; cases k1
  have hnn := (observe_loaded hh h2.clean.reach h e1 h2.obs).size_nonneg
  have hall : ∀ i : Nat, (i : Int) < e1.progress.sizeOf → e1.saved i := by
    intro i hi
    apply Classical.byContradiction
    intro hs
    have : i ∈ missingList e1 := (mem_missingList _ _).2 ⟨by omega, hs⟩
    rw [h5] at this; cases this
  have hv : v = true := k2.2 hall
  subst hv
  have hc := h2.clean.returns (.complete h) trivial s' (.inl (CM.void_ok _ _ _ _ g1))
  have st := DLStep.test (env := env) (d := d) t s1 ⟨h, .test own, new⟩ [] own true s' h2.thread rfl g1
  refine ⟨_, e1, new, h1.step _ st rfl, upd_self _ _ _, h3, h4, hc, (k4 h).trans h2.obs, hall, ?_, ?_⟩
  · show s'.fs e.filePath = some F
    rw [k3, ← h6]
    exact C33_complete hh h2.clean.reach F old cs h [] e1 h2.obs h2.down hF hold s' g1
  · refine ⟨?_, h1'.step _ st (.quiet h2.thread rfl (by intro _ _ _ _ hx; cases hx)), h6⟩
    intro t' ht'
    rw [← h7 t' ht']
    show upd _ _ _ _ = _
    simp only [upd, if_neg ht']

/-- C56: if a peer delivers what it is asked for, a download started on a healthy daemon runs to its end: it stops after exactly as many rounds as there were chunks missing, with the
file complete and its content right. -/
theorem C56_completes (hh : Healthy env d) {h : Sha1Hash} {t : Nat} {own : ByteArr 4} {r : HostResp} {F old : Bytes} {cs : Nat} (hgood : goodHosts own [r] = [r])
    {s : DLState} {e : Export} (hr : DLReady env d dl h t own r F old cs s e []) (hF : F ≠ []) (hold : old.length ≤ F.length) :
    ∃ s2 e2 rounds, DLRun env d (fun a _ => a = .thread t) s (.alive s2) ∧ s2.threads t = some ⟨h, .finished, rounds⟩ ∧ rounds.length = (missingList e).length ∧
      (∀ x ∈ rounds, x.2 = true) ∧ CleanReach env d dl (.running s2.cat s2.fs) ∧ observe s2.cat s2.fs h = .ok e2 ∧
      (∀ i : Nat, (i : Int) < e2.progress.sizeOf → e2.saved i) ∧ s2.fs e.filePath = some F ∧ (∀ t', t' ≠ t → s2.threads t' = s.threads t') := by
  obtain ⟨s2, e2, rounds, h1, h2, h3, h4, h5, h6, h7, h8, h9, -⟩ := dl_completes hh hgood hr hF hold
  exact ⟨s2, e2, rounds, h1, h2, h3, h4, h5, h6, h7, h8, h9⟩

/-- C56, the limit: if a second download of the same file runs at the same time, the daemon can die of indexing an empty list, whatever file it is and however many chunks are missing. -/
theorem C56_race (hh : Healthy env d) {h : Sha1Hash} {own : ByteArr 4} {r : HostResp} {F old : Bytes} {cs : Nat} (hgood : goodHosts own [r] = [r])
    {s : DLState} {e : Export} (hr : DLReady env d dl h 1 own r F old cs s e []) (ht : s.threads 2 = some ⟨h, .test own, []⟩) (hmiss : missingList e ≠ []) :
    DLRun env d (fun a _ => a = .thread 1 ∨ a = .thread 2) s (.dead (.noMissing 2)) := by
  have hnn := (observe_loaded hh hr.clean.reach h e hr.obs).size_nonneg
  -- the second download finds that the file is not complete
  obtain ⟨⟨v, s1, h1⟩, -⟩ := C34_total hh hr.clean h e hr.obs
  obtain ⟨e', g1, g2, g3, g4⟩ := C34_complete hh hr.clean.reach h [] v s1 h1
  rw [hr.obs] at g1; cases g1
  have hv : v = false := by
    cases v with
    | false => rfl
    | true =>
      exfalso
      apply hmiss
      rw [List.eq_nil_iff_forall_not_mem]
      intro i hi
      obtain ⟨i1, i2⟩ := (mem_missingList _ _).1 hi
      exact i2 (g2.1 rfl i (by omega))
  subst hv
  have hc1 := hr.clean.returns (.complete h) trivial s1 (.inl (CM.void_ok _ _ _ _ h1))
  have st1 := DLStep.test (env := env) (d := d) 2 s ⟨h, .test own, []⟩ [] own false s1 ht rfl h1
  have hr1 : DLReady env d dl h 1 own r F old cs ({ s with cat := s1.cat, fs := s1.fs }.move 2 ⟨h, .test own, []⟩ (.want own)) e [] :=
    ⟨hc1, (g4 h).trans hr.obs, hr.path, hr.size, by show Downloading F old cs (s1.fs _) e; rw [g3]; exact hr.down, hr.free, hr.idle,
      (by simp only [DLState.move, upd]; rw [if_neg (by decide)]; exact hr.thread)⟩
  -- the first one fetches everything
  obtain ⟨s2, e2, new, k1, -, k2, -, -, k5, -, k7⟩ := DLReady.all hh hgood _ hr1 rfl
  -- the second one asks what is missing
  have hnn2 := (observe_loaded hh k2.clean.reach h e2 k2.obs).size_nonneg
  obtain ⟨-, hm⟩ := C34_total hh k2.clean h e2 k2.obs
  obtain ⟨rs, s3, h3⟩ := hm k2.size
  obtain ⟨e', m1, -, -, m4⟩ := C34_missing hh k2.clean.reach h [] rs s3 h3
  rw [k2.obs] at m1; cases m1
  have hrs : rs = [] := by
    rw [(m4 k2.size).2.1]
    intro i hi
    apply Classical.byContradiction
    intro hs
    have : i ∈ missingList e2 := (mem_missingList _ _).2 ⟨by omega, hs⟩
    rw [k5] at this; cases this
  subst hrs
  have ht2 : s2.threads 2 = some ⟨h, .want own, []⟩ := by
    rw [k7 2 (by decide)]
    exact upd_self s.threads 2 _
  have st3 := DLStep.wantNone (env := env) (d := d) 2 s2 ⟨h, .want own, []⟩ [] own s3 ht2 rfl h3
  exact (((DLRun.refl.step _ st1 (.inr rfl)).trans (k1.mono (fun _ _ h => .inl h)))).step _ st3 (.inr rfl)

/-- C56, the limit: chunks from number 65536 on are never obtained, so no download of such a file ever stops by itself. -/
theorem C56_big (hh : Healthy env d) (h : Sha1Hash) (s0 : DLState) (hreach : Reach env d dl (.running s0.cat s0.fs))
    (hno : ∀ t th, s0.threads t = some th → th.hash = h → th.pos ≠ .finished) (e0 : Export) (ho : observe s0.cat s0.fs h = .ok e0)
    (i : Nat) (hi : 65536 ≤ i) (hi' : (i : Int) < e0.progress.sizeOf) (hs0 : ¬ e0.saved i) (x : DLSys)
    (hrun : DLRun env d (fun a _ => ∀ o, a = .call o → ¬ o.Touches h) s0 x) :
    ∀ s, x = .alive s → ∃ e, observe s.cat s.fs h = .ok e ∧ (i : Int) < e.progress.sizeOf ∧ ¬ e.saved i ∧
      ∀ t th, s.threads t = some th → th.hash = h → th.pos ≠ .finished := by
  suffices ∀ s, x = .alive s → Reach env d dl (.running s.cat s.fs) ∧ ∃ e, observe s.cat s.fs h = .ok e ∧ (i : Int) < e.progress.sizeOf ∧ ¬ e.saved i ∧
      ∀ t th, s.threads t = some th → th.hash = h → th.pos ≠ .finished from fun s hs => (this s hs).2
  induction hrun with
  | refl => intro s hs; cases hs; exact ⟨hreach, e0, ho, hi', hs0, hno⟩
  | @step s x a hr hst hok ih =>
    intro s2 hs; subst hs
    obtain ⟨h1, e, h2, h3, h4, h5⟩ := ih s rfl
    refine ⟨hst.reach h1, ?_⟩
    have hne : observe s.cat s.fs h ≠ .err .fileNotFound := by rw [h2]; intro hx; cases hx
    have hlt : i < 2 ^ 63 := by
      have := (observe_loaded hh h1 h e h2).size_lt
      unfold Bitset.sizeOf at h3
      omega
    -- the threads
    have hthr : ∀ t th, s2.threads t = some th → th.hash = h → th.pos ≠ .finished := by
      have keep : ∀ (t0 : Nat) (th0 : DLThread), (th0.hash = h → th0.pos ≠ .finished) → ∀ t th, upd s.threads t0 (some th0) t = some th → th.hash = h → th.pos ≠ .finished := by
        intro t0 th0 h0 t th ht hh'
        unfold upd at ht
        split at ht
        · cases ht; exact h0 hh'
        · exact h5 t th ht hh'
      cases hst with
      | start t0 h' _ ht => exact keep _ _ (fun _ hx => by cases hx)
      | check t0 _ th0 fl b s' ht hp hrun => exact keep _ _ (fun _ hx => by cases hx)
      | setup t0 _ th0 fl w b own s' ht hp hrun => exact keep _ _ (fun _ hx => by cases hx)
      | refuse t0 _ th0 fl w b e s' ht hp hrun => exact keep _ _ (fun _ hx => by cases hx)
      | want t0 _ th0 fl own r rest s' ht hp hrun => exact keep _ _ (fun _ hx => by cases hx)
      | search t0 _ th0 own c rs ht hp => exact keep _ _ (fun _ hx => by cases hx)
      | again t0 _ th0 own c ht hp => exact keep _ _ (fun _ hx => by cases hx)
      | skip t0 _ th0 own c r todo ht hp hl hk => exact keep _ _ (fun _ hx => by cases hx)
      | dial t0 _ th0 own c r todo ht hp hl hk => exact keep _ _ (fun _ hx => by cases hx)
      | fetched t0 _ th0 fl own c r todo queue ok s' ht hp hsafe hrun => exact keep _ _ (fun _ hx => by cases hx)
      | gaveUp t0 _ th0 fl own c r todo queue s' ht hp hrun => exact keep _ _ (fun _ hx => by cases hx)
      | call o _ fl r s' hsafe hrun hret => exact h5
      | user p _ content hp => exact h5
      | test t0 _ th0 fl own v s' ht hp hrun =>
        refine keep _ _ ?_
        intro hth hx
        simp only [] at hth hx
        rw [hth] at hrun
        obtain ⟨e', k1, k2, -, -⟩ := C34_complete hh h1 h fl v s' hrun
        rw [h2] at k1; cases k1
        cases v with
        | true => exact h4 (k2.1 rfl i h3)
        | false => cases hx
    -- the record
    by_cases hown : ∃ t th, a = .thread t ∧ s.threads t = some th ∧ th.hash = h
    rotate_left
    · have hobs := hst.elsewhere hh h1 h hne hok (fun t th ha ht _ hk => hown ⟨t, th, ha, ht, hk⟩)
      exact ⟨e, by rw [hobs]; exact h2, h3, h4, hthr⟩
    obtain ⟨t, th, rfl, ht, hk⟩ := hown
    rcases hst.effect.1 with ⟨q1, q2⟩ | ⟨p, x, hx, -⟩ | ⟨o, fl, r, st', q1, q2, q3, q4, q5, hx | ⟨t', th', hx, ht', -, q6⟩⟩
    · exact ⟨e, by rw [q1, q2]; exact h2, h3, h4, hthr⟩
    · cases hx
    · cases hx
    · cases hx
      rw [ht] at ht'; cases ht'
      rcases q6 with q6 | ⟨c, b, rfl, rfl, -⟩
      · exact ⟨e, by rw [q4, q5, observe_other hh h1 h hne o q1 (q6 h) fl r st' q2]; exact h2, h3, h4, hthr⟩
      · rw [hk] at q1 q2
        obtain ⟨e1, e', m1, m2, m3, m4, m5, -, -⟩ := saveChunk_effect hh h1 h c b fl q1 st' q2
        rw [h2] at m1; cases m1
        have hc16 := c.toNat_lt
        refine ⟨e', by rw [q4, q5]; exact m2, by rw [m4]; omega, ?_, hthr⟩
        rw [m5 i hlt]
        rintro (hx | hx)
        · exact h4 hx
        · omega

/-- A run of one thread leaves the others where they are, at every moment. -/
theorem DLRun.others {t : Nat} {s0 : DLState} {x : DLSys} (h : DLRun env d (fun a _ => a = .thread t) s0 x) :
    DLRun env d (fun a x => a = .thread t ∧ ∀ s, x = .alive s → ∀ t', t' ≠ t → s.threads t' = s0.threads t') s0 x ∧
      ∀ s, x = .alive s → ∀ t', t' ≠ t → s.threads t' = s0.threads t' := by
  induction h with
  | refl => exact ⟨.refl, fun s hs _ _ => by cases hs; rfl⟩
  | @step s1 x a h hst hok ih =>
    have hx : ∀ s, x = .alive s → ∀ t', t' ≠ t → s.threads t' = s0.threads t' := by
      intro s hs t' ht'
      subst hs
      rw [← ih.2 s1 rfl t' ht']
      refine hst.effect.2 t' ?_
      rw [hok]
      intro he
      cases he
      exact ht' rfl
    exact ⟨.step a ih.1 hst ⟨hok, hx⟩, hx⟩

/-- A download that runs without others is alone. -/
theorem DLRun.alone {h : Sha1Hash} {t : Nat} {s0 : DLState} {x : DLSys} (hrun : DLRun env d (fun a _ => a = .thread t) s0 x) (h0 : Only h t s0) :
    DLRun env d (Alone h t) s0 x := by
  refine hrun.others.1.mono ?_
  rintro a x ⟨rfl, hx⟩
  refine ⟨fun o ho => (by cases ho), ?_⟩
  intro s hs t' th ht' hk hb
  apply Classical.byContradiction
  intro hne
  rw [hx s hs t' hne] at ht'
  exact hne (h0 t' th ht' hk hb)

end

/-! ### Cases -/

def exOwn : ByteArr 4 := ⟨[10, 0, 0, 1], rfl⟩
def exPeer : HostResp := ⟨7, ⟨[10, 0, 0, 2], rfl⟩, 61696, [0, 3]⟩

theorem ex_good : goodHosts exOwn [exPeer] = [exPeer] := by decide

/-- Downloads of a file of five bytes in three chunks, of which nothing is there yet, by the threads given. -/
theorem ex_ready_at (sha1 : Bytes → Sha1Hash) (json : JsonCodec) (h : Sha1Hash) (threads : Nat → Option DLThread) (ht : threads 1 = some ⟨h, .test exOwn, []⟩) :
    ∃ s e, DLReady (exEnv sha1 json) exDir exDown h 1 exOwn exPeer [1, 2, 3, 4, 5] [] 2 s e [] ∧ s.threads = threads ∧ e.filePath = joinPath [exDown, [120]] ∧
      missingList e = [0, 1, 2] := by
  have hh := ex_healthy sha1 json
  obtain ⟨c, fs, e, s1, h1, h2, h3, h4, h5, h6, h7, h8, h9⟩ := ex_registered sha1 json h
  obtain ⟨-, ⟨b, g1, -, g4, -, g5⟩, -, g7⟩ := C29_register hh h1.reach 5 2 h [120] [] e s1 (by decide) (by decide) h2
  have hpath : e.filePath = joinPath [exDown, [120]] := by rw [g1]
  obtain ⟨k1, k2, k3⟩ := C33_start hh h1.reach [1, 2, 3, 4, 5] 2 h [120] [] e s1 (by decide) (by decide) (by rw [← hpath]; exact h6) h2
  have hold : (fs (joinPath [exDown, [120]])) = none := by
    rw [← g7 _ (fun e => h6 (.inl (by rw [hpath]; exact e))) (fun e => h6 (.inr ⟨h, by rw [hpath]; exact e⟩)), ← hpath]; exact h3
  rw [hold] at k3
  have hsz : e.progress.sizeOf = 3 := by rw [g1]; exact g4
  refine ⟨⟨s1.cat, s1.fs, false, fun _ => false, threads⟩, e, ⟨h9, h7, h6, by rw [hsz]; decide, by rw [k1]; exact k3, rfl, rfl, ht⟩, rfl, hpath, ?_⟩
  unfold missingList
  rw [hsz]
  have hno : ∀ i, i < 2 ^ 63 → ¬ e.saved i := by
    intro i hi hs
    unfold Export.saved at hs
    rw [g1] at hs
    simp only [g5 i hi] at hs
    cases hs
  show [0, 1, 2].filter _ = _
  simp only [List.filter, decide_eq_true (hno 0 (by decide)), decide_eq_true (hno 1 (by decide)), decide_eq_true (hno 2 (by decide))]

theorem ex_ready (sha1 : Bytes → Sha1Hash) (json : JsonCodec) (h : Sha1Hash) (threads : Nat → Option DLThread) (ht : threads 1 = some ⟨h, .test exOwn, []⟩) :
    ∃ s e, DLReady (exEnv sha1 json) exDir exDown h 1 exOwn exPeer [1, 2, 3, 4, 5] [] 2 s e [] ∧ s.threads = threads ∧ missingList e = [0, 1, 2] := by
  obtain ⟨s, e, h1, h2, -, h3⟩ := ex_ready_at sha1 json h threads ht
  exact ⟨s, e, h1, h2, h3⟩

/-- `C56_single`, `C56_completes`: a download that runs to its end. -/
example (sha1 : Bytes → Sha1Hash) (json : JsonCodec) (h : Sha1Hash) : ∃ s s2 e th, Only h 1 s ∧ observe s.cat s.fs h = .ok e ∧ e.progress.sizeOf ≤ 65536 ∧
    s.threads 1 = some ⟨h, .test exOwn, []⟩ ∧ Reach (exEnv sha1 json) exDir exDown (.running s.cat s.fs) ∧
    DLRun (exEnv sha1 json) exDir (Alone h 1) s (.alive s2) ∧ s2.threads 1 = some th ∧ th.pos = .finished ∧ gotten th.rounds = [0, 1, 2] ∧
    s2.fs e.filePath = some [1, 2, 3, 4, 5] := by
  obtain ⟨s, e, h1, h2, h3⟩ := ex_ready sha1 json h (fun t => if t = 1 then some ⟨h, .test exOwn, []⟩ else none) rfl
  obtain ⟨s2, e2, rounds, g1, g2, g3, g4, g5, g6, g7, g8, -⟩ := C56_completes (ex_healthy sha1 json) ex_good h1 (by decide) (by decide)
  have honly : Only h 1 s := by
    intro t' th ht' _ _
    rw [h2] at ht'
    by_cases hx : t' = 1
    · exact hx
    · simp only [if_neg hx] at ht'; cases ht'
  have hal := g1.alone honly
  obtain ⟨-, hfin⟩ := C56_single (ex_healthy sha1 json) h 1 exOwn s h1.clean.reach h1.thread honly e h1.obs h1.size _ hal
  obtain ⟨e', th, k1, k2, k3, k4, k5, k6⟩ := hfin s2 rfl
  rw [g2] at k2; cases k2
  exact ⟨s, s2, e, _, honly, h1.obs, h1.size, h1.thread, h1.clean.reach, hal, g2, rfl, by rw [(k6 rfl).1, h3], g8⟩

/-- `C56_lowest`: the first round asks for chunk 0. -/
example (sha1 : Bytes → Sha1Hash) (json : JsonCodec) (h : Sha1Hash) : ∃ s s2 e, Reach (exEnv sha1 json) exDir exDown (.running s.cat s.fs) ∧
    s.threads 1 = some ⟨h, .want exOwn, []⟩ ∧ observe s.cat s.fs h = .ok e ∧ e.progress.sizeOf ≤ 65536 ∧ missingList e = [0, 1, 2] ∧
    DLStep (exEnv sha1 json) exDir (.thread 1) s (.alive s2) := by
  obtain ⟨s, e, h1, h2, h3⟩ := ex_ready sha1 json h (fun t => if t = 1 then some ⟨h, .test exOwn, []⟩ else none) rfl
  obtain ⟨-, hm⟩ := C34_total (ex_healthy sha1 json) h1.clean h e h1.obs
  obtain ⟨rs, s2, g1⟩ := hm h1.size
  obtain ⟨e', k1, -, -, k4⟩ := C34_missing (ex_healthy sha1 json) h1.clean.reach h [] rs s2 g1
  rw [h1.obs] at k1; cases k1
  have hmem : 0 ∈ missingList e := by rw [h3]; decide
  obtain ⟨j1, j2⟩ := (mem_missingList _ _).1 hmem
  rcases rs with _ | ⟨r, rest⟩
  · exact absurd ((k4 h1.size).2.1.1 rfl 0 (by omega)) j2
  · exact ⟨{ s with threads := fun _ => some ⟨h, .want exOwn, []⟩ }, _, e, h1.clean.reach, rfl, h1.obs, h1.size, h3,
      DLStep.want 1 _ ⟨h, .want exOwn, []⟩ [] exOwn r rest s2 rfl rfl g1⟩

/-- `C56_race`: two downloads of the same file. -/
example (sha1 : Bytes → Sha1Hash) (json : JsonCodec) (h : Sha1Hash) : ∃ s e, DLReady (exEnv sha1 json) exDir exDown h 1 exOwn exPeer [1, 2, 3, 4, 5] [] 2 s e [] ∧
    s.threads 2 = some ⟨h, .test exOwn, []⟩ ∧ missingList e ≠ [] := by
  obtain ⟨s, e, h1, h2, h3⟩ := ex_ready sha1 json h (fun t => if t = 1 ∨ t = 2 then some ⟨h, .test exOwn, []⟩ else none) rfl
  exact ⟨s, e, h1, by rw [h2]; rfl, by rw [h3]; decide⟩

/-- `C56_big`: a file of 65537 chunks of one byte. -/
example (sha1 : Bytes → Sha1Hash) (json : JsonCodec) (h : Sha1Hash) : ∃ c fs e, CleanReach (exEnv sha1 json) exDir exDown (.running c fs) ∧ observe c fs h = .ok e ∧
    ((65536 : Nat) : Int) < e.progress.sizeOf ∧ ¬ e.saved 65536 := by
  have hh := ex_healthy sha1 json
  have h0 := CleanReach.fresh (exEnv sha1 json) exDir exDown hh.utf8 exFS ex_fs_clean
  obtain ⟨e, s1, h1⟩ := registerDownload_total (exEnv sha1 json) 65537 1 h [120] exDir exDown (freshIdx (exEnv sha1 json) exDir) (exFS1 sha1 json) rfl (by decide) (by decide)
  have h2 := h0.returns (.register 65537 1 h [120]) trivial s1 (.inl (CM.void_ok _ _ _ _ h1))
  obtain ⟨-, ⟨b, g1, g2, g3, g4, g5⟩, -⟩ := C29_register hh h0.reach 65537 1 h [120] [] e s1 (by decide) (by decide) h1
  refine ⟨_, _, e, h2, g2, ?_, ?_⟩
  · rw [g1]
    show _ < b.sizeOf
    rw [g3]
    decide
  · intro hs
    unfold Export.saved at hs
    rw [g1] at hs
    simp only [g5 65536 (by decide)] at hs
    cases hs

end Flu
