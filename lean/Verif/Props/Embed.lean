import Verif.Props.Stops
/-!
# What an upload can do, a running daemon can do (C129)

The properties of one upload with several goroutines (C104, C105) are about its steps alone.  Here these steps are shown to be steps of the whole daemon: the requests and the
acknowledgements come as datagrams, and the catalogue opens the chunk for every one of the requests.
-/
namespace Flu

/-- The announcement has this hash and this size. -/
def MuThread.named (hash : Sha1Hash) (size : Nat) : MuThread → MuThread
  | .reset _ _ l => .reset hash size l
  | .first _ _ pc => .first hash size pc
  | .announce _ _ got => .announce hash size got
  | x => x

/-- All announcements have this hash and this size. -/
def MuState.named (hash : Sha1Hash) (size : Nat) (s : MuState) : MuState := { s with threads := fun i => (s.threads i).named hash size }

section
variable {hash : Sha1Hash} {size : Nat}

theorem named_set (s : MuState) (i : Nat) (x : MuThread) : (s.set i x).named hash size = (s.named hash size).set i (x.named hash size) := by
  unfold MuState.named MuState.set
  congr 1
  funext j
  show (if j = i then x else s.threads j).named hash size = if j = i then _ else _
  split <;> rfl

theorem named_none {x : MuThread} : x.named hash size = .none ↔ x = .none := by
  cases x <;> simp [MuThread.named]

theorem named_dead {x : MuThread} : x.named hash size = .dead ↔ x = .dead := by
  cases x <;> simp [MuThread.named]

theorem named_failsAt {x y : MuThread} (h : ¬ Spec.FailsAt x y) : ¬ Spec.FailsAt (x.named hash size) (y.named hash size) := by
  intro hf
  apply h
  cases x <;> cases y <;> simp only [MuThread.named, Spec.FailsAt] at hf ⊢ <;> first | exact hf | (split at hf <;> simp_all)

theorem named_sound {s t : MuState} (h : Spec.Sound s t) : Spec.Sound (s.named hash size) (t.named hash size) := fun i => named_failsAt (h i)

/-- The hash and the size that are announced do not matter for the rest. -/
theorem named_step {s t : MuState} {p : Option Packet} (h : MuStep s p t) (hb : t.before = s.before) (hnew : ∀ i, s.threads i = .none → t.threads i = .none) :
    ∃ p', MuStep (s.named hash size) p' (t.named hash size) ∧ (p' = none ↔ p = none) := by
  have nm : ∀ {i : Nat} {x : MuThread}, s.threads i = x → (s.named hash size).threads i = x.named hash size := fun h => congrArg (MuThread.named hash size) h
  have mv : ∀ {i : Nat} {x : MuThread} {off : Nat}, ((s.set i x).move off).named hash size = ((s.named hash size).set i (x.named hash size)).move off :=
    fun {i x off} => congrArg (fun s : MuState => s.move off) (named_set s i x)
  have ww : ∀ {i : Nat} {x : MuThread} {w : UInt16}, ({ s.set i x with windowSize := w } : MuState).named hash size = { (s.named hash size).set i (x.named hash size) with windowSize := w } :=
    fun {i x w} => congrArg (fun s : MuState => { s with windowSize := w }) (named_set s i x)
  have pp : ∀ {i : Nat} {x : MuThread} {q : Nat}, ({ s.set i x with pending := q } : MuState).named hash size = { (s.named hash size).set i (x.named hash size) with pending := q } :=
    fun {i x q} => congrArg (fun s : MuState => { s with pending := q }) (named_set s i x)
  have cc : ∀ {i : Nat} {x : MuThread} {b : Bool}, ({ s.set i x with cancel := b } : MuState).named hash size = { (s.named hash size).set i (x.named hash size) with cancel := b } :=
    fun {i x b} => congrArg (fun s : MuState => { s with cancel := b }) (named_set s i x)
  cases h with
  | edit new => exact absurd (congrArg List.length hb) (by simp)
  | kickstart i hash size h => exact absurd (hnew i h) (by show (if i = i then _ else _) ≠ _; rw [if_pos rfl]; nofun)
  | resetLoad i _ _ h => rw [named_set]; exact ⟨_, .resetLoad _ i hash size (nm h), Iff.rfl⟩
  | resetStore i h' z' a h =>
    rw [mv]
    refine ⟨_, ?_, Iff.rfl⟩
    have e : (if (RdPc.next s.reader s.now 0 .good (.seekStore a)).1 = .panicked then MuThread.dead else .first h' z' .seek).named hash size =
        if (RdPc.next s.reader s.now 0 .good (.seekStore a)).1 = .panicked then MuThread.dead else .first hash size .seek := by split <;> rfl
    rw [e]
    exact .resetStore (s.named hash size) i hash size a (nm h)
  | firstStep i _ _ pc rd h hp => rw [mv]; exact ⟨_, .firstStep _ i hash size pc rd (nm h) hp, Iff.rfl⟩
  | firstDone i _ _ o got err h he => rw [named_set]; exact ⟨_, .firstDone _ i hash size o got err (nm h) he, Iff.rfl⟩
  | firstFails i _ _ o got h => rw [named_set]; exact ⟨_, .firstFails _ i hash size o got (nm h), Iff.rfl⟩
  | firstDies i _ _ h => rw [named_set]; exact ⟨_, .firstDies _ i hash size (nm h), Iff.rfl⟩
  | sendFirst i _ _ got h => rw [named_set]; exact ⟨_, .sendFirst _ i hash size got (nm h), by simp⟩
  | sendFirstFails i _ _ got h => rw [named_set]; exact ⟨_, .sendFirstFails _ i hash size got (nm h), Iff.rfl⟩
  | firstLoad i h => rw [named_set]; exact ⟨_, .firstLoad _ i (nm h), Iff.rfl⟩
  | firstStore i w h => rw [ww]; exact ⟨_, .firstStore _ i w (nm h), Iff.rfl⟩
  | arrive => exact ⟨_, .arrive _, Iff.rfl⟩
  | take i h hp => rw [pp]; exact ⟨_, .take _ i (nm h) hp, Iff.rfl⟩
  | takeLoad i h => rw [named_set]; exact ⟨_, .takeLoad _ i (nm h), Iff.rfl⟩
  | takeStore i w h => rw [ww]; exact ⟨_, .takeStore _ i w (nm h), Iff.rfl⟩
  | cancel i h hc => rw [cc]; exact ⟨_, .cancel _ i (nm h) hc, Iff.rfl⟩
  | more i ends h hw => rw [named_set]; exact ⟨_, .more _ i ends (nm h) hw, Iff.rfl⟩
  | full i ends h hw => rw [named_set]; exact ⟨_, .full _ i ends (nm h) hw, Iff.rfl⟩
  | readStep i ends pc rd h hp => rw [mv]; exact ⟨_, .readStep _ i ends pc rd (nm h) hp, Iff.rfl⟩
  | readDone i ends o got err h he => rw [named_set]; exact ⟨_, .readDone _ i ends o got err (nm h) he, Iff.rfl⟩
  | readFails i ends o got h => rw [named_set]; exact ⟨_, .readFails _ i ends o got (nm h), Iff.rfl⟩
  | readDies i ends h => rw [named_set]; exact ⟨_, .readDies _ i ends (nm h), Iff.rfl⟩
  | send i ends o got h => rw [named_set]; exact ⟨_, .send _ i ends o got (nm h), by simp⟩
  | sendFails i ends o got h => rw [named_set]; exact ⟨_, .sendFails _ i ends o got (nm h), Iff.rfl⟩
  | sentLoad i ends h => rw [named_set]; exact ⟨_, .sentLoad _ i ends (nm h), Iff.rfl⟩
  | sentStore i ends w h => rw [ww]; exact ⟨_, .sentStore _ i ends w (nm h), Iff.rfl⟩
  | terminate i left failed h hc => rw [cc]; exact ⟨_, .terminate _ i left failed (nm h) hc, Iff.rfl⟩
  | ret i failed h =>
    rw [named_set]
    refine ⟨_, ?_, Iff.rfl⟩
    have := MuStep.ret (s.named hash size) i failed (nm h)
    cases failed <;> exact this

/-- A step is the arrival of a request, the arrival of an acknowledgement, a change of the file, or something else. -/
theorem mu_kinds {s t : MuState} {p : Option Packet} (h : MuStep s p t) :
    (p = none ∧ ∃ i hash size, s.threads i = .none ∧ t = (s.set i (.reset hash size .none)).move s.reader.base) ∨ (p = none ∧ t = { s with pending := s.pending + 1 }) ∨
    ((∀ i, s.threads i = .none → t.threads i = .none) ∧ t.pending ≤ s.pending ∧ (t.before = s.before ∨ t.before = s.now :: s.before) ∧ ((∃ i, s.threads i ≠ .none) ∨ t.before = s.now :: s.before)) := by
  have st : ∀ {i : Nat} {x y : MuThread}, s.threads i = x → x ≠ .none → ∀ j, s.threads j = .none → (s.set i y).threads j = .none := by
    intro i x y h1 h2 j hj
    rw [MuState.set_other]
    · exact hj
    · rintro rfl
      exact h2 (h1.symm.trans hj)
  have ex : ∀ {i : Nat} {x : MuThread}, s.threads i = x → x ≠ .none → ∃ i, s.threads i ≠ .none := fun {i x} h1 h2 => ⟨i, by rw [h1]; exact h2⟩
  cases h with
  | edit new => exact .inr (.inr ⟨fun _ h => h, Nat.le_refl _, .inr rfl, .inr rfl⟩)
  | kickstart i hash size h => exact .inl ⟨rfl, i, hash, size, h, rfl⟩
  | arrive => exact .inr (.inl ⟨rfl, rfl⟩)
  | resetLoad i _ _ h | resetStore i _ _ _ h | firstStep i _ _ _ _ h | firstDone i _ _ _ _ _ h | firstFails i _ _ _ _ h | firstDies i _ _ h | sendFirst i _ _ _ h | sendFirstFails i _ _ _ h
  | firstLoad i h | firstStore i _ h | take i h | takeLoad i h | takeStore i _ h | cancel i h | more i _ h | full i _ h | readStep i _ _ _ h | readDone i _ _ _ _ h | readFails i _ _ _ h
  | readDies i _ h | send i _ _ _ h | sendFails i _ _ _ h | sentLoad i _ h | sentStore i _ _ h | terminate i _ _ h | ret i _ h =>
    refine .inr (.inr ⟨st h nofun, ?_, .inl rfl, .inl (ex h nofun)⟩)
    first | exact Nat.le_refl _ | exact Nat.sub_le _ _
end

section
variable {env : Env} {d dl : Path} {port : Nat}

/-- What `StartUpload` gets from the catalogue for a chunk that it has. -/
theorem opening (hh : Healthy env d) {c : Cat} {fs : FS} (hc : CleanReach env d dl (.running c fs)) (h : Sha1Hash) (n : UInt16) (e : Export) (content : Bytes) (ho : observe c fs h = .ok e)
    (hn : e.saved n.toNat) (hf : fs e.filePath = some content) :
    ∃ s1 choices cr s2, contains h ⟨c, fs, []⟩ = (.ok e, s1) ∧ getChunkReader env e.sha1Hash n.toNat choices ⟨s1.cat, s1.fs, []⟩ = (.ok (some cr), s2) ∧
      CleanReach env d dl (.running s1.cat s1.fs) ∧ CleanReach env d dl (.running s2.cat s2.fs) ∧ observe s2.cat s2.fs h = .ok e ∧ s2.fs = fs ∧
      s2.cat.pathOf e.sha1Hash = some e.filePath ∧ cr.size ≤ 4294967295 ∧
      cr.reader = ⟨n.toNat * e.chunkSize.toNat, n.toNat * e.chunkSize.toNat, n.toNat * e.chunkSize.toNat + e.chunkSize.toNat⟩ ∧
      cr.hash = env.sha1 (Spec.slice content (n.toNat * e.chunkSize.toNat) e.chunkSize.toNat) ∧ cr.size = (Spec.slice content (n.toNat * e.chunkSize.toNat) e.chunkSize.toNat).length := by
  have hreach := hc.reach
  obtain ⟨hc1, hc2⟩ := observe_chunkSize hh hreach h e ho
  rcases hcon : contains h ⟨c, fs, []⟩ with ⟨r0, s1⟩
  have hr0 : r0 = .ok e := by
    have : (contains h ⟨c, fs, []⟩).1 = .ok e := ho
    rw [hcon] at this; exact this
  subst hr0
  obtain ⟨g1, g2, -, -⟩ := contains_effect hh hreach h [] _ _ hcon
  have hd1 : CleanReach env d dl (.running s1.cat s1.fs) := hc.returns (.contains h) trivial s1 (.inl (CM.void_ok _ _ _ _ hcon))
  have hr1 := hd1.reach
  have ho1 : observe s1.cat s1.fs h = .ok e := by rw [g2]; exact ho
  have hown := C27_own hh hreach h e ho
  obtain ⟨cr, s2, hread⟩ := C35_serves hh hr1 h n.toNat (List.replicate (e.chunkSize.toNat + 1) .good) e content ho1 hn (by rw [g1]; exact hf) (by simp [List.countP_replicate])
  obtain ⟨k1, k2⟩ := C35_harmless hh hr1 h n.toNat _ [] _ _ hread
  have hd2 : CleanReach env d dl (.running s2.cat s2.fs) := hd1.returns (.reader h n.toNat _) trivial s2 (.inl (CM.void_ok _ _ _ _ hread))
  have hI1 : Inv env d dl s1.cat s1.fs := hr1.inv hh.abs hh.utf8
  obtain ⟨ind, hind, hw⟩ := hI1.split
  have hread' := hread
  rw [hind] at hread'
  obtain ⟨-, e2, content2, m2, m3, m4, m5⟩ :=
    ((ro_reader (dl := dl) (fs0 := s1.fs) env hw.ownGet h n.toNat _) ⟨_, s1.fs, []⟩ (RO.init d dl ind s1.fs)).1 _ _ hread'
  rw [← observe_eq d dl, ← hind, ho1] at m2
  cases m2
  rw [g1, hf] at m4
  cases m4
  obtain ⟨q1, q2, -, q4⟩ := C23_describes env.sha1 content _ _ _ cr m5.symm
  have hsz : cr.size ≤ 4294967295 := by
    rw [q2]
    unfold Spec.slice
    simp
    omega
  have hpath : s2.cat.pathOf h = some e.filePath := observe_path hh hd2.reach h e (by rw [k2]; exact ho1)
  exact ⟨s1, _, cr, s2, rfl, by rw [hown]; exact hread, hd1, hd2, by rw [k2]; exact ho1, by rw [k1, g1], by rw [hown]; exact hpath, hsz, q4, q1, q2⟩

/-- What is fixed: the file, the chunk, who asks for it and acknowledges, and with which datagrams. -/
structure Asking (env : Env) (h : Sha1Hash) (n cap : UInt16) (e : Export) (content : Bytes) (ret : Addr) (host : ByteArr 4) (dg dg' : Bytes) (o : UInt32) : Prop where
  saved : e.saved n.toNat
  opens : parse (udpBuffer dg) = .ok (.openReq h n cap)
  acks : parse (udpBuffer dg') = .ok (.ack o)
  ip : newIpv4 ret.ip = .ok host

/-- The section of the chunk. -/
def sectionOf (e : Export) (n : UInt16) : SectionReader := ⟨n.toNat * e.chunkSize.toNat, n.toNat * e.chunkSize.toNat, n.toNat * e.chunkSize.toNat + e.chunkSize.toNat⟩

/-- In some run the upload is this, with so many requests, packets and acknowledgements; the catalogue still has the chunk, and no other datagrams came. -/
def Shown (env : Env) (d dl : Path) (port : Nat) (c : Cat) (fs : FS) (key : UpKey) (h : Sha1Hash) (n cap : UInt16) (e : Export) (content : Bytes) (dg dg' : Bytes) (q k a : Nat) (mu : MuState) : Prop :=
  ∃ tr s, Spec.WellRun env d dl port (.fresh c fs) tr (.alive s) ∧ observe s.loop.cat s.loop.fs h = .ok e ∧ s.loop.fs e.filePath = some content ∧
    (s.uploads key = some ⟨e.filePath, mu.named (env.sha1 (Spec.slice content (n.toNat * e.chunkSize.toNat) e.chunkSize.toNat)) (Spec.slice content (n.toNat * e.chunkSize.toNat) e.chunkSize.toNat).length⟩ ∨
      (s.uploads key = none ∧ mu = .init (sectionOf e n) cap content ∧ k = 0)) ∧
    Spec.times (Spec.OpensAny key) tr = q ∧ Spec.times (Spec.Leaves key) tr = k ∧ Spec.times (Spec.Acks key) tr = a ∧ ∀ g r o x, (.datagram g r, o, x) ∈ tr → g = dg ∨ g = dg'

theorem sound_upd {f : UpKey → Option UpConn} {key : UpKey} {u : UpConn} (h : ∀ u0, f key = some u0 → Spec.Sound u0.mu u.mu) :
    ∀ key' u0 u1, f key' = some u0 → upd f key (some u) key' = some u1 → Spec.Sound u0.mu u1.mu := by
  intro key' u0 u1 h0 h1
  by_cases hk : key' = key
  · subst hk
    rw [upd_same] at h1
    cases h1
    exact h u0 h0
  · rw [upd_other _ _ hk, h0] at h1
    cases h1
    exact fun i => failsAt_self _

theorem sound_same {f : UpKey → Option UpConn} : ∀ key u0 u1, f key = some u0 → f key = some u1 → Spec.Sound u0.mu u1.mu := by
  intro key u0 u1 h0 h1
  rw [h0] at h1
  cases h1
  exact fun i => failsAt_self _

section
variable {c : Cat} {fs : FS} {h : Sha1Hash} {n cap : UInt16} {e : Export} {content : Bytes} {ret : Addr} {host : ByteArr 4} {dg dg' : Bytes} {o : UInt32} {q k a : Nat} {mu : MuState}

/-- A request arrives and its goroutine runs until `kickstart` begins. -/
theorem Shown.asked (hh : Healthy env d) (h0 : CleanReach env d dl (.running c fs)) (ha : Asking env h n cap e content ret host dg dg' o)
    (hs : Shown env d dl port c fs ⟨host, UInt16.ofNat ret.port⟩ h n cap e content dg dg' q k a mu) (i : Nat) (hash : Sha1Hash) (size : Nat) (hi : mu.threads i = .none) :
    Shown env d dl port c fs ⟨host, UInt16.ofNat ret.port⟩ h n cap e content dg dg' (q + 1) k a ((mu.set i (.reset hash size .none)).move mu.reader.base) := by
  obtain ⟨tr, s, h1, h2, h3, h4, h5, h6, h7, h8⟩ := hs
  obtain ⟨t, ht⟩ := h1.run.room
  have hc := h1.clean h0
  obtain ⟨s1, ch, cr, s2, g1, g2, g3, g4, g5, g6, g7, g8, g9, g10, g11⟩ := opening hh hc h n e content h2 ha.saved h3
  have nip : ∀ t dg ret, DmEv.handler t = .datagram dg ret → newIpv4 ret.ip ≠ .panic := by intro _ _ _ h; cases h
  have a1 := h1.goes (.arrives s t dg ret _ (ht t (Nat.le_refl t)) ha.opens) hc sound_same (by intro _ _ h; cases h; rw [ha.ip]; nofun)
  have a2 := a1.goes (.looks _ t ⟨ret, .asked (.openReq h n cap)⟩ h n cap [] e s1 (upd_same _ _ _) rfl g1) g3 sound_same (nip t)
  have a3 := a2.goes (.opens _ t ⟨ret, .known e.sha1Hash n cap⟩ e.sha1Hash n cap ch [] cr s2 e.filePath content host (upd_same _ _ _) rfl g2 g8 ha.ip g7 (by rw [g6]; exact h3)) g4 sound_same (nip t)
  have no : ∀ {t : Nat} {o : Option Out} {x : DmSys} {key : UpKey}, ¬ Spec.Acks key (.handler t, o, x) ∧ ¬ Spec.OpensAny key (.handler t, o, x) ∧ ¬ Spec.Comes key (.handler t, o, x) :=
    not_comes (by intro _ _ h; cases h)
  have fin : ∀ (u : UpConn), u = (s.uploads ⟨host, UInt16.ofNat ret.port⟩).getD ⟨e.filePath, .init cr.reader cap content⟩ →
      u.path = e.filePath → u.mu = mu.named (env.sha1 (Spec.slice content (n.toNat * e.chunkSize.toNat) e.chunkSize.toNat)) (Spec.slice content (n.toNat * e.chunkSize.toNat) e.chunkSize.toNat).length →
      Shown env d dl port c fs ⟨host, UInt16.ofNat ret.port⟩ h n cap e content dg dg' (q + 1) k a ((mu.set i (.reset hash size .none)).move mu.reader.base) := by
    intro u hu hup hum
    have hi' : u.mu.threads i = .none := by
      rw [hum]
      exact named_none.2 hi
    have a4 := a3.goes (.kicks _ t ⟨ret, .opened ⟨host, UInt16.ofNat ret.port⟩ e.filePath content cr cap⟩ _ _ _ _ _ i u (upd_same _ _ _) rfl hu hi') g4 (sound_upd (by
      intro u0 hu0 j
      have hu0 : s.uploads ⟨host, UInt16.ofNat ret.port⟩ = some u0 := hu0
      rw [hu0] at hu
      subst hu
      show ¬ Spec.FailsAt (u.mu.threads j) (if j = i then _ else u.mu.threads j)
      split
      · rename_i hji
        subst hji
        rw [hi']
        exact fun h => h
      · exact failsAt_self _)) (nip t)
    refine ⟨_, _, a4, g5, by show s2.fs _ = _; rw [g6]; exact h3, .inl ?_, ?_, ?_, ?_, ?_⟩
    · refine (upd_same _ _ _).trans (congrArg some ?_)
      rw [g10, g11, hum, ← hup]
      refine congrArg (UpConn.mk u.path) ?_
      exact congrArg (fun s : MuState => s.move mu.reader.base) (named_set mu i (.reset hash size .none)).symm
    · rw [times_no no.2.1, times_no no.2.1, times_no no.2.1, times_yes ⟨cap, dg, ret, h, n, rfl, ⟨ha.ip, rfl⟩, ha.opens⟩, h5]
    · rw [times_no quiet_none, times_no quiet_none, times_no quiet_none, times_no quiet_none, h6]
    · rw [times_no no.1, times_no no.1, times_no no.1, times_no, h7]
      rintro ⟨dg', ret', _, h, -, h'⟩
      cases h
      rw [ha.opens] at h'
      cases h'
    · intro g r o x hx
      simp only [List.mem_append, List.mem_singleton, Prod.mk.injEq, reduceCtorEq, false_and, or_false] at hx
      rcases hx with hx | ⟨hx, -⟩
      · exact h8 g r o x hx
      · cases hx
        exact .inl rfl
  rcases h4 with h4 | ⟨h4, rfl, rfl⟩
  · exact fin _ rfl (by rw [h4]; rfl) (by rw [h4]; rfl)
  · refine fin _ rfl (by rw [h4]; rfl) ?_
    rw [h4, g9]
    rfl

/-- An acknowledgement arrives and is passed on. -/
theorem Shown.acked (h0 : CleanReach env d dl (.running c fs)) (ha : Asking env h n cap e content ret host dg dg' o)
    (hs : Shown env d dl port c fs ⟨host, UInt16.ofNat ret.port⟩ h n cap e content dg dg' q k a mu) (hk : 0 < k) :
    Shown env d dl port c fs ⟨host, UInt16.ofNat ret.port⟩ h n cap e content dg dg' q k (a + 1) { mu with pending := mu.pending + 1 } := by
  obtain ⟨tr, s, h1, h2, h3, h4, h5, h6, h7, h8⟩ := hs
  rcases h4 with h4 | ⟨-, -, rfl⟩
  · obtain ⟨t, ht⟩ := h1.run.room
    have hc := h1.clean h0
    have a1 := h1.goes (.arrives s t dg' ret _ (ht t (Nat.le_refl t)) ha.acks) hc sound_same (by intro _ _ h; cases h; rw [ha.ip]; nofun)
    have a2 := a1.goes (.acks _ t ⟨ret, .asked (.ack o)⟩ o host _ (upd_same _ _ _) rfl ha.ip h4) hc (sound_upd (by
      intro u0 hu0 j
      have hu0 : s.uploads ⟨host, UInt16.ofNat ret.port⟩ = some u0 := hu0
      rw [h4] at hu0
      cases hu0
      exact failsAt_self _)) (by intro _ _ h; cases h)
    have no : ∀ {t : Nat} {o : Option Out} {x : DmSys} {key : UpKey}, ¬ Spec.Acks key (.handler t, o, x) ∧ ¬ Spec.OpensAny key (.handler t, o, x) ∧ ¬ Spec.Comes key (.handler t, o, x) :=
      not_comes (by intro _ _ h; cases h)
    refine ⟨_, _, a2, h2, h3, .inl (upd_same _ _ _), ?_, ?_, ?_, ?_⟩
    · rw [times_no no.2.1, times_no, h5]
      rintro ⟨_, dg', ret', _, _, h, -, h'⟩
      cases h
      rw [ha.acks] at h'
      cases h'
    · rw [times_no quiet_none, times_no quiet_none, h6]
    · rw [times_no no.1, times_yes ⟨dg', ret, o, rfl, ⟨ha.ip, rfl⟩, ha.acks⟩, h7]
    · intro g r o x hx
      simp only [List.mem_append, List.mem_singleton, Prod.mk.injEq, reduceCtorEq, false_and, or_false] at hx
      rcases hx with hx | ⟨hx, -⟩
      · exact h8 g r o x hx
      · cases hx
        exact .inr rfl
  · exact absurd hk (Nat.lt_irrefl 0)

/-- In some run the daemon ends with a step of the upload, after no more than so many requests, and no other datagrams came. -/
def Ended (env : Env) (d dl : Path) (port : Nat) (c : Cat) (fs : FS) (key : UpKey) (dg dg' : Bytes) (q : Nat) : Prop :=
  ∃ tr, Spec.WellRun env d dl port (.fresh c fs) (tr ++ [(.upload key, none, .dead)]) .dead ∧ Spec.times (Spec.OpensAny key) tr ≤ q ∧ ∀ g r o x, (.datagram g r, o, x) ∈ tr → g = dg ∨ g = dg'

theorem flow_shown (hh : Healthy env d) (h0 : CleanReach env d dl (.running c fs)) (ha : Asking env h n cap e content ret host dg dg' o) (ho : observe c fs h = .ok e)
    (hf : fs e.filePath = some content) (hmu : Spec.Flow Spec.Sound (.init (sectionOf e n) cap content) q k a mu) (hb : mu.before = []) :
    ((∀ i, mu.threads i ≠ .dead) ∧ Shown env d dl port c fs ⟨host, UInt16.ofNat ret.port⟩ h n cap e content dg dg' q k a mu) ∨
    ((∃ i, mu.threads i = .dead) ∧ Ended env d dl port c fs ⟨host, UInt16.ofNat ret.port⟩ dg dg' q) := by
  induction hmu with
  | refl =>
    exact .inl ⟨(by intro i h; cases h), [], _, .refl, ho, hf, .inr ⟨rfl, rfl, rfl⟩, rfl, rfl, rfl, (by intro _ _ _ _ h; cases h)⟩
  | @step q k a q' k' a' s t p _ hs hq hk hac hack hok ih =>
    have hbs : s.before = [] := by
      rcases mu_kinds hs with ⟨-, i, _, _, -, rfl⟩ | ⟨-, rfl⟩ | ⟨-, -, hb' | hb', -⟩
      · exact hb
      · exact hb
      · rw [← hb']; exact hb
      · rw [hb] at hb'; cases hb'
    rcases ih hbs with ⟨i1, i2⟩ | ⟨⟨i, i1⟩, tr, i2, i3, i4⟩
    · rcases mu_kinds hs with ⟨rfl, i, hash, size, hi, rfl⟩ | ⟨rfl, rfl⟩ | ⟨hnew, hpe, hbb, hex⟩
      · have hasks : Spec.Asks s ((s.set i (.reset hash size .none)).move s.reader.base) := ⟨i, hi, by show (if i = i then _ else _) ≠ _; rw [if_pos rfl]; nofun⟩
        have eq : q' = q + 1 := hq.elim (fun h => h.2) (fun h => absurd hasks h.1)
        have ek : k' = k := hk.elim (fun h => absurd rfl h.1) (fun h => h.2)
        have ea : a' = a := hac.elim (fun h => absurd h.1 (by show s.pending ≠ _; omega)) (fun h => h.2)
        subst eq ek ea
        refine .inl ⟨fun j => ?_, i2.asked hh h0 ha i hash size hi⟩
        show (if j = i then _ else _) ≠ _
        split
        · nofun
        · exact i1 j
      · have eq : q' = q := hq.elim (fun h => absurd h.1 (fun ⟨i, h1, h2⟩ => h2 h1)) (fun h => h.2)
        have ek : k' = k := hk.elim (fun h => absurd rfl h.1) (fun h => h.2)
        have ea : a' = a + 1 := hac.elim (fun h => h.2) (fun h => absurd rfl h.1)
        subst eq ek ea
        exact .inl ⟨i1, i2.acked h0 ha (by omega)⟩
      · have hbe : t.before = s.before := by rw [hb, hbs]
        have eq : q' = q := hq.elim (fun h => absurd h.1 (fun ⟨i, h1, h2⟩ => h2 (hnew i h1))) (fun h => h.2)
        have ea : a' = a := hac.elim (fun h => absurd h.1 (by omega)) (fun h => h.2)
        subst eq ea
        obtain ⟨tr, sd, h1, h2, h3, h4, h5, h6, h7, h8⟩ := i2
        have hex : ∃ i, s.threads i ≠ .none := hex.resolve_right (fun h => by rw [hb] at h; cases h)
        rcases h4 with h4 | ⟨-, rfl, -⟩
        · obtain ⟨p', n1, n2⟩ := named_step (hash := env.sha1 (Spec.slice content (n.toNat * e.chunkSize.toNat) e.chunkSize.toNat))
            (size := (Spec.slice content (n.toNat * e.chunkSize.toNat) e.chunkSize.toNat).length) hs hbe hnew
          have hnew' : ∀ {hash : Sha1Hash} {size : Nat} (i : Nat), (s.named hash size).threads i = .none → (t.named hash size).threads i = .none :=
            fun i hi => named_none.2 (hnew i (named_none.1 hi))
          by_cases hd : ∃ i, t.threads i = .dead
          · obtain ⟨i, hi⟩ := hd
            exact .inr ⟨⟨i, hi⟩, tr, h1.stops (.upload _ _ p' _ i h4 n1 hnew' (named_dead.2 hi) (named_sound hok)) (by intro _ _ h; cases h), Nat.le_of_eq h5, h8⟩
          · have hd : ∀ i, t.threads i ≠ .dead := fun i hi => hd ⟨i, hi⟩
            refine .inl ⟨hd, _, _, h1.goes (.uploads sd _ _ p' _ h4 n1 hnew' hpe hbe (fun i hi => hd i (named_dead.1 hi))) (h1.clean h0) (sound_upd (by
              intro u0 hu0
              rw [h4] at hu0
              cases hu0
              exact named_sound hok)) (by intro _ _ h; cases h), h2, h3, .inl (upd_same _ _ _), ?_, ?_, ?_, ?_⟩
            · rw [times_no, h5]
              rintro ⟨_, _, _, _, _, h, -⟩
              cases h
            · cases p' with
              | none =>
                have ek : k' = k := hk.elim (fun h => absurd (n2.1 rfl) h.1) (fun h => h.2)
                rw [times_no (fun ⟨_, h⟩ => nomatch h), h6, ek]
              | some p' =>
                have ek : k' = k + 1 := hk.elim (fun h => h.2) (fun h => absurd (fun hp => nomatch n2.2 hp) h.1)
                rw [times_yes ⟨p', rfl⟩, h6, ek]
            · rw [times_no, h7]
              rintro ⟨_, _, _, h, -⟩
              cases h
            · intro g r o x hx
              simp only [List.mem_append, List.mem_singleton, Prod.mk.injEq, reduceCtorEq, false_and, or_false] at hx
              exact h8 g r o x hx
        · obtain ⟨i, hi⟩ := hex
          exact absurd rfl hi
    · exact .inr ⟨⟨i, dead_stays i1 hs⟩, tr, i2, by rcases hq with ⟨-, hq⟩ | ⟨-, hq⟩ <;> omega, i4⟩

end

/-! ## Requests for chunks -/

/-- C129, as it should be: in a daemon in which nothing fails and to which no fatal datagram comes, requests for chunks do not end it; only a download or a command can. -/
def C129_statement : Prop := ∀ (env : Env) (d dl : Path) (port : Nat) (c : Cat) (fs : FS) (tr : List (DmEv × Option Out × DmSys)), Healthy env d → CleanReach env d dl (.running c fs) →
  Spec.WellRun env d dl port (.fresh c fs) tr .dead → (∀ dg ret o x, (.datagram dg ret, o, x) ∈ tr → ∀ known, ¬ Spec.Lethal known dg) → ∃ tr' a, tr = tr' ++ [(.loop a, none, .dead)]

/-- An upload begins only when the goroutines of earlier uploads to that address have ended. -/
def Spec.TakeTurns (env : Env) (d dl : Path) (port : Nat) (s0 : Daemon) (tr : List (DmEv × Option Out × DmSys)) : Prop :=
  ∀ tr1 s e o s' tr2, Spec.WellRun env d dl port s0 tr1 (.alive s) → tr = tr1 ++ (e, o, .alive s') :: tr2 →
    ∀ key u u', s.uploads key = some u → s'.uploads key = some u' → Spec.Apart u.mu u'.mu

theorem turn_step {tr : List (DmEv × Option Out × DmSys)} {key : UpKey} {s s' : Daemon} {e : DmEv} {o : Option Out} (h : ∀ u, s.uploads key = some u → ∃ r, Spec.Small r ∧ SafeInv r u.mu)
    (hs : DmStep env d port s e o (.alive s')) (hw : ∀ t h, s.handlers t = some h → WellHandler tr h) (hsound : ∀ u u', s.uploads key = some u → s'.uploads key = some u' → Spec.Sound u.mu u'.mu)
    (hapart : ∀ u u', s.uploads key = some u → s'.uploads key = some u' → Spec.Apart u.mu u'.mu) : ∀ u, s'.uploads key = some u → ∃ r, Spec.Small r ∧ SafeInv r u.mu := by
  have hmade := @upload_made env d port s s' e o hs key
  intro v hv
  cases hs.moves key with
  | other hc hu hx ho ha => exact h v (by rw [← hu]; exact hv)
  | opens t hd cap hs ht hh hn hu hx ho ha => exact h v (by rw [← hu]; exact hv)
  | acks t hd hs ht hh hn hu hx ho ha => exact h v (by rw [← hu]; exact hv)
  | kicks t cap hd hd' u i hash size ht hh hs hdone hu hi hu' hx ho ha =>
    rcases hu with hu | ⟨hu, -⟩
    · rw [hu'] at hv
      cases hv
      obtain ⟨r, hr, hsafe⟩ := h u hu
      exact ⟨r, hr, safe_step hr hsafe (.kickstart u.mu i hash size hi) (hapart u _ hu hu') (hsound u _ hu hu')⟩
    · obtain ⟨t1, hd1, path, content1, reader, cap1, i1, k1, k2, k3⟩ := hmade hu hv
      have hr := (hw t1 hd1 k1).small _ _ _ _ _ k2
      refine ⟨reader.reader, hr, ?_⟩
      rw [k3]
      have hi : SafeInv reader.reader (.init reader.reader cap1 content1) := ⟨rfl, rfl, fun _ => by simp [MuState.init], 0, fun _ _ => rfl, trivial⟩
      exact safe_step hr hi (.kickstart (.init reader.reader cap1 content1) i1 _ _ rfl) (fun _ _ _ _ _ => rfl) (fun _ h => h)
  | passes t hd hd' u ht hh hs hdone hu hu' hx ho ha =>
    rw [hu'] at hv
    cases hv
    exact h u hu
  | runs u p mu hs hu hm hnew hack hu' hx ho ha =>
    rw [hu'] at hv
    cases hv
    obtain ⟨r, hr, hsafe⟩ := h u hu
    exact ⟨r, hr, safe_step hr hsafe hm (fun i h1 h2 => absurd (hnew i h1) h2) (hsound u _ hu hu')⟩
  | sees u now before hs hu hu' hx ho ha =>
    rw [hu'] at hv
    cases hv
    exact h u hu

theorem Spec.WellRun.turns (hh : Healthy env d) {c : Cat} {fs : FS} (h0 : CleanReach env d dl (.running c fs)) {tr : List (DmEv × Option Out × DmSys)} {x : DmSys}
    (h : Spec.WellRun env d dl port (.fresh c fs) tr x) (ht : Spec.TakeTurns env d dl port (.fresh c fs) tr) :
    ∀ s, x = .alive s → ∀ key u, s.uploads key = some u → ∃ r, Spec.Small r ∧ SafeInv r u.mu := by
  induction h with
  | refl =>
    rintro s hs key u hu
    cases hs
    cases hu
  | @goes tr s s' e o h1 h' hc hu hip ih =>
    rintro s1 hs key
    cases hs
    have hpre : Spec.TakeTurns env d dl port (.fresh c fs) tr := by
      intro tr1 s2 e2 o2 s3 tr2 g1 g2
      exact ht tr1 s2 e2 o2 s3 (tr2 ++ [(e, o, .alive s')]) g1 (by rw [g2]; simp)
    exact turn_step (ih hpre _ rfl key) h' (h1.handlers hh h0 _ rfl) (fun u u' => hu key u u') (fun u u' => ht tr s e o s' [] h1 rfl key u u')
  | stops => rintro s hs; cases hs

/-- **C129, the part that holds**: any number of requests from any number of hosts, as long as no upload to an address begins before the goroutines of the earlier ones to it have ended.  Missing: requests
that overlap, see `C129_dies`. -/
theorem C129_partial (hh : Healthy env d) {c : Cat} {fs : FS} (h0 : CleanReach env d dl (.running c fs)) {tr : List (DmEv × Option Out × DmSys)}
    (h : Spec.WellRun env d dl port (.fresh c fs) tr .dead) (hl : ∀ dg ret o x, (.datagram dg ret, o, x) ∈ tr → ∀ known, ¬ Spec.Lethal known dg)
    (ht : Spec.TakeTurns env d dl port (.fresh c fs) tr) : ∃ tr' a, tr = tr' ++ [(.loop a, none, .dead)] := by
  obtain ⟨tr', e, s, rfl, h1, h2⟩ := C128_causes hh h0 h
  rcases h2 with ⟨a, -, rfl, -⟩ | ⟨dg, ret, rfl, h2⟩ | ⟨t, dg, ret, o, x, rfl, h2, h3⟩ | ⟨key, rfl, h2⟩
  · exact ⟨tr', a, rfl⟩
  · exact absurd h2 (hl dg ret _ _ (List.mem_append_right _ (List.mem_singleton.2 rfl)) _)
  · exact absurd h3 (hl dg ret o x (List.mem_append_left _ h2) _)
  · exfalso
    generalize hx : DmSys.dead = x at h
    generalize htr : tr' ++ [(DmEv.upload key, none, x)] = tr1 at h
    cases h with
    | refl => cases hx
    | goes => cases hx
    | @stops tr2 s2 e2 h3 h' hip =>
      obtain ⟨rfl, he⟩ := List.append_inj' htr rfl
      cases he
      cases h' with
      | upload key u o mu i hu hs hnew hi hsound =>
        obtain ⟨r, hr, hsafe⟩ := h3.turns hh h0 (fun tr1 s2 e2 o2 s3 tr2 g1 g2 => ht tr1 s2 e2 o2 s3 (tr2 ++ [(.upload key, none, .dead)]) g1 (by rw [g2]; simp)) _ rfl key u hu
        exact (safe_step hr hsafe hs (fun i h1 h2 => absurd (hnew i h1) h2) hsound).2.2.1 i hi

/-- **What an upload can do, a running daemon can do.**  Of a chunk that the catalogue has, take anything that the goroutines of an upload of it can do after `q` requests and with `a` acknowledgements, having
sent `k` packets, with nothing failing.  There is a run of the whole daemon, with nothing failing, in which `q` requests for the chunk and `a` acknowledgements come from the address and `k` packets leave for it;
or, if a goroutine has panicked, in which the daemon ends with a step of the upload after at most `q` requests.  Nothing else arrives in these runs. -/
theorem C129_possible (hh : Healthy env d) {c : Cat} {fs : FS} (h0 : CleanReach env d dl (.running c fs)) (h : Sha1Hash) (n cap : UInt16) (e : Export) (content : Bytes) (ret : Addr) (host : ByteArr 4)
    (dg dg' : Bytes) (o : UInt32) (ho : observe c fs h = .ok e) (hn : e.saved n.toNat) (hf : fs e.filePath = some content) (hp : parse (udpBuffer dg) = .ok (.openReq h n cap))
    (hp' : parse (udpBuffer dg') = .ok (.ack o)) (hip : newIpv4 ret.ip = .ok host) (q k a : Nat) (mu : MuState)
    (hmu : Spec.Flow Spec.Sound (.init ⟨n.toNat * e.chunkSize.toNat, n.toNat * e.chunkSize.toNat, n.toNat * e.chunkSize.toNat + e.chunkSize.toNat⟩ cap content) q k a mu) (hb : mu.before = []) :
    ((∀ i, mu.threads i ≠ .dead) → ∃ tr s, Spec.WellRun env d dl port (.fresh c fs) tr (.alive s) ∧ Spec.times (Spec.OpensAny ⟨host, UInt16.ofNat ret.port⟩) tr = q ∧
      Spec.times (Spec.Leaves ⟨host, UInt16.ofNat ret.port⟩) tr = k ∧ Spec.times (Spec.Acks ⟨host, UInt16.ofNat ret.port⟩) tr = a ∧ ∀ g r o x, (.datagram g r, o, x) ∈ tr → g = dg ∨ g = dg') ∧
    ((∃ i, mu.threads i = .dead) → ∃ tr, Spec.WellRun env d dl port (.fresh c fs) (tr ++ [(.upload ⟨host, UInt16.ofNat ret.port⟩, none, .dead)]) .dead ∧
      Spec.times (Spec.OpensAny ⟨host, UInt16.ofNat ret.port⟩) tr ≤ q ∧ ∀ g r o x, (.datagram g r, o, x) ∈ tr → g = dg ∨ g = dg') := by
  rcases flow_shown (port := port) hh h0 ⟨hn, hp, hp', hip⟩ ho hf hmu hb with ⟨h1, tr, s, h2, -, -, -, h3, h4, h5, h6⟩ | ⟨⟨i, h1⟩, h2⟩
  · exact ⟨fun _ => ⟨tr, s, h2, h3, h4, h5, h6⟩, fun ⟨i, hi⟩ => absurd hi (h1 i)⟩
  · exact ⟨fun h => absurd h1 (h i), fun _ => h2⟩

theorem section_zero (e : Export) : (⟨(0 : UInt16).toNat * e.chunkSize.toNat, (0 : UInt16).toNat * e.chunkSize.toNat, (0 : UInt16).toNat * e.chunkSize.toNat + e.chunkSize.toNat⟩ : SectionReader) =
    ⟨0, 0, e.chunkSize.toNat⟩ := by
  show (⟨0 * e.chunkSize.toNat, 0 * e.chunkSize.toNat, 0 * e.chunkSize.toNat + e.chunkSize.toNat⟩ : SectionReader) = _
  rw [Nat.zero_mul, Nat.zero_add]

/-- **C129 is false: two requests for the first chunk of a file end the daemon**, if the chunk is full and its size is not, up to the first packet, a multiple of the packets' (which is so with the usual size of
chunks), and the window is at least two packets. -/
theorem C129_dies (hh : Healthy env d) {c : Cat} {fs : FS} (h0 : CleanReach env d dl (.running c fs)) (h : Sha1Hash) (cap : UInt16) (e : Export) (content : Bytes) (ret : Addr) (host : ByteArr 4)
    (dg dg' : Bytes) (o : UInt32) (ho : observe c fs h = .ok e) (hn : e.saved 0) (hf : fs e.filePath = some content) (hp : parse (udpBuffer dg) = .ok (.openReq h 0 cap))
    (hp' : parse (udpBuffer dg') = .ok (.ack o)) (hip : newIpv4 ret.ip = .ok host) (hcap : 2 ≤ cap.toNat) (h1 : 2024 < e.chunkSize.toNat) (h2 : e.chunkSize.toNat ≤ content.length)
    (h3 : (e.chunkSize.toNat - 1000) % 1024 ≠ 0) :
    ∃ tr, Spec.WellRun env d dl port (.fresh c fs) (tr ++ [(.upload ⟨host, UInt16.ofNat ret.port⟩, none, .dead)]) .dead ∧ Spec.times (Spec.OpensAny ⟨host, UInt16.ofNat ret.port⟩) tr = 2 ∧
      ∀ g r o x, (.datagram g r, o, x) ∈ tr → g = dg ∨ g = dg' := by
  obtain ⟨hc1, hc2⟩ := observe_chunkSize hh h0.reach h e ho
  obtain ⟨k, a, mu, g1, g2, g3⟩ := two_panic e.chunkSize.toNat cap content hcap h1 h2 (by omega) h3
  obtain ⟨tr, z1, z2, z3⟩ := (C129_possible (port := port) hh h0 h 0 cap e content ret host dg dg' o ho hn hf hp hp' hip 2 k a mu (by rw [section_zero]; exact g1) g2).2 ⟨1, g3⟩
  refine ⟨tr, z1, Nat.le_antisymm z2 ?_, z3⟩
  obtain ⟨tr', e', s, h4, -, h5⟩ := C128_causes hh h0 z1
  obtain ⟨rfl, he⟩ := List.append_inj' h4 rfl
  cases he
  rcases h5 with ⟨a, -, he, -⟩ | ⟨_, _, he, -⟩ | ⟨t, _, _, _, _, he, -⟩ | ⟨key, he, h5⟩
  · cases he
  · cases he
  · cases he
  · cases he
    exact h5

/-- **Two requests for the first chunk of a file, and the window does not count**: for every `j` for which the chunk is long enough, `2 * cap + 2 * j` packets that nobody has acknowledged. -/
theorem C129_window (hh : Healthy env d) {c : Cat} {fs : FS} (h0 : CleanReach env d dl (.running c fs)) (h : Sha1Hash) (cap : UInt16) (e : Export) (content : Bytes) (ret : Addr) (host : ByteArr 4)
    (dg dg' : Bytes) (o : UInt32) (ho : observe c fs h = .ok e) (hn : e.saved 0) (hf : fs e.filePath = some content) (hp : parse (udpBuffer dg) = .ok (.openReq h 0 cap))
    (hp' : parse (udpBuffer dg') = .ok (.ack o)) (hip : newIpv4 ret.ip = .ok host) (hcap : 2 ≤ cap.toNat) (j : Nat) (h1 : 1000 + cap.toNat * 2048 + j * 4096 ≤ e.chunkSize.toNat)
    (h2 : e.chunkSize.toNat ≤ content.length) :
    ∃ tr s, Spec.WellRun env d dl port (.fresh c fs) tr (.alive s) ∧ Spec.times (Spec.OpensAny ⟨host, UInt16.ofNat ret.port⟩) tr = 2 ∧
      Spec.times (Spec.Leaves ⟨host, UInt16.ofNat ret.port⟩) tr = Spec.times (Spec.Acks ⟨host, UInt16.ofNat ret.port⟩) tr + 2 * cap.toNat + 2 * j := by
  obtain ⟨hc1, hc2⟩ := observe_chunkSize hh h0.reach h e ho
  have g := two_overrun e.chunkSize.toNat cap content j hcap h1 (by omega) (by omega)
  obtain ⟨tr, s, z1, z2, z3, z4, -⟩ := (C129_possible (port := port) hh h0 h 0 cap e content ret host dg dg' o ho hn hf hp hp' hip 2 _ _ _ (by rw [section_zero]; exact g) rfl).1 (by
    intro i
    show twoThreads _ _ i ≠ _
    unfold twoThreads
    split
    · nofun
    · split <;> nofun)
  exact ⟨tr, s, z1, z2, by rw [z3, z4]; omega⟩

/-- A file of any content, shared. -/
theorem ex_large (sha1 : Bytes → Sha1Hash) (json : JsonCodec) (content : Bytes) (hl : content.length < 2 ^ 63) (hpos : 0 < content.length) : ∃ c fs e,
    CleanReach (exEnv sha1 json) exDir exDown (.running c fs) ∧ observe c fs (sha1 content) = .ok e ∧ e.chunkSize = 4194304 ∧ fs e.filePath = some content ∧ e.saved 0 := by
  have hh := ex_healthy sha1 json
  let fs0 : FS := fun p => if p = absOf [[102]] then some content else none
  have hclean : ∀ p, CatFile exDir p → fs0 p = none := by
    intro p hp
    show (if p = absOf [[102]] then some content else none) = none
    rw [if_neg]
    rintro rfl
    exact ex_not_catFile 102 (by simp) hp
  have e : absPath (exEnv sha1 json).cwd [102] = absOf [[102]] := by show absPath [47] [102] = [47, 102]; decide
  have h0 := CleanReach.fresh (exEnv sha1 json) exDir exDown hh.utf8 fs0 hclean
  have hfile : (fs0.put (indexPath exDir) (some ((exEnv sha1 json).json.enc (freshIdx (exEnv sha1 json) exDir).toJSON))) (absPath (exEnv sha1 json).cwd [102]) = some content := by
    rw [e, FS.put_other _ _ _ _ (fun h => ex_not_catFile 102 (by simp) (.inl h))]
    exact if_pos rfl
  obtain ⟨r, s', h⟩ := shareFile_total (exEnv sha1 json) [102] exDir exDown (freshIdx (exEnv sha1 json) exDir) _ content hfile rfl hl
  have hreach := CleanReach.call (.share [102]) _ _ (.ok ()) s' h0 trivial (CM.void_ok _ _ _ _ h) rfl
  obtain ⟨content', h1, h2, h3, -, h5⟩ := C26_share hh h0.reach [102] [] r s' h
  rw [hfile] at h1
  cases h1
  obtain ⟨b, hb, hb1, -, hb3⟩ := h3 hl
  refine ⟨s'.cat, s'.fs, _, hreach, hb, rfl, ?_, ?_⟩
  · show s'.fs (absPath (exEnv sha1 json).cwd [102]) = _
    rw [h5, hfile]
    · rw [e]; exact fun h => ex_not_catFile 102 (by simp) (.inl h)
    · rw [e]; exact fun h => ex_not_catFile 102 (by simp) (.inr ⟨_, h⟩)
  · exact hb3 0 (by rw [hb1]; show (0 : Int) < (((content.length + 4194303) / 4194304 : Nat) : Int); omega)

theorem open_length (h : Sha1Hash) (n cap : UInt16) : (Msg.openReq h n cap).serialize.length ≤ 1024 := by
  have := h.2
  simp [Msg.serialize, put16, this]

/-- The hypotheses of `C129_dies` can be met. -/
theorem ex_dies (sha1 : Bytes → Sha1Hash) (json : JsonCodec) : ∃ c fs tr, CleanReach (exEnv sha1 json) exDir exDown (.running c fs) ∧
    Spec.WellRun (exEnv sha1 json) exDir exDown 7 (.fresh c fs) (tr ++ [(.upload ⟨⟨[10, 0, 0, 2], rfl⟩, UInt16.ofNat exAddr.port⟩, none, .dead)]) .dead ∧
    ∀ g r o x, (.datagram g r, o, x) ∈ tr → ∀ known, ¬ Spec.Lethal known g := by
  obtain ⟨file, hl⟩ : ∃ file : Bytes, file.length = 4194304 := ⟨List.replicate 4194304 7, List.length_replicate⟩
  obtain ⟨c, fs, e, h1, h2, h3, h4, h5⟩ := ex_large sha1 json file (by rw [hl]; decide) (by rw [hl]; decide)
  have hp := parse_buffer (.openReq (sha1 file) 0 10) trivial (open_length _ _ _) []
  have hp' := parse_buffer (.ack 0) trivial (by decide) []
  have hc : e.chunkSize.toNat = 4194304 := by rw [h3]; rfl
  obtain ⟨tr, g1, -, g2⟩ := C129_dies (port := 7) (ex_healthy sha1 json) h1 _ 10 e _ exAddr ⟨[10, 0, 0, 2], rfl⟩ _ _ 0 h2 h5 h4 hp hp' (by rfl) (by decide) (by rw [hc]; decide) (by rw [hc, hl]; exact Nat.le_refl _)
    (by rw [hc]; decide)
  refine ⟨c, fs, tr, h1, g1, fun g r o x hx known => ?_⟩
  rcases g2 g r o x hx with rfl | rfl
  · rintro (⟨h, -⟩ | ⟨h, -⟩ | ⟨h, -⟩) <;> cases h
  · rintro (⟨h, -⟩ | ⟨h, -⟩ | ⟨h, -⟩) <;> cases h

/-- **C129 is false.** -/
theorem C129_refuted : ¬ C129_statement := by
  intro hall
  obtain ⟨c, fs, tr, h1, h2, h3⟩ := ex_dies (fun _ => Sha1Hash.zero) goJson
  obtain ⟨tr', a, h4⟩ := hall _ _ _ _ _ _ _ (ex_healthy _ _) h1 h2 (by
    intro dg ret o x hx
    rw [List.mem_append, List.mem_singleton] at hx
    rcases hx with hx | hx
    · exact h3 dg ret o x hx
    · cases hx)
  obtain ⟨-, he⟩ := List.append_inj' h4 rfl
  cases he

/-- The hypotheses of `C129_window` can be met: a window of ten packets, and 220 that nobody has acknowledged. -/
example (sha1 : Bytes → Sha1Hash) (json : JsonCodec) : ∃ c fs tr s key, CleanReach (exEnv sha1 json) exDir exDown (.running c fs) ∧
    Spec.WellRun (exEnv sha1 json) exDir exDown 7 (.fresh c fs) tr (.alive s) ∧ Spec.times (Spec.Leaves key) tr = Spec.times (Spec.Acks key) tr + 220 := by
  obtain ⟨file, hl⟩ : ∃ file : Bytes, file.length = 4194304 := ⟨List.replicate 4194304 7, List.length_replicate⟩
  obtain ⟨c, fs, e, h1, h2, h3, h4, h5⟩ := ex_large sha1 json file (by rw [hl]; decide) (by rw [hl]; decide)
  have hp := parse_buffer (.openReq (sha1 file) 0 10) trivial (open_length _ _ _) []
  have hp' := parse_buffer (.ack 0) trivial (by decide) []
  have hc : e.chunkSize.toNat = 4194304 := by rw [h3]; rfl
  obtain ⟨tr, s, g1, -, g2⟩ := C129_window (port := 7) (ex_healthy sha1 json) h1 _ 10 e _ exAddr ⟨[10, 0, 0, 2], rfl⟩ _ _ 0 h2 h5 h4 hp hp' (by rfl) (by decide) 100 (by rw [hc]; decide) (by rw [hc, hl]; exact Nat.le_refl _)
  exact ⟨c, fs, tr, s, _, h1, g1, g2⟩

/-- The hypotheses of `C129_partial` can be met: a search is received, and then the machine loses its power in the middle of a command. -/
example (sha1 : Bytes → Sha1Hash) (json : JsonCodec) : ∃ c fs tr, CleanReach (exEnv sha1 json) exDir exDown (.running c fs) ∧
    Spec.WellRun (exEnv sha1 json) exDir exDown 7 (.fresh c fs) tr .dead ∧ Spec.TakeTurns (exEnv sha1 json) exDir exDown 7 (.fresh c fs) tr ∧ tr.length = 2 := by
  obtain ⟨c, fs, dg, ret, x, o, h1, h2, -⟩ := ex_stops sha1 json
  refine ⟨c, fs, _, h1, h2, ?_, rfl⟩
  intro tr1 s e o s' tr2 g1 g2 key u u' hu
  cases tr1 with
  | nil =>
    generalize hx : DmSys.alive s = y at g1
    generalize ht : ([] : List (DmEv × Option Out × DmSys)) = tr3 at g1
    cases g1 with
    | refl => cases hx; cases hu
    | goes => exact absurd ht.symm (List.append_ne_nil_of_right_ne_nil _ (List.cons_ne_nil _ _))
    | stops => cases hx
  | cons z tr1 =>
    cases tr1 with
    | nil => cases g2
    | cons _ tr1 => cases tr1 <;> cases g2

end
end Flu
