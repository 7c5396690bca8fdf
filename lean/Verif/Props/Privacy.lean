import Verif.Props.Server
import Verif.Props.Listing
/-!
# What the daemon's answers depend on (C79)
-/
namespace Flu
open Spec

/-! ## Specification: two daemons that differ only in what peers have no business knowing -/

/-- Two records that agree on everything but the directory the file is in: same size, hash, chunk size, name, loaded progress, and the same file content and progress file
on the disk. -/
structure Spec.RecAlike (d : Path) (fs : FS) (d' : Path) (fs' : FS) (r r' : Record) : Prop where
  size : r.sizeInBytes = r'.sizeInBytes
  hash : r.sha1Hash = r'.sha1Hash
  chunk : r.chunkSize = r'.chunkSize
  name : splitFile r.filePath = splitFile r'.filePath
  loaded : r.progressFile.map (·.progress) = r'.progressFile.map (·.progress)
  content : fs r.filePath = fs' r'.filePath
  progress : fs (progressPath d r.sha1Hash) = fs' (progressPath d' r'.sha1Hash)

/-- Two catalogues with alike records.  Data and download directories, process ids, times, and all other files are not mentioned. -/
def Spec.CatAlike (s s' : St) : Prop :=
  s.faults = s'.faults ∧ ∃ ind ind', s.cat.indexFile = some ind ∧ s'.cat.indexFile = some ind' ∧
    All2 (fun e e' => e.1 = e'.1 ∧ Spec.RecAlike s.cat.dataDir s.fs s'.cat.dataDir s'.fs e.2 e'.2) ind.index ind'.index

/-- Two daemons with alike catalogues and the same uploads. -/
def Spec.SrvAlike (s s' : Srv) : Prop := Spec.CatAlike s.st s'.st ∧ s.uploads = s'.uploads

/-- A sequence of datagrams with what the network and the machine do meanwhile: the outcomes. -/
def Spec.answers (env : Env) (port : Nat) : List (Wire × Bytes × Addr) → Srv → List (Res Done)
  | [], _ => []
  | (w, d, a) :: rest, s => (serveDatagram env port w d a s).1 :: Spec.answers env port rest (serveDatagram env port w d a s).2

/-! ## Running two daemons side by side -/

/-- The same outcome, with related values. -/
def Same (V : α → β → Prop) : Res α → Res β → Prop
  | .ok a, .ok b => V a b
  | .err e, .err e' => e = e'
  | .panic, .panic => True
  | .exit, .exit => True
  | .crash, .crash => True
  | _, _ => False

theorem Same.eq {r r' : Res α} (h : Same (· = ·) r r') : r = r' := by
  cases r <;> cases r' <;> simp_all [Same]

theorem Same.of_eq {r : Res α} : Same (· = ·) r r := by
  cases r <;> simp [Same]

/-- Related states lead to the same outcome and related states. -/
def Side {σ : Type} (R : σ → σ → Prop) (V : α → β → Prop) (x : IOM σ α) (y : IOM σ β) : Prop :=
  ∀ s s', R s s' → Same V (x s).1 (y s').1 ∧ R (x s).2 (y s').2

theorem Side.bind {σ : Type} {R : σ → σ → Prop} {V : α → β → Prop} {W : γ → δ → Prop} {x : IOM σ α} {y : IOM σ β} {f : α → IOM σ γ} {g : β → IOM σ δ}
    (h : Side R V x y) (h' : ∀ a b, V a b → Side R W (f a) (g b)) : Side R W (x >>= f) (y >>= g) := by
  intro s s' hr
  obtain ⟨h1, h2⟩ := h s s' hr
  show Same W (IOM.bind x f s).1 (IOM.bind y g s').1 ∧ R (IOM.bind x f s).2 (IOM.bind y g s').2
  unfold IOM.bind
  rcases hx : x s with ⟨r, t⟩
  rcases hy : y s' with ⟨r', t'⟩
  rw [hx, hy] at h1 h2
  cases r <;> cases r' <;> simp only [Same] at h1 <;> first | exact h' _ _ h1 _ _ h2 | exact ⟨h1, h2⟩ | exact h1.elim

theorem Side.pure {σ : Type} {R : σ → σ → Prop} {V : α → β → Prop} {a : α} {b : β} (h : V a b) : Side R V (Pure.pure a : IOM σ α) (Pure.pure b) :=
  fun _ _ hr => ⟨h, hr⟩

theorem Side.lift {σ : Type} {R : σ → σ → Prop} {V : α → β → Prop} {a : Res α} {b : Res β} (h : Same V a b) : Side R V (IOM.lift a : IOM σ α) (IOM.lift b) :=
  fun _ _ hr => ⟨h, hr⟩

theorem Side.lift_eq {σ : Type} {R : σ → σ → Prop} (a : Res α) : Side R (· = ·) (IOM.lift a : IOM σ α) (IOM.lift a) :=
  Side.lift .of_eq

section
variable {d d' : Path} {fs fs' : FS}

/-- Alike, with files and directories named (they do not change while the daemon answers). -/
structure Beside (d : Path) (fs : FS) (d' : Path) (fs' : FS) (s s' : St) : Prop where
  fs1 : s.fs = fs
  fs2 : s'.fs = fs'
  dir1 : s.cat.dataDir = d
  dir2 : s'.cat.dataDir = d'
  faults : s.faults = s'.faults
  index : ∃ ind ind', s.cat.indexFile = some ind ∧ s'.cat.indexFile = some ind' ∧
    All2 (fun e e' => e.1 = e'.1 ∧ RecAlike d fs d' fs' e.2 e'.2) ind.index ind'.index

theorem Beside.alike {s s' : St} (h : Beside d fs d' fs' s s') : CatAlike s s' := by
  obtain ⟨ind, ind', h1, h2, h3⟩ := h.index
  exact ⟨h.faults, ind, ind', h1, h2, by rw [h.fs1, h.fs2, h.dir1, h.dir2]; exact h3⟩

theorem CatAlike.beside {s s' : St} (h : CatAlike s s') : Beside s.cat.dataDir s.fs s'.cat.dataDir s'.fs s s' := by
  obtain ⟨h0, ind, ind', h1, h2, h3⟩ := h
  exact ⟨rfl, rfl, rfl, rfl, h0, ind, ind', h1, h2, h3⟩

local notation "B" => Beside d fs d' fs'

theorem Spec.All2.get {R : α → α → Prop} {m m' : List (Sha1Hash × α)} (h : All2 (fun e e' => e.1 = e'.1 ∧ R e.2 e'.2) m m') (k : Sha1Hash) :
    (mapGet m k = none ∧ mapGet m' k = none) ∨ ∃ r r', mapGet m k = some r ∧ mapGet m' k = some r' ∧ R r r' := by
  induction h with
  | nil => exact .inl ⟨rfl, rfl⟩
  | @cons e e' l l' he _ ih =>
    unfold mapGet
    rw [List.find?_cons, List.find?_cons, ← he.1]
    by_cases hk : e.1 = k
    · simp only [hk, decide_true]
      exact .inr ⟨_, _, rfl, rfl, he.2⟩
    · simp only [hk, decide_false]
      exact ih

theorem Spec.All2.anyKey {R : α → α → Prop} {m m' : List (Sha1Hash × α)} (h : All2 (fun e e' => e.1 = e'.1 ∧ R e.2 e'.2) m m') (k : Sha1Hash) :
    m.any (fun e => decide (e.1 = k)) = m'.any (fun e => decide (e.1 = k)) := by
  induction h with
  | nil => rfl
  | cons he _ ih => simp only [List.any_cons, he.1, ih]

theorem Spec.All2.put {R : α → α → Prop} {m m' : List (Sha1Hash × α)} (h : All2 (fun e e' => e.1 = e'.1 ∧ R e.2 e'.2) m m') (k : Sha1Hash) {r r' : α} (hr : R r r') :
    All2 (fun e e' => e.1 = e'.1 ∧ R e.2 e'.2) (mapPut m k r) (mapPut m' k r') := by
  unfold mapPut
  rw [h.anyKey k]
  have h1 : All2 (fun e e' => e.1 = e'.1 ∧ R e.2 e'.2) (m.map (fun e => if e.1 = k then (k, r) else e)) (m'.map (fun e => if e.1 = k then (k, r') else e)) := by
    induction h with
    | nil => exact .nil
    | cons he _ ih =>
      refine .cons ?_ ih
      simp only [← he.1]
      split
      · exact ⟨rfl, hr⟩
      · exact he
  have h2 : All2 (fun e e' => e.1 = e'.1 ∧ R e.2 e'.2) (m ++ [(k, r)]) (m' ++ [(k, r')]) := by
    clear h1
    induction h with
    | nil => exact .cons ⟨rfl, hr⟩ .nil
    | cons he _ ih => exact .cons he ih
  split
  · exact h1
  · exact h2

theorem side_nextFault : Side B (· = ·) nextFault nextFault := by
  intro s s' h
  unfold nextFault
  have hf := h.faults
  rcases h1 : s.faults with _ | ⟨f, l⟩
  · rw [h1] at hf
    rw [← hf]
    exact ⟨rfl, h⟩
  · rw [h1] at hf
    rw [← hf]
    exact ⟨rfl, h.fs1, h.fs2, h.dir1, h.dir2, rfl, h.index⟩

theorem side_getFS : Side B (fun a b => a = fs ∧ b = fs') getFS getFS := fun _ _ h => ⟨⟨h.fs1, h.fs2⟩, h⟩

theorem side_getCat : Side B (fun a b => a.dataDir = d ∧ b.dataDir = d') getCat getCat := fun _ _ h => ⟨⟨h.dir1, h.dir2⟩, h⟩

theorem side_getIndex : Side B (fun a b => All2 (fun e e' => e.1 = e'.1 ∧ RecAlike d fs d' fs' e.2 e'.2) a.index b.index) getIndex getIndex := by
  intro s s' h
  obtain ⟨ind, ind', h1, h2, h3⟩ := h.index
  have e1 : getIndex s = (.ok ind, s) := by unfold getIndex; simp only [bind, IOM.bind, getCat, h1]; rfl
  have e2 : getIndex s' = (.ok ind', s') := by unfold getIndex; simp only [bind, IOM.bind, getCat, h2]; rfl
  rw [e1, e2]
  exact ⟨h3, h⟩

theorem side_setIndex {a b : IndexFile} (h3 : All2 (fun e e' => e.1 = e'.1 ∧ RecAlike d fs d' fs' e.2 e'.2) a.index b.index) :
    Side B (fun _ _ => True) (setIndex a) (setIndex b) :=
  fun _ _ h => ⟨trivial, h.fs1, h.fs2, h.dir1, h.dir2, h.faults, a, b, rfl, rfl, h3⟩

theorem side_readFile (p p' : Path) (hp : fs p = fs' p') : Side B (· = ·) (osReadFile p) (osReadFile p') := by
  refine side_nextFault.bind ?_
  rintro f _ rfl
  cases f with
  | none =>
    refine side_getFS.bind ?_
    rintro _ _ ⟨rfl, rfl⟩
    rw [hp]
    split
    · exact Side.pure rfl
    · exact Side.lift_eq _
  | fail _ => exact Side.lift_eq _
  | crash _ => exact Side.lift_eq _

theorem side_touch : Side B (· = ·) osTouch osTouch := by
  refine side_nextFault.bind ?_
  rintro f _ rfl
  cases f with
  | none => exact Side.pure rfl
  | fail _ => exact Side.lift_eq _
  | crash _ => exact Side.lift_eq _

theorem side_updateRecord {r r' : Record} (h : RecAlike d fs d' fs' r r') : Side B (fun _ _ => True) (updateRecord r) (updateRecord r') := by
  refine side_getIndex.bind ?_
  intro a b hab
  exact side_setIndex (by rw [h.hash]; exact hab.put _ h)

theorem side_fill {r r' : Record} (h : RecAlike d fs d' fs' r r') :
    Side B (fun r r' => RecAlike d fs d' fs' r r' ∧ r.progressFile.isSome ∧ r'.progressFile.isSome) (fillRecord r) (fillRecord r') := by
  unfold fillRecord
  have hl := h.loaded
  rcases hp : r.progressFile with _ | p <;> rcases hp' : r'.progressFile with _ | p' <;> rw [hp, hp'] at hl <;> try cases hl
  · simp only []
    refine side_getCat.bind ?_
    rintro c c' ⟨rfl, rfl⟩
    refine Side.bind (V := fun p p' => p.progress = p'.progress) ?_ ?_
    · unfold deserializeProgressFile
      refine (side_readFile _ _ h.progress).bind ?_
      rintro data _ rfl
      refine (Side.lift_eq _).bind ?_
      rintro set _ rfl
      exact Side.pure rfl
    · intro p p' hpp
      have hr : RecAlike c.dataDir fs c'.dataDir fs' { r with progressFile := some p } { r' with progressFile := some p' } :=
        ⟨h.size, h.hash, h.chunk, h.name, by simp [hpp], h.content, h.progress⟩
      refine (side_updateRecord hr).bind ?_
      intro _ _ _
      exact Side.pure ⟨hr, rfl, rfl⟩
  · exact Side.pure ⟨h, by simp [hp], by simp [hp']⟩

theorem side_getIndexRecord (k : Sha1Hash) :
    Side B (fun r r' => RecAlike d fs d' fs' r r' ∧ r.progressFile.isSome ∧ r'.progressFile.isSome) (getIndexRecord k) (getIndexRecord k) := by
  refine side_getIndex.bind ?_
  intro a b hab
  rcases hab.get k with ⟨h1, h2⟩ | ⟨r, r', h1, h2, h3⟩
  · rw [h1, h2]; exact Side.lift (by simp [Same])
  · rw [h1, h2]; exact side_fill h3

/-- What a peer may know of a file. -/
structure ExpAlike (fs fs' : FS) (e e' : Export) : Prop where
  size : e.sizeInBytes = e'.sizeInBytes
  hash : e.sha1Hash = e'.sha1Hash
  chunk : e.chunkSize = e'.chunkSize
  name : splitFile e.filePath = splitFile e'.filePath
  progress : e.progress = e'.progress
  content : fs e.filePath = fs' e'.filePath

theorem RecAlike.export {r r' : Record} (h : RecAlike d fs d' fs' r r') (h1 : r.progressFile.isSome) (h2 : r'.progressFile.isSome) :
    Same (ExpAlike fs fs') r.export r'.export := by
  have hl := h.loaded
  rcases hp : r.progressFile with _ | p
  · rw [hp] at h1; cases h1
  rcases hp' : r'.progressFile with _ | p'
  · rw [hp'] at h2; cases h2
  rw [hp, hp'] at hl
  simp only [Record.export, hp, hp']
  exact ⟨h.size, h.hash, h.chunk, h.name, by simpa using hl, h.content⟩

theorem side_contains (k : Sha1Hash) : Side B (ExpAlike fs fs') (contains k) (contains k) := by
  refine (side_getIndexRecord k).bind ?_
  rintro r r' ⟨h, h1, h2⟩
  exact Side.lift (RecAlike.export h h1 h2)

theorem side_listLoop (l : List Sha1Hash) : Side B (All2 (ExpAlike fs fs')) (listLoop l) (listLoop l) := by
  induction l with
  | nil => exact Side.pure .nil
  | cons k l ih =>
    unfold listLoop
    refine side_getIndex.bind ?_
    intro a b hab
    rcases hab.get k with ⟨h1, h2⟩ | ⟨r, r', h1, h2, h3⟩
    · rw [h1, h2]; exact ih
    · rw [h1, h2]
      refine (side_fill h3).bind ?_
      rintro r r' ⟨h, g1, g2⟩
      refine (Side.lift (RecAlike.export h g1 g2)).bind ?_
      intro e e' he
      refine ih.bind ?_
      intro es es' hes
      exact Side.pure (.cons he hes)

theorem side_listFiles (l : List Sha1Hash) : Side B (All2 (ExpAlike fs fs')) (listFiles l) (listFiles l) :=
  side_getIndex.bind (fun _ _ _ => side_listLoop l)

theorem side_reader (env : Env) (k : Sha1Hash) (n : Nat) (ch : List AtChoice) : Side B (· = ·) (getChunkReader env k n ch) (getChunkReader env k n ch) := by
  refine (side_getIndexRecord k).bind ?_
  rintro r r' ⟨h, h1, h2⟩
  have hl := h.loaded
  rcases hp : r.progressFile with _ | p
  · rw [hp] at h1; cases h1
  rcases hp' : r'.progressFile with _ | p'
  · rw [hp'] at h2; cases h2
  rw [hp, hp'] at hl
  simp only [Option.map_some, Option.some.injEq] at hl
  simp only []
  rw [hl]
  refine (Side.lift_eq _).bind ?_
  rintro b _ rfl
  split
  · exact Side.lift_eq _
  · refine side_touch.bind ?_
    intro _ _ _
    refine side_getFS.bind ?_
    rintro _ _ ⟨rfl, rfl⟩
    rw [h.content, h.chunk]
    split
    · exact Side.lift_eq _
    · exact Side.pure rfl

/-! ## The handlers -/

def BesideSrv (d : Path) (fs : FS) (d' : Path) (fs' : FS) (s s' : Srv) : Prop := Beside d fs d' fs' s.st s'.st ∧ s.uploads = s'.uploads

local notation "BS" => BesideSrv d fs d' fs'

theorem Side.cat {V : α → β → Prop} {x : CM α} {y : CM β} (h : Side B V x y) : Side BS V (SM.cat x) (SM.cat y) := by
  rintro s s' ⟨hr, hu⟩
  obtain ⟨h1, h2⟩ := h _ _ hr
  exact ⟨h1, h2, hu⟩

theorem Side.orExit {σ : Type} {R : σ → σ → Prop} {V : α → β → Prop} {x : IOM σ α} {y : IOM σ β} (h : Side R V x y) : Side R V (IOM.orExit x) (IOM.orExit y) := by
  intro s s' hr
  obtain ⟨h1, h2⟩ := h s s' hr
  unfold IOM.orExit
  rcases hx : x s with ⟨r, t⟩
  rcases hy : y s' with ⟨r', t'⟩
  rw [hx, hy] at h1 h2
  cases r <;> cases r' <;> simp only [Same] at h1 <;> first | exact ⟨h1, h2⟩ | exact ⟨trivial, h2⟩ | exact h1.elim

theorem Side.attempt {σ : Type} {R : σ → σ → Prop} {V : α → β → Prop} {x : IOM σ α} {y : IOM σ β} (h : Side R V x y) :
    Side R (fun a b => match a, b with | .ok a, .ok b => V a b | .error e, .error e' => e = e' | _, _ => False) (IOM.attempt x) (IOM.attempt y) := by
  intro s s' hr
  obtain ⟨h1, h2⟩ := h s s' hr
  unfold IOM.attempt
  rcases hx : x s with ⟨r, t⟩
  rcases hy : y s' with ⟨r', t'⟩
  rw [hx, hy] at h1 h2
  cases r <;> cases r' <;> simp only [Same] at h1 <;> first | exact ⟨h1, h2⟩ | exact ⟨trivial, h2⟩ | exact h1.elim

theorem side_answerChunks (k : Sha1Hash) (chunks : List UInt16) : Side BS (· = ·) (answerChunks k chunks) (answerChunks k chunks) := by
  unfold answerChunks
  split
  · exact Side.pure rfl
  · refine (side_contains k).cat.attempt.bind ?_
    intro a b hab
    rcases a with e | a <;> rcases b with e' | b <;> simp only [] at hab
    · exact Side.pure rfl
    · simp only []; rw [hab.progress]; exact Side.lift_eq _

theorem side_discover (port : Nat) (w : Wire) (q : UInt16) (k : Sha1Hash) (chunks : List UInt16) (ret : Addr) :
    Side BS (· = ·) (respondToDiscoverHosts port w q k chunks ret) (respondToDiscoverHosts port w q k chunks ret) := by
  refine (Side.lift_eq _).bind ?_
  rintro ip _ rfl
  refine (Side.lift_eq _).bind ?_
  rintro ad _ rfl
  refine (side_answerChunks k chunks).bind ?_
  rintro cs _ rfl
  refine (Side.lift_eq _).bind ?_
  rintro _ _ _
  exact Side.pure rfl

theorem ExpAlike.entry {e e' : Export} (h : ExpAlike fs fs' e e') : listEntry e = listEntry e' := by
  unfold listEntry
  rw [h.size, h.hash, h.chunk, h.name, h.progress]

theorem side_list (w : Wire) (q : UInt16) (k : Sha1Hash) (ret : Addr) : Side BS (· = ·) (respondToListFiles w q k ret) (respondToListFiles w q k ret) := by
  unfold respondToListFiles
  have tail : ∀ es es', All2 (ExpAlike fs fs') es es' → Side BS (· = ·)
      (do IOM.lift (udpSend w.sends (Msg.listResp q (es.map listEntry)).serialize); return Done.sent ret.ip.bytes ret.port (Msg.listResp q (es.map listEntry)).serialize)
      (do IOM.lift (udpSend w.sends (Msg.listResp q (es'.map listEntry)).serialize); return Done.sent ret.ip.bytes ret.port (Msg.listResp q (es'.map listEntry)).serialize) := by
    intro es es' h
    have e : es.map listEntry = es'.map listEntry := by
      induction h with
      | nil => rfl
      | cons he _ ih => rw [List.map_cons, List.map_cons, he.entry, ih]
    rw [e]
    refine (Side.lift_eq _).bind ?_
    rintro _ _ _
    exact Side.pure rfl
  split
  · exact (side_listFiles w.order).cat.orExit.bind tail
  · refine (side_contains k).cat.orExit.bind ?_
    intro e e' he
    exact tail [e] [e'] (.cons he .nil)

theorem side_open (w : Wire) (content : Bytes) (reader : ChunkReader) (cap : UInt16) (key : UpKey) :
    Side BS (· = ·) (openUpload w content reader cap key) (openUpload w content reader cap key) := by
  rintro s s' ⟨hr, hu⟩
  unfold openUpload
  rw [hu]
  exact ⟨.of_eq, hr, rfl⟩

theorem side_start (env : Env) (w : Wire) (k : Sha1Hash) (chunk cap : UInt16) (ret : Addr) :
    Side BS (· = ·) (startUpload env w k chunk cap ret) (startUpload env w k chunk cap ret) := by
  unfold startUpload
  refine (side_contains k).cat.bind ?_
  intro e e' he
  rw [he.hash]
  refine (side_reader env _ _ _).cat.bind ?_
  rintro rd _ rfl
  cases rd with
  | none => exact Side.pure rfl
  | some rd =>
    simp only []
    split
    · exact Side.lift_eq _
    · refine (Side.lift_eq _).bind ?_
      rintro host _ rfl
      refine side_getFS.cat.bind ?_
      rintro _ _ ⟨rfl, rfl⟩
      rw [he.content]
      exact side_open _ _ _ _ _

theorem side_continue (ret : Addr) : Side BS (· = ·) (continueUpload ret) (continueUpload ret) := by
  refine (Side.lift_eq _).bind ?_
  rintro host _ rfl
  rintro s s' ⟨hr, hu⟩
  simp only []
  rw [hu]
  split
  · exact ⟨rfl, hr, hu⟩
  · exact ⟨rfl, hr, rfl⟩

theorem side_serve (env : Env) (port : Nat) (w : Wire) (dg : Bytes) (ret : Addr) :
    Side BS (· = ·) (serveDatagram env port w dg ret) (serveDatagram env port w dg ret) := by
  unfold serveDatagram handleMessage
  refine (Side.lift_eq _).bind ?_
  rintro m _ rfl
  cases m with
  | discoverReq => exact side_discover _ _ _ _ _ _
  | listReq => exact side_list _ _ _ _
  | openReq => exact side_start _ _ _ _ _ _
  | ack => exact side_continue _
  | discoverResp => exact Side.pure rfl
  | listResp => exact Side.pure rfl
  | data => exact Side.lift_eq _
end

/-- C79: two daemons that differ only in where their files and their own data lie, in their download directory, and in all files that are not shared, answer every
sequence of datagrams alike, byte for byte, whatever faults occur. -/
theorem C79_answers (env : Env) (port : Nat) (q : List (Wire × Bytes × Addr)) (s s' : Srv) (h : SrvAlike s s') :
    answers env port q s = answers env port q s' := by
  have hb : BesideSrv s.st.cat.dataDir s.st.fs s'.st.cat.dataDir s'.st.fs s s' := ⟨CatAlike.beside h.1, h.2⟩
  clear h
  revert hb
  generalize s.st.cat.dataDir = d, s.st.fs = fs, s'.st.cat.dataDir = d', s'.st.fs = fs'
  intro h
  induction q generalizing s s' with
  | nil => rfl
  | cons x q ih =>
    obtain ⟨w, dg, a⟩ := x
    obtain ⟨h1, h2⟩ := side_serve env port w dg a s s' h
    simp only [answers]
    rw [h1.eq, ih _ _ h2]

/-- After each datagram the two are still alike: a peer cannot prepare a difference either. -/
theorem C79_after (env : Env) (port : Nat) (w : Wire) (dg : Bytes) (a : Addr) (s s' : Srv) (h : SrvAlike s s') :
    SrvAlike (serveDatagram env port w dg a s).2 (serveDatagram env port w dg a s').2 := by
  obtain ⟨_, h2⟩ := side_serve env port w dg a s s' ⟨CatAlike.beside h.1, h.2⟩
  exact ⟨h2.1.alike, h2.2⟩

/-- A daemon that shares the file `f` (three bytes, there), kept in the directory `/x`, with the data directory `/y`; another file, `/z`, holds `secret`. -/
def exKeeps (x y secret : UInt8) : Srv :=
  { st :=
      { cat :=
          { dataDir := [47, y], downloadsDir := [47, x]
            indexFile := some ⟨x.toNat, y.toNat, [(Sha1Hash.zero, ⟨[47, x, 47, 102], 3, Sha1Hash.zero, some ⟨⟨[1], 1⟩, [47, y, 47]⟩, 16⟩)], [47, y]⟩ }
        fs := fun p => if p = [47, x, 47, 102] then some [1, 2, 3] else if p = [47, 122] then some [secret] else none
        faults := [] }
    uploads := fun _ => none }

/-- Two of them with everything different. -/
example : SrvAlike (exKeeps 97 98 1) (exKeeps 99 100 2) := by
  refine ⟨⟨rfl, _, _, rfl, rfl, .cons ⟨rfl, rfl, rfl, rfl, by decide, rfl, by simp [exKeeps], ?_⟩ .nil⟩, rfl⟩
  simp [exKeeps]; decide

end Flu
