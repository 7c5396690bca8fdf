import Verif.Model.Commands
import Verif.Props.ListCommand
import Verif.Props.CatHostile
import Verif.Props.StartDownload
import Verif.Props.Away
import Verif.Props.Listing
import Verif.Props.DownloadLoop
/-!
# Which commands end the daemon (C124)
-/
namespace Flu
open Spec

/-- What a host must not come up with when `get` asks it to describe a file: no socket to it, a listing that overruns the buffer, or metadata that cannot be. -/
def Spec.Harmful (h : Sha1Hash) (x : Contact) : Prop :=
  x = .noSocket ∨ ∃ data, x = .datagram data ∧ (Overruns data ∨ ∃ id f, parse (.exact (buffer data)) = .ok (.listResp id [f]) ∧ f.hash = h ∧ Bad f.sizeInBytes f.chunkSize)

/-- No IPv4 address other than loopback, or the addresses cannot be read. -/
def Spec.Addressless (addrs : Option (List Bytes)) : Prop := ∀ l, addrs = some l → ∀ a ∈ l, usable a = none

/-- When a command may end the daemon: what the network must not do. -/
def Spec.Threat (w : CmdWire) : CliReq → Prop
  | .share _ => False
  | .clean => False
  | .list none _ => False
  | .list (some a) _ => (∀ x y z v, a ≠ [x, y, z, v] ∧ a ≠ mapped x y z v) ∨ w.listed = .noSocket ∨ ∃ data, w.listed = .datagram data ∧ Overruns data
  | .get h => Addressless w.get.addrs ∨ w.get.responses = none ∨
      ∃ own rs peer rest, ownAddress w.get.addrs = .ok own ∧ w.get.responses = some rs ∧ goodHosts own rs = peer :: rest ∧ Harmful h (w.get.description peer)
  | .chims _ => w.found = none

/-- When a command ends the daemon: a host is asked to describe the file only if the catalogue does not have it. -/
def Spec.Ends (c : Cat) (fs : FS) (w : CmdWire) (r : CliReq) : Prop :=
  Threat w r ∧ ∀ h e, r = .get h → observe c fs h = .ok e → Addressless w.get.addrs ∨ w.get.responses = none

/-- A file that can exist: less than 2^63 bytes. -/
def Spec.RealSize (env : Env) (fs : FS) : CliReq → Prop
  | .share path => ∀ content, fs (absPath env.cwd path) = some content → content.length < 2 ^ 63
  | _ => True

section
variable {env : Env} {d dl : Path} {c : Cat} {fs : FS}

/-! ### `clean` on a failing disk -/

/-- The records with these hashes, if there are any, have their progress in memory. -/
def Cached (hs : List Sha1Hash) : Assn := fun c _ =>
  ∃ ind, c.indexFile = some ind ∧ Own ind.index ∧ ∀ h ∈ hs, ∀ r, mapGet ind.index h = some r → ∃ p, r.progressFile = some p

theorem Cached.look {h : Sha1Hash} {hs : List Sha1Hash} {s : St} (hc : Cached (h :: hs) s.cat s.fs) :
    getIndexRecord h s = (.err .fileNotFound, s) ∨ ∃ r p, getIndexRecord h s = (.ok r, s) ∧ r.progressFile = some p ∧ r.sha1Hash = h := by
  obtain ⟨ind, h1, h2, h3⟩ := hc
  have hg : getIndex s = (.ok ind, s) := by
    unfold getIndex
    rw [IOM.bind_apply, getCat_apply]
    simp only
    rw [h1]; rfl
  unfold getIndexRecord
  rw [IOM.bind_apply, hg]
  simp only
  cases hm : mapGet ind.index h with
  | none => exact .inl rfl
  | some r =>
    obtain ⟨p, hp⟩ := h3 h (List.mem_cons_self) r hm
    refine .inr ⟨r, p, ?_, hp, h2 _ _ hm⟩
    simp only
    unfold fillRecord
    rw [hp]; rfl

theorem cached_osHashFile (hs : List Sha1Hash) (env : Env) (p : Path) : Triple (Cached hs) (osHashFile env p) (fun _ => Cached hs) (Cached hs) :=
  (Triple.osHashFile env p (fun _ _ h => h)).post (fun _ _ _ h => h.1)

theorem cached_remove (hs : List Sha1Hash) (env : Env) (r : Record) : Triple (Cached hs) (removeIndexRecord env r) (fun _ => Cached hs) AnyA := by
  refine Triple.bind (Triple.getIndex (fun _ _ _ => trivial)) (fun ind => ?_)
  refine Triple.bind (Q := fun _ => Cached hs) (Triple.setIndex _ ?_) (fun _ => ?_)
  · rintro c fs ⟨⟨ind', h1, h2, h3⟩, h4⟩
    rw [h1] at h4
    cases h4
    have hm : ∀ k q, mapGet (mapDel ind.index r.sha1Hash) k = some q → mapGet ind.index k = some q := by
      intro k q hq
      rw [mapGet_del] at hq
      split at hq
      · cases hq
      · exact hq
    exact ⟨_, rfl, fun k q hq => h2 k q (hm k q hq), fun h hh q hq => h3 h hh q (hm h q hq)⟩
  · exact Triple.bind (Triple.getIndex (fun _ _ _ => trivial)) (fun _ => Triple.osWriteFile _ _ (fun _ _ h => h.1) (fun _ _ _ => trivial) (fun _ _ _ _ => trivial))

/-- Returns an error, or succeeds with `Q`. -/
def CmdCalm {α : Type} (Q : Assn) (x : CM α) (s : St) : Prop :=
  (∃ e s', x s = (.err e, s')) ∨ ∃ a s', x s = (.ok a, s') ∧ Q s'.cat s'.fs ∧ NoKill s'.faults

theorem CmdCalm.of {α : Type} {P Q E : Assn} {x : CM α} (h1 : Steady P x) (h2 : Triple P x (fun _ => Q) E) (s : St) (hs : P s.cat s.fs) (hk : NoKill s.faults) : CmdCalm Q x s := by
  obtain ⟨h3, h4⟩ := h1 s hs hk
  obtain ⟨h5, -⟩ := h2 s hs
  rcases hx : x s with ⟨r, s'⟩
  rw [hx] at h3 h4
  cases r with
  | ok a => exact .inr ⟨a, s', hx, h5 a s' hx, h4⟩
  | err e => exact .inl ⟨e, s', hx⟩
  | panic => cases h3
  | exit => cases h3
  | crash => cases h3

theorem CmdCalm.returns {α : Type} {Q : Assn} {x : CM α} {s : St} (h : CmdCalm Q x s) : (x s).1.returns = true := by
  rcases h with ⟨e, s', h⟩ | ⟨a, s', h, -⟩ <;> rw [h] <;> rfl

theorem CmdCalm.bind {α β : Type} {Q R : Assn} {x : CM α} {f : α → CM β} {s : St} (hx : CmdCalm Q x s) (hf : ∀ a s', Q s'.cat s'.fs → NoKill s'.faults → CmdCalm R (f a) s') : CmdCalm R (x >>= f) s := by
  rcases hx with ⟨e, s', h⟩ | ⟨a, s', h, h1, h2⟩
  · exact .inl ⟨e, s', by rw [IOM.bind_apply, h]⟩
  · have := hf a s' h1 h2
    rcases this with ⟨e, s2, g⟩ | ⟨b, s2, g, g1, g2⟩
    · exact .inl ⟨e, s2, by rw [IOM.bind_apply, h]; exact g⟩
    · exact .inr ⟨b, s2, by rw [IOM.bind_apply, h]; exact g, g1, g2⟩

theorem CmdCalm.step {α β : Type} {R : Assn} {x : CM α} {f : α → CM β} {s s' : St} {a : α} (h : x s = (.ok a, s')) (hf : CmdCalm R (f a) s') : CmdCalm R (x >>= f) s := by
  rcases hf with ⟨e, s2, g⟩ | ⟨b, s2, g, g1, g2⟩
  · exact .inl ⟨e, s2, by rw [IOM.bind_apply, h]; exact g⟩
  · exact .inr ⟨b, s2, by rw [IOM.bind_apply, h]; exact g, g1, g2⟩

theorem Cached.tail {h : Sha1Hash} {hs : List Sha1Hash} {c : Cat} {fs : FS} (hc : Cached (h :: hs) c fs) : Cached hs c fs := by
  obtain ⟨ind, h1, h2, h3⟩ := hc
  exact ⟨ind, h1, h2, fun k hk => h3 k (List.mem_cons_of_mem _ hk)⟩

theorem Cached.hasIdx {hs : List Sha1Hash} {c : Cat} {fs : FS} (hc : Cached hs c fs) : HasIdx c fs := by
  obtain ⟨ind, h1, -⟩ := hc
  exact ⟨ind, h1⟩

/-- `UnshareFile` of a record whose progress is in memory. -/
theorem cached_unshare (env : Env) (h : Sha1Hash) (hs : List Sha1Hash) (s : St) (hc : Cached (h :: hs) s.cat s.fs) (hk : NoKill s.faults) : CmdCalm (Cached hs) (unshareFile env h) s := by
  unfold unshareFile
  rcases hc.look with h1 | ⟨r, p, h1, h2, h3⟩
  · exact .inl ⟨_, s, by rw [IOM.bind_apply, h1]⟩
  · refine CmdCalm.step h1 ?_
    simp only [h2]
    refine CmdCalm.bind (Q := Cached hs) (CmdCalm.of (Steady.osRemove _) (Triple.osRemove (E := AnyA) _ (fun _ _ _ h _ => h) (fun _ _ _ => trivial) (fun _ _ _ => trivial)) s hc.tail hk) ?_
    intro _ s' h4 h5
    exact CmdCalm.of (Steady.removeIndexRecord env r (fun _ _ h => Cached.hasIdx h)) (cached_remove hs env r) s' h4 h5

/-- `Rehash` as `clean` sees it: it finds no record, and then neither will `UnshareFile`, or the pointer it returns is not nil. -/
theorem cached_rehash (env : Env) (h : Sha1Hash) (hs : List Sha1Hash) (s : St) (hc : Cached (h :: hs) s.cat s.fs) (hk : NoKill s.faults) :
    (rehashCall env h s = (.ok (none, some .fileNotFound), s) ∧ getIndexRecord h s = (.err .fileNotFound, s)) ∨
    ∃ x e s', rehashCall env h s = (.ok (some x, e), s') ∧ Cached (h :: hs) s'.cat s'.fs ∧ NoKill s'.faults := by
  unfold rehashCall
  rcases hc.look with h1 | ⟨r, p, h1, h2, h3⟩
  · refine .inl ⟨?_, h1⟩
    rw [IOM.bind_apply]
    unfold IOM.attempt
    rw [h1]; rfl
  · have ha : IOM.attempt (getIndexRecord h) s = (.ok (.ok r), s) := by unfold IOM.attempt; rw [h1]
    obtain ⟨g1, g2⟩ := Steady.osHashFile (P := AnyA) env r.filePath s trivial hk
    obtain ⟨k1, k2⟩ := cached_osHashFile (h :: hs) env r.filePath s hc
    rcases hx : osHashFile env r.filePath s with ⟨q, s'⟩
    rw [hx] at g1 g2
    cases q with
    | ok x =>
      refine .inr ⟨x, none, s', ?_, k1 x s' hx, g2⟩
      rw [IOM.bind_apply, ha]
      simp only
      rw [IOM.bind_apply]
      unfold IOM.attempt
      rw [hx]; rfl
    | err e =>
      refine .inr ⟨Sha1Hash.blank, some e, s', ?_, k2 _ s' hx (by intro a ha; cases ha), g2⟩
      rw [IOM.bind_apply, ha]
      simp only
      rw [IOM.bind_apply]
      unfold IOM.attempt
      rw [hx]; rfl
    | panic => cases g1
    | exit => cases g1
    | crash => cases g1

theorem cached_cleanOne (env : Env) (f : Export) (hs : List Sha1Hash) (s : St) (hfull : f.progress.full.returns = true) (hc : Cached (f.sha1Hash :: hs) s.cat s.fs) (hk : NoKill s.faults) :
    CmdCalm (Cached hs) (cleanOne env f) s := by
  unfold cleanOne
  rcases cached_rehash env f.sha1Hash hs s hc hk with ⟨h1, h2⟩ | ⟨x, e, s', h1, h2, h3⟩
  · refine CmdCalm.step h1 ?_
    refine .inl ⟨.fileNotFound, s, ?_⟩
    have hu : unshareFile env f.sha1Hash s = (.err .fileNotFound, s) := by unfold unshareFile; rw [IOM.bind_apply, h2]
    simp only [IOM.bind_apply, hu]
  · refine CmdCalm.step h1 ?_
    have hrest : ∀ (a : Action) (s2 : St), Cached hs s2.cat s2.fs → NoKill s2.faults → CmdCalm (Cached hs)
        (match some x with | none => IOM.lift .panic | some x => return { filePath := f.filePath, indexedHash := f.sha1Hash, currentHash := x, action := a } : CM CleanItem) s2 :=
      fun a s2 g1 g2 => .inr ⟨_, s2, rfl, g1, g2⟩
    have hgone : ∀ a : Action, CmdCalm (Cached hs) (do unshareFile env f.sha1Hash; return a : CM Action) s' :=
      fun a => CmdCalm.bind (cached_unshare env f.sha1Hash hs s' h2 h3) (fun _ s2 g1 g2 => .inr ⟨a, s2, rfl, g1, g2⟩)
    cases e with
    | some e => exact CmdCalm.bind (hgone .missing) hrest
    | none =>
      refine CmdCalm.bind ?_ hrest
      simp only
      cases hb : f.progress.full with
      | ok b =>
        refine CmdCalm.step (s' := s') (a := b) rfl ?_
        cases b with
        | false => exact .inr ⟨_, s', rfl, h2.tail, h3⟩
        | true =>
          simp only [Bool.not_true, Bool.false_eq_true, if_false]
          split
          · exact hgone .changed
          · exact .inr ⟨_, s', rfl, h2.tail, h3⟩
      | err e => exact .inl ⟨e, s', rfl⟩
      | panic => rw [hb] at hfull; cases hfull
      | exit => rw [hb] at hfull; cases hfull
      | crash => rw [hb] at hfull; cases hfull

theorem cached_cleanLoop (env : Env) : ∀ (es : List Export) (s : St), (∀ e ∈ es, e.progress.full.returns = true) → Cached (es.map (·.sha1Hash)) s.cat s.fs → NoKill s.faults →
    CmdCalm AnyA (cleanLoop env es) s
  | [], s, _, _, hk => .inr ⟨[], s, rfl, trivial, hk⟩
  | f :: es, s, hf, hc, hk => by
    unfold cleanLoop
    refine CmdCalm.bind (cached_cleanOne env f _ s (hf f List.mem_cons_self) hc hk) (fun it s1 g1 g2 => ?_)
    exact CmdCalm.bind (cached_cleanLoop env es s1 (fun e he => hf e (List.mem_cons_of_mem _ he)) g1 g2) (fun its s2 _ k2 => .inr ⟨_, s2, rfl, trivial, k2⟩)

theorem Triple.both {α : Type} {P P' E : Assn} {x : CM α} {Q Q' : α → Assn} (h1 : Triple P x Q E) (h2 : Triple P' x Q' AnyA) :
    Triple (fun c fs => P c fs ∧ P' c fs) x (fun a c fs => Q a c fs ∧ Q' a c fs) E :=
  fun s hs => ⟨fun a s' hx => ⟨(h1 s hs.1).1 a s' hx, (h2 s hs.2).1 a s' hx⟩, fun r s' hx hn => (h1 s hs.1).2 r s' hx hn⟩

/-- `fill` puts the progress of the record into memory. -/
theorem cached_fill (hs : List Sha1Hash) (h : Sha1Hash) (r : Record) :
    Triple (fun c fs => Cached hs c fs ∧ (c.indexFile.bind (fun i => mapGet i.index h) = some r)) (fillRecord r) (fun r' c fs => Cached (h :: hs) c fs ∧ r'.sha1Hash = h) AnyA := by
  unfold fillRecord
  split
  · rename_i q hq
    refine Triple.pure _ ?_
    rintro c fs ⟨⟨ind, h1, h2, h3⟩, hr⟩
    rw [h1] at hr
    refine ⟨⟨ind, h1, h2, fun k hk r' hr' => ?_⟩, h2 _ _ hr⟩
    rcases List.mem_cons.1 hk with rfl | hk
    · have : some r = some r' := hr.symm.trans hr'
      cases this; exact ⟨q, hq⟩
    · exact h3 k hk r' hr'
  · refine Triple.bind Triple.getCat (fun cat => ?_)
    refine Triple.bind (Q := fun _ c fs => Cached hs c fs ∧ (c.indexFile.bind (fun i => mapGet i.index h) = some r)) ?_ (fun p => ?_)
    · refine Triple.bind ((Triple.osReadFile _ (fun _ _ _ => trivial)).pre (fun _ _ h => h)) (fun data => ?_)
      refine Triple.bind (Triple.lift (Q := fun _ c fs => Cached hs c fs ∧ (c.indexFile.bind (fun i => mapGet i.index h) = some r)) _ (fun b _ c fs h => h.1.1) (fun _ _ _ => trivial)) (fun b => ?_)
      exact Triple.pure _ (fun _ _ h => h)
    · refine Triple.bind (Q := fun _ c fs => Cached (h :: hs) c fs ∧ r.sha1Hash = h) ?_ (fun _ => Triple.pure _ (fun _ _ h => h))
      refine Triple.bind (Triple.getIndex (fun _ _ _ => trivial)) (fun i => ?_)
      apply Triple.setIndex
      rintro c fs ⟨⟨⟨ind, h1, h2, h3⟩, hr⟩, hi⟩
      rw [h1] at hi hr
      cases hi
      have hk := h2 _ _ hr
      refine ⟨⟨_, rfl, ?_, ?_⟩, hk⟩
      · intro k r' hr'
        rw [mapGet_put] at hr'
        split at hr'
        · rename_i e; cases hr'; exact e
        · exact h2 k r' hr'
      · intro k hkm r' hr'
        rw [mapGet_put] at hr'
        split at hr'
        · cases hr'; exact ⟨p, rfl⟩
        · rename_i e
          rcases List.mem_cons.1 hkm with rfl | hkm
          · exact absurd hk e
          · exact h3 k hkm r' hr'

/-- What `ListFiles` leaves behind: the progress of every file it lists is in memory. -/
theorem ro_listed {ind : IndexFile} {fs0 : FS} (hv : Viewable d ind fs0) (ho : Own ind.index) : ∀ (order hs : List Sha1Hash),
    Triple (fun c fs => RO d dl ind fs0 c fs ∧ Cached hs c fs) (listLoop order)
      (fun es c fs => Cached (es.map (·.sha1Hash) ++ hs) c fs ∧ ∀ e ∈ es, e.progress.full.returns = true) AnyA
  | [], hs => Triple.pure _ (fun _ _ h => ⟨h.2, fun e he => by cases he⟩)
  | h :: rest, hs => by
    refine Triple.bind (Triple.getIndex (fun _ _ _ => trivial)) (fun i => ?_)
    split
    · exact (ro_listed hv ho rest hs).pre (fun _ _ h => h.1)
    · rename_i r hr
      refine Triple.bind (((Triple.both (ro_fillRecord (d := d) (dl := dl) (fs0 := fs0) ho h r) (cached_fill hs h r)).conseq (fun _ _ h => h) (fun _ _ _ h => h) (fun _ _ _ => trivial)).pre ?_) (fun r' => ?_)
      · rintro c fs ⟨⟨h1, h2⟩, h3⟩
        have : c.indexFile.bind (fun i => mapGet i.index h) = some r := by rw [h3]; exact hr
        exact ⟨⟨h1, this⟩, h2, this⟩
      · refine Triple.bind (Q := fun e c fs => RO d dl ind fs0 c fs ∧ Cached (h :: hs) c fs ∧ e.sha1Hash = h ∧ e.progress.full.returns = true) (Triple.lift _ ?_ (fun _ _ _ => trivial)) (fun e => ?_)
        · rintro e he c fs ⟨⟨h1, r0, p, g1, g2, rfl⟩, h2, h3⟩
          cases he
          refine ⟨h1, h2, h3, ?_⟩
          obtain ⟨p', q1, q2⟩ := hv h r0 g1
          rw [g2] at q1
          cases q1
          show p.progress.full.returns = true
          rw [Bitset.full_eq _ q2]; rfl
        · refine Triple.bind (Q := fun es c fs => (Cached (es.map (·.sha1Hash) ++ h :: hs) c fs ∧ ∀ e ∈ es, e.progress.full.returns = true) ∧ e.sha1Hash = h ∧ e.progress.full.returns = true) ?_ (fun es => ?_)
          · intro s hs'
            obtain ⟨k1, k2⟩ := ro_listed hv ho rest (h :: hs) s ⟨hs'.1, hs'.2.1⟩
            exact ⟨fun a s' hx => ⟨k1 a s' hx, hs'.2.2⟩, fun _ _ _ _ => trivial⟩
          · refine Triple.pure _ ?_
            rintro c fs ⟨⟨⟨ind', g1, g2, g3⟩, g4⟩, g5, g6⟩
            refine ⟨⟨ind', g1, g2, fun k hk => g3 k ?_⟩, fun e' he' => ?_⟩
            · rw [List.map_cons, List.cons_append, g5] at hk
              rcases List.mem_cons.1 hk with rfl | hk
              · exact List.mem_append_right _ List.mem_cons_self
              · rcases List.mem_append.1 hk with hk | hk
                · exact List.mem_append_left _ hk
                · exact List.mem_append_right _ (List.mem_cons_of_mem _ hk)
            · rcases List.mem_cons.1 he' with rfl | he'
              · exact g6
              · exact g4 _ he'

/-- `clean` answers, whatever the disk does. -/
theorem clean_returns (hh : Healthy env d) (hr : CleanReach env d dl (.running c fs)) (fl : List Fault) (hfl : OnlyFailures fl) (order : List Sha1Hash) :
    (clean env order ⟨c, fs, fl⟩).1.returns = true := by
  obtain ⟨ind, rfl, hs⟩ := hr.sync hh.abs hh.utf8
  obtain ⟨ind', he, hw⟩ := Inv.split (hr.reach.inv hh.abs hh.utf8 : Inv _ _ _ _ fs)
  cases he
  have hv := Viewable.of_sync hs
  have hown := hw.ownGet
  have hro : RO d dl ind fs ⟨d, dl, some ind⟩ fs := RO.init _ _ _ _
  have hl : ∀ s, listFiles order ⟨⟨d, dl, some ind⟩, fs, fl⟩ = s → listLoop order ⟨⟨d, dl, some ind⟩, fs, fl⟩ = s := fun s hx => hx
  obtain ⟨h1, h2⟩ := Steady.listLoop hv hown order ⟨⟨d, dl, some ind⟩, fs, fl⟩ hro hfl.noKill
  obtain ⟨h3, -⟩ := ro_listed (dl := dl) hv hown order [] ⟨⟨d, dl, some ind⟩, fs, fl⟩ ⟨hro, ind, rfl, hown, fun _ hx => by cases hx⟩
  unfold clean
  rw [IOM.bind_apply]
  rcases hx : listFiles order ⟨⟨d, dl, some ind⟩, fs, fl⟩ with ⟨r, s'⟩
  rw [hl _ hx] at h1 h2
  cases r with
  | ok es =>
    obtain ⟨g1, g2⟩ := h3 es s' (hl _ hx)
    rw [List.append_nil] at g1
    exact (cached_cleanLoop env es s' g2 g1 h2).returns
  | err e => rfl
  | panic => cases h1
  | exit => cases h1
  | crash => cases h1

/-! ### `get` -/

theorem listFilesOnHost_datagram (data : Bytes) (id : UInt16) (files : List ListFilesEntry) :
    listFilesOnHost (.datagram data) = .ok (id, files) ↔ parse (.exact (buffer data)) = .ok (.listResp id files) := by
  show ((parse (.exact (buffer data)) >>= fun m => match m with | .listResp reqID files => pure (reqID, files) | _ => Res.err .wrongResponse) : Res _) = _ ↔ _
  cases hp : parse (.exact (buffer data)) with
  | ok m =>
    cases m with
    | listResp i l => exact ⟨fun hx => by cases hx; rfl, fun hx => by cases hx; rfl⟩
    | _ => exact ⟨fun hx => (by cases hx), fun hx => (by cases hx)⟩
  | _ => exact ⟨fun hx => (by cases hx), fun hx => (by cases hx)⟩

theorem downloadMetaData_ok (h : Sha1Hash) (x : Contact) (f : ListFilesEntry) :
    downloadMetaData h x = .ok f ↔ f.hash = h ∧ ∃ data id, x = .datagram data ∧ parse (.exact (buffer data)) = .ok (.listResp id [f]) := by
  constructor
  · intro hx
    refine ⟨downloadMetaData_hash h x f hx, ?_⟩
    unfold downloadMetaData at hx
    obtain ⟨⟨i, files⟩, h1, h2⟩ := (Res.bind_ok_iff _ _ _).1 hx
    rcases x with _ | _ | data
    · cases h1
    · cases h1
    · simp only [] at h2
      split at h2
      · split at h2
        · cases h2
          exact ⟨data, i, rfl, (listFilesOnHost_datagram _ _ _).1 h1⟩
        · cases h2
      · cases h2
  · rintro ⟨hf, data, id, rfl, hp⟩
    unfold downloadMetaData
    rw [(listFilesOnHost_datagram _ _ _).2 hp]
    show (if f.hash = h then (pure f : Res _) else _) = _
    rw [if_pos hf]; rfl

theorem downloadMetaData_returns (h : Sha1Hash) (x : Contact) : (downloadMetaData h x).returns = (listFilesOnHost x).returns := by
  unfold downloadMetaData
  cases hx : listFilesOnHost x with
  | ok r =>
    obtain ⟨i, files⟩ := r
    rw [Res.bind_ok]
    rcases files with _ | ⟨f, _ | ⟨g, l⟩⟩
    · rfl
    · simp only []
      split <;> rfl
    · rfl
  | _ => rfl

theorem harmless (h : Sha1Hash) (x : Contact) : ¬ Harmful h x ↔ (downloadMetaData h x).returns = true ∧ ∀ f, downloadMetaData h x = .ok f → ¬ Bad f.sizeInBytes f.chunkSize := by
  rw [downloadMetaData_returns, listFilesOnHost_returns]
  unfold Harmful
  constructor
  · intro hn
    refine ⟨⟨fun e => hn (.inl e), fun data e ho => hn (.inr ⟨data, e, .inl ho⟩)⟩, fun f hf hb => ?_⟩
    obtain ⟨h1, data, id, h2, h3⟩ := (downloadMetaData_ok h x f).1 hf
    exact hn (.inr ⟨data, h2, .inr ⟨id, f, h3, h1, hb⟩⟩)
  · rintro ⟨⟨h1, h2⟩, h3⟩ (h4 | ⟨data, h4, h5 | ⟨id, f, h5, h6, h7⟩⟩)
    · exact h1 h4
    · exact h2 data h4 h5
    · exact h3 f ((downloadMetaData_ok h x f).2 ⟨h6, data, id, h4, h5⟩) h7

/-- `RegisterDownload` returns for all metadata but the fatal ones, whatever the disk does. -/
theorem Steady.registerGood (env : Env) (size : UInt64) (cs : UInt32) (h : Sha1Hash) (name : GoString) (hg : ¬ Bad size cs) : Steady HasIdx (registerDownload env size cs h name) := by
  refine Steady.bind (Q := fun _ => HasIdx) (E := AnyA) Steady.getCat (Triple.getCat.post (fun _ _ _ h => h.1)) (fun cat => ?_)
  refine Steady.bind (Steady.addIndexRecord env _ (fun _ _ h => h)) (keepIdx_addIndexRecord env _) (fun _ => ?_)
  refine Steady.bind (Q := fun _ => HasIdx) (E := AnyA) Steady.getCat (Triple.getCat.post (fun _ _ _ h => h.1)) (fun cat2 => ?_)
  refine Steady.bind (Q := fun _ => HasIdx) (E := AnyA) (Steady.lift _ ?_) (Triple.lift _ (fun _ _ _ _ h => h) (fun _ _ _ => trivial)) (fun p => ?_)
  · have hiff := newProgressFile_panics_iff size cs h name cat.downloadsDir cat2.dataDir
    rcases newProgressFile_noErr (downloadRecord cat.downloadsDir size cs h name) cat2.dataDir (asInt64_lt _) (by show (0 : Int) ≤ (cs.toNat : Int); omega) with ⟨p, hp⟩ | hp
    · unfold downloadRecord at hp
      rw [hp]; rfl
    · exact absurd (hiff.1 hp) hg
  · exact Steady.seq (Steady.updateRecord _ (fun _ _ h => h)) (fun _ => Steady.seq (Steady.ignoreErr (Steady.osWriteFile _ _)) (fun _ => Steady.lift _ rfl))

/-- `RegisterDownload` of an unknown file with fatal metadata. -/
theorem register_bad (hh : Healthy env d) (hr : Reach env d dl (.running c fs)) (size : UInt64) (cs : UInt32) (h : Sha1Hash) (name : GoString)
    (hnew : observe c fs h = .err .fileNotFound) (hb : Bad size cs) : (registerDownload env size cs h name ⟨c, fs, []⟩).1 = .panic := by
  have hI : Inv env d dl c fs := hr.inv hh.abs hh.utf8
  obtain ⟨ind, rfl, hw⟩ := hI.split
  rw [observe_eq, obsRec_notFound] at hnew
  have hadd := addIndexRecord_nil env (downloadRecord dl size cs h name) d dl ind fs
  rw [show mapGet ind.index (downloadRecord dl size cs h name).sha1Hash = none from hnew] at hadd
  simp only at hadd
  have hp := (newProgressFile_panics_iff size cs h name dl d).2 hb
  unfold registerDownload
  rw [IOM.bind_apply, getCat_apply]
  simp only
  rw [IOM.bind_apply]
  unfold downloadRecord at hadd hp
  rw [hadd]
  simp only
  rw [IOM.bind_apply, getCat_apply]
  simp only
  rw [IOM.bind_apply, IOM.lift_apply, hp]

/-- This host's address exists or the call panics. -/
theorem ownAddress_cases (addrs : Option (List Bytes)) : (Addressless addrs ∧ ownAddress addrs = .panic) ∨ (¬ Addressless addrs ∧ ∃ own, ownAddress addrs = .ok own) := by
  unfold Addressless ownAddress
  rcases addrs with _ | l
  · exact .inl ⟨fun l hl => (by cases hl), by rw [(C65_localIP []).2]; rfl⟩
  rw [(C65_localIP l).1]
  cases hf : l.findSome? usable with
  | none =>
    refine .inl ⟨fun l' hl' => ?_, rfl⟩
    cases hl'
    exact List.findSome?_eq_none_iff.1 hf
  | some ip =>
    refine .inr ⟨fun hn => ?_, ?_⟩
    · rw [List.findSome?_eq_none_iff.2 (hn l rfl)] at hf; cases hf
    · obtain ⟨w, hw⟩ := ip
      show ∃ own, newIpv4 (.exact w) = .ok own
      have h4 : to4 (NetIP.exact w).bytes = some w := by
        show to4 (w.take w.length) = _
        rw [List.take_length]
        unfold to4
        rw [if_pos hw]
      unfold newIpv4
      rw [h4]
      simp only [show (NetIP.exact w).cap = 4 from hw, if_true]
      exact ⟨_, rfl⟩

/-- The setup of a download, whatever the disk does, if the network does no harm. -/
theorem startSetup_returns (w : CmdWire) (h : Sha1Hash) (known : Bool) (s : St) (hi : HasIdx s.cat s.fs) (hk : NoKill s.faults) (hn : ¬ Threat w (.get h)) :
    (startSetup env w.get h known s).1.returns = true := by
  obtain ⟨n1, n2⟩ := not_or.1 hn
  obtain ⟨n2, n3⟩ := not_or.1 n2
  rcases ownAddress_cases w.get.addrs with ⟨h1, -⟩ | ⟨-, own, h1⟩
  · exact absurd h1 n1
  cases hrs : w.get.responses with
  | none => exact absurd hrs n2
  | some rs =>
    unfold startSetup
    rw [IOM.bind_apply, IOM.lift_apply, h1, hrs]
    simp only
    cases hg : goodHosts own rs with
    | nil => rfl
    | cons peer rest =>
      simp only
      cases known with
      | true => rfl
      | false =>
        obtain ⟨k1, k2⟩ := (harmless h (w.get.description peer)).1 (fun hx => n3 ⟨own, rs, peer, rest, h1, hrs, hg, hx⟩)
        simp only [Bool.false_eq_true, if_false]
        rw [IOM.bind_apply, IOM.lift_apply]
        cases hf : downloadMetaData h (w.get.description peer) with
        | ok f =>
          simp only
          exact ((Steady.seq (Steady.registerGood env f.sizeInBytes f.chunkSize f.hash f.fileName (k2 f hf)) (fun _ => Steady.pure _)) s hi hk).1
        | err e => rfl
        | panic => rw [hf] at k1; cases k1
        | exit => rw [hf] at k1; cases k1
        | crash => rw [hf] at k1; cases k1

theorem startCheck_steady (hh : Healthy env d) (hr : CleanReach env d dl (.running c fs)) (fl : List Fault) (hfl : OnlyFailures fl) (h : Sha1Hash) :
    ∃ b s', startCheck h ⟨c, fs, fl⟩ = (.ok b, s') ∧ HasIdx s'.cat s'.fs ∧ NoKill s'.faults := by
  obtain ⟨ind, rfl, hs⟩ := hr.sync hh.abs hh.utf8
  obtain ⟨ind', he, hw⟩ := Inv.split (hr.reach.inv hh.abs hh.utf8 : Inv _ _ _ _ fs)
  cases he
  have hro : RO d dl ind fs ⟨d, dl, some ind⟩ fs := RO.init _ _ _ _
  obtain ⟨h1, h2⟩ := Steady.containsCall (Viewable.of_sync hs) hw.ownGet h ⟨⟨d, dl, some ind⟩, fs, fl⟩ hro hfl.noKill
  obtain ⟨h3, h4⟩ := ro_contains hw.ownGet h ⟨⟨d, dl, some ind⟩, fs, fl⟩ hro
  unfold startCheck
  rw [IOM.bind_apply]
  unfold IOM.attempt
  rcases hx : contains h ⟨⟨d, dl, some ind⟩, fs, fl⟩ with ⟨r, s'⟩
  rw [hx] at h1 h2
  cases r with
  | ok e => exact ⟨true, s', rfl, (h3 e s' hx).1.hasIdx, h2⟩
  | err e => exact ⟨false, s', rfl, (h4 _ s' hx (by intro a ha; cases ha)).hasIdx, h2⟩
  | panic => cases h1
  | exit => cases h1
  | crash => cases h1

/-! ### The commands -/

theorem bind_pure_returns {α β : Type} (x : CM α) (f : α → β) (s : St) : ((x >>= fun a => pure (f a) : CM β) s).1.returns = (x s).1.returns := by
  rw [IOM.bind_apply]
  rcases x s with ⟨r, s'⟩
  cases r <;> rfl

theorem share_exports (path : GoString) (s s' : St) (r : Record) (h : shareFile env path s = (.ok r, s')) : ∃ e, r.export = .ok e := by
  unfold shareFile at h
  obtain ⟨r0, s1, -, h⟩ := (IOM.bind_ok_iff _ _ _ _ _).1 h
  obtain ⟨-, s2, -, h⟩ := (IOM.bind_ok_iff _ _ _ _ _).1 h
  obtain ⟨c2, s3, -, h⟩ := (IOM.bind_ok_iff _ _ _ _ _).1 h
  obtain ⟨p, s4, -, h⟩ := (IOM.bind_ok_iff _ _ _ _ _).1 h
  obtain ⟨-, s5, -, h⟩ := (IOM.bind_ok_iff _ _ _ _ _).1 h
  obtain ⟨b, s6, -, h⟩ := (IOM.bind_ok_iff _ _ _ _ _).1 h
  obtain ⟨-, s7, -, h⟩ := (IOM.bind_ok_iff _ _ _ _ _).1 h
  obtain ⟨-, s8, -, h⟩ := (IOM.bind_ok_iff _ _ _ _ _).1 h
  cases h
  exact ⟨_, rfl⟩

theorem shareCommand_returns (path : GoString) (s : St) : (serveCommand env [] ⟨.silence, none, ⟨none, none, fun _ => .silence⟩⟩ (.share path) s).1.returns = (shareFile env path s).1.returns := by
  show ((shareFile env path >>= fun r => IOM.lift r.export >>= fun e => pure (CliReply.shared (localItem e)) : CM CliReply) s).1.returns = _
  rw [IOM.bind_apply]
  rcases hx : shareFile env path s with ⟨r, s'⟩
  cases r with
  | ok r =>
    obtain ⟨e, he⟩ := share_exports path s s' r hx
    simp only
    rw [IOM.bind_apply, IOM.lift_apply, he]
    rfl
  | _ => rfl

/-- **C124**: whatever the disk does, a command ends the daemon only through what the network does. -/
theorem C124_disk_partial (hh : Healthy env d) (hr : CleanReach env d dl (.running c fs)) (fl : List Fault) (hfl : OnlyFailures fl) (order : List Sha1Hash) (w : CmdWire) (r : CliReq)
    (hsz : RealSize env fs r) (hn : ¬ Threat w r) : (serveCommand env order w r ⟨c, fs, fl⟩).1.returns = true := by
  cases r with
  | share path =>
    refine (shareCommand_returns path _).trans ?_
    have := C113_returns hh hr fl hfl (.share path) rfl hsz
    exact (bind_pure_returns (shareFile env path) (fun _ => ()) _).symm.trans this
  | clean => exact (bind_pure_returns (clean env order) CliReply.cleaned _).trans (clean_returns hh hr fl hfl order)
  | list ip g =>
    refine (bind_pure_returns (methodsList order ip w.listed) CliReply.files _).trans ?_
    refine (C60_survives_iff_partial hh hr fl hfl order ip w.listed).2 ?_
    rintro a rfl
    obtain ⟨n1, n2⟩ := not_or.1 hn
    obtain ⟨n2, n3⟩ := not_or.1 n2
    refine ⟨?_, n2, fun data hd ho => n3 ⟨data, hd, ho⟩⟩
    apply Classical.byContradiction
    intro hx
    exact n1 (fun x y z v => ⟨fun e => hx ⟨x, y, z, v, .inl e⟩, fun e => hx ⟨x, y, z, v, .inr e⟩⟩)
  | get h =>
    refine (bind_pure_returns (startDownload env w.get h) (fun _ => CliReply.started) _).trans ?_
    obtain ⟨b, s', h1, h2, h3⟩ := startCheck_steady hh hr fl hfl h
    unfold startDownload
    rw [IOM.bind_apply, h1]
    exact startSetup_returns w h b s' h2 h3 hn
  | chims g =>
    cases hf : w.found with
    | none => exact absurd hf hn
    | some rs => unfold serveCommand; simp only [hf]; rfl

/-- **C124**: on a disk that works a command ends the daemon exactly in the cases of `Ends`. -/
theorem C124_ends_iff_partial (hh : Healthy env d) (hr : CleanReach env d dl (.running c fs)) (order : List Sha1Hash) (w : CmdWire) (r : CliReq)
    (hsz : RealSize env fs r) : (serveCommand env order w r ⟨c, fs, []⟩).1.returns = false ↔ Ends c fs w r := by
  have hnil : OnlyFailures [] := fun f hf => by cases hf
  constructor
  · intro hx
    have ht : Threat w r := Classical.byContradiction (fun hn => by rw [C124_disk_partial hh hr [] hnil order w r hsz hn] at hx; cases hx)
    refine ⟨ht, ?_⟩
    rintro h e rfl ho
    apply Classical.byContradiction
    intro hn
    obtain ⟨n1, n2⟩ := not_or.1 hn
    have hx2 := (bind_pure_returns (startDownload env w.get h) (fun _ => CliReply.started) ⟨c, fs, []⟩).symm.trans hx
    obtain ⟨known, c1, h1, -, -, h4⟩ := startDownload_eq hh hr w.get h
    rw [h1] at hx2
    rcases h4 with ⟨rfl, -⟩ | ⟨-, h4⟩
    · rcases ownAddress_cases w.get.addrs with ⟨k1, -⟩ | ⟨-, own, k1⟩
      · exact n1 k1
      cases hrs : w.get.responses with
      | none => exact n2 hrs
      | some rs =>
        unfold startSetup at hx2
        rw [IOM.bind_apply, IOM.lift_apply, k1, hrs] at hx2
        simp only at hx2
        cases hg : goodHosts own rs with
        | nil => rw [hg] at hx2; cases hx2
        | cons peer rest => rw [hg] at hx2; cases hx2
    · rw [ho] at h4; cases h4
  · rintro ⟨ht, hk⟩
    cases r with
    | share path => cases ht
    | clean => cases ht
    | list ip g =>
      refine (bind_pure_returns (methodsList order ip w.listed) CliReply.files _).trans ?_
      rcases ip with _ | a
      · cases ht
      apply Bool.eq_false_iff.2
      intro hx
      obtain ⟨⟨x, y, z, v, k1⟩, k2, k3⟩ := (C60_survives_iff_partial hh hr [] hnil order (some a) w.listed).1 hx a rfl
      rcases ht with ht | ht | ⟨data, h1, h2⟩
      · rcases k1 with k1 | k1
        · exact (ht x y z v).1 k1
        · exact (ht x y z v).2 k1
      · exact k2 ht
      · exact k3 data h1 h2
    | get h =>
      refine (bind_pure_returns (startDownload env w.get h) (fun _ => CliReply.started) _).trans ?_
      obtain ⟨known, c1, h1, h2, h3, h4⟩ := startDownload_eq hh hr w.get h
      rw [h1]
      rcases ownAddress_cases w.get.addrs with ⟨-, k1⟩ | ⟨k0, own, k1⟩
      · unfold startSetup
        rw [IOM.bind_apply, IOM.lift_apply, k1]; rfl
      cases hrs : w.get.responses with
      | none =>
        unfold startSetup
        rw [IOM.bind_apply, IOM.lift_apply, k1, hrs]; rfl
      | some rs =>
        rcases ht with ht | ht | ⟨own', rs', peer, rest, g1, g2, g3, g4⟩
        · exact absurd ht k0
        · rw [hrs] at ht; cases ht
        · rw [k1] at g1; cases g1
          rw [hrs] at g2; cases g2
          rcases h4 with ⟨-, e, h4⟩ | ⟨rfl, h4⟩
          · rcases hk h e rfl h4 with hk | hk
            · exact absurd hk k0
            · rw [hrs] at hk; cases hk
          · unfold startSetup
            rw [IOM.bind_apply, IOM.lift_apply, k1, hrs]
            simp only [g3, Bool.false_eq_true, if_false]
            rw [IOM.bind_apply, IOM.lift_apply]
            cases hf : downloadMetaData h (w.get.description peer) with
            | ok f =>
              have hb : Bad f.sizeInBytes f.chunkSize := by
                apply Classical.byContradiction
                intro hb
                refine (harmless h (w.get.description peer)).2 ⟨by rw [hf]; rfl, fun f' hf' => ?_⟩ g4
                rw [hf] at hf'; cases hf'; exact hb
              have hp := register_bad hh h2.reach f.sizeInBytes f.chunkSize f.hash f.fileName (by rw [downloadMetaData_hash h _ f hf, h3]; exact h4) hb
              simp only
              rw [IOM.bind_apply]
              rcases hq : registerDownload env f.sizeInBytes f.chunkSize f.hash f.fileName ⟨c1, fs, []⟩ with ⟨q, s'⟩
              rw [hq] at hp
              simp only at hp
              subst hp
              rfl
            | err e =>
              exfalso
              exact (harmless h (w.get.description peer)).2 ⟨by rw [hf]; rfl, fun f' hf' => by rw [hf] at hf'; cases hf'⟩ g4
            | panic => rfl
            | exit => rfl
            | crash => rfl
    | chims g =>
      have hf : w.found = none := ht
      unfold serveCommand
      simp only [hf]; rfl

theorem bind_pure_run {α β : Type} (x : CM α) (f : α → β) (s s' : St) (r : Res β) (h : (x >>= fun a => pure (f a) : CM β) s = (r, s')) (hr : r.returns = true) :
    (∃ a, x s = (.ok a, s') ∧ r = .ok (f a)) ∨ ∃ e, x s = (.err e, s') ∧ r = .err e := by
  rw [IOM.bind_apply] at h
  rcases hx : x s with ⟨q, s1⟩
  rw [hx] at h
  cases q with
  | ok a => cases h; exact .inl ⟨a, rfl, rfl⟩
  | err e => cases h; exact .inr ⟨e, rfl, rfl⟩
  | _ => cases h; cases hr

/-- **C124**: a command that is answered, with a result or an error, leaves a daemon that was never struck by a fault, so that the next command is again covered. -/
theorem C124_goes_on_partial (hh : Healthy env d) (hr : CleanReach env d dl (.running c fs)) (order : List Sha1Hash) (ho : MapOrder c order) (w : CmdWire) (r : CliReq)
    (hn : (serveCommand env order w r ⟨c, fs, []⟩).1.returns = true) :
    CleanReach env d dl (.running (serveCommand env order w r ⟨c, fs, []⟩).2.cat (serveCommand env order w r ⟨c, fs, []⟩).2.fs) := by
  rcases hx : serveCommand env order w r ⟨c, fs, []⟩ with ⟨q, s'⟩
  rw [hx] at hn
  simp only at hn ⊢
  cases r with
  | share path =>
    unfold serveCommand at hx
    simp only [] at hx
    rw [IOM.bind_apply] at hx
    rcases hs : shareFile env path ⟨c, fs, []⟩ with ⟨q1, s1⟩
    rw [hs] at hx
    cases q1 with
    | ok rec =>
      obtain ⟨e, he⟩ := share_exports path _ s1 rec hs
      simp only at hx
      rw [IOM.bind_apply, IOM.lift_apply, he] at hx
      cases hx
      exact hr.returns (.share path) trivial s' (.inl (CM.void_ok _ _ _ _ hs))
    | err e =>
      cases hx
      exact hr.returns (.share path) trivial s' (.inr ⟨e, CM.void_err _ _ _ _ hs⟩)
    | _ => cases hx; cases hn
  | clean =>
    obtain ⟨items, s2, h1, h2⟩ := C39_total hh hr order ho
    rcases bind_pure_run _ _ _ _ _ hx hn with ⟨a, h3, -⟩ | ⟨e, h3, -⟩
    · rw [h1] at h3; cases h3; exact h2
    · rw [h1] at h3; cases h3
  | list ip g =>
    cases ip with
    | none =>
      rcases bind_pure_run _ _ _ _ _ hx hn with ⟨a, h3, -⟩ | ⟨e, h3, -⟩
      · rcases bind_pure_run (listFiles order) _ _ _ _ h3 rfl with ⟨b, h4, -⟩ | ⟨e, -, h5⟩
        · exact hr.returns (.list order) trivial s' (.inl (CM.void_ok _ _ _ _ h4))
        · cases h5
      · rcases bind_pure_run (listFiles order) _ _ _ _ h3 rfl with ⟨b, -, h5⟩ | ⟨e, h4, -⟩
        · cases h5
        · exact hr.returns (.list order) trivial s' (.inr ⟨e, CM.void_err _ _ _ _ h4⟩)
    | some a =>
      have hst : s' = ⟨c, fs, []⟩ := by
        rcases bind_pure_run _ _ _ _ _ hx hn with ⟨b, h3, -⟩ | ⟨e, h3, -⟩
        all_goals
          unfold methodsList at h3
          simp only [] at h3
          rw [IOM.bind_apply, IOM.lift_apply] at h3
          cases hl : listAddress a with
          | ok v =>
            rw [hl] at h3
            simp only at h3
            rw [IOM.bind_apply, IOM.lift_apply] at h3
            cases hf : listFilesOnHost w.listed with
            | _ => rw [hf] at h3; cases h3 <;> rfl
          | _ => rw [hl] at h3; cases h3 <;> rfl
      subst hst
      exact hr
  | get h =>
    obtain ⟨known, c1, h1, h2, h3, h4⟩ := startDownload_eq hh hr w.get h
    have key : ∀ q s', startSetup env w.get h known ⟨c1, fs, []⟩ = (q, s') → q.returns = true → CleanReach env d dl (.running s'.cat s'.fs) := by
      intro q s' hq hret
      unfold startSetup at hq
      rw [IOM.bind_apply, IOM.lift_apply] at hq
      rcases ownAddress_cases w.get.addrs with ⟨-, k1⟩ | ⟨-, own, k1⟩
      · rw [k1] at hq; cases hq; cases hret
      rw [k1] at hq
      simp only at hq
      cases hrs : w.get.responses with
      | none => rw [hrs] at hq; cases hq; cases hret
      | some rs =>
        rw [hrs] at hq
        simp only at hq
        cases hg : goodHosts own rs with
        | nil => rw [hg] at hq; cases hq; exact h2
        | cons peer rest =>
          rw [hg] at hq
          simp only at hq
          cases known with
          | true => cases hq; exact h2
          | false =>
            simp only [Bool.false_eq_true, if_false] at hq
            rw [IOM.bind_apply, IOM.lift_apply] at hq
            cases hf : downloadMetaData h (w.get.description peer) with
            | ok f =>
              rw [hf] at hq
              simp only at hq
              rcases bind_pure_run _ _ _ _ _ hq hret with ⟨b, g1, -⟩ | ⟨e, g1, -⟩
              · exact h2.returns (.register f.sizeInBytes f.chunkSize f.hash f.fileName) trivial s' (.inl (CM.void_ok _ _ _ _ g1))
              · exact h2.returns (.register f.sizeInBytes f.chunkSize f.hash f.fileName) trivial s' (.inr ⟨e, CM.void_err _ _ _ _ g1⟩)
            | err e => rw [hf] at hq; cases hq; exact h2
            | _ => rw [hf] at hq; cases hq; cases hret
    rcases bind_pure_run _ _ _ _ _ hx hn with ⟨a, g, -⟩ | ⟨e, g, -⟩
    · rw [h1] at g; exact key _ _ g rfl
    · rw [h1] at g; exact key _ _ g rfl
  | chims g =>
    unfold serveCommand at hx
    cases hf : w.found with
    | none => simp only [hf] at hx; cases hx; cases hn
    | some rs => simp only [hf] at hx; cases hx; exact hr

/-- C124 in full: no command that a user types ends the daemon. -/
def C124_statement (env : Env) (d dl : Path) (parseIP : GoString → Option Bytes) : Prop :=
  ∀ args r, cliRun parseIP true args = .call r → ∀ c fs, CleanReach env d dl (.running c fs) → ∀ order w, RealSize env fs r → (serveCommand env order w r ⟨c, fs, []⟩).1.returns = true

/-- `flu chims` on a machine that has just lost its network. -/
theorem C124_refuted (hh : Healthy env d) (parseIP : GoString → Option Bytes) : ¬ C124_statement env d dl parseIP := by
  intro hall
  have := hall [cmdChims] (.chims Sha1Hash.blank) rfl _ _ (CleanReach.fresh env d dl hh.utf8 (fun _ => none) (fun _ _ => rfl)) [] ⟨.silence, none, ⟨none, none, fun _ => .silence⟩⟩ trivial
  cases this

/-- A description with chunk size zero, in a datagram of its own. -/
theorem zero_harmful (h : Sha1Hash) : Harmful h (.datagram (Msg.listResp 7 [⟨10, 1, 0, 1, h, [97]⟩]).serialize) := by
  refine .inr ⟨_, rfl, .inr ⟨7, ⟨10, 1, 0, 1, h, [97]⟩, ?_, rfl, .inl rfl⟩⟩
  have h1 : listingSize (([⟨10, 1, 0, 1, h, [97]⟩] : List ListFilesEntry).map cutEntry) = 47 := rfl
  have h2 := serialize_listing_length 7 [⟨10, 1, 0, 1, h, [97]⟩]
  have h3 := listing_received 7 [⟨10, 1, 0, 1, h, [97]⟩] (by rw [h2, h1]; decide)
  rw [if_pos (by rw [h1]; decide)] at h3
  exact (listFilesOnHost_datagram _ _ _).1 h3

/-- **C124**: one other host is enough: if it answers the search for a file that the catalogue does not have, it can end the daemon by what it says about the file. -/
theorem C124_peer (hh : Healthy env d) (hr : CleanReach env d dl (.running c fs)) (h : Sha1Hash) (hnew : ∀ e, observe c fs h ≠ .ok e) (own : ByteArr 4) (addrs : List Bytes)
    (hown : ownAddress (some addrs) = .ok own) (peer : HostResp) (hp : goodHosts own [peer] = [peer]) :
    ∃ reply : Bytes, ∀ order listed found, (serveCommand env order ⟨listed, found, ⟨some addrs, some [peer], fun _ => .datagram reply⟩⟩ (.get h) ⟨c, fs, []⟩).1.returns = false :=
  ⟨_, fun order listed found => (C124_ends_iff_partial hh hr order _ (.get h) trivial).2
    ⟨.inr (.inr ⟨own, [peer], peer, [], hown, rfl, hp, zero_harmful h⟩), fun g e hg he => by cases hg; exact absurd he (hnew e)⟩⟩

end

/-! ### Cases -/

/-- `C124_disk_partial`, `C124_goes_on_partial`: a fresh daemon, a failing disk, and commands with and without a threat. -/
example (sha1 : Bytes → Sha1Hash) (json : JsonCodec) : ∃ (c : Cat) (fs : FS) (fl : List Fault) (w : CmdWire), CleanReach (exEnv sha1 json) exDir exDown (.running c fs) ∧ fl ≠ [] ∧ OnlyFailures fl ∧
    MapOrder c [] ∧ ¬ Threat w (.get Sha1Hash.zero) ∧ ¬ Threat w (.list (some [10, 0, 0, 2]) Sha1Hash.blank) ∧ Threat w (.list (some [1, 2, 3]) Sha1Hash.blank) ∧ ¬ Threat w .clean ∧
    (serveCommand (exEnv sha1 json) [] w (.get Sha1Hash.zero) ⟨c, fs, []⟩).1.returns = true := by
  have hh := ex_healthy sha1 json
  have h0 := CleanReach.fresh (exEnv sha1 json) exDir exDown hh.utf8 exFS ex_fs_clean
  have hof : OnlyFailures [.fail .none] := by
    intro f hf
    rcases List.mem_cons.1 hf with rfl | hf
    · exact .inr ⟨_, rfl⟩
    · cases hf
  have hown : ownAddress (some [[10, 0, 0, 1]]) = .ok exOwn := by decide
  have ht : ¬ Threat ⟨.silence, some [], ⟨some [[10, 0, 0, 1]], some [exPeer], fun _ => .silence⟩⟩ (.get Sha1Hash.zero) := by
    rintro (h | h | ⟨own, rs, peer, rest, h1, h2, h3, h4⟩)
    · have := h _ rfl [10, 0, 0, 1] List.mem_cons_self
      revert this; decide
    · cases h
    · rcases h4 with h4 | ⟨data, h4, -⟩
      · cases h4
      · cases h4
  refine ⟨_, _, [.fail .none], ⟨.silence, some [], ⟨some [[10, 0, 0, 1]], some [exPeer], fun _ => .silence⟩⟩, h0, (by intro h; cases h), hof, ?_, ht, ?_, ?_, fun h => h,
    C124_disk_partial hh h0 [] (fun f hf => by cases hf) [] _ (.get Sha1Hash.zero) trivial ht⟩
  · exact ⟨_, rfl, List.Perm.refl _⟩
  · rintro (h | h | ⟨data, h, -⟩)
    · exact (h 10 0 0 2).1 rfl
    · cases h
    · cases h
  · refine .inl (fun x y z v => ⟨fun h => (by cases h), fun h => ?_⟩)
    have := congrArg List.length h
    revert this; simp [mapped]

/-- `C124_peer`: a fresh daemon and a host with another address. -/
example (sha1 : Bytes → Sha1Hash) (json : JsonCodec) : ∃ (c : Cat) (fs : FS), CleanReach (exEnv sha1 json) exDir exDown (.running c fs) ∧ (∀ e, observe c fs Sha1Hash.zero ≠ .ok e) ∧
    ownAddress (some [[10, 0, 0, 1]]) = .ok exOwn ∧ goodHosts exOwn [exPeer] = [exPeer] :=
  ⟨_, _, CleanReach.fresh (exEnv sha1 json) exDir exDown (ex_healthy sha1 json).utf8 exFS ex_fs_clean, fun e h => (by cases h), by decide, ex_good⟩

end Flu
