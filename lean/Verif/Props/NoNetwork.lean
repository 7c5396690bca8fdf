import Verif.Props.Startup
import Verif.Props.Fatal
import Verif.Props.StartDownload
/-!
# A machine without a network address (C97)
-/
namespace Flu

namespace Spec

/-- The interfaces have no IPv4 address but loopback ones (or cannot be listed). -/
def Offline (addrs : Option (List Bytes)) : Prop := ∀ l, addrs = some l → ∀ a ∈ l, usable a = none

/-- During this execution the interfaces have these addresses whenever a daemon looks. -/
def While (addrs : Option (List Bytes)) (tr : List DEv) : Prop := ∀ p a, DEv.printed p a ∈ tr → a = addrs

/-- A daemon that reads datagrams. -/
def Hears (m : Machine) (p : Nat) : Prop := ∃ x, m.procs p = some x ∧ x.udp = .serving

end Spec
open Spec

theorem offline_localIP (addrs : Option (List Bytes)) : Offline addrs ↔ ∀ ip, localIP addrs ≠ .ok (some ip) := by
  cases addrs with
  | none => exact ⟨fun _ ip h => (by rw [(C65_localIP []).2] at h; cases h), fun _ l h => (by cases h)⟩
  | some l =>
    rw [(C65_localIP l).1]
    constructor
    · intro h ip hip
      rw [List.findSome?_eq_none_iff.2 (h l rfl)] at hip
      cases hip
    · intro h l' hl
      cases hl
      refine List.findSome?_eq_none_iff.1 ?_
      cases hf : l.findSome? usable with
      | none => rfl
      | some b => rw [hf] at h; exact absurd rfl (h b.1)

/-- Full statement: whatever addresses the interfaces have, a daemon can be started. -/
def C97_statement : Prop := ∀ addrs, ∃ stale tr m p, DRun (.idle stale) tr m ∧ While addrs tr ∧ Hears m p

theorem DStep.hears {m m' : Machine} {e : DEv} (h : DStep m e m') {addrs : Option (List Bytes)} (hoff : Offline addrs) (hw : ∀ p a, e = .printed p a → a = addrs)
    (hno : ∀ p, ¬ Hears m p) (p : Nat) : ¬ Hears m' p := by
  have hput : ∀ (q : Nat) (x y : Proc), m.procs q = some x → y.udp ≠ .serving → ∀ z, (m.put q y).procs p = some z → z.udp ≠ .serving := by
    intro q x y _ hy z hz hs
    simp only [Machine.put] at hz
    split at hz
    · cases hz; exact hy hs
    · exact hno p ⟨z, hz, hs⟩
  have hend : ∀ q, ¬ Hears (m.ending q) p := by
    rintro q ⟨z, hz, hs⟩
    simp only [Machine.ending] at hz
    split at hz
    · cases hz
    · exact hno p ⟨z, hz, hs⟩
  cases h with
  | start =>
    rintro ⟨z, hz, hs⟩
    simp only [Machine.put] at hz
    split at hz
    · cases hz; cases hs
    · exact hno p ⟨z, hz, hs⟩
  | remove q x hx hpos => rintro ⟨z, hz, hs⟩; exact hput q x { x with rpc := .listening } hx (fun hu => hno q ⟨x, hx, hu⟩) z hz hs
  | listen q x hx hpos hfree => rintro ⟨z, hz, hs⟩; exact hput q x { x with rpc := .serving } hx (fun hu => hno q ⟨x, hx, hu⟩) z hz hs
  | bind q x hx hpos hfree => rintro ⟨z, hz, hs⟩; exact hput q x _ hx (fun hu => (by cases hu)) z hz hs
  | print q x hx hpos ip a hip =>
    have := hw q a rfl
    subst this
    exact absurd hip ((offline_localIP a).1 hoff ip)
  | listenFails q => exact hend q
  | bindFails q => exact hend q
  | printFails q => exact hend q
  | ends q => exact hend q

/-- C97, exactly when: a daemon can come to read datagrams if and only if some interface has an IPv4 address that is not a loopback address. -/
theorem C97_partial (addrs : Option (List Bytes)) : (∃ stale tr m p, DRun (.idle stale) tr m ∧ While addrs tr ∧ Hears m p) ↔ ∃ l a ip, addrs = some l ∧ a ∈ l ∧ usable a = some ip := by
  constructor
  · rintro ⟨stale, tr, m, p, hrun, hw, hh⟩
    refine Classical.byContradiction fun hcon => ?_
    have hoff : Offline addrs := by
      intro l hl a ha
      cases hu : usable a with
      | none => rfl
      | some ip => exact absurd ⟨l, a, ip, hl, ha, hu⟩ hcon
    have : ∀ p, ¬ Hears m p := by
      clear hh
      generalize hm0 : Machine.idle stale = m0 at hrun
      induction hrun with
      | refl => subst hm0; rintro p ⟨x, hx, -⟩; cases hx
      | @step m m' tr e h h' ih =>
        exact h'.hears hoff (fun p a he => hw p a (by simp [he])) (ih (fun p a hmem => hw p a (by simp [hmem])))
    exact this p hh
  · rintro ⟨l, a, ip, rfl, ha, hu⟩
    have : ∃ ip, localIP (some l) = .ok (some ip) := by
      refine Classical.byContradiction fun hcon => ?_
      have := (offline_localIP (some l)).2 (fun ip h => hcon ⟨ip, h⟩) l rfl a ha
      rw [hu] at this
      cases this
    obtain ⟨ip', hip⟩ := this
    have e1 : DRun (.idle false) [.start] _ := .step (.refl _) (.start _)
    have e4 := DRun.step e1 (.bind _ 1 ⟨.removing, .binding⟩ (by simp [Machine.put, Machine.idle]) rfl (by simp [Machine.put, Machine.idle]))
    have e5 := DRun.step e4 (.print _ 1 ⟨.removing, .printing⟩ (by simp [Machine.put]) rfl ip' (some l) hip)
    refine ⟨false, _, _, 1, e5, ?_, ⟨_, by simp [Machine.put]; rfl, rfl⟩⟩
    intro p x hx
    simp at hx
    exact hx.2

/-- C97: a daemon that has its port and finds no address ends, whatever its other goroutine is doing, and the command line does not reach it any more. -/
theorem C97_ends {m : Machine} {p : Nat} {x : Proc} (hx : m.procs p = some x) (hpos : x.udp = .printing) (addrs : Option (List Bytes)) (hoff : Offline addrs) :
    ∃ m', DStep m (.ended p) m' ∧ m'.procs p = none ∧ m'.answers ≠ some p ∧ m'.sock = m.sock := by
  refine ⟨_, .printFails m p x hx hpos addrs ((offline_localIP addrs).1 hoff), by simp [Machine.ending], ?_, rfl⟩
  intro ha
  obtain ⟨-, y, hy⟩ := (answers_iff _ _).1 ha
  simp [Machine.ending] at hy

/-- C97 is false of the code: only the loopback interface is up. -/
theorem C97_refuted : ¬ C97_statement := by
  intro hst
  obtain ⟨l, a, ip, hl, ha, hu⟩ := (C97_partial _).1 (hst (some [[127, 0, 0, 1]]))
  cases hl
  simp at ha
  subst ha
  cases hu

/-- C97, a daemon that loses its addresses while it runs: every search that reaches it, also its own, ends it. -/
theorem C97_search (env : Env) (port : Nat) (w : Wire) (hoff : Offline w.addrs) (data : Bytes) (hd : data = [] ∨ data.head? = some 0) (ret : Addr) (s : Srv) :
    (serveDatagram env port w data ret s).1 = .panic := by
  have h0 : (buffer data)[0]? = some 0 := by
    unfold buffer
    rcases hd with rfl | hd
    · rfl
    · cases data with
      | nil => cases hd
      | cons a l => cases hd; rfl
  obtain ⟨r, h, q, k1, -⟩ := (parse_types (buffer data) (buffer_length data)).1 h0
  unfold serveDatagram handleMessage
  rw [IOM.bind_apply, IOM.lift_apply, show udpBuffer data = .exact (buffer data) from rfl, k1]
  simp only []
  unfold respondToDiscoverHosts
  rw [IOM.bind_apply, IOM.lift_apply]
  cases ha : localIP w.addrs with
  | ok o =>
    cases o with
    | none => rfl
    | some ip => exact absurd ha ((offline_localIP _).1 hoff ip)
  | err e =>
    cases hw : w.addrs with
    | none => rw [hw] at ha; cases ha
    | some l => rw [hw, (C65_localIP l).1] at ha; cases ha
  | panic => rfl
  | exit =>
    cases hw : w.addrs with
    | none => rw [hw] at ha; cases ha
    | some l => rw [hw, (C65_localIP l).1] at ha; cases ha
  | crash =>
    cases hw : w.addrs with
    | none => rw [hw] at ha; cases ha
    | some l => rw [hw, (C65_localIP l).1] at ha; cases ha

/-- C97, what does not depend on the addresses: every other datagram. -/
theorem C97_other (env : Env) (port : Nat) (w : Wire) (addrs : Option (List Bytes)) (t : UInt8) (data : Bytes) (ht : t ≠ 0) (ret : Addr) (s : Srv) :
    serveDatagram env port { w with addrs := addrs } (t :: data) ret s = serveDatagram env port w (t :: data) ret s := by
  have hb : udpBuffer (t :: data) = .exact (buffer (t :: data)) := rfl
  unfold serveDatagram handleMessage
  rw [IOM.bind_apply, IOM.bind_apply, IOM.lift_apply, hb]
  cases hp : parse (.exact (buffer (t :: data))) with
  | ok m =>
    cases m with
    | discoverReq r h q =>
      have := (parse_types _ (buffer_length _)).2.2.1 r h q hp
      unfold buffer at this
      simp at this
      exact absurd this ht
    | _ => rfl
  | _ => rfl

/-! ### Cases -/

/-- `Offline`, `C97_search`: only the loopback address, or an IPv6 address besides. -/
example : Offline (some [[127, 0, 0, 1], [0xfe, 0x80, 0, 0, 0, 0, 0, 0, 0, 0, 0, 0, 0, 0, 0, 1]]) := by
  intro l hl
  cases hl
  decide

/-- `C97_ends`: a daemon with its port. -/
example : ∃ (m : Machine) (x : Proc), DRun (.idle true) [.start, .bound 1] m ∧ m.procs 1 = some x ∧ x.udp = .printing := by
  have e1 : DRun (.idle true) [.start] _ := .step (.refl _) (.start _)
  have e4 := DRun.step e1 (.bind _ 1 ⟨.removing, .binding⟩ (by simp [Machine.put, Machine.idle]) rfl (by simp [Machine.put, Machine.idle]))
  exact ⟨_, ⟨.removing, .printing⟩, e4, by simp [Machine.put], rfl⟩

end Flu
