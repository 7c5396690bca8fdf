import Verif.Model.Rpc
import Verif.Props.Commands
/-!
# What a program can do through the socket (C133)
-/
namespace Flu
open Spec

/-- A request that needs a hash and does not have one. -/
def Spec.Hashless : RpcReq → Prop
  | .get none => True
  | .chims none => True
  | .list (some _) none => True
  | _ => False

/-- The same request from the command line; `list` without an address needs no hash. -/
def Spec.Alike : RpcReq → CliReq → Prop
  | .share p, .share q => p = q
  | .clean, .clean => True
  | .list none _, .list none _ => True
  | .list (some a) (some h), .list (some b) g => a = b ∧ h = g
  | .get (some h), .get g => h = g
  | .chims (some h), .chims g => h = g
  | _, _ => False

/-- Requests that are served one after the other, all of which come back. -/
inductive Spec.Session (env : Env) : Cat → FS → List (CmdWire × RpcReq) → Cat → FS → Prop where
  | nil (c : Cat) (fs : FS) : Spec.Session env c fs [] c fs
  | cons {c c' : Cat} {fs fs' : FS} (order : List Sha1Hash) (w : CmdWire) (r : RpcReq) (rest : List (CmdWire × RpcReq)) (ho : MapOrder c order)
      (hb : (serveRpc env order w r ⟨c, fs, []⟩).1.returns = true)
      (ht : Spec.Session env (serveRpc env order w r ⟨c, fs, []⟩).2.cat (serveRpc env order w r ⟨c, fs, []⟩).2.fs rest c' fs') : Spec.Session env c fs ((w, r) :: rest) c' fs'

section
variable {env : Env} {d dl : Path} {c : Cat} {fs : FS}

/-- A request lacks a hash it needs, or it is one that the command line could send. -/
theorem hashless_or (r : RpcReq) : Hashless r ∨ ∃ q, Alike r q := by
  match r with
  | .share p => exact .inr ⟨.share p, rfl⟩
  | .clean => exact .inr ⟨.clean, trivial⟩
  | .list none h => exact .inr ⟨.list none (h.getD Sha1Hash.blank), trivial⟩
  | .list (some a) (some h) => exact .inr ⟨.list (some a) h, rfl, rfl⟩
  | .list (some a) none => exact .inl trivial
  | .get (some h) => exact .inr ⟨.get h, rfl⟩
  | .get none => exact .inl trivial
  | .chims (some h) => exact .inr ⟨.chims h, rfl⟩
  | .chims none => exact .inl trivial

/-- It is served like the one of the command line. -/
theorem serveRpc_same (order : List Sha1Hash) (w : CmdWire) {r : RpcReq} {q : CliReq} (h : Alike r q) : serveRpc env order w r = serveCommand env order w q := by
  match r, q, h with
  | .share p, .share q, h => cases h; rfl
  | .clean, .clean, _ => rfl
  | .list none _, .list none _, _ => rfl
  | .list (some a) (some h), .list (some b) g, h' => obtain ⟨h1, h2⟩ := h'; subst h1; subst h2; rfl
  | .get (some h), .get g, h' => cases h'; rfl
  | .chims (some h), .chims g, h' => cases h'; rfl

/-- Without a hash that is needed the daemon ends, whatever the state, the disk and the network, and nothing on the disk has changed. -/
theorem C133_hashless_partial (env : Env) (order : List Sha1Hash) (w : CmdWire) (r : RpcReq) (s : St) (h : Hashless r) : (serveRpc env order w r s).1.returns = false ∧ (serveRpc env order w r s).2 = s := by
  match r, h with
  | .get none, _ => exact ⟨rfl, rfl⟩
  | .chims none, _ => exact ⟨rfl, rfl⟩
  | .list (some a) none, _ =>
    have hx : serveRpc env order w (.list (some a) none) s = (do
        let _ ← IOM.lift (listAddress a)
        match w.listed with
        | .noSocket => IOM.lift .exit
        | _ => IOM.lift .panic : CM CliReply) s := rfl
    rw [hx, IOM.bind_apply]
    have hl : IOM.lift (σ := St) (listAddress a) s = (listAddress a, s) := rfl
    rw [hl]
    have hne : ∀ e, listAddress a ≠ .err e := by
      intro e he
      unfold listAddress at he
      cases hq : to4 a with
      | none => rw [hq] at he; cases he
      | some b =>
        rw [hq] at he
        simp only [Option.getD_some] at he
        match b, he with
        | [], he => cases he
        | [_], he => cases he
        | [_, _], he => cases he
        | [_, _, _], he => cases he
        | _ :: _ :: _ :: _ :: _, he => cases he
    cases hq : listAddress a with
    | err e => exact absurd hq (hne e)
    | panic => exact ⟨rfl, rfl⟩
    | exit => exact ⟨rfl, rfl⟩
    | crash => exact ⟨rfl, rfl⟩
    | ok _ =>
      simp only
      cases w.listed <;> exact ⟨rfl, rfl⟩

/-- Which requests end the daemon. -/
theorem C133_ends_iff_partial (hh : Healthy env d) (hr : CleanReach env d dl (.running c fs)) (order : List Sha1Hash) (w : CmdWire) (r : RpcReq) (hsz : ∀ q, Alike r q → RealSize env fs q) :
    (serveRpc env order w r ⟨c, fs, []⟩).1.returns = false ↔ Hashless r ∨ ∃ q, Alike r q ∧ Ends c fs w q := by
  constructor
  · intro hx
    rcases hashless_or r with h | ⟨q, hq⟩
    · exact .inl h
    · rw [serveRpc_same order w hq] at hx
      exact .inr ⟨q, hq, (C124_ends_iff_partial hh hr order w q (hsz q hq)).1 hx⟩
  · rintro (h | ⟨q, hq, he⟩)
    · exact (C133_hashless_partial env order w r _ h).1
    · rw [serveRpc_same order w hq]
      exact (C124_ends_iff_partial hh hr order w q (hsz q hq)).2 he

/-- On a disk that fails too: with the hashes it needs, a request ends the daemon only through what the network does. -/
theorem C133_disk_partial (hh : Healthy env d) (hr : CleanReach env d dl (.running c fs)) (fl : List Fault) (hfl : OnlyFailures fl) (order : List Sha1Hash) (w : CmdWire) (r : RpcReq)
    (hsz : ∀ q, Alike r q → RealSize env fs q) (hh' : ¬ Hashless r) (hn : ∀ q, Alike r q → ¬ Threat w q) : (serveRpc env order w r ⟨c, fs, fl⟩).1.returns = true := by
  rcases hashless_or r with h | ⟨q, hq⟩
  · exact absurd h hh'
  · rw [serveRpc_same order w hq]
    exact C124_disk_partial hh hr fl hfl order w q (hsz q hq) (hn q hq)

/-- Whatever a program sends, as long as the daemon answers, the catalogue is one that can be reached with the commands: the program has no other way to it. -/
theorem C133_session_partial (hh : Healthy env d) (hr : CleanReach env d dl (.running c fs)) {rs : List (CmdWire × RpcReq)} {c' : Cat} {fs' : FS} (h : Session env c fs rs c' fs') :
    CleanReach env d dl (.running c' fs') ∧ ∀ x ∈ rs, ¬ Hashless x.2 := by
  induction h with
  | nil => exact ⟨hr, fun x hx => by cases hx⟩
  | @cons c c' fs fs' order w r rest ho hb _ ih =>
    rcases hashless_or r with h | ⟨q, hq⟩
    · rw [(C133_hashless_partial env order w r _ h).1] at hb; cases hb
    · have hn : ¬ Hashless r := fun h => by rw [(C133_hashless_partial env order w r _ h).1] at hb; cases hb
      have e := serveRpc_same (env := env) order w hq
      rw [e] at hb ih
      obtain ⟨h1, h2⟩ := ih (C124_goes_on_partial hh hr order ho w q hb)
      refine ⟨h1, fun x hx => ?_⟩
      rcases List.mem_cons.1 hx with rfl | hx
      · exact hn
      · exact h2 x hx

/-- A request that could only be answered or refused, because the command line's own request of that kind would be, does not end the daemon either. -/
def C133_statement (env : Env) (d dl : Path) : Prop :=
  ∀ c fs, CleanReach env d dl (.running c fs) → ∀ order w r, (∀ q, Alike r q → RealSize env fs q ∧ ¬ Threat w q) → (serveRpc env order w r ⟨c, fs, []⟩).1.returns = true

/-- A request for a file that does not say which. -/
theorem C133_refuted (hh : Healthy env d) : ¬ C133_statement env d dl := by
  intro hall
  have := hall _ _ (CleanReach.fresh env d dl hh.utf8 (fun _ => none) (fun _ _ => rfl)) [] ⟨.silence, some [], ⟨none, some [], fun _ => .silence⟩⟩ (.get none) (fun q hq => by cases hq)
  cases this

end

/-! ### Cases -/

/-- `C133_session_partial`, `C133_disk_partial`: a program that lists, without a hash, and then asks for the hosts. -/
example (sha1 : Bytes → Sha1Hash) (json : JsonCodec) : ∃ (c : Cat) (fs : FS) (w : CmdWire), CleanReach (exEnv sha1 json) exDir exDown (.running c fs) ∧
    Session (exEnv sha1 json) c fs [(w, .list none none), (w, .chims (some Sha1Hash.zero))] c fs ∧ ¬ Hashless (.list none none) ∧ ∀ q, Alike (.list none none) q → RealSize (exEnv sha1 json) fs q ∧ ¬ Threat w q := by
  have hh := ex_healthy sha1 json
  have h0 := CleanReach.fresh (exEnv sha1 json) exDir exDown hh.utf8 exFS ex_fs_clean
  refine ⟨_, _, ⟨.silence, some [], ⟨none, some [], fun _ => .silence⟩⟩, h0, ?_, fun h => h, ?_⟩
  · refine .cons [] _ _ _ ⟨_, rfl, List.Perm.refl _⟩ rfl ?_
    exact .cons [] _ _ _ ⟨_, rfl, List.Perm.refl _⟩ rfl (.nil _ _)
  · intro q hq
    cases q with
    | list ip h =>
      cases ip with
      | none => exact ⟨trivial, fun h => h⟩
      | some a => cases hq
    | _ => cases hq

/-- `C133_hashless_partial`: the three requests. -/
example : Hashless (.get none) ∧ Hashless (.chims none) ∧ Hashless (.list (some [10, 0, 0, 2]) none) ∧ ¬ Hashless (.list none none) := ⟨trivial, trivial, trivial, fun h => h⟩

end Flu
