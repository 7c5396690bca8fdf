import Verif.Props.Discovery
import Verif.Props.StartDownload
/-!
# Under which address a host is found (C96)
-/
namespace Flu
open Spec

section
variable {env : Env} {d dl : Path} {c : Cat} {fs : FS}

/-- Full statement: a host has the interface addresses `addrs` and sends its answers from `src`, one of them; whoever gets an answer from it lists it under `src`. -/
def C96_statement (env : Env) (d dl : Path) : Prop :=
  ∀ (c : Cat) (fs : FS) (port : Nat) (w : Wire) (addrs : List Bytes) (src : ByteArr 4) (r : UInt16) (h : Sha1Hash) (q : List UInt16) (pad : Bytes) (ret : Addr) (ups : UpKey → Option Up)
    (ip : Bytes) (p : Nat) (reply : Bytes) (s' : Srv),
    CleanReach env d dl (.running c fs) → w.addrs = some addrs → (∃ a ∈ addrs, usable a = some src) → q.length ≤ 255 → q.length % 2 = 0 →
    serveDatagram env port w ((Msg.discoverReq r h q).serialize ++ pad) ret ⟨⟨c, fs, []⟩, ups⟩ = (.ok (.sent ip p reply), s') →
    ∀ (env' : Env) (port' : Nat) (w' : Wire) (port'' : Nat) (s : Srv), ∃ m x, serveDatagram env' port' w' reply ⟨.exact src.1, port''⟩ s = (.ok (.deliver r m), s) ∧ m.hostResp = .ok x ∧
      x.addr = src

/-- C96, exactly: a host is listed under the address it sends from if and only if this is the first of its interface addresses that is an IPv4 address and not a loopback address. -/
theorem C96_partial (hh : Healthy env d) (hclean : CleanReach env d dl (.running c fs)) (port : Nat) (w : Wire) (addrs : List Bytes) (src : ByteArr 4) (hw : w.addrs = some addrs)
    (hsrc : ∃ a ∈ addrs, usable a = some src) (r : UInt16) (h : Sha1Hash) (q : List UInt16) (hq : q.length ≤ 255) (heven : q.length % 2 = 0) (pad : Bytes) (ret : Addr)
    (ups : UpKey → Option Up) (ip : Bytes) (p : Nat) (reply : Bytes) (s' : Srv)
    (hrun : serveDatagram env port w ((Msg.discoverReq r h q).serialize ++ pad) ret ⟨⟨c, fs, []⟩, ups⟩ = (.ok (.sent ip p reply), s'))
    (env' : Env) (port' : Nat) (w' : Wire) (ret' : Addr) (s : Srv) :
    ∃ m x, serveDatagram env' port' w' reply ret' s = (.ok (.deliver r m), s) ∧ m.hostResp = .ok x ∧ x.reqID = r ∧ x.port = UInt16.ofNat port ∧
      (x.addr = src ↔ addrs.findSome? usable = some src) := by
  obtain ⟨own, hown⟩ : ∃ own, addrs.findSome? usable = some own := by
    cases hf : addrs.findSome? usable with
    | some own => exact ⟨own, rfl⟩
    | none =>
      obtain ⟨a, ha, hu⟩ := hsrc
      rw [List.findSome?_eq_none_iff.1 hf a ha] at hu
      cases hu
  have hloc : localIP w.addrs = .ok (some own.1) := by rw [hw, (C65_localIP addrs).1, hown]; rfl
  obtain ⟨fl, s2, h1, -⟩ := C52_reply hh hclean port w own hloc r h q hq heven pad ret ups
  rw [hrun] at h1
  obtain ⟨h2, -⟩ := Prod.mk.inj h1
  split at h2
  · injection h2 with h3
    injection h3 with h4 h5 h6
    subst h6
    have := reply_delivered env' port' w' r own (UInt16.ofNat port) fl [] ret' s
    rw [List.append_nil] at this
    refine ⟨_, _, this, rfl, rfl, rfl, ?_⟩
    rw [hown]
    exact ⟨fun e => congrArg some e, fun e => Option.some.inj e⟩
  · cases h2

/-- C96, a host with one address: it is listed under it. -/
theorem C96_one_partial (hh : Healthy env d) (hclean : CleanReach env d dl (.running c fs)) (port : Nat) (w : Wire) (addrs : List Bytes) (src : ByteArr 4) (hw : w.addrs = some addrs)
    (hsrc : ∃ a ∈ addrs, usable a = some src) (hone : ∀ a ∈ addrs, ∀ b, usable a = some b → b = src)
    (r : UInt16) (h : Sha1Hash) (q : List UInt16) (hq : q.length ≤ 255) (heven : q.length % 2 = 0) (pad : Bytes) (ret : Addr)
    (ups : UpKey → Option Up) (ip : Bytes) (p : Nat) (reply : Bytes) (s' : Srv)
    (hrun : serveDatagram env port w ((Msg.discoverReq r h q).serialize ++ pad) ret ⟨⟨c, fs, []⟩, ups⟩ = (.ok (.sent ip p reply), s'))
    (env' : Env) (port' : Nat) (w' : Wire) (ret' : Addr) (s : Srv) :
    ∃ m x, serveDatagram env' port' w' reply ret' s = (.ok (.deliver r m), s) ∧ m.hostResp = .ok x ∧ x.addr = src := by
  obtain ⟨m, x, h1, h2, -, -, h3⟩ := C96_partial hh hclean port w addrs src hw hsrc r h q hq heven pad ret ups ip p reply s' hrun env' port' w' ret' s
  refine ⟨m, x, h1, h2, h3.2 ?_⟩
  cases hf : addrs.findSome? usable with
  | some own =>
    obtain ⟨a, ha, hu⟩ := List.exists_of_findSome?_eq_some hf
    rw [hone a ha own hu]
  | none =>
    obtain ⟨a, ha, hu⟩ := hsrc
    rw [List.findSome?_eq_none_iff.1 hf a ha] at hu
    cases hu

/-- C96, other hosts: whoever can send a datagram to a daemon that is searching, from whatever address, can make it list any host it likes, with any port and any chunks; and if chunks
are named and the address is not the daemon's own, then the daemon takes it for a host to download from. -/
theorem C96_forged (r : UInt16) (a : ByteArr 4) (p : UInt16) (cs : List UInt16) (hcs : cs.length ≤ 255) : ∃ dgram, dgram.length ≤ 1024 ∧
    ∀ (env : Env) (port : Nat) (w : Wire) (ret : Addr) (s : Srv), ∃ m, serveDatagram env port w dgram ret s = (.ok (.deliver r m), s) ∧ m.hostResp = .ok ⟨r, a, p, cs⟩ ∧
      ∀ own, cs ≠ [] → a ≠ own → goodHosts own [⟨r, a, p, cs⟩] = [⟨r, a, p, cs⟩] := by
  refine ⟨(Msg.discoverResp r a p cs).serialize, ?_, ?_⟩
  · have := a.2
    simp only [Msg.serialize, serializeChunks, List.length_append, List.length_cons, List.length_nil, flatMap_put16_length, put16, beBytes_length, this]
    omega
  · intro env port w ret s
    have := reply_delivered env port w r a p cs [] ret s
    rw [List.append_nil, Nat.mod_eq_of_lt (by omega), List.take_length] at this
    refine ⟨_, this, rfl, ?_⟩
    intro own hne ha
    unfold goodHosts
    rw [if_pos]
    · rfl
    · refine ⟨?_, ha⟩
      cases cs with
      | nil => exact absurd rfl hne
      | cons => exact Nat.succ_pos _

end

/-- C96 is false of the code: a host with the addresses 172.17.0.1 (a bridge of its own, say) and 10.0.0.1 answers from the second and is listed under the first. -/
theorem C96_refuted (sha1 : Bytes → Sha1Hash) (json : JsonCodec) : ¬ C96_statement (exEnv sha1 json) exDir exDown := by
  intro hall
  have hclean := CleanReach.fresh (exEnv sha1 json) exDir exDown (ex_healthy sha1 json).utf8 exFS ex_fs_clean
  have hw : ({ exWire with addrs := some [[127, 0, 0, 1], [172, 17, 0, 1], [10, 0, 0, 1]] } : Wire).addrs = some [[127, 0, 0, 1], [172, 17, 0, 1], [10, 0, 0, 1]] := rfl
  have hsrc : ∃ a ∈ [[127, 0, 0, 1], [172, 17, 0, 1], [10, 0, 0, 1]], usable a = some (⟨[10, 0, 0, 1], rfl⟩ : ByteArr 4) := ⟨[10, 0, 0, 1], by simp, by decide⟩
  have hown : localIP ({ exWire with addrs := some [[127, 0, 0, 1], [172, 17, 0, 1], [10, 0, 0, 1]] } : Wire).addrs = .ok (some (⟨[172, 17, 0, 1], rfl⟩ : ByteArr 4).1) := rfl
  obtain ⟨h, hb⟩ : ∃ h : Sha1Hash, h.isBlank = false := ⟨⟨List.replicate 20 0, rfl⟩, by decide⟩
  obtain ⟨fl, s2, h1, -, h2, -⟩ := C52_reply (ex_healthy sha1 json) hclean 61696 _ _ hown 0 h [] (by decide) rfl [] exAddr (fun _ => none)
  obtain rfl := h2 rfl
  rw [if_pos ⟨rfl, by decide⟩] at h1
  obtain ⟨m, x, k1, k2, k3⟩ := hall _ _ 61696 _ _ _ 0 h [] [] exAddr (fun _ => none) _ _ _ _ hclean hw hsrc (by decide) rfl h1 (exEnv sha1 json) 61696 exWire 61696 ⟨⟨⟨exDir, exDown, none⟩, exFS, []⟩, fun _ => none⟩
  obtain ⟨m', x', g1, g2, -, -, g3⟩ := C96_partial (ex_healthy sha1 json) hclean 61696 _ _ _ hw hsrc 0 h [] (by decide) rfl [] exAddr (fun _ => none) _ _ _ _ h1
    (exEnv sha1 json) 61696 exWire ⟨.exact [10, 0, 0, 1], 61696⟩ ⟨⟨⟨exDir, exDown, none⟩, exFS, []⟩, fun _ => none⟩
  rw [k1] at g1
  cases g1
  rw [k2] at g2
  cases g2
  have := g3.1 k3
  revert this
  decide

/-! ### Cases -/

/-- `C96_partial`, `C96_one_partial`: a host with a loopback address and 10.0.0.1 answers a search. -/
example (sha1 : Bytes → Sha1Hash) (json : JsonCodec) : ∃ (c : Cat) (fs : FS) (h : Sha1Hash) (ip : Bytes) (p : Nat) (reply : Bytes) (s' : Srv),
    CleanReach (exEnv sha1 json) exDir exDown (.running c fs) ∧ exWire.addrs = some [[127, 0, 0, 1], [10, 0, 0, 1]] ∧
    (∀ a ∈ [[127, 0, 0, 1], [10, 0, 0, 1]], ∀ b, usable a = some b → b = (⟨[10, 0, 0, 1], rfl⟩ : ByteArr 4)) ∧
    serveDatagram (exEnv sha1 json) 61696 exWire ((Msg.discoverReq 0 h []).serialize ++ []) exAddr ⟨⟨c, fs, []⟩, fun _ => none⟩ = (.ok (.sent ip p reply), s') := by
  have hclean := CleanReach.fresh (exEnv sha1 json) exDir exDown (ex_healthy sha1 json).utf8 exFS ex_fs_clean
  have hown : localIP exWire.addrs = .ok (some (⟨[10, 0, 0, 1], rfl⟩ : ByteArr 4).1) := rfl
  obtain ⟨h, hb⟩ : ∃ h : Sha1Hash, h.isBlank = false := ⟨⟨List.replicate 20 0, rfl⟩, by decide⟩
  obtain ⟨fl, s2, h1, -, h2, -⟩ := C52_reply (ex_healthy sha1 json) hclean 61696 _ _ hown 0 h [] (by decide) rfl [] exAddr (fun _ => none)
  obtain rfl := h2 rfl
  rw [if_pos ⟨rfl, by decide⟩] at h1
  refine ⟨_, _, h, _, _, _, s2, hclean, rfl, ?_, h1⟩
  intro a ha b hb
  simp only [List.mem_cons, List.not_mem_nil, or_false] at ha
  rcases ha with rfl | rfl
  · have : usable [127, 0, 0, 1] = none := by decide
    rw [this] at hb; cases hb
  · have : usable [10, 0, 0, 1] = some (⟨[10, 0, 0, 1], rfl⟩ : ByteArr 4) := by decide
    rw [this] at hb
    exact (Option.some.inj hb).symm

end Flu
