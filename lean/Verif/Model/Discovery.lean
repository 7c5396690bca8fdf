import Verif.Model.Server
/-!
# What a search returns

The end of `DiscoverHosts`: the messages that arrived on the response channel (`Model/Requests`) as the list that `StartDownload` and `Chims` get.
-/
namespace Flu

/-- `res.(*messages.DiscoverHostResponse)` (serverDiscoverHosts.go:50): the assertion panics on any other message. -/
def Msg.hostResp : Msg → Res HostResp
  | .discoverResp reqID addr port chunks => .ok ⟨reqID, addr, port, chunks⟩
  | _ => .panic

/-- The result of `DiscoverHosts` (serverDiscoverHosts.go:40-53) for the messages received in time, in the order in which they came. -/
def hostResps : List Msg → Res (List HostResp)
  | [] => .ok []
  | m :: rest => do
    let r ← m.hostResp
    let rs ← hostResps rest
    return r :: rs

end Flu
