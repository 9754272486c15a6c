import Verif.Core.Write
import Verif.Core.Members

/-!
# What a member does when a replica asks to join, to vote or to be removed
-/

namespace Svr.Core
open Svr.Raft
variable {P : Type} [LinearOrder P]

/-- `Core::HandleRequestRaftMembership` (enclave/core/core.cc:1447-1471), `Core::HandleRequestRaftVoting` (enclave/core/core.cc:1473-1504) and
`Core::HandlePeerRequestedRaftRemoval` (enclave/core/core.cc:1533-1573): the `Raft` afterwards, and the location of the entry or the error. `HandleRequestRaftVoting`
makes the check of the time after those that `nextGroup` makes, which only affects the error. Simplified: the errors of `nextGroup` are all `state`; `RaftStep`, and the
answer to a removal once its entry is committed (1563-1570), are left out. -/
def Keeper.handleGroup (v : Env P) (str : P → Bytes) (k : Keeper P) (frm : P) (q : Kind) : Out (Node P × Except WErr Loc) :=
  if !k.part then .ok (k.node, .error .state)
  else if q ≠ .removal ∧ k.timed = false then .ok (k.node, .error .noTime)
  else match nextGroup str k.node.membership frm q with
    | none => .ok (k.node, .error .state)
    | some g => do
      let (s, r) ← k.node.logRequest v (.membership g)
      .ok (s, r.mapError .raft)

end Svr.Core
