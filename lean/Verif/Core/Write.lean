import Verif.Raft.Request
import Verif.Wire

/-!
# Writes to the log: by a member's own clients, and forwarded by another member
-/

namespace Svr.Core
open Svr.Raft
variable {P : Type} [LinearOrder P]

/-- The part of `Core` that decides on a write (enclave/core/core.h:250-260, enclave/core/internal.h): `part` is `raft_.state == RAFTSTATE_LOADED_PART_OF_GROUP`,
`node` is `raft_.loaded.raft`, `least` is `group_config.min_voting_replicas()` and `timed` is `peers_attested_with_raft_quorum_timestamp_`. -/
structure Keeper (P : Type) [LinearOrder P] where
  part : Bool
  node : Node P
  least : Nat
  timed : Bool

/-- The errors of the two functions. -/
inductive WErr
  | state | tooFew | noTime | parse | serialize | leaderUnknown | raft (e : RErr)
deriving DecidableEq

/-- `Core::HandleRaftWrite` (enclave/core/core.cc:1506-1526): the `Raft` afterwards, and the location that is sent back or the error. Simplified: `RaftStep`, which
sends what `LogRequest` has prepared and applies what is committed, is modelled in `Core/Apply` and left out here. -/
def Keeper.handleWrite (v : Env P) (k : Keeper P) (data : Bytes) : Out (Node P × Except WErr Loc) :=
  if !k.part then .ok (k.node, .error .state)
  else if k.node.membership.voting.length < k.least then .ok (k.node, .error .tooFew)
  else if !k.timed then .ok (k.node, .error .noTime)
  else match Wire.decEntry true data with
    | none => .ok (k.node, .error .parse)
    | some e => do
      let (s, r) ← k.node.logRequest v e.inner
      .ok (s, r.mapError .raft)

/-- What `Core::RaftWriteLogTransaction` does with an entry. -/
inductive Wrote (P : Type)
  | taken (loc : Loc)
  | forwarded (dst : P) (data : Bytes)
  | refused (e : WErr)

/-- `Core::RaftWriteLogTransaction` (enclave/core/core.cc:1678-1722), without the answer to a forwarded write (1702-1719, modelled in `Core/Host`) and `RaftStep`.
`SerializeToString` fails for messages of 2^31 bytes and more; here the limit is the one of the parser. -/
def Keeper.write (v : Env P) (k : Keeper P) (e : Entry) : Out (Node P × Wrote P) :=
  if !k.part then .ok (k.node, .refused .state)
  else if k.node.role = .leader then
    if k.node.membership.voting.length < k.least then .ok (k.node, .refused .tooFew)
    else do
      let (s, r) ← k.node.logRequest v e.inner
      .ok (s, match r with
        | .ok loc => .taken loc
        | .error x => .refused (.raft x))
  else match k.node.leader with
    | some p => if (Wire.encEntry e).length ≤ Wire.maxLen then .ok (k.node, .forwarded p (Wire.encEntry e)) else .ok (k.node, .refused .serialize)
    | none => .ok (k.node, .refused .leaderUnknown)

end Svr.Core
