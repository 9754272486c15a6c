import Verif.Raft.Ops

/-!
# Model of the report on the group (`HandleGetEnclaveStatus`)

Left out: the state of each connection (`PeerManager::PeerStatus`, enclave/peers/peers.cc:757-761), which is a copy, and `raft_state`.
-/

namespace Svr.Core.Status

open Svr.Raft

variable {P : Type} [LinearOrder P]

/-- `EnclavePeerReplicationStatus` (shared/proto/msgs.proto). -/
structure Repl where
  next : Nat
  mtch : Nat
  inflight : Option Nat
  probing : Bool
deriving DecidableEq

/-- `Raft::FollowerReplicationStatus` (enclave/raft/raft.cc:1440-1453); `none` if it leaves the status as it was. -/
def follower (s : Node P) (p : P) : Out (Option Repl) := do
  Out.check (s.role == .leader)
  .ok ((s.followers.find p).map fun f => ⟨f.next, f.mtch, f.inflight, f.probe⟩)

/-- `EnclavePeerStatus` (shared/proto/msgs.proto). -/
structure Row (P : Type) where
  id : P
  inRaft : Bool
  voting : Bool
  leader : Bool
  me : Bool
  repl : Option Repl
deriving DecidableEq

/-- The sets of members and voters (enclave/core/core.cc:745-753). -/
def sets : Option (Node P) → List P × List P
  | some s => (s.membership.all, s.membership.voting)
  | none => ([], [])

/-- The state of replication in the report (enclave/core/core.cc:762-767). `part` is the Raft object if the replica is part of a group;
without one the call goes through a null pointer. -/
def replOf (me leader : P) (part : Option (Node P)) (p : P) : Out (Option Repl) :=
  if leader = me ∧ p ≠ me then
    match part with
    | none => .ub
    | some s => follower s p
  else .ok none

/-- The body of the loop (enclave/core/core.cc:754-768). -/
def row (me leader : P) (part : Option (Node P)) (p : P) : Out (Row P) := do
  let repl ← replOf me leader part p
  .ok ⟨p, decide (p ∈ (sets part).1), decide (p ∈ (sets part).2), decide (p = leader), decide (p = me), repl⟩

/-- The loop. -/
def rows (me leader : P) (part : Option (Node P)) : List P → Out (List (Row P))
  | [] => .ok []
  | p :: t => do
    let r ← row me leader part p
    let l ← rows me leader part t
    .ok (r :: l)

/-- `Core::HandleGetEnclaveStatus` (enclave/core/core.cc:737-770): `me` is `ID()`, `known` are the peers of the peer manager, `zero` is
the id of zeros, which stands for no leader, and which is also the `ID()` before `Init` (enclave/peers/peers.cc:536-541). -/
def report (zero me : P) (known : List P) (part : Option (Node P)) : Out (List (Row P)) :=
  let leader := match part with
    | some s => s.leader.getD zero
    | none => zero
  rows me leader part (sinsert me known)

end Svr.Core.Status
