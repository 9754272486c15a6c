import Verif.Core.Grid

/-!
# Model of how a replica joins, becomes a voter, is removed and joins again (enclave/core/core.cc)

`Grid.lean` lets a replica join once and lets any membership be requested of any leader at any time. Here membership requests are
exactly those `core.cc` makes, in the states in which it makes them, and a replica can be told by its host to join again.
Transactions between peers arrive after any delay. Not modelled: that the replicas have a quorum timestamp
(`peers_attested_with_raft_quorum_timestamp_`, taken to be true) and the minimal number of voters for client requests.
-/

namespace Svr.Core
open Raft Raft.Node
variable {P : Type} [LinearOrder P] {D L E : Type}

/-- What a replica asks of the leader about itself. -/
inductive Kind
  | member | voter | removal
deriving DecidableEq

/-- `Membership::AsProto` (enclave/raft/membership.cc:106-116). -/
def protoOf (str : P → Bytes) (m : Membership P) : List (Bytes × Bool) := m.all.map fun p => (str p, decide (p ∈ m.voting))

/-- The membership `Core::HandleRequestRaftMembership` (enclave/core/core.cc:1447-1471), `Core::HandleRequestRaftVoting`
(enclave/core/core.cc:1473-1504) and `Core::HandlePeerRequestedRaftRemoval` (enclave/core/core.cc:1533-1558) pass to
`Raft::LogRequest`, if any, in `RAFTSTATE_LOADED_PART_OF_GROUP`. -/
def nextGroup (str : P → Bytes) (m : Membership P) (frm : P) : Kind → Option (List (Bytes × Bool))
  | .member => if (protoOf str m).any (fun r => decide (r.1 = str frm)) then none else some (protoOf str m ++ [(str frm, false)])
  | .voter =>
    if frm ∉ m.all then none
    else if frm ∈ m.voting then none
    else some ((protoOf str m).map fun r => if r.1 = str frm then (r.1, true) else r)
  | .removal => if (protoOf str m).any (fun r => decide (r.1 = str frm)) then
      some ((protoOf str m).filter fun r => decide (r.1 ≠ str frm)) else none

/-- A replica in state `s`, `a` sends the request to `dst`: `Core::RaftRequestMembership` (enclave/core/core.cc:675-713), to every
peer; the host's `RequestVoting` (enclave/core/core.cc:267-283) and `Core::HandleHostRequestedRaftRemoval`
(enclave/core/core.cc:842-860), to the leader. -/
def MaySend (s : Node P) (a : Side D E) (dst : P) : Kind → Prop
  | .member => a.member = false ∧ dst ∈ s.membership.all ∧ dst ≠ s.me
  | .voter => a.member = true ∧ s.voting = false ∧ s.leader = some dst
  | .removal => a.member = true ∧ s.role ≠ .leader ∧ s.leader = some dst

/-- The membership requests among `l`. -/
def memberships (l : List Inner) : List Inner := l.filter fun i => match i with
  | .membership _ => true
  | _ => false

/-- A group of replicas and the requests under way: sender, receiver, request. -/
structure Town (P : Type) [LinearOrder P] (D E : Type) where
  G : Grid P D E
  mail : List (P × P × Kind)

/-- A step. `again` says whether a replica may join again when it is not in `RAFTSTATE_LOADED_PART_OF_GROUP`, as
`Core::HandleJoinRaft` (enclave/core/core.cc:487-517) permits: it drops its `Raft`, its database and its limits, and starts as a
replica that joins for the first time, with the same id. -/
inductive TNext (c : Site P D L E) (again : Bool) (X : Town P D E) : Town P D E → Prop
  /-- anything but a membership request -/
  | step (G' : Grid P D E) (h : GNext c X.G G') (hq : memberships G'.W.asked = memberships X.G.W.asked) :
    TNext c again X ⟨G', X.mail⟩
  | send (p dst : P) (s : Node P) (a : Side D E) (k : Kind) (hp : X.G.W.node p = some s) (hs : X.G.side p = some a)
    (h : MaySend s a dst k) : TNext c again X ⟨X.G, X.mail ++ [(p, dst, k)]⟩
  /-- a request arrives -/
  | serve (frm p : P) (k : Kind) (s s' : Node P) (a : Side D E) (g : List (Bytes × Bool)) (o : Obs P) (rand : Nat → Nat)
    (path : Nat → Bool) (hm : (frm, p, k) ∈ X.mail) (hp : X.G.W.node p = some s) (hs : X.G.side p = some a)
    (ha : a.member = true) (hg : nextGroup (c.str) s.membership frm k = some g)
    (hf : (Op.request (.membership g) : Op P).Fits s) (h : (Op.request (.membership g)).run (c.raft.env rand path) s = .ok (s', o)) :
    TNext c again X ⟨⟨X.G.W.put p s' (X.G.W.applied p ++ Obs.entries o) (Obs.messages p o) [.membership g], X.G.side, X.G.out⟩, X.mail⟩
  | rejoin (p q : P) (s so sq : Node P) (a b : Side D E) (rand : Nat → Nat) (path : Nat → Bool) (log : Log) (cfg : RaftCfg)
    (hag : again = true) (hp : X.G.W.node p = some so) (hb : X.G.side p = some b) (hm : b.member = false) (hpq : p ≠ q)
    (hq : X.G.W.node q = some sq) (hs : X.G.side q = some a) (ha : sq.lastApplied = sq.commit) (hqm : a.member = true)
    (hl : LogOf log (X.G.W.applied q)) (hby : Log.bytesOf c.raft.v.z log.entries ≤ log.curr) (hf : (X.G.W.applied q).length + 2 < SZ)
    (h : Node.new (c.raft.env rand path) c.raft.group p sq.mem log cfg true c.raft.sm = .ok s) :
    TNext c again X ⟨⟨X.G.W.put p s (X.G.W.applied q) [] [], setSide X.G.side p (Side.promote a.db a.limits log.lastIdx), X.G.out⟩, X.mail⟩

inductive TReach (c : Site P D L E) (again : Bool) : Town P D E → Prop
  | empty : TReach c again ⟨Grid.empty, []⟩
  | next {X Y : Town P D E} (h : TReach c again X) (k : TNext c again X Y) : TReach c again Y

/-- Without joining again, what `core.cc` does is part of what `Grid.lean` describes. -/
theorem TReach.grid {c : Site P D L E} {X : Town P D E} (h : TReach c false X) : GReachable c X.G := by
  induction h with
  | empty => exact .now
  | next _ k ih =>
    cases k with
    | step G' h hq => exact ih.next h
    | send => exact ih
    | serve frm p k s s' a g o rand path hm hp hs ha hg hf h =>
      exact ih.next (.call p s s' (.request (.membership g)) o rand path hp trivial hf h (by simp))
    | rejoin _ _ _ _ _ _ _ _ _ _ _ hag => cases hag

end Svr.Core
