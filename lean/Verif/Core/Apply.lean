import Verif.Bytes
import Verif.OMap
import Verif.Minimums
import Verif.Raft.Node

/-!
# Model of how `enclave/core/core.cc` applies committed log entries

The part of `Core` that belongs to one loaded replica besides its `Raft` object: the database, the index of the last applied
entry with its integrity leaf, the membership flag, the limits, and the completion handlers waiting for log entries.
Not modelled here: metrics, logging, locks (every function below runs under `raft_.mu`), the group time update after a
membership change (`GroupClock.lean`) and the refresh of peers and client attestations after a change of limits.
-/

namespace Svr.Core
open Raft (Entry Inner)

/-- What `core.cc` uses of a database (enclave/db/db.h:112-145): `fresh` is `NewDB`, `parse` is `LogPB` with
`ParseFromString`, `valid` is `ValidateClientLog` returning OK, `run` is `Run`. -/
structure Proto (D L E : Type) where
  fresh : D
  parse : Bytes → Option L
  valid : L → Bool
  run : D → L → Out (D × E)

/-- `Core::LogTransaction` (enclave/core/core.h); `who` stands for the callback. -/
structure LogTx where
  term : Nat
  hash : Bytes
  who : Nat
deriving DecidableEq, Repr

/-- What a completion handler is called with. -/
inductive Done (E : Type)
  | success (e : Entry) (eff : Option E)   -- error::OK, &entry, response
  | cancelled                              -- Core_LogTransactionCancelled
  | badHash                                -- Core_InvalidLogTransactionHashChain
  | removed                                -- Core_RemovedFromRaft
deriving DecidableEq

/-- The loaded replica without its `Raft` object (enclave/core/internal.h, `Loaded`). `member` tells
`RAFTSTATE_LOADED_PART_OF_GROUP` from `RAFTSTATE_LOADED_REQUESTING_MEMBERSHIP`. `txs` is the multimap
`outstanding_log_transactions_`, in its order. `done` and `effects` record what happened. -/
structure Side (D E : Type) where
  db : D
  last : Nat
  leaf : Bytes
  member : Bool
  limits : Minimums.Limits
  txs : List (Nat × LogTx)
  done : List (Nat × Done E)
  effects : List (Nat × Option E)

variable {D L E : Type}

/-- `std::multimap::emplace`: after the elements with keys up to this one. -/
def insertTx (idx : Nat) (t : LogTx) : List (Nat × LogTx) → List (Nat × LogTx)
  | [] => [(idx, t)]
  | x :: l => if x.1 ≤ idx then x :: insertTx idx t l else (idx, t) :: x :: l

/-- `Core::AddLogTransaction` (enclave/core/core.cc:1609-1617). -/
def Side.add (s : Side D E) (idx : Nat) (t : LogTx) : Side D E := { s with txs := insertTx idx t s.txs }

/-- `Core::RaftApplyLogToDatabase` (enclave/core/core.cc:1887-1902). -/
def applyDb (pr : Proto D L E) (db : D) (data : Bytes) : Out (D × Option E) :=
  match pr.parse data with
  | none => .ok (db, none)
  | some l =>
    if pr.valid l then do
      let (db, e) ← pr.run db l
      .ok (db, some e)
    else .ok (db, none)

/-- `ContainsMe` (enclave/core/core.cc:87-95); `me` is the replica's id as a string. -/
def containsMe (me : Bytes) (g : List (Bytes × Bool)) : Bool := g.any fun r => decide (r.1 = me)

/-- `Core::HandleRaftMembershipChange` (enclave/core/core.cc:1825-1857). -/
def Side.membershipChange (me : Bytes) (s : Side D E) (g : List (Bytes × Bool)) : Side D E :=
  if s.member then
    if containsMe me g then s
    else { s with member := false, txs := [], done := s.done ++ s.txs.map fun t => (t.2.who, .removed) }
  else if containsMe me g then { s with member := true }
  else s

/-- What `Core::HandleLogTransactionsForRaftLog` tells one handler (enclave/core/core.cc:1915-1926). -/
def verdict (e : Entry) (eff : Option E) (t : LogTx) : Done E :=
  if t.term ≠ e.term then .cancelled
  else if t.hash.length > 0 ∧ ¬ ctEq t.hash e.hash then .badHash
  else .success e eff

/-- `Core::HandleLogTransactionsForRaftLog` (enclave/core/core.cc:1904-1928). -/
def Side.settle (s : Side D E) (idx : Nat) (e : Entry) (eff : Option E) : Side D E :=
  { s with
    txs := s.txs.filter (fun t => t.1 ≠ idx)
    done := s.done ++ (s.txs.filter (fun t => t.1 = idx)).map fun t => (t.2.who, verdict e eff t.2) }

/-- The `switch` of `Core::RaftHandleCommittedLogs` (enclave/core/core.cc:1803-1818); `pm` is the parser of
`MinimumLimits`. -/
def Side.inner (pr : Proto D L E) (pm : Bytes → Option Minimums.Limits) (me : Bytes) (s : Side D E) :
    Inner → Out (Side D E × Option E)
  | .membership g => .ok (s.membershipChange me g, none)
  | .data b => do
    let (db, eff) ← applyDb pr s.db b
    .ok ({ s with db := db }, eff)
  | .minimums b =>
    match pm b with
    | none => .abort
    | some u => do
      let l ← Minimums.applyCommitted s.limits u
      .ok ({ s with limits := l }, none)
  | .notSet => .ok (s, none)

/-- One turn of the loop of `Core::RaftHandleCommittedLogs` (enclave/core/core.cc:1794-1821) for the entry that
`TakeCommittedLog` returned; with `Loaded::VerifyLastAppliedLog` and `Loaded::UpdateLastAppliedLog`
(enclave/core/core.cc:1976-1993). `path` is the outcome of the walk from the leaf to the root of the integrity tree. -/
def Side.take (pr : Proto D L E) (pm : Bytes → Option Minimums.Limits) (me : Bytes) (path : Bool) (s : Side D E)
    (idx : Nat) (e : Entry) : Out (Side D E) := do
  Out.check (ctEq (be64 s.last) s.leaf && path)
  let (s, eff) ← ({ s with last := idx, leaf := be64 idx } : Side D E).inner pr pm me e.inner
  .ok { s.settle idx e eff with effects := s.effects ++ [(idx, eff)] }

/-- The replica in `Core::HandleCreateNewRaftGroupRequest` (enclave/core/core.cc:463-480). -/
def Side.create (pr : Proto D L E) : Side D E := ⟨pr.fresh, 0, be64 0, true, OMap.empty, [], [], []⟩

/-- The replica in `Core::PromoteRaftToLoaded` (enclave/core/core.cc:649-671), with the replicated database and limits, of a
replica that was not loaded before: only a loaded replica registers completion handlers. -/
def Side.promote (db : D) (limits : Minimums.Limits) (last : Nat) : Side D E :=
  ⟨db, last, be64 last, false, limits, [], [], []⟩

/-- What happens to a loaded replica, as far as completion handlers are concerned. -/
inductive Ev
  /-- `AddLogTransaction`, with the location returned by this replica's or the leader's `LogRequest` -/
  | add (idx : Nat) (t : LogTx)
  /-- one turn of the loop over committed entries -/
  | take (path : Bool) (idx : Nat) (e : Entry)

def Side.step (pr : Proto D L E) (pm : Bytes → Option Minimums.Limits) (me : Bytes) (s : Side D E) : Ev → Out (Side D E)
  | .add idx t => .ok (s.add idx t)
  | .take path idx e => s.take pr pm me path idx e

def Side.run (pr : Proto D L E) (pm : Bytes → Option Minimums.Limits) (me : Bytes) (s : Side D E) : List Ev → Out (Side D E)
  | [] => .ok s
  | ev :: evs => do
    let s ← s.step pr pm me ev
    s.run pr pm me evs

end Svr.Core
