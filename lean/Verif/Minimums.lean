import Verif.Bytes
import Verif.OMap

/-!
# Model of `enclave/minimums/minimums.cc` and of how `core.cc` applies minimums updates

`MinimumLimits` and `MinimumValues` are protobuf maps from strings to bytes; here `OMap Bytes Bytes`. The
protobuf map is unordered: the order of iteration only decides which of several errors is reported.
`std::string` comparison is byte-wise unsigned lexicographic, which is the order of `Bytes` here.
-/

namespace Svr.Minimums

abbrev Limits := OMap Bytes Bytes
abbrev Values := OMap Bytes Bytes

inductive Err | keyMissing | entryEmpty | keyEmpty | limitDecreased | sizeMismatch | valueTooLow | valueSize
deriving DecidableEq

/-- Body of the second loop of `UpdateLimits` (enclave/minimums/minimums.cc:20-38). -/
def checkEntry (s : Limits) (p : Bytes × Bytes) : Option Err :=
  if p.2.length = 0 then some .entryEmpty
  else if p.1 = [] then some .keyEmpty
  else match s.find p.1 with
    | none => none
    | some v_old =>
      if v_old > p.2 then some .limitDecreased
      else if v_old.length ≠ p.2.length then some .sizeMismatch
      else none

/-- `Minimums::UpdateLimits` (enclave/minimums/minimums.cc:11-47): the new limits, or the error. -/
def updateLimits (s u : Limits) : Except Err Limits :=
  if s.list.any (fun p => decide (u.find p.1 = none)) then .error .keyMissing
  else match u.list.findSome? (checkEntry s) with
    | some e => .error e
    | none => .ok u

/-- `Minimums::CheckValueAgainstSet` (enclave/minimums/minimums.cc:67-79). -/
def checkValueAgainstSet (s : Limits) (p : Bytes × Bytes) : Option Err :=
  match s.find p.1 with
  | none => none
  | some limit =>
    if p.2 < limit then some .valueTooLow
    else if p.2.length ≠ limit.length then some .valueSize
    else none

/-- `Minimums::CheckValues`, `CheckValuesAgainstSet` (enclave/minimums/minimums.cc:55-65). -/
def checkValues (s : Limits) (v : Values) : Option Err := v.list.findSome? (checkValueAgainstSet s)

/-- `Minimums::CombineValues` (enclave/minimums/minimums.cc:81-88): `from` into `into`. -/
def combineValues (frm into : Values) : Values :=
  frm.list.foldl (fun acc p =>
    match acc.find p.1 with
    | none => acc.insert p.1 p.2
    | some w => if w > p.2 then acc.insert p.1 p.2 else acc) into

/-! ## Updates through the log -/

/-- Minimums entries in the group's log, and for each replica how many of them it has applied and its limits.
Other log entries do not matter here. -/
structure Group where
  log : List Limits
  reps : List (Nat × Limits)

/-- `Core::HandleRaftMinimumsChange` (enclave/core/core.cc:1859-1867): a failing update is a failing `CHECK`.
The peer and attestation refreshes that follow (1868-1884) do not touch the limits. -/
def applyCommitted (s u : Limits) : Out Limits :=
  match updateLimits s u with
  | .ok s' => .ok s'
  | .error _ => .abort

inductive Ev
  /-- A host asks replica `r` for an update; `peersOk` is the answer of `CheckPeerMinimums`. -/
  | request (r : Nat) (u : Limits) (peersOk : Bool)
  /-- Replica `r` applies its next committed minimums entry. -/
  | apply (r : Nat)

/-- One event. `request` is `Core::HandleUpdateMinimums` (enclave/core/core.cc:885-911): the update is tried on
a copy of the replica's current limits, then goes to the log, through the leader, which does not look at it
again (`HandleRaftWrite`, enclave/core/core.cc:1506-1526). Simplified: the entry enters the log at once and the log
is never truncated on a leader change; requests that do not reach the log are requests that do not occur. -/
def step (g : Group) : Ev → Out Group
  | .request r u peersOk =>
    match g.reps[r]? with
    | none => .ok g
    | some (_, s) =>
      match updateLimits s u with
      | .error _ => .ok g
      | .ok _ => if peersOk then .ok { g with log := g.log ++ [u] } else .ok g
  | .apply r =>
    match g.reps[r]? with
    | none => .ok g
    | some (n, s) =>
      match g.log[n]? with
      | none => .ok g
      | some u => do
        let s' ← applyCommitted s u
        pure { g with reps := g.reps.set r (n + 1, s') }

def run (g : Group) : List Ev → Out Group
  | [] => .ok g
  | e :: es => do let g' ← step g e; run g' es

/-- `n` replicas that share the limits `s`. -/
def initGroup (n : Nat) (s : Limits) : Group := { log := [], reps := List.replicate n (0, s) }

end Svr.Minimums
