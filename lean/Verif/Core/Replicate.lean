import Verif.Core.Apply
import Verif.Stream
import Verif.Raft.Chain
import Verif.Raft.Membership
import Verif.Spec.Serial

/-!
# Model of how a joining replica is given its state (`enclave/core/core.cc`)

A replica that joins asks a member for its state. The member sends its log and its database in a number of pushes, several of which
may be under way at a time, while it goes on applying newly committed entries; the joiner loads the rows, and applies those entries
that concern rows it has already been given. Modelled are the member's `HandleReplicateStateRequest` and `SendNextReplicationState`,
the joiner's `HandleReplicateStatePush` and `MaybeApplyLogToReplicatingDatabase`, and its `PromoteRaftToLoaded`.

Not modelled: metrics, logging, locks (each function runs under `raft_.mu`), serialization of rows and entries, and a joiner that is
told to join again while it is joining. The 64-bit counters are natural numbers.
-/

namespace Svr.Core
open Raft (Entry Inner Log Sizes LogErr MemErr Membership fromProto)

/-- What replication uses of a database besides `Proto` (enclave/db/db.h:46-173): `key` is `LogKey`, `rows` is `RowsAsProtos` (`none`
is an error), `load` is `LoadRowsFromProtos` (`none` is an error, for which every database returns the empty string as last key), and
`maxRow` is `MaxRowSerializedSize`. A row on the wire is a `PB`; that it parses again as what was serialized is C101. -/
structure Store (D L E PB : Type) extends Proto D L E where
  key : L → Bytes
  rows : D → Bytes → Nat → Out (Option (Bytes × List PB))
  load : D → List PB → Out (D × Option Bytes)
  maxRow : Nat

/-- `ReplicateStatePush` (enclave/proto/e2e.proto:161-179). A replica group is modelled as in `Membership.lean`. -/
structure Push (P PB : Type) where
  id : Nat
  seq : Nat
  first : Nat
  entries : List Entry
  toEnd : Bool
  rows : List PB
  mem : Option (List (Option P × Bool))
  limits : Minimums.Limits

/-- `ReplicationPushState` (enclave/core/core.h:76-95), without the parts that only serve to answer the joiner; `sent_response` is
`World.answer`. -/
structure PushState where
  logsFrom : Nat
  dbFrom : Bytes
  finished : Bool
  id : Nat
  seq : Nat

/-- The errors of this file. `rows` is an error of `RowsAsProtos`; `lost` stands for the errors of `SendE2ETransaction`: the message
could not be sent, or there was no response in time. -/
inductive RepErr
  | raftState | indexMismatch | noMembership | id | sequence | outOfOrder | serialization | invalid | rows | lost
  | mem (e : MemErr)
  | limits (e : Minimums.Err)
  | log (e : LogErr)
deriving DecidableEq

/-- Configuration (shared/proto/enclaveconfig.proto, `RaftConfig`) and sizes: `chunk` is `replication_chunk_bytes`, `pipeline` is
`replication_pipeline`, `size` is `ByteSizeLong` of a push. -/
structure RepCfg (P PB : Type) where
  z : Sizes
  chunk : Nat
  pipeline : Nat
  size : Push P PB → Nat

variable {P : Type} [LinearOrder P] {D L E PB : Type}

/-- The part of a loaded replica that replication reads: its log, database, limits and committed membership. `hist` is the list of the
entries it has applied to its database; the code has its length, `db_last_applied_log`. -/
structure Src (P D : Type) where
  log : Log
  hist : List Entry
  db : D
  limits : Minimums.Limits
  mem : Membership P

/-- The loop of `SendNextReplicationState` over log entries (enclave/core/core.cc:1278-1290), from the iterator's entry on: the entries
sent, and `at_commit_idx`. -/
def gather (z : Sizes) (applied chunk : Nat) : List Entry → Nat → Nat → List Entry × Bool
  | [], _, _ => ([], true)
  | e :: t, idx, size =>
    if idx > applied then ([], true)
    else if size + (z.bytes e + 1) ≥ chunk then ([e], false)
    else (e :: (gather z applied chunk t (idx + 1) (size + (z.bytes e + 1))).1,
      (gather z applied chunk t (idx + 1) (size + (z.bytes e + 1))).2)

/-- The rows of one push (enclave/core/core.cc:1297-1319): `none` is an error of `RowsAsProtos`; else the rows, the new cursor and
whether this is the end. `p` is the push so far. -/
def pushRows (c : RepCfg P PB) (st : Store D L E PB) (db : D) (ps : PushState) (atCommit : Bool) (p : Push P PB) :
    Out (Option (List PB × Bytes × Bool)) :=
  if atCommit = true ∧ c.size p < c.chunk then
    let n := (c.chunk - c.size p) / st.maxRow
    if n ≠ 0 then do
      match ← st.rows db ps.dbFrom n with
      | none => .ok none
      | some (k, rs) => .ok (some (rs, k, decide (rs.length < n)))
    else .ok (some ([], ps.dbFrom, false))
  else .ok (some ([], ps.dbFrom, false))

/-- `Core::SendNextReplicationState` (enclave/core/core.cc:1267-1328): the push state afterwards, and the push or an error. -/
def sendNext (c : RepCfg P PB) (st : Store D L E PB) (s : Src P D) (ps : PushState) :
    Out (PushState × Except RepErr (Push P PB)) := do
  Out.check (!ps.finished)
  let g := gather c.z s.hist.length c.chunk (s.log.entries.drop (s.log.pos ps.logsFrom)) (s.log.oldest + s.log.pos ps.logsFrom) 0
  let p : Push P PB := ⟨ps.id, ps.seq, ps.logsFrom, g.1, false, [], none, OMap.empty⟩
  match ← pushRows c st s.db ps g.2 p with
  | none => .ok ({ ps with seq := ps.seq + 1 }, .error .rows)
  | some (rs, k, fin) =>
    .ok (⟨ps.logsFrom + g.1.length, k, fin, ps.id, ps.seq + 1⟩,
      .ok { p with rows := rs, toEnd := fin, mem := some s.mem.asProto, limits := s.limits })

/-- `Loading` (enclave/core/internal.h:24-36) with the limits of the joiner's `minimums_`. -/
structure Load (P D : Type) where
  log : Log
  db : D
  mem : Option (Membership P)
  limits : Minimums.Limits
  id : Nat
  seq : Nat
  largest : Bytes

/-- `Core::MaybeApplyLogToReplicatingDatabase` (enclave/core/core.cc:1426-1445); `entry.data()` is empty unless it is set. -/
def Load.maybeApply (st : Store D L E PB) (j : Load P D) (e : Entry) : Out (Load P D × Option RepErr) :=
  match e.inner with
  | .data b =>
    if j.largest = [] ∨ b = [] then .ok (j, none)
    else match st.parse b with
      | none => .ok (j, some .serialization)
      | some l =>
        if j.largest < st.key l ∧ st.key l ≠ [] then .ok (j, none)
        else if st.valid l then do
          let (db, _) ← st.run j.db l
          .ok ({ j with db := db }, none)
        else .ok (j, some .invalid)
  | _ => .ok (j, none)

/-- The loop of `HandleReplicateStatePush` over log entries (enclave/core/core.cc:1402-1408). -/
def Load.entries (z : Sizes) (st : Store D L E PB) (j : Load P D) : List Entry → Out (Load P D × Option RepErr)
  | [] => .ok (j, none)
  | e :: t => do
    let (log, er) ← j.log.append z e j.log.lastIdx
    match er with
    | some x => .ok ({ j with log := log }, some (.log x))
    | none =>
      let (j, er) ← ({ j with log := log } : Load P D).maybeApply st e
      match er with
      | some x => .ok (j, some x)
      | none => j.entries z st t

/-- The rest of `HandleReplicateStatePush` (enclave/core/core.cc:1410-1422). The error of `LoadRowsFromProtos` is not looked at: it
comes with the empty string. -/
def Load.rows (st : Store D L E PB) (j : Load P D) (rs : List PB) : Out (Load P D × Option RepErr) :=
  if rs.length ≠ 0 then do
    let (db, r) ← st.load j.db rs
    let last := match r with | some k => k | none => []
    if last ≤ j.largest then .ok ({ j with db := db }, some .outOfOrder)
    else .ok ({ j with db := db, largest := last }, none)
  else .ok (j, none)

/-- `Core::HandleReplicateStatePush` (enclave/core/core.cc:1350-1423) in `RAFTSTATE_LOADING`. -/
def Load.push (z : Sizes) (st : Store D L E PB) (j : Load P D) (p : Push P PB) : Out (Load P D × Option RepErr) :=
  if j.log.nextIdx > 1 ∧ p.first ≠ j.log.nextIdx then .ok (j, some .indexMismatch)
  else match p.mem with
    | none => .ok (j, some .noMembership)
    | some g =>
      if p.id ≠ j.id then .ok (j, some .id)
      else if p.seq ≠ j.seq then .ok ({ j with seq := j.seq + 1 }, some .sequence)
      else match fromProto g with
        | .error e => .ok ({ j with seq := j.seq + 1, mem := none }, some (.mem e))
        | .ok m =>
          match Minimums.updateLimits j.limits p.limits with
          | .error e => .ok ({ j with seq := j.seq + 1, mem := some m }, some (.limits e))
          | .ok lim => do
            let log := if j.log.entries.length = 0 then (j.log.setNextIdx p.first).1 else j.log
            let (j, er) ← ({ j with seq := j.seq + 1, mem := some m, limits := lim, log := log } : Load P D).entries z st p.entries
            match er with
            | some x => .ok (j, some x)
            | none => j.rows st p.rows

/-- The joiner's state when it asks for replication (enclave/core/core.cc:578-590, 615-624): `id` is the random replication id, `m` and
`l` are what it got from the member it first asked. -/
def Load.start (st : Store D L E PB) (max id : Nat) (m : Membership P) (l : Minimums.Limits) : Load P D :=
  ⟨Log.new max, st.fresh, some m, l, id, 0, []⟩

/-- A member (`src`), a joiner (`load`) and what is between them. `seen` are the member's past states. `wire` are pushes under way, each
with the flag `last_sent_transaction` of the callback that waits for its response; `acks` are the responses under way, with the same
flag; `answer` is the response to the joiner's request, `some none` being success. `replica` is the joiner once promoted: its state
and the log and membership its `Raft` object is made from. -/
structure Rep (P D E PB : Type) where
  src : Src P D
  seen : List (Src P D)
  ps : Option PushState
  wire : List (Push P PB × Bool)
  acks : List (Option RepErr × Bool)
  answer : Option (Option RepErr)
  load : Load P D
  replica : Option (Side D E × Log × Option (Membership P))

/-- `SendNextReplicationState` with its effect on the wire (enclave/core/core.cc:1306-1312, 1321-1347). -/
def Rep.send (c : RepCfg P PB) (st : Store D L E PB) (w : Rep P D E PB) (ps : PushState) : Out (Rep P D E PB × PushState) := do
  let (ps', r) ← sendNext c st w.src ps
  match r with
  | .error e => .ok ({ w with ps := some ps', answer := some (w.answer.getD (some e)) }, ps')
  | .ok p => .ok ({ w with ps := some ps', wire := w.wire ++ [(p, ps'.finished)] }, ps')

/-- The loop of `HandleReplicateStateRequest` (enclave/core/core.cc:1260-1263). -/
def Rep.sendMany (c : RepCfg P PB) (st : Store D L E PB) : Nat → Rep P D E PB → PushState → Out (Rep P D E PB)
  | 0, w, _ => .ok w
  | n + 1, w, ps => if ps.finished then .ok w else do
    let (w, ps) ← w.send c st ps
    w.sendMany c st n ps

/-- `Core::HandleReplicateStateRequest` (enclave/core/core.cc:1234-1265) once its checks have passed. -/
def Rep.request (c : RepCfg P PB) (st : Store D L E PB) (w : Rep P D E PB) : Out (Rep P D E PB) :=
  let ps : PushState := ⟨w.src.log.oldestIdx, [], false, w.load.id, 0⟩
  ({ w with ps := some ps } : Rep P D E PB).sendMany c st c.pipeline ps

/-- The callback of `SendNextReplicationState` (enclave/core/core.cc:1329-1346). -/
def Rep.callback (c : RepCfg P PB) (st : Store D L E PB) (w : Rep P D E PB) (ps : PushState) (err : Option RepErr) (last : Bool) :
    Out (Rep P D E PB) :=
  match w.answer with
  | some _ => .ok w
  | none =>
    match err with
    | some e => .ok { w with answer := some (some e) }
    | none =>
      if last then .ok { w with answer := some none }
      else if !ps.finished then do
        let (w, _) ← w.send c st ps
        .ok w
      else .ok w

/-- The joiner handles the `i`th push under way (enclave/core/core.cc:1203-1205, 1228-1230, 1350-1423). A replica that no longer is in
`RAFTSTATE_LOADING` refuses it. -/
def Rep.deliver (c : RepCfg P PB) (st : Store D L E PB) (w : Rep P D E PB) (i : Nat) (x : Push P PB × Bool) : Out (Rep P D E PB) :=
  match w.replica with
  | some _ => .ok { w with wire := w.wire.eraseIdx i, acks := w.acks ++ [(some .raftState, x.2)] }
  | none => do
    let (j, er) ← w.load.push c.z st x.1
    .ok { w with wire := w.wire.eraseIdx i, acks := w.acks ++ [(er, x.2)], load := j }

/-- `Core::PromoteRaftToLoaded` (enclave/core/core.cc:649-671), when the answer is success (626-645). -/
def Rep.promote (w : Rep P D E PB) : Rep P D E PB :=
  { w with replica := some (Side.promote w.load.db w.load.limits w.load.log.lastIdx, w.load.log, w.load.mem) }

/-- What is known of a loaded replica at any time: its log is a window of a history that the applied entries begin, and still has the
last applied entry; its database is the result of applying them. `Props/Replicate.lean` proves it for the replicas of `Grid.lean`. -/
structure Src.Ok (st : Store D L E PB) (s : Src P D) : Prop where
  log : ∃ F, Raft.LogOf s.log F ∧ s.hist <+: F
  kept : s.log.oldest ≤ s.hist.length
  db : ∃ rs, Spec.Serial st.toProto st.fresh s.hist s.db rs
  mem : fromProto s.mem.asProto = .ok s.mem

/-- What may be assumed about a run. `ordered`: the member handles the responses to its pushes in the order in which they were given.
`kept`: whenever the member sends a push its log still has the entry where the previous push ended. -/
structure Rules where
  ordered : Bool
  kept : Bool

/-- What happens next. -/
inductive Rep.Next (ru : Rules) (c : RepCfg P PB) (st : Store D L E PB) (w : Rep P D E PB) : Rep P D E PB → Prop
  /-- the member goes on: it may append to its log, remove entries from its log, and apply entries to its database -/
  | grow (s : Src P D) (ok : s.Ok st) (h : w.src.hist <+: s.hist) : Next ru c st w { w with src := s, seen := s :: w.seen }
  /-- the request reaches the member -/
  | request (w') (hp : w.ps = none) (h : w.request c st = .ok w') : Next ru c st w w'
  /-- the joiner handles a push, any of those under way -/
  | deliver (i : Nat) (x) (w') (hx : w.wire[i]? = some x) (h : w.deliver c st i x = .ok w') :
    Next ru c st w w'
  /-- the member handles a response -/
  | ack (i : Nat) (x) (ps) (w') (hi : ru.ordered = true → i = 0) (hx : w.acks[i]? = some x) (hp : w.ps = some ps)
    (hk : ru.kept = true → ps.finished = false → w.src.log.oldest ≤ ps.logsFrom)
    (h : ({ w with acks := w.acks.eraseIdx i } : Rep P D E PB).callback c st ps x.1 x.2 = .ok w') : Next ru c st w w'
  /-- a push could not be sent, or its response did not come in time -/
  | lost (ps) (w') (last : Bool) (hp : w.ps = some ps) (h : w.callback c st ps (some .lost) last = .ok w') : Next ru c st w w'
  /-- the joiner handles the answer to its request -/
  | promote (h : w.answer = some none) (hr : w.replica = none) : Next ru c st w w.promote

/-- The beginning. -/
def Rep.start (st : Store D L E PB) (s : Src P D) (max id : Nat) (m : Membership P) (l : Minimums.Limits) : Rep P D E PB :=
  ⟨s, [s], none, [], [], none, Load.start st max id m l, none⟩

/-- Everything that can be reached. -/
inductive Rep.Run (ru : Rules) (c : RepCfg P PB) (st : Store D L E PB) : Rep P D E PB → Prop
  | start (s : Src P D) (ok : s.Ok st) (max id : Nat) (m : Membership P) (l : Minimums.Limits) : Run ru c st (Rep.start st s max id m l)
  | next {w w'} (h : Run ru c st w) (k : Rep.Next ru c st w w') : Run ru c st w'

end Svr.Core
