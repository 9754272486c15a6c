import Verif.Bytes
import Verif.Keyed
import Verif.Stream

/-!
# Model of the SVR2 database (`enclave/db/db2.{h,cc}`)
-/

namespace Svr

/-- Hash primitives used by the databases, as parameters.
`sip16` is `sip::FullZero.Hash16` (enclave/sip/hasher.h), `sha256` is libsodium's SHA-256. -/
structure Prims where
  sip16 : Bytes → Bytes
  sha256 : Bytes → Bytes

/-- `merkle::HashFrom` (enclave/merkle/merkle.h:155-160): the first `MERKLE_HASH_SIZE`=8 bytes.
The `CHECK(in.size() >= out.size())` holds statically, the argument is a 16 byte array. -/
def hashFrom (h : Bytes) : Bytes := h.take 8

namespace DB2

/-- enclave/db/db2.h:65-70 -/
abbrev BACKUP_ID_SIZE : Nat := 16
abbrev MIN_DATA_SIZE : Nat := 16
abbrev MAX_DATA_SIZE : Nat := 48
abbrev PIN_SIZE : Nat := 32
abbrev MAX_ALLOWED_MAX_TRIES : Nat := 255
abbrev MIN_ALLOWED_MAX_TRIES : Nat := 1

/-- `e2e::DB2RowState::State` (enclave/proto/e2e.proto:90-94). A proto3 enum is open, so a received
row can carry any 32-bit number; hence a number, not an inductive type. -/
abbrev State := UInt32
def UNINITIATED : State := 0
def POPULATED : State := 1
def AVAILABLE : State := 2

/-- `DB2::Row` (enclave/db/db2.h:96-110). `leaf` is the value of `merkle_leaf_.hash()`, the hash the
integrity tree keeps for this row; the tree itself is modelled in `Merkle.lean`. -/
structure Row where
  state : State
  tries : UInt8
  dataSize : UInt8
  data : Bytes   -- std::array<uint8_t, 48>
  pin : Bytes    -- std::array<uint8_t, 32>
  leaf : Bytes
deriving DecidableEq, Repr

/-- `client::Request` (shared/proto/client.proto:25-33); `unset` is `INNER_NOT_SET`.
`max_tries` is a `uint32`. -/
inductive Req where
  | backup (data pin : Bytes) (maxTries : UInt32)
  | restore (pin : Bytes)
  | delete
  | expose (data : Bytes)
  | tries
  | unset
deriving DecidableEq, Repr

/-- `client::Log2` (enclave/proto/clientlog.proto:15-18). -/
structure Log where
  id : Bytes
  req : Req
deriving DecidableEq, Repr

inductive RestoreStatus | ok | missing | pinMismatch | error
deriving DecidableEq, Repr

/-- `client::Response` (shared/proto/client.proto:35-134). -/
inductive Resp where
  | backup                                                       -- status OK
  | restore (status : RestoreStatus) (data : Bytes) (tries : Nat)
  | delete
  | expose (ok : Bool)                                           -- OK / ERROR
  | tries (ok : Bool) (tries : Nat) (exposed : Bool)             -- OK / MISSING
  | empty
deriving DecidableEq, Repr

/-- Errors returned by `ValidateClientLog`, `LoadRowsFromProtos`, `RowsAsProtos`. -/
inductive Err
  | backupIDSize | pinSize | dataSize | triesTooHigh | triesZero | requestCase
  | invalidRow | outOfOrder | alreadyInDB
deriving DecidableEq, Repr

/-- `DB2::rows_`. -/
abbrev DB := OMap Bytes Row

def empty : DB := OMap.empty

/-- `DB2::Protocol::ValidateClientLog` (enclave/db/db2.cc:70-102); `none` is `error::OK`.
The `dynamic_cast` failure is not modelled: the log is typed. -/
def validate (log : Log) : Option Err :=
  if log.id.length ≠ BACKUP_ID_SIZE then some .backupIDSize
  else match log.req with
  | .backup data pin maxTries =>
    if pin.length ≠ PIN_SIZE then some .pinSize
    else if data.length > MAX_DATA_SIZE then some .dataSize
    else if data.length < MIN_DATA_SIZE then some .dataSize
    else if maxTries.toNat > MAX_ALLOWED_MAX_TRIES then some .triesTooHigh
    else if maxTries.toNat < MIN_ALLOWED_MAX_TRIES then some .triesZero
    else none
  | .restore pin => if pin.length ≠ PIN_SIZE then some .pinSize else none
  | .expose data =>
    if data.length > MAX_DATA_SIZE then some .dataSize
    else if data.length < MIN_DATA_SIZE then some .dataSize
    else none
  | .tries => none
  | .delete => none
  | .unset => some .requestCase

/-- `DB2::ClientState::LogFromRequest` (enclave/db/db2.cc:48-62). -/
def logFromRequest (authenticatedId : Bytes) (req : Req) : Except Err Log :=
  if authenticatedId.length ≠ BACKUP_ID_SIZE then .error .backupIDSize
  else .ok ⟨authenticatedId, req⟩

/-- The buffer hashed by `DB2::HashRow` (enclave/db/db2.cc:378-394). The two `memcpy`s of
`row.data_size` bytes stay inside their 48 byte arrays only if `data_size ≤ 48`; otherwise this is
undefined behaviour. -/
def rowBytes (id : Bytes) (r : Row) : Out Bytes :=
  if r.dataSize.toNat > MAX_DATA_SIZE then .ub
  else .ok (id ++ be32 r.state.toNat ++ be32 r.tries.toNat ++ be32 r.dataSize.toNat
    ++ padTo MAX_DATA_SIZE (r.data.take r.dataSize.toNat) ++ r.pin)

/-- `DB2::HashRow` (enclave/db/db2.cc:378-397). -/
def hashRow (P : Prims) (id : Bytes) (r : Row) : Out Bytes := do
  let b ← rowBytes id r
  pure (P.sip16 b)

/-- `row->merkle_leaf_.Update(merkle::HashFrom(HashRow(id, *row)))`. -/
def updateLeaf (P : Prims) (id : Bytes) (r : Row) : Out Row := do
  let h ← hashRow P id r
  pure { r with leaf := hashFrom h }

/-- `row->merkle_leaf_.Verify(merkle::HashFrom(HashRow(id, *row)))`, `true` is `error::OK`
(enclave/merkle/merkle.cc:153-165). `path` is the outcome of the walk from the leaf's parent to the
root; `Merkle.lean` shows that it succeeds when nobody tampers with the tree. -/
def verify (P : Prims) (path : Bytes → Bool) (id : Bytes) (r : Row) : Out Bool := do
  let h ← hashRow P id r
  pure (ctEq (hashFrom h) r.leaf && path id)

/-- `DB2::Row::Row` (enclave/db/db2.cc:316); a new leaf's slot holds the zero hash. -/
def newRow : Row := ⟨UNINITIATED, 0, 0, zeros MAX_DATA_SIZE, zeros PIN_SIZE, zeros 8⟩

/-- `DB2::Row::Clear` (enclave/db/db2.cc:151-157). -/
def Row.clear (r : Row) (s : State) : Row :=
  { r with data := zeros MAX_DATA_SIZE, pin := zeros PIN_SIZE, tries := 0, dataSize := 0, state := s }

/-- `std::copy(s.begin(), s.end(), arr.begin())` into an array of `n` bytes: overflow is undefined
behaviour, shorter input leaves the tail. -/
def copyInto (n : Nat) (arr s : Bytes) : Out Bytes :=
  if s.length > n then .ub else .ok (s ++ arr.drop s.length)

/-- `DB2::Backup` (enclave/db/db2.cc:159-178). `row->tries = req.max_tries()` truncates to 8 bits. -/
def backup (P : Prims) (db : DB) (id data pin : Bytes) (maxTries : UInt32) : Out (DB × Resp) := do
  let row0 := (db.find id).getD newRow
  let row1 := row0.clear POPULATED
  let d ← copyInto MAX_DATA_SIZE row1.data data
  let p ← copyInto PIN_SIZE row1.pin pin
  let row2 := { row1 with data := d, dataSize := UInt8.ofNat data.length, tries := maxTries.toUInt8, pin := p }
  let row3 ← updateLeaf P id row2
  pure (db.insert id row3, .backup)

/-- `DB2::Restore` (enclave/db/db2.cc:180-215). -/
def restore (P : Prims) (path : Bytes → Bool) (db : DB) (id pin : Bytes) : Out (DB × Resp) :=
  match db.find id with
  | none => .ok (db, .restore .missing [] 0)
  | some row =>
    if row.state ≠ AVAILABLE then .ok (db, .restore .missing [] 0)
    else do
      if !(← verify P path id row) then
        pure (db, .restore .error [] 0)
      else if ctEq pin row.pin then
        pure (db, .restore .ok (row.data.take row.dataSize.toNat) row.tries.toNat)
      else
        let row1 := { row with tries := row.tries - 1 }
        if row1.tries = 0 then
          pure (db.erase id, .restore .missing [] 0)
        else do
          let row2 ← updateLeaf P id row1
          pure (db.insert id row2, .restore .pinMismatch [] row2.tries.toNat)

/-- `DB2::Delete` (enclave/db/db2.cc:217-225). -/
def delete (db : DB) (id : Bytes) : Out (DB × Resp) :=
  match db.find id with
  | none => .ok (db, .delete)
  | some _ => .ok (db.erase id, .delete)

/-- `DB2::Expose` (enclave/db/db2.cc:227-273). -/
def expose (P : Prims) (path : Bytes → Bool) (db : DB) (id data : Bytes) : Out (DB × Resp) :=
  match db.find id with
  | none => .ok (db, .expose false)
  | some row => do
    if !(← verify P path id row) then pure (db, .expose false)
    else if !ctEqPrefix row.data data row.dataSize.toNat then pure (db, .expose false)
    else if row.state = POPULATED ∨ row.state = AVAILABLE then do
      let row1 ← updateLeaf P id { row with state := AVAILABLE }
      pure (db.insert id row1, .expose true)
    else pure (db, .expose false)

/-- `DB2::Tries` (enclave/db/db2.cc:275-285). -/
def triesReq (db : DB) (id : Bytes) : Out (DB × Resp) :=
  match db.find id with
  | none => .ok (db, .tries false 0 false)
  | some row => .ok (db, .tries true row.tries.toNat (row.state == AVAILABLE))

/-- `DB2::Run` (enclave/db/db2.cc:112-149). -/
def run (P : Prims) (path : Bytes → Bool) (db : DB) (log : Log) : Out (DB × Resp) := do
  Out.check (validate log == none)
  Out.check (log.id.length == BACKUP_ID_SIZE)
  match log.req with
  | .backup data pin maxTries => backup P db log.id data pin maxTries
  | .restore pin => restore P path db log.id pin
  | .delete => delete db log.id
  | .expose data => expose P path db log.id data
  | .tries => triesReq db log.id
  | .unset => pure (db, .empty)

/-- Apply a history of entries, collecting the responses. -/
def runAll (P : Prims) (path : Bytes → Bool) : DB → List Log → Out (DB × List Resp)
  | db, [] => .ok (db, [])
  | db, l :: ls => do
    let (db1, r) ← run P path db l
    let (db2, rs) ← runAll P path db1 ls
    pure (db2, r :: rs)

/-! ### Replication -/

/-- `e2e::DB2RowState` (enclave/proto/e2e.proto:85-96). -/
structure RowPB where
  id : Bytes
  tries : UInt32
  data : Bytes
  pin : Bytes
  state : State
deriving DecidableEq, Repr

/-- `DB2::BackupIDFromString` (enclave/db/db2.cc:369-376). -/
def backupIDFromString (s : Bytes) : Option Bytes := if s.length ≠ BACKUP_ID_SIZE then none else some s

/-- One row as written by `RowsAsProtos` (enclave/db/db2.cc:300-306). -/
def rowToPB (id : Bytes) (r : Row) : RowPB :=
  ⟨id, r.tries.toUInt32, r.data.take r.dataSize.toNat, r.pin, r.state⟩

/-- `DB2::RowsAsProtos` (enclave/db/db2.cc:287-314); the last key sent and the rows. Serialisation of
a message in memory is assumed to succeed. -/
def rowsAsProtos (db : DB) (exclusiveStart : Bytes) (size : Nat) : Except Err (Bytes × List RowPB) :=
  if exclusiveStart.isEmpty then
    let rows := db.list.take size
    .ok (lastKeyOf rows, rows.map (fun p => rowToPB p.1 p.2))
  else match backupIDFromString exclusiveStart with
  | none => .error .backupIDSize
  | some id =>
    let rows := (db.upperBound id).take size
    .ok (lastKeyOf rows, rows.map (fun p => rowToPB p.1 p.2))

/-- Loop body of `DB2::LoadRowsFromProtos` (enclave/db/db2.cc:323-360). `none` is a string that does
not parse. -/
def loadRow (P : Prims) (db : DB) (pb : Option RowPB) : Out (DB × Option Err) :=
  match pb with
  | none => .ok (db, some .invalidRow)
  | some row =>
    if row.tries.toNat > MAX_ALLOWED_MAX_TRIES ∨ row.tries.toNat = 0 ∨ row.pin.length ≠ PIN_SIZE ∨
       row.data.length < MIN_DATA_SIZE ∨ row.data.length > MAX_DATA_SIZE then .ok (db, some .invalidRow)
    else match backupIDFromString row.id with
    | none => .ok (db, some .backupIDSize)
    | some key =>
      if db.outOfOrder key then .ok (db, some .outOfOrder)
      else do
        let p ← copyInto PIN_SIZE newRow.pin row.pin
        let d ← copyInto MAX_DATA_SIZE newRow.data row.data
        let r ← updateLeaf P key
          { newRow with state := row.state, pin := p, data := d, dataSize := UInt8.ofNat row.data.length,
                        tries := row.tries.toUInt8 }
        pure (db.insert key r, none)

/-- The loop of `LoadRowsFromProtos` (enclave/db/db2.cc:323-360): stops at the first error, keeping the
rows loaded so far. -/
def loadLoop (P : Prims) : DB → List (Option RowPB) → Out (DB × Option Err) := loadLoopG (loadRow P)

/-- The id of the last parsed row, `row->backup_id()` after the loop. -/
def lastId (rows : List (Option RowPB)) : Bytes :=
  match rows.getLast? with
  | some (some r) => r.id
  | _ => []

/-- `DB2::LoadRowsFromProtos` (enclave/db/db2.cc:318-367). -/
def loadRows (P : Prims) (db : DB) (rows : List (Option RowPB)) : Out (DB × Except Err Bytes) := do
  Out.check (rows.length != 0)
  let (db1, e) ← loadLoop P db rows
  match e with
  | some e => pure (db1, .error e)
  | none =>
    if db1.size ≠ db.size + rows.length then pure (db1, .error .alreadyInDB)
    else pure (db1, .ok (lastId rows))

/-- Concatenated row hashes, as fed to SHA-256 by `DB2::Hash`. -/
def hashRows (P : Prims) : List (Bytes × Row) → Out Bytes
  | [] => .ok []
  | (id, r) :: t => do
    let h ← hashRow P id r
    let rest ← hashRows P t
    pure (h ++ rest)

/-- The bytes fed to SHA-256 by `DB2::Hash` (enclave/db/db2.cc:399-411). -/
def hashInput (P : Prims) (db : DB) : Out Bytes := do
  let hs ← hashRows P db.list
  pure (be64 db.size ++ hs)

/-- `DB2::Hash` (enclave/db/db2.cc:399-413). -/
def hash (P : Prims) (db : DB) : Out Bytes := do
  let x ← hashInput P db
  pure (P.sha256 x)

end DB2
end Svr
