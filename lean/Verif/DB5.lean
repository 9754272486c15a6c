import Verif.DB2
import Verif.Sim

/-!
# Model of the SVR5 database (`enclave/db/db5.{h,cc}`)
-/

namespace Svr.DB5

/-- Primitives: row/database hash, and `hmac::HmacSha256(key, message)`. -/
structure Prims5 extends Prims where
  hmac : Bytes → Bytes → Bytes

/-- enclave/db/db5.h:65-67. -/
abbrev BACKUP_ID_SIZE : Nat := 16
abbrev DATA_SIZE : Nat := 32
abbrev PASSWORD_SIZE : Nat := 32

/-- `client::Request5`. -/
inductive Req where
  | upload (data : Bytes)
  | download (password : Bytes)
  | purge
  | unset
deriving DecidableEq, Repr

/-- `client::Log5` (enclave/proto/clientlog.proto:36-39). -/
structure Log where
  id : Bytes
  req : Req
deriving DecidableEq, Repr

inductive Status | unset | ok | missing | merkleFailure
deriving DecidableEq, Repr

/-- `client::Response5`. -/
inductive Resp where
  | upload (status : Status)
  | download (status : Status) (output : Bytes)
  | purge
  | none
deriving DecidableEq, Repr

/-- `DB5::Row` (enclave/db/db5.h:93-101); `leaf` as in `DB2.Row`. -/
structure Row where
  data : Bytes   -- std::array<uint8_t, 32>
  leaf : Bytes
deriving DecidableEq, Repr

abbrev DB := OMap Bytes Row
def empty : DB := OMap.empty

inductive Err
  | clientBackupIDSize | clientDataSize | clientPasswordSize | clientRequestCase
  | backupIDSize | invalidRow | outOfOrder | alreadyInDB
deriving DecidableEq, Repr

/-- `DB5::Protocol::ValidateClientLog` (enclave/db/db5.cc:68-90); `none` is `error::OK`. -/
def validate (log : Log) : Option Err :=
  if log.id.length ≠ BACKUP_ID_SIZE then some .clientBackupIDSize
  else match log.req with
  | .upload d => if d.length ≠ DATA_SIZE then some .clientDataSize else none
  | .download p => if p.length ≠ PASSWORD_SIZE then some .clientPasswordSize else none
  | .purge => none
  | .unset => some .clientRequestCase

/-- `DB5::ClientState::LogFromRequest` (enclave/db/db5.cc:46-60). -/
def logFromRequest (authenticatedId : Bytes) (req : Req) : Except Err Log :=
  if authenticatedId.length ≠ BACKUP_ID_SIZE then .error .clientBackupIDSize
  else .ok ⟨authenticatedId, req⟩

/-- The 48 bytes hashed by `DB5::HashRow` (enclave/db/db5.cc:266-277). -/
def rowRaw (id : Bytes) (r : Row) : Bytes := id ++ r.data

/-- `row.merkle_leaf_.Update(merkle::HashFrom(HashRow(id, row)))`. -/
def updateLeaf (P : Prims5) (id : Bytes) (r : Row) : Row := { r with leaf := hashFrom (P.sip16 (rowRaw id r)) }

/-- `row->merkle_leaf_.Verify(...) == error::OK`; `path` as in `DB2.verify`. -/
def verify (P : Prims5) (path : Bytes → Bool) (id : Bytes) (r : Row) : Bool :=
  ctEq (hashFrom (P.sip16 (rowRaw id r))) r.leaf && path id

/-- `DB5::Row::Row(tree)` (enclave/db/db5.cc:198). -/
def newRow : Row := ⟨zeros 32, zeros 8⟩

/-- `std::copy(s.begin(), s.end(), a.begin())` into a 32-byte array: overruns it when longer. -/
def copyData (r : Row) (s : Bytes) : Out Row :=
  if s.length > 32 then .ub else .ok { r with data := s ++ r.data.drop s.length }

/-- `DB5::Upload` (enclave/db/db5.cc:131-145). -/
def upload (P : Prims5) (db : DB) (id data : Bytes) : Out (DB × Resp) := do
  let row := match db.find id with
    | none => newRow
    | some r => r
  let row1 ← copyData row data
  pure (db.insert id (updateLeaf P id row1), .upload .ok)

/-- `DB5::Download` (enclave/db/db5.cc:147-164). -/
def download (P : Prims5) (path : Bytes → Bool) (db : DB) (id password : Bytes) : DB × Resp :=
  match db.find id with
  | none => (db, .download .missing [])
  | some row =>
    if !verify P path id row then (db, .download .merkleFailure [])
    else (db, .download .ok (P.hmac row.data password))

/-- `DB5::Purge` (enclave/db/db5.cc:166-171). -/
def purge (db : DB) (id : Bytes) : DB × Resp :=
  match db.find id with
  | none => (db, .purge)
  | some _ => (db.erase id, .purge)

/-- `DB5::Run` (enclave/db/db5.cc:100-129). -/
def run (P : Prims5) (path : Bytes → Bool) (db : DB) (log : Log) : Out (DB × Resp) := do
  Out.check (validate log == none)
  Out.check (log.id.length == BACKUP_ID_SIZE)
  match log.req with
  | .upload d => upload P db log.id d
  | .download p => pure (download P path db log.id p)
  | .purge => pure (purge db log.id)
  | .unset => pure (db, .none)

/-- `e2e::DB5RowState`. -/
structure RowPB where
  id : Bytes
  data : Bytes
deriving DecidableEq, Repr

def rowToPB (id : Bytes) (r : Row) : RowPB := ⟨id, r.data⟩

/-- `DB5::RowsAsProtos` (enclave/db/db5.cc:173-196). Serialisation is modelled by the record itself. -/
def rowsAsProtos (db : DB) (exclusiveStart : Bytes) (size : Nat) : Except Err (Bytes × List RowPB) :=
  if exclusiveStart.isEmpty then
    let rows := db.list.take size
    .ok (lastKeyOf rows, rows.map (fun p => rowToPB p.1 p.2))
  else if exclusiveStart.length ≠ BACKUP_ID_SIZE then .error .backupIDSize
  else
    let rows := (db.upperBound exclusiveStart).take size
    .ok (lastKeyOf rows, rows.map (fun p => rowToPB p.1 p.2))

/-- One iteration of `DB5::LoadRowsFromProtos` (enclave/db/db5.cc:219-246). A row that does not parse
is `none`. -/
def loadRow (P : Prims5) (db : DB) (o : Option RowPB) : Out (DB × Option Err) :=
  match o with
  | none => .ok (db, some .invalidRow)
  | some x =>
    if x.data.length ≠ DATA_SIZE then .ok (db, some .invalidRow)
    else if x.id.length ≠ BACKUP_ID_SIZE then .ok (db, some .backupIDSize)
    else if db.outOfOrder x.id then .ok (db, some .outOfOrder)
    else do
      let r ← copyData newRow x.data
      pure (db.insert x.id (updateLeaf P x.id r), none)

def lastId (rows : List (Option RowPB)) : Bytes :=
  match rows.getLast? with
  | some (some x) => x.id
  | _ => []

/-- `DB5::LoadRowsFromProtos` (enclave/db/db5.cc:214-255). -/
def loadRows (P : Prims5) (db : DB) (rows : List (Option RowPB)) : Out (DB × Except Err Bytes) := do
  Out.check (rows.length != 0)
  let (db1, e) ← loadLoopG (loadRow P) db rows
  match e with
  | some e => pure (db1, .error e)
  | none =>
    if db1.size ≠ db.size + rows.length then pure (db1, .error .alreadyInDB)
    else pure (db1, .ok (lastId rows))

/-- The bytes fed to SHA-256 by `DB5::Hash` (enclave/db/db5.cc:279-290). -/
def hashInput (P : Prims5) (db : DB) : Bytes :=
  be64 db.size ++ db.list.flatMap (fun p => P.sip16 (rowRaw p.1 p.2))

/-- `DB5::Hash` (enclave/db/db5.cc:279-293). -/
def hash (P : Prims5) (db : DB) : Bytes := P.sha256 (hashInput P db)

end Svr.DB5
