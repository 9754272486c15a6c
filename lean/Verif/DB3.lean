import Verif.DB2
import Verif.Sim

/-!
# Model of the SVR3 database (`enclave/db/db3.{h,cc}`)
-/

namespace Svr.DB3

/-- Primitives of the SVR3 database: row and database hash, and
`crypto_scalarmult_ristretto255(out, key, element)`, `none` when it returns non-zero. -/
structure Prims3 extends Prims where
  mul : Bytes → Bytes → Option Bytes

/-- enclave/db/db3.h:29-38; the ristretto sizes are libsodium's 32. -/
abbrev BACKUP_ID_SIZE : Nat := 16
abbrev SCALAR_SIZE : Nat := 32
abbrev ELEMENT_SIZE : Nat := 32
abbrev MAX_ALLOWED_MAX_TRIES : Nat := 255
abbrev MIN_ALLOWED_MAX_TRIES : Nat := 1

/-- `client::Request3` (shared/proto/client3.proto:12-19). -/
inductive Req where
  | create (maxTries : UInt32) (blinded : Bytes)
  | evaluate (blinded : Bytes)
  | remove
  | query
  | unset
deriving DecidableEq, Repr

/-- `client::Log3` (enclave/proto/clientlog.proto:21-27). -/
structure Log where
  id : Bytes
  req : Req
  privkey : Bytes
deriving DecidableEq, Repr

inductive CreateStatus | ok | invalidRequest | error
deriving DecidableEq, Repr
inductive EvalStatus | ok | missing | invalidRequest | error
deriving DecidableEq, Repr

/-- `client::Response3` (shared/proto/client3.proto:21-28). -/
inductive Resp where
  | create (status : CreateStatus) (element : Bytes)
  | evaluate (status : EvalStatus) (element : Bytes) (tries : Nat)
  | remove
  | query (ok : Bool) (tries : Nat)
deriving DecidableEq, Repr

/-- `DB3::Row` (enclave/db/db3.h:109-114); `leaf` as in `DB2.Row`. -/
structure Row where
  priv : Bytes   -- std::array<uint8_t, 32>
  tries : UInt8
  leaf : Bytes
deriving DecidableEq, Repr

abbrev DB := OMap Bytes Row
def empty : DB := OMap.empty

inductive Err
  | backupIDSize | maxTriesOutOfRange | blindedElementSize | logPrivateKeyInvalid | toplevelRequestType
  | invalidRow | outOfOrder | alreadyInDB | arrayCopyTooBig
deriving DecidableEq, Repr

/-- `DB3::Protocol::ValidateClientLog` (enclave/db/db3.cc:59-88); `none` is `error::OK`. -/
def validate (log : Log) : Option Err :=
  if log.id.length ≠ BACKUP_ID_SIZE then some .backupIDSize
  else match log.req with
  | .create n b =>
    if n.toNat < 1 ∨ n.toNat > 255 then some .maxTriesOutOfRange
    else if b.length ≠ ELEMENT_SIZE then some .blindedElementSize
    else if log.privkey.length ≠ SCALAR_SIZE then some .logPrivateKeyInvalid
    else none
  | .evaluate b => if b.length ≠ ELEMENT_SIZE then some .blindedElementSize else none
  | .remove => none
  | .query => none
  | .unset => some .toplevelRequestType

/-- `DB3::ClientState::LogFromRequest` (enclave/db/db3.cc:32-51); `newKey` is the scalar drawn by
`NewKey`. -/
def logFromRequest (authenticatedId : Bytes) (newKey : Bytes) (req : Req) : Except Err Log :=
  if authenticatedId.length ≠ BACKUP_ID_SIZE then .error .backupIDSize
  else .ok ⟨authenticatedId, req, match req with | .create _ _ => newKey | _ => []⟩

/-- The 52 bytes hashed by `DB3::HashRow` (enclave/db/db3.cc:208-223). -/
def rowRaw (id : Bytes) (r : Row) : Bytes := id ++ be32 r.tries.toNat ++ r.priv

/-- `row.merkle_leaf_.Update(merkle::HashFrom(HashRow(id, row)))`. -/
def updateLeaf (P : Prims3) (id : Bytes) (r : Row) : Row := { r with leaf := hashFrom (P.sip16 (rowRaw id r)) }

/-- `row->merkle_leaf_.Verify(...) == error::OK`; `path` as in `DB2.verify`. -/
def verify (P : Prims3) (path : Bytes → Bool) (id : Bytes) (r : Row) : Bool :=
  ctEq (hashFrom (P.sip16 (rowRaw id r))) r.leaf && path id

/-- `DB3::Create` (enclave/db/db3.cc:260-293). A fresh row's fields are uninitialised in the code and
all of them are overwritten here, so only the constructed row is modelled. -/
def create (P : Prims3) (db : DB) (id privkey : Bytes) (maxTries : UInt32) (blinded : Bytes) : DB × Resp :=
  match strToArr ELEMENT_SIZE blinded with
  | none => (db, .create .invalidRequest [])
  | some elt =>
    match strToArr SCALAR_SIZE privkey with
    | none => (db, .create .error [])
    | some priv =>
      match P.mul priv elt with
      | none => (db, .create .error [])
      | some ev => (db.insert id (updateLeaf P id ⟨priv, maxTries.toUInt8, []⟩), .create .ok ev)

/-- `DB3::Evaluate` (enclave/db/db3.cc:295-333). -/
def evaluate (P : Prims3) (path : Bytes → Bool) (db : DB) (id blinded : Bytes) : DB × Resp :=
  match strToArr ELEMENT_SIZE blinded with
  | none => (db, .evaluate .invalidRequest [] 0)
  | some elt =>
    match db.find id with
    | none => (db, .evaluate .missing [] 0)
    | some row =>
      if !verify P path id row then (db, .evaluate .error [] 0)
      else match P.mul row.priv elt with
      | none => (db, .evaluate .error [] 0)
      | some ev =>
        let row1 := { row with tries := row.tries - 1 }
        if row1.tries = 0 then (db.erase id, .evaluate .ok ev row1.tries.toNat)
        else (db.insert id (updateLeaf P id row1), .evaluate .ok ev row1.tries.toNat)

/-- `DB3::Remove` (enclave/db/db3.cc:335-346). -/
def remove (db : DB) (id : Bytes) : DB × Resp :=
  match db.find id with
  | none => (db, .remove)
  | some _ => (db.erase id, .remove)

/-- `DB3::Query` (enclave/db/db3.cc:348-361). -/
def query (db : DB) (id : Bytes) : DB × Resp :=
  match db.find id with
  | none => (db, .query false 0)
  | some row => (db, .query true row.tries.toNat)

/-- `DB3::Run` (enclave/db/db3.cc:106-134). -/
def run (P : Prims3) (path : Bytes → Bool) (db : DB) (log : Log) : Out (DB × Resp) := do
  Out.check (validate log == none)
  match strToArr BACKUP_ID_SIZE log.id with
  | none => .abort
  | some id =>
    match log.req with
    | .create n b => pure (create P db id log.privkey n b)
    | .evaluate b => pure (evaluate P path db id b)
    | .remove => pure (remove db id)
    | .query => pure (query db id)
    | .unset => .abort

/-- `e2e::DB3RowState` (enclave/proto/e2e.proto:98-102). -/
structure RowPB where
  id : Bytes
  priv : Bytes
  tries : UInt32
deriving DecidableEq, Repr

/-- One row as written by `RowsAsProtos` (enclave/db/db3.cc:148-150). -/
def rowToPB (id : Bytes) (r : Row) : RowPB := ⟨id, r.priv, r.tries.toUInt32⟩

/-- `DB3::RowsAsProtos` (enclave/db/db3.cc:136-158). -/
def rowsAsProtos (db : DB) (exclusiveStart : Bytes) (size : Nat) : Except Err (Bytes × List RowPB) :=
  if exclusiveStart.isEmpty then
    let rows := db.list.take size
    .ok (lastKeyOf rows, rows.map (fun p => rowToPB p.1 p.2))
  else match strToArr BACKUP_ID_SIZE exclusiveStart with
  | none => .error .arrayCopyTooBig
  | some id =>
    let rows := (db.upperBound id).take size
    .ok (lastKeyOf rows, rows.map (fun p => rowToPB p.1 p.2))

/-- Loop body of `DB3::LoadRowsFromProtos` (enclave/db/db3.cc:164-198). Short ids and keys are zero
padded by `StringToByteArray`. -/
def loadRow (P : Prims3) (db : DB) (pb : Option RowPB) : Out (DB × Option Err) :=
  match pb with
  | none => .ok (db, some .invalidRow)
  | some row =>
    if row.tries.toNat > MAX_ALLOWED_MAX_TRIES ∨ row.tries.toNat < MIN_ALLOWED_MAX_TRIES then
      .ok (db, some .invalidRow)
    else match strToArr BACKUP_ID_SIZE row.id with
    | none => .ok (db, some .arrayCopyTooBig)
    | some key =>
      if db.outOfOrder key then .ok (db, some .outOfOrder)
      else match strToArr SCALAR_SIZE row.priv with
      | none => .ok (db, some .arrayCopyTooBig)
      | some priv => .ok (db.insert key (updateLeaf P key ⟨priv, row.tries.toUInt8, []⟩), none)

/-- Id of the last parsed row (`row->backup_id()` after the loop). -/
def lastId (rows : List (Option RowPB)) : Bytes :=
  match rows.getLast? with
  | some (some r) => r.id
  | _ => []

/-- `DB3::LoadRowsFromProtos` (enclave/db/db3.cc:160-206). -/
def loadRows (P : Prims3) (db : DB) (rows : List (Option RowPB)) : Out (DB × Except Err Bytes) := do
  let (db1, e) ← loadLoopG (loadRow P) db rows
  match e with
  | some e => pure (db1, .error e)
  | none =>
    if db1.size ≠ db.size + rows.length then pure (db1, .error .alreadyInDB)
    else pure (db1, .ok (lastId rows))

/-- The bytes fed to SHA-256 by `DB3::Hash` (enclave/db/db3.cc:225-237). -/
def hashInput (P : Prims3) (db : DB) : Bytes :=
  be64 db.size ++ db.list.flatMap (fun p => P.sip16 (rowRaw p.1 p.2))

/-- `DB3::Hash` (enclave/db/db3.cc:225-239). -/
def hash (P : Prims3) (db : DB) : Bytes := P.sha256 (hashInput P db)

end Svr.DB3
