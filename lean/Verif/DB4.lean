import Verif.DB2
import Verif.Sim

/-!
# Model of the SVR4 database (`enclave/db/db4.{h,cc}`)

Points and scalars are their 32-byte encodings; the group is a parameter.
-/

namespace Svr.DB4

/-- Primitives: row/database hash and the ristretto operations of enclave/ristretto/ristretto.cc. -/
structure Prims4 extends Prims where
  /-- `Point::Valid` on 32 bytes (ristretto.cc:74-76) -/
  validPoint : Bytes → Bool
  /-- `Scalar::Valid` on 32 bytes (ristretto.cc:83-85) -/
  validScalar : Bytes → Bool
  /-- `Scalar::Add` (ristretto.cc:37-41) -/
  sadd : Bytes → Bytes → Bytes
  /-- `Point::ScalarMult` (ristretto.cc:65-67), scalar first; `none` when libsodium reports failure -/
  smul : Bytes → Bytes → Option Bytes
  /-- `Point::Add` (ristretto.cc:71-73) -/
  padd : Bytes → Bytes → Option Bytes
  /-- `Point::ScalarMultBase` (ristretto.cc:68-70) -/
  mulBase : Bytes → Option Bytes
  /-- `Point::FromHash(sha::Sha512(id, blinded))` (ristretto.cc:24-26) -/
  hashToPoint : Bytes → Bytes → Option Bytes
  /-- `Scalar::Reduce(sha::Sha512(auth_point, blinded_point, handshake_hash))` (ristretto.cc:55-59) -/
  challenge : Bytes → Bytes → Bytes → Bytes

/-- `Point::FromString` (ristretto.cc:98-102) succeeds; the point is then the string itself. -/
def okPoint (P : Prims4) (s : Bytes) : Bool := s.length == 32 && P.validPoint s
/-- `Scalar::FromString` (ristretto.cc:92-96) succeeds. -/
def okScalar (P : Prims4) (s : Bytes) : Bool := s.length == 32 && P.validScalar s

/-- enclave/db/db4.h:31-33. -/
abbrev BACKUP_ID_SIZE : Nat := 16
abbrev AES_KEY_SIZE : Nat := 32
abbrev MAX_ALLOWED_MAX_TRIES : Nat := 255

/-- `client::Request4` (shared/proto/client4.proto:12-55). -/
inductive Req where
  | create (maxTries : UInt32) (oprf auth enc zero : Bytes) (version : UInt32)
  | restore1 (blinded : Bytes)
  | restore2 (authPoint authScalar : Bytes) (version : UInt32)
  | remove
  | query
  | rotateStart (version : UInt32) (oprfDelta encDelta : Bytes)
  | rotateCommit (version : UInt32)
  | rotateRollback (version : UInt32)
  | unset
deriving DecidableEq, Repr

/-- `client::Log4` (enclave/proto/clientlog.proto:30-33). -/
structure Log where
  id : Bytes
  req : Req
deriving DecidableEq, Repr

/-- `client::Response4::Status`. -/
inductive Status
  | unset | ok | invalidRequest | missing | error | restore1Missing | versionMismatch | notRotating
  | alreadyRotating | merkleFailure | duplicateVersion
deriving DecidableEq, Repr

/-- `client::Response4` (shared/proto/client4.proto:57-124). -/
inductive Resp where
  | create (status : Status) (tries : Nat)
  | restore1 (status : Status) (auth : List (Bytes × UInt32)) (tries : Nat)
  | restore2 (status : Status) (enc : Bytes)
  | remove
  | query (status : Status) (tries : Nat) (version newVersion : UInt32)
  | rotateStart (status : Status)
  | rotateCommit (status : Status)
  | rotateRollback (status : Status)
deriving DecidableEq, Repr

/-- `client::Effect4::Restore2State` (enclave/proto/clientlog.proto:44-51). The versions are `fixed64`
fields only ever set from `uint32_t`s. -/
structure R2State where
  auth : Bytes
  enc : Bytes
  newEnc : Bytes
  version : UInt64
  newVersion : UInt64
  blinded : Bytes
deriving DecidableEq, Repr

/-- `client::Effect4`: the response, and the state for Restore2 when present. -/
structure Effect where
  resp : Resp
  r2 : Option R2State
deriving DecidableEq, Repr

/-- `DB4::Row` (enclave/db/db4.h:115-131); `leaf` as in `DB2.Row`. -/
structure Row where
  auth : Bytes
  oprf : Bytes
  enc : Bytes
  zero : Bytes
  version : UInt32
  tries : UInt8
  leaf : Bytes
deriving DecidableEq, Repr

/-- `DB4::RotateRow` (enclave/db/db4.h:140-151). -/
structure Rot where
  newVersion : UInt32
  oprfDelta : Bytes
  encDelta : Bytes
deriving DecidableEq, Repr

/-- `rows_` and `rotate_rows_`. -/
structure DB where
  rows : OMap Bytes Row
  rot : OMap Bytes Rot
deriving DecidableEq

def empty : DB := ⟨OMap.empty, OMap.empty⟩

inductive Err
  | backupIDSize | requestInvalid | toplevelRequestType | logRequestType
  | invalidRow | outOfOrder | alreadyInDB | arrayCopyTooBig
deriving DecidableEq, Repr

/-- `DB4::ClientState::LogFromRequest` (enclave/db/db4.cc:78-105). -/
def logFromRequest (authenticatedId : Bytes) (req : Req) : Except Err Log :=
  if authenticatedId.length ≠ BACKUP_ID_SIZE then .error .backupIDSize
  else match req with
  | .restore2 _ _ _ => .error .logRequestType
  | .unset => .error .logRequestType
  | _ => .ok ⟨authenticatedId, req⟩

/-- `DB4::Protocol::ValidateClientLog` (enclave/db/db4.cc:177-229); `none` is `error::OK`. -/
def validate (P : Prims4) (log : Log) : Option Err :=
  if log.id.length ≠ BACKUP_ID_SIZE then some .backupIDSize
  else match log.req with
  | .create n oprf auth enc zero version =>
    if n.toNat > MAX_ALLOWED_MAX_TRIES ∨ okPoint P auth = false ∨ okScalar P oprf = false ∨
        okScalar P zero = false ∨ enc.length ≠ AES_KEY_SIZE ∨ version = 0 then some .requestInvalid
    else none
  | .restore1 b => if okPoint P b = false then some .requestInvalid else none
  | .remove => none
  | .query => none
  | .rotateStart version od ed =>
    if version = 0 ∨ okScalar P od = false ∨ ed.length ≠ AES_KEY_SIZE then some .requestInvalid else none
  | .rotateCommit version => if version = 0 then some .requestInvalid else none
  | .rotateRollback version => if version = 0 then some .requestInvalid else none
  | .restore2 _ _ _ => some .toplevelRequestType
  | .unset => some .toplevelRequestType

/-- The tail of `DB4::HashRow` for the pending rotation (enclave/db/db4.cc:445-456). -/
def rotRaw : Option Rot → Bytes
  | none => zeros 68
  | some x => be32 x.newVersion.toNat ++ x.oprfDelta ++ x.encDelta

/-- The 217 bytes hashed by `DB4::HashRow` (enclave/db/db4.cc:414-463). -/
def rowRaw (id : Bytes) (r : Row) (rr : Option Rot) : Bytes :=
  id ++ (r.auth ++ (r.oprf ++ (r.enc ++ (r.zero ++ ([r.tries] ++ (be32 r.version.toNat ++ rotRaw rr))))))

/-- `row.merkle_leaf_.Update(merkle::HashFrom(HashRow(id, row, rr)))`. -/
def updateLeaf (P : Prims4) (id : Bytes) (r : Row) (rr : Option Rot) : Row :=
  { r with leaf := hashFrom (P.sip16 (rowRaw id r rr)) }

/-- `row->merkle_leaf_.Verify(...) == error::OK`; `path` as in `DB2.verify`. -/
def verify (P : Prims4) (path : Bytes → Bool) (id : Bytes) (r : Row) (rr : Option Rot) : Bool :=
  ctEq (hashFrom (P.sip16 (rowRaw id r rr))) r.leaf && path id

/-- `DB4::Row::Row(tree)` (enclave/db/db4.cc:822). -/
def newRow : Row := ⟨zeros 32, zeros 32, zeros 32, zeros 32, 0, 0, zeros 8⟩

/-- Byte-wise xor loop of two 32-byte arrays (enclave/db/db4.cc:583-586, 781-783). -/
def xorB (a b : Bytes) : Bytes := List.zipWith (· ^^^ ·) a b

/-- `StringIntoByteArray(s, &a)` for a 32-byte array holding `old` (enclave/util/bytes.h:24-31). -/
def copyOver (old s : Bytes) : Option Bytes :=
  if s.length > 32 then none else some (s ++ old.drop s.length)

/-- `DB4::Create` (enclave/db/db4.cc:489-521). -/
def create (P : Prims4) (db : DB) (id : Bytes) (maxTries : UInt32) (oprf auth enc zero : Bytes) (version : UInt32) :
    Out (DB × Effect) :=
  let found := db.rows.find id
  if found = none ∧ maxTries = 0 then pure (db, ⟨.create .invalidRequest 0, none⟩)
  else do
    let r := found.getD newRow
    let tries := if maxTries ≠ 0 then maxTries.toUInt8 else r.tries
    Out.check (okPoint P auth)
    Out.check (okScalar P oprf)
    Out.check (okScalar P zero)
    match copyOver r.enc enc with
    | none => Out.abort
    | some enc' =>
      let r1 : Row := ⟨auth, oprf, enc', zero, version, tries, r.leaf⟩
      pure (⟨db.rows.insert id (updateLeaf P id r1 none), db.rot.erase id⟩, ⟨.create .ok tries.toNat, none⟩)

/-- The evaluation part of `DB4::Restore1` (enclave/db/db4.cc:549-607): `none` is a jump to
`restore1_error`. -/
def restore1Eval (P : Prims4) (id : Bytes) (row : Row) (rr : Option Rot) (blinded : Bytes) :
    Option (List (Bytes × UInt32) × R2State) :=
  match P.hashToPoint id blinded with
  | none => none
  | some h =>
    if okPoint P blinded = false then none
    else match P.smul row.oprf blinded with
    | none => none
    | some bp =>
      match (if row.zero = zeros 32 then some (zeros 32) else P.smul row.zero h) with
      | none => none
      | some mask =>
        match P.padd bp mask with
        | none => none
        | some e1 =>
          match rr with
          | none => some ([(e1, row.version)], ⟨row.auth, row.enc, [], row.version.toUInt64, 0, blinded⟩)
          | some x =>
            match P.smul (P.sadd row.oprf x.oprfDelta) blinded with
            | none => none
            | some bp2 =>
              match (if row.zero = zeros 32 then some (zeros 32) else P.smul row.zero h) with
              | none => none
              | some mask2 =>
                match P.padd bp2 mask2 with
                | none => none
                | some e2 => some ([(e1, row.version), (e2, x.newVersion)],
                    ⟨row.auth, row.enc, xorB row.enc x.encDelta, row.version.toUInt64, x.newVersion.toUInt64, blinded⟩)

/-- `DB4::Restore1` (enclave/db/db4.cc:523-623), with the clearing of the Restore2 state by `Run`
(enclave/db/db4.cc:277-279). -/
def restore1 (P : Prims4) (path : Bytes → Bool) (db : DB) (id blinded : Bytes) : DB × Effect :=
  match db.rows.find id with
  | none => (db, ⟨.restore1 .missing [] 0, none⟩)
  | some row =>
    let rr := db.rot.find id
    if !verify P path id row rr then (db, ⟨.restore1 .merkleFailure [] 0, none⟩)
    else
      let row1 := { row with tries := row.tries - 1 }
      let eff : Effect := match restore1Eval P id row1 rr blinded with
        | none => ⟨.restore1 .error [] row1.tries.toNat, none⟩
        | some (auth, st) => ⟨.restore1 .ok auth row1.tries.toNat, some st⟩
      if row1.tries = 0 then
        (⟨db.rows.erase id, if rr.isSome then db.rot.erase id else db.rot⟩, eff)
      else (⟨db.rows.insert id (updateLeaf P id row1 rr), db.rot⟩, eff)

/-- `DB4::Remove` (enclave/db/db4.cc:676-688). -/
def remove (db : DB) (id : Bytes) : DB × Effect :=
  match db.rows.find id with
  | none => (db, ⟨.remove, none⟩)
  | some _ => (⟨db.rows.erase id, db.rot.erase id⟩, ⟨.remove, none⟩)

/-- `DB4::Query` (enclave/db/db4.cc:690-709). -/
def query (db : DB) (id : Bytes) : DB × Effect :=
  match db.rows.find id with
  | none => (db, ⟨.query .missing 0 0 0, none⟩)
  | some row =>
    (db, ⟨.query .ok row.tries.toNat row.version
      (match db.rot.find id with | some x => x.newVersion | none => 0), none⟩)

/-- `DB4::RotateStart` (enclave/db/db4.cc:711-751). -/
def rotateStart (P : Prims4) (path : Bytes → Bool) (db : DB) (id : Bytes) (version : UInt32) (od ed : Bytes) :
    Out (DB × Effect) :=
  match db.rows.find id with
  | none => pure (db, ⟨.rotateStart .missing, none⟩)
  | some row =>
    match db.rot.find id with
    | some _ => pure (db, ⟨.rotateStart .alreadyRotating, none⟩)
    | none =>
      if version = row.version then pure (db, ⟨.rotateStart .duplicateVersion, none⟩)
      else do
        Out.check (okScalar P od)
        -- `AESKey enc` is uninitialised and must be filled completely
        Out.check (ed.length ≤ 32)
        if ed.length < 32 then Out.ub
        else if !verify P path id row none then pure (db, ⟨.rotateStart .merkleFailure, none⟩)
        else
          let rr : Rot := ⟨version, od, ed⟩
          pure (⟨db.rows.insert id (updateLeaf P id row (some rr)), db.rot.insert id rr⟩, ⟨.rotateStart .ok, none⟩)

/-- `DB4::RotateCommit` (enclave/db/db4.cc:753-788). -/
def rotateCommit (P : Prims4) (path : Bytes → Bool) (db : DB) (id : Bytes) (version : UInt32) : DB × Effect :=
  match db.rows.find id with
  | none => (db, ⟨.rotateCommit .missing, none⟩)
  | some row =>
    match db.rot.find id with
    | none => (db, ⟨.rotateCommit .notRotating, none⟩)
    | some x =>
      if x.newVersion ≠ version then (db, ⟨.rotateCommit .versionMismatch, none⟩)
      else if !verify P path id row (some x) then (db, ⟨.rotateCommit .merkleFailure, none⟩)
      else
        let row1 := { row with oprf := P.sadd row.oprf x.oprfDelta, enc := xorB row.enc x.encDelta, version := x.newVersion }
        (⟨db.rows.insert id (updateLeaf P id row1 none), db.rot.erase id⟩, ⟨.rotateCommit .ok, none⟩)

/-- `DB4::RotateRollback` (enclave/db/db4.cc:790-820). -/
def rotateRollback (P : Prims4) (path : Bytes → Bool) (db : DB) (id : Bytes) (version : UInt32) : DB × Effect :=
  match db.rows.find id with
  | none => (db, ⟨.rotateRollback .missing, none⟩)
  | some row =>
    match db.rot.find id with
    | none => (db, ⟨.rotateRollback .notRotating, none⟩)
    | some x =>
      if x.newVersion ≠ version then (db, ⟨.rotateRollback .versionMismatch, none⟩)
      else if !verify P path id row (some x) then (db, ⟨.rotateRollback .merkleFailure, none⟩)
      else (⟨db.rows.insert id (updateLeaf P id row none), db.rot.erase id⟩, ⟨.rotateRollback .ok, none⟩)

/-- `DB4::Run` (enclave/db/db4.cc:258-314). -/
def run (P : Prims4) (path : Bytes → Bool) (db : DB) (log : Log) : Out (DB × Effect) := do
  Out.check (validate P log == none)
  match strToArr BACKUP_ID_SIZE log.id with
  | none => Out.abort
  | some id =>
    match log.req with
    | .create n oprf auth enc zero version => create P db id n oprf auth enc zero version
    | .restore1 b => pure (restore1 P path db id b)
    | .remove => pure (remove db id)
    | .query => pure (query db id)
    | .rotateStart v od ed => rotateStart P path db id v od ed
    | .rotateCommit v => pure (rotateCommit P path db id v)
    | .rotateRollback v => pure (rotateRollback P path db id v)
    | .restore2 _ _ _ => Out.abort
    | .unset => Out.abort

/-! ### Replication -/

/-- `e2e::DB4RowState` (enclave/proto/e2e.proto:104-117); the versions are `fixed64`. -/
structure RowPB where
  id : Bytes
  tries : UInt32
  oprf : Bytes
  auth : Bytes
  enc : Bytes
  zero : Bytes
  oprfDelta : Bytes
  encDelta : Bytes
  version : UInt64
  newVersion : UInt64
deriving DecidableEq, Repr

/-- The protobuf of one row (enclave/db/db4.cc:330-344). -/
def rowToPB (id : Bytes) (v : Row × Option Rot) : RowPB :=
  match v.2 with
  | none => ⟨id, v.1.tries.toUInt32, v.1.oprf, v.1.auth, v.1.enc, v.1.zero, [], [], v.1.version.toUInt64, 0⟩
  | some x => ⟨id, v.1.tries.toUInt32, v.1.oprf, v.1.auth, v.1.enc, v.1.zero, x.oprfDelta, x.encDelta,
      v.1.version.toUInt64, x.newVersion.toUInt64⟩

/-- Walking the two maps in step (enclave/db/db4.cc:329-349 and 474-481): a pending rotation is attached
to a row when the rotation iterator stands on the same key. The second component is where that iterator
ends up. -/
def zipRot : List (Bytes × Row) → List (Bytes × Rot) → List (Bytes × (Row × Option Rot)) × List (Bytes × Rot)
  | [], rr => ([], rr)
  | (k, r) :: t, [] => ((k, (r, none)) :: (zipRot t []).1, (zipRot t []).2)
  | (k, r) :: t, (k', x) :: rr =>
    if k' = k then ((k, (r, some x)) :: (zipRot t rr).1, (zipRot t rr).2)
    else ((k, (r, none)) :: (zipRot t ((k', x) :: rr)).1, (zipRot t ((k', x) :: rr)).2)

/-- `DB4::RowsAsProtos` (enclave/db/db4.cc:316-351). `BackupID id` is uninitialised, so a cursor shorter
than 16 bytes makes the code read indeterminate bytes. Serialisation is modelled by the record itself. -/
def rowsAsProtos (db : DB) (exclusiveStart : Bytes) (size : Nat) : Out (Except Err (Bytes × List RowPB)) :=
  if exclusiveStart.isEmpty then
    let rows := (zipRot (db.rows.list.take size) db.rot.list).1
    .ok (.ok (lastKeyOf rows, rows.map (fun p => rowToPB p.1 p.2)))
  else if exclusiveStart.length > BACKUP_ID_SIZE then .ok (.error .arrayCopyTooBig)
  else if exclusiveStart.length < BACKUP_ID_SIZE then .ub
  else
    let rows := (zipRot ((db.rows.upperBound exclusiveStart).take size) (db.rot.upperBound exclusiveStart)).1
    .ok (.ok (lastKeyOf rows, rows.map (fun p => rowToPB p.1 p.2)))

/-- Loop body of `DB4::LoadRowsFromProtos` (enclave/db/db4.cc:357-404). `BackupID key` is uninitialised:
a shorter id makes the code compare and store indeterminate bytes. `emplace_hint` does not overwrite an
existing entry. -/
def loadRow (P : Prims4) (db : DB) (o : Option RowPB) : Out (DB × Option Err) :=
  match o with
  | none => .ok (db, some .invalidRow)
  | some x =>
    if x.tries.toNat > MAX_ALLOWED_MAX_TRIES ∨ x.tries.toNat < 1 then .ok (db, some .invalidRow)
    else if x.id.length > BACKUP_ID_SIZE then .ok (db, some .arrayCopyTooBig)
    else if x.id.length < BACKUP_ID_SIZE then .ub
    else if db.rows.outOfOrder x.id then .ok (db, some .outOfOrder)
    else if okPoint P x.auth = false ∨ okScalar P x.oprf = false ∨ okScalar P x.zero = false then
      .ok (db, some .invalidRow)
    else match copyOver (zeros 32) x.enc with
    | none => .ok (db, some .invalidRow)
    | some enc =>
      let r : Row := ⟨x.auth, x.oprf, enc, x.zero, x.version.toUInt32, x.tries.toUInt8, zeros 8⟩
      if x.newVersion = 0 then
        .ok (⟨db.rows.insert x.id (updateLeaf P x.id r none), db.rot⟩, none)
      else if okScalar P x.oprfDelta = false then .ok (db, some .invalidRow)
      else match copyOver (zeros 32) x.encDelta with
      | none => .ok (db, some .invalidRow)
      | some ed =>
        let rr : Rot := match db.rot.find x.id with
          | some old => old
          | none => ⟨x.newVersion.toUInt32, x.oprfDelta, ed⟩
        .ok (⟨db.rows.insert x.id (updateLeaf P x.id r (some rr)), db.rot.insert x.id rr⟩, none)

def lastId (rows : List (Option RowPB)) : Bytes :=
  match rows.getLast? with
  | some (some x) => x.id
  | _ => []

/-- `DB4::LoadRowsFromProtos` (enclave/db/db4.cc:353-412). -/
def loadRows (P : Prims4) (db : DB) (rows : List (Option RowPB)) : Out (DB × Except Err Bytes) := do
  let (db1, e) ← loadLoopG (loadRow P) db rows
  match e with
  | some e => pure (db1, .error e)
  | none =>
    if db1.rows.size ≠ db.rows.size + rows.length then pure (db1, .error .alreadyInDB)
    else pure (db1, .ok (lastId rows))

/-- The bytes fed to SHA-256 by `DB4::Hash` (enclave/db/db4.cc:466-482). -/
def hashInput (P : Prims4) (db : DB) : Bytes :=
  be64 db.rows.size ++ (zipRot db.rows.list db.rot.list).1.flatMap (fun p => P.sip16 (rowRaw p.1 p.2.1 p.2.2))

/-- `DB4::Hash` (enclave/db/db4.cc:466-487). -/
def hash (P : Prims4) (db : DB) : Out Bytes := do
  Out.check (zipRot db.rows.list db.rot.list).2.isEmpty
  pure (P.sha256 (hashInput P db))

end Svr.DB4
