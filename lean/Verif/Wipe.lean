import Verif.DB2
import Verif.DB3
import Verif.DB4
import Verif.DB5

/-!
# What the row objects of the databases leave in memory

The databases keep secrets in objects of the classes `DB2::Row`, `DB3::Row`, `DB4::Row`,
`DB4::RotateRow` and `DB5::Row`. Such an object lives in a node of a `std::map`, or for a moment as a
local variable. This file models where these objects are, what their secret fields hold, and what they
leave behind when they cease to exist: constructors, move constructors, destructors and the explicit
clearing in `DB2`. Which of these happen is read off the code of every request; which branch is taken
comes from the models of the databases.

Not modelled: other copies of the same secrets (protobufs, the `scratch` arrays of `HashRow`, plain
locals such as `oprf` and `enc` in `DB4::RotateStart`).
-/

namespace Svr.Wipe

/-- A function changed at one place. -/
def upd {A B : Type} [DecidableEq A] (f : A → B) (a : A) (b : B) : A → B := fun x => if x = a then b else f x

/-- Memory: `cell a` holds the secret fields of the object that is, or was last, at address `a` (nothing
if none ever was); `node k` is the address of the map node of key `k`. -/
structure Mem (K : Type) where
  cell : Nat → List Bytes
  node : K → Option Nat

/-- Before the database has held anything. -/
def blank {K : Type} : Mem K := ⟨fun _ => [], fun _ => none⟩

/-- No map node is at this address. -/
def Mem.Dead {K : Type} (m : Mem K) (a : Nat) : Prop := ∀ k, m.node k ≠ some a

/-- All secret fields hold zero bytes. -/
def Wiped (v : List Bytes) : Prop := ∀ f ∈ v, ∀ b ∈ f, b = 0

/-- `memset`/`util::MemZeroS` over a field (enclave/util/bytes.cc:8-20). -/
def zeroOut (f : Bytes) : Bytes := zeros f.length

/-- What the special member functions of a class do to the secret fields. `fresh`: the constructor, given
what the memory held; `moved`: what the move constructor leaves in the object moved from; `dtor`: what the
destructor leaves. -/
structure Class where
  fresh : List Bytes → List Bytes
  moved : List Bytes → List Bytes
  dtor : List Bytes → List Bytes

/-- The things the code does with row objects. `erase k s` removes the node of `k`, with `s` telling that
the code overwrites the row with `memset` directly before. The key of a local object names its class. -/
inductive Act (K : Type) where
  | emplace (k : K) (a : Nat)
  | assign (k : K) (v : List Bytes)
  | erase (k : K) (s : Bool)
  | build (k : K) (t : Nat) (v : List Bytes)
  | moveIn (k : K) (t a : Nat)
  | destroy (k : K) (t : Nat)
deriving DecidableEq, Repr

variable {K : Type} [DecidableEq K]

/-- One action. `kept`: the compiler keeps the stores of a `memset` to an object that is destroyed and
freed directly afterwards; the language allows to drop them, which is what `util::MemZeroS`
(enclave/util/bytes.cc:8-20) is there to prevent. `emplace` and `emplace_hint` of a key that is present
build the node and destroy it again. -/
def act (C : K → Class) (kept : Bool) (m : Mem K) : Act K → Mem K
  | .emplace k a => ⟨upd m.cell a ((C k).fresh (m.cell a)), upd m.node k (some a)⟩
  | .assign k v => match m.node k with
    | none => m
    | some a => { m with cell := upd m.cell a v }
  | .erase k s => match m.node k with
    | none => m
    | some a => ⟨upd m.cell a ((C k).dtor (if s && kept then (m.cell a).map zeroOut else m.cell a)),
        upd m.node k none⟩
  | .build _ t v => { m with cell := upd m.cell t v }
  | .moveIn k t a => match m.node k with
    | none => ⟨upd (upd m.cell a (m.cell t)) t ((C k).moved (m.cell t)), upd m.node k (some a)⟩
    | some _ => { m with cell := upd (upd m.cell a ((C k).dtor (m.cell t))) t ((C k).moved (m.cell t)) }
  | .destroy k t => { m with cell := upd m.cell t ((C k).dtor (m.cell t)) }

def acts (C : K → Class) (kept : Bool) (m : Mem K) (l : List (Act K)) : Mem K := l.foldl (act C kept) m

/-! ### The classes -/

/-- `DB2::Row` (enclave/db/db2.h:96-110, db2.cc:316): the fields `data`, `pin` are zeroed by the
constructor; there is no destructor and the implicit move constructor copies the arrays. -/
def row2 : Class := ⟨fun _ => [zeros 48, zeros 32], fun v => v, fun v => v⟩

/-- `DB3::Row` (enclave/db/db3.h:109-114, db3.cc:363): the constructor leaves `priv` as it is; no
destructor, implicit move constructor. -/
def row3 : Class := ⟨fun v => v, fun v => v, fun v => v⟩

/-- `DB4::Row::Clear` (enclave/db/db4.cc:843-850) on `auth_commitment`, `oprf_secretshare`,
`encryption_secretshare`, `zero_secretshare`. -/
def clear4 : List Bytes → List Bytes
  | [auth, oprf, enc, zero] => [zeroOut auth, zeroOut oprf, zeroOut enc, zeroOut zero]
  | v => v

/-- `DB4::Row` (enclave/db/db4.cc:822-841; the constructors of `Scalar` and `Point`,
enclave/ristretto/ristretto.h:19, 52, zero them). -/
def row4 : Class := ⟨fun _ => [zeros 32, zeros 32, zeros 32, zeros 32], clear4, clear4⟩

/-- `DB4::RotateRow::Clear` (enclave/db/db4.cc:869-873) on the two deltas. -/
def clearRot : List Bytes → List Bytes
  | [oprf, enc] => [zeroOut oprf, zeroOut enc]
  | v => v

/-- `DB4::RotateRow` (enclave/db/db4.cc:852-867). -/
def rot4 : Class := ⟨fun _ => [zeros 32, zeros 32], clearRot, clearRot⟩

/-- `DB5::Row::Clear` (enclave/db/db5.cc:200-202). -/
def clear5 : List Bytes → List Bytes
  | [data] => [zeroOut data]
  | v => v

/-- `DB5::Row` (enclave/db/db5.cc:198-212): the destructor clears; the move constructor leaves that to
the destructor of the source. -/
def row5 : Class := ⟨fun _ => [zeros 32], fun v => v, clear5⟩

/-! ### Events -/

/-- The addresses the allocator and the stack provide: `a`, `a'` for map nodes, `t`, `t'` for locals. -/
structure Where where
  a : Nat
  a' : Nat
  t : Nat
  t' : Nat
deriving DecidableEq, Repr

/-- They are different and not in use. -/
def Where.Free {K : Type} (w : Where) (m : Mem K) : Prop :=
  [w.a, w.a', w.t, w.t'].Nodup ∧ m.Dead w.a ∧ m.Dead w.a' ∧ m.Dead w.t ∧ m.Dead w.t'

/-- A log entry is applied, with the answers of the Merkle tree `path`; a row is received; the database is
destroyed. -/
inductive Ev (L R : Type) where
  | run (path : Bytes → Bool) (log : L)
  | load (row : Option R)
  | drop

/-- Of a found or absent row: create the node if absent, then set the secret fields. -/
def putActs {V : Type} (k : K) (found : Option V) (a : Nat) (v : List Bytes) : List (Act K) :=
  (match found with
   | none => [.emplace k a]
   | some _ => []) ++ [.assign k v]

/-- A local row, moved into the map (`rows_.emplace_hint(rows_.end(), key, std::move(r))`) and then
destroyed. -/
def loadActs (k : K) (t a : Nat) (v : List Bytes) : List (Act K) := [.build k t v, .moveIn k t a, .destroy k t]

/-- Histories of a database together with the memory of its row objects. `next d e d'`: the event takes
the database from `d` to `d'`. -/
inductive Reach {D E : Type} (C : K → Class) (kept : Bool) (next : D → E → D → Prop)
    (does : D → E → Where → List (Act K)) (d0 : D) : D → Mem K → Prop
  | start : Reach C kept next does d0 d0 blank
  | step {d m e d' w} : Reach C kept next does d0 d m → next d e d' → w.Free m →
      Reach C kept next does d0 d' (acts C kept m (does d e w))

end Svr.Wipe

/-! ### `DB2` -/

namespace Svr.Wipe.S2
open Svr.DB2

/-- The secret fields of a row. -/
def fields (r : Row) : List Bytes := [r.data, r.pin]

/-- What `DB2::Run` does with row objects (enclave/db/db2.cc:159-285). `Backup` clears an existing row and
copies into it; the last wrong guess and `Delete` clear with `memset` and erase. -/
def runActs (P : Prims) (path : Bytes → Bool) (db : DB) (log : Log) (w : Where) : List (Act Bytes) :=
  match log.req with
  | .backup data pin _ =>
    match copyInto MAX_DATA_SIZE (zeros MAX_DATA_SIZE) data, copyInto PIN_SIZE (zeros PIN_SIZE) pin with
    | .ok d, .ok p => putActs log.id (db.find log.id) w.a [d, p]
    | _, _ => []
  | .restore pin =>
    match db.find log.id with
    | none => []
    | some row =>
      if row.state ≠ AVAILABLE then []
      else if verify P path log.id row = .ok true ∧ ctEq pin row.pin = false ∧ row.tries - 1 = 0 then
        [.erase log.id true]
      else []
  | .delete =>
    match db.find log.id with
    | none => []
    | some _ => [.erase log.id true]
  | _ => []

/-- What loading a row does (enclave/db/db2.cc:341-357). The row object exists only once all checks have
passed. -/
def loadRowActs (db : DB) (o : Option RowPB) (w : Where) : List (Act Bytes) :=
  match o with
  | none => []
  | some row =>
    if row.tries.toNat > MAX_ALLOWED_MAX_TRIES ∨ row.tries.toNat = 0 ∨ row.pin.length ≠ PIN_SIZE ∨
       row.data.length < MIN_DATA_SIZE ∨ row.data.length > MAX_DATA_SIZE then []
    else if row.id.length ≠ BACKUP_ID_SIZE then []
    else if db.outOfOrder row.id then []
    else loadActs row.id w.t w.a [padTo MAX_DATA_SIZE row.data, row.pin]

/-- The destructor of the map destroys every node (there is no destructor of `DB2` itself). -/
def does (P : Prims) (db : DB) (e : Ev Log RowPB) (w : Where) : List (Act Bytes) :=
  match e with
  | .run path log => runActs P path db log w
  | .load row => loadRowActs db row w
  | .drop => db.list.map (fun p => .erase p.1 false)

def next (P : Prims) (db : DB) (e : Ev Log RowPB) (db' : DB) : Prop :=
  match e with
  | .run path log => ∃ r, run P path db log = .ok (db', r)
  | .load row => ∃ r, loadRow P db row = .ok (db', r)
  | .drop => db' = empty

end Svr.Wipe.S2

/-! ### `DB3` -/

namespace Svr.Wipe.S3
open Svr.DB3

def fields (r : Row) : List Bytes := [r.priv]

/-- What `DB3::Run` does with row objects (enclave/db/db3.cc:260-361). -/
def runActs (P : Prims3) (path : Bytes → Bool) (db : DB) (log : Log) (w : Where) : List (Act Bytes) :=
  match strToArr BACKUP_ID_SIZE log.id with
  | none => []
  | some id =>
    match log.req with
    | .create _ blinded =>
      match strToArr ELEMENT_SIZE blinded, strToArr SCALAR_SIZE log.privkey with
      | some elt, some priv => if (P.mul priv elt).isSome then putActs id (db.find id) w.a [priv] else []
      | _, _ => []
    | .evaluate blinded =>
      match strToArr ELEMENT_SIZE blinded, db.find id with
      | some elt, some row =>
        if verify P path id row ∧ (P.mul row.priv elt).isSome ∧ row.tries - 1 = 0 then [.erase id false] else []
      | _, _ => []
    | .remove =>
      match db.find id with
      | none => []
      | some _ => [.erase id false]
    | _ => []

/-- What loading a row does (enclave/db/db3.cc:180-197). -/
def loadRowActs (db : DB) (o : Option RowPB) (w : Where) : List (Act Bytes) :=
  match o with
  | none => []
  | some row =>
    if row.tries.toNat > MAX_ALLOWED_MAX_TRIES ∨ row.tries.toNat < MIN_ALLOWED_MAX_TRIES then []
    else match strToArr BACKUP_ID_SIZE row.id, strToArr SCALAR_SIZE row.priv with
    | some key, some priv => if db.outOfOrder key then [] else loadActs key w.t w.a [priv]
    | _, _ => []

def does (P : Prims3) (db : DB) (e : Ev Log RowPB) (w : Where) : List (Act Bytes) :=
  match e with
  | .run path log => runActs P path db log w
  | .load row => loadRowActs db row w
  | .drop => db.list.map (fun p => .erase p.1 false)

def next (P : Prims3) (db : DB) (e : Ev Log RowPB) (db' : DB) : Prop :=
  match e with
  | .run path log => ∃ r, run P path db log = .ok (db', r)
  | .load row => ∃ r, loadRow P db row = .ok (db', r)
  | .drop => db' = OMap.empty

end Svr.Wipe.S3

/-! ### `DB4` -/

namespace Svr.Wipe.S4
open Svr.DB4

/-- Nodes of `rows_` and of `rotate_rows_`. -/
inductive Key where
  | row (id : Bytes)
  | rot (id : Bytes)
deriving DecidableEq, Repr

def cls : Key → Class
  | .row _ => row4
  | .rot _ => rot4

def fields (r : Row) : List Bytes := [r.auth, r.oprf, r.enc, r.zero]
def rotFields (x : Rot) : List Bytes := [x.oprfDelta, x.encDelta]

/-- What `DB4::Run` does with row objects (enclave/db/db4.cc:489-820). -/
def runActs (P : Prims4) (path : Bytes → Bool) (db : DB) (log : Log) (w : Where) : List (Act Key) :=
  match strToArr BACKUP_ID_SIZE log.id with
  | none => []
  | some id =>
    match log.req with
    | .create n oprf auth enc zero _ =>
      if db.rows.find id = none ∧ n = 0 then []
      else match copyOver ((db.rows.find id).getD newRow).enc enc with
      | none => []
      | some enc' => putActs (.row id) (db.rows.find id) w.a [auth, oprf, enc', zero] ++ [.erase (.rot id) false]
    | .restore1 _ =>
      match db.rows.find id with
      | none => []
      | some row =>
        if verify P path id row (db.rot.find id) ∧ row.tries - 1 = 0 then
          .erase (.row id) false :: (if (db.rot.find id).isSome then [.erase (.rot id) false] else [])
        else []
    | .remove =>
      match db.rows.find id with
      | none => []
      | some _ => [.erase (.row id) false, .erase (.rot id) false]
    | .rotateStart v od ed =>
      match db.rows.find id, db.rot.find id with
      | some row, none =>
        if v ≠ row.version ∧ verify P path id row none then loadActs (.rot id) w.t w.a [od, ed] else []
      | _, _ => []
    | .rotateCommit v =>
      match db.rows.find id, db.rot.find id with
      | some row, some x =>
        if x.newVersion = v ∧ verify P path id row (some x) then
          [.assign (.row id) [row.auth, P.sadd row.oprf x.oprfDelta, xorB row.enc x.encDelta, row.zero],
           .erase (.rot id) false]
        else []
      | _, _ => []
    | .rotateRollback v =>
      match db.rows.find id, db.rot.find id with
      | some row, some x =>
        if x.newVersion = v ∧ verify P path id row (some x) then [.erase (.rot id) false] else []
      | _, _ => []
    | _ => []

/-- What loading a row does (enclave/db/db4.cc:375-403). `Row r` exists before its fields are checked and
`RotateRow rr` before its: on an error they are destroyed with what they hold by then. `rr` goes out of
scope before `r` is moved. -/
def loadRowActs (P : Prims4) (db : DB) (o : Option RowPB) (w : Where) : List (Act Key) :=
  match o with
  | none => []
  | some x =>
    if x.tries.toNat > MAX_ALLOWED_MAX_TRIES ∨ x.tries.toNat < 1 then []
    else if x.id.length ≠ BACKUP_ID_SIZE then []
    else if db.rows.outOfOrder x.id then []
    else if okPoint P x.auth = false then
      [.build (.row x.id) w.t [x.auth, zeros 32, zeros 32, zeros 32], .destroy (.row x.id) w.t]
    else if okScalar P x.oprf = false then
      [.build (.row x.id) w.t [x.auth, x.oprf, zeros 32, zeros 32], .destroy (.row x.id) w.t]
    else if okScalar P x.zero = false then
      [.build (.row x.id) w.t [x.auth, x.oprf, zeros 32, x.zero], .destroy (.row x.id) w.t]
    else match copyOver (zeros 32) x.enc with
    | none => [.build (.row x.id) w.t [x.auth, x.oprf, zeros 32, x.zero], .destroy (.row x.id) w.t]
    | some enc =>
      if x.newVersion = 0 then loadActs (.row x.id) w.t w.a [x.auth, x.oprf, enc, x.zero]
      else if okScalar P x.oprfDelta = false then
        [.build (.row x.id) w.t [x.auth, x.oprf, enc, x.zero], .build (.rot x.id) w.t' [x.oprfDelta, zeros 32],
         .destroy (.rot x.id) w.t', .destroy (.row x.id) w.t]
      else match copyOver (zeros 32) x.encDelta with
      | none =>
        [.build (.row x.id) w.t [x.auth, x.oprf, enc, x.zero], .build (.rot x.id) w.t' [x.oprfDelta, zeros 32],
         .destroy (.rot x.id) w.t', .destroy (.row x.id) w.t]
      | some ed =>
        .build (.row x.id) w.t [x.auth, x.oprf, enc, x.zero] ::
          (loadActs (.rot x.id) w.t' w.a' [x.oprfDelta, ed] ++
            [.moveIn (.row x.id) w.t w.a, .destroy (.row x.id) w.t])

def does (P : Prims4) (db : DB) (e : Ev Log RowPB) (w : Where) : List (Act Key) :=
  match e with
  | .run path log => runActs P path db log w
  | .load row => loadRowActs P db row w
  | .drop => db.rot.list.map (fun p => .erase (.rot p.1) false) ++ db.rows.list.map (fun p => .erase (.row p.1) false)

def next (P : Prims4) (db : DB) (e : Ev Log RowPB) (db' : DB) : Prop :=
  match e with
  | .run path log => ∃ r, run P path db log = .ok (db', r)
  | .load row => ∃ r, loadRow P db row = .ok (db', r)
  | .drop => db' = empty

end Svr.Wipe.S4

/-! ### `DB5` -/

namespace Svr.Wipe.S5
open Svr.DB5

def fields (r : Row) : List Bytes := [r.data]

/-- What `DB5::Run` does with row objects (enclave/db/db5.cc:131-171). -/
def runActs (db : DB) (log : Log) (w : Where) : List (Act Bytes) :=
  match log.req with
  | .upload d =>
    match copyData ((db.find log.id).getD newRow) d with
    | .ok r => putActs log.id (db.find log.id) w.a [r.data]
    | _ => []
  | .purge =>
    match db.find log.id with
    | none => []
    | some _ => [.erase log.id false]
  | _ => []

/-- What loading a row does (enclave/db/db5.cc:234-246). -/
def loadRowActs (db : DB) (o : Option RowPB) (w : Where) : List (Act Bytes) :=
  match o with
  | none => []
  | some x =>
    if x.data.length ≠ DATA_SIZE then []
    else if x.id.length ≠ BACKUP_ID_SIZE then []
    else if db.outOfOrder x.id then []
    else loadActs x.id w.t w.a [x.data]

def does (db : DB) (e : Ev Log RowPB) (w : Where) : List (Act Bytes) :=
  match e with
  | .run _ log => runActs db log w
  | .load row => loadRowActs db row w
  | .drop => db.list.map (fun p => .erase p.1 false)

def next (P : Prims5) (db : DB) (e : Ev Log RowPB) (db' : DB) : Prop :=
  match e with
  | .run path log => ∃ r, run P path db log = .ok (db', r)
  | .load row => ∃ r, loadRow P db row = .ok (db', r)
  | .drop => db' = empty

end Svr.Wipe.S5
