import Verif.Wire
import Verif.Core.Apply
import Verif.DB2
import Verif.DB3
import Verif.DB4
import Verif.DB5

/-!
# The wire format of what clients ask for, from the client to the database

Client requests (shared/proto/client.proto, client3.proto, client4.proto, client5.proto), the log messages made of them
(enclave/proto/clientlog.proto), and the way from the bytes of a request to the bytes of a log entry (enclave/core/core.cc:406-441, 772-785).
Fields that are not known are kept when a request is parsed, and written after the others when it is serialized, as the library does.
-/

namespace Svr.Wire

/-! ## Messages without messages in them -/

/-- The last value of field `f`, or `d`. -/
def getNum (f : Nat) (d : Nat) (fs : Fields) : Nat := fs.foldl (fun a x => match x with | (g, .num n) => if g = f then n else a | _ => a) d
def getLen (f : Nat) (d : Bytes) (fs : Fields) : Bytes := fs.foldl (fun a x => match x with | (g, .len b) => if g = f then b else a | _ => a) d
def getFix32 (f : Nat) (d : Bytes) (fs : Fields) : Bytes := fs.foldl (fun a x => match x with | (g, .fix32 b) => if g = f then b else a | _ => a) d
def getFix64 (f : Nat) (d : Bytes) (fs : Fields) : Bytes := fs.foldl (fun a x => match x with | (g, .fix64 b) => if g = f then b else a | _ => a) d

/-- Little endian numbers. -/
def le (k n : Nat) : Bytes := (List.range k).map fun i => UInt8.ofNat (n / 256 ^ i)
def unle (b : Bytes) : Nat := b.foldr (fun x a => x.toNat + 256 * a) 0

def getU32 (f : Nat) (fs : Fields) : UInt32 := UInt32.ofNat (getNum f 0 fs)
def getF32 (f : Nat) (fs : Fields) : UInt32 := UInt32.ofNat (unle (getFix32 f [] fs))
def getF64 (f : Nat) (fs : Fields) : UInt64 := UInt64.ofNat (unle (getFix64 f [] fs))

/-- `uint32`, `fixed32` and `fixed64` fields. -/
def fU32 (f : Nat) (n : UInt32) : Fields := fNum f n.toNat
def fF32 (f : Nat) (n : UInt32) : Fields := if n = 0 then [] else [(f, .fix32 (le 4 n.toNat))]
def fF64 (f : Nat) (n : UInt64) : Fields := if n = 0 then [] else [(f, .fix64 (le 8 n.toNat))]

/-! ## Messages in messages -/

/-- Field `f`, a message: what occurs several times is merged, which is to parse the parts one after the other. -/
def subStep (f : Nat) (acc : Fields) : Nat × Raw → Option Fields
  | (g, .len b) => if g = f then (split true b).map (acc ++ ·) else some acc
  | _ => some acc

def sub (f : Nat) (fs : Fields) : Option Fields := fs.foldlM (subStep f) []

/-- A oneof of messages with these numbers: another member replaces what was there, the same is merged. -/
def oneofStep (known : List Nat) (cur : Option (Nat × Fields)) : Nat × Raw → Option (Option (Nat × Fields))
  | (f, .len b) =>
    if f ∈ known then
      (split true b).map fun fs => some (f, (match cur with | some (g, gs) => if g = f then gs else [] | none => []) ++ fs)
    else some cur
  | _ => some cur

def oneof (known : List Nat) (fs : Fields) : Option (Option (Nat × Fields)) := fs.foldlM (oneofStep known) none

/-- How requests `R` are written: the numbers of the oneof, the fields known in each member, and requests as fields. -/
structure Form (R : Type) where
  known : List Nat
  inner : Nat → Nat × Raw → Bool
  unset : R
  val : Nat → Fields → R
  out : R → Option (Nat × Fields)
  /-- the log message has a third field, for a key -/
  keyed : Bool

/-- Unknown fields of a request: beside the oneof, and in its member. -/
structure Extra where
  top : Fields
  inner : Fields

def isLen : Raw → Bool
  | .len _ => true
  | _ => false

namespace Form
variable {R : Type} (F : Form R)

def topKnown (x : Nat × Raw) : Bool := decide (x.1 ∈ F.known) && isLen x.2

/-- What is unknown, after parsing. -/
def extra (fs : Fields) (cur : Option (Nat × Fields)) : Extra :=
  ⟨fs.filter fun x => !F.topKnown x, match cur with | some (k, gs) => gs.filter fun x => !F.inner k x | none => []⟩

def value : Option (Nat × Fields) → R
  | none => F.unset
  | some (k, gs) => F.val k gs

/-- `ParseFromString` of a request, from its fields. -/
def reqOf (fs : Fields) : Option (R × Extra) := (oneof F.known fs).map fun cur => (F.value cur, F.extra fs cur)

def decReq (b : Bytes) : Option (R × Extra) := (split true b).bind F.reqOf

def reqF (r : R) (x : Extra) : Fields :=
  (match F.out r with
    | some (k, gs) => [(k, .len (enc (gs ++ x.inner)))]
    | none => []) ++ x.top

end Form

/-- `Log2`, `Log3`, `Log4`, `Log5` (enclave/proto/clientlog.proto:15-39); the key is that of `Log3`. -/
structure Logged (R : Type) where
  id : Bytes
  req : R
  key : Bytes
deriving DecidableEq

namespace Form
variable {R : Type} (F : Form R)

def logF (l : Logged R) (x : Extra) : Fields := fBytes 1 l.id ++ [(2, .len (enc (F.reqF l.req x)))] ++ if F.keyed then fBytes 3 l.key else []

/-- `SerializeToString` of a log message made with `MergeFrom` of a request that has unknown fields `x`. -/
def encLog (l : Logged R) (x : Extra) : Bytes := enc (F.logF l x)

/-- `ParseFromString` of a log message. -/
def decLog (b : Bytes) : Option (Logged R) :=
  (split true b).bind fun fs => (sub 2 fs).bind fun rs => (F.reqOf rs).map fun r =>
    ⟨getLen 1 [] fs, r.1, if F.keyed then getLen 3 [] fs else []⟩

/-- From the bytes of a request to those of a log entry: `HandleExistingClient` after decryption and without `ResponseFromRequest`
(enclave/core/core.cc:406-441). `logFrom` is `LogFromRequest`, `valid` is `ValidateClientLog`. -/
def submit (logFrom : Bytes → R → Option (Logged R)) (valid : Logged R → Bool) (id b : Bytes) : Option Bytes :=
  (F.decReq b).bind fun r => (logFrom id r.1).bind fun l => if valid l then some (F.encLog l r.2) else none

/-- `HandleHostDatabaseRequest` (enclave/core/core.cc:772-785), which does not validate. -/
def hostSubmit (logFrom : Bytes → R → Option (Logged R)) (id b : Bytes) : Option Bytes :=
  (F.decReq b).bind fun r => (logFrom id r.1).bind fun l => some (F.encLog l r.2)

end Form

/-! ## The requests -/

/-- `Request` (shared/proto/client.proto:25-33, 49-53, 68-70, 90-91, 100-102, 123-124). -/
def form2 : Form DB2.Req where
  known := [2, 3, 4, 5, 6]
  inner := fun k x => match k, x with
    | 2, (1, .len _) => true | 2, (2, .len _) => true | 2, (3, .num _) => true
    | 3, (1, .len _) => true
    | 5, (1, .len _) => true
    | _, _ => false
  unset := .unset
  val := fun k gs =>
    if k = 2 then .backup (getLen 1 [] gs) (getLen 2 [] gs) (getU32 3 gs)
    else if k = 3 then .restore (getLen 1 [] gs)
    else if k = 4 then .delete
    else if k = 5 then .expose (getLen 1 [] gs)
    else .tries
  out := fun
    | .backup d p m => some (2, fBytes 1 d ++ fBytes 2 p ++ fU32 3 m)
    | .restore p => some (3, fBytes 1 p)
    | .delete => some (4, [])
    | .expose d => some (5, fBytes 1 d)
    | .tries => some (6, [])
    | .unset => none
  keyed := false

/-- `Request3` (shared/proto/client3.proto:12-19, 34-37, 54-56, 75-76, 84-85). -/
def form3 : Form DB3.Req where
  known := [1, 2, 3, 4]
  inner := fun k x => match k, x with
    | 1, (1, .num _) => true | 1, (2, .len _) => true
    | 2, (1, .len _) => true
    | _, _ => false
  unset := .unset
  val := fun k gs =>
    if k = 1 then .create (getU32 1 gs) (getLen 2 [] gs)
    else if k = 2 then .evaluate (getLen 1 [] gs)
    else if k = 3 then .remove
    else .query
  out := fun
    | .create m b => some (1, fU32 1 m ++ fBytes 2 b)
    | .evaluate b => some (2, fBytes 1 b)
    | .remove => some (3, [])
    | .query => some (4, [])
    | .unset => none
  keyed := true

/-- `Request4` (shared/proto/client4.proto:12-55). -/
def form4 : Form DB4.Req where
  known := [1, 2, 3, 4, 5, 6, 7, 8]
  inner := fun k x => match k, x with
    | 1, (1, .num _) => true | 1, (2, .len _) => true | 1, (3, .len _) => true | 1, (4, .len _) => true | 1, (5, .len _) => true
    | 1, (6, .fix32 _) => true
    | 2, (1, .len _) => true
    | 3, (1, .len _) => true | 3, (2, .len _) => true | 3, (3, .fix32 _) => true
    | 6, (1, .fix32 _) => true | 6, (2, .len _) => true | 6, (3, .len _) => true
    | 7, (1, .fix32 _) => true
    | 8, (1, .fix32 _) => true
    | _, _ => false
  unset := .unset
  val := fun k gs =>
    if k = 1 then .create (getU32 1 gs) (getLen 2 [] gs) (getLen 3 [] gs) (getLen 4 [] gs) (getLen 5 [] gs) (getF32 6 gs)
    else if k = 2 then .restore1 (getLen 1 [] gs)
    else if k = 3 then .restore2 (getLen 1 [] gs) (getLen 2 [] gs) (getF32 3 gs)
    else if k = 4 then .remove
    else if k = 5 then .query
    else if k = 6 then .rotateStart (getF32 1 gs) (getLen 2 [] gs) (getLen 3 [] gs)
    else if k = 7 then .rotateCommit (getF32 1 gs)
    else .rotateRollback (getF32 1 gs)
  out := fun
    | .create m o a e z v => some (1, fU32 1 m ++ fBytes 2 o ++ fBytes 3 a ++ fBytes 4 e ++ fBytes 5 z ++ fF32 6 v)
    | .restore1 b => some (2, fBytes 1 b)
    | .restore2 p s v => some (3, fBytes 1 p ++ fBytes 2 s ++ fF32 3 v)
    | .remove => some (4, [])
    | .query => some (5, [])
    | .rotateStart v o e => some (6, fF32 1 v ++ fBytes 2 o ++ fBytes 3 e)
    | .rotateCommit v => some (7, fF32 1 v)
    | .rotateRollback v => some (8, fF32 1 v)
    | .unset => none
  keyed := false

/-- `Request5` (shared/proto/client5.proto:12-27). -/
def form5 : Form DB5.Req where
  known := [1, 2, 3]
  inner := fun k x => match k, x with
    | 1, (1, .len _) => true
    | 2, (1, .len _) => true
    | _, _ => false
  unset := .unset
  val := fun k gs =>
    if k = 1 then .upload (getLen 1 [] gs)
    else if k = 2 then .download (getLen 1 [] gs)
    else .purge
  out := fun
    | .upload d => some (1, fBytes 1 d)
    | .download p => some (2, fBytes 1 p)
    | .purge => some (3, [])
    | .unset => none
  keyed := false

/-! ## The rows -/

/-- `DB2RowState` (enclave/proto/e2e.proto:85-96); the state is an enum, whose negative numbers are sign extended. -/
def rowF2 (x : DB2.RowPB) : Fields :=
  fBytes 1 x.id ++ fU32 2 x.tries ++ fBytes 3 x.data ++ fBytes 4 x.pin ++
    fNum 5 (if x.state.toNat < 2 ^ 31 then x.state.toNat else x.state.toNat + (2 ^ 64 - 2 ^ 32))

/-- `DB3RowState` (enclave/proto/e2e.proto:98-102). -/
def rowF3 (x : DB3.RowPB) : Fields := fBytes 1 x.id ++ fBytes 2 x.priv ++ fU32 3 x.tries

/-- `DB4RowState` (enclave/proto/e2e.proto:104-117). -/
def rowF4 (x : DB4.RowPB) : Fields :=
  fBytes 1 x.id ++ fU32 2 x.tries ++ fBytes 3 x.oprf ++ fBytes 4 x.auth ++ fBytes 5 x.enc ++ fBytes 6 x.zero ++ fBytes 7 x.oprfDelta ++
    fBytes 8 x.encDelta ++ fF64 9 x.version ++ fF64 10 x.newVersion

/-- `DB5RowState` (enclave/proto/e2e.proto:119-122). -/
def rowF5 (x : DB5.RowPB) : Fields := fBytes 1 x.id ++ fBytes 2 x.data

def decRow2 (b : Bytes) : Option DB2.RowPB := (split true b).map fun fs =>
  ⟨getLen 1 [] fs, getU32 2 fs, getLen 3 [] fs, getLen 4 [] fs, getU32 5 fs⟩

def decRow3 (b : Bytes) : Option DB3.RowPB := (split true b).map fun fs => ⟨getLen 1 [] fs, getLen 2 [] fs, getU32 3 fs⟩

def decRow4 (b : Bytes) : Option DB4.RowPB := (split true b).map fun fs =>
  ⟨getLen 1 [] fs, getU32 2 fs, getLen 3 [] fs, getLen 4 [] fs, getLen 5 [] fs, getLen 6 [] fs, getLen 7 [] fs, getLen 8 [] fs, getF64 9 fs, getF64 10 fs⟩

def decRow5 (b : Bytes) : Option DB5.RowPB := (split true b).map fun fs => ⟨getLen 1 [] fs, getLen 2 [] fs⟩

end Svr.Wire
