import Verif.DB4

/-!
# Specification of one SVR4 account

Independent of maps, rows and hashes: one account is its shares, version, remaining tries and possibly
one pending rotation.
-/

namespace Svr.Spec4
open DB4 (Req Resp Effect Status R2State Log Prims4 Rot)

structure Acct where
  auth : Bytes
  oprf : Bytes
  enc : Bytes
  zero : Bytes
  version : UInt32
  left : Nat
  pending : Option Rot
deriving DecidableEq, Repr

/-- The blinded evaluation with one OPRF share, masked by the zero share. -/
def evalShare (G : Prims4) (id blinded oprf zero : Bytes) : Option Bytes := do
  let h ← G.hashToPoint id blinded
  let bp ← G.smul oprf blinded
  let mask ← (if zero = zeros 32 then some (zeros 32) else G.smul zero h : Option Bytes)
  G.padd bp mask

/-- All evaluations of Restore1: the current share, and the rotated one if a rotation is pending. -/
def evalAll (G : Prims4) (id blinded : Bytes) (v : Acct) : Option (List (Bytes × UInt32)) := do
  let e ← evalShare G id blinded v.oprf v.zero
  match v.pending with
  | none => some [(e, v.version)]
  | some p =>
    let e' ← evalShare G id blinded (G.sadd v.oprf p.oprfDelta) v.zero
    some [(e, v.version), (e', p.newVersion)]

/-- What the session remembers for Restore2. -/
def session (v : Acct) (blinded : Bytes) : R2State :=
  match v.pending with
  | none => ⟨v.auth, v.enc, [], v.version.toUInt64, 0, blinded⟩
  | some p => ⟨v.auth, v.enc, List.zipWith (· ^^^ ·) v.enc p.encDelta, v.version.toUInt64, p.newVersion.toUInt64, blinded⟩

/-- The account after its rotation is committed. -/
def rotated (G : Prims4) (v : Acct) (p : Rot) : Acct :=
  { v with oprf := G.sadd v.oprf p.oprfDelta, enc := List.zipWith (· ^^^ ·) v.enc p.encDelta,
           version := p.newVersion, pending := none }

/-- Effect of one log entry on the account it names. -/
def astep (G : Prims4) (o : Option Acct) (l : Log) : Option Acct × Effect :=
  match l.req, o with
  | .create n oprf auth enc zero version, none =>
    if n = 0 then (none, ⟨.create .invalidRequest 0, none⟩)
    else (some ⟨auth, oprf, enc, zero, version, n.toNat, none⟩, ⟨.create .ok n.toNat, none⟩)
  | .create n oprf auth enc zero version, some v =>
    let left := if n = 0 then v.left else n.toNat
    (some ⟨auth, oprf, enc, zero, version, left, none⟩, ⟨.create .ok left, none⟩)
  | .restore1 _, none => (none, ⟨.restore1 .missing [] 0, none⟩)
  | .restore1 b, some v =>
    (if v.left ≤ 1 then none else some { v with left := v.left - 1 },
     match evalAll G l.id b v with
     | none => ⟨.restore1 .error [] (v.left - 1), none⟩
     | some es => ⟨.restore1 .ok es (v.left - 1), some (session v b)⟩)
  | .remove, _ => (none, ⟨.remove, none⟩)
  | .query, none => (none, ⟨.query .missing 0 0 0, none⟩)
  | .query, some v => (some v, ⟨.query .ok v.left v.version (match v.pending with | some p => p.newVersion | none => 0), none⟩)
  | .rotateStart _ _ _, none => (none, ⟨.rotateStart .missing, none⟩)
  | .rotateStart ver od ed, some v =>
    match v.pending with
    | some _ => (some v, ⟨.rotateStart .alreadyRotating, none⟩)
    | none =>
      if ver = v.version then (some v, ⟨.rotateStart .duplicateVersion, none⟩)
      else (some { v with pending := some ⟨ver, od, ed⟩ }, ⟨.rotateStart .ok, none⟩)
  | .rotateCommit _, none => (none, ⟨.rotateCommit .missing, none⟩)
  | .rotateCommit ver, some v =>
    match v.pending with
    | none => (some v, ⟨.rotateCommit .notRotating, none⟩)
    | some p =>
      if p.newVersion = ver then (some (rotated G v p), ⟨.rotateCommit .ok, none⟩)
      else (some v, ⟨.rotateCommit .versionMismatch, none⟩)
  | .rotateRollback _, none => (none, ⟨.rotateRollback .missing, none⟩)
  | .rotateRollback ver, some v =>
    match v.pending with
    | none => (some v, ⟨.rotateRollback .notRotating, none⟩)
    | some p =>
      if p.newVersion = ver then (some { v with pending := none }, ⟨.rotateRollback .ok, none⟩)
      else (some v, ⟨.rotateRollback .versionMismatch, none⟩)
  | .restore2 _ _ _, o => (o, ⟨.restore2 .unset [], none⟩)
  | .unset, o => (o, ⟨.remove, none⟩)

end Svr.Spec4
